import Verif.Model.Variable
/-
Model of conditionals (src/parsers/conditional/mod.rs).
-/
namespace Hastur

open Res

/-- `Conditional` (src/parsers/conditional/mod.rs lines 15-23). -/
inductive Conditional
  | ifDef (a : Ast)
  | ifNDef (a : Ast)
  | ifEq (a b : Ast)
  | ifNEq (a b : Ast)
  | else_ (followup : Option Conditional)
  | endIf

/-- `ConditionalType` (src/parsers/conditional/mod.rs lines 124-132). -/
inductive CondType
  | ifDef
  | ifNDef
  | ifEq
  | ifNEq
  | else_
  | endIf
  deriving DecidableEq, Repr

/-- The keyword match of `parse_line_internal` (src/parsers/conditional/mod.rs lines 133-153). -/
def condKeyword (i : Span) : PRes CondType :=
  (whitespace i).andThen fun i _ =>
  (orElse ((Nom.tagNoCase "ifdef".toList i).mapP fun _ => CondType.ifDef) <|
   orElse ((Nom.tagNoCase "ifndef".toList i).mapP fun _ => CondType.ifNDef) <|
   orElse ((Nom.tagNoCase "ifeq".toList i).mapP fun _ => CondType.ifEq) <|
   orElse ((Nom.tagNoCase "ifneq".toList i).mapP fun _ => CondType.ifNEq) <|
   orElse ((Nom.tagNoCase "else".toList i).mapP fun _ => CondType.else_) <|
   (Nom.tagNoCase "endif".toList i).mapP fun _ => CondType.endIf).andThen fun i t =>
  (whitespace i).andThen fun i _ => done i t

/-- The scan of `take_till_terminator` for `,` and `)` (src/parsers/conditional/mod.rs lines 212-226). -/
def ifeqScan (terminator : Char) : Int → List (Nat × Char) → Option Nat
  | _, [] => none
  | count, (idx, c) :: rest =>
    if c = '(' then ifeqScan terminator (count + 1) rest
    else if c = ')' then
      if c = terminator ∧ count - 1 < 0 then some idx else ifeqScan terminator (count - 1) rest
    else if c = terminator ∧ count ≤ 0 then some idx
    else ifeqScan terminator count rest

/-- `take_till_terminator` (src/parsers/conditional/mod.rs lines 206-252): (rest, argument). -/
def takeTillTerminator (terminator : Char) (line : Span) : PRes Span :=
  if terminator = ',' ∨ terminator = ')' then
    match ifeqScan terminator 0 (Span.withIndices 0 line.chars.items) with
    | some idx => do
      let res := line.sliceTo idx
      let line ← line.sliceFrom idx
      (Nom.char terminator line).andThen fun line _ => done line res
    | none => if line.chars.crash then .panic .underflow else errorOut .badIfEqSeparator
  else
    (Nom.takeTill (· == terminator) line).andThen fun line res =>
    (Nom.char terminator line).andThen fun line _ => done line res

/-- `parse_ifeq` (src/parsers/conditional/mod.rs lines 202-290). -/
def parseIfeq (line : Span) : PRes (Ast × Ast) :=
  (orElse ((Nom.char '(' line).mapP fun _ => ',') <|
   orElse ((Nom.char '"' line).mapP fun _ => '"') <|
   (Nom.char '\'' line).mapP fun _ => '\'').andThen fun line terminator =>
  (takeTillTerminator terminator line).andThen fun line arg1 =>
  (parseAst arg1).andThen fun _ arg1 =>
  (whitespace line).andThen fun line _ =>
  (if terminator = ',' then done line ')'
   else
    orElse ((Nom.char '"' line).mapP fun _ => '"') <|
    (Nom.char '\'' line).mapP fun _ => '\'').andThen fun line terminator =>
  (takeTillTerminator terminator line).andThen fun line arg2 =>
  (parseAst arg2).andThen fun _ arg2 => done line (arg1, arg2)

/-- `parse_line_internal` and `parse_else` (src/parsers/conditional/mod.rs lines 119-200, 292-326).
The first argument bounds the number of nested `else`; a nested conditional of an `else` is rejected
unless it is an `if`, so two levels would do, and `parseConditionalLine` passes the input length. -/
def parseCondF : Nat → Span → PRes Conditional
  | 0, _ => .fuel
  | n + 1, i =>
    (condKeyword i).andThen fun i t =>
    match t with
    | .ifDef => (returnError (parseAst i)).mapP fun a => .ifDef a
    | .ifNDef => (returnError (parseAst i)).mapP fun a => .ifNDef a
    | .ifEq => (parseIfeq i).mapP fun ab => .ifEq ab.1 ab.2
    | .ifNEq => (parseIfeq i).mapP fun ab => .ifNEq ab.1 ab.2
    | .else_ =>
      (whitespace i).andThen fun i _ =>
        if i.length > 0 then
          (returnError (parseCondF n i)).andThen fun i c =>
            match c with
            | .else_ _ => failOut (.extraTokensAfter "else".toList)
            | .endIf => failOut (.extraTokensAfter "else".toList)
            | c => done i (.else_ (some c))
        else done i (.else_ none)
    | .endIf => if i.length > 0 then failOut (.extraTokensAfter "endif".toList) else done i .endIf

/-- `conditional::parse_line` (src/parsers/conditional/mod.rs lines 105-117). -/
def parseConditionalLine (i : Span) : PRes Conditional := parseCondF (i.length + 1) i

/-- Result of a handler: `Result<(), ParseErrorKind>` with the states. (src/parsers/mod.rs lines 127-150.) -/
abbrev Handled := Except ParseErrorKind Unit × PState × St

/-- The `ifeq`/`ifneq` arm of `handle_conditional` (src/parsers/conditional/mod.rs lines 45-72). -/
def handleIfeq (r : Rec) (p : PState) (st : St) (a b : Ast) (inverted : Bool) : Res Handled := do
  let (a, st) ← r.eval a st
  let (b, st) ← r.eval b st
  let a ← a.intoString
  let b ← b.intoString
  let executing := (trim a == trim b) != inverted
  return (.ok (), PState.updateIgnoring { p with conditionals := p.conditionals ++ [⟨executing, false⟩] }, st)

/-- `handle_conditional` (src/parsers/conditional/mod.rs lines 35-103).  As in the code, `endif` pops
the innermost conditional without recomputing `ignoring` (lines 92-99). -/
def handleConditional (r : Rec) (p : PState) (st : St) : Conditional → Res Handled
  | .ifEq a b => handleIfeq r p st a b false
  | .ifNEq a b => handleIfeq r p st a b true
  | .else_ none =>
    match p.conditionals.getLast? with
    | none => .ok (.error .unattachedElse, p, st)
    | some top =>
      if top.seenElse then .ok (.error .tooManyElses, p, st)
      else .ok (.ok (), PState.updateIgnoring { p with conditionals :=
          p.conditionals.dropLast ++ [⟨!top.executing, true⟩] }, st)
  | .else_ (some _) => .panic .unimplemented
  | .endIf =>
    if p.conditionals.length = 0 then .ok (.error .unattachedEndIf, p, st)
    else .ok (.ok (), { p with conditionals := p.conditionals.dropLast }, st)
  | .ifDef _ => .panic .unimplemented
  | .ifNDef _ => .panic .unimplemented

end Hastur
