import Verif.Model.Lines
/-
Model of the syntax trees (src/ast/mod.rs lines 21-42, 194-321), of the expression parser
(src/parsers/ast/mod.rs) and of the recipe line parser (src/parsers/recipe_line.rs).
-/
namespace Hastur

open Res

/-- `AstNode` with its `AstChildren` (src/ast/mod.rs lines 21-26, 194-230).  The source location and
the children are merged into one constructor. -/
inductive Ast where
  | empty (loc : Location)
  | constant (loc : Location) (s : LStr)
  | preEvaluated (loc : Location) (b : Block)
  | concat (loc : Location) (children : List Ast)
  | varRef (loc : Location) (name : Ast)
  | eval (loc : Location) (arg : Ast)
  | strip (loc : Location) (arg : Ast)
  | word (loc : Location) (index words : Ast)
  | words (loc : Location) (arg : Ast)

namespace Ast

/-- `AstNode::location` (src/ast/mod.rs lines 29-32). -/
def location : Ast → Location
  | .empty l => l
  | .constant l _ => l
  | .preEvaluated l _ => l
  | .concat l _ => l
  | .varRef l _ => l
  | .eval l _ => l
  | .strip l _ => l
  | .word l _ _ => l
  | .words l _ => l

/-- `children == AstChildren::Empty` (src/ast/mod.rs line 267). -/
def isEmpty : Ast → Bool
  | .empty _ => true
  | _ => false

/-- `ast::empty` (src/ast/mod.rs lines 232-239). -/
def mkEmpty : Ast := .empty .synthetic

/-- `ast::constant` (src/ast/mod.rs lines 241-249). -/
def mkConstant (s : LStr) : Ast := .constant s.loc s

/-- `ast::collapsing_concat` (src/ast/mod.rs lines 260-276). -/
def collapsingConcat (loc : Location) (v : List Ast) : Ast :=
  match v.filter (fun a => !a.isEmpty) with
  | [a] => a
  | v => .concat loc v

end Ast

/-! ### Expression parser -/

/-- The scan for the balancing bracket in `advanced_var` (src/parsers/ast/mod.rs lines 102-120):
the index of the bracket that closes the reference. -/
def balance (open_ close : Char) : Nat → List (Nat × Char) → Option Nat
  | _, [] => none
  | count, (idx, c) :: rest =>
    if c = open_ then balance open_ close (count + 1) rest
    else if c = close then
      if count = 1 then some idx else balance open_ close (count - 1) rest
    else balance open_ close count rest

/-- What the scan of `function_argument` finds (src/parsers/ast/mod.rs lines 190-223). -/
inductive ArgScan
  | unbalanced
  | comma (idx : Nat)
  | toEnd
  deriving DecidableEq, Repr

/-- The scan of `function_argument` (src/parsers/ast/mod.rs lines 190-221). -/
def argScan : (paren curly : Nat) → List (Nat × Char) → ArgScan
  | _, _, [] => .toEnd
  | paren, curly, (j, c) :: rest =>
    if c = '(' then argScan (paren + 1) curly rest
    else if c = ')' then
      if 0 < paren then argScan (paren - 1) curly rest else .unbalanced
    else if c = '{' then argScan paren (curly + 1) rest
    else if c = '}' then
      if 0 < curly then argScan paren (curly - 1) rest else .unbalanced
    else if c = ',' then
      if curly = 0 ∧ paren = 0 then .comma j else argScan paren curly rest
    else argScan paren curly rest

/-- `function_argument` (src/parsers/ast/mod.rs lines 182-224): (rest, argument). -/
def functionArgument (i : Span) : PRes Span :=
  (Nom.many0 whitespace i).andThen fun i _ =>
    match argScan 0 0 (Span.withIndices 0 i.chars.items) with
    | .unbalanced => failOut .unterminatedVariable
    | .comma j => do
      let (r, a) ← i.takeSplit j
      done r a
    | .toEnd =>
      if i.chars.crash then .panic .underflow
      else do
        let (r, a) ← i.takeSplit i.length
        done r a

/-- The parsers in this section take the recursive call `parse_ast` as an argument. (src/parsers/ast/mod.rs line
13 is the function.) -/
abbrev AstParser := Span → Res (IRes Ast)

/-- `eval` (src/parsers/ast/mod.rs lines 226-233). -/
def fnEval (parse : AstParser) (loc : Location) (i : Span) : PRes Ast :=
  (parse i).andThen fun i args => done i (.eval loc args)

/-- `strip` (src/parsers/ast/mod.rs lines 235-247). -/
def fnStrip (parse : AstParser) (loc : Location) (i : Span) : PRes Ast :=
  (functionArgument i).andThen fun i arg =>
    if i.length ≠ 0 then failOut (.extraArguments "strip".toList)
    else (parse arg).andThen fun _ a => done i (.strip loc a)

/-- `words` (src/parsers/ast/mod.rs lines 249-261). -/
def fnWords (parse : AstParser) (loc : Location) (i : Span) : PRes Ast :=
  (functionArgument i).andThen fun i arg =>
    if i.length ≠ 0 then failOut (.extraArguments "words".toList)
    else (parse arg).andThen fun _ a => done i (.words loc a)

/-- `word` (src/parsers/ast/mod.rs lines 263-281). -/
def fnWord (parse : AstParser) (loc : Location) (i : Span) : PRes Ast :=
  (functionArgument i).andThen fun i index =>
    Nom.char ',' i >>= fun
    | .err _ => failOut (.insufficientArguments "word".toList)
    | .done i _ =>
      (parse index).andThen fun _ index =>
      (functionArgument i).andThen fun i list =>
        if i.length ≠ 0 then failOut (.extraArguments "word".toList)
        else (parse list).andThen fun _ list => done i (.word loc index list)

/-- One `func_entry!` (src/parsers/ast/mod.rs lines 158-170). -/
def funcEntry (name : Str) (f : Span → PRes Ast) (i : Span) : PRes Ast :=
  (Nom.tag name i).andThen fun i _ =>
  (Nom.many1 whitespace i).andThen fun i _ => f i

/-- The failure `no_such_function` reports (src/parsers/ast/mod.rs lines 151-156). -/
def notAFunctionCall : ParseErrorKind := .internalFailure "not a function call".toList

/-- `function_call` (src/parsers/ast/mod.rs lines 146-180). -/
def functionCall (parse : AstParser) (loc : Location) (i : Span) : PRes Ast :=
  orElse (funcEntry "eval".toList (fnEval parse loc) i) <|
  orElse (funcEntry "strip".toList (fnStrip parse loc) i) <|
  orElse (funcEntry "words".toList (fnWords parse loc) i) <|
  orElse (funcEntry "word".toList (fnWord parse loc) i) <|
  failOut notAFunctionCall

/-- `advanced_var` (src/parsers/ast/mod.rs lines 95-144). -/
def advancedVar (parse : AstParser) (loc : Location) (open_ close : Char) (i : Span) : PRes Ast :=
  match balance open_ close 1 (Span.withIndices 0 i.chars.items) with
  | none => if i.chars.crash then .panic .underflow else failOut .unterminatedVariable
  | some splitIdx => do
    let (i, name) ← i.takeSplit (splitIdx + 1)
    let n ← usub name.length 1
    let name := name.sliceTo n
    functionCall parse loc name >>= fun
    | .err (.failure k) =>
      if k = .custom notAFunctionCall then
        (parse name).andThen fun _ a => done i (.varRef loc a)
      else .ok (.err (.failure k))
    | r => .ok r

/-- The constant parsed from the first segment of a span: `l.segments().next().unwrap().into()`
(src/parsers/ast/mod.rs lines 78-79, 90). -/
def firstConstant (l : Span) : Res Ast := do
  let seg ← l.firstSegment
  let seg ← runwrap seg
  return Ast.mkConstant seg

/-- `parse_var_ref` (src/parsers/ast/mod.rs lines 60-93).  The brace alternative tests for `}`, as
the code does on line 85. -/
def parseVarRef (parse : AstParser) (loc : Location) (i : Span) : PRes Ast :=
  orElse ((Nom.eof i).mapP fun _ => Ast.mkConstant ⟨loc, ['$']⟩) <|
  orElse ((Nom.tag ['$'] i).andThen fun i l => do
      let a ← firstConstant l
      done i a) <|
  orElse ((Nom.char '(' i).andThen fun i _ => advancedVar parse loc '(' ')' i) <|
  orElse ((Nom.char '}' i).andThen fun i _ => advancedVar parse loc '{' '}' i) <|
  (Nom.take 1 i).andThen fun i l => do
      let a ← firstConstant l
      done i (.varRef loc a)

/-- The loop of `parse_ast` (src/parsers/ast/mod.rs lines 24-52).  The first argument bounds the
number of rounds; `parseAstF` passes the length of the input. -/
def parseAstLoop (parse : AstParser) : Nat → Span → List Ast → PRes (List Ast)
  | 0, _, _ => .fuel
  | n + 1, i, acc =>
    if i.length > 0 then
      (orElse ((Nom.takeUntil ['$'] i).andThen fun r start =>
          (Nom.tag ['$'] r).andThen fun r dollar => do
            let loc ← dollar.location
            let loc ← runwrap loc
            done r (start, some loc)) <|
        (Nom.rest i).mapP fun l => (l, none)).andThen fun i (untilDollar, dollar) => do
      let segs ← untilDollar.allSegments
      let acc := acc ++ segs.map Ast.mkConstant
      match dollar with
      | none => done i acc
      | some loc =>
        (parseVarRef parse loc i).andThen fun i child => parseAstLoop parse n i (acc ++ [child])
    else done i acc

/-- `parse_ast` (src/parsers/ast/mod.rs lines 13-58).  The first argument bounds the nesting depth;
`parseAst` passes the length of the input. -/
def parseAstF : Nat → Span → PRes Ast
  | 0, _ => .fuel
  | n + 1, i => do
    match ← i.location with
    | none => done i Ast.mkEmpty
    | some start =>
      (parseAstLoop (parseAstF n) (i.length + 1) i []).mapP fun nodes =>
        Ast.collapsingConcat start nodes

/-- `parse_ast` (src/parsers/ast/mod.rs lines 13-58). -/
def parseAst (i : Span) : PRes Ast := parseAstF (i.length + 1) i

/-! ### Recipe lines -/

/-- `grab_command_line!` (src/parsers/recipe_line.rs lines 16-24). -/
def grabCommandLine (commandChar : Char) (i : Span) : PRes (Span × LineEnd) :=
  (Nom.char commandChar i).andThen fun i _ => grabLine i

/-- The loop of `recipe_line` (src/parsers/recipe_line.rs lines 43-67).  The first argument bounds
the number of lines; `recipeLine` passes the length of the input. -/
def recipeLoop (commandChar : Char) : Nat → (i : Span) → (line : Block) → PRes Ast
  | 0, _, _ => .fuel
  | n + 1, i, line => do
    let backslashes ← endsWithBackslash line.span
    if backslashes % 2 = 1 then do
      let line := line.push CRef.newline
      match ← grabCommandLine commandChar i with
      | .done i (next, reason) => do
        let c ← next.toContentReference
        let line := line.push c
        if reason = .comment then (parseAst line.span).andThen fun _ ast => done i ast
        else recipeLoop commandChar n i line
      | .err _ => (parseAst line.span).andThen fun _ ast => done i ast
    else (parseAst line.span).andThen fun _ ast => done i ast

/-- `recipe_line` (src/parsers/recipe_line.rs lines 11-68). -/
def recipeLine (commandChar : Char) (i : Span) : PRes Ast :=
  (grabCommandLine commandChar i).andThen fun i (line, reason) =>
    if reason = .comment then (parseAst line).andThen fun _ ast => done i ast
    else do
      let b ← line.toNewBlock
      recipeLoop commandChar (i.length + 1) i b

end Hastur
