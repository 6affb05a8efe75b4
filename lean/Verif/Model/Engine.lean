import Verif.Model.Conditional
import Verif.Model.Targets
/-
Model of directives (src/parsers/directives/mod.rs), of the line dispatcher
(src/parsers/mod.rs lines 116-254) and of the engine (src/lib.rs lines 503-593).
-/
namespace Hastur

open Res

/-- What opening and reading a file gives.  Simplified: the file system does not change while makefiles
are read, and error kinds are not distinguished. (src/parsers/directives/mod.rs line 70, src/lib.rs line 534.) -/
inductive FsEntry
  /-- `File::open` fails -/
  | missing
  /-- `File::open` works but `read_to_string` fails -/
  | unreadable
  | text (s : Str)
  deriving DecidableEq, Repr

/-- The file system seen from the working directory. (src/parsers/directives/mod.rs line 70.) -/
abbrev Fs := Str → FsEntry

/-- `Action` of a directive (src/parsers/directives/mod.rs lines 8-27). -/
inductive Directive
  | include_ (a : Ast)
  | softInclude (a : Ast)
  | export_ (a : Ast)
  | unexport (a : Ast)
  | vpath (a : Ast)
  | load (a : Ast)
  | softLoad (a : Ast)

/-- `directives::parse_line` (src/parsers/directives/mod.rs lines 96-110). -/
def parseDirectiveLine (i : Span) : PRes Directive :=
  let entry (name : String) (f : Ast → Directive) : PRes Directive :=
    (Nom.tagNoCase name.toList i).andThen fun i _ => (parseAst i).mapP f
  orElse (entry "export" .export_) <|
  orElse (entry "unexport" .unexport) <|
  orElse (entry "vpath" .vpath) <|
  orElse (entry "include" .include_) <|
  orElse (entry "sinclude" .softInclude) <|
  orElse (entry "-include" .softInclude) <|
  orElse (entry "load" .load) <|
  entry "-load" .softLoad

/-- The text of a file as a block (src/lib.rs lines 535-548). -/
def fileBlock (file : FileName) (text : Str) : Res Block :=
  Block.new [] [CRef.ofNode (.constant ⟨.source 1 1 file, text⟩)]

/-- `Engine::read_makefile` (src/lib.rs lines 524-555) on the given file content. -/
def readMakefile (r : Rec) (content : FsEntry) (name : Str) (st : St) :
    Res (Except MakefileError Unit × St) :=
  match content with
  | .text s => do
    let (f, names) := st.names.internFile name
    let b ← fileBlock f s
    r.processBlock b { st with names := names }
  | _ => .ok (.error .ioError, st)

/-- The file loop of `handle_include` (src/parsers/directives/mod.rs lines 63-92). -/
def includeLoop (fs : Fs) (r : Rec) (soft : Bool) : List Block → St → Res (Except ParseErrorKind Unit × St)
  | [], st => .ok (.ok (), st)
  | f :: rest, st => do
    let name ← f.intoString
    match fs name with
    | .missing =>
      if soft then includeLoop fs r soft rest st
      else return (.error (.includeFailure name), st)
    | content => do
      let (res, st) ← readMakefile r content name st
      match res with
      | .ok () => includeLoop fs r soft rest st
      | .error .ioError => return (.error (.includeFailure name), st)
      | .error (.parseError k) => return (.error k, st)

/-- `handle_include` (src/parsers/directives/mod.rs lines 43-93). -/
def handleInclude (fs : Fs) (r : Rec) (soft : Bool) (a : Ast) (st : St) :
    Res (Except ParseErrorKind Unit × St) := do
  let (b, st) ← r.eval a st
  let files ← parseFileSeq [] b.span
  includeLoop fs r soft files st

/-- `handle_directive_action` (src/parsers/directives/mod.rs lines 29-41). -/
def handleDirective (fs : Fs) (r : Rec) (d : Directive) (st : St) :
    Res (Except ParseErrorKind Unit × St) :=
  match d with
  | .include_ a => handleInclude fs r false a st
  | .softInclude a => handleInclude fs r true a st
  | _ => .panic .unimplemented

/-- Outcome of feeding one line: the nom result with the states. (The result of `parse_line`, src/parsers/mod.rs
lines 116-300.) -/
abbrev LineOut := IRes Unit × PState × St

/-- A handler's result as the result of the line: `Ok((i, ()))` or `fail_out(line_start, e)`
(the `run_parser!` and `run_line_parser!` macros, src/parsers/mod.rs lines 127-150, 183-206). -/
def lineResult (i : Span) : Handled → LineOut
  | (.ok (), p, st) => (.done i (), p, st)
  | (.error k, p, st) => (.err (.failure (.custom k)), p, st)

/-- Lines 223-253 of `ParserState::parse_line` (src/parsers/mod.rs): variable lines, directives and
target lines, on a collapsed line. -/
def parseStatement (fs : Fs) (r : Rec) (p : PState) (st : St) (i : Span) (line : Block) : Res LineOut := do
  let (var, st) ← parseVariableLine r line.span st
  match var with
  | .err (.failure k) => return (.err (.failure k), p, st)
  | .done _ action => do
    let (p, st) ← p.closeRule st
    let (p, st) ← handleVariableAction p st action
    return (.done i (), p, st)
  | .err (.error _) => do
    match ← parseDirectiveLine line.span with
    | .err (.failure k) => return (.err (.failure k), p, st)
    | .done _ d => do
      let (p, st) ← p.closeRule st
      let (res, st) ← handleDirective fs r d st
      return lineResult i (res, p, st)
    | .err (.error _) => do
      let c ← Nom.firstChar line.span
      if c = some st.commandChar then return (.err (.failure (.custom .recipeExpected)), p, st)
      else do
        let (target, st) ← parseTargetLine r line.span st
        match target with
        | .err (.failure k) => return (.err (.failure k), p, st)
        | .done _ action => do
          let (p, st) ← p.closeRule st
          let p ← handleTargetAction p action
          return (.done i (), p, st)
        | .err (.error _) => return (.done i (), p, st)

/-- Lines 178-221 of `ParserState::parse_line` (src/parsers/mod.rs): collapse continuations, then
conditionals, then (unless ignoring) the other kinds of line. -/
def parseCollapsed (fs : Fs) (r : Rec) (p : PState) (st : St) (i : Span) : Res LineOut := do
  match ← makefileLine i .gnu true with
  | .err e => return (.err e, p, st)
  | .done i line =>
    if line.len = 0 then return (.done i (), p, st)
    else do
      match ← parseConditionalLine line.span with
      | .err (.failure k) => return (.err (.failure k), p, st)
      | .done _ c => do
        let h ← handleConditional r p st c
        return lineResult i h
      | .err (.error _) =>
        if p.ignoring then return (.done i (), p, st)
        else parseStatement fs r p st i line

/-- `ParserState::parse_line` (src/parsers/mod.rs lines 116-254). -/
def parseLine (fs : Fs) (r : Rec) (p : PState) (st : St) (i : Span) : Res LineOut := do
  match ← parseCommentFollowingWhitespace i with
  | .done i _ => return (.done i (), p, st)
  | .err (.failure k) => return (.err (.failure k), p, st)
  | .err (.error _) =>
    if p.currentRule.isSome then do
      match ← recipeLine st.commandChar i with
      | .done i line => do
        let p ← p.pushCommandLine line
        return (.done i (), p, st)
      | .err (.failure k) => return (.err (.failure k), p, st)
      | .err (.error _) => parseCollapsed fs r p st i
    else if p.currentDefine.isSome then do
      match ← parseDefineLine i with
      | .done i l => do
        let (p, st) ← handleDefineLine p st l
        return (.done i (), p, st)
      | .err (.failure k) => return (.err (.failure k), p, st)
      | .err (.error _) => .panic .explicit
    else parseCollapsed fs r p st i

/-- The line loop of `process_block` (src/lib.rs lines 580-591): every error of `parse_line` is an
`unimplemented!`.  The first argument bounds the number of lines. -/
def processLoop (fs : Fs) (r : Rec) : Nat → Span → PState → St → Res (Except MakefileError Unit × St)
  | 0, _, _, _ => .fuel
  | n + 1, i, p, st =>
    if i.length > 0 then do
      let (res, p, st) ← parseLine fs r p st i
      match res with
      | .done i _ => processLoop fs r n i p st
      | .err _ => .panic .unimplemented
    else .ok (.ok (), st)

/-- The byte order mark (src/lib.rs line 568). -/
def bom : Char := Char.ofNat 0xFEFF

/-- `Engine::process_block` (src/lib.rs lines 557-592).  The number of lines is bounded by the length
of the block: every line consumes at least one byte (property C40). -/
def processStep (fs : Fs) (r : Rec) (b : Block) (st : St) : Res (Except MakefileError Unit × St) := do
  match ← orElse (Nom.char bom b.span) (done b.span ()) with
  | .done i _ => processLoop fs r (b.len + 1) i PState.new st
  | .err _ => .panic .unimplemented

/-- The engine with nesting depth bounded by the first argument: how deep evaluations, `$(eval)` and
`include` may nest.  `fuel` means that the depth was not enough. (The mutual recursion of src/ast/mod.rs lines
44-52 and src/lib.rs lines 557-592; the bound is not in the code.) -/
def recF (fs : Fs) : Nat → Rec
  | 0 => ⟨fun _ _ => .fuel, fun _ _ => .fuel⟩
  | n + 1 => ⟨evalStep (recF fs n), processStep fs (recF fs n)⟩

/-- `AstNode::eval` (src/ast/mod.rs lines 44-52) with a depth budget. -/
def evalF (fs : Fs) (n : Nat) (a : Ast) (st : St) : Res (Block × St) := (recF fs n).eval a st

/-- `Engine::process_block` (src/lib.rs lines 557-592) with a depth budget. -/
def processF (fs : Fs) (n : Nat) (b : Block) (st : St) : Res (Except MakefileError Unit × St) :=
  (recF fs n).processBlock b st

/-- `Engine::read_makefile` (src/lib.rs lines 524-555) with a depth budget. -/
def readF (fs : Fs) (n : Nat) (content : FsEntry) (name : Str) (st : St) :
    Res (Except MakefileError Unit × St) :=
  readMakefile (recF fs n) content name st

/-- `Variable::expand` (src/eval/mod.rs lines 88-99) of a global variable, looked up by name in the
database of the state (src/lib.rs lines 374-379): evaluate its syntax tree and take the text. -/
def expandF (fs : Fs) (n : Nat) (v : VariableName) (st : St) : Res (Option Str × St) :=
  match st.db.getVariable v with
  | none => .ok (none, st)
  | some p => do
    let (b, st) ← evalF fs n p.value st
    let s ← b.intoString
    return (some s, st)

end Hastur
