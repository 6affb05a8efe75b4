import Verif.Model.Eval
/-
Model of variable definitions (src/parsers/variable/mod.rs) and of the parser state
(src/parsers/mod.rs lines 28-114, 256-298).
-/
namespace Hastur

open Res

/-- `ConditionalState` (src/parsers/mod.rs lines 32-54); `executing` is its interpretation. -/
structure CondState where
  executing : Bool
  seenElse : Bool
  deriving DecidableEq, Repr

/-- `DefineState` (src/parsers/mod.rs lines 56-63). -/
structure DefineState where
  var : VariableName
  nesting : Nat
  deriving DecidableEq, Repr

/-- `ParserState` (src/parsers/mod.rs lines 89-104).  The last element of `conditionals` is the
innermost conditional. -/
structure PState where
  conditionals : List CondState
  ignoring : Bool
  currentRule : Option ProtoRule
  currentDefine : Option DefineState

namespace PState

/-- `ParserState::new` (src/parsers/mod.rs lines 107-114). -/
def new : PState := ⟨[], false, none, none⟩

/-- `ParserState::update_ignoring` (src/parsers/mod.rs lines 256-270). -/
def updateIgnoring (p : PState) : PState := { p with ignoring := p.conditionals.any fun c => !c.executing }

/-- `ParserState::push_command_line` (src/parsers/mod.rs lines 279-287, 80-87). -/
def pushCommandLine (p : PState) (line : Ast) : Res PState := do
  let r ← runwrap p.currentRule
  return { p with currentRule := some { r with recipe := r.recipe ++ [line] } }

/-- `ParserState::close_rule` (src/parsers/mod.rs lines 289-297) with `Engine::from_protorule`
(src/lib.rs lines 519-522). -/
def closeRule (p : PState) (st : St) : Res (PState × St) :=
  match p.currentRule with
  | some r => do
    let (db, names) ← st.db.fromProtorule st.names r
    return ({ p with currentRule := none }, { st with db := db, names := names })
  | none => .ok (p, st)

end PState

/-- `AssignmentType` (src/parsers/variable/mod.rs lines 17-24). -/
inductive AssignType
  | recursive
  | conditional
  | simple
  | append
  | bang
  deriving DecidableEq, Repr

/-- `Modifiers` (src/parsers/variable/mod.rs lines 57-65). -/
structure Modifiers where
  export_ : Bool
  override_ : Bool
  private_ : Bool
  define : Bool
  undefine : Bool
  deriving DecidableEq, Repr

/-- `Modifiers::default` (derived, src/parsers/variable/mod.rs lines 58-65) -/
def Modifiers.none : Modifiers := ⟨false, false, false, false, false⟩

/-- `Action` of a variable line (src/parsers/variable/mod.rs lines 48-55). -/
inductive VarActionKind
  | define (p : VarParams)
  | append (a : Ast)

/-- `VariableAction` (src/parsers/variable/mod.rs lines 67-73). -/
structure VarAction where
  name : VariableName
  modifiers : Modifiers
  action : VarActionKind

/-- `handle_global_variable_action` (src/parsers/variable/mod.rs lines 76-113). -/
def handleVariableAction (p : PState) (st : St) (a : VarAction) : Res (PState × St) := do
  if a.modifiers.export_ || a.modifiers.override_ || a.modifiers.private_ || a.modifiers.undefine then
    .panic .unimplemented
  else do
    let p ← (if a.modifiers.define then do
        rassert p.currentDefine.isNone
        return { p with currentDefine := some ⟨a.name, 1⟩ }
      else .ok p : Res PState)
    match a.action with
    | .define v => return (p, { st with db := st.db.setVariable a.name v })
    | .append node =>
      return (p, { st with db := st.db.appendToVariable a.name node.location ⟨node, .recursive, .file⟩ true })

/-- The characters that end a variable name (src/parsers/variable/mod.rs lines 289-294). -/
def nameStop (c : Char) : Bool :=
  isWhitespace c || c == ':' || c == '=' || c == '!' || c == '?' || c == '+'

/-- The assignment operators in the order they are tried (src/parsers/variable/mod.rs lines 308-318). -/
def assignOperator (i : Span) : PRes AssignType :=
  orElse ((Nom.tag "=".toList i).mapP fun _ => AssignType.recursive) <|
  orElse ((Nom.tag "::=".toList i).mapP fun _ => AssignType.simple) <|
  orElse ((Nom.tag ":=".toList i).mapP fun _ => AssignType.simple) <|
  orElse ((Nom.tag "?=".toList i).mapP fun _ => AssignType.conditional) <|
  orElse ((Nom.tag "!=".toList i).mapP fun _ => AssignType.bang) <|
  (Nom.tag "+=".toList i).mapP fun _ => AssignType.append

/-- `parse_assignment_operator` (src/parsers/variable/mod.rs lines 283-323). -/
def parseAssignmentOperator (i : Span) : PRes (Span × AssignType) :=
  (Nom.takeTill nameStop i).andThen fun i name =>
  (whitespace i).andThen fun i _ =>
  (assignOperator i).andThen fun i ty =>
  (whitespace i).andThen fun i _ => done i (name, ty)

/-- The flavor of a defining operator (src/parsers/variable/mod.rs lines 244-250, 362-368); `append`
is unreachable there. -/
def AssignType.flavor : AssignType → Flavor
  | .recursive => .recursive
  | .conditional => .conditional
  | .simple => .simple
  | .append => .recursive
  | .bang => .shell

/-- Evaluate a name and intern it: lines 232-234 and 337-339 of src/parsers/variable/mod.rs. -/
def evalName (r : Rec) (a : Ast) (st : St) : Res (VariableName × St) := do
  let (b, st) ← r.eval a st
  let s ← b.intoString
  let (v, names) := st.names.internVar (trim s)
  return (v, { st with names := names })

/-- The parsing half of `parse_variable_assignment` (src/parsers/variable/mod.rs lines 331-335). -/
def splitAssignment (i : Span) : PRes (AssignType × Ast × Span × Ast) :=
  (parseAssignmentOperator i).andThen fun i (name, ty) =>
  (whitespace i).andThen fun value _ =>
  (parseAst name).andThen fun _ nameAst =>
  (parseAst value).andThen fun post valueAst => done post (ty, nameAst, value, valueAst)

/-- `parse_variable_assignment` (src/parsers/variable/mod.rs lines 325-374). -/
def parseVariableAssignment (r : Rec) (mods : Modifiers) (i : Span) (st : St) :
    Res (IRes VarAction × St) := do
  match ← splitAssignment i with
  | .err e => return (.err e, st)
  | .done post (ty, nameAst, value, valueAst) => do
    let (v, st) ← evalName r nameAst st
    match ty with
    | .simple => do
      let (b, st) ← r.eval valueAst st
      let loc ← value.location
      let loc ← runwrap loc
      return (.done post ⟨v, mods, .define ⟨.preEvaluated loc b, .simple, .file⟩⟩, st)
    | .append => return (.done post ⟨v, mods, .append valueAst⟩, st)
    | ty => return (.done post ⟨v, mods, .define ⟨valueAst, ty.flavor, .file⟩⟩, st)

/-- `Modifier` (src/parsers/variable/mod.rs lines 162-169). -/
inductive Modifier
  | export_
  | override_
  | private_
  | define
  | undefine
  deriving DecidableEq, Repr

/-- The keyword match of src/parsers/variable/mod.rs lines 194-205. -/
def modifierKeyword (i : Span) : PRes Modifier :=
  (orElse ((Nom.tagNoCase "define".toList i).mapP fun _ => Modifier.define) <|
   orElse ((Nom.tagNoCase "export".toList i).mapP fun _ => Modifier.export_) <|
   orElse ((Nom.tagNoCase "override".toList i).mapP fun _ => Modifier.override_) <|
   orElse ((Nom.tagNoCase "private".toList i).mapP fun _ => Modifier.private_) <|
   (Nom.tagNoCase "undefine".toList i).mapP fun _ => Modifier.undefine).andThen fun i m =>
  (whitespace i).andThen fun i _ => done i m

/-- The whole rest of a `define` line as a name (src/parsers/variable/mod.rs lines 259-273). -/
def defineWholeName (mods : Modifiers) (i : Span) (st : St) : Res (IRes VarAction × St) := do
  let s ← i.intoString
  let (v, names) := st.names.internVar (trim s)
  let rest ← i.sliceFrom i.length
  return (.done rest ⟨v, mods, .define ⟨Ast.mkEmpty, .recursive, .file⟩⟩, { st with names := names })

/-- The `define` arm (src/parsers/variable/mod.rs lines 223-274). -/
def parseDefineHead (r : Rec) (mods : Modifiers) (i : Span) (st : St) : Res (IRes VarAction × St) := do
  match ← (parseAssignmentOperator i).andThen fun suffix (name, ty) =>
      (whitespace suffix).andThen fun trailing _ => done trailing (name, ty) with
  | .done trailing (name, ty) =>
    if trailing.length = 0 then do
      match ← parseAst name with
      | .err e => return (.err e, st)
      | .done _ nameAst => do
        let (v, st) ← evalName r nameAst st
        let action := match ty with
          | .append => VarActionKind.append Ast.mkEmpty
          | ty => VarActionKind.define ⟨Ast.mkEmpty, ty.flavor, .file⟩
        return (.done trailing ⟨v, mods, action⟩, st)
    else defineWholeName mods i st
  | .err _ => defineWholeName mods i st

/-- The modifier loop of `variable::parse_line` (src/parsers/variable/mod.rs lines 178-280).  The
first argument bounds the number of modifiers; `parseVariableLine` passes the length of the input. -/
def modifierLoop (r : Rec) : Nat → Modifiers → Span → St → Res (IRes VarAction × St)
  | 0, _, _, _ => .fuel
  | n + 1, mods, i, st => do
    let (res, st) ← parseVariableAssignment r mods i st
    match res with
    | .done rest a => return (.done rest a, st)
    | .err (.error (.custom .unterminatedVariable)) =>
      return (.err (.error (.custom .unterminatedVariable)), st)
    | .err (.failure (.custom .unterminatedVariable)) =>
      return (.err (.failure (.custom .unterminatedVariable)), st)
    | .err _ =>
      match ← modifierKeyword i with
      | .err _ => return (.err (.error (.custom (.internalFailure "not an assignment".toList))), st)
      | .done i m =>
        match m with
        | .export_ => modifierLoop r n { mods with export_ := true } i st
        | .override_ => modifierLoop r n { mods with override_ := true } i st
        | .private_ => modifierLoop r n { mods with private_ := true } i st
        | .define => parseDefineHead r { mods with define := true } i st
        | .undefine => .panic .unimplemented

/-- `variable::parse_line` (src/parsers/variable/mod.rs lines 154-281). -/
def parseVariableLine (r : Rec) (i : Span) (st : St) : Res (IRes VarAction × St) := do
  match ← whitespace i with
  | .err e => return (.err e, st)
  | .done i _ =>
    if i.length = 0 then
      return (.err (.error (.custom (.internalFailure "no content on line".toList))), st)
    else modifierLoop r (i.length + 1) Modifiers.none i st

/-! ### Lines inside a define -/

/-- `DefineLineAction` (src/parsers/variable/mod.rs lines 26-35). -/
inductive DefineLineAction
  | append
  | increaseNesting
  | decreaseNesting
  deriving DecidableEq, Repr

/-- `DefineLine` (src/parsers/variable/mod.rs lines 37-46). -/
structure DefineLine where
  content : Ast
  action : DefineLineAction
  location : Location

/-- The line grab of `parse_define_line` (src/parsers/variable/mod.rs lines 385-394): like
`makefile_grab_line`, but the line break stays part of the line. -/
def grabDefineLine (i : Span) : PRes Span :=
  orElse (Nom.takeUntil ['#'] i) <|
  orElse (Nom.recognize (fun i => (Nom.takeUntil ['\n'] i).andThen fun r _ => Nom.tag ['\n'] r) i) <|
  orElse (Nom.recognize (fun i => (Nom.takeUntil ['\r', '\n'] i).andThen fun r _ =>
      Nom.tag ['\r', '\n'] r) i) <|
  Nom.rest i

/-- `parse_define_line` (src/parsers/variable/mod.rs lines 376-425). -/
def parseDefineLine (i : Span) : PRes DefineLine :=
  (grabDefineLine i).andThen fun nextLines i => do
    let loc ← i.location
    let loc ← runwrap loc
    (parseAst i).andThen fun _ ast =>
    (whitespace i).andThen fun i _ =>
    (orElse ((Nom.tag "define".toList i).mapP fun _ => DefineLineAction.increaseNesting) <|
     orElse ((Nom.tag "endef".toList i).mapP fun _ => DefineLineAction.decreaseNesting) <|
     (Nom.rest i).mapP fun _ => DefineLineAction.append).andThen fun i action =>
    (Nom.takeWhile isWhitespace i).andThen fun i _ =>
      if action = .decreaseNesting && i.length ≠ 0 then failOut (.extraTokensAfter "endef".toList)
      else done nextLines ⟨ast, action, loc⟩

/-- `handle_define_line` (src/parsers/variable/mod.rs lines 115-151). -/
def handleDefineLine (p : PState) (st : St) (l : DefineLine) : Res (PState × St) := do
  let d ← runwrap p.currentDefine
  let append (nesting : Nat) : PState × St :=
    ({ p with currentDefine := some { d with nesting := nesting } },
     { st with db := st.db.appendToVariable d.var l.location ⟨l.content, .recursive, .file⟩ false })
  match l.action with
  | .append => return append d.nesting
  | .increaseNesting => return append (d.nesting + 1)
  | .decreaseNesting => do
    let n ← usub d.nesting 1
    if n = 0 then return ({ p with currentDefine := none }, st)
    else return append n

end Hastur
