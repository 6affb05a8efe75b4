import Verif.Spec.Eval
/-
Specification of makefile text: logical lines, assignment lines, and what they do to the variables.
-/
namespace Hastur

/-- The variable with the given name: the name is looked up in the name cache, the variable in the database. -/
def St.lookup (st : St) (s : Str) : Option VarParams := (st.names.variableName s).bind st.db.getVariable

/-- The first logical line of the text `t` is `line`, and `rest` follows: physical lines that end in a single backslash
are joined with the next one, with single spaces in between (property C23). -/
inductive Logical : (t line rest : List LChar) → Prop
  | mk (cs : List Continued) (lead final tail rest : List LChar) : (∀ c ∈ cs, c.OK) → Blanks lead → Free '\n' final →
      (∀ x, final.head? = some x → ¬ (x.1 = ' ' ∨ x.1 = '\t')) → trailingSlashes (textOf final) % 2 = 0 →
      EndsLine tail rest →
      Logical (cs.flatMap Continued.line ++ (lead ++ (final ++ tail)))
        (joinSpaces ((cs.map (·.body)).filter (fun b => !b.isEmpty) ++ [final])) rest

/-- How the assignment operators are written. -/
inductive OpText : AssignType → Str → Prop
  | recursive : OpText .recursive ['=']
  | simple : OpText .simple [':', '=']
  | posix : OpText .simple [':', ':', '=']
  | conditional : OpText .conditional ['?', '=']
  | shell : OpText .bang ['!', '=']
  | append : OpText .append ['+', '=']

/-- A character that may occur on the left of an assignment operator. -/
def NameChar (c : Char) : Prop :=
  isWhitespace c = false ∧ c ≠ ':' ∧ c ≠ '=' ∧ c ≠ '!' ∧ c ≠ '?' ∧ c ≠ '+'

/-- The line is `name op value`, with blanks allowed around the operator. -/
inductive AssignText : (line name : List LChar) → AssignType → (value : List LChar) → Prop
  | mk (name gap op gap' value : List LChar) (ty : AssignType) : (∀ x ∈ name, NameChar x.1) → Blanks gap →
      OpText ty (textOf op) → Blanks gap' → (∀ x, value.head? = some x → ¬ (x.1 = ' ' ∨ x.1 = '\t')) →
      AssignText (name ++ (gap ++ (op ++ (gap' ++ value)))) name ty value

/-- The keywords of conditionals. -/
def condWords : List Str :=
  ["ifdef".toList, "ifndef".toList, "ifeq".toList, "ifneq".toList, "else".toList, "endif".toList]

/-- The line looks like a conditional: it begins with one of the keywords, in upper or lower case; and if the keyword is
`ifeq` or `ifneq`, a parenthesis or a quote follows, possibly after blanks. -/
inductive CondLike (line : List LChar) : Prop
  | word {w : Str} : w ∈ ["ifdef".toList, "ifndef".toList, "else".toList, "endif".toList] →
      w <+: (textOf line).map lower → CondLike line
  | eq {a b : List LChar} : line = a ++ b → (textOf a).map lower ∈ ["ifeq".toList, "ifneq".toList] →
      (textOf (b.dropWhile lblank)).head? ∈ [some '(', some '"', some '\''] → CondLike line

/-- The variable `s` has got the parameters `p`; nothing else has changed, except that names may have been interned. -/
structure Assigned (st st' : St) (s : Str) (p : VarParams) : Prop where
  now : st'.lookup s = some p
  others : ∀ x, x ≠ s → st'.lookup x = st.lookup x
  rules : st'.db.rules = st.db.rules
  targetVariables : st'.db.targetVariables = st.db.targetVariables
  names : ∃ cs, st'.names = st.names.after cs
  commandChar : st'.commandChar = st.commandChar

/-- What an assignment of the expression `es` to the variable `s` stores, by operator: `=`, `?=` and `!=` the
expression itself, `:=` its expansion, and `+=` the old value, a space and the expression (or just the expression, if
there is no old value). -/
inductive Stores (st : St) (s : Str) : AssignType → (es : List Expr) → VarParams → Prop
  | recursive {a : Ast} : Stores st s .recursive a.flat ⟨a, .recursive, .file⟩
  | conditional {a : Ast} : Stores st s .conditional a.flat ⟨a, .conditional, .file⟩
  | shell {a : Ast} : Stores st s .bang a.flat ⟨a, .shell, .file⟩
  | simple {es : List Expr} {t : List LChar} {vs : List Str} {l : Location} {b : Block} : Expands st.env es t vs →
      Block.ltext b = t → Stores st s .simple es ⟨.preEvaluated l b, .simple, .file⟩
  | appendNew {a : Ast} : st.lookup s = none → Stores st s .append a.flat ⟨a, .recursive, .file⟩
  | append {old : VarParams} {es : List Expr} {a : Ast} : st.lookup s = some old →
      a.flat = old.value.flat ++ .char (' ', .synthetic) :: es → Stores st s .append es { old with value := a }

/-! ### Single lines -/

/-- The engine stands at the logical line `line` of a text `t` in which no comment characters are left; `rest` follows
the line.  The block is that of a file or of an evaluated text in one piece; no definition is being collected. -/
structure AtLine (P : Block) (i : Span) (t line rest : List LChar) (p : PState) (st : St) : Prop where
  pieces : P.content.length ≤ 1
  mono : Block.Mono P
  at_ : i.At P t
  logical : Logical t line rest
  comment : Free '#' t
  define : p.currentDefine = none
  command : isAscii st.commandChar = true
  wf : st.WF

/-- The same, outside rules and with all conditionals in their taken branch. -/
structure Ready (P : Block) (i : Span) (t line rest : List LChar) (p : PState) (st : St) : Prop
    extends AtLine P i t line rest p st where
  rule : p.currentRule = none
  active : p.ignoring = false

/-- Reading a line with enough budget leads from one state to the other, and leaves `rest` to be read. -/
def LineGives (fs : Fs) (P : Block) (i : Span) (p : PState) (st : St) (rest : List LChar) (p' : PState) (st' : St) : Prop :=
  ∃ N j, j.At P rest ∧ ∀ n, N ≤ n → parseLine fs (recF fs n) p st i = .ok (.done j (), p', st')

/-- Reading a makefile with enough budget leads from one state to the other. -/
def FileGives (fs : Fs) (name text : Str) (st st' : St) : Prop :=
  ∃ N, ∀ n, N ≤ n → readF fs n (.text text) name st = .ok (.ok (), st')

/-- Expanding the variable `s` in the state `st`, with enough budget, gives the text `x`. -/
def ExpandsTo (fs : Fs) (st : St) (s x : Str) : Prop :=
  ∃ v N, st.names.variableName s = some v ∧ ∀ n, N ≤ n → ∃ st', expandF fs n v st = .ok (some x, st')

/-! ### Files of assignments -/

/-- The variables by name: the flavor and the value. -/
abbrev Vars := Str → Option (Flavor × List Expr)

/-- The variables of an engine state. -/
def St.vars (st : St) : Vars := fun s => (st.lookup s).map fun p => (p.flavor, p.value.flat)

/-- The values of the variables. -/
def Vars.env (v : Vars) : Env := fun s => (v s).map Prod.snd

/-- The variables after one of them has been set. -/
def Vars.set (v : Vars) (s : Str) (f : Flavor) (es : List Expr) : Vars := fun x => if x = s then some (f, es) else v x

/-- An assignment: the name (which may contain references), the operator and the value. -/
structure Assignment where
  name : List Expr
  ty : AssignType
  value : List Expr

/-- The text consists of lines that are empty or assignments. -/
inductive AssignFile : List LChar → List Assignment → Prop
  | nil : AssignFile [] []
  | blank {t rest : List LChar} {l : List Assignment} : t ≠ [] → Logical t [] rest → AssignFile rest l → AssignFile t l
  | assign {t line rest name value : List LChar} {ty : AssignType} {nes ves : List Expr} {l : List Assignment} :
      Logical t line rest → AssignText line name ty value → ¬ CondLike (line.dropWhile lblank) →
      Reads name (.ok nes) → Reads value (.ok ves) → (ty = .simple → value ≠ []) → AssignFile rest l →
      AssignFile t (⟨nes, ty, ves⟩ :: l)

/-- The expression denotes the variable `s`: it expands to `s`, up to blanks around it. -/
def Denotes (env : Env) (name : List Expr) (s : Str) : Prop := ∃ nt ns, Expands env name nt ns ∧ trim (textOf nt) = s

/-- What a sequence of assignments makes of the variables: `=` stores the expression, `:=` the expansion it has at
this moment, `?=` defines an undefined variable, and `+=` adds a space and the expression; to a simple variable it adds
the text, so that nothing is left to be expanded later. -/
inductive VarRun : Vars → List Assignment → Vars → Prop
  | nil {v : Vars} : VarRun v [] v
  | recursive {v v' : Vars} {name es : List Expr} {s : Str} {l : List Assignment} : Denotes v.env name s →
      VarRun (v.set s .recursive es) l v' → VarRun v (⟨name, .recursive, es⟩ :: l) v'
  | simple {v v' : Vars} {name es : List Expr} {s : Str} {t : List LChar} {vs : List Str} {l : List Assignment} :
      Denotes v.env name s → Expands v.env es t vs →
      VarRun (v.set s .simple (Expr.text t)) l v' → VarRun v (⟨name, .simple, es⟩ :: l) v'
  | conditional {v v' : Vars} {name es : List Expr} {s : Str} {l : List Assignment} : Denotes v.env name s → v s = none →
      VarRun (v.set s .conditional es) l v' → VarRun v (⟨name, .conditional, es⟩ :: l) v'
  | appendNew {v v' : Vars} {name es : List Expr} {s : Str} {l : List Assignment} : Denotes v.env name s → v s = none →
      VarRun (v.set s .recursive es) l v' → VarRun v (⟨name, .append, es⟩ :: l) v'
  | append {v v' : Vars} {name es old : List Expr} {s : Str} {f : Flavor} {l : List Assignment} :
      Denotes v.env name s → v s = some (f, old) → (f = .simple → ∃ t, es = Expr.text t) →
      VarRun (v.set s f (old ++ .char (' ', .synthetic) :: es)) l v' → VarRun v (⟨name, .append, es⟩ :: l) v'

end Hastur
