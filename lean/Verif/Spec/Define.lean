import Verif.Spec.Makefile
import Verif.Spec.Steps
/-
Specification of `define` blocks.
-/
namespace Hastur

/-- The line opens a definition of the variable `s`, with the operator `ty`: the keyword, in upper or lower case, is
followed by a name and an operator, or by a name alone.  In the first case the name is expanded. -/
inductive DefineHead (env : Env) : (line : List LChar) → (s : Str) → AssignType → Prop
  | op {kw gap rest name : List LChar} {nes : List Expr} {s : Str} {ty : AssignType} :
      (textOf kw).map lower = "define".toList → Blanks gap → (∀ x, rest.head? = some x → ¬ (x.1 = ' ' ∨ x.1 = '\t')) →
      (∀ n ty v, ¬ AssignText (kw ++ (gap ++ rest)) n ty v) → AssignText rest name ty [] → Reads name (.ok nes) →
      Denotes env nes s → DefineHead env (kw ++ (gap ++ rest)) s ty
  | name {kw gap name : List LChar} : (textOf kw).map lower = "define".toList → Blanks gap →
      (∀ x, name.head? = some x → ¬ (x.1 = ' ' ∨ x.1 = '\t')) →
      (∀ n ty v, ¬ AssignText (kw ++ (gap ++ name)) n ty v) → (∀ n ty, ¬ AssignText name n ty []) →
      DefineHead env (kw ++ (gap ++ name)) (trim (textOf name)) .recursive

/-- `line` is a line with the line feed that ends it, and `rest` follows; or it is the rest of the text and contains no
line feed. -/
inductive WholeLine : (line rest : List LChar) → Prop
  | feed {body rest : List LChar} {l : Location} : Free '\n' body → WholeLine (body ++ [('\n', l)]) rest
  | last {line : List LChar} : line ≠ [] → Free '\n' line → WholeLine line []

/-- The line begins with the word, possibly after blanks. -/
def Begins (w : Str) (line : List LChar) : Prop := w <+: textOf (line.dropWhile lblank)

/-- The word is the first word of the line. -/
def FirstWord (w : Str) (line : List LChar) : Prop :=
  ∃ s, textOf (line.dropWhile lblank) = w ++ s ∧ ∀ c, s.head? = some c → isWhitespace c = true

/-- The line consists of the word alone, between blanks. -/
def Alone (w : Str) (line : List LChar) : Prop :=
  ∃ s, textOf (line.dropWhile lblank) = w ++ s ∧ ∀ c ∈ s, isWhitespace c = true

/-- The text begins with the lines of a definition that is `depth` levels deep, up to the `endef` that ends the outermost
level; `es` is the content of the lines before it, and `rest` follows it.  `starts` tells which lines start with a keyword. -/
inductive DefineBody (starts : Str → List LChar → Prop) :
    (depth : Nat) → (t : List LChar) → (es : List Expr) → (rest : List LChar) → Prop
  | line {d : Nat} {line t rest : List LChar} {es es' : List Expr} : WholeLine line t → ¬ starts "define".toList line →
      ¬ starts "endef".toList line → Reads line (.ok es) → DefineBody starts d t es' rest →
      DefineBody starts d (line ++ t) (es ++ es') rest
  | inner {d : Nat} {line t rest : List LChar} {es es' : List Expr} : WholeLine line t → starts "define".toList line →
      Reads line (.ok es) → DefineBody starts (d + 1) t es' rest → DefineBody starts d (line ++ t) (es ++ es') rest
  | innerEnd {d : Nat} {line t rest : List LChar} {es es' : List Expr} : WholeLine line t → Alone "endef".toList line →
      Reads line (.ok es) → DefineBody starts (d + 1) t es' rest → DefineBody starts (d + 2) (line ++ t) (es ++ es') rest
  | done {line rest : List LChar} : WholeLine line rest → Alone "endef".toList line → DefineBody starts 1 (line ++ rest) [] rest

/-- The text consists of lines of a definition that is `depth` levels deep, and the `endef` that would end the outermost
level is missing; `es` is the content of the lines. -/
inductive OpenBody (starts : Str → List LChar → Prop) : (depth : Nat) → (t : List LChar) → (es : List Expr) → Prop
  | nil {d : Nat} : OpenBody starts d [] []
  | line {d : Nat} {line t : List LChar} {es es' : List Expr} : WholeLine line t → ¬ starts "define".toList line →
      ¬ starts "endef".toList line → Reads line (.ok es) → OpenBody starts d t es' → OpenBody starts d (line ++ t) (es ++ es')
  | inner {d : Nat} {line t : List LChar} {es es' : List Expr} : WholeLine line t → starts "define".toList line →
      Reads line (.ok es) → OpenBody starts (d + 1) t es' → OpenBody starts d (line ++ t) (es ++ es')
  | innerEnd {d : Nat} {line t : List LChar} {es es' : List Expr} : WholeLine line t → Alone "endef".toList line →
      Reads line (.ok es) → OpenBody starts (d + 1) t es' → OpenBody starts (d + 2) (line ++ t) (es ++ es')

/-- What is stored under the name `s` after a definition: the content of its lines, with the flavor of the operator; `+=`
adds it to the old value, after a space. -/
inductive DefineStores (st : St) (s : Str) : AssignType → (es : List Expr) → VarParams → Prop
  | recursive {a : Ast} : DefineStores st s .recursive a.flat ⟨a, .recursive, .file⟩
  | conditional {a : Ast} : DefineStores st s .conditional a.flat ⟨a, .conditional, .file⟩
  | shell {a : Ast} : DefineStores st s .bang a.flat ⟨a, .shell, .file⟩
  | simple {a : Ast} : DefineStores st s .simple a.flat ⟨a, .simple, .file⟩
  | appendNew {a : Ast} : st.lookup s = none → DefineStores st s .append a.flat ⟨a, .recursive, .file⟩
  | append {old : VarParams} {es : List Expr} {a : Ast} : st.lookup s = some old →
      a.flat = old.value.flat ++ .char (' ', .synthetic) :: es → DefineStores st s .append es { old with value := a }

/-- Reading some lines with enough budget leads from one state to the other, and leaves `rest` to be read. -/
def LinesGive (fs : Fs) (P : Block) (i : Span) (p : PState) (st : St) (rest : List LChar) (p' : PState) (st' : St) : Prop :=
  ∃ N j, j.At P rest ∧ ∀ n, N ≤ n → LineSteps fs (recF fs n) i p st j p' st'

end Hastur
