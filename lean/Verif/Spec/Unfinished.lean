import Verif.Spec.Program
/-
Specification of makefiles that end too early (C80).
-/
namespace Hastur

/-- The text `t` of a makefile ends inside a conditional or a definition: before that there are lines as in `Makes`.
`ok` restricts which conditionals may be closed, and `starts` tells which lines of a definition start with a keyword. -/
inductive Unfinished (c : Char) (ok : List Branch → Branch → Prop) (starts : Str → List LChar → Prop) :
    MakeState → (t : List LChar) → Prop
  | line {m m1 : MakeState} {t rest : List LChar} : LineMeans c ok m t rest m1 → Unfinished c ok starts m1 rest →
      Unfinished c ok starts m t
  /-- a definition that is ended -/
  | define {m : MakeState} {t line body rest : List LChar} {s : Str} {ty : AssignType} {es : List Expr} {v : Vars} :
      AllTaken m.branches → (m.current = none ∨ (textOf t).head? ≠ some c) → Logical t line body →
      DefineHead m.vars.env line s ty → DefineBody starts 1 body es rest → DefineSets m.vars s ty es v →
      Unfinished c ok starts { m.close with vars := v } rest → Unfinished c ok starts m t
  /-- the text ends, and a conditional is open: its `endif` is missing -/
  | conditional {m : MakeState} : m.branches ≠ [] → Unfinished c ok starts m []
  /-- the rest of the text is a definition whose `endef` is missing -/
  | definition {m : MakeState} {t line body : List LChar} {s : Str} {ty : AssignType} {es : List Expr} :
      AllTaken m.branches → (m.current = none ∨ (textOf t).head? ≠ some c) → Logical t line body →
      DefineHead m.vars.env line s ty → OpenBody starts 1 body es → Unfinished c ok starts m t

end Hastur
