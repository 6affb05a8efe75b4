import Verif.Spec.Conditional
/-
Specification of what the program makes of files with conditionals, in place of `CondRun` (C42).
-/
namespace Hastur

/-- What the program does with the lines of a makefile.  There is a switch `on` besides the open conditionals; lines that
are no conditionals take effect if it is on.  `ifeq`, `ifneq` and `else` set it: on if all open conditionals are then in
their taken branch, off otherwise.  `endif` leaves it alone. -/
inductive SwitchRun : (on : Bool) → Vars → List Branch → List MLine → (on' : Bool) → Vars → List Branch → Prop
  | nil {on : Bool} {v : Vars} {bs : List Branch} : SwitchRun on v bs [] on v bs
  | blank {on on' : Bool} {v v' : Vars} {bs bs' : List Branch} {l : List MLine} : SwitchRun on v bs l on' v' bs' →
      SwitchRun on v bs (.blank :: l) on' v' bs'
  | assign {on' : Bool} {v v1 v' : Vars} {bs bs' : List Branch} {a : Assignment} {l : List MLine} : VarRun v [a] v1 →
      SwitchRun true v1 bs l on' v' bs' → SwitchRun true v bs (.assign a :: l) on' v' bs'
  | skipAssign {on' : Bool} {v v' : Vars} {bs bs' : List Branch} {a : Assignment} {l : List MLine} :
      SwitchRun false v bs l on' v' bs' → SwitchRun false v bs (.assign a :: l) on' v' bs'
  | skip {on' : Bool} {v v' : Vars} {bs bs' : List Branch} {l : List MLine} :
      SwitchRun false v bs l on' v' bs' → SwitchRun false v bs (.other :: l) on' v' bs'
  | test {on on1 on' : Bool} {v v' : Vars} {bs bs' : List Branch} {inverted : Bool} {as cs : List Expr} {x y : List LChar}
      {xs ys : List Str} {l : List MLine} : Expands v.env as x xs → Expands v.env cs y ys →
      (on1 = true ↔ AllTaken (bs ++ [⟨(trim (textOf x) == trim (textOf y)) != inverted, false⟩])) →
      SwitchRun on1 v (bs ++ [⟨(trim (textOf x) == trim (textOf y)) != inverted, false⟩]) l on' v' bs' →
      SwitchRun on v bs (.cond (.test inverted as cs) :: l) on' v' bs'
  | else_ {on on1 on' : Bool} {v v' : Vars} {bs bs' : List Branch} {e : Bool} {l : List MLine} :
      (on1 = true ↔ AllTaken (bs ++ [⟨!e, true⟩])) →
      SwitchRun on1 v (bs ++ [⟨!e, true⟩]) l on' v' bs' → SwitchRun on v (bs ++ [⟨e, false⟩]) (.cond .else_ :: l) on' v' bs'
  | endif {on on' : Bool} {v v' : Vars} {bs bs' : List Branch} {b : Branch} {l : List MLine} :
      SwitchRun on v bs l on' v' bs' → SwitchRun on v (bs ++ [b]) (.cond .endif :: l) on' v' bs'

end Hastur
