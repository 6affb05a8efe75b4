import Verif.Spec.Makefile
/-
Specification of conditional lines and of what they do.
-/
namespace Hastur

/-- Parentheses are balanced and every comma is inside a pair of them. -/
inductive NoTopComma : List LChar → Prop
  | nil : NoTopComma []
  | char {x : LChar} {t : List LChar} : x.1 ≠ '(' → x.1 ≠ ')' → x.1 ≠ ',' → NoTopComma t → NoTopComma (x :: t)
  | nest {l l' : Location} {a b : List LChar} :
      Balanced a → NoTopComma b → NoTopComma (('(', l) :: (a ++ (')', l') :: b))

/-- The two arguments of `ifeq` or `ifneq`: `(a, b)`, or each in quotes.  Anything may follow. -/
inductive EqArgs : (args a b : List LChar) → Prop
  | paren {l l' l'' : Location} {a gap b tail : List LChar} : NoTopComma a → Blanks gap →
      (∀ x, (b ++ [(')', l'')]).head? = some x → ¬ (x.1 = ' ' ∨ x.1 = '\t')) → Balanced b →
      EqArgs (('(', l) :: (a ++ (',', l') :: (gap ++ (b ++ (')', l'') :: tail)))) a b
  | quoted {l1 l2 l3 l4 : Location} {q q' : Char} {a gap b tail : List LChar} : q = '"' ∨ q = '\'' →
      q' = '"' ∨ q' = '\'' → Free q a → Blanks gap → Free q' b →
      EqArgs ((q, l1) :: (a ++ (q, l2) :: (gap ++ (q', l3) :: (b ++ (q', l4) :: tail)))) a b

/-- The kinds of conditional lines. -/
inductive CondLine
  /-- `ifeq` (or `ifneq`, if the flag is set) with two arguments -/
  | test (inverted : Bool) (a b : List Expr)
  | else_
  | endif

/-- The line is a conditional, its keyword in upper or lower case. -/
inductive CondText : (line : List LChar) → CondLine → Prop
  | test {kw gap args a b : List LChar} {inverted : Bool} {as bs : List Expr} :
      (textOf kw).map lower = (if inverted then "ifneq".toList else "ifeq".toList) → Blanks gap → EqArgs args a b →
      Reads a (.ok as) → Reads b (.ok bs) → CondText (kw ++ (gap ++ args)) (.test inverted as bs)
  | else_ {kw gap : List LChar} : (textOf kw).map lower = "else".toList → Blanks gap → CondText (kw ++ gap) .else_
  | endif {kw gap : List LChar} : (textOf kw).map lower = "endif".toList → Blanks gap → CondText (kw ++ gap) .endif

/-! ### Files with conditionals -/

/-- An open conditional: is it in its taken branch, and has its `else` been seen? -/
structure Branch where
  taken : Bool
  seenElse : Bool

/-- The lines of a makefile. -/
inductive MLine
  | blank
  | assign (a : Assignment)
  | cond (c : CondLine)
  /-- anything else -/
  | other

/-- The text consists of these lines. -/
inductive MakeText : List LChar → List MLine → Prop
  | nil : MakeText [] []
  | blank {t rest : List LChar} {l : List MLine} : t ≠ [] → Logical t [] rest → MakeText rest l → MakeText t (.blank :: l)
  | assign {t line rest name value : List LChar} {ty : AssignType} {nes ves : List Expr} {l : List MLine} :
      Logical t line rest → AssignText line name ty value → ¬ CondLike (line.dropWhile lblank) →
      Reads name (.ok nes) → Reads value (.ok ves) → (ty = .simple → value ≠ []) → MakeText rest l →
      MakeText t (.assign ⟨nes, ty, ves⟩ :: l)
  | cond {t line rest : List LChar} {c : CondLine} {l : List MLine} : Logical t line rest →
      CondText (line.dropWhile lblank) c → MakeText rest l → MakeText t (.cond c :: l)
  | other {t line rest : List LChar} {l : List MLine} : Logical t line rest → line ≠ [] →
      ¬ CondLike (line.dropWhile lblank) → MakeText rest l → MakeText t (.other :: l)

/-- All open conditionals are in their taken branch. -/
def AllTaken (bs : List Branch) : Prop := ∀ b ∈ bs, b.taken = true

/-- What the lines of a makefile do to the variables and the open conditionals (the innermost one is the last one): a
line that is no conditional takes effect if all open conditionals are in their taken branch, and is skipped otherwise.
`ok` restricts which conditionals may be closed. -/
inductive CondRun (ok : List Branch → Branch → Prop) : Vars → List Branch → List MLine → Vars → List Branch → Prop
  | nil {v : Vars} {bs : List Branch} : CondRun ok v bs [] v bs
  | blank {v v' : Vars} {bs bs' : List Branch} {l : List MLine} : CondRun ok v bs l v' bs' →
      CondRun ok v bs (.blank :: l) v' bs'
  | assign {v v1 v' : Vars} {bs bs' : List Branch} {a : Assignment} {l : List MLine} : AllTaken bs → VarRun v [a] v1 →
      CondRun ok v1 bs l v' bs' → CondRun ok v bs (.assign a :: l) v' bs'
  | skipAssign {v v' : Vars} {bs bs' : List Branch} {a : Assignment} {l : List MLine} : ¬ AllTaken bs →
      CondRun ok v bs l v' bs' → CondRun ok v bs (.assign a :: l) v' bs'
  | skip {v v' : Vars} {bs bs' : List Branch} {l : List MLine} : ¬ AllTaken bs →
      CondRun ok v bs l v' bs' → CondRun ok v bs (.other :: l) v' bs'
  | test {v v' : Vars} {bs bs' : List Branch} {inverted : Bool} {as cs : List Expr} {x y : List LChar} {xs ys : List Str}
      {l : List MLine} : Expands v.env as x xs → Expands v.env cs y ys →
      CondRun ok v (bs ++ [⟨(trim (textOf x) == trim (textOf y)) != inverted, false⟩]) l v' bs' →
      CondRun ok v bs (.cond (.test inverted as cs) :: l) v' bs'
  | else_ {v v' : Vars} {bs bs' : List Branch} {e : Bool} {l : List MLine} :
      CondRun ok v (bs ++ [⟨!e, true⟩]) l v' bs' → CondRun ok v (bs ++ [⟨e, false⟩]) (.cond .else_ :: l) v' bs'
  | endif {v v' : Vars} {bs bs' : List Branch} {b : Branch} {l : List MLine} : ok bs b →
      CondRun ok v bs l v' bs' → CondRun ok v (bs ++ [b]) (.cond .endif :: l) v' bs'

/-- Closing the conditional `b` inside of the conditionals `bs` does not turn processing on again. -/
def NoSwitch (bs : List Branch) (b : Branch) : Prop := b.taken = true ∨ ¬ AllTaken bs

end Hastur
