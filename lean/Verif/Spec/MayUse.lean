import Verif.Spec.Uses
/-
Specification: which variables an expression may use when names of substitution references are computed (C37, C72).
-/
namespace Hastur

/-- The expression contains a function call, at the top or inside names. -/
inductive HasCall : List Expr → Prop
  | eval {l : Location} {a es : List Expr} : .eval l a ∈ es → HasCall es
  | strip {l : Location} {a es : List Expr} : .strip l a ∈ es → HasCall es
  | word {l : Location} {i w es : List Expr} : .word l i w ∈ es → HasCall es
  | words {l : Location} {a es : List Expr} : .words l a ∈ es → HasCall es
  | ref {l : Location} {n es : List Expr} : .ref l n ∈ es → HasCall n → HasCall es

/-- `Gives env es t`: the expression `es` may expand to the text `t`.  As `Expands`, but a substitution reference may
expand to anything. -/
inductive Gives (env : Env) : List Expr → List LChar → Prop
  | nil : Gives env [] []
  | char {x : LChar} {es : List Expr} {t : List LChar} : Gives env es t → Gives env (.char x :: es) (x :: t)
  | undefined {l : Location} {name es : List Expr} {n t : List LChar} :
      Gives env name n → ¬ IsSubst (textOf n) → env (textOf n) = none → Gives env es t →
      Gives env (.ref l name :: es) t
  | defined {l : Location} {name es body : List Expr} {n t u : List LChar} :
      Gives env name n → ¬ IsSubst (textOf n) → env (textOf n) = some body → Gives env body u → Gives env es t →
      Gives env (.ref l name :: es) (u ++ t)
  | subst {l : Location} {name es : List Expr} {n t u : List LChar} :
      Gives env name n → IsSubst (textOf n) → Gives env es t → Gives env (.ref l name :: es) (u ++ t)

/-- The expression may refer to the variable `y`: as `Uses`, and a substitution reference whose name contains further
references may refer to every variable whose name begins the text in front of the colon (the code may cut the name
short, see C38). -/
inductive MayUse (env : Env) (y : Str) : List Expr → Prop
  | ref {l : Location} {name es : List Expr} {n : List LChar} :
      .ref l name ∈ es → Gives env name n → ¬ IsSubst (textOf n) → textOf n = y → MayUse env y es
  | subst {l : Location} {t : List LChar} {k r : Str} {es : List Expr} :
      .ref l (Expr.text t) ∈ es → textOf t = y ++ ':' :: (k ++ '=' :: r) → ':' ∉ k → ':' ∉ r → MayUse env y es
  | computed {l : Location} {name es : List Expr} {n : List LChar} {p k r : Str} :
      .ref l name ∈ es → (∀ t, name ≠ Expr.text t) → Gives env name n → textOf n = p ++ ':' :: (k ++ '=' :: r) →
      ':' ∉ k → ':' ∉ r → y <+: p → MayUse env y es
  | name {l : Location} {name es : List Expr} : .ref l name ∈ es → MayUse env y name → MayUse env y es

/-- The value of the variable `x` may use the variable `y`. -/
def MayRefer (env : Env) (x y : Str) : Prop := ∃ body, env x = some body ∧ MayUse env y body

end Hastur
