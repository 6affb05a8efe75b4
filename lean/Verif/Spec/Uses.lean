import Verif.Spec.Eval
/-
Specification: which variables an expression uses, counting substitution references (C37).
-/
namespace Hastur

/-- The expression refers to the variable `y`: in a reference `$(y)`, in a substitution reference `$(y:k=r)` that is
written out, or inside the name of another reference. -/
inductive Uses (env : Env) (y : Str) : List Expr → Prop
  | ref {l : Location} {name es : List Expr} {n : List LChar} {ns : List Str} :
      .ref l name ∈ es → Expands env name n ns → ¬ IsSubst (textOf n) → textOf n = y → Uses env y es
  | subst {l : Location} {t : List LChar} {k r : Str} {es : List Expr} :
      .ref l (Expr.text t) ∈ es → textOf t = y ++ ':' :: (k ++ '=' :: r) → ':' ∉ k → ':' ∉ r → Uses env y es
  | name {l : Location} {name es : List Expr} : .ref l name ∈ es → Uses env y name → Uses env y es

/-- The value of the variable `x` uses the variable `y`. -/
def RefersTo (env : Env) (x y : Str) : Prop := ∃ body, env x = some body ∧ Uses env y body

mutual
/-- Names of references that consist of text only are one piece of text, as in what the parser makes of `$(x:a=b)`. -/
def Ast.WholeNames : Ast → Prop
  | .empty _ => True
  | .constant _ _ => True
  | .preEvaluated _ _ => True
  | .concat _ cs => Ast.WholeNamesList cs
  | .varRef _ n => Ast.WholeNames n ∧ ∀ t, n.flat = Expr.text t → t ≠ [] → ∃ l s, n = .constant l s
  | .eval _ a => Ast.WholeNames a
  | .strip _ a => Ast.WholeNames a
  | .word _ i w => Ast.WholeNames i ∧ Ast.WholeNames w
  | .words _ a => Ast.WholeNames a
/-- The same for a sequence of syntax trees. -/
def Ast.WholeNamesList : List Ast → Prop
  | [] => True
  | a :: as => Ast.WholeNames a ∧ Ast.WholeNamesList as
end

end Hastur
