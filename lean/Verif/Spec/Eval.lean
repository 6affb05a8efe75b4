import Verif.Spec.Expr
import Verif.Spec.History
import Verif.Model.Engine
/-
Specification of expansion: what an expression means, given the values of the variables.
-/
namespace Hastur

/-- The values of the variables by name; `none` for a variable that is not defined. -/
abbrev Env := Str → Option (List Expr)

/-- The variables of an engine state: the name is looked up in the name cache, the value in the database. -/
def St.env (st : St) : Env := fun s =>
  ((st.names.variableName s).bind st.db.getVariable).map fun p => p.value.flat

/-- A name of the form `variable:key=replacement`. -/
def IsSubst (s : Str) : Prop := ∃ a b c, s = a ++ ':' :: (b ++ '=' :: c) ∧ ':' ∉ b ∧ ':' ∉ c

/-- `Expands env es t vs`: the expression `es` expands to the text `t`, and doing so consults the variables `vs` (in
this order).  Text stands for itself; a reference is replaced by the expansion of the value of the variable that its
name, itself expanded, denotes; an undefined variable expands to nothing.  There is no rule for substitution
references and function calls. -/
inductive Expands (env : Env) : List Expr → List LChar → List Str → Prop
  | nil : Expands env [] [] []
  | char {x : LChar} {es : List Expr} {t : List LChar} {vs : List Str} :
      Expands env es t vs → Expands env (.char x :: es) (x :: t) vs
  | undefined {l : Location} {name es : List Expr} {n t : List LChar} {ns vs : List Str} :
      Expands env name n ns → ¬ IsSubst (textOf n) → env (textOf n) = none → Expands env es t vs →
      Expands env (.ref l name :: es) t (ns ++ textOf n :: vs)
  | defined {l : Location} {name es body : List Expr} {n t u : List LChar} {ns vs us : List Str} :
      Expands env name n ns → ¬ IsSubst (textOf n) → env (textOf n) = some body → Expands env body u us →
      Expands env es t vs → Expands env (.ref l name :: es) (u ++ t) (ns ++ textOf n :: (us ++ vs))

/-- Expanding the expression meets a substitution reference or a function call. -/
inductive Involves (env : Env) : List Expr → Prop
  | eval {l : Location} {a es : List Expr} : .eval l a ∈ es → Involves env es
  | strip {l : Location} {a es : List Expr} : .strip l a ∈ es → Involves env es
  | word {l : Location} {i w es : List Expr} : .word l i w ∈ es → Involves env es
  | words {l : Location} {a es : List Expr} : .words l a ∈ es → Involves env es
  | subst {l : Location} {name es : List Expr} {n : List LChar} {ns : List Str} :
      .ref l name ∈ es → Expands env name n ns → IsSubst (textOf n) → Involves env es
  | name {l : Location} {name es : List Expr} : .ref l name ∈ es → Involves env name → Involves env es
  | value {l : Location} {name es body : List Expr} {n : List LChar} {ns : List Str} :
      .ref l name ∈ es → Expands env name n ns → env (textOf n) = some body → Involves env body → Involves env es

/-- The expression contains a call of `$(eval ...)`, at the top or inside names and arguments. -/
inductive HasEval : List Expr → Prop
  | eval {l : Location} {a es : List Expr} : .eval l a ∈ es → HasEval es
  | ref {l : Location} {n es : List Expr} : .ref l n ∈ es → HasEval n → HasEval es
  | strip {l : Location} {a es : List Expr} : .strip l a ∈ es → HasEval a → HasEval es
  | index {l : Location} {i w es : List Expr} : .word l i w ∈ es → HasEval i → HasEval es
  | word {l : Location} {i w es : List Expr} : .word l i w ∈ es → HasEval w → HasEval es
  | words {l : Location} {a es : List Expr} : .words l a ∈ es → HasEval a → HasEval es

/-- The expression refers to the variable `y`: at the top or inside the name of another reference. -/
inductive Mentions (env : Env) (y : Str) : List Expr → Prop
  | ref {l : Location} {name es : List Expr} {n : List LChar} {ns : List Str} :
      .ref l name ∈ es → Expands env name n ns → ¬ IsSubst (textOf n) → textOf n = y → Mentions env y es
  | name {l : Location} {name es : List Expr} : .ref l name ∈ es → Mentions env y name → Mentions env y es

/-- The value of the variable `x` refers to the variable `y`: an edge of the reference graph. -/
def Refers (env : Env) (x y : Str) : Prop := ∃ body, env x = some body ∧ Mentions env y body

/-- A state as the engine maintains it: no name is interned twice, every variable in the database has a name, and the
values are well-formed. -/
structure St.WF (st : St) : Prop where
  nodup : st.names.vars.strings.Nodup
  known : ∀ v p, st.db.getVariable v = some p → ∃ s, st.names.resolveVar v = some s
  values : ∀ v p, st.db.getVariable v = some p → p.value.WF

/-- The state after the given variable names have been interned, in this order. -/
def St.interned (st : St) (vs : List Str) : St := { st with names := st.names.after (vs.map .var) }

/-- The state in which the named variable has been given a value; used to build concrete states. -/
def St.define (st : St) (s : Str) (a : Ast) (f : Flavor := .recursive) : St :=
  { st with
    names := (st.names.internVar s).2
    db := st.db.setVariable (st.names.internVar s).1 ⟨a, f, .file⟩ }

end Hastur
