import Mathlib.Logic.Relation
import Mathlib.Data.Fintype.EquivFin
import Mathlib.Order.WellFounded
import Mathlib.Data.Finite.Defs
import Mathlib.Data.Fintype.Order
import Verif.Proofs.Frame
import Verif.Proofs.Grow
/-
The reference graph: cycles make evaluation diverge, and without cycles evaluation returns.
-/
namespace Hastur

open Res

/-! ### States without `$(eval)` -/

/-- No value in the database contains `$(eval ...)`. -/
def St.NoEval (st : St) : Prop := ∀ v a, st.db.valueOf v = some a → ¬ HasEval a.flat

/-- Evaluation in such a state keeps the database and adds names. -/
theorem evalInternal_same {fs : Fs} {n : Nat} {a : Ast} {st : St} {x : (Sens × List CRef) × St} (hst : st.NoEval)
    (ha : ¬ HasEval a.flat) (h : (recF fs n).evalInternal a st = .ok x) :
    x.2.db = st.db ∧ ∃ cs, x.2.names = st.names.after cs :=
  ⟨(recF_frames fs n a st x ha h fun v _ => hst v).1,
    (recF_keeps (namesGrow_inv st.names) fs n).evalInternal a st ⟨[], rfl⟩ x h⟩

theorem not_hasEval_name {l : Location} {name : List Expr} (h : ¬ HasEval [.ref l name]) : ¬ HasEval name :=
  fun hh => h (.ref (List.mem_singleton.mpr rfl) hh)

theorem Mentions.split {env : Env} {y : Str} {es fs : List Expr} (h : Mentions env y (es ++ fs)) :
    Mentions env y es ∨ Mentions env y fs := by
  cases h with
  | ref h h2 h3 h4 => exact (List.mem_append.mp h).imp (fun h => .ref h h2 h3 h4) fun h => .ref h h2 h3 h4
  | name h h2 => exact (List.mem_append.mp h).imp (fun h => .name h h2) fun h => .name h h2

theorem not_mentions_text {env : Env} {y : Str} {t : List LChar} : ¬ Mentions env y (Expr.text t) := by
  intro h
  cases h with
  | ref h => simp [Expr.text] at h
  | name h => simp [Expr.text] at h

/-- A budget with which the value of the variable `y` is evaluated in a state like `st`. -/
def Reached (fs : Fs) (st : St) (y : Str) (m : Nat) : Prop :=
  ∃ (st' : St) (v : VariableName) (p : VarParams) (x : (Sens × List CRef) × St),
    st'.db = st.db ∧ (∃ cs, st'.names = st.names.after cs) ∧ st'.names.variableName y = some v ∧
    st.db.getVariable v = some p ∧ (recF fs m).evalInternal p.value st' = .ok x

theorem Reached.mono {fs : Fs} {st st' : St} {y : Str} {m : Nat} (h : Reached fs st' y m) (hd : st'.db = st.db)
    {cs : List NameCall} (hn : st'.names = st.names.after cs) : Reached fs st y m := by
  obtain ⟨s, v, p, x, h1, ⟨ds, h2⟩, h3, h4, h5⟩ := h
  exact ⟨s, v, p, x, h1.trans hd, ⟨cs ++ ds, by rw [NameCache.after_append, ← hn, h2]⟩, h3, by rw [← hd]; exact h4, h5⟩

/-- If evaluation returns, every variable mentioned and defined has been evaluated, with a smaller budget. -/
theorem reached_of_mentions (fs : Fs) (n : Nat) : ∀ (a : Ast) (st : St) (x : (Sens × List CRef) × St) (y : Str),
    a.WF → st.WF → st.NoEval → ¬ HasEval a.flat → (recF fs n).evalInternal a st = .ok x → Mentions st.env y a.flat →
    st.env y ≠ none → ∃ m, m < n ∧ Reached fs st y m := by
  induction n with
  | zero => intro a st x y _ _ _ _ h; cases h
  | succ n ih =>
    have hlist : ∀ (as : List Ast) (st : St) (sens : Sens) (out : List CRef) (x : (Sens × List CRef) × St) (y : Str),
        Ast.WFList as → st.WF → st.NoEval → ¬ HasEval (Ast.flatList as) → evalConcat (recF fs n) as sens out st = .ok x →
        Mentions st.env y (Ast.flatList as) → st.env y ≠ none → ∃ m, m < n ∧ Reached fs st y m := by
      intro as
      induction as with
      | nil =>
        intro st sens out x y _ _ _ _ _ hm
        exact absurd hm (not_mentions_text (t := []))
      | cons a as ihl =>
        intro st sens out x y hw hst hne ha h hm hy
        simp only [evalConcat] at h
        obtain ⟨z, h1, h2⟩ := Res.bind_eq_ok.mp h
        have ha1 : ¬ HasEval a.flat := fun hh => ha (hh.append_right _)
        have ha2 : ¬ HasEval (Ast.flatList as) := fun hh => ha (hh.append_left _)
        rcases Mentions.split hm with hm | hm
        · exact ih a st z y hw.1 hst hne ha1 h1 hm hy
        · obtain ⟨e1, cs, e2⟩ := evalInternal_same hne ha1 h1
          have henv := hst.env_after e1 e2
          obtain ⟨m, hm1, hm2⟩ := ihl z.2 _ _ x y hw.2 (hst.after e1 e2) (by unfold St.NoEval; rw [e1]; exact hne) ha2 h2
            (by rw [henv]; exact hm) (by rw [henv]; exact hy)
          exact ⟨m, hm1, hm2.mono e1 e2⟩
    intro a st x y ha hst hne hna h hm hy
    have h : evalStep (recF fs n) a st = .ok x := h
    cases a with
    | empty l => exact absurd hm (not_mentions_text (t := []))
    | constant l s => exact absurd hm not_mentions_text
    | preEvaluated l b => exact absurd hm not_mentions_text
    | concat l cs =>
      obtain ⟨m, h1, h2⟩ := hlist cs st [] [] x y ha hst hne hna h hm hy
      exact ⟨m, by omega, h2⟩
    | eval l a => exact absurd (.eval (List.mem_singleton.mpr rfl)) hna
    | strip l a => cases h
    | word l i w => cases h
    | words l a => cases h
    | varRef l name =>
      have hna' := not_hasEval_name hna
      simp only [evalStep, evalVarRef] at h
      obtain ⟨⟨nb, st1⟩, h1, h2⟩ := Res.bind_eq_ok.mp h
      have h1' := h1
      simp only [Rec.eval] at h1
      obtain ⟨z, h3, _⟩ := Res.bind_eq_ok.mp h1
      simp only [Ast.flat] at hm
      cases hm with
      | name hm hm2 =>
        cases List.mem_singleton.mp hm
        obtain ⟨m, h1, h2⟩ := ih name st z y ha hst hne hna' h3 hm2 hy
        exact ⟨m, by omega, h2⟩
      | @ref l' name' es nt ns hm he hs hyt =>
        cases List.mem_singleton.mp hm
        obtain ⟨e1, e2⟩ := evals_unique (a := name) ha hst he h3
        have hev : Evals fs st n name nt ns := ⟨z.1.1, z.1.2, by rw [h3, ← e1], e2⟩
        obtain ⟨b, b1, b2, b3, b4, b5⟩ := hev.eval
        rw [h1'] at b1
        cases b1
        have hat := Block.span_at b4 b5
        rw [b2] at hat
        obtain ⟨e, hce⟩ := colonFind_none hat hs
        have hstr : nb.intoString = .ok (textOf nt) := by rw [Block.intoString_eq nb b4, Block.text, b2]
        obtain ⟨hv, henv⟩ := (hst.interned ns).intern (textOf nt)
        rw [hst.env_interned ns, hyt] at henv
        obtain ⟨p, hp⟩ : ∃ p, (st.interned ns).db.getVariable ((st.interned ns).names.internVar y).1 = some p := by
          cases hp : (st.interned ns).db.getVariable ((st.interned ns).names.internVar y).1 with
          | some p => exact ⟨p, rfl⟩
          | none => rw [hp] at henv; exact absurd henv hy
        simp only [hce, Res.ok_bind, hstr, derefVariable, hyt, hp] at h2
        obtain ⟨q, h4, _⟩ := Res.bind_eq_ok.mp h2
        obtain ⟨w, h5, _⟩ := Res.bind_eq_ok.mp h4
        simp only [Rec.eval] at h5
        obtain ⟨u, h6, _⟩ := Res.bind_eq_ok.mp h5
        refine ⟨n, by omega, ((st.interned ns).interned [y]), _, p, u, rfl, ⟨ns.map .var ++ [.var y], ?_⟩,
          by rw [← hyt]; exact hv, by rw [hyt]; exact hp, h6⟩
        rw [NameCache.after_append]
        rfl

/-- A variable on a cycle of the reference graph is never evaluated successfully. -/
theorem cycle_diverges (fs : Fs) (m : Nat) : ∀ (st : St) (x : Str), st.WF → st.NoEval →
    Relation.TransGen (Refers st.env) x x → ¬ Reached fs st x m := by
  induction m using Nat.strongRecOn with
  | _ m ih =>
    intro st x hst hne hcyc ⟨st', v, p, z, hd, ⟨cs, hn⟩, hv, hp, hev⟩
    have henv := hst.env_after hd hn
    have hx : st.env x = some p.value.flat := by
      rw [← henv]
      simp only [St.env, hv, Option.bind_some, hd, hp, Option.map_some]
    -- the first step of the cycle, and the cycle as seen from its end
    obtain ⟨y, ⟨body, hb, hm⟩, hyx⟩ := Relation.TransGen.head'_iff.mp hcyc
    rw [hx] at hb
    cases hb
    have hcy : Relation.TransGen (Refers st.env) y y :=
      Relation.TransGen.tail' hyx ⟨_, hx, hm⟩
    have hy : st.env y ≠ none := by
      obtain ⟨w, ⟨body, hb, _⟩, _⟩ := Relation.TransGen.head'_iff.mp hcy
      rw [hb]; simp
    have hval : st.db.valueOf v = some p.value := by simp [Database.valueOf, hp]
    obtain ⟨k, hk1, hk2⟩ := reached_of_mentions fs m p.value st' z y (hst.values v p hp) (hst.after hd hn)
      (by unfold St.NoEval; rw [hd]; exact hne) (hne v _ hval) hev (by rw [henv]; exact hm) (by rw [henv]; exact hy)
    exact ih k hk1 st y hst hne hcy (hk2.mono hd hn)

/-! ### Acyclic graphs -/

/-- Items and their names have an expansion when the values of the variables mentioned have. -/
theorem expands_of_values {env : Env} (hyp : ℕ) : ∀ (es : List Expr), sizeOf es ≤ hyp → ¬ Involves env es →
    (∀ y body, Mentions env y es → env y = some body → ∃ t vs, Expands env body t vs) →
    ∃ t vs, Expands env es t vs := by
  induction hyp with
  | zero => intro es h; cases es <;> simp at h
  | succ k ih =>
    intro es hk hi hv
    cases es with
    | nil => exact ⟨[], [], .nil⟩
    | cons e es =>
      have hsz : sizeOf (e :: es) = 1 + sizeOf e + sizeOf es := rfl
      obtain ⟨t, vs, hes⟩ := ih es (by omega) (fun h => hi (h.append_left [e])) fun y body hm hb => by
        refine hv y body ?_ hb
        cases hm with
        | ref h h2 h3 h4 => exact .ref (List.mem_cons_of_mem _ h) h2 h3 h4
        | name h h2 => exact .name (List.mem_cons_of_mem _ h) h2
      have hm0 : e ∈ e :: es := List.mem_cons_self
      cases e with
      | char x => exact ⟨_, _, .char hes⟩
      | eval l a => exact absurd (.eval hm0) hi
      | strip l a => exact absurd (.strip hm0) hi
      | word l a b => exact absurd (.word hm0) hi
      | words l a => exact absurd (.words hm0) hi
      | ref l name =>
        have hsz2 : sizeOf (Expr.ref l name) = 1 + sizeOf l + sizeOf name := by simp
        obtain ⟨n, ns, hn⟩ := ih name (by omega) (fun h => hi (.name hm0 h)) fun y body hm hb => hv y body (.name hm0 hm) hb
        have hs : ¬ IsSubst (textOf n) := fun h => hi (.subst hm0 hn h)
        cases hb : env (textOf n) with
        | none => exact ⟨_, _, .undefined hn hs hb hes⟩
        | some body =>
          obtain ⟨u, us, hu⟩ := hv _ body (.ref hm0 hn hs rfl) hb
          exact ⟨_, _, .defined hn hs hb hu hes⟩

/-- Only finitely many variables are defined. -/
theorem St.env_finite (st : St) : Set.Finite {s | st.env s ≠ none} := by
  have hfin : Set.Finite {s | s ∈ st.names.vars.strings} := List.finite_toSet _
  refine hfin.subset ?_
  intro s hs
  simp only [Set.mem_ofPred_eq, St.env] at hs
  cases hv : st.names.variableName s with
  | none => rw [hv] at hs; exact absurd rfl hs
  | some v =>
    simp only [NameCache.variableName, Option.map_eq_some_iff] at hv
    obtain ⟨k, hk, _⟩ := hv
    exact List.mem_of_getElem? (Interner.get_some hk)

/-- Without cycles, every value has an expansion. -/
theorem values_expand {env : Env} (hfin : Set.Finite {s | env s ≠ none})
    (hacyc : ∀ x, ¬ Relation.TransGen (Refers env) x x) (hplain : ∀ x body, env x = some body → ¬ Involves env body) :
    ∀ x body, env x = some body → ∃ t vs, Expands env body t vs := by
  have hf : Finite {s | env s ≠ none} := hfin
  let R : {s | env s ≠ none} → {s | env s ≠ none} → Prop := fun a b => Relation.TransGen (Refers env) b.1 a.1
  have : IsTrans _ R := ⟨fun a b c h1 h2 => h2.trans h1⟩
  have : Std.Irrefl R := ⟨fun a h => hacyc a.1 h⟩
  have wf : WellFounded R := Finite.wellFounded_of_trans_of_irrefl R
  have : ∀ z : {s | env s ≠ none}, ∀ body, env z.1 = some body → ∃ t vs, Expands env body t vs := by
    intro z
    induction z using wf.induction with
    | _ z ih =>
      intro body hb
      refine expands_of_values _ body (Nat.le_refl _) (hplain _ _ hb) fun y by' hm hy => ?_
      exact ih ⟨y, by simp [hy]⟩ (.single ⟨body, hb, hm⟩) by' hy
  intro x body hb
  exact this ⟨x, by simp [hb]⟩ body hb

end Hastur
