import Verif.Proofs.Db
import Verif.Spec.Eval
import Verif.Proofs.Fuel
import Verif.Proofs.Tail
import Verif.Proofs.Names
import Verif.Proofs.Blocks
/-
Lemmas: evaluation follows the expansion semantics.
-/
namespace Hastur

open Res

/-! ### Names -/

theorem colonFind_none {P : Block} {t : List LChar} {i : Span} (h : i.At P t) (hs : ¬ IsSubst (textOf t)) :
    ∃ e, colonFind i = .ok (.err e) := by
  unfold colonFind
  by_cases hm : ':' ∈ textOf t
  · obtain ⟨r, u, l, v, n, h1, h2, h3, h4, _, _⟩ := (Nom.recognize_consume (c := ':') (by decide) h).1 hm
    rw [h1, done_andThen]
    have hm' : '=' ∉ textOf v := by
      intro hv
      obtain ⟨a, l', b, e, ha, _⟩ := Nom.takeWhile_split hv
      refine hs ⟨textOf u, textOf a, textOf b, by rw [h2, e]; simp, ?_, ?_⟩
      · intro hc; exact h4 (by rw [e]; simp [hc])
      · intro hc; exact h4 (by rw [e]; simp [hc])
    rw [(Nom.recognize_consume (c := '=') (by decide) h3).2 hm']
    exact ⟨_, rfl⟩
  · rw [(Nom.recognize_consume (c := ':') (by decide) h).2 hm]
    exact ⟨_, rfl⟩

/-! ### States -/

theorem variableName_iff' (n : NameCache) (h : n.vars.strings.Nodup) (s : Str) (f : VariableName) :
    n.variableName s = some f ↔ n.resolveVar f = some s := by
  unfold NameCache.variableName NameCache.resolveVar
  constructor
  · intro hs
    simp only [Option.map_eq_some_iff] at hs
    obtain ⟨k, hk, rfl⟩ := hs
    exact Interner.get_some hk
  · intro hr
    rw [Interner.resolve_get h hr]
    rfl

theorem vars_nodup_after (n : NameCache) (cs : List NameCall) (h : n.vars.strings.Nodup) :
    (n.after cs).vars.strings.Nodup := by
  induction cs generalizing n with
  | nil => exact h
  | cons c cs ih =>
    refine ih _ ?_
    cases c with
    | file s => exact h
    | var s => exact Interner.nodup_intern _ _ h

@[simp] theorem St.interned_nil (st : St) : st.interned [] = st := rfl
theorem St.interned_append (st : St) (a b : List Str) : st.interned (a ++ b) = (st.interned a).interned b := by
  simp [St.interned, NameCache.after]
theorem St.interned_cons (st : St) (s : Str) (b : List Str) :
    st.interned (s :: b) = ({ st with names := (st.names.internVar s).2 } : St).interned b := rfl
@[simp] theorem St.interned_db (st : St) (vs : List Str) : (st.interned vs).db = st.db := rfl

theorem St.WF.interned {st : St} (h : st.WF) (vs : List Str) : (st.interned vs).WF :=
  ⟨vars_nodup_after _ _ h.nodup, fun v p hv => by
    obtain ⟨s, hs⟩ := h.known v p hv
    exact ⟨s, NameCache.resolveVar_after _ _ _ _ hs⟩, h.values⟩

/-- States with the same database and a cache to which names have been added. -/
theorem St.WF.after {st st' : St} (h : st.WF) (hd : st'.db = st.db) {cs : List NameCall}
    (hn : st'.names = st.names.after cs) : st'.WF := by
  refine ⟨by rw [hn]; exact vars_nodup_after _ _ h.nodup, fun v p hv => ?_, fun v p hv => ?_⟩
  · rw [hd] at hv
    obtain ⟨s, hs⟩ := h.known v p hv
    rw [hn]
    exact ⟨s, NameCache.resolveVar_after _ _ _ _ hs⟩
  · rw [hd] at hv
    exact h.values v p hv

theorem St.WF.env_after {st st' : St} (h : st.WF) (hdb : st'.db = st.db) {cs : List NameCall}
    (hn : st'.names = st.names.after cs) : st'.env = st.env := by
  have hd : st'.names.vars.strings.Nodup := by rw [hn]; exact vars_nodup_after st.names cs h.nodup
  funext s
  simp only [St.env, hdb]
  congr 1
  cases hv : st.names.variableName s with
  | some v =>
    have hr := NameCache.resolveVar_after _ cs _ _ ((variableName_iff' _ h.nodup _ _).mp hv)
    rw [← hn] at hr
    rw [(variableName_iff' _ hd _ _).mpr hr]
  | none =>
    cases hv' : st'.names.variableName s with
    | none => rfl
    | some v =>
      simp only [Option.bind_none, Option.bind_some]
      cases hg : st.db.getVariable v with
      | none => rfl
      | some p =>
        exfalso
        obtain ⟨s', hs'⟩ := h.known v p hg
        have h1 := NameCache.resolveVar_after _ cs _ _ hs'
        rw [← hn] at h1
        have h2 := (variableName_iff' _ hd _ _).mp hv'
        have h3 : s' = s := Option.some.inj (h1.symm.trans h2)
        subst h3
        rw [(variableName_iff' _ h.nodup _ _).mpr hs'] at hv
        cases hv

theorem St.WF.env_interned {st : St} (h : st.WF) (vs : List Str) : (st.interned vs).env = st.env :=
  h.env_after rfl rfl

/-- Interning a name: the handle stands for the name, and the database has the value of the name under it. -/
theorem St.WF.intern {st : St} (h : st.WF) (s : Str) :
    (st.interned [s]).names.variableName s = some (st.names.internVar s).1 ∧
      st.env s = (st.db.getVariable (st.names.internVar s).1).map fun p => p.value.flat := by
  have h1 : (st.interned [s]).names.variableName s = some (st.names.internVar s).1 :=
    (variableName_iff' _ (vars_nodup_after _ _ h.nodup) _ _).mpr (NameCache.resolveVar_internVar _ _)
  refine ⟨h1, ?_⟩
  rw [← h.env_interned [s]]
  simp only [St.env, h1, Option.bind_some]
  rfl

theorem St.init_wf : St.init.WF :=
  ⟨List.nodup_nil, fun v p h => (by cases h), fun v p h => (by cases h)⟩

/-- Setting a variable that has a name. -/
theorem St.WF.set {st : St} (h : st.WF) {v : VariableName} {s : Str} {p : VarParams}
    (hv : st.names.variableName s = some v) (hp : p.value.WF) :
    ({ st with db := st.db.setVariable v p } : St).WF ∧
      ∀ x, ({ st with db := st.db.setVariable v p } : St).env x = if x = s then some p.value.flat else st.env x := by
  have hget : ∀ w, (st.db.setVariable v p).getVariable w = if w = v then some p else st.db.getVariable w :=
    fun w => AMap.get_insert _ _ _ _
  refine ⟨⟨h.nodup, fun w q hw => ?_, fun w q hw => ?_⟩, fun x => ?_⟩
  · rw [hget] at hw
    by_cases e : w = v
    · subst e
      exact ⟨s, (variableName_iff' _ h.nodup _ _).mp hv⟩
    · rw [if_neg e] at hw
      exact h.known w q hw
  · rw [hget] at hw
    by_cases e : w = v
    · rw [if_pos e] at hw
      cases hw
      exact hp
    · rw [if_neg e] at hw
      exact h.values w q hw
  · simp only [St.env]
    by_cases e : x = s
    · subst e
      rw [if_pos rfl, hv]
      simp [hget]
    · rw [if_neg e]
      cases hx : st.names.variableName x with
      | none => rfl
      | some w =>
        have : w ≠ v := by
          rintro rfl
          have h1 := (variableName_iff' _ h.nodup _ _).mp hv
          have h2 := (variableName_iff' _ h.nodup _ _).mp hx
          exact e (Option.some.inj (h2.symm.trans h1))
        simp only [Option.bind_some, hget, if_neg this]

theorem St.WF.define {st : St} (h : st.WF) {s : Str} {a : Ast} {f : Flavor} (ha : a.WF) :
    (st.define s a f).WF ∧ ∀ x, (st.define s a f).env x = if x = s then some a.flat else st.env x := by
  have := (h.interned [s]).set (p := ⟨a, f, .file⟩) (h.intern s).1 ha
  rw [h.env_interned] at this
  exact this

/-! ### Expansion -/

theorem Expands.append {env : Env} {es fs : List Expr} {t u : List LChar} {vs us : List Str} (h : Expands env es t vs)
    (h' : Expands env fs u us) : Expands env (es ++ fs) (t ++ u) (vs ++ us) := by
  induction h with
  | nil => exact h'
  | char _ ih => exact .char ih
  | undefined h1 h2 h3 _ _ ih =>
    rw [List.append_assoc, List.cons_append]
    exact .undefined h1 h2 h3 ih
  | defined h1 h2 h3 h4 _ _ _ ih =>
    have := Expands.defined (l := by assumption) h1 h2 h3 h4 ih
    simpa using this

theorem Expands.text (env : Env) (t : List LChar) : Expands env (Expr.text t) t [] := by
  induction t with
  | nil => exact .nil
  | cons x t ih => exact .char ih

/-- The height of a derivation, as an upper bound. -/
inductive ExpandsN (env : Env) : Nat → List Expr → List LChar → List Str → Prop
  | nil {k : Nat} : ExpandsN env k [] [] []
  | char {k : Nat} {x : LChar} {es : List Expr} {t : List LChar} {vs : List Str} :
      ExpandsN env k es t vs → ExpandsN env k (.char x :: es) (x :: t) vs
  | undefined {k : Nat} {l : Location} {name es : List Expr} {n t : List LChar} {ns vs : List Str} :
      ExpandsN env k name n ns → ¬ IsSubst (textOf n) → env (textOf n) = none → ExpandsN env (k + 1) es t vs →
      ExpandsN env (k + 1) (.ref l name :: es) t (ns ++ textOf n :: vs)
  | defined {k : Nat} {l : Location} {name es body : List Expr} {n t u : List LChar} {ns vs us : List Str} :
      ExpandsN env k name n ns → ¬ IsSubst (textOf n) → env (textOf n) = some body → ExpandsN env k body u us →
      ExpandsN env (k + 1) es t vs → ExpandsN env (k + 1) (.ref l name :: es) (u ++ t) (ns ++ textOf n :: (us ++ vs))

theorem ExpandsN.succ {env : Env} {k : Nat} {es : List Expr} {t : List LChar} {vs : List Str}
    (h : ExpandsN env k es t vs) : ExpandsN env (k + 1) es t vs := by
  induction h with
  | nil => exact .nil
  | char _ ih => exact .char ih
  | undefined _ h2 h3 _ ih1 ih2 => exact .undefined ih1 h2 h3 ih2
  | defined _ h2 h3 _ _ ih1 ih2 ih3 => exact .defined ih1 h2 h3 ih2 ih3

theorem ExpandsN.mono {env : Env} {k k' : Nat} (hk : k ≤ k') {es : List Expr} {t : List LChar} {vs : List Str}
    (h : ExpandsN env k es t vs) : ExpandsN env k' es t vs := by
  induction hk with
  | refl => exact h
  | step _ ih => exact ih.succ

theorem ExpandsN.expands {env : Env} {k : Nat} {es : List Expr} {t : List LChar} {vs : List Str}
    (h : ExpandsN env k es t vs) : Expands env es t vs := by
  induction h with
  | nil => exact .nil
  | char _ ih => exact .char ih
  | undefined _ h2 h3 _ ih1 ih2 => exact .undefined ih1 h2 h3 ih2
  | defined _ h2 h3 _ _ ih1 ih2 ih3 => exact .defined ih1 h2 h3 ih2 ih3

theorem Expands.height {env : Env} {es : List Expr} {t : List LChar} {vs : List Str}
    (h : Expands env es t vs) : ∃ k, ExpandsN env k es t vs := by
  induction h with
  | nil => exact ⟨0, .nil⟩
  | char _ ih => obtain ⟨k, h⟩ := ih; exact ⟨k, .char h⟩
  | undefined _ h2 h3 _ ih1 ih2 =>
    obtain ⟨k1, g1⟩ := ih1
    obtain ⟨k2, g2⟩ := ih2
    exact ⟨max k1 k2 + 1, .undefined (g1.mono (by omega)) h2 h3 (g2.mono (by omega))⟩
  | defined _ h2 h3 _ _ ih1 ih2 ih3 =>
    obtain ⟨k1, g1⟩ := ih1
    obtain ⟨k2, g2⟩ := ih2
    obtain ⟨k3, g3⟩ := ih3
    exact ⟨max k1 (max k2 k3) + 1, .defined (g1.mono (by omega)) h2 h3 (g2.mono (by omega)) (g3.mono (by omega))⟩

theorem ExpandsN.split {env : Env} {k : Nat} {es fs : List Expr} : ∀ {t : List LChar} {vs : List Str},
    ExpandsN env k (es ++ fs) t vs → ∃ t1 t2 v1 v2, t = t1 ++ t2 ∧ vs = v1 ++ v2 ∧ ExpandsN env k es t1 v1 ∧
      ExpandsN env k fs t2 v2 := by
  induction es with
  | nil => intro t vs h; exact ⟨[], t, [], vs, rfl, rfl, .nil, h⟩
  | cons e es ih =>
    intro t vs h
    rw [List.cons_append] at h
    cases h with
    | char h =>
      obtain ⟨t1, t2, v1, v2, rfl, rfl, h1, h2⟩ := ih h
      exact ⟨_, t2, v1, v2, rfl, rfl, .char h1, h2⟩
    | undefined g1 g2 g3 h =>
      obtain ⟨t1, t2, v1, v2, rfl, rfl, h1, h2⟩ := ih h
      exact ⟨_, t2, _, v2, rfl, by simp, .undefined g1 g2 g3 h1, h2⟩
    | defined g1 g2 g3 g4 h =>
      obtain ⟨t1, t2, v1, v2, rfl, rfl, h1, h2⟩ := ih h
      exact ⟨_, t2, _, v2, by simp, by simp, .defined g1 g2 g3 g4 h1, h2⟩

theorem Expands.split {env : Env} {es fs : List Expr} {t : List LChar} {vs : List Str}
    (h : Expands env (es ++ fs) t vs) : ∃ t1 t2 v1 v2, t = t1 ++ t2 ∧ vs = v1 ++ v2 ∧ Expands env es t1 v1 ∧
      Expands env fs t2 v2 := by
  obtain ⟨k, h⟩ := h.height
  obtain ⟨t1, t2, v1, v2, e1, e2, h1, h2⟩ := h.split
  exact ⟨t1, t2, v1, v2, e1, e2, h1.expands, h2.expands⟩

/-- An expression has at most one expansion. -/
theorem Expands.det {env : Env} {es : List Expr} {t : List LChar} {vs : List Str} (h : Expands env es t vs) :
    ∀ {t' : List LChar} {vs' : List Str}, Expands env es t' vs' → t = t' ∧ vs = vs' := by
  induction h with
  | nil => intro t' vs' h'; cases h'; exact ⟨rfl, rfl⟩
  | char _ ih =>
    intro t' vs' h'
    cases h' with
    | char h' => obtain ⟨rfl, rfl⟩ := ih h'; exact ⟨rfl, rfl⟩
  | undefined _ h2 h3 _ ih1 ih2 =>
    intro t' vs' h'
    cases h' with
    | undefined g1 g2 g3 g4 =>
      obtain ⟨rfl, rfl⟩ := ih1 g1
      obtain ⟨rfl, rfl⟩ := ih2 g4
      exact ⟨rfl, rfl⟩
    | defined g1 g2 g3 g4 g5 =>
      obtain ⟨rfl, rfl⟩ := ih1 g1
      rw [h3] at g3; cases g3
  | defined _ h2 h3 _ _ ih1 ih2 ih3 =>
    intro t' vs' h'
    cases h' with
    | undefined g1 g2 g3 g4 =>
      obtain ⟨rfl, rfl⟩ := ih1 g1
      rw [h3] at g3; cases g3
    | defined g1 g2 g3 g4 g5 =>
      obtain ⟨rfl, rfl⟩ := ih1 g1
      rw [h3] at g3
      cases g3
      obtain ⟨rfl, rfl⟩ := ih2 g4
      obtain ⟨rfl, rfl⟩ := ih3 g5
      exact ⟨rfl, rfl⟩

/-! ### Evaluation of expressions that have an expansion -/

/-- The reported set of variables consists of the handles of the consulted names. -/
def SensOf (sens : Sens) (names : NameCache) (vs : List Str) : Prop :=
  ∀ v, v ∈ sens ↔ ∃ s ∈ vs, names.variableName s = some v

/-- The outcome of an evaluation: references with the expected text, the consulted names interned and reported. -/
structure EvalOut (st : St) (t : List LChar) (vs : List Str) (sens : Sens) (cs : List CRef) : Prop where
  wf : CRef.WFList cs
  ltext : CRef.ltextList cs = t
  sens : SensOf sens (st.interned vs).names vs

theorem variableName_interned {st : St} (h : st.WF) {s : Str} {v : VariableName} (vs : List Str)
    (hv : st.names.variableName s = some v) : (st.interned vs).names.variableName s = some v :=
  (variableName_iff' _ (vars_nodup_after _ _ h.nodup) _ _).mpr
    (NameCache.resolveVar_after _ _ _ _ ((variableName_iff' _ h.nodup _ _).mp hv))

theorem variableName_known {st : St} (h : st.WF) {s : Str} {vs : List Str} (hs : s ∈ vs) :
    ∃ v, (st.interned vs).names.variableName s = some v := by
  obtain ⟨a, b, rfl⟩ := List.append_of_mem hs
  rw [St.interned_append, show s :: b = [s] ++ b from rfl, St.interned_append]
  have := ((h.interned a).intern s).1
  exact ⟨_, variableName_interned ((h.interned a).interned [s]) b this⟩

/-- The reported variables of a first evaluation, seen after a second one. -/
theorem SensOf.interned {st : St} (h : st.WF) {sens : Sens} {vs : List Str} (us : List Str)
    (hs : SensOf sens (st.interned vs).names vs) : SensOf sens (st.interned (vs ++ us)).names vs := by
  intro v
  rw [hs v, St.interned_append]
  constructor
  · rintro ⟨s, hm, hv⟩
    exact ⟨s, hm, variableName_interned (h.interned vs) us hv⟩
  · rintro ⟨s, hm, hv⟩
    obtain ⟨w, hw⟩ := variableName_known h hm
    have := variableName_interned (h.interned vs) us hw
    rw [this] at hv
    exact ⟨s, hm, by rw [hw, ← hv]⟩

theorem SensOf.union {st : St} (h : st.WF) {s1 s2 : Sens} {vs us : List Str}
    (h1 : SensOf s1 (st.interned vs).names vs) (h2 : SensOf s2 ((st.interned vs).interned us).names us) :
    SensOf (Sens.union s1 s2) (st.interned (vs ++ us)).names (vs ++ us) := by
  intro v
  rw [Sens.mem_union, h1.interned h us v, h2 v, St.interned_append]
  simp only [List.mem_append]
  constructor
  · rintro (⟨s, a, b⟩ | ⟨s, a, b⟩)
    · exact ⟨s, .inl a, b⟩
    · exact ⟨s, .inr a, b⟩
  · rintro ⟨s, a | a, b⟩
    · exact .inl ⟨s, a, b⟩
    · exact .inr ⟨s, a, b⟩

theorem SensOf.nil (st : St) : SensOf [] (st.interned []).names [] := fun v => by simp

theorem CRef.ofNode_wf {n : Node} (h : Node.WF n) : CRef.WF (CRef.ofNode n) := ⟨by simp, h⟩

theorem CRef.ofNode_ltext {n : Node} (h : Node.WF n) : CRef.ltext (CRef.ofNode n) = Node.ltext n := by
  simp only [CRef.ofNode, CRef.ltext, List.drop_zero]
  rw [List.take_of_length_le (by rw [Node.ltext_length n h])]

/-- `AstNode::eval` on top of `eval_internal`. -/
theorem eval_of_internal {r : Rec} {a : Ast} {st st' : St} {sens : Sens} {cs : List CRef}
    (h : r.evalInternal a st = .ok ((sens, cs), st')) (hw : CRef.WFList cs) :
    ∃ b, r.eval a st = .ok (b, st') ∧ Block.ltext b = CRef.ltextList cs ∧ b.sens = sens ∧ Block.WF b ∧ b.Solid := by
  obtain ⟨b, h1, h2, _, h4, h5, h6, _⟩ := Block.new_spec (sens := sens) hw
  exact ⟨b, by simp only [Rec.eval, h, Res.ok_bind, h1]; rfl, h2, h4, h5, h6⟩

/-- Evaluation of a tree with the given budget gives what the expansion says. -/
def Evals (fs : Fs) (st : St) (N : Nat) (a : Ast) (t : List LChar) (vs : List Str) : Prop :=
  ∃ sens cs, (recF fs N).evalInternal a st = .ok ((sens, cs), st.interned vs) ∧ EvalOut st t vs sens cs

theorem Evals.mono {fs : Fs} {st : St} {N M : Nat} {a : Ast} {t : List LChar} {vs : List Str} (hNM : N ≤ M)
    (h : Evals fs st N a t vs) : Evals fs st M a t vs := by
  obtain ⟨sens, cs, h1, h2⟩ := h
  exact ⟨sens, cs, ((recF_le fs hNM).evalInternal a st).ok h1, h2⟩

theorem Evals.eval {fs : Fs} {st : St} {N : Nat} {a : Ast} {t : List LChar} {vs : List Str} (h : Evals fs st N a t vs) :
    ∃ b, (recF fs N).eval a st = .ok (b, st.interned vs) ∧ Block.ltext b = t ∧
      SensOf b.sens (st.interned vs).names vs ∧ Block.WF b ∧ b.Solid := by
  obtain ⟨sens, cs, h1, h2⟩ := h
  obtain ⟨b, g1, g2, g3, g4, g5⟩ := eval_of_internal h1 h2.wf
  exact ⟨b, g1, by rw [g2, h2.ltext], by rw [g3]; exact h2.sens, g4, g5⟩

/-- Evaluation of a sequence, as a continuation of what has been collected so far. -/
def EvalsList (fs : Fs) (st : St) (N : Nat) (as : List Ast) (t : List LChar) (vs : List Str) : Prop :=
  ∀ (st0 : St) (sens : Sens) (out : List CRef) (t0 : List LChar) (vs0 : List Str), st0.WF → st = st0.interned vs0 →
    EvalOut st0 t0 vs0 sens out →
    ∃ sens' out', evalConcat (recF fs N) as sens out st = .ok ((sens', out'), st0.interned (vs0 ++ vs)) ∧
      EvalOut st0 (t0 ++ t) (vs0 ++ vs) sens' out'

theorem EvalsList.mono {fs : Fs} {st : St} {N M : Nat} {as : List Ast} {t : List LChar} {vs : List Str} (hNM : N ≤ M)
    (h : EvalsList fs st N as t vs) : EvalsList fs st M as t vs := by
  intro st0 sens out t0 vs0 hw hst hout
  obtain ⟨sens', out', h1, h2⟩ := h st0 sens out t0 vs0 hw hst hout
  exact ⟨sens', out', (evalConcat_le (recF_le fs hNM) as sens out st).ok h1, h2⟩

/-- Evaluation of a reference, given the evaluations of the name and of the value. -/
theorem evals_ref {fs : Fs} {st : St} {N : Nat} {l : Location} {a : Ast} {n u : List LChar} {ns us : List Str}
    (hw : st.WF) (hn : Evals fs st N a n ns) (hs : ¬ IsSubst (textOf n))
    (hu : (st.env (textOf n) = none ∧ u = [] ∧ us = []) ∨
      (∀ p, st.db.getVariable (((st.interned ns).names.internVar (textOf n)).1) = some p →
        Evals fs ((st.interned ns).interned [textOf n]) N p.value u us) ∧ st.env (textOf n) ≠ none) :
    Evals fs st (N + 1) (.varRef l a) u (ns ++ textOf n :: us) := by
  obtain ⟨b, h1, h2, h3, h4, h5⟩ := hn.eval
  have hat := Block.span_at h4 h5
  rw [h2] at hat
  obtain ⟨e, he⟩ := colonFind_none hat hs
  have hstr : b.intoString = .ok (textOf n) := by rw [Block.intoString_eq b h4, Block.text, h2]
  have hw1 := hw.interned ns
  obtain ⟨hv, henv⟩ := hw1.intern (textOf n)
  rw [hw.env_interned ns] at henv
  have hsens0 : SensOf (Sens.union [] b.sens) (st.interned ns).names ns := by
    intro v; rw [Sens.mem_union, h3 v]; simp
  have hsens1 : ∀ (x : Sens), SensOf x (((st.interned ns).interned [textOf n]).interned us).names us →
      SensOf (Sens.insert (Sens.union (Sens.union [] b.sens) x) ((st.interned ns).names.internVar (textOf n)).1)
        (st.interned (ns ++ textOf n :: us)).names (ns ++ textOf n :: us) := by
    intro x hx
    have h1 : SensOf [((st.interned ns).names.internVar (textOf n)).1] ((st.interned ns).interned [textOf n]).names
        [textOf n] := by
      intro v
      simp only [List.mem_singleton, exists_eq_left]
      rw [hv]
      exact ⟨fun e => by rw [e], fun e => (Option.some.inj e).symm⟩
    have h2 := SensOf.union hw1 h1 hx
    have h3 := SensOf.union hw hsens0 h2
    intro v
    rw [show ns ++ textOf n :: us = ns ++ ([textOf n] ++ us) from rfl, ← h3 v]
    simp only [Sens.mem_insert, Sens.mem_union, List.mem_singleton]
    tauto
  show ∃ sens cs, evalStep (recF fs N) (.varRef l a) st = _ ∧ _
  simp only [evalStep, evalVarRef, h1, Res.ok_bind, he, hstr, derefVariable]
  rw [show (st.interned (ns ++ textOf n :: us)) = ((st.interned ns).interned [textOf n]).interned us by
    rw [St.interned_append]; rfl]
  rcases hu with ⟨hu, rfl, rfl⟩ | ⟨hu, hne⟩
  · rw [henv, Option.map_eq_none_iff] at hu
    have hu' : st.db.getVariable ((st.interned ns).names.internVar (textOf n)).1 = none := hu
    simp only [St.interned_db, hu']
    refine ⟨_, _, rfl, ?_, ?_, ?_⟩
    · exact ⟨CRef.ofNode_wf (n := .varRef b Block.empty) trivial, trivial⟩
    · have := CRef.ofNode_ltext (n := .varRef b Block.empty) trivial
      rw [show CRef.ltextList [CRef.ofNode (.varRef b Block.empty)] = CRef.ltext (CRef.ofNode (.varRef b Block.empty)) ++ []
        from rfl, this]
      rfl
    · have := hsens1 [] (SensOf.nil _)
      intro v
      rw [← this v]
      simp only [Sens.mem_insert, Sens.mem_union]
      simp
  · obtain ⟨p, hp⟩ : ∃ p, st.db.getVariable ((st.interned ns).names.internVar (textOf n)).1 = some p := by
      cases hp : st.db.getVariable ((st.interned ns).names.internVar (textOf n)).1 with
      | some p => exact ⟨p, rfl⟩
      | none => rw [henv] at hne; simp only [St.interned_db, hp] at hne; exact absurd rfl hne
    obtain ⟨c, c1, c2, c3, c4, c5⟩ := (hu p hp).eval
    simp only [St.interned_db, hp]
    have c1' : (recF fs N).eval p.value
        ⟨st.db, ((st.interned ns).names.internVar (textOf n)).2, (st.interned ns).commandChar⟩ = _ := c1
    rw [c1']
    simp only [Res.ok_bind, Res.pure_eq]
    refine ⟨_, _, rfl, ?_, ?_, hsens1 c.sens c3⟩
    · exact ⟨CRef.ofNode_wf (n := .varRef b c) c4, trivial⟩
    · simp only [CRef.ltextList, CRef.ofNode_ltext (n := .varRef b c) c4, Node.ltext, c2, List.append_nil]

mutual
theorem evals_tree (fs : Fs) (k : Nat)
    (ih : ∀ (a : Ast) (st : St) (t : List LChar) (vs : List Str) (k' : Nat), k' < k → a.WF → st.WF →
      ExpandsN st.env k' a.flat t vs → ∃ N, Evals fs st N a t vs) :
    ∀ (a : Ast) (st : St) (t : List LChar) (vs : List Str), a.WF → st.WF → ExpandsN st.env k a.flat t vs →
      ∃ N, Evals fs st N a t vs
  | .empty l, st, t, vs, _, _, h => by
    cases h
    exact ⟨1, [], [], rfl, trivial, rfl, SensOf.nil st⟩
  | .constant l s, st, t, vs, ha, _, h => by
    obtain ⟨rfl, rfl⟩ := (Expands.text st.env s.ltext).det h.expands
    exact ⟨1, [], [CRef.ofNode (.constant s)], rfl, ⟨CRef.ofNode_wf (n := .constant s) ha, trivial⟩,
      by simp [CRef.ltextList, CRef.ofNode_ltext (n := .constant s) ha, Node.ltext], SensOf.nil st⟩
  | .preEvaluated l b, st, t, vs, ha, _, h => by
    obtain ⟨rfl, rfl⟩ := (Expands.text st.env (Block.ltext b)).det h.expands
    exact ⟨1, [], b.content, rfl, by rw [← Block.wf_eq]; exact ha, by rw [Block.ltext_eq], SensOf.nil st⟩
  | .concat l cs, st, t, vs, ha, hst, h => by
    obtain ⟨N, hN⟩ := evals_list fs k ih cs st t vs ha hst h
    obtain ⟨sens', out', h1, h2⟩ := hN st [] [] [] [] hst rfl ⟨trivial, rfl, SensOf.nil st⟩
    exact ⟨N + 1, sens', out', h1, h2⟩
  | .varRef l n, st, t, vs, ha, hst, h => by
    simp only [Ast.flat] at h
    cases h with
    | undefined g1 g2 g3 g4 =>
      cases g4
      obtain ⟨N, hN⟩ := ih n st _ _ _ (Nat.lt_succ_self _) ha hst g1
      exact ⟨N + 1, evals_ref hst hN g2 (.inl ⟨g3, rfl, rfl⟩)⟩
    | @defined k _ _ _ body n' _ u ns _ us g1 g2 g3 g4 g5 =>
      cases g5
      obtain ⟨N, hN⟩ := ih n st _ _ _ (Nat.lt_succ_self _) ha hst g1
      obtain ⟨hv, henv⟩ := (hst.interned ns).intern (textOf n')
      rw [hst.env_interned ns] at henv
      rw [g3] at henv
      obtain ⟨p, hp, hflat⟩ := Option.map_eq_some_iff.mp henv.symm
      have hw2 := (hst.interned ns).interned [textOf n']
      obtain ⟨M, hM⟩ := ih p.value ((st.interned ns).interned [textOf n']) u us k (Nat.lt_succ_self _)
        (hst.values _ _ hp) hw2 (by rw [(hst.interned ns).env_interned, hst.env_interned, hflat]; exact g4)
      simp only [List.append_nil]
      refine ⟨max N M + 1, evals_ref hst (hN.mono (by omega)) g2 (.inr ⟨?_, by rw [g3]; simp⟩)⟩
      intro q hq
      have hp' : st.db.getVariable ((st.interned ns).names.internVar (textOf n')).1 = some p := hp
      rw [hp'] at hq
      cases hq
      exact hM.mono (by omega)
  | .eval l a, st, t, vs, _, _, h => by cases h
  | .strip l a, st, t, vs, _, _, h => by cases h
  | .word l i w, st, t, vs, _, _, h => by cases h
  | .words l a, st, t, vs, _, _, h => by cases h

theorem evals_list (fs : Fs) (k : Nat)
    (ih : ∀ (a : Ast) (st : St) (t : List LChar) (vs : List Str) (k' : Nat), k' < k → a.WF → st.WF →
      ExpandsN st.env k' a.flat t vs → ∃ N, Evals fs st N a t vs) :
    ∀ (as : List Ast) (st : St) (t : List LChar) (vs : List Str), Ast.WFList as → st.WF →
      ExpandsN st.env k (Ast.flatList as) t vs → ∃ N, EvalsList fs st N as t vs
  | [], st, t, vs, _, _, h => by
    cases h
    refine ⟨0, ?_⟩
    intro st0 sens out t0 vs0 hw hst hout
    refine ⟨sens, out, ?_, by simpa using hout⟩
    simp [evalConcat, hst]
  | a :: as, st, t, vs, ha, hst, h => by
    obtain ⟨t1, t2, v1, v2, rfl, rfl, h1, h2⟩ := h.split
    obtain ⟨N, hN⟩ := evals_tree fs k ih a st t1 v1 ha.1 hst h1
    obtain ⟨M, hM⟩ := evals_list fs k ih as (st.interned v1) t2 v2 ha.2 (hst.interned v1)
      (by rw [hst.env_interned]; exact h2)
    refine ⟨max N M, ?_⟩
    intro st0 sens out t0 vs0 hw hst0 hout
    obtain ⟨s1, c1, g1, g2⟩ := hN.mono (M := max N M) (by omega)
    simp only [evalConcat, g1, Res.ok_bind]
    have hst1 : st.interned v1 = st0.interned (vs0 ++ v1) := by rw [hst0, St.interned_append]
    obtain ⟨s2, c2, k1, k2⟩ := hM.mono (M := max N M) (by omega) st0 (Sens.union sens s1) (out ++ c1) (t0 ++ t1)
      (vs0 ++ v1) hw hst1
      ⟨CRef.wfList_append.mpr ⟨hout.wf, g2.wf⟩, by rw [CRef.ltextList_append, hout.ltext, g2.ltext],
        SensOf.union hw hout.sens (by rw [← hst0]; exact g2.sens)⟩
    rw [List.append_assoc, List.append_assoc] at k2
    rw [List.append_assoc] at k1
    exact ⟨s2, c2, k1, k2⟩
end

/-- An expression that has an expansion is evaluated to it, given enough budget. -/
theorem evals_of_expands (fs : Fs) {a : Ast} {st : St} {t : List LChar} {vs : List Str} (ha : a.WF) (hst : st.WF)
    (h : Expands st.env a.flat t vs) : ∃ N, Evals fs st N a t vs := by
  obtain ⟨k, hk⟩ := h.height
  clear h
  induction k using Nat.strongRecOn generalizing a st t vs with
  | _ k ih => exact evals_tree fs k (fun a st t vs k' hk ha hst h => ih k' hk ha hst h) a st t vs ha hst hk

/-- What evaluation with budget `n` gives, if anything, is what the expansion says. -/
theorem evals_unique {fs : Fs} {a : Ast} {st : St} {t : List LChar} {vs : List Str} (ha : a.WF) (hst : st.WF)
    (h : Expands st.env a.flat t vs) {n : Nat} {x : (Sens × List CRef) × St}
    (hx : (recF fs n).evalInternal a st = .ok x) :
    x.2 = st.interned vs ∧ EvalOut st t vs x.1.1 x.1.2 := by
  obtain ⟨N, sens, cs, h1, h2⟩ := evals_of_expands fs ha hst h
  have e1 := ((recF_le fs (Nat.le_max_left n N)).evalInternal a st).ok hx
  have e2 := ((recF_le fs (Nat.le_max_right n N)).evalInternal a st).ok h1
  rw [e1] at e2
  cases e2
  exact ⟨rfl, h2⟩

/-! ### Expressions whose evaluation returns -/

theorem Involves.append_left {env : Env} {es : List Expr} (fs : List Expr) (h : Involves env es) :
    Involves env (fs ++ es) := by
  cases h with
  | eval h => exact .eval (List.mem_append_right _ h)
  | strip h => exact .strip (List.mem_append_right _ h)
  | word h => exact .word (List.mem_append_right _ h)
  | words h => exact .words (List.mem_append_right _ h)
  | subst h h' h'' => exact .subst (List.mem_append_right _ h) h' h''
  | name h h' => exact .name (List.mem_append_right _ h) h'
  | value h h' h'' h3 => exact .value (List.mem_append_right _ h) h' h'' h3

theorem Involves.append_right {env : Env} {es : List Expr} (fs : List Expr) (h : Involves env es) :
    Involves env (es ++ fs) := by
  cases h with
  | eval h => exact .eval (List.mem_append_left _ h)
  | strip h => exact .strip (List.mem_append_left _ h)
  | word h => exact .word (List.mem_append_left _ h)
  | words h => exact .words (List.mem_append_left _ h)
  | subst h h' h'' => exact .subst (List.mem_append_left _ h) h' h''
  | name h h' => exact .name (List.mem_append_left _ h) h'
  | value h h' h'' h3 => exact .value (List.mem_append_left _ h) h' h'' h3

/-- If evaluation returns, the expression has an expansion, or meets something the expansion semantics leaves out. -/
theorem expands_of_eval (fs : Fs) (n : Nat) : ∀ (a : Ast) (st : St) (x : (Sens × List CRef) × St), a.WF → st.WF →
    (recF fs n).evalInternal a st = .ok x → Involves st.env a.flat ∨ ∃ t vs, Expands st.env a.flat t vs := by
  induction n with
  | zero => intro a st x _ _ h; cases h
  | succ n ih =>
    have hlist : ∀ (as : List Ast) (st : St) (sens : Sens) (out : List CRef) (x : (Sens × List CRef) × St),
        Ast.WFList as → st.WF → evalConcat (recF fs n) as sens out st = .ok x →
        Involves st.env (Ast.flatList as) ∨ ∃ t vs, Expands st.env (Ast.flatList as) t vs := by
      intro as
      induction as with
      | nil => intro st sens out x _ _ _; exact .inr ⟨[], [], .nil⟩
      | cons a as ihl =>
        intro st sens out x hw hst h
        simp only [evalConcat] at h
        obtain ⟨y, h1, h2⟩ := Res.bind_eq_ok.mp h
        simp only [Ast.flatList]
        rcases ih a st y hw.1 hst h1 with hi | ⟨t, vs, he⟩
        · exact .inl (hi.append_right _)
        · obtain ⟨e1, e2⟩ := evals_unique hw.1 hst he h1
          rw [e1] at h2
          rcases ihl _ _ _ _ hw.2 (hst.interned vs) h2 with hi | ⟨t', vs', he'⟩
          · rw [hst.env_interned] at hi
            exact .inl (hi.append_left _)
          · rw [hst.env_interned] at he'
            exact .inr ⟨_, _, he.append he'⟩
    intro a st x ha hst h
    have h : evalStep (recF fs n) a st = .ok x := h
    cases a with
    | empty l => exact .inr ⟨[], [], .nil⟩
    | constant l s => exact .inr ⟨_, _, Expands.text _ _⟩
    | preEvaluated l b => exact .inr ⟨_, _, Expands.text _ _⟩
    | concat l cs => exact hlist cs st [] [] x ha hst h
    | eval l a => exact .inl (.eval (List.mem_singleton.mpr rfl))
    | strip l a => cases h
    | word l i w => cases h
    | words l a => cases h
    | varRef l name =>
      simp only [Ast.flat]
      simp only [evalStep, evalVarRef] at h
      obtain ⟨⟨nb, st1⟩, h1, h2⟩ := Res.bind_eq_ok.mp h
      have h1' := h1
      simp only [Rec.eval] at h1
      obtain ⟨y, h3, _⟩ := Res.bind_eq_ok.mp h1
      rcases ih name st y ha hst h3 with hi | ⟨nt, ns, he⟩
      · exact .inl (.name (List.mem_singleton.mpr rfl) hi)
      · by_cases hs : IsSubst (textOf nt)
        · exact .inl (.subst (List.mem_singleton.mpr rfl) he hs)
        · obtain ⟨e1, e2⟩ := evals_unique (a := name) ha hst he h3
          have hev : Evals fs st n name nt ns := ⟨y.1.1, y.1.2, by rw [h3, ← e1], e2⟩
          obtain ⟨b, b1, b2, b3, b4, b5⟩ := hev.eval
          rw [h1'] at b1
          cases b1
          cases hen : st.env (textOf nt) with
          | none =>
            have := Expands.undefined (l := l) he hs hen .nil
            exact .inr ⟨_, _, this⟩
          | some body =>
            have hat := Block.span_at b4 b5
            rw [b2] at hat
            obtain ⟨e, hce⟩ := colonFind_none hat hs
            have hstr : nb.intoString = .ok (textOf nt) := by rw [Block.intoString_eq nb b4, Block.text, b2]
            obtain ⟨hv, henv⟩ := (hst.interned ns).intern (textOf nt)
            rw [hst.env_interned ns, hen] at henv
            obtain ⟨p, hp, hflat⟩ := Option.map_eq_some_iff.mp henv.symm
            simp only [hce, Res.ok_bind, hstr, derefVariable, hp] at h2
            obtain ⟨z, h4, _⟩ := Res.bind_eq_ok.mp h2
            obtain ⟨w, h5, _⟩ := Res.bind_eq_ok.mp h4
            simp only [Rec.eval] at h5
            obtain ⟨q, h6, _⟩ := Res.bind_eq_ok.mp h5
            have hw2 := (hst.interned ns).interned [textOf nt]
            rcases ih p.value ((st.interned ns).interned [textOf nt]) q (hst.values _ _ hp) hw2 h6 with hi | ⟨u, us, hu⟩
            · rw [(hst.interned ns).env_interned, hst.env_interned, hflat] at hi
              exact .inl (.value (List.mem_singleton.mpr rfl) he hen hi)
            · rw [(hst.interned ns).env_interned, hst.env_interned, hflat] at hu
              have := Expands.defined (l := l) he hs hen hu .nil
              exact .inr ⟨_, _, this⟩

end Hastur
