import Verif.Spec.MayUse
import Verif.Proofs.SubstTotal
/-
Expansion without function calls: it never panics, and it returns when the reference graph has no cycle.
-/
namespace Hastur

open Res

/-! ### Expressions -/

theorem Block.empty_solid : Block.empty.Solid := fun c hc => by cases hc

theorem HasCall.append_right {es fs : List Expr} (h : HasCall es) : HasCall (es ++ fs) := by
  cases h with
  | eval h => exact .eval (List.mem_append_left _ h)
  | strip h => exact .strip (List.mem_append_left _ h)
  | word h => exact .word (List.mem_append_left _ h)
  | words h => exact .words (List.mem_append_left _ h)
  | ref h h' => exact .ref (List.mem_append_left _ h) h'

theorem HasCall.append_left {es fs : List Expr} (h : HasCall es) : HasCall (fs ++ es) := by
  cases h with
  | eval h => exact .eval (List.mem_append_right _ h)
  | strip h => exact .strip (List.mem_append_right _ h)
  | word h => exact .word (List.mem_append_right _ h)
  | words h => exact .words (List.mem_append_right _ h)
  | ref h h' => exact .ref (List.mem_append_right _ h) h'

theorem HasEval.hasCall {es : List Expr} (h : HasEval es) : HasCall es := by
  induction h with
  | eval h => exact .eval h
  | ref h _ ih => exact .ref h ih
  | strip h _ _ => exact .strip h
  | index h _ _ => exact .word h
  | word h _ _ => exact .word h
  | words h _ _ => exact .words h

theorem MayUse.append_right {env : Env} {y : Str} {es fs : List Expr} (h : MayUse env y es) : MayUse env y (es ++ fs) := by
  cases h with
  | ref h h2 h3 h4 => exact .ref (List.mem_append_left _ h) h2 h3 h4
  | subst h h2 h3 h4 => exact .subst (List.mem_append_left _ h) h2 h3 h4
  | computed h h2 h3 h4 h5 h6 h7 => exact .computed (List.mem_append_left _ h) h2 h3 h4 h5 h6 h7
  | name h h2 => exact .name (List.mem_append_left _ h) h2

theorem MayUse.append_left {env : Env} {y : Str} {es fs : List Expr} (h : MayUse env y es) : MayUse env y (fs ++ es) := by
  cases h with
  | ref h h2 h3 h4 => exact .ref (List.mem_append_right _ h) h2 h3 h4
  | subst h h2 h3 h4 => exact .subst (List.mem_append_right _ h) h2 h3 h4
  | computed h h2 h3 h4 h5 h6 h7 => exact .computed (List.mem_append_right _ h) h2 h3 h4 h5 h6 h7
  | name h h2 => exact .name (List.mem_append_right _ h) h2

theorem Gives.text (env : Env) (t : List LChar) : Gives env (Expr.text t) t := by
  induction t with
  | nil => exact .nil
  | cons x t ih => exact .char ih

theorem Gives.of_text {env : Env} {t u : List LChar} (h : Gives env (Expr.text t) u) : u = t := by
  induction t generalizing u with
  | nil => cases h; rfl
  | cons x t ih =>
    cases h with
    | char h => rw [ih h]

theorem Gives.append {env : Env} {es fs : List Expr} {t u : List LChar} (h : Gives env es t) (h' : Gives env fs u) :
    Gives env (es ++ fs) (t ++ u) := by
  induction h with
  | nil => exact h'
  | char _ ih => exact .char ih
  | undefined h1 h2 h3 _ _ ih => exact .undefined h1 h2 h3 ih
  | defined h1 h2 h3 h4 _ _ _ ih => rw [List.append_assoc]; exact .defined h1 h2 h3 h4 ih
  | subst h1 h2 _ _ ih => rw [List.append_assoc]; exact .subst h1 h2 ih

/-! ### The value of a reference -/

/-- The variable that is looked up for the name in the block `nb`. -/
def LooksUp (nb : Block) (y : Str) : Prop :=
  (¬ IsSubst nb.text ∧ y = nb.text) ∨
    ∃ p k q, nb.text = p ++ ':' :: (k ++ '=' :: q) ∧ ':' ∉ k ∧ ':' ∉ q ∧ y <+: p ∧ (nb.content.length ≤ 1 → y = p)

/-- The evaluation of a reference, once the name is evaluated: a lookup, and work on the value that does not fail. -/
theorem evalVarRef_shape {nb : Block} (hw : Block.WF nb) (hs : nb.Solid) :
    ∃ y F, LooksUp nb y ∧
      (∀ (r : Rec) (name : Ast) (st st1 : St), r.eval name st = .ok (nb, st1) →
        evalVarRef r name st = derefVariable r y (Sens.union [] nb.sens) st1 >>= F) ∧
      ∀ (v : Block) (s : Sens) (st' : St), Block.WF v → v.Solid →
        ∃ c, F ((v, s), st') = .ok ((s, [c]), st') ∧ CRef.WF c ∧ (¬ IsSubst nb.text → CRef.ltext c = Block.ltext v) := by
  have hat := Block.span_at hw hs
  by_cases hsub : IsSubst nb.text
  · obtain ⟨a, b, c, m, m', u, l, v, w, e1, e2, e3, e4, e5, e6, e7, e8, e9⟩ := colonFind_total hat hsub
    have hvt : '=' ∈ textOf v := by
      obtain ⟨a0, b0, c0, ht, hb0, hc0⟩ := hsub
      obtain ⟨n', l', k', l'', r', f1, f2, f3, f4, _⟩ := subst_parts ht hb0 hc0
      obtain ⟨_, _, rfl⟩ := last_split (e2.symm.trans f1) e3 (by simp [f3, f4])
      simp
    obtain ⟨k, l', q, rfl, _⟩ := Nom.takeWhile_split hvt
    have hul : m + 1 ≤ (Block.ltext nb).length := by rw [e2]; simp; omega
    have hnl : usub a.length 1 = .ok m := by
      rw [e6.length, usub_of_le (by rw [List.length_take]; omega), List.length_take]
      congr 1; omega
    have hkl : usub b.length 1 = .ok m' := by
      rw [e8.length, usub_of_le (by rw [List.length_take]; omega), List.length_take]
      congr 1; omega
    have ha' := e6.sliceTo (n := m) (by rw [List.length_take]; omega)
    have hb' := e8.sliceTo (n := m') (by rw [List.length_take]; omega)
    rw [List.take_take, Nat.min_eq_left (Nat.le_succ m)] at ha'
    obtain ⟨nb', nb1, nb2⟩ := ha'.part
    obtain ⟨kb, kb1, kb2⟩ := hb'.part
    obtain ⟨rb, rb1, rb2⟩ := e9.part
    have hstr : nb'.intoString = .ok (textOf ((Block.ltext nb).take m)) := by
      rw [Block.intoString_eq nb' nb2.wf, Block.text, nb2.ltext]
    refine ⟨textOf ((Block.ltext nb).take m), fun x => doSubref x.1.2 x.1.1 kb rb >>= fun value =>
      .ok ((x.1.2, [CRef.ofNode (.subRef nb' kb rb value)]), x.2), .inr ⟨textOf u, textOf k, textOf q, by rw [Block.text, e2]; simp,
      fun hc => e3 (by simp [hc]), fun hc => e3 (by simp [hc]), ?_, ?_⟩, ?_, ?_⟩
    · rw [e2, List.take_append_of_le_length e4, textOf_take]; exact List.take_prefix _ _
    · intro h1
      rw [e5 h1, e2, List.take_left]
    · intro r name st st1 h
      unfold evalVarRef
      simp only [h, e1, Res.ok_bind, hnl, hkl, nb1, kb1, rb1, hstr]
      rfl
    · intro v s st' hv hv'
      obtain ⟨bb, g1, g2, _⟩ := doSubref_total s hv hv' kb2.wf kb2.solid rb2.wf rb2.solid
      refine ⟨_, by simp only [g1, Res.ok_bind], CRef.ofNode_wf (n := .subRef nb' kb rb bb) g2, fun hn => absurd hsub hn⟩
  · obtain ⟨e, he⟩ := colonFind_none hat hsub
    refine ⟨nb.text, fun x => .ok ((x.1.2, [CRef.ofNode (.varRef nb x.1.1)]), x.2), .inl ⟨hsub, rfl⟩, ?_, ?_⟩
    · intro r name st st1 h
      unfold evalVarRef
      simp only [h, he, Res.ok_bind, Block.intoString_eq nb hw]
      rfl
    · intro v s st' hv _
      exact ⟨_, rfl, CRef.ofNode_wf (n := .varRef nb v) hv, fun _ => CRef.ofNode_ltext (n := .varRef nb v) hv⟩

/-! ### No panics -/

/-- No value in the database contains a function call. -/
def St.NoCall (st : St) : Prop := ∀ v a, st.db.valueOf v = some a → ¬ HasCall a.flat

theorem St.NoCall.noEval {st : St} (h : st.NoCall) : st.NoEval := fun v a ha he => h v a ha he.hasCall

theorem evalInternal_calm {fs : Fs} {n : Nat} {a : Ast} {st : St} {x : (Sens × List CRef) × St} (hst : st.NoCall)
    (ha : ¬ HasCall a.flat) (h : (recF fs n).evalInternal a st = .ok x) :
    x.2.db = st.db ∧ ∃ cs, x.2.names = st.names.after cs :=
  evalInternal_same hst.noEval (fun he => ha he.hasCall) h

/-- What evaluation may do: run out of budget, or return well-formed content with a possible text. -/
def Safe (env : Env) (es : List Expr) (x : Res ((Sens × List CRef) × St)) : Prop :=
  x = .fuel ∨ ∃ s cs st', x = .ok ((s, cs), st') ∧ CRef.WFList cs ∧ Gives env es (CRef.ltextList cs)

theorem Safe.block {r : Rec} {a : Ast} {st : St} {env : Env} (h : Safe env a.flat (r.evalInternal a st)) :
    r.eval a st = .fuel ∨ ∃ b s cs st', r.evalInternal a st = .ok ((s, cs), st') ∧ r.eval a st = .ok (b, st') ∧
      Block.WF b ∧ b.Solid ∧ Gives env a.flat (Block.ltext b) := by
  rcases h with h | ⟨s, cs, st', h, hw, hg⟩
  · left; simp only [Rec.eval, h]; rfl
  · right
    obtain ⟨b, h1, h2, _, _, h5, h6, _⟩ := Block.new_spec (sens := s) hw
    refine ⟨b, s, cs, st', h, ?_, h5, h6, by rw [h2]; exact hg⟩
    simp only [Rec.eval, h, Res.ok_bind, h1]
    rfl

theorem evalInternal_safe (fs : Fs) (n : Nat) : ∀ (a : Ast) (st : St), a.WF → st.WF → st.NoCall → ¬ HasCall a.flat →
    Safe st.env a.flat ((recF fs n).evalInternal a st) := by
  induction n with
  | zero => intro a st _ _ _ _; exact .inl rfl
  | succ n ih =>
    have hlist : ∀ (as : List Ast) (st : St) (sens : Sens) (out : List CRef), Ast.WFList as → st.WF → st.NoCall →
        ¬ HasCall (Ast.flatList as) → CRef.WFList out →
        evalConcat (recF fs n) as sens out st = .fuel ∨
          ∃ s cs st', evalConcat (recF fs n) as sens out st = .ok ((s, out ++ cs), st') ∧ CRef.WFList cs ∧
            Gives st.env (Ast.flatList as) (CRef.ltextList cs) := by
      intro as
      induction as with
      | nil =>
        intro st sens out _ _ _ _ hw
        exact .inr ⟨sens, [], st, by simp [evalConcat], trivial, .nil⟩
      | cons a as ihl =>
        intro st sens out hw hst hne ha hout
        simp only [evalConcat]
        have ha1 : ¬ HasCall a.flat := fun hh => ha hh.append_right
        have ha2 : ¬ HasCall (Ast.flatList as) := fun hh => ha hh.append_left
        rcases ih a st hw.1 hst hne ha1 with h | ⟨s, cs, st', h, hc, hg⟩
        · left; rw [h]; rfl
        · obtain ⟨e1, ds, e2⟩ := evalInternal_calm hne ha1 h
          have henv := hst.env_after e1 e2
          rw [h]
          simp only [Res.ok_bind]
          rcases ihl st' (Sens.union sens s) (out ++ cs) hw.2 (hst.after e1 e2) (by unfold St.NoCall; rw [e1]; exact hne)
            ha2 (CRef.wfList_append.mpr ⟨hout, hc⟩) with h' | ⟨s', cs', st'', h', hc', hg'⟩
          · exact .inl h'
          · refine .inr ⟨s', cs ++ cs', st'', by rw [h', List.append_assoc], CRef.wfList_append.mpr ⟨hc, hc'⟩, ?_⟩
            rw [CRef.ltextList_append]
            rw [henv] at hg'
            exact hg.append hg'
    intro a st ha hst hne hna
    show Safe _ _ (evalStep (recF fs n) a st)
    cases a with
    | empty l => exact .inr ⟨[], [], st, rfl, trivial, .nil⟩
    | constant l s =>
      refine .inr ⟨[], _, st, rfl, ⟨CRef.ofNode_wf (n := .constant s) ha, trivial⟩, ?_⟩
      have := CRef.ofNode_ltext (n := .constant s) ha
      simp only [CRef.ltextList, this, List.append_nil]
      exact Gives.text _ _
    | preEvaluated l b =>
      refine .inr ⟨[], _, st, rfl, (by have h : Block.WF b := ha; rwa [Block.wf_eq] at h), ?_⟩
      rw [← Block.ltext_eq]
      exact Gives.text _ _
    | concat l cs =>
      rcases hlist cs st [] [] ha hst hne hna trivial with h | ⟨s, out, st', h, hw, hg⟩
      · exact .inl h
      · exact .inr ⟨s, out, st', h, hw, hg⟩
    | eval l a => exact absurd (.eval (List.mem_singleton.mpr rfl)) hna
    | strip l a => exact absurd (.strip (List.mem_singleton.mpr rfl)) hna
    | word l i w => exact absurd (.word (List.mem_singleton.mpr rfl)) hna
    | words l a => exact absurd (.words (List.mem_singleton.mpr rfl)) hna
    | varRef l name =>
      have hna' : ¬ HasCall name.flat := fun h => hna (.ref (List.mem_singleton.mpr rfl) h)
      show Safe _ _ (evalVarRef (recF fs n) name st)
      rcases (ih name st ha hst hne hna').block with h | ⟨nb, s, cs, st1, h0, h1, hw, hs, hg⟩
      · left; simp only [evalVarRef, h]; rfl
      · obtain ⟨e1, ds, e2⟩ := evalInternal_calm hne hna' h0
        have hst1 := hst.after e1 e2
        have henv1 := hst.env_after e1 e2
        obtain ⟨y, F, hy, hF, hF'⟩ := evalVarRef_shape hw hs
        rw [hF _ _ _ _ h1]
        obtain ⟨hv, henv⟩ := hst1.intern y
        rw [henv1] at henv
        cases hp : st1.db.getVariable (st1.names.internVar y).1 with
        | none =>
          obtain ⟨c, hc, hcw, hct⟩ := hF' Block.empty (Sens.insert (Sens.union [] nb.sens) (st1.names.internVar y).1)
            { st1 with names := (st1.names.internVar y).2 } trivial Block.empty_solid
          refine .inr ⟨_, [c], _, (by simp only [derefVariable, hp, Res.pure_eq, Res.ok_bind]; exact hc), ⟨hcw, trivial⟩, ?_⟩
          · simp only [Ast.flat, CRef.ltextList]
            by_cases hsub : IsSubst nb.text
            · exact .subst hg hsub .nil
            · have hyt : y = nb.text := by
                rcases hy with ⟨_, e⟩ | ⟨p, k, q, e, hk, hq, _⟩
                · exact e
                · exact absurd ⟨p, k, q, e, hk, hq⟩ hsub
              rw [hct hsub]
              rw [hp, hyt] at henv
              exact .undefined hg hsub henv .nil
        | some p =>
          have hval : st1.db.valueOf (st1.names.internVar y).1 = some p.value := by simp [Database.valueOf, hp]
          have hst2 := hst1.interned [y]
          have henv2 := hst1.env_interned [y]
          have hpc : ¬ HasCall p.value.flat := hne _ _ (by rw [← e1]; exact hval)
          rcases (ih p.value (st1.interned [y]) (hst1.values _ p hp) hst2 (by unfold St.NoCall; rw [St.interned_db, e1]; exact hne) hpc).block
            with h' | ⟨b, s', cs', st', h0', h1', hw', hs', hg'⟩
          · left
            have h' : (recF fs n).eval p.value { st1 with names := (st1.names.internVar y).2 } = .fuel := h'
            simp only [derefVariable, hp, h']
            rfl
          · have h1' : (recF fs n).eval p.value { st1 with names := (st1.names.internVar y).2 } = .ok (b, st') := h1'
            obtain ⟨c, hc, hcw, hct⟩ := hF' b (Sens.insert (Sens.union (Sens.union [] nb.sens) b.sens) (st1.names.internVar y).1)
              st' hw' hs'
            refine .inr ⟨_, [c], _, (by simp only [derefVariable, hp, h1', Res.pure_eq, Res.ok_bind]; exact hc), ⟨hcw, trivial⟩, ?_⟩
            · simp only [Ast.flat, CRef.ltextList]
              by_cases hsub : IsSubst nb.text
              · exact .subst hg hsub .nil
              · have hyt : y = nb.text := by
                  rcases hy with ⟨_, e⟩ | ⟨p, k, q, e, hk, hq, _⟩
                  · exact e
                  · exact absurd ⟨p, k, q, e, hk, hq⟩ hsub
                rw [hct hsub]
                rw [hp, hyt] at henv
                rw [henv2, henv1] at hg'
                exact .defined hg hsub henv hg' .nil

/-! ### Acyclic graphs -/

/-- Some budget suffices. -/
def Returns (fs : Fs) (a : Ast) (st : St) : Prop := ∃ n x, (recF fs n).evalInternal a st = .ok x

theorem returns_of_values (fs : Fs) (k : Nat) : ∀ (a : Ast) (st : St), sizeOf a ≤ k → a.WF → a.WholeNames → st.WF → st.NoCall →
    ¬ HasCall a.flat →
    (∀ y, MayUse st.env y a.flat → ∀ st' cs v p, st'.db = st.db → st'.names = st.names.after cs →
      st'.names.variableName y = some v → st.db.getVariable v = some p → Returns fs p.value st') →
    Returns fs a st := by
  induction k with
  | zero => intro a st h; cases a <;> simp at h
  | succ k ih =>
    have hlist : ∀ (as : List Ast) (st : St) (sens : Sens) (out : List CRef), sizeOf as ≤ k → Ast.WFList as →
        Ast.WholeNamesList as → st.WF → st.NoCall → ¬ HasCall (Ast.flatList as) →
        (∀ y, MayUse st.env y (Ast.flatList as) → ∀ st' cs v p, st'.db = st.db → st'.names = st.names.after cs →
          st'.names.variableName y = some v → st.db.getVariable v = some p → Returns fs p.value st') →
        ∃ n x, evalConcat (recF fs n) as sens out st = .ok x := by
      intro as
      induction as with
      | nil => intro st sens out _ _ _ _ _ _ _; exact ⟨0, _, rfl⟩
      | cons a as ihl =>
        intro st sens out hsz hw hwn hst hne hna hv
        have hsz' : sizeOf (a :: as) = 1 + sizeOf a + sizeOf as := rfl
        have ha1 : ¬ HasCall a.flat := fun hh => hna hh.append_right
        have ha2 : ¬ HasCall (Ast.flatList as) := fun hh => hna hh.append_left
        obtain ⟨n1, x, hx⟩ := ih a st (by omega) hw.1 hwn.1 hst hne ha1 fun y hm => hv y hm.append_right
        obtain ⟨e1, ds, e2⟩ := evalInternal_calm hne ha1 hx
        have henv := hst.env_after e1 e2
        obtain ⟨n2, x2, hx2⟩ := ihl x.2 (Sens.union sens x.1.1) (out ++ x.1.2) (by omega) hw.2 hwn.2 (hst.after e1 e2)
          (by unfold St.NoCall; rw [e1]; exact hne) ha2 fun y hm st' cs v p g1 g2 g3 g4 =>
            hv y (by rw [henv] at hm; exact hm.append_left) st' (ds ++ cs) v p (g1.trans e1)
              (by rw [NameCache.after_append, ← e2]; exact g2) g3 (by rw [← e1]; exact g4)
        refine ⟨max n1 n2, x2, ?_⟩
        simp only [evalConcat, ((recF_le fs (Nat.le_max_left n1 n2)).evalInternal a st).ok hx, Res.ok_bind]
        exact (evalConcat_le (recF_le fs (Nat.le_max_right n1 n2)) as _ _ _).ok hx2
    intro a st hsz ha hwn hst hne hna hv
    cases a with
    | empty l => exact ⟨1, _, rfl⟩
    | constant l s => exact ⟨1, _, rfl⟩
    | preEvaluated l b => exact ⟨1, _, rfl⟩
    | concat l cs =>
      obtain ⟨n, x, h⟩ := hlist cs st [] [] (by simp at hsz; omega) ha hwn hst hne hna hv
      exact ⟨n + 1, x, h⟩
    | eval l a => exact absurd (.eval (List.mem_singleton.mpr rfl)) hna
    | strip l a => exact absurd (.strip (List.mem_singleton.mpr rfl)) hna
    | word l i w => exact absurd (.word (List.mem_singleton.mpr rfl)) hna
    | words l a => exact absurd (.words (List.mem_singleton.mpr rfl)) hna
    | varRef l name =>
      have hna' : ¬ HasCall name.flat := fun h => hna (.ref (List.mem_singleton.mpr rfl) h)
      obtain ⟨n1, x, hx⟩ := ih name st (by simp at hsz; omega) ha hwn.1 hst hne hna'
        fun y hm => hv y (.name (l := l) (List.mem_singleton.mpr rfl) hm)
      rcases (evalInternal_safe fs n1 name st ha hst hne hna').block with h | ⟨nb, s, cs, st1, h0, h1, hw, hs, hg⟩
      · rcases (evalInternal_safe fs n1 name st ha hst hne hna') with h' | ⟨s, cs, st', h', hwl, _⟩
        · rw [hx] at h'; cases h'
        · obtain ⟨b, b1, _⟩ := Block.new_spec (sens := s) hwl
          simp only [Rec.eval, h', Res.ok_bind, b1] at h
          cases h
      · obtain ⟨e1, ds, e2⟩ := evalInternal_calm hne hna' h0
        have hst1 := hst.after e1 e2
        have henv1 := hst.env_after e1 e2
        -- the variable that is looked up is one that the reference may use
        have hmay : ∀ y, LooksUp nb y → MayUse st.env y [.ref l name.flat] := by
          rintro y (⟨hs1, rfl⟩ | ⟨p, kk, q, e, hk, hq, hpre, hone⟩)
          · exact .ref (l := l) (List.mem_singleton.mpr rfl) hg hs1 rfl
          · by_cases ht : ∃ t, name.flat = Expr.text t
            · obtain ⟨t, ht⟩ := ht
              rw [ht] at hg ⊢
              have hgt := hg.of_text
              have htn : t ≠ [] := by
                rintro rfl
                rw [Block.text, hgt] at e
                simp [textOf] at e
              obtain ⟨lc, sc, rfl⟩ := hwn.2 t ht htn
              rw [hone (onePiece_constant fs lc sc st n1 nb _ h1)]
              exact .subst (l := l) (List.mem_singleton.mpr rfl) (by rw [← hgt]; exact e) hk hq
            · exact .computed (l := l) (List.mem_singleton.mpr rfl) (fun t h => ht ⟨t, h⟩) hg e hk hq hpre
        obtain ⟨y, F, hy, hF, hF'⟩ := evalVarRef_shape hw hs
        have hmy := hmay y hy
        obtain ⟨hvn, henv⟩ := hst1.intern y
        cases hp : st1.db.getVariable (st1.names.internVar y).1 with
        | none =>
          obtain ⟨c, hc, _, _⟩ := hF' Block.empty (Sens.insert (Sens.union [] nb.sens) (st1.names.internVar y).1)
            { st1 with names := (st1.names.internVar y).2 } trivial Block.empty_solid
          exact ⟨n1 + 1, _, (hF _ _ _ _ h1).trans (by simp only [derefVariable, hp, Res.pure_eq, Res.ok_bind]; exact hc)⟩
        | some p =>
          obtain ⟨n2, z, hz⟩ := hv y hmy (st1.interned [y]) (ds ++ [.var y]) _ p e1
            (by rw [NameCache.after_append, ← e2]; rfl) hvn (by rw [← e1]; exact hp)
          have hval : st1.db.valueOf (st1.names.internVar y).1 = some p.value := by simp [Database.valueOf, hp]
          have hpc : ¬ HasCall p.value.flat := hne _ _ (by rw [← e1]; exact hval)
          have hz' := ((recF_le fs (Nat.le_max_right n1 n2)).evalInternal p.value (st1.interned [y])).ok hz
          have h1' : (recF fs (max n1 n2)).eval name st = .ok (nb, st1) :=
            ((recF_le fs (Nat.le_max_left n1 n2)).eval name st).ok h1
          rcases (evalInternal_safe fs (max n1 n2) p.value (st1.interned [y]) (hst1.values _ p hp) (hst1.interned [y])
            (by unfold St.NoCall; rw [St.interned_db, e1]; exact hne) hpc) with h' | h'
          · rw [hz'] at h'; cases h'
          obtain ⟨s', cs', st', h0', hwl, hgl⟩ := h'
          rcases Safe.block (r := recF fs (max n1 n2)) (.inr ⟨s', cs', st', h0', hwl, hgl⟩) with h' | ⟨b, _, _, st2, _, h1'', hw', hs', _⟩
          · obtain ⟨b, b1, _⟩ := Block.new_spec (sens := s') hwl
            simp only [Rec.eval, h0', Res.ok_bind, b1] at h'
            cases h'
          · have h1'' : (recF fs (max n1 n2)).eval p.value { st1 with names := (st1.names.internVar y).2 } = .ok (b, st2) := h1''
            obtain ⟨c, hc, _, _⟩ := hF' b (Sens.insert (Sens.union (Sens.union [] nb.sens) b.sens) (st1.names.internVar y).1)
              st2 hw' hs'
            exact ⟨max n1 n2 + 1, _, (hF _ _ _ _ h1').trans (by
              simp only [derefVariable, hp, h1'', Res.pure_eq, Res.ok_bind]; exact hc)⟩

/-- Without cycles, the evaluation of every value returns. -/
theorem values_return (fs : Fs) {st : St} (hst : st.WF) (hne : st.NoCall) (hwn : st.WholeNames)
    (hacyc : ∀ x, ¬ Relation.TransGen (MayRefer st.env) x x) :
    ∀ x st' cs v p, st'.db = st.db → st'.names = st.names.after cs → st'.names.variableName x = some v →
      st.db.getVariable v = some p → Returns fs p.value st' := by
  have hf : Finite {s | st.env s ≠ none} := st.env_finite
  let R : {s | st.env s ≠ none} → {s | st.env s ≠ none} → Prop := fun a b => Relation.TransGen (MayRefer st.env) b.1 a.1
  have : IsTrans _ R := ⟨fun a b c h1 h2 => h2.trans h1⟩
  have : Std.Irrefl R := ⟨fun a h => hacyc a.1 h⟩
  have wf : WellFounded R := Finite.wellFounded_of_trans_of_irrefl R
  have henv : ∀ (x : Str) (st' : St) cs v p, st'.db = st.db → st'.names = st.names.after cs → st'.names.variableName x = some v →
      st.db.getVariable v = some p → st.env x = some p.value.flat := by
    intro x st' cs v p h1 h2 h3 h4
    rw [← hst.env_after h1 h2]
    simp only [St.env, h3, Option.bind_some, h1, h4, Option.map_some]
  have key : ∀ z : {s | st.env s ≠ none}, ∀ st' cs v p, st'.db = st.db → st'.names = st.names.after cs →
      st'.names.variableName z.1 = some v → st.db.getVariable v = some p → Returns fs p.value st' := by
    intro z
    induction z using wf.induction with
    | _ z ih =>
      intro st' cs v p h1 h2 h3 h4
      have hval : st.db.valueOf v = some p.value := by simp [Database.valueOf, h4]
      have hz := henv _ _ _ _ _ h1 h2 h3 h4
      have he := hst.env_after h1 h2
      refine returns_of_values fs _ p.value st' (Nat.le_refl _) (hst.values v p h4) (hwn v _ hval) (hst.after h1 h2)
        (by unfold St.NoCall; rw [h1]; exact hne) (hne v _ hval) fun y hm st'' ds w q g1 g2 g3 g4 => ?_
      rw [h1] at g1 g4
      rw [h2, ← NameCache.after_append] at g2
      have hy := henv _ _ _ _ _ g1 g2 g3 g4
      rw [he] at hm
      exact ih ⟨y, by simp [hy]⟩ (.single ⟨_, hz, hm⟩) st'' _ w q g1 g2 g3 g4
  intro x st' cs v p h1 h2 h3 h4
  exact key ⟨x, by simp [henv _ _ _ _ _ h1 h2 h3 h4]⟩ st' cs v p h1 h2 h3 h4

end Hastur
