import Verif.Proofs.Conditional
import Verif.Spec.Switch
/-
Lemmas: files with conditionals, whatever is closed where.
-/
namespace Hastur

open Res Span

variable {P : Block} {t : List LChar} {i : Span}

private theorem ignoring_switch {p : PState} {bs : List Branch} {on : Bool} (hp : p.conditionals = condsOf bs)
    (h : on = true ↔ AllTaken bs) : p.updateIgnoring.ignoring = !on := by
  have h1 : p.updateIgnoring.ignoring = true ↔ ¬ AllTaken bs := by rw [← condsOf_any, ← hp]; rfl
  cases on with
  | true =>
    cases he : p.updateIgnoring.ignoring with
    | false => rfl
    | true => exact absurd (h.mp rfl) (h1.mp he)
  | false => exact h1.mpr fun ha => Bool.false_ne_true (h.mpr ha)

/-- Lines with conditionals, read one after the other: what happens in all cases. -/
theorem proc_switch (fs : Fs) (hP : P.content.length ≤ 1) (hm : Block.Mono P) {l : List MLine} (hl : MakeText t l) :
    ∀ {i : Span} {p : PState} {st : St} {on on' : Bool} {bs bs' : List Branch} {v' : Vars}, i.At P t → Free '#' t → p.currentDefine = none →
      p.currentRule = none → p.conditionals = condsOf bs → p.ignoring = !on →
      isAscii st.commandChar = true → st.WF → SwitchRun on st.vars bs l on' v' bs' →
      ∃ p' st', Proc fs i p st p' st' ∧ p'.conditionals = condsOf bs' ∧ p'.ignoring = (!on') ∧ p'.currentRule = none ∧ p'.currentDefine = none ∧
        st'.WF ∧ st'.vars = v' ∧ st'.db.rules = st.db.rules ∧
        st'.db.targetVariables = st.db.targetVariables ∧ st'.commandChar = st.commandChar := by
  induction hl with
  | nil =>
    intro i p st on on' bs bs' v' h _ hd hr hcs hig _ hw hv
    cases hv
    exact ⟨p, st, .done (by rw [h.length]; rfl), hcs, hig, hr, hd, hw, rfl, rfl, rfl, rfl⟩
  | blank hne hl _ ih =>
    intro i p st on on' bs bs' v' h hf hd hr hcs hig hch hw hv
    cases hv with
    | blank hv =>
    obtain ⟨j, hj, e⟩ := parseLine_blank fs (recF fs 0) h hl hf hd hch (.inl hr)
    obtain ⟨p', st', g1, g2⟩ := ih hj (hf.of_suffix hl.suffix) hd hr hcs hig hch hw hv
    refine ⟨p', st', .trans 0 h hj (hl.lt hne) (fun n _ => ?_) g1, g2⟩
    exact (parseLine_le (recF_le fs (Nat.zero_le n)) fs p st i).ok e
  | assign hl ha hc hn hvv hs _ ih =>
    intro i p st on on' bs bs' v' h hf hd hr hcs hig hch hw hv
    have hne := hl.ne_nil (fun e => ha.dropBlanks.2 (by rw [e]; rfl))
    cases hv with
    | @assign _ _ v1 _ _ _ _ _ hv1 hv =>
      have hig' : p.ignoring = false := hig
      obtain ⟨nt, ns, h1, h2, h3⟩ := hv1.head (st' := st)
      obtain ⟨N, j, st1, pv, hj, g1, g2, g3, g4⟩ := parseLine_assign_plain fs hP hm h hl hf hd hig' hch hr ha hc hn hvv hw h1
        (fun e => ⟨hs e, h2 e⟩)
      obtain ⟨nt', ns', h1', _, h3'⟩ := hv1.head (st' := st1)
      obtain ⟨rfl, _⟩ := h1.det h1'
      have hv1' := h3' pv g3 g2
      have e1 : st1.vars = v1 := by cases hv1'; rfl
      rw [← e1] at hv
      obtain ⟨p', st', k0, kc, kg, kr, kd, k2, k3, k4, k5, k6⟩ := ih hj (hf.of_suffix hl.suffix) hd hr hcs hig
        (by rw [g2.commandChar]; exact hch) g1 hv
      exact ⟨p', st', .trans N h hj (hl.lt hne) g4 k0, kc, kg, kr, kd, k2, k3, k4.trans g2.rules,
        k5.trans g2.targetVariables, k6.trans g2.commandChar⟩
    | skipAssign hv =>
      obtain ⟨j, hj, e⟩ := parseLine_skip fs ⟨hP, hm, h, hl, hf, hd, hch, hw⟩ (.inl hr) hc hig
      obtain ⟨p', st', g1, g2⟩ := ih hj (hf.of_suffix hl.suffix) hd hr hcs hig hch hw hv
      exact ⟨p', st', .trans 0 h hj (hl.lt hne) (fun n _ => e _) g1, g2⟩
  | other hl hne' hc _ ih =>
    intro i p st on on' bs bs' v' h hf hd hr hcs hig hch hw hv
    have hne := hl.ne_nil hne'
    cases hv with
    | skip hv =>
      obtain ⟨j, hj, e⟩ := parseLine_skip fs ⟨hP, hm, h, hl, hf, hd, hch, hw⟩ (.inl hr) hc hig
      obtain ⟨p', st', g1, g2⟩ := ih hj (hf.of_suffix hl.suffix) hd hr hcs hig hch hw hv
      exact ⟨p', st', .trans 0 h hj (hl.lt hne) (fun n _ => e _) g1, g2⟩
  | cond hl hc _ ih =>
    intro i p st on on' bs bs' v' h hf hd hr hcs hig hch hw hv
    have hne := hl.ne_nil hc.ne_nil
    have hat : AtLine _ _ _ _ _ p st := ⟨hP, hm, h, hl, hf, hd, hch, hw⟩
    cases hv with
    | @test _ on1 _ _ _ _ _ inv as cs x y xs ys _ hx hy hon hv =>
      rw [St.vars_env] at hx hy
      obtain ⟨N, j, hj, e⟩ := parseLine_test fs hat (.inl hr) hc hx hy
      rw [← hw.vars_interned (xs ++ ys)] at hv
      obtain ⟨p', st', g1, g2, g3, g4, g5, g6, g7, g8, g9, g10⟩ := ih hj (hf.of_suffix hl.suffix)
        (st := st.interned (xs ++ ys))
        (bs := _ ++ [⟨(trim (textOf x) == trim (textOf y)) != inv, false⟩])
        (p := PState.updateIgnoring { p with conditionals := p.conditionals ++
          [⟨(trim (textOf x) == trim (textOf y)) != inv, false⟩] }) hd hr
        (by rw [condsOf_append, ← hcs]; rfl) (ignoring_switch (by rw [condsOf_append, ← hcs]) hon) hch (hw.interned _) hv
      exact ⟨p', st', .trans N h hj (hl.lt hne) e g1, g2, g3, g4, g5, g6, g7, g8, g9, g10⟩
    | @else_ _ on1 _ _ _ bs _ e _ hon hv =>
      rw [condsOf_append] at hcs
      obtain ⟨N, j, hj, e'⟩ := parseLine_else fs hat (.inl hr) hc hcs
      obtain ⟨p', st', g1, g2⟩ := ih hj (hf.of_suffix hl.suffix)
        (p := PState.updateIgnoring { p with conditionals := condsOf bs ++ [⟨!e, true⟩] }) hd hr
        (by rw [condsOf_append]; rfl) (ignoring_switch (by rw [condsOf_append]) hon) hch hw hv
      exact ⟨p', st', .trans N h hj (hl.lt hne) e' g1, g2⟩
    | @endif _ _ _ _ bs _ b _ hv =>
      rw [condsOf_append] at hcs
      obtain ⟨N, j, hj, e'⟩ := parseLine_endif fs hat (.inl hr) hc hcs
      obtain ⟨p', st', g1, g2⟩ := ih hj (hf.of_suffix hl.suffix)
        (p := { p with conditionals := condsOf bs }) hd hr rfl hig hch hw hv
      exact ⟨p', st', .trans N h hj (hl.lt hne) e' g1, g2⟩

end Hastur
