import Verif.Proofs.Subst
import Verif.Proofs.Eval
/-
Lemmas: evaluation of substitution references.
-/
namespace Hastur

open Span Res

variable {P : Block} {t : List LChar} {i : Span}

theorem last_split {c : Char} {l l' : Location} {u v u' v' : List LChar} (h : u ++ (c, l) :: v = u' ++ (c, l') :: v')
    (hv : c ∉ textOf v) (hv' : c ∉ textOf v') : u = u' ∧ l = l' ∧ v = v' := by
  induction u generalizing u' with
  | nil =>
    cases u' with
    | nil =>
      simp only [List.nil_append, List.cons.injEq, Prod.mk.injEq, true_and] at h
      exact ⟨rfl, h⟩
    | cons x u' =>
      simp only [List.nil_append, List.cons_append, List.cons.injEq] at h
      exact absurd (by rw [h.2]; simp) hv
  | cons x u ih =>
    cases u' with
    | nil =>
      simp only [List.nil_append, List.cons_append, List.cons.injEq] at h
      exact absurd (by rw [← h.2]; simp) hv'
    | cons y u' =>
      simp only [List.cons_append, List.cons.injEq] at h
      obtain ⟨h1, h2, h3⟩ := ih h.2
      exact ⟨by rw [h.1, h1], h2, h3⟩

theorem Span.Tail.start_eq {r : Span} {n : Nat} (h : i.At P t) (h1 : P.content.length ≤ 1) (ht : i.Tail n r) :
    r.start = i.start := by
  obtain ⟨_, ⟨m, s1, s2, _⟩, _⟩ := ht
  have : i.contents.length ≤ 1 := by
    rw [Span.contents, h.parent, List.length_drop]; omega
  omega

/-- The name, the key and the replacement of a substitution reference. -/
theorem colonFind_some {n k r : List LChar} {l l' : Location} (h : i.At P (n ++ (':', l) :: (k ++ ('=', l') :: r)))
    (h1 : P.content.length ≤ 1) (hk : ':' ∉ textOf k) (hr : ':' ∉ textOf r) (hr' : '=' ∉ textOf r) :
    ∃ a b c, colonFind i = .ok (.done c (a, b)) ∧ a.At P (n ++ [(':', l)]) ∧ b.At P (k ++ [('=', l')]) ∧ c.At P r := by
  unfold colonFind
  obtain ⟨q, u, l1, v, m, e1, e2, e3, e4, e5, e6⟩ := (Nom.recognize_consume (c := ':') (by decide) h).1 (by simp)
  rw [if_pos (e5.start_eq h h1)] at e6
  obtain ⟨rfl, rfl, rfl⟩ := last_split e2 (by simp [hk, hr]) e4
  obtain ⟨q', u', l2, v', m', f1, f2, f3, f4, f5, f6⟩ := (Nom.recognize_consume (c := '=') (by decide) e3).1 (by simp)
  rw [if_pos (f5.start_eq e3 h1)] at f6
  obtain ⟨rfl, rfl, rfl⟩ := last_split f2 hr' f4
  rw [e1, done_andThen, f1, done_andThen]
  refine ⟨_, _, q', rfl, ?_, ?_, f3⟩
  · have := h.sliceTo (n := m) (by rw [e6]; simp)
    rw [e6] at this
    rw [e6]
    simpa [List.take_append, List.take_of_length_le] using this
  · have := e3.sliceTo (n := m') (by rw [f6]; simp)
    rw [f6] at this
    rw [f6]
    simpa [List.take_append, List.take_of_length_le] using this

theorem onePiece_constant (fs : Fs) (l : Location) (s : LStr) (st : St) : OnePiece fs (.constant l s) st := by
  intro n b st' h
  cases n with
  | zero => cases h
  | succ n =>
    obtain ⟨x, h1, h2⟩ := bind_eq_ok.mp h
    obtain ⟨c, h3, h4⟩ := bind_eq_ok.mp h2
    cases h1; cases h4
    exact Block.new_length h3

theorem onePiece_varRef (fs : Fs) (l : Location) (a : Ast) (st : St) : OnePiece fs (.varRef l a) st := by
  intro n b st' h
  cases n with
  | zero => cases h
  | succ n =>
    obtain ⟨⟨⟨s, cs⟩, st2⟩, h1, h2⟩ := bind_eq_ok.mp h
    obtain ⟨c, h3, h4⟩ := bind_eq_ok.mp h2
    cases h4
    refine (Block.new_length h3).trans ?_
    have h1 : evalVarRef (recF fs n) a st = _ := h1
    unfold evalVarRef at h1
    obtain ⟨⟨nb, st3⟩, _, h5⟩ := bind_eq_ok.mp h1
    obtain ⟨cf, _, h6⟩ := bind_eq_ok.mp h5
    cases cf with
    | done c p =>
      simp only [bind_eq_ok] at h6
      obtain ⟨_, _, _, _, _, _, _, _, _, _, _, _, _, _, _, _, h7⟩ := h6
      cases h7
      exact Nat.le_refl 1
    | err e =>
      simp only [bind_eq_ok] at h6
      obtain ⟨_, _, _, _, h7⟩ := h6
      cases h7
      exact Nat.le_refl 1


theorem Block.apart_of_single {b : Block} (h : b.content.length ≤ 1) : b.Apart := by
  intro x c d y e
  rw [e] at h
  simp at h
  omega

theorem Block.apart_empty : Block.empty.Apart := Block.apart_of_single (by decide)

theorem OnePiece.wholeWords {fs : Fs} {a : Ast} {st : St} (h : OnePiece fs a st) : WholeWords fs a st :=
  fun n b st' e => Block.apart_of_single (h n b st' e)

/-- Evaluation of a substitution reference, given the evaluations of the name and of the value. -/
theorem evals_subref {fs : Fs} {st : St} {N : Nat} {l l1 l2 : Location} {a : Ast} {n k r u : List LChar} {ns us : List Str}
    (hw : st.WF) (hn : Evals fs st N a (n ++ (':', l1) :: (k ++ ('=', l2) :: r)) ns) (hp : OnePiece fs a st)
    (hk : ':' ∉ textOf k) (hr : ':' ∉ textOf r) (hr' : '=' ∉ textOf r)
    (hu : (st.env (textOf n) = none ∧ u = [] ∧ us = []) ∨
      (∀ p, st.db.getVariable (((st.interned ns).names.internVar (textOf n)).1) = some p →
        Evals fs ((st.interned ns).interned [textOf n]) N p.value u us ∧
        WholeWords fs p.value ((st.interned ns).interned [textOf n])) ∧ st.env (textOf n) ≠ none) :
    ∃ outs, List.Forall₂ (substRule k r).Done (substWords u) outs ∧
      Evals fs st (N + 1) (.varRef l a) (joinSpaces outs) (ns ++ textOf n :: us) := by
  obtain ⟨b, h1, h2, h3, h4, h5⟩ := hn.eval
  have hat := Block.span_at h4 h5
  rw [h2] at hat
  obtain ⟨ni, ki, ri, he, hni, hki, hri⟩ := colonFind_some hat (hp N b _ h1) hk hr hr'
  have hw1 := hw.interned ns
  obtain ⟨hv, henv⟩ := hw1.intern (textOf n)
  rw [hw.env_interned ns] at henv
  have hsens0 : SensOf (Sens.union [] b.sens) (st.interned ns).names ns := by
    intro v; rw [Sens.mem_union, h3 v]; simp
  have hsens1 : ∀ (x : Sens), SensOf x (((st.interned ns).interned [textOf n]).interned us).names us →
      SensOf (Sens.insert (Sens.union (Sens.union [] b.sens) x) ((st.interned ns).names.internVar (textOf n)).1)
        (st.interned (ns ++ textOf n :: us)).names (ns ++ textOf n :: us) := by
    intro x hx
    have h1 : SensOf [((st.interned ns).names.internVar (textOf n)).1] ((st.interned ns).interned [textOf n]).names
        [textOf n] := by
      intro v
      simp only [List.mem_singleton, exists_eq_left]
      rw [hv]
      exact ⟨fun e => by rw [e], fun e => (Option.some.inj e).symm⟩
    have h2 := SensOf.union hw1 h1 hx
    have h3 := SensOf.union hw hsens0 h2
    intro v
    rw [show ns ++ textOf n :: us = ns ++ ([textOf n] ++ us) from rfl, ← h3 v]
    simp only [Sens.mem_insert, Sens.mem_union, List.mem_singleton]
    tauto
  have hnl : usub ni.length 1 = .ok n.length := by rw [hni.length, usub_of_le (by simp)]; simp
  have hkl : usub ki.length 1 = .ok k.length := by rw [hki.length, usub_of_le (by simp)]; simp
  have hni' := hni.sliceTo (n := n.length) (by simp)
  rw [List.take_left] at hni'
  have hki' := hki.sliceTo (n := k.length) (by simp)
  rw [List.take_left] at hki'
  obtain ⟨nb, nb1, nb2⟩ := hni'.part
  obtain ⟨kb, kb1, kb2⟩ := hki'.part
  obtain ⟨rb, rb1, rb2⟩ := hri.part
  have hstr : nb.intoString = .ok (textOf n) := by rw [Block.intoString_eq nb nb2.wf, Block.text, nb2.ltext]
  have sub : ∀ (value : Block) (sens : Sens), Block.WF value → value.Solid → value.Apart →
      ∃ outs o, List.Forall₂ (substRule k r).Done (substWords (Block.ltext value)) outs ∧
        doSubref sens value kb rb = .ok o ∧ Block.ltext o = joinSpaces outs ∧ Block.WF o := by
    intro value sens w1 w2 w3
    obtain ⟨outs, o, o1, o2, o3, o4, _⟩ := doSubref_exact (sens := sens)
      (S := Sens.union (Sens.union sens value.sens) rb.sens) w1 w2 kb2.wf kb2.solid rb2.wf rb2.solid w3
      (fun v hv => by simp [Sens.mem_union, hv]) (fun v hv => by simp [Sens.mem_union, hv])
      (fun v hv => by simp [Sens.mem_union, hv])
    rw [kb2.ltext, rb2.ltext] at o1
    exact ⟨outs, o, o1, o2, o3, o4⟩
  unfold Evals
  simp only [recF, Rec.evalInternal]
  simp only [evalStep, evalVarRef, h1, Res.ok_bind, he, hnl, hkl, nb1, kb1, rb1, hstr, derefVariable]
  rw [show (st.interned (ns ++ textOf n :: us)) = ((st.interned ns).interned [textOf n]).interned us by
    rw [St.interned_append]; rfl]
  rcases hu with ⟨hu, rfl, rfl⟩ | ⟨hu, hne⟩
  · rw [henv, Option.map_eq_none_iff] at hu
    have hu' : st.db.getVariable ((st.interned ns).names.internVar (textOf n)).1 = none := hu
    simp only [St.interned_db, hu', Res.pure_eq, Res.ok_bind]
    obtain ⟨outs, o, o1, o2, o3, o4⟩ := sub Block.empty
      (Sens.insert (Sens.union [] b.sens) ((st.interned ns).names.internVar (textOf n)).1) trivial (by intro c hc; cases hc) Block.apart_empty
    refine ⟨outs, o1, ?_⟩
    rw [o2]
    refine ⟨_, _, rfl, ⟨CRef.ofNode_wf (n := .subRef nb kb rb o) o4, trivial⟩, ?_, ?_⟩
    · simp only [CRef.ltextList, CRef.ofNode_ltext (n := .subRef nb kb rb o) o4, Node.ltext, o3, List.append_nil]
    · have := hsens1 [] (SensOf.nil _)
      intro v
      rw [← this v]
      simp only [Sens.mem_insert, Sens.mem_union]
      simp
  · obtain ⟨p, hp⟩ : ∃ p, st.db.getVariable ((st.interned ns).names.internVar (textOf n)).1 = some p := by
      cases hp : st.db.getVariable ((st.interned ns).names.internVar (textOf n)).1 with
      | some p => exact ⟨p, rfl⟩
      | none => rw [henv] at hne; simp only [St.interned_db, hp] at hne; exact absurd rfl hne
    obtain ⟨c, c1, c2, c3, c4, c5⟩ := (hu p hp).1.eval
    have c6 := (hu p hp).2 N c _ c1
    simp only [St.interned_db, hp]
    have c1' : (recF fs N).eval p.value
        ⟨st.db, ((st.interned ns).names.internVar (textOf n)).2, (st.interned ns).commandChar⟩ = _ := c1
    rw [c1']
    simp only [Res.ok_bind, Res.pure_eq]
    obtain ⟨outs, o, o1, o2, o3, o4⟩ := sub c
      (Sens.insert (Sens.union (Sens.union [] b.sens) c.sens) ((st.interned ns).names.internVar (textOf n)).1) c4 c5 c6
    rw [c2] at o1
    refine ⟨outs, o1, ?_⟩
    rw [o2]
    refine ⟨_, _, rfl, ⟨CRef.ofNode_wf (n := .subRef nb kb rb o) o4, trivial⟩, ?_, hsens1 c.sens c3⟩
    simp only [CRef.ltextList, CRef.ofNode_ltext (n := .subRef nb kb rb o) o4, Node.ltext, o3, List.append_nil]

end Hastur
