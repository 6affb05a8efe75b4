import Verif.Proofs.SubstRef
import Verif.Proofs.SubstPieces
import Verif.Proofs.SubstTotal
/-
Lemmas: substitution references whose name is made of several pieces.
-/
namespace Hastur

open Span Res

variable {P : Block} {t : List LChar} {i : Span}

theorem pieceStart_end : ∀ (ns : List Nat), pieceStart ns ns.sum = ns.sum
  | [] => rfl
  | n :: ns => by
    rw [pieceStart, List.sum_cons, if_neg (by omega), Nat.add_sub_cancel_left, pieceStart_end ns]

theorem Block.pieceStart_length {b : Block} : b.pieceStart (Block.ltext b).length = (Block.ltext b).length := by
  have : (Block.ltext b).length = (b.content.map fun c => (CRef.ltext c).length).sum := by
    rw [Block.ltext_eq]
    generalize b.content = cs
    induction cs with
    | nil => rfl
    | cons c cs ih => simp [CRef.ltextList, ih]
  unfold Block.pieceStart
  rw [this, pieceStart_end]

theorem recognized_bounds {p k : Nat} (hk : 0 < k) : 0 < recognized P p k ∧ recognized P p k ≤ k := by
  have : P.pieceStart (p + k) ≤ p + k := pieceStart_le _ _
  unfold recognized
  split <;> omega

/-- The offset of a tail, in terms of pieces. -/
theorem tail_recognized {r : Span} {k : Nat} (h : i.At P t) (h0 : i.length ≠ 0) (ht : i.Tail k r) (hg : r.Good)
    (h0' : r.length ≠ 0) : (if r.start = i.start then k else k - r.offset) = recognized P i.pos k := by
  have p1 := hg.pieceStart h0'
  have p2 := h.good.pieceStart h0
  have p3 := ht.pos
  have o2 := (ht.offsetTo h.good h0).2
  obtain ⟨t1, ⟨m, t2, _, t3⟩, _⟩ := ht
  obtain ⟨c, cs, e1, e2, _⟩ := h.good.2.resolve_left h0
  rw [t1, t2, List.take_add, lensum_append, h.parent] at p1
  rw [p3] at p1
  have hpos : i.pos = lensum (P.content.take i.start) + i.offset := by rw [← h.parent]; rfl
  have e1' : P.content.drop i.start = c :: cs := by rw [← h.parent]; exact e1
  unfold Span.contents at t3
  rw [h.parent, e1'] at t3
  rw [e1'] at p1
  unfold recognized
  rw [p1]
  by_cases hm : m = 0
  · subst hm
    rw [if_pos (by omega), List.take_zero, lensum_nil, if_pos (by omega)]
  · obtain ⟨m', rfl⟩ : ∃ m', m = m' + 1 := ⟨m - 1, by omega⟩
    rw [List.take_succ_cons, lensum_cons] at t3 ⊢
    have := o2 (by omega)
    rw [if_neg (by omega), if_neg (by omega)]
    omega

/-- The separator stands at the end, and nowhere else. -/
theorem recognize_last {c : Char} (hc : isAscii c = true) {u : List LChar} {l : Location} (h : i.At P (u ++ [(c, l)]))
    (hu : c ∉ textOf u) : ∃ r, Nom.recognize (Nom.many1 (Nom.takeUntilAndConsume [c])) i =
      .ok (.done r (i.sliceTo (u.length + 1))) ∧ r.At P [] := by
  have hm : c ∈ textOf (u ++ [(c, l)]) := by simp
  obtain ⟨r, q, e1, e2, e3⟩ := (Nom.takeUntilAndConsume_at h hc).1 hm
  have hlen : ((textOf (u ++ [(c, l)])).takeWhile (fun x => x != c)).length = u.length := by
    rw [textOf_append, List.takeWhile_append_of_pos (fun x hx => by
      simp only [bne_iff_ne, ne_eq]
      rintro rfl
      exact hu hx)]
    simp [textOf_length]
  rw [hlen] at e2 e3
  rw [List.drop_of_length_le (by simp)] at e2
  have hr0 : r.length = 0 := by rw [e2.length]; rfl
  have hs : r.start = i.start := by
    unfold Nom.takeUntilAndConsume at e1
    rw [h.find hc, Res.ok_bind, if_pos hm, hlen] at e1
    simp only at e1
    obtain ⟨r', g1, g2⟩ := Res.bind_eq_ok.mp e1
    obtain ⟨q', _, g3⟩ := Res.bind_eq_ok.mp g2
    cases g3
    unfold Span.sliceFrom at g1
    obtain ⟨n, g4, g5⟩ := Res.bind_eq_ok.mp g1
    have hb : blen [c] = 1 := by simp [blen, utf8Size_ascii hc]
    rw [hb, h.length, usub_of_le (by simp)] at g4
    have hn : n = 0 := by
      cases g4
      simp
    subst hn
    unfold Span.revalidate at g5
    simp only [if_true, Res.ok.injEq] at g5
    rw [← g5]
  have h0 : i.length ≠ 0 := by rw [h.length]; simp
  refine ⟨r, ?_, e2⟩
  have hmany : Nom.many1 (Nom.takeUntilAndConsume [c]) i = .ok (.done r ()) := by
    unfold Nom.many1
    rw [e1]
    simp only [Res.ok_bind]
    unfold Nom.many1Loop
    rw [(Nom.takeUntilAndConsume_at e2 hc).2 (by simp)]
    rfl
  unfold Nom.recognize
  rw [hmany, done_andThen, (e3.offsetTo h.good h0).1, if_pos hs]
  rfl

/-- The name, the key and the replacement of a substitution reference, however the text is divided into pieces. -/
theorem colonFind_pieces {n k r : List LChar} {l l' : Location} (h : i.At P (n ++ (':', l) :: (k ++ ('=', l') :: r)))
    (hpos : i.pos = 0) (hk : ':' ∉ textOf k) (hr : ':' ∉ textOf r) (hr' : '=' ∉ textOf r) (h0 : r ≠ [] ∨ '=' ∉ textOf k)
    (hP : (Block.ltext P).length = (n ++ (':', l) :: (k ++ ('=', l') :: r)).length) :
    ∃ a b c, colonFind i = .ok (.done c (a, b)) ∧
      a.At P ((n ++ (':', l) :: (k ++ ('=', l') :: r)).take (recognized P 0 (n.length + 1))) ∧
      b.At P ((k ++ ('=', l') :: r).take (recognized P (n.length + 1) (k.length + 1))) ∧ c.At P r := by
  unfold colonFind
  obtain ⟨q, u, l1, v, m, e1, e2, e3, e4, e5, e6⟩ := (Nom.recognize_consume (c := ':') (by decide) h).1 (by simp)
  obtain ⟨rfl, rfl, rfl⟩ := last_split e2 (by simp [hk, hr]) e4
  have hq0 : q.length ≠ 0 := by rw [e3.length]; simp
  rw [tail_recognized h (by rw [h.length]; simp) e5 e3.good hq0, hpos] at e6
  have hqp : q.pos = n.length + 1 := by rw [e5.pos, hpos, Nat.zero_add]
  have hb1 := recognized_bounds (P := P) (p := 0) (k := n.length + 1) (by omega)
  have hb2 := recognized_bounds (P := P) (p := n.length + 1) (k := k.length + 1) (by omega)
  rw [e1, done_andThen]
  have ha := h.sliceTo (n := m) (by rw [e6]; simp; omega)
  rw [e6] at ha
  by_cases hr0 : r = []
  · subst hr0
    obtain ⟨q', f1, f2⟩ := recognize_last (c := '=') (by decide) e3 (h0.resolve_left (fun e => e rfl))
    have hrec : recognized P (n.length + 1) (k.length + 1) = k.length + 1 := by
      unfold recognized
      have hlen : n.length + 1 + (k.length + 1) = (Block.ltext P).length := by rw [hP]; simp; omega
      rw [hlen, Block.pieceStart_length, if_neg (by omega)]
      omega
    rw [f1, done_andThen]
    refine ⟨_, _, q', rfl, by rw [e6]; exact ha, ?_, f2⟩
    rw [hrec]
    exact e3.sliceTo (by simp)
  · obtain ⟨q', u', l2, v', m', f1, f2, f3, f4, f5, f6⟩ := (Nom.recognize_consume (c := '=') (by decide) e3).1 (by simp)
    obtain ⟨rfl, rfl, rfl⟩ := last_split f2 hr' f4
    rw [tail_recognized e3 hq0 f5 f3.good (by rw [f3.length]; simpa using hr0), hqp] at f6
    rw [f1, done_andThen]
    refine ⟨_, _, q', rfl, by rw [e6]; exact ha, ?_, f3⟩
    rw [f6]
    exact e3.sliceTo (by simp; omega)

theorem Block.partTo_name {b : Block} {n s : List LChar} (h : Block.ltext b = n ++ s) :
    (n ++ s).take (recognized b 0 (n.length + 1) - 1) = b.partTo 0 n.length := by
  unfold Block.partTo recognized
  rw [h, List.drop_zero, Nat.zero_add]
  split <;> simp

theorem Block.partTo_key {b : Block} {n s : List LChar} {x : LChar} {e : Nat} (h : Block.ltext b = n ++ x :: s)
    (he : 0 < e) :
    s.take (recognized b (n.length + 1) e - 1) = b.partTo (n.length + 1) (n.length + e) := by
  have hs : s = (n ++ x :: s).drop (n.length + 1) := by
    rw [List.drop_append, List.drop_of_length_le (by omega)]
    simp
  unfold Block.partTo recognized
  rw [h, show n.length + e + 1 = n.length + 1 + e by omega, List.drop_take, ← hs]
  congr 1
  split <;> omega

/-- Evaluation of a substitution reference, given the evaluations of the name and of the value. -/
theorem evals_subref_pieces {fs : Fs} {st : St} {N : Nat} {l l1 l2 : Location} {a : Ast} {n k r : List LChar}
    {ns us : List Str} {b vb : Block} {y : Str} {key : List LChar}
    (hw : st.WF) (h1 : (recF fs N).eval a st = .ok (b, st.interned ns))
    (h2 : Block.ltext b = n ++ (':', l1) :: (k ++ ('=', l2) :: r)) (h3 : SensOf b.sens (st.interned ns).names ns)
    (h4 : Block.WF b) (h5 : b.Solid)
    (hk : ':' ∉ textOf k) (hr : ':' ∉ textOf r) (hr' : '=' ∉ textOf r) (h0 : r ≠ [] ∨ '=' ∉ textOf k)
    (hy : y = textOf (b.partTo 0 n.length)) (hkey : key = b.partTo (n.length + 1) (n.length + 1 + k.length))
    (hu : (st.env y = none ∧ vb = Block.empty ∧ us = []) ∨
      (∀ p, st.db.getVariable (((st.interned ns).names.internVar y).1) = some p →
        (recF fs N).eval p.value ((st.interned ns).interned [y]) = .ok (vb, ((st.interned ns).interned [y]).interned us) ∧
        SensOf vb.sens (((st.interned ns).interned [y]).interned us).names us ∧ Block.WF vb ∧ vb.Solid) ∧ st.env y ≠ none) :
    ∃ outs, List.Forall₂ (fun w out => (substRule key r).DoneAt vb.pieceStart w.1 w.2 out) (substWordsAt (Block.ltext vb)) outs ∧
      Evals fs st (N + 1) (.varRef l a) (joinSpaces outs) (ns ++ y :: us) := by
  have hat := Block.span_at h4 h5
  rw [h2] at hat
  obtain ⟨ni, ki, ri, he, hni, hki, hri⟩ := colonFind_pieces hat rfl hk hr hr' h0 (by rw [h2])
  have hw1 := hw.interned ns
  obtain ⟨hv, henv⟩ := hw1.intern y
  rw [hw.env_interned ns] at henv
  have hsens0 : SensOf (Sens.union [] b.sens) (st.interned ns).names ns := by
    intro v; rw [Sens.mem_union, h3 v]; simp
  have hsens1 : ∀ (x : Sens), SensOf x (((st.interned ns).interned [y]).interned us).names us →
      SensOf (Sens.insert (Sens.union (Sens.union [] b.sens) x) ((st.interned ns).names.internVar y).1)
        (st.interned (ns ++ y :: us)).names (ns ++ y :: us) := by
    intro x hx
    have h1 : SensOf [((st.interned ns).names.internVar y).1] ((st.interned ns).interned [y]).names
        [y] := by
      intro v
      simp only [List.mem_singleton, exists_eq_left]
      rw [hv]
      exact ⟨fun e => by rw [e], fun e => (Option.some.inj e).symm⟩
    have h2 := SensOf.union hw1 h1 hx
    have h3 := SensOf.union hw hsens0 h2
    intro v
    rw [show ns ++ y :: us = ns ++ ([y] ++ us) from rfl, ← h3 v]
    simp only [Sens.mem_insert, Sens.mem_union, List.mem_singleton]
    tauto
  obtain ⟨b1, b2⟩ := recognized_bounds (P := b) (p := 0) (k := n.length + 1) (by omega)
  obtain ⟨b3, b4⟩ := recognized_bounds (P := b) (p := n.length + 1) (k := k.length + 1) (by omega)
  have cut : ∀ {i : Span} {t : List LChar} {m : Nat}, i.At b (t.take m) → 0 < m → m ≤ t.length →
      usub i.length 1 = .ok (m - 1) ∧ (i.sliceTo (m - 1)).At b (t.take (m - 1)) := by
    intro i t m hi hm hl
    refine ⟨by rw [hi.length, List.length_take, usub_of_le (by omega), Nat.min_eq_left hl], ?_⟩
    have := hi.sliceTo (n := m - 1) (by rw [List.length_take]; omega)
    rwa [List.take_take, Nat.min_eq_left (by omega)] at this
  obtain ⟨hnl, hni'⟩ := cut hni b1 (by simp; omega)
  obtain ⟨hkl, hki'⟩ := cut hki b3 (by simp; omega)
  rw [Block.partTo_name h2] at hni'
  rw [Block.partTo_key h2 (by omega), show n.length + (k.length + 1) = n.length + 1 + k.length by omega, ← hkey] at hki'
  obtain ⟨nb, nb1, nb2⟩ := hni'.part
  obtain ⟨kb, kb1, kb2⟩ := hki'.part
  obtain ⟨rb, rb1, rb2⟩ := hri.part
  have hstr : nb.intoString = .ok y := by rw [Block.intoString_eq nb nb2.wf, Block.text, nb2.ltext, hy]
  have sub : ∀ (value : Block) (sens : Sens), Block.WF value → value.Solid →
      ∃ outs o, List.Forall₂ (fun w out => (substRule key r).DoneAt value.pieceStart w.1 w.2 out)
        (substWordsAt (Block.ltext value)) outs ∧
        doSubref sens value kb rb = .ok o ∧ Block.ltext o = joinSpaces outs ∧ Block.WF o := by
    intro value sens w1 w2
    obtain ⟨outs, o, o1, o2, o3, o4, _⟩ := doSubref_pieces (sens := sens)
      (S := Sens.union (Sens.union sens value.sens) rb.sens) w1 w2 kb2.wf kb2.solid rb2.wf rb2.solid
      (fun v hv => by simp [Sens.mem_union, hv]) (fun v hv => by simp [Sens.mem_union, hv])
      (fun v hv => by simp [Sens.mem_union, hv])
    rw [kb2.ltext, rb2.ltext] at o1
    exact ⟨outs, o, o1, o2, o3, o4⟩
  unfold Evals
  simp only [recF]
  simp only [evalStep, evalVarRef, h1, Res.ok_bind, he, hnl, hkl, nb1, kb1, rb1, hstr, derefVariable]
  rw [show (st.interned (ns ++ y :: us)) = ((st.interned ns).interned [y]).interned us by
    rw [St.interned_append]; rfl]
  rcases hu with ⟨hu, rfl, rfl⟩ | ⟨hu, hne⟩
  · rw [henv, Option.map_eq_none_iff] at hu
    have hu' : st.db.getVariable ((st.interned ns).names.internVar y).1 = none := hu
    simp only [St.interned_db, hu', Res.pure_eq, Res.ok_bind]
    obtain ⟨outs, o, o1, o2, o3, o4⟩ := sub Block.empty
      (Sens.insert (Sens.union [] b.sens) ((st.interned ns).names.internVar y).1) trivial (by intro c hc; cases hc)
    refine ⟨outs, o1, ?_⟩
    rw [o2]
    refine ⟨_, _, rfl, ⟨CRef.ofNode_wf (n := .subRef nb kb rb o) o4, trivial⟩, ?_, ?_⟩
    · simp only [CRef.ltextList, CRef.ofNode_ltext (n := .subRef nb kb rb o) o4, Node.ltext, o3, List.append_nil]
    · have := hsens1 [] (SensOf.nil _)
      intro v
      rw [← this v]
      simp only [Sens.mem_insert, Sens.mem_union]
      simp
  · obtain ⟨p, hp⟩ : ∃ p, st.db.getVariable ((st.interned ns).names.internVar y).1 = some p := by
      cases hp : st.db.getVariable ((st.interned ns).names.internVar y).1 with
      | some p => exact ⟨p, rfl⟩
      | none => rw [henv] at hne; simp only [St.interned_db, hp] at hne; exact absurd rfl hne
    obtain ⟨c1, c3, c4, c5⟩ := hu p hp
    simp only [St.interned_db, hp]
    have c1' : (recF fs N).eval p.value
        ⟨st.db, ((st.interned ns).names.internVar y).2, (st.interned ns).commandChar⟩ = _ := c1
    rw [c1']
    simp only [Res.ok_bind, Res.pure_eq]
    obtain ⟨outs, o, o1, o2, o3, o4⟩ := sub vb
      (Sens.insert (Sens.union (Sens.union [] b.sens) vb.sens) ((st.interned ns).names.internVar y).1) c4 c5
    refine ⟨outs, o1, ?_⟩
    rw [o2]
    refine ⟨_, _, rfl, ⟨CRef.ofNode_wf (n := .subRef nb kb rb o) o4, trivial⟩, ?_, hsens1 vb.sens c3⟩
    simp only [CRef.ltextList, CRef.ofNode_ltext (n := .subRef nb kb rb o) o4, Node.ltext, o3, List.append_nil]

end Hastur
