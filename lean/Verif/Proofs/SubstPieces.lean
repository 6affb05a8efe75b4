import Verif.Proofs.Subst
import Verif.Proofs.Wrapped
/-
Lemmas: the substitution of words made of several pieces.
-/
namespace Hastur

open Span Res

variable {P : Block} {t : List LChar} {i : Span}

/-- The position of a span in the text of its block. -/
def Span.pos (s : Span) : Nat := lensum (s.parent.content.take s.start) + s.offset

theorem Span.Tail.pos {r : Span} {n : Nat} (h : i.Tail n r) : r.pos = i.pos + n := by
  obtain ⟨h1, ⟨k, h2, _, h3⟩, _⟩ := h
  unfold Span.pos
  rw [h1, h2, List.take_add, lensum_append]
  unfold Span.contents at h3
  omega

theorem pieceStart_le (ns : List Nat) (p : Nat) : pieceStart ns p ≤ p := by
  induction ns generalizing p with
  | nil => exact Nat.zero_le _
  | cons n ns ih =>
    rw [pieceStart]
    split
    · exact Nat.zero_le _
    · have := ih (p - n)
      omega

theorem pieceStart_lensum (cs : List CRef) (n : Nat) (hn : n < cs.length) (o : Nat) (ho : o < (cs[n]).length) :
    pieceStart (cs.map fun c : CRef => c.length) (lensum (cs.take n) + o) = lensum (cs.take n) := by
  induction cs generalizing n with
  | nil => simp at hn
  | cons c cs ih =>
    cases n with
    | zero =>
      simp only [List.take_zero, lensum_nil, Nat.zero_add, List.map_cons, pieceStart]
      exact if_pos ho
    | succ n =>
      simp only [List.take_succ_cons, lensum_cons, List.map_cons, pieceStart]
      rw [if_neg (by omega)]
      have := ih n (by simpa using hn) ho
      rw [show c.length + lensum (cs.take n) + o - c.length = lensum (cs.take n) + o by omega, this]

theorem Block.pieceStart_eq {b : Block} (h : Block.WF b) (p : Nat) :
    b.pieceStart p = Hastur.pieceStart (b.content.map fun c : CRef => c.length) p := by
  unfold Block.pieceStart
  congr 1
  rw [Block.wf_eq] at h
  generalize b.content = cs at *
  induction cs with
  | nil => rfl
  | cons c cs ih =>
    obtain ⟨h1, h2⟩ := h
    rw [List.map_cons, List.map_cons, ih h2, CRef.ltext_length _ h1]

theorem Span.Good.pieceStart (h : i.Good) (h0 : i.length ≠ 0) :
    i.parent.pieceStart i.pos = lensum (i.parent.content.take i.start) := by
  obtain ⟨c, cs, e1, e2, _⟩ := h.2.resolve_left h0
  rw [Block.pieceStart_eq h.1]
  unfold Span.contents at e1
  have hlt : i.start < i.parent.content.length := by
    by_contra hc
    rw [List.drop_eq_nil_of_le (by omega)] at e1
    cases e1
  have hc : i.parent.content[i.start] = c := by
    rw [List.drop_eq_getElem_cons hlt] at e1
    exact (List.cons.inj e1).1
  exact pieceStart_lensum _ _ hlt _ (by rw [hc]; exact e2)

/-- How much of `k` characters is recognized when the rest begins in a later piece. -/
def recognized (P : Block) (p k : Nat) : Nat :=
  if P.pieceStart (p + k) ≤ p then k else P.pieceStart (p + k) - p

theorem offsetTo_pieces (h : i.At P t) {k : Nat} (hk : k < t.length) :
    i.offsetTo (i.dropS k) = .ok (recognized P i.pos k) ∧ recognized P i.pos k ≤ k := by
  have hk' : k ≤ i.length := by rw [h.length]; omega
  have h0 : i.length ≠ 0 := by rw [h.length]; omega
  have ht := Span.Tail.sliceFrom h.good.wf hk' (sliceFrom_eq h.good.wf hk')
  have hg := dropS_good h.good.wf hk'
  have h0' : (i.dropS k).length ≠ 0 := by rw [dropS_length h.good.wf hk', h.length]; omega
  have p1 := hg.pieceStart h0'
  have p2 := h.good.pieceStart h0
  have p3 := ht.pos
  obtain ⟨o1, o2⟩ := offsetTo_dropS h.good hk'
  obtain ⟨t1, ⟨m, t2, _, t3⟩, _⟩ := ht
  obtain ⟨c, cs, e1, e2, _⟩ := h.good.2.resolve_left h0
  rw [t1, t2, List.take_add, lensum_append, h.parent] at p1
  rw [p3] at p1
  have hpos : i.pos = lensum (P.content.take i.start) + i.offset := by rw [← h.parent]; rfl
  have e1' : P.content.drop i.start = c :: cs := by rw [← h.parent]; exact e1
  unfold Span.contents at t3
  rw [h.parent, e1'] at t3
  rw [e1'] at p1
  rw [o1]
  unfold recognized
  rw [p1]
  by_cases hm : m = 0
  · subst hm
    rw [if_pos (by omega), List.take_zero, lensum_nil, if_pos (by omega)]
    exact ⟨rfl, Nat.le_refl _⟩
  · obtain ⟨m', rfl⟩ : ∃ m', m = m' + 1 := ⟨m - 1, by omega⟩
    rw [List.take_succ_cons, lensum_cons] at t3 ⊢
    have := o2 (by omega)
    rw [if_neg (by omega), if_neg (by omega)]
    exact ⟨by congr 1; omega, by omega⟩

/-- `recognize!(many1!(take_until!(w)))` in general. -/
theorem recognize_pieces (h : i.At P t) {w : Str} (hw : AsciiS w) :
    (∀ k, FirstAt w (textOf t) k → ∃ r q, Nom.recognize (Nom.many1 (Nom.takeUntil w)) i = .ok (.done r q) ∧ r.At P (t.drop k) ∧
      q.At P (t.take (recognized P i.pos k)) ∧ recognized P i.pos k ≤ k) ∧
      (¬ Occurs w (textOf t) → Nom.recognize (Nom.many1 (Nom.takeUntil w)) i = .ok (.err (.error .code))) := by
  constructor
  · intro k hk
    obtain ⟨hle, e1, e2⟩ := (Nom.takeUntil_str h hw).1 k hk
    have hle' : k ≤ i.length := by rw [h.length]; exact hle
    obtain ⟨_, e3, e4⟩ := (Nom.takeUntil_str e2 hw).1 0 (by rw [textOf_drop]; exact Nom.firstAt_drop hk)
    have hm : Nom.many1 (Nom.takeUntil w) i = .ok (.done (i.dropS k) ()) := by
      unfold Nom.many1
      rw [e1]
      simp only [Res.ok_bind]
      unfold Nom.many1Loop
      rw [e3]
      simp only [Res.ok_bind]
      rw [if_pos (by rw [e4.length, e2.length]; simp)]
      rfl
    have key : ∃ m, i.offsetTo (i.dropS k) = .ok m ∧ m ≤ k ∧ t.take m = t.take (recognized P i.pos k) ∧
        recognized P i.pos k ≤ k := by
      by_cases hkt : k < t.length
      · obtain ⟨a, b⟩ := offsetTo_pieces h hkt
        exact ⟨_, a, b, rfl, b⟩
      · have hk0 : k = 0 := by
          obtain ⟨⟨x, y, e, ex⟩, hf⟩ := hk
          have hl := congrArg List.length e
          rw [textOf_length] at hl
          simp only [List.length_append] at hl
          have : w = [] := List.length_eq_zero_iff.mp (by omega)
          subst this
          have := hf [] (textOf t) (by simp)
          simpa using this
        subst hk0
        have : t = [] := List.length_eq_zero_iff.mp (by omega)
        subst this
        refine ⟨_, (offsetTo_dropS h.good hle').1, ?_, by simp, ?_⟩
        · split <;> omega
        · unfold recognized
          rw [if_pos (show P.pieceStart (i.pos + 0) ≤ i.pos from pieceStart_le _ _)]
    obtain ⟨m, m1, m2, m3, m4⟩ := key
    refine ⟨i.dropS k, i.sliceTo m, ?_, e2, ?_, m4⟩
    · unfold Nom.recognize
      rw [hm, done_andThen, m1]
      rfl
    · rw [← m3]
      exact h.sliceTo (Nat.le_trans m2 hle)
  · intro hk
    unfold Nom.recognize Nom.many1
    rw [(Nom.takeUntil_str h hw).2 hk]
    rfl

theorem takeSplit_pos (h : i.At P t) {n : Nat} (hn : n ≤ t.length) {r q : Span} (hs : i.takeSplit n = .ok (r, q)) :
    r.pos = i.pos + n ∧ q.pos = i.pos := by
  have hn' : n ≤ i.length := by rw [h.length]; exact hn
  rw [takeSplit_eq h.good.wf hn'] at hs
  cases hs
  exact ⟨(Span.Tail.sliceFrom h.good.wf hn' (sliceFrom_eq h.good.wf hn')).pos, rfl⟩

theorem takeTill_pos (h : i.At P t) {p : Char → Bool} {r q : Span} (hs : Nom.takeTill p i = .ok (.done r q)) :
    q.pos = i.pos ∧ (r.length ≠ 0 → r.pos + r.length = i.pos + i.length) := by
  unfold Nom.takeTill at hs
  obtain ⟨⟨r', w'⟩, e1, e2⟩ := Res.bind_eq_ok.mp hs
  cases e2
  unfold Span.splitAtPosition at e1
  obtain ⟨o, e3, e4⟩ := Res.bind_eq_ok.mp e1
  cases o with
  | none => cases e4; exact ⟨rfl, fun h => absurd rfl h⟩
  | some x =>
    obtain ⟨a, e5, e6⟩ := Res.bind_eq_ok.mp e4
    cases e6
    refine ⟨rfl, fun _ => ?_⟩
    have hle : x.1 ≤ i.length := by
      by_contra hc
      unfold Span.sliceFrom usub at e5
      rw [if_neg (by omega)] at e5
      cases e5
    have ht := Span.Tail.sliceFrom h.good.wf hle e5
    have := ht.pos
    have := ht.length
    omega

/-- The match of one token. -/
theorem matchToken_pieces (h : i.At P t) {pre post : Str} (hp : AsciiS pre) (hq : AsciiS post) :
    (∀ a u k, t = a ++ u → textOf a = pre → FirstAt post (textOf u) k → ∃ r q, matchToken pre post i = .ok (.done r q) ∧
      r.At P (u.drop (k + post.length)) ∧ q.At P (u.take (recognized P (i.pos + a.length) k)) ∧
      recognized P (i.pos + a.length) k ≤ k) ∧
    ((∀ a u, t = a ++ u → textOf a = pre → ¬ Occurs post (textOf u)) → ∃ e, matchToken pre post i = .ok (.err e)) := by
  unfold matchToken
  constructor
  · rintro a u k rfl rfl hk
    obtain ⟨r, q, e1, e2, _⟩ := (Nom.tag_at h hp).1 (by rw [textOf_append]; exact List.prefix_append _ _)
    rw [textOf_length, List.drop_left] at e2
    have hpos := (takeSplit_pos h (n := blen (textOf a)) (by rw [blen_ascii hp, textOf_length]; simp) (Nom.tag_takeSplit e1)).1
    rw [blen_ascii hp, textOf_length] at hpos
    obtain ⟨r', q', f1, f2, f3, f4⟩ := (recognize_pieces e2 hq).1 k hk
    rw [hpos] at f3 f4
    obtain ⟨r'', q'', g1, g2, _⟩ := (Nom.tag_at f2 hq).1 (by
      obtain ⟨⟨x, y, e, el⟩, _⟩ := hk
      rw [textOf_drop, e, ← el, List.append_assoc, List.drop_left]
      exact List.prefix_append _ _)
    rw [e1, done_andThen, f1, done_andThen, g1, done_andThen]
    exact ⟨r'', q', rfl, by rw [← List.drop_drop]; exact g2, f3, f4⟩
  · intro hm
    by_cases hpre : pre <+: textOf t
    · obtain ⟨r, q, e1, e2, _⟩ := (Nom.tag_at h hp).1 hpre
      have ht : textOf (t.take pre.length) = pre := by
        rw [textOf_take, List.prefix_iff_eq_take.mp hpre]; simp
      have := hm _ _ (List.take_append_drop pre.length t).symm ht
      rw [e1, done_andThen, (recognize_pieces e2 hq).2 this]
      exact ⟨_, rfl⟩
    · rw [(Nom.tag_at h hp).2 hpre]
      exact ⟨_, rfl⟩

theorem replaceToken_pieces {R : SubstRule} {PR QR : Block} {preR postR : Span} {S : Sens} {acc : List LChar} {B : Block} {p : Nat}
    (h : i.At P t) (hpos : t ≠ [] → i.pos = p) (hp : AsciiS R.pre) (hq : AsciiS R.post) (hr : preR.At PR R.preR)
    (hr' : postR.At QR R.postR) (hS : ∀ v, v ∈ P.sens → v ∈ S) (hS1 : ∀ v, v ∈ PR.sens → v ∈ S)
    (hS2 : ∀ v, v ∈ QR.sens → v ∈ S) (hB : Building S acc B) :
    ∃ out B', R.DoneAt P.pieceStart p t out ∧ replaceToken R.pre R.post preR postR B i = .ok B' ∧
      Building S (acc ++ out) B' := by
  unfold replaceToken
  have hkeep : (∀ a stem b, t = a ++ (stem ++ b) → textOf a = R.pre → textOf b = R.post →
      ¬ FirstAt R.post (textOf (stem ++ b)) stem.length) →
      ∃ out B', R.DoneAt P.pieceStart p t out ∧ B.pushAll i = .ok B' ∧ Building S (acc ++ out) B' := by
    intro hm
    obtain ⟨B', b1, b2⟩ := hB.push h hS
    exact ⟨t, B', .miss hm, b1, b2⟩
  by_cases hlt : i.length < blen R.pre + blen R.post
  · rw [if_pos hlt]
    refine hkeep fun a stem b e ea eb _ => ?_
    rw [h.length, blen_ascii hp, blen_ascii hq, e, ← ea, ← eb, textOf_length, textOf_length] at hlt
    simp at hlt; omega
  · rw [if_neg hlt]
    by_cases hex : ∃ a u, t = a ++ u ∧ textOf a = R.pre ∧ Occurs R.post (textOf u)
    · obtain ⟨a, u, e, ea, ho⟩ := hex
      obtain ⟨k, hk⟩ : ∃ k, FirstAt R.post (textOf u) k := by
        cases hf : firstOcc R.post (textOf u) with
        | none => exact absurd ho (firstOcc_none.mp hf)
        | some k => exact ⟨k, firstOcc_some.mp hf⟩
      obtain ⟨r, q, m1, m2, m3, m4⟩ := (matchToken_pieces h hp hq).1 a u k e ea hk
      rw [m1]
      simp only [ok_bind]
      have hlen := hk.1
      obtain ⟨x, y, exy, ex⟩ := hlen
      have hul : u.length = k + R.post.length + y.length := by
        have := congrArg List.length exy
        rw [textOf_length] at this
        simp at this; omega
      by_cases hz : r.length = 0
      · rw [if_neg (by simpa using hz)]
        obtain ⟨B1, b1, c1⟩ := hB.push hr hS1
        obtain ⟨B2, b2, c2⟩ := c1.push m3 hS
        obtain ⟨B3, b3, c3⟩ := c2.push hr' hS2
        have hy : y = [] := by
          rw [m2.length, List.length_drop] at hz
          exact List.length_eq_zero_iff.mp (by omega)
        subst hy
        have hpost : textOf (u.drop k) = R.post := by rw [textOf_drop, exy, ← ex]; simp
        refine ⟨R.preR ++ (u.take (recognized P (i.pos + a.length) k) ++ R.postR), B3, ?_, ?_, by simpa using c3⟩
        · by_cases hu0 : u = []
          · subst hu0
            have : k = 0 := by simp at hul; omega
            subst this
            simp only [List.take_nil]
            exact .hit (stem := []) (b := []) e ea (by simpa using hpost) (by simpa using hk) (pieceStart_le _ _)
          · rw [hpos (by rw [e]; simp [hu0])] at m4 ⊢
            unfold recognized at m4 ⊢
            split
            · rename_i hs
              refine .hit (a := a) (b := u.drop k) ?_ ea hpost ?_ ?_
              · rw [List.take_append_drop]; exact e
              · rw [List.take_append_drop, List.length_take, Nat.min_eq_left (by omega)]; exact hk
              · rw [List.length_take, Nat.min_eq_left (by omega)]; exact hs
            · rename_i hs
              rw [if_neg hs] at m4
              have hsplit : u.take (P.pieceStart (p + a.length + k) - (p + a.length)) ++
                  (u.take k).drop (P.pieceStart (p + a.length + k) - (p + a.length)) = u.take k := by
                conv => rhs; rw [← List.take_append_drop (P.pieceStart (p + a.length + k) - (p + a.length)) (u.take k)]
                rw [List.take_take, Nat.min_eq_left m4]
              have hl : (u.take k).length = k := by rw [List.length_take, Nat.min_eq_left (by omega)]
              refine .cut (a := a) (lost := (u.take k).drop (P.pieceStart (p + a.length + k) - (p + a.length))) (b := u.drop k)
                ?_ ea hpost ?_ ?_ ?_
              · rw [hsplit, List.take_append_drop]; exact e
              · rw [hsplit, List.take_append_drop, hl]; exact hk
              · intro hnil
                have := congrArg List.length hnil
                rw [List.length_take, Nat.min_eq_left (by omega)] at this
                simp at this; omega
              · rw [hsplit, hl, List.length_take, Nat.min_eq_left (by omega)]; omega
        · rw [b1, ok_bind, b2, ok_bind, b3]
      · rw [if_pos (by simpa using hz)]
        refine hkeep fun a' stem b e' ea' eb hf => ?_
        have hla : a'.length = a.length := by rw [← textOf_length a', ← textOf_length a, ea', ea]
        have hu : u = stem ++ b := by
          have := e.symm.trans e'
          exact (List.append_inj this hla.symm).2
        rw [hu] at hk
        have hk' := hk.2 (textOf stem) [] (by simp [eb])
        have hf' := hf.2 _ _ (show _ = x ++ R.post ++ y by rw [← exy, hu])
        rw [textOf_length] at hk'
        have : u.length = stem.length + R.post.length := by rw [hu, ← eb, textOf_length]; simp
        rw [m2.length, List.length_drop] at hz
        omega
    · obtain ⟨e, he⟩ := (matchToken_pieces h hp hq).2 fun a u e ea ho => hex ⟨a, u, e, ea, ho⟩
      rw [he]
      simp only [ok_bind]
      refine hkeep fun a stem b e ea eb _ => hex ⟨a, stem ++ b, e, ea, textOf stem, [], by simp [eb]⟩

/-! ### The loop over the words -/

theorem wordsAt_blanks (w t : List LChar) (hw : ∀ x ∈ w, lblank x = true) (p : Nat) :
    wordsAtFrom p [] (w ++ t) = wordsAtFrom (p + w.length) [] t := by
  induction w generalizing p with
  | nil => rfl
  | cons x w ih =>
    rw [List.cons_append, wordsAtFrom, if_pos (lblank_iff.mp (hw x (by simp))), if_pos rfl,
      ih (fun y hy => hw y (by simp [hy])), List.length_cons]
    congr 1
    omega

theorem wordsAt_word (w t cur : List LChar) (hw : ∀ x ∈ w, lblank x = false) (p : Nat) :
    wordsAtFrom p cur (w ++ t) = wordsAtFrom (p + w.length) (cur ++ w) t := by
  induction w generalizing p cur with
  | nil => simp
  | cons x w ih =>
    rw [List.cons_append, wordsAtFrom, if_neg (fun h => by
      have := hw x (by simp)
      rw [lblank_iff.mpr h] at this
      cases this), ih _ (fun y hy => hw y (by simp [hy])), List.length_cons]
    simp only [List.append_assoc, List.singleton_append]
    congr 1
    omega

theorem wordsAt_next (p : Nat) (t : List LChar) (ht : t.dropWhile lblank ≠ []) :
    wordsAtFrom p [] t = (p + (t.takeWhile lblank).length, (t.dropWhile lblank).takeWhile fun x => !lblank x) ::
      wordsAtFrom (p + (t.length - (((t.dropWhile lblank).dropWhile fun x => !lblank x).dropWhile lblank).length)) []
        (((t.dropWhile lblank).dropWhile fun x => !lblank x).dropWhile lblank) := by
  have e1 := List.takeWhile_append_dropWhile (p := lblank) (l := t)
  have e2 := List.takeWhile_append_dropWhile (p := fun x => !lblank x) (l := t.dropWhile lblank)
  have e3 := List.takeWhile_append_dropWhile (p := lblank) (l := (t.dropWhile lblank).dropWhile fun x => !lblank x)
  have l1 := congrArg List.length e1
  have l2 := congrArg List.length e2
  have l3 := congrArg List.length e3
  rw [List.length_append] at l1 l2 l3
  have hne : (t.dropWhile lblank).takeWhile (fun x => !lblank x) ≠ [] := by
    cases hd : t.dropWhile lblank with
    | nil => exact absurd hd ht
    | cons x u =>
      have hx : lblank x = false := by
        have := List.head?_dropWhile_not lblank t
        rw [hd] at this
        simpa using this
      simp [hx]
  conv => lhs; rw [← e1, wordsAt_blanks _ _ (fun x hx => List.mem_takeWhile_imp hx), ← e2,
    wordsAt_word _ _ _ (fun x hx => by simpa using List.mem_takeWhile_imp hx), List.nil_append]
  generalize hw : (t.dropWhile lblank).takeWhile (fun x => !lblank x) = w at *
  cases hr : (t.dropWhile lblank).dropWhile (fun x => !lblank x) with
  | nil =>
    rw [wordsAtFrom, if_neg hne]
    simp only [List.dropWhile_nil, wordsAtFrom, if_true]
    congr 2
    omega
  | cons x u =>
    have hx : lblank x = true := by
      have := List.head?_dropWhile_not (fun x => !lblank x) (t.dropWhile lblank)
      rw [hr] at this
      simpa using this
    rw [hr] at l2 l3
    rw [wordsAtFrom, if_pos (lblank_iff.mp hx), if_neg hne, List.dropWhile_cons_of_pos hx]
    rw [List.dropWhile_cons_of_pos hx, List.takeWhile_cons_of_pos hx] at l3
    have e4 := List.takeWhile_append_dropWhile (p := lblank) (l := u)
    conv => lhs; rw [← e4, wordsAt_blanks _ _ (fun x hx => List.mem_takeWhile_imp hx)]
    simp only [List.length_cons] at l2 l3
    congr 2
    · omega
    · omega

theorem token_pos (h : i.At P t) {r q : Span} (he : token i = .ok (.done r q)) :
    (r.length ≠ 0 → r.pos + r.length = i.pos + i.length) ∧
    (q.length ≠ 0 → q.pos = i.pos + (t.takeWhile lblank).length) := by
  obtain ⟨r1, q1, a1, a2, a3⟩ := whitespace_at h
  obtain ⟨r2, q2, b1, b2, b3⟩ := Nom.takeWhile_at a2 (fun c => !isBlank c)
  obtain ⟨r3, q3, c1, c2, _⟩ := whitespace_at b2
  unfold token at he
  rw [a1, done_andThen, b1, done_andThen, c1, done_andThen] at he
  cases he
  obtain ⟨_, a5⟩ := takeTill_pos h a1
  obtain ⟨b4, b5⟩ := takeTill_pos a2 b1
  obtain ⟨_, c5⟩ := takeTill_pos b2 c1
  have le1 : r.length ≤ r2.length := by
    rw [c2.length, b2.length]; exact (List.dropWhile_suffix _).length_le
  have le2 : r2.length ≤ r1.length := by
    rw [b2.length, a2.length]; exact (List.dropWhile_suffix _).length_le
  have le3 : q.length ≤ r1.length := by
    rw [b3.length, a2.length]; exact (List.takeWhile_sublist _).length_le
  constructor
  · intro h0
    rw [c5 h0, b5 (by omega), a5 (by omega)]
  · intro h0
    have := a5 (by omega)
    have hl := congrArg List.length (List.takeWhile_append_dropWhile (p := lblank) (l := t))
    rw [List.length_append] at hl
    rw [a2.length, h.length] at this
    rw [b4]
    omega

theorem replaceLoop_pieces {R : SubstRule} {PR QR : Block} {preR postR : Span} {S : Sens}
    (hp : AsciiS R.pre) (hq : AsciiS R.post) (hr : preR.At PR R.preR)
    (hr' : postR.At QR R.postR) (hS : ∀ v, v ∈ P.sens → v ∈ S) (hS1 : ∀ v, v ∈ PR.sens → v ∈ S)
    (hS2 : ∀ v, v ∈ QR.sens → v ∈ S) (n : Nat) :
    ∀ {t : List LChar} {i : Span} {acc : List LChar} {B : Block} {p : Nat} (first : Bool), i.At P t → t.length < n →
      (t ≠ [] → i.pos = p) → (first = true → p = 0) →
      (first = false → t.dropWhile lblank = t) → Building S acc B →
      ∃ outs B', List.Forall₂ (fun w out => R.DoneAt P.pieceStart w.1 w.2 out)
          (if first then substWordsAt t else wordsAtFrom p [] t) outs ∧
        replaceLoop R.pre R.post preR postR n first i B = .ok B' ∧
        Building S (acc ++ if first then joinSpaces outs else afterSpaces outs) B' := by
  induction n with
  | zero => intro t i acc B p first _ h; omega
  | succ n ih =>
    intro t i acc B p first h hn hpos hp0 hf hB
    unfold replaceLoop
    by_cases ht : t = []
    · subst ht
      rw [if_neg (show ¬ i.length > 0 by rw [h.length]; simp)]
      exact ⟨[], B, by cases first <;> exact .nil, rfl, by cases first <;> simpa [joinSpaces, afterSpaces] using hB⟩
    · rw [if_pos (show i.length > 0 by rw [h.length]; exact List.length_pos_iff.mpr ht)]
      obtain ⟨r, q, e1, e2, e3⟩ := token_at h
      obtain ⟨tp1, tp2⟩ := token_pos h e1
      rw [e1]
      simp only [ok_bind]
      have hB' : Building S (acc ++ if first then [] else [(' ', .synthetic)]) (if first then B else B.push CRef.space) := by
        cases first
        · simpa using hB.space
        · simpa using hB
      obtain ⟨out, B1, d1, d2, d3⟩ := replaceToken_pieces (p := p + (t.takeWhile lblank).length) e3 (fun hne => by
        rw [tp2 (by rw [e3.length]; exact fun h => hne (List.length_eq_zero_iff.mp h)), hpos ht]) hp hq hr hr' hS hS1 hS2 hB'
      rw [d2, ok_bind]
      by_cases hb : t.dropWhile lblank = []
      · rw [hb] at e2 e3 d1
        have hfirst : first = true := by
          cases first
          · exact absurd ((hf rfl).symm.trans hb) ht
          · rfl
        subst hfirst
        obtain ⟨outs, B2, g1, g2, g3⟩ := ih (acc := acc ++ [] ++ out) (p := 0) false e2 (by
          have := List.length_pos_iff.mpr ht
          simp; omega) (by simp) (by simp) (fun _ => rfl) (by simpa using d3)
        cases g1
        have hw : substWordsAt t = [(0, [])] := by
          unfold substWordsAt
          exact if_pos ⟨ht, fun x hx => by simpa [lblank, isBlank] using List.dropWhile_eq_nil_iff.mp hb x hx⟩
        refine ⟨[out], B2, ?_, g2, by simpa [joinSpaces, afterSpaces] using g3⟩
        rw [if_pos rfl, hw]
        refine .cons ?_ .nil
        simp only [List.takeWhile_nil] at d1
        cases d1 with
        | hit e ea eb hf hs =>
          obtain ⟨rfl, e'⟩ := List.append_eq_nil_iff.mp e.symm
          obtain ⟨rfl, rfl⟩ := List.append_eq_nil_iff.mp e'
          exact .hit (a := []) (b := []) rfl ea eb hf (pieceStart_le _ _)
        | cut e ea eb hf hne =>
          exfalso
          simp at e
          exact hne e.2.1
        | miss hm => exact .miss hm
      · have hlt : (((t.dropWhile lblank).dropWhile fun x => !lblank x).dropWhile lblank).length < t.length := by
          have ht1 := (List.dropWhile_suffix lblank (l := t)).length_le
          have ht2 := (List.dropWhile_suffix lblank (l := (t.dropWhile lblank).dropWhile fun x => !lblank x)).length_le
          have ht3 : ((t.dropWhile lblank).dropWhile fun x => !lblank x).length < (t.dropWhile lblank).length := by
            cases hd : t.dropWhile lblank with
            | nil => exact absurd hd hb
            | cons x u =>
              have hx : lblank x = false := by
                have := List.head?_dropWhile_not lblank t
                rw [hd] at this
                simpa using this
              rw [List.dropWhile_cons_of_pos (by simp [hx])]
              have := (List.dropWhile_suffix (fun x => !lblank x) (l := u)).length_le
              simp; omega
          omega
        obtain ⟨outs, B2, g1, g2, g3⟩ := ih
          (p := p + (t.length - (((t.dropWhile lblank).dropWhile fun x => !lblank x).dropWhile lblank).length))
          false e2 (by omega) (fun hne => by
            have h0 : r.length ≠ 0 := by rw [e2.length]; exact fun h => hne (List.length_eq_zero_iff.mp h)
            have := tp1 h0
            rw [e2.length, h.length, hpos ht] at this
            omega) (by simp) (fun _ => List.dropWhile_idempotent _ _) d3
        have hw : substWordsAt t = wordsAtFrom 0 [] t := by
          unfold substWordsAt
          rw [if_neg]
          rintro ⟨-, hx⟩
          exact hb (List.dropWhile_eq_nil_iff.mpr fun x hm => by simpa [lblank, isBlank] using hx x hm)
        refine ⟨out :: outs, B2, ?_, g2, ?_⟩
        · have : (if first = true then substWordsAt t else wordsAtFrom p [] t) = wordsAtFrom p [] t := by
            cases first
            · rfl
            · rw [if_pos rfl, hw, hp0 rfl]
          rw [this, wordsAt_next p t hb]
          exact .cons d1 g1
        cases first
        · simpa [afterSpaces] using g3
        · simpa [joinSpaces_cons] using g3

theorem doReplacement_pieces {R : SubstRule} {PR QR : Block} {preR postR : Span} {sens S : Sens} (h : i.At P t)
    (hpos : t ≠ [] → i.pos = 0) (hp : AsciiS R.pre) (hq : AsciiS R.post) (hr : preR.At PR R.preR)
    (hr' : postR.At QR R.postR) (hs : ∀ v, v ∈ sens → v ∈ S) (hS : ∀ v, v ∈ P.sens → v ∈ S)
    (hS1 : ∀ v, v ∈ PR.sens → v ∈ S) (hS2 : ∀ v, v ∈ QR.sens → v ∈ S) :
    ∃ outs b, List.Forall₂ (fun w out => R.DoneAt P.pieceStart w.1 w.2 out) (substWordsAt t) outs ∧
      doReplacement i sens R.pre R.post preR postR = .ok b ∧
      Block.ltext b = joinSpaces outs ∧ Block.WF b ∧ b.Solid ∧ ∀ v, v ∈ b.sens → v ∈ S := by
  obtain ⟨outs, B, g1, g2, g3⟩ := replaceLoop_pieces hp hq hr hr' hS hS1 hS2 (i.length + 1) (p := 0) true h
    (by rw [h.length]; omega) hpos (fun _ => rfl) (by simp) (⟨rfl, trivial, hs⟩ : Building S [] ⟨sens, []⟩)
  obtain ⟨b, b1, b2, _, b4, b5, b6, _⟩ := Block.simplify_spec g3.wf
  refine ⟨outs, b, g1, ?_, by rw [b2, g3.ltext]; simp, b5, b6, fun v hv => g3.sub v (b4 ▸ hv)⟩
  unfold doReplacement
  rw [g2, ok_bind, b1]

theorem doSubref_pieces {sens S : Sens} {value key repl : Block} (hv : Block.WF value) (hv' : value.Solid) (hk : Block.WF key)
    (hk' : key.Solid) (hr : Block.WF repl) (hr' : repl.Solid)
    (hs : ∀ v, v ∈ sens → v ∈ S) (hS : ∀ v, v ∈ value.sens → v ∈ S) (hS1 : ∀ v, v ∈ repl.sens → v ∈ S) :
    ∃ outs b, List.Forall₂ (fun w out => (substRule (Block.ltext key) (Block.ltext repl)).DoneAt value.pieceStart w.1 w.2 out)
        (substWordsAt (Block.ltext value)) outs ∧
      doSubref sens value key repl = .ok b ∧
      Block.ltext b = joinSpaces outs ∧ Block.WF b ∧ b.Solid ∧ ∀ v, v ∈ b.sens → v ∈ S := by
  obtain ⟨R, PR, QR, preR, postR, hR, e1, e2, e3, e4, e5, e6, e7⟩ := doSubref_rule hk hk' hr hr'
  rw [← hR, e1]
  exact doReplacement_pieces (Block.span_at hv hv') (fun _ => rfl) e2 e3 e4 e5 hs hS (fun v h => hS1 v (e6 v h))
    (fun v h => hS1 v (e7 v h))

theorem wordsAtFrom_fields (p : Nat) (cur t : List LChar) : (wordsAtFrom p cur t).map Prod.snd = fieldsFrom isBlank cur t := by
  induction t generalizing p cur with
  | nil =>
    rw [wordsAtFrom, fieldsFrom]
    split <;> rfl
  | cons x t ih =>
    rw [wordsAtFrom, fieldsFrom]
    by_cases h : x.1 = ' ' ∨ x.1 = '\t'
    · rw [if_pos h, if_pos (show isBlank x.1 = true by rcases h with h | h <;> rw [h] <;> rfl)]
      split
      · exact ih _ _
      · rw [List.map_cons, ih]
    · rw [if_neg h, if_neg (show ¬ isBlank x.1 = true by simpa [isBlank] using h)]
      exact ih _ _

/-- The positions are right. -/
theorem wordsAtFrom_at (p : Nat) (cur t : List LChar) (hp : cur.length ≤ p) :
    ∀ q ∈ wordsAtFrom p cur t, p - cur.length ≤ q.1 ∧
      ((cur ++ t).drop (q.1 - (p - cur.length))).take q.2.length = q.2 := by
  induction t generalizing p cur with
  | nil =>
    intro q hq
    rw [wordsAtFrom] at hq
    split at hq
    · cases hq
    · rw [List.mem_singleton.mp hq]
      simp
  | cons x t ih =>
    intro q hq
    have next : ∀ cur' : List LChar, cur'.length ≤ p + 1 → p + 1 - cur'.length = p - cur.length + (cur.length + 1 - cur'.length) →
        cur'.length ≤ cur.length + 1 → (cur ++ x :: t).drop (cur.length + 1 - cur'.length) = cur' ++ t →
        q ∈ wordsAtFrom (p + 1) cur' t → p - cur.length ≤ q.1 ∧
        ((cur ++ x :: t).drop (q.1 - (p - cur.length))).take q.2.length = q.2 := by
      intro cur' h1 h2 h3 h4 hq
      obtain ⟨a, b⟩ := ih (p + 1) cur' h1 q hq
      refine ⟨by omega, ?_⟩
      rw [← h4, List.drop_drop] at b
      rw [show q.1 - (p - cur.length) = cur.length + 1 - cur'.length + (q.1 - (p + 1 - cur'.length)) by omega]
      exact b
    rw [wordsAtFrom] at hq
    have hdrop : (cur ++ x :: t).drop (cur.length + 1) = t := by
      rw [show cur ++ x :: t = (cur ++ [x]) ++ t by simp, show cur.length + 1 = (cur ++ [x]).length by simp, List.drop_left]
    split at hq
    · split at hq
      · exact next [] (by simp) (by simp; omega) (by simp) (by simpa using hdrop) hq
      · rcases List.mem_cons.mp hq with rfl | hq
        · simp
        · exact next [] (by simp) (by simp; omega) (by simp) (by simpa using hdrop) hq
    · exact next (cur ++ [x]) (by simp; omega) (by simp) (by simp) (by simp) hq

end Hastur
