import Verif.Proofs.SubstRef
import Verif.Proofs.GraphSubst
/-
Lemmas: the substitution of words gives a result for every value, key and replacement.
-/
namespace Hastur

open Span Res

variable {P : Block} {t : List LChar} {i : Span}

theorem recognize_until_total (h : i.At P t) {w : Str} (hw : AsciiS w) :
    (∃ r q u v, Nom.recognize (Nom.many1 (Nom.takeUntil w)) i = .ok (.done r q) ∧ r.At P u ∧ q.At P v) ∨
      Nom.recognize (Nom.many1 (Nom.takeUntil w)) i = .ok (.err (.error .code)) := by
  cases hf : firstOcc w (textOf t) with
  | none =>
    right
    unfold Nom.recognize Nom.many1
    rw [(Nom.takeUntil_str h hw).2 (firstOcc_none.mp hf)]
    rfl
  | some k =>
    left
    have hk := firstOcc_some.mp hf
    obtain ⟨hle, e1, e2⟩ := (Nom.takeUntil_str h hw).1 k hk
    have hle' : k ≤ i.length := by rw [h.length]; exact hle
    obtain ⟨_, e3, e4⟩ := (Nom.takeUntil_str e2 hw).1 0 (by rw [textOf_drop]; exact Nom.firstAt_drop hk)
    have hm : Nom.many1 (Nom.takeUntil w) i = .ok (.done (i.dropS k) ()) := by
      unfold Nom.many1
      rw [e1]
      simp only [Res.ok_bind]
      unfold Nom.many1Loop
      rw [e3]
      simp only [Res.ok_bind]
      rw [if_pos (by rw [e4.length, e2.length]; simp)]
      rfl
    obtain ⟨m, hm1, hm2⟩ : ∃ m, i.offsetTo (i.dropS k) = .ok m ∧ m ≤ k := by
      refine ⟨_, (offsetTo_dropS h.good hle').1, ?_⟩
      split <;> omega
    refine ⟨i.dropS k, i.sliceTo m, _, _, ?_, e2, h.sliceTo (Nat.le_trans hm2 hle)⟩
    unfold Nom.recognize
    rw [hm, done_andThen, hm1]
    rfl

theorem matchToken_total (h : i.At P t) {pre post : Str} (hp : AsciiS pre) (hq : AsciiS post) :
    (∃ r q v, matchToken pre post i = .ok (.done r q) ∧ q.At P v) ∨ ∃ e, matchToken pre post i = .ok (.err e) := by
  unfold matchToken
  by_cases hpre : pre <+: textOf t
  · obtain ⟨r, q, e1, e2, _⟩ := (Nom.tag_at h hp).1 hpre
    rw [e1, done_andThen]
    rcases recognize_until_total e2 hq with ⟨r', q', u, v, f1, f2, f3⟩ | f1
    · rw [f1, done_andThen]
      by_cases hpost : post <+: textOf u
      · obtain ⟨r'', q'', g1, g2, _⟩ := (Nom.tag_at f2 hq).1 hpost
        rw [g1, done_andThen]
        exact .inl ⟨r'', q', v, rfl, f3⟩
      · rw [(Nom.tag_at f2 hq).2 hpost]
        exact .inr ⟨_, rfl⟩
    · rw [f1]
      exact .inr ⟨_, rfl⟩
  · rw [(Nom.tag_at h hp).2 hpre]
    exact .inr ⟨_, rfl⟩

theorem Block.pushAll_wf {b : Block} (h : Block.WF b) (hi : i.At P t) : ∃ b', b.pushAll i = .ok b' ∧ Block.WF b' := by
  obtain ⟨b', h1, _, _, _, h5, _⟩ := Block.pushAll_spec h hi.good
  exact ⟨b', h1, h5⟩

theorem replaceToken_total {pre post : Str} {PR QR B : Block} {preR postR : Span} {u v : List LChar} (h : i.At P t)
    (hp : AsciiS pre) (hq : AsciiS post) (hr : preR.At PR u) (hr' : postR.At QR v) (hB : Block.WF B) :
    ∃ B', replaceToken pre post preR postR B i = .ok B' ∧ Block.WF B' := by
  unfold replaceToken
  split
  · exact Block.pushAll_wf hB h
  · rcases matchToken_total h hp hq with ⟨r, q, w, e1, e2⟩ | ⟨e, e1⟩
    · rw [e1]
      simp only [ok_bind]
      split
      · exact Block.pushAll_wf hB h
      · obtain ⟨B1, b1, c1⟩ := Block.pushAll_wf hB hr
        obtain ⟨B2, b2, c2⟩ := Block.pushAll_wf c1 e2
        obtain ⟨B3, b3, c3⟩ := Block.pushAll_wf c2 hr'
        rw [b1, ok_bind, b2, ok_bind, b3]
        exact ⟨B3, rfl, c3⟩
    · rw [e1]
      exact Block.pushAll_wf hB h

theorem Block.space_wf {B : Block} (h : Block.WF B) : Block.WF (B.push CRef.space) := by
  rw [Block.wf_eq] at h ⊢
  exact CRef.wfList_append.mpr ⟨h, CRef.space_wf, trivial⟩

theorem replaceLoop_total {pre post : Str} {PR QR : Block} {preR postR : Span} {u v : List LChar} (hp : AsciiS pre)
    (hq : AsciiS post) (hr : preR.At PR u) (hr' : postR.At QR v) (n : Nat) :
    ∀ {t : List LChar} {i : Span} {B : Block} (first : Bool), i.At P t → t.length < n → Block.WF B →
      ∃ B', replaceLoop pre post preR postR n first i B = .ok B' ∧ Block.WF B' := by
  induction n with
  | zero => intro t i B first _ h; omega
  | succ n ih =>
    intro t i B first h hn hB
    unfold replaceLoop
    by_cases ht : t = []
    · subst ht
      rw [if_neg (by rw [h.length]; simp)]
      exact ⟨B, rfl, hB⟩
    · rw [if_pos (by rw [h.length]; exact List.length_pos_iff.mpr ht)]
      obtain ⟨r, q, e1, e2, e3⟩ := token_at h
      rw [e1]
      simp only [ok_bind]
      have hB' : Block.WF (if first then B else B.push CRef.space) := by
        cases first
        · exact Block.space_wf hB
        · exact hB
      obtain ⟨B1, d2, d3⟩ := replaceToken_total e3 hp hq hr hr' hB'
      rw [d2, ok_bind]
      refine ih false e2 ?_ d3
      have ht1 := (List.dropWhile_suffix lblank (l := t)).length_le
      have ht2 := (List.dropWhile_suffix lblank (l := (t.dropWhile lblank).dropWhile fun x => !lblank x)).length_le
      have ht3 := (List.dropWhile_suffix (fun x => !lblank x) (l := t.dropWhile lblank)).length_le
      by_cases hb : t.dropWhile lblank = []
      · rw [hb]
        have := List.length_pos_iff.mpr ht
        simp; omega
      · have ht3 : ((t.dropWhile lblank).dropWhile fun x => !lblank x).length < (t.dropWhile lblank).length := by
          cases hd : t.dropWhile lblank with
          | nil => exact absurd hd hb
          | cons x u =>
            have hx : lblank x = false := by
              have := List.head?_dropWhile_not lblank t
              rw [hd] at this
              simpa using this
            rw [List.dropWhile_cons_of_pos (by simp [hx])]
            have := (List.dropWhile_suffix (fun x => !lblank x) (l := u)).length_le
            simp; omega
        omega

theorem doReplacement_total {pre post : Str} {PR QR : Block} {preR postR : Span} {u v : List LChar} (sens : Sens)
    (h : i.At P t) (hp : AsciiS pre) (hq : AsciiS post) (hr : preR.At PR u) (hr' : postR.At QR v) :
    ∃ b, doReplacement i sens pre post preR postR = .ok b ∧ Block.WF b ∧ b.Solid := by
  obtain ⟨B, g2, g3⟩ := replaceLoop_total hp hq hr hr' (i.length + 1) true h
    (by rw [h.length]; omega) (show Block.WF ⟨sens, []⟩ from trivial)
  obtain ⟨b, b1, _, _, _, b5, b6, _⟩ := Block.simplify_spec g3
  refine ⟨b, ?_, b5, b6⟩
  unfold doReplacement
  rw [g2, ok_bind, b1]

/-- `do_subref` gives a well-formed block. -/
theorem doSubref_total (sens : Sens) {value key repl : Block} (hv : Block.WF value) (hv' : value.Solid)
    (hk : Block.WF key) (hk' : key.Solid) (hr : Block.WF repl) (hr' : repl.Solid) :
    ∃ b, doSubref sens value key repl = .ok b ∧ Block.WF b ∧ b.Solid := by
  have hkat := Block.span_at hk hk'
  have hrat := Block.span_at hr hr'
  have hvat := Block.span_at hv hv'
  obtain ⟨k1, k2⟩ := takeUntilUnquote_spec (· == '%') (by decide) (by decide) hkat
  obtain ⟨r1, r2⟩ := takeUntilUnquote_spec (· == '%') (by decide) (by decide) hrat
  unfold doSubref
  cases hU : (unquote (· == '%') [] (Block.ltext key)).2 with
  | some y =>
    obtain ⟨x, post⟩ := y
    obtain ⟨b, sc, ps, e1, e2, _, e4⟩ := k1 x post hU
    have hb := e2.at
    rw [e1, ok_bind]
    simp only [Block.intoString_eq b e2.wf, Block.text, e2.ltext, e4.intoString, ok_bind]
    cases hV : (unquote (· == '%') [] (Block.ltext repl)).2 with
    | some y =>
      obtain ⟨x', postR⟩ := y
      obtain ⟨b', sc', ps', f1, f2, _, f4⟩ := r1 x' postR hV
      rw [f1, ok_bind]
      exact doReplacement_total sens hvat hb.ascii e4.ascii f2.at f4
    | none =>
      obtain ⟨b', f1, f2⟩ := r2 hV
      rw [f1, ok_bind]
      exact doReplacement_total sens hvat hb.ascii e4.ascii Span.empty_at f2.at
  | none =>
    obtain ⟨b, e1, e2⟩ := k2 hU
    have hb := e2.at
    rw [e1, ok_bind]
    simp only [Block.intoString_eq b e2.wf, Block.text, e2.ltext, ok_bind]
    exact doReplacement_total sens hvat (by intro c hc; cases hc) hb.ascii Span.empty_at hrat

/-- The split of the name of a substitution reference, wherever the pieces of the text begin. -/
theorem colonFind_total (h : i.At P t) (hs : IsSubst (textOf t)) :
    ∃ a b c m m' u l v w, colonFind i = .ok (.done c (a, b)) ∧ t = u ++ (':', l) :: v ∧ ':' ∉ textOf v ∧
      m ≤ u.length ∧ (P.content.length ≤ 1 → m = u.length) ∧ a.At P (t.take (m + 1)) ∧ m' < v.length ∧
      b.At P (v.take (m' + 1)) ∧ c.At P w := by
  obtain ⟨a0, b0, c0, ht, hb0, hc0⟩ := hs
  have hcol : ':' ∈ textOf t := by rw [ht]; simp
  unfold colonFind
  obtain ⟨q, u, l1, v, m, e1, e2, e3, e4, e5, e6⟩ := (Nom.recognize_consume (c := ':') (by decide) h).1 hcol
  have hpos : ∀ {j : Span} {T : List LChar} {r : Span} {k : Nat}, j.At P T → j.length ≠ 0 → j.Tail (k + 1) r →
      0 < (if r.start = j.start then k + 1 else k + 1 - r.offset) := by
    intro j T r k hj h0 ht
    split
    · omega
    · rename_i hne
      obtain ⟨c, cs, f1, f2, f3⟩ := hj.good.2.resolve_left h0
      obtain ⟨_, ⟨d, s1, s2, s3⟩, _⟩ := ht
      obtain ⟨d', rfl⟩ : ∃ d', d = d' + 1 := ⟨d - 1, by omega⟩
      rw [f1] at s3
      simp at s3
      omega
  have hle : ∀ {j r : Span} {k : Nat}, (if r.start = j.start then k + 1 else k + 1 - r.offset) ≤ k + 1 := by
    intro j r k
    split <;> omega
  -- the part after the last colon contains the equals sign
  have heq : '=' ∈ textOf v := by
    obtain ⟨n', l', k', l'', r', f1, f2, f3, f4, _⟩ := subst_parts ht hb0 hc0
    obtain ⟨_, _, rfl⟩ := last_split (e2.symm.trans f1) e4 (by simp [f3, f4])
    simp
  obtain ⟨q', u', l2, v', m', f1, f2, f3, f4, f5, f6⟩ := (Nom.recognize_consume (c := '=') (by decide) e3).1 heq
  have hm := hpos h (by rw [h.length, e2]; simp) e5
  have hm2 := hpos e3 (by rw [e3.length, f2]; simp) f5
  have hm3 := @hle i q u.length
  have hm4 := @hle q q' u'.length
  rw [← e6] at hm hm3
  rw [← f6] at hm2 hm4
  have hvl : v.length = u'.length + 1 + v'.length := by rw [f2]; simp; omega
  have htl : t.length = u.length + 1 + v.length := by rw [e2]; simp; omega
  rw [e1, done_andThen, f1, done_andThen]
  refine ⟨i.sliceTo m, q.sliceTo m', q', m - 1, m' - 1, u, l1, v, v', rfl, e2, e4, by omega, ?_, ?_, by omega, ?_, f3⟩
  · intro h1
    rw [if_pos (e5.start_eq h h1)] at e6
    omega
  · rw [Nat.sub_add_cancel hm]; exact h.sliceTo (by omega)
  · rw [Nat.sub_add_cancel hm2]; exact e3.sliceTo (by omega)

end Hastur
