import Mathlib.Data.List.DropRight
import Verif.Spec.Subst
import Verif.Proofs.Tail
import Verif.Proofs.Unquote
import Verif.Model.TextFunctions
/-
Lemmas: the substitution of words in a value.
-/
namespace Hastur

open Span Res

variable {P : Block} {t : List LChar} {i : Span}

theorem findSubstring_nil (s : Span) : s.findSubstring [] = .ok (some 0) := by
  unfold Span.findSubstring
  simp only [bytesOf, List.flatMap_nil, List.length_nil, Nat.not_lt_zero, if_false, gt_iff_lt]
  unfold Span.fillBuffer
  cases withIndices 0 s.chars.items <;> simp

theorem firstOcc_nil (t : Str) : firstOcc [] t = some 0 := by cases t <;> simp [firstOcc]

theorem Span.At.findStr (h : i.At P t) {w : Str} (hw : AsciiS w) : i.findSubstring w = .ok (firstOcc w (textOf t)) := by
  by_cases h0 : w = []
  · subst h0; rw [findSubstring_nil, firstOcc_nil]
  · rw [findSubstring_eq h.good.wf hw h0, h.text]

namespace Nom

theorem takeUntil_str (h : i.At P t) {w : Str} (hw : AsciiS w) :
    (∀ k, FirstAt w (textOf t) k → k ≤ t.length ∧ takeUntil w i = .ok (.done (i.dropS k) (i.sliceTo k)) ∧
      (i.dropS k).At P (t.drop k)) ∧
      (¬ Occurs w (textOf t) → takeUntil w i = .ok (.err (.error .code))) := by
  constructor
  · intro k hk
    have hle : k ≤ t.length := by
      obtain ⟨⟨a, b, e, el⟩, _⟩ := hk
      have := congrArg List.length e
      rw [textOf_length] at this
      simp at this; omega
    have hle' : k ≤ i.length := by rw [h.length]; exact hle
    refine ⟨hle, ?_, by rw [dropS_parent h.good.wf hle', h.parent], dropS_good h.good.wf hle', by rw [dropS_ltext h.good.wf hle', h.ltext]⟩
    simp only [takeUntil, h.findStr hw, firstOcc_some.mpr hk, Res.ok_bind, takeSplit_eq h.good.wf hle']
    rfl
  · intro hk
    simp only [takeUntil, h.findStr hw, firstOcc_none.mpr hk, Res.ok_bind]
    rfl

theorem firstAt_drop {w s : Str} {k : Nat} (h : FirstAt w s k) : FirstAt w (s.drop k) 0 := by
  obtain ⟨⟨a, b, rfl, rfl⟩, _⟩ := h
  exact ⟨⟨[], b, by simp, rfl⟩, fun _ _ _ => Nat.zero_le _⟩

/-- In a block whose words stay inside the pieces, a window without blanks stays inside one piece. -/
theorem dropS_start (h : i.At P t) (h1 : P.Apart) (hb : ∀ x ∈ t, lblank x = false) {k : Nat} (hk : k ≤ t.length) :
    (i.dropS k).start = i.start := by
  have hk' : k ≤ i.length := by rw [h.length]; exact hk
  by_cases hkl : k = i.length
  · have hs := sliceFrom_eq h.good.wf hk'
    unfold Span.sliceFrom at hs
    rw [usub_of_le hk', Res.ok_bind] at hs
    unfold Span.revalidate at hs
    rw [if_pos (by simp [hkl])] at hs
    rw [← Res.ok.inj hs]
  obtain ⟨_, ⟨m, s1, s2, s3⟩, _⟩ := Span.Tail.sliceFrom h.good.wf hk' (sliceFrom_eq h.good.wf hk')
  by_cases hm : m = 0
  · omega
  exfalso
  obtain ⟨c, cs, e1, e2, e3⟩ := h.good.2.resolve_left (by omega)
  have hcl : c.length ≤ lensum (i.contents.take m) := by
    obtain ⟨m', rfl⟩ : ∃ m', m = m' + 1 := ⟨m - 1, by omega⟩
    rw [e1]; simp
  have hover : c.length < i.offset + i.length := by omega
  have hwf := wf_contents h.good.1
  rw [e1] at hwf
  cases cs with
  | nil => simp at e3; omega
  | cons d ds =>
    have hcon : P.content = P.content.take i.start ++ c :: d :: ds := by
      rw [← e1, Span.contents, h.parent, List.take_append_drop]
    have hlt := h.ltext
    rw [Span.ltext, e1] at hlt
    have hclen : (CRef.ltext c).length = c.length := CRef.ltext_length _ hwf.1
    rcases h1 _ _ _ _ hcon with ⟨u, z, hz, hz'⟩ | ⟨u, z, hz, hz'⟩
    · have : z ∈ t := by
        rw [← hlt]
        simp only [CRef.ltextList, hz, List.append_assoc, List.singleton_append]
        have hul : i.offset ≤ u.length := by rw [hz] at hclen; simp at hclen; omega
        rw [List.drop_append_of_le_length hul, List.take_append, List.mem_append]
        right
        have : 0 < i.length - (u.drop i.offset).length := by rw [hz] at hclen; simp at hclen ⊢; omega
        obtain ⟨q, hq⟩ : ∃ q, i.length - (u.drop i.offset).length = q + 1 := ⟨_, (Nat.succ_pred_eq_of_pos this).symm⟩
        rw [hq]; simp
      have := hb z this
      rcases hz' with e | e <;> simp [lblank, e] at this
    · have : z ∈ t := by
        rw [← hlt]
        simp only [CRef.ltextList, hz]
        rw [List.drop_append_of_le_length (by omega), List.take_append, List.mem_append]
        right
        have : 0 < i.length - ((CRef.ltext c).drop i.offset).length := by simp; omega
        obtain ⟨q, hq⟩ : ∃ q, i.length - ((CRef.ltext c).drop i.offset).length = q + 1 := ⟨_, (Nat.succ_pred_eq_of_pos this).symm⟩
        rw [hq]; simp
      have := hb z this
      rcases hz' with e | e <;> simp [lblank, e] at this

/-- `recognize!(many1!(take_until!(w)))` takes what comes before the first occurrence. -/
theorem recognize_until (h : i.At P t) (h1 : P.Apart) (hb : ∀ x ∈ t, lblank x = false) {w : Str} (hw : AsciiS w) :
    (∀ k, FirstAt w (textOf t) k → ∃ r q, recognize (many1 (takeUntil w)) i = .ok (.done r q) ∧ r.At P (t.drop k) ∧
      q.At P (t.take k)) ∧
      (¬ Occurs w (textOf t) → recognize (many1 (takeUntil w)) i = .ok (.err (.error .code))) := by
  constructor
  · intro k hk
    obtain ⟨hle, e1, e2⟩ := (takeUntil_str h hw).1 k hk
    have hle' : k ≤ i.length := by rw [h.length]; exact hle
    obtain ⟨_, e3, e4⟩ := (takeUntil_str e2 hw).1 0 (by rw [textOf_drop]; exact firstAt_drop hk)
    have hm : many1 (takeUntil w) i = .ok (.done (i.dropS k) ()) := by
      unfold many1
      rw [e1]
      simp only [Res.ok_bind]
      unfold many1Loop
      rw [e3]
      simp only [Res.ok_bind]
      rw [if_pos (by rw [e4.length, e2.length]; simp)]
      rfl
    refine ⟨i.dropS k, i.sliceTo k, ?_, e2, h.sliceTo hle⟩
    unfold recognize
    rw [hm, done_andThen, (offsetTo_dropS h.good hle').1, if_pos (dropS_start h h1 hb hle)]
    rfl
  · intro hk
    unfold recognize many1
    rw [(takeUntil_str h hw).2 hk]
    rfl

end Nom

theorem SubstRule.Plain.word {R : SubstRule} {w out : List LChar} (h : R.Plain w) (hd : R.Done w out) : R.Word w out := by
  cases hd with
  | hit e1 e2 e3 _ => exact .hit ⟨_, _, e1, e2, e3⟩
  | miss hm =>
    refine .miss fun stem hs => ?_
    obtain ⟨a, b, e1, e2, e3⟩ := hs
    refine hm a stem b e1 e2 e3 ⟨⟨textOf stem, [], by simp [e3], textOf_length _⟩, fun p q e => ?_⟩
    have := h stem ⟨a, b, e1, e2, e3⟩ p q (by rw [← e3, ← textOf_append, e, e3]; simp)
    subst this
    have := congrArg List.length e
    rw [textOf_append, List.length_append, e3, textOf_length] at this
    simp at this
    omega

/-- A word that contains the first character of the suffix at most once. -/
theorem SubstRule.plain_of_count {R : SubstRule} {w : List LChar} {c : Char} {post : Str} (h : R.post = c :: post)
    (hc : (textOf w).count c ≤ 1) : R.Plain w := by
  rintro stem ⟨a, b, e, _, eb⟩ p q hpq
  have h1 : (textOf w).count c = (textOf a).count c + ((textOf stem).count c + R.post.count c) := by
    rw [e, textOf_append, textOf_append, eb]; simp
  have h2 : R.post.count c = 1 + post.count c := by rw [h]; simp [Nat.add_comm]
  have h3 : c ∉ textOf stem := List.count_eq_zero.mp (by omega)
  have h4 := congrArg (List.count c) hpq
  simp only [List.count_append] at h4
  have h5 : c ∉ p := List.count_eq_zero.mp (by omega)
  have key : ∀ (x y u v : Str), c ∉ x → c ∉ y → x ++ c :: u = y ++ c :: v → u = v := by
    intro x
    induction x with
    | nil =>
      intro y u v _ hy e
      cases y with
      | nil => simpa using e
      | cons d y => simp only [List.nil_append, List.cons_append, List.cons.injEq] at e; exact absurd (by simp [e.1]) hy
    | cons d x ih =>
      intro y u v hx hy e
      cases y with
      | nil => simp only [List.nil_append, List.cons_append, List.cons.injEq] at e; exact absurd (by simp [e.1]) hx
      | cons d' y =>
        simp only [List.cons_append, List.cons.injEq] at e
        exact ih y u v (fun h => hx (List.mem_cons_of_mem _ h)) (fun h => hy (List.mem_cons_of_mem _ h)) e.2
  rw [h] at hpq
  have := key _ _ _ _ h3 h5 hpq
  have := congrArg List.length this
  simp at this
  exact this

/-- `matches` of one token. -/
theorem matchToken_at (h : i.At P t) (h1 : P.Apart) (hb : ∀ x ∈ t, lblank x = false) {pre post : Str} (hp : AsciiS pre) (hq : AsciiS post) :
    (∀ a u k, t = a ++ u → textOf a = pre → FirstAt post (textOf u) k → ∃ r q, matchToken pre post i = .ok (.done r q) ∧
      r.At P (u.drop (k + post.length)) ∧ q.At P (u.take k)) ∧
    ((∀ a u, t = a ++ u → textOf a = pre → ¬ Occurs post (textOf u)) → ∃ e, matchToken pre post i = .ok (.err e)) := by
  unfold matchToken
  constructor
  · rintro a u k rfl rfl hk
    obtain ⟨r, q, e1, e2, _⟩ := (Nom.tag_at h hp).1 (by rw [textOf_append]; exact List.prefix_append _ _)
    rw [textOf_length, List.drop_left] at e2
    obtain ⟨r', q', f1, f2, f3⟩ := (Nom.recognize_until e2 h1 (fun x hx => hb x (List.mem_append_right _ hx)) hq).1 k hk
    obtain ⟨r'', q'', g1, g2, _⟩ := (Nom.tag_at f2 hq).1 (by
      obtain ⟨⟨x, y, e, el⟩, _⟩ := hk
      rw [textOf_drop, e, ← el, List.append_assoc, List.drop_left]
      exact List.prefix_append _ _)
    rw [e1, done_andThen, f1, done_andThen, g1, done_andThen]
    exact ⟨r'', q', rfl, by rw [← List.drop_drop]; exact g2, f3⟩
  · intro hm
    by_cases hpre : pre <+: textOf t
    · obtain ⟨r, q, e1, e2, _⟩ := (Nom.tag_at h hp).1 hpre
      have ht : textOf (t.take pre.length) = pre := by
        rw [textOf_take, List.prefix_iff_eq_take.mp hpre]; simp
      have := hm _ _ (List.take_append_drop pre.length t).symm ht
      rw [e1, done_andThen, (Nom.recognize_until e2 h1 (fun x hx => hb x (List.mem_of_mem_drop hx)) hq).2 this]
      exact ⟨_, rfl⟩
    · rw [(Nom.tag_at h hp).2 hpre]
      exact ⟨_, rfl⟩

/-- A block under construction. -/
structure Building (S : Sens) (t : List LChar) (b : Block) : Prop where
  ltext : Block.ltext b = t
  wf : Block.WF b
  sub : ∀ v, v ∈ b.sens → v ∈ S

theorem Building.push {S : Sens} {u : List LChar} {b : Block} (h : Building S u b) (hs : i.At P t)
    (hS : ∀ v, v ∈ P.sens → v ∈ S) : ∃ b', b.pushAll i = .ok b' ∧ Building S (u ++ t) b' := by
  obtain ⟨b', h1, h2, _, h4, h5, _⟩ := Block.pushAll_spec h.wf hs.good
  refine ⟨b', h1, by rw [h2, h.ltext, hs.ltext], h5, fun v hv => ?_⟩
  rw [h4] at hv
  split at hv
  · exact h.sub v hv
  · rw [Sens.mem_union, hs.parent] at hv
    rcases hv with hv | hv
    · exact h.sub v hv
    · exact hS v hv

theorem replaceToken_at {R : SubstRule} {PR QR : Block} {preR postR : Span} {S : Sens} {acc : List LChar} {B : Block}
    (h : i.At P t) (h1 : P.Apart) (hb : ∀ x ∈ t, lblank x = false) (hp : AsciiS R.pre) (hq : AsciiS R.post) (hr : preR.At PR R.preR)
    (hr' : postR.At QR R.postR) (hS : ∀ v, v ∈ P.sens → v ∈ S) (hS1 : ∀ v, v ∈ PR.sens → v ∈ S)
    (hS2 : ∀ v, v ∈ QR.sens → v ∈ S) (hB : Building S acc B) :
    ∃ out B', R.Done t out ∧ replaceToken R.pre R.post preR postR B i = .ok B' ∧ Building S (acc ++ out) B' := by
  unfold replaceToken
  have hkeep : (∀ a stem b, t = a ++ (stem ++ b) → textOf a = R.pre → textOf b = R.post →
      ¬ FirstAt R.post (textOf (stem ++ b)) stem.length) →
      ∃ out B', R.Done t out ∧ B.pushAll i = .ok B' ∧ Building S (acc ++ out) B' := by
    intro hm
    obtain ⟨B', b1, b2⟩ := hB.push h hS
    exact ⟨t, B', .miss hm, b1, b2⟩
  by_cases hlt : i.length < blen R.pre + blen R.post
  · rw [if_pos hlt]
    refine hkeep fun a stem b e ea eb _ => ?_
    rw [h.length, blen_ascii hp, blen_ascii hq, e, ← ea, ← eb, textOf_length, textOf_length] at hlt
    simp at hlt; omega
  · rw [if_neg hlt]
    by_cases hex : ∃ a u, t = a ++ u ∧ textOf a = R.pre ∧ Occurs R.post (textOf u)
    · obtain ⟨a, u, e, ea, ho⟩ := hex
      obtain ⟨k, hk⟩ : ∃ k, FirstAt R.post (textOf u) k := by
        cases hf : firstOcc R.post (textOf u) with
        | none => exact absurd ho (firstOcc_none.mp hf)
        | some k => exact ⟨k, firstOcc_some.mp hf⟩
      obtain ⟨r, q, m1, m2, m3⟩ := (matchToken_at h h1 hb hp hq).1 a u k e ea hk
      rw [m1]
      simp only [ok_bind]
      have hlen := hk.1
      obtain ⟨x, y, exy, ex⟩ := hlen
      have hul : u.length = k + R.post.length + y.length := by
        have := congrArg List.length exy
        rw [textOf_length] at this
        simp at this; omega
      by_cases hz : r.length = 0
      · rw [if_neg (by simpa using hz)]
        obtain ⟨B1, b1, c1⟩ := hB.push hr hS1
        obtain ⟨B2, b2, c2⟩ := c1.push m3 hS
        obtain ⟨B3, b3, c3⟩ := c2.push hr' hS2
        have hy : y = [] := by
          rw [m2.length, List.length_drop] at hz
          exact List.length_eq_zero_iff.mp (by omega)
        subst hy
        refine ⟨R.preR ++ (u.take k ++ R.postR), B3, .hit (a := a) (b := u.drop k) ?_ ea ?_ ?_, ?_, by simpa using c3⟩
        · rw [List.take_append_drop]; exact e
        · rw [textOf_drop, exy, ← ex]; simp
        · rw [List.take_append_drop, List.length_take, Nat.min_eq_left (by omega)]; exact hk
        · rw [b1, ok_bind, b2, ok_bind, b3]
      · rw [if_pos (by simpa using hz)]
        refine hkeep fun a' stem b e' ea' eb hf => ?_
        have hla : a'.length = a.length := by rw [← textOf_length a', ← textOf_length a, ea', ea]
        have hu : u = stem ++ b := by
          have := e.symm.trans e'
          exact (List.append_inj this hla.symm).2
        rw [hu] at hk
        have hk' := hk.2 (textOf stem) [] (by simp [eb])
        have hf' := hf.2 _ _ (show _ = x ++ R.post ++ y by rw [← exy, hu])
        rw [textOf_length] at hk'
        have : u.length = stem.length + R.post.length := by rw [hu, ← eb, textOf_length]; simp
        rw [m2.length, List.length_drop] at hz
        omega
    · obtain ⟨e, he⟩ := (matchToken_at h h1 hb hp hq).2 fun a u e ea ho => hex ⟨a, u, e, ea, ho⟩
      rw [he]
      simp only [ok_bind]
      refine hkeep fun a stem b e ea eb _ => hex ⟨a, stem ++ b, e, ea, textOf stem, [], by simp [eb]⟩

/-! ### The loop over the words -/

theorem token_at (h : i.At P t) : ∃ r q, token i = .ok (.done r q) ∧
    r.At P (((t.dropWhile lblank).dropWhile fun x => !lblank x).dropWhile lblank) ∧
    q.At P ((t.dropWhile lblank).takeWhile fun x => !lblank x) := by
  unfold token
  obtain ⟨r, q, h1, h2, _⟩ := whitespace_at h
  obtain ⟨r', q', h1', h2', h3'⟩ := Nom.takeWhile_at h2 (fun c => !isBlank c)
  obtain ⟨r'', q'', h1'', h2'', _⟩ := whitespace_at h2'
  rw [h1, done_andThen, h1', done_andThen, h1'', done_andThen]
  exact ⟨r'', q', rfl, h2'', h3'⟩

/-- The words of a text, as the loop finds them. -/
theorem fields_next (t : List LChar) (ht : t.dropWhile lblank ≠ []) :
    fields isBlank t = (t.dropWhile lblank).takeWhile (fun x => !lblank x) ::
      fields isBlank (((t.dropWhile lblank).dropWhile fun x => !lblank x).dropWhile lblank) := by
  have hskip : ∀ u : List LChar, fields isBlank u = fields isBlank (u.dropWhile lblank) := by
    intro u
    induction u with
    | nil => rfl
    | cons x u ih =>
      by_cases hx : lblank x = true
      · rw [List.dropWhile_cons_of_pos hx, ← ih, fields, fieldsFrom, if_pos (show isBlank x.1 = true from hx), if_pos rfl]
        rfl
      · rw [List.dropWhile_cons_of_neg hx]
  have hb : ∀ x : LChar, isBlank x.1 = lblank x := fun _ => rfl
  rw [hskip t, fields_step]
  simp only [hb]
  rw [if_neg]
  · rw [List.singleton_append]
    congr 1
    rw [hskip]
    conv => rhs; rw [hskip, List.dropWhile_idempotent]
    cases hd : (t.dropWhile lblank).dropWhile (fun x => !lblank x) with
    | nil => rfl
    | cons x r =>
      have hx : lblank x = true := by
        have := List.head?_dropWhile_not (fun x : LChar => !lblank x) (t.dropWhile lblank)
        rw [hd] at this
        simpa using this
      rw [List.dropWhile_cons_of_pos hx]
      rfl
  · cases hd : t.dropWhile lblank with
    | nil => exact absurd hd ht
    | cons x r =>
      have hx : lblank x = false := by
        have := List.head?_dropWhile_not lblank t
        rw [hd] at this
        simpa using this
      rw [List.takeWhile_cons_of_pos (by simp [hx])]
      simp

theorem fields_blank (t : List LChar) (ht : t.dropWhile lblank = []) : fields isBlank t = [] := by
  induction t with
  | nil => rfl
  | cons x u ih =>
    by_cases hx : lblank x = true
    · rw [List.dropWhile_cons_of_pos hx] at ht
      rw [fields, fieldsFrom, if_pos (show isBlank x.1 = true from hx), if_pos rfl]
      exact ih ht
    · rw [List.dropWhile_cons_of_neg hx] at ht
      cases ht

/-- The words after the first one, each with a space in front. -/
def afterSpaces : List (List LChar) → List LChar
  | [] => []
  | w :: ws => (' ', .synthetic) :: (w ++ afterSpaces ws)

theorem joinSpaces_cons (w : List LChar) (ws : List (List LChar)) : joinSpaces (w :: ws) = w ++ afterSpaces ws := by
  induction ws generalizing w with
  | nil => simp [joinSpaces, afterSpaces]
  | cons v ws ih => simp only [joinSpaces, afterSpaces, ih v]

theorem Building.space {S : Sens} {u : List LChar} {b : Block} (h : Building S u b) :
    Building S (u ++ [(' ', .synthetic)]) (b.push CRef.space) := by
  refine ⟨?_, ?_, h.sub⟩
  · have := h.ltext
    rw [Block.ltext_eq] at this
    rw [Block.ltext_eq, Block.push, CRef.ltextList_append, this]
    rfl
  · have := h.wf
    rw [Block.wf_eq] at this ⊢
    exact CRef.wfList_append.mpr ⟨this, CRef.space_wf, trivial⟩

theorem replaceLoop_at {R : SubstRule} {PR QR : Block} {preR postR : Span} {S : Sens}
    (h1 : P.Apart) (hp : AsciiS R.pre) (hq : AsciiS R.post) (hr : preR.At PR R.preR)
    (hr' : postR.At QR R.postR) (hS : ∀ v, v ∈ P.sens → v ∈ S) (hS1 : ∀ v, v ∈ PR.sens → v ∈ S)
    (hS2 : ∀ v, v ∈ QR.sens → v ∈ S) (n : Nat) :
    ∀ {t : List LChar} {i : Span} {acc : List LChar} {B : Block} (first : Bool), i.At P t → t.length < n →
      (first = false → t.dropWhile lblank = t) → Building S acc B →
      ∃ outs B', List.Forall₂ R.Done (if first then substWords t else fields isBlank t) outs ∧
        replaceLoop R.pre R.post preR postR n first i B = .ok B' ∧
        Building S (acc ++ if first then joinSpaces outs else afterSpaces outs) B' := by
  induction n with
  | zero => intro t i acc B first _ h; omega
  | succ n ih =>
    intro t i acc B first h hn hf hB
    unfold replaceLoop
    by_cases ht : t = []
    · subst ht
      rw [if_neg (show ¬ i.length > 0 by rw [h.length]; simp)]
      exact ⟨[], B, by cases first <;> exact .nil, rfl, by cases first <;> simpa [joinSpaces, afterSpaces] using hB⟩
    · rw [if_pos (show i.length > 0 by rw [h.length]; exact List.length_pos_iff.mpr ht)]
      obtain ⟨r, q, e1, e2, e3⟩ := token_at h
      rw [e1]
      simp only [ok_bind]
      have hB' : Building S (acc ++ if first then [] else [(' ', .synthetic)]) (if first then B else B.push CRef.space) := by
        cases first
        · simpa using hB.space
        · simpa using hB
      obtain ⟨out, B1, d1, d2, d3⟩ := replaceToken_at e3 h1 (fun x hx => by simpa using List.mem_takeWhile_imp hx) hp hq hr hr' hS hS1 hS2 hB'
      rw [d2, ok_bind]
      by_cases hb : t.dropWhile lblank = []
      · rw [hb] at e2 e3 d1
        have hfirst : first = true := by
          cases first
          · exact absurd ((hf rfl).symm.trans hb) ht
          · rfl
        subst hfirst
        obtain ⟨outs, B2, g1, g2, g3⟩ := ih (acc := acc ++ [] ++ out) false e2 (by
          have := List.length_pos_iff.mpr ht
          simp; omega) (fun _ => rfl) (by simpa using d3)
        cases g1
        have hw : substWords t = [[]] := by
          unfold substWords
          exact if_pos ⟨ht, fun x hx => by simpa [lblank, isBlank] using List.dropWhile_eq_nil_iff.mp hb x hx⟩
        refine ⟨[out], B2, ?_, g2, by simpa [joinSpaces, afterSpaces] using g3⟩
        rw [if_pos rfl, hw]
        exact .cons (by simpa using d1) .nil
      · have hlt : (((t.dropWhile lblank).dropWhile fun x => !lblank x).dropWhile lblank).length < n := by
          have ht1 := (List.dropWhile_suffix lblank (l := t)).length_le
          have ht2 := (List.dropWhile_suffix lblank (l := (t.dropWhile lblank).dropWhile fun x => !lblank x)).length_le
          have ht3 : ((t.dropWhile lblank).dropWhile fun x => !lblank x).length < (t.dropWhile lblank).length := by
            cases hd : t.dropWhile lblank with
            | nil => exact absurd hd hb
            | cons x u =>
              have hx : lblank x = false := by
                have := List.head?_dropWhile_not lblank t
                rw [hd] at this
                simpa using this
              rw [List.dropWhile_cons_of_pos (by simp [hx])]
              have := (List.dropWhile_suffix (fun x => !lblank x) (l := u)).length_le
              simp; omega
          omega
        obtain ⟨outs, B2, g1, g2, g3⟩ := ih false e2 hlt (fun _ => List.dropWhile_idempotent _ _) d3
        have hw : substWords t = fields isBlank t := by
          unfold substWords
          rw [if_neg]
          rintro ⟨-, hx⟩
          exact hb (List.dropWhile_eq_nil_iff.mpr fun x hm => by simpa [lblank, isBlank] using hx x hm)
        refine ⟨out :: outs, B2, ?_, g2, ?_⟩
        · rw [hw, ite_self, fields_next t hb]; exact .cons d1 g1
        cases first
        · simpa [afterSpaces] using g3
        · simpa [joinSpaces_cons] using g3

theorem doReplacement_at {R : SubstRule} {PR QR : Block} {preR postR : Span} {sens S : Sens} (h : i.At P t)
    (h1 : P.Apart) (hp : AsciiS R.pre) (hq : AsciiS R.post) (hr : preR.At PR R.preR)
    (hr' : postR.At QR R.postR) (hs : ∀ v, v ∈ sens → v ∈ S) (hS : ∀ v, v ∈ P.sens → v ∈ S)
    (hS1 : ∀ v, v ∈ PR.sens → v ∈ S) (hS2 : ∀ v, v ∈ QR.sens → v ∈ S) :
    ∃ outs b, List.Forall₂ R.Done (substWords t) outs ∧ doReplacement i sens R.pre R.post preR postR = .ok b ∧
      Block.ltext b = joinSpaces outs ∧ Block.WF b ∧ b.Solid ∧ ∀ v, v ∈ b.sens → v ∈ S := by
  obtain ⟨outs, B, g1, g2, g3⟩ := replaceLoop_at h1 hp hq hr hr' hS hS1 hS2 (i.length + 1) true h
    (by rw [h.length]; omega) (by simp) (⟨rfl, trivial, hs⟩ : Building S [] ⟨sens, []⟩)
  obtain ⟨b, b1, b2, _, b4, b5, b6, _⟩ := Block.simplify_spec g3.wf
  refine ⟨outs, b, g1, ?_, by rw [b2, g3.ltext]; simp, b5, b6, fun v hv => g3.sub v (b4 ▸ hv)⟩
  unfold doReplacement
  rw [g2, ok_bind, b1]

theorem Span.empty_at : Span.empty.At Block.empty [] := ⟨rfl, ⟨trivial, .inl rfl⟩, rfl⟩

/-- The key and the replacement are cut as the rule says. -/
theorem doSubref_rule {key repl : Block} (hk : Block.WF key) (hk' : key.Solid) (hr : Block.WF repl) (hr' : repl.Solid) :
    ∃ R PR QR preR postR, R = substRule (Block.ltext key) (Block.ltext repl) ∧
      (∀ sens value, doSubref sens value key repl = doReplacement value.span sens R.pre R.post preR postR) ∧
      AsciiS R.pre ∧ AsciiS R.post ∧ preR.At PR R.preR ∧ postR.At QR R.postR ∧
      (∀ v, v ∈ PR.sens → v ∈ repl.sens) ∧ ∀ v, v ∈ QR.sens → v ∈ repl.sens := by
  have hkat := Block.span_at hk hk'
  have hrat := Block.span_at hr hr'
  obtain ⟨k1, k2⟩ := takeUntilUnquote_spec (· == '%') (by decide) (by decide) hkat
  obtain ⟨r1, r2⟩ := takeUntilUnquote_spec (· == '%') (by decide) (by decide) hrat
  unfold doSubref
  unfold substRule
  generalize hU : unquote (· == '%') [] (Block.ltext key) = U at k1 k2 ⊢
  generalize hV : unquote (· == '%') [] (Block.ltext repl) = V at r1 r2 ⊢
  obtain ⟨pre, o⟩ := U
  obtain ⟨preR, o'⟩ := V
  cases o with
  | some y =>
    obtain ⟨x, post⟩ := y
    obtain ⟨b, sc, ps, e1, e2, _, e4⟩ := k1 x post rfl
    have hb := e2.at
    simp only [e1, ok_bind, Block.intoString_eq b e2.wf, Block.text, e2.ltext, e4.intoString]
    cases o' with
    | some y =>
      obtain ⟨x', postR⟩ := y
      obtain ⟨b', sc', ps', f1, f2, _, f4⟩ := r1 x' postR rfl
      exact ⟨⟨textOf pre, textOf post, preR, postR⟩, _, _, _, _, rfl, fun _ _ => by rw [f1, ok_bind], hb.ascii, e4.ascii,
        f2.at, f4, f2.sens, fun _ h => h⟩
    | none =>
      obtain ⟨b', f1, f2⟩ := r2 rfl
      exact ⟨⟨textOf pre, textOf post, [], preR⟩, _, _, _, _, rfl, fun _ _ => by rw [f1, ok_bind], hb.ascii, e4.ascii,
        Span.empty_at, f2.at, fun v hv => (nomatch hv), f2.sens⟩
  | none =>
    obtain ⟨b, e1, e2⟩ := k2 rfl
    have hb := e2.at
    simp only [e1, ok_bind, Block.intoString_eq b e2.wf, Block.text, e2.ltext]
    exact ⟨⟨[], textOf pre, [], Block.ltext repl⟩, _, _, _, _, rfl, fun _ _ => rfl, fun c hc => (nomatch hc), hb.ascii,
      Span.empty_at, hrat, fun v hv => (nomatch hv), fun _ h => h⟩

theorem doSubref_exact {sens S : Sens} {value key repl : Block} (hv : Block.WF value) (hv' : value.Solid) (hk : Block.WF key)
    (hk' : key.Solid) (hr : Block.WF repl) (hr' : repl.Solid) (h1 : value.Apart)
    (hs : ∀ v, v ∈ sens → v ∈ S) (hS : ∀ v, v ∈ value.sens → v ∈ S) (hS1 : ∀ v, v ∈ repl.sens → v ∈ S) :
    ∃ outs b, List.Forall₂ (substRule (Block.ltext key) (Block.ltext repl)).Done (substWords (Block.ltext value)) outs ∧
      doSubref sens value key repl = .ok b ∧
      Block.ltext b = joinSpaces outs ∧ Block.WF b ∧ b.Solid ∧ ∀ v, v ∈ b.sens → v ∈ S := by
  obtain ⟨R, PR, QR, preR, postR, hR, e1, e2, e3, e4, e5, e6, e7⟩ := doSubref_rule hk hk' hr hr'
  rw [← hR, e1]
  exact doReplacement_at (Block.span_at hv hv') h1 e2 e3 e4 e5 hs hS (fun v h => hS1 v (e6 v h)) (fun v h => hS1 v (e7 v h))

/-- Where the key does not match the empty word, a value of blanks is like one without words. -/
theorem SubstRule.done_fields {R : SubstRule} {t : List LChar} {outs : List (List LChar)}
    (hne : ¬ (R.pre = [] ∧ R.post = [])) (h : List.Forall₂ R.Done (substWords t) outs) :
    ∃ outs', List.Forall₂ R.Done (fields isBlank t) outs' ∧ joinSpaces outs = joinSpaces outs' := by
  unfold substWords at h
  split at h
  · rename_i hw
    have hf : fields isBlank t = [] :=
      fields_blank _ (List.dropWhile_eq_nil_iff.mpr fun x hm => by simpa [lblank, isBlank] using hw.2 x hm)
    cases h with
    | cons d g =>
      cases g
      rename_i out
      refine ⟨[], by rw [hf]; exact .nil, ?_⟩
      have ho : out = [] := by
        generalize hn : ([] : List LChar) = w at d
        cases d with
        | hit e ea eb _ =>
          rw [← hn] at e
          simp only [List.nil_eq, List.append_eq_nil_iff] at e
          obtain ⟨rfl, rfl, rfl⟩ := e
          exact absurd ⟨ea.symm, eb.symm⟩ hne
        | miss => rfl
      rw [ho]
      rfl
  · exact ⟨outs, h, rfl⟩

end Hastur
