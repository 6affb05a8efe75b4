import Mathlib.Data.List.Rotate
import Verif.Proofs.Segments
import Verif.Spec.Search
/-
Lemmas: searching and comparing spans.
-/
namespace Hastur

/-! ### Substring search on lists -/

/-- Position of the first occurrence. -/
def firstOcc {α : Type} [DecidableEq α] (needle : List α) : List α → Option Nat
  | [] => if needle = [] then some 0 else none
  | c :: cs => if needle <+: c :: cs then some 0 else (firstOcc needle cs).map (· + 1)

theorem firstOcc_some {needle text : Str} {k : Nat} : firstOcc needle text = some k ↔ FirstAt needle text k := by
  induction text generalizing k with
  | nil =>
    unfold firstOcc FirstAt
    split
    · rename_i h
      subst h
      simp only [Option.some.injEq, List.append_nil]
      constructor
      · rintro rfl
        exact ⟨⟨[], [], rfl, rfl⟩, by intros; omega⟩
      · rintro ⟨⟨pre, post, h1, h2⟩, _⟩
        have := congrArg List.length h1
        simp at this
        omega
    · rename_i h
      simp only [reduceCtorEq, false_iff, not_and]
      rintro ⟨pre, post, h1, h2⟩
      have := congrArg List.length h1
      simp at this
      exact absurd (List.length_eq_zero_iff.mp (by omega)) h
  | cons c cs ih =>
    unfold firstOcc
    split
    · rename_i h
      obtain ⟨q, hq⟩ := h
      simp only [Option.some.injEq]
      constructor
      · rintro rfl
        exact ⟨⟨[], q, by simp [hq], rfl⟩, by intros; omega⟩
      · rintro ⟨_, h2⟩
        have := h2 [] q (by simp [hq])
        simp at this; exact this.symm
    · rename_i h
      simp only [Option.map_eq_some_iff]
      constructor
      · rintro ⟨j, hj, rfl⟩
        obtain ⟨⟨pre, post, h1, h2⟩, h3⟩ := ih.mp hj
        refine ⟨⟨c :: pre, post, by simp [h1], by simp [h2]⟩, ?_⟩
        intro pre' post' he
        cases pre' with
        | nil => exact absurd ⟨post', by simpa using he.symm⟩ h
        | cons d pre' =>
          simp at he
          have := h3 pre' post' (by simp [he.2])
          simp; omega
      · rintro ⟨⟨pre, post, h1, h2⟩, h3⟩
        cases pre with
        | nil => exact absurd ⟨post, by simpa using h1.symm⟩ h
        | cons d pre =>
          simp at h1
          refine ⟨pre.length, ih.mpr ⟨⟨pre, post, by simp [h1.2], rfl⟩, ?_⟩, by simpa using h2⟩
          intro pre' post' he
          have := h3 (c :: pre') post' (by simp [he])
          simp at this h2; omega

theorem firstOcc_none {needle text : Str} : firstOcc needle text = none ↔ ¬ Occurs needle text := by
  cases h : firstOcc needle text with
  | some k =>
    obtain ⟨⟨pre, post, h1, _⟩, _⟩ := firstOcc_some.mp h
    simp only [reduceCtorEq, false_iff, not_not]
    exact ⟨pre, post, h1⟩
  | none =>
    simp only [true_iff]
    rintro ⟨pre, post, h1⟩
    induction pre generalizing text with
    | nil =>
      cases text with
      | nil =>
        simp at h1
        simp [firstOcc, h1.1] at h
      | cons c cs =>
        have : needle <+: c :: cs := ⟨post, by simpa using h1.symm⟩
        simp [firstOcc, this] at h
    | cons d pre ih =>
      cases text with
      | nil => simp at h1
      | cons c cs =>
        simp at h1
        simp only [firstOcc] at h
        split at h
        · cases h
        · simp only [Option.map_eq_none_iff] at h
          exact ih h (by simp [h1.2])

theorem firstOcc_map {α β : Type} [DecidableEq α] [DecidableEq β] (f : α → β) (needle text : List α)
    (hf : ∀ a ∈ needle, ∀ b ∈ text, f a = f b → a = b) :
    firstOcc (needle.map f) (text.map f) = firstOcc needle text := by
  induction text with
  | nil => simp [firstOcc]
  | cons c cs ih =>
    have hp : (needle.map f <+: (c :: cs).map f) ↔ (needle <+: c :: cs) := by
      constructor
      · intro h
        clear ih
        generalize c :: cs = t at *
        induction needle generalizing t with
        | nil => simp
        | cons a needle ih =>
          cases t with
          | nil => simp at h
          | cons d t =>
            simp only [List.map_cons, List.cons_prefix_cons] at h ⊢
            exact ⟨hf a (by simp) d (by simp) h.1, ih t
              (fun a ha b hb => hf a (by simp [ha]) b (by simp [hb])) h.2⟩
      · rintro ⟨q, hq⟩
        exact ⟨q.map f, by rw [← hq]; simp⟩
    simp only [List.map_cons] at hp ⊢
    simp only [firstOcc, hp]
    rw [ih (fun a ha b hb => hf a ha b (by simp [hb]))]

/-- The search by a sliding window. -/
def slide {α : Type} [DecidableEq α] (needle : List α) : (window rest : List α) → Nat → Option Nat
  | _, [], _ => none
  | w, x :: rest, i =>
    let w' := w.tail ++ [x]
    if w' = needle then some (i - needle.length + 1) else slide needle w' rest (i + 1)

theorem slide_spec {α : Type} [DecidableEq α] (needle w rest : List α) (i : Nat) (h0 : needle ≠ [])
    (hw : w.length = needle.length) (hi : needle.length ≤ i) :
    (if w = needle then some (i - needle.length) else slide needle w rest i) =
      (firstOcc needle (w ++ rest)).map (· + (i - needle.length)) := by
  induction rest generalizing w i with
  | nil =>
    cases w with
    | nil => exact absurd (List.length_eq_zero_iff.mp hw.symm) h0
    | cons a w =>
      simp only [List.append_nil, firstOcc, slide]
      have hp : needle <+: a :: w ↔ a :: w = needle :=
        ⟨fun h => (h.eq_of_length hw.symm).symm, fun h => by rw [h]⟩
      simp only [hp]
      split
      · simp
      · have : firstOcc needle w = none := by
          clear hp
          have hlt : w.length < needle.length := by simp at hw; omega
          clear hw
          rename_i hne
          clear hne
          induction w with
          | nil => simp [firstOcc, h0]
          | cons b w ih =>
            simp only [firstOcc]
            rw [if_neg, ih (by simp at hlt ⊢; omega)]
            · rfl
            · intro hc; have := hc.length_le; simp at this hlt; omega
        simp [this]
  | cons x rest ih =>
    cases w with
    | nil => exact absurd (List.length_eq_zero_iff.mp hw.symm) h0
    | cons a w =>
      simp only [List.cons_append, firstOcc, slide, List.tail_cons]
      have hp : needle <+: a :: (w ++ x :: rest) ↔ a :: w = needle := by
        constructor
        · intro h
          have h2 : a :: w <+: a :: (w ++ x :: rest) := ⟨x :: rest, by simp⟩
          exact (List.prefix_of_prefix_length_le h2 h (by omega)).eq_of_length hw
        · rintro rfl; exact ⟨x :: rest, by simp⟩
      simp only [hp]
      split
      · simp
      · have := ih (w ++ [x]) (i + 1) (by simp at hw ⊢; omega) (by omega)
        rw [List.append_assoc, List.singleton_append] at this
        have e : i + 1 - needle.length = i - needle.length + 1 := by omega
        rw [e] at this
        refine this.trans ?_
        rw [Option.map_map]
        congr 1
        funext k
        simp; omega

/-! ### The ring buffer -/

/-- The byte of an ASCII character. -/
def byteOf (c : Char) : UInt8 := UInt8.ofNat c.val.toNat

theorem utf8Encode_ascii {c : Char} (h : isAscii c = true) : String.utf8EncodeChar c = [byteOf c] := by
  unfold isAscii at h
  have h1 : c.val < 128 := by simpa using h
  have : c.val.toNat < 128 := h1
  unfold String.utf8EncodeChar byteOf
  simp only
  rw [if_pos (by omega)]

theorem byteOf_inj {a b : Char} (ha : isAscii a = true) (hb : isAscii b = true) (h : byteOf a = byteOf b) : a = b := by
  unfold isAscii at ha hb
  have h1 : a.val < 128 := by simpa using ha
  have h2 : b.val < 128 := by simpa using hb
  have h1 : a.val.toNat < 128 := h1
  have h2 : b.val.toNat < 128 := h2
  unfold byteOf at h
  have h := congrArg UInt8.toNat h
  rw [UInt8.toNat_ofNat', UInt8.toNat_ofNat', Nat.mod_eq_of_lt (by omega), Nat.mod_eq_of_lt (by omega)] at h
  exact Char.ext (UInt32.toNat_inj.mp h)

theorem bytesOf_ascii {t : Str} (h : AsciiS t) : Span.bytesOf t = t.map byteOf := by
  induction t with
  | nil => rfl
  | cons c t ih =>
    obtain ⟨h1, h2⟩ := h.of_cons
    have := ih h2
    simp only [Span.bytesOf] at this ⊢
    simp [utf8Encode_ascii h1, this]

namespace Span

/-- Characters with their indices. -/
def indexed (n : Nat) (t : Str) : List (Nat × Char) := (t.zipIdx n).map fun p => (p.2, p.1)

@[simp] theorem indexed_nil (n : Nat) : indexed n [] = [] := rfl
@[simp] theorem indexed_cons (n : Nat) (c : Char) (t : Str) : indexed n (c :: t) = (n, c) :: indexed (n + 1) t := rfl

theorem withIndices_eq (n : Nat) {t : Str} (h : AsciiS t) : withIndices n t = indexed n t := withIndices_ascii n t h

theorem fillBuffer_spec (n : Nat) (crash : Bool) (t : Str) (h : AsciiS t) (done : List UInt8)
    (hn : n ≤ done.length + t.length) (hd : done.length ≤ n) :
    fillBuffer n crash done.length (done ++ List.replicate (n - done.length) 0) (indexed done.length t) =
      .ok (done ++ (t.take (n - done.length)).map byteOf, indexed n (t.drop (n - done.length))) := by
  induction t generalizing done with
  | nil =>
    have : done.length = n := by simp at hn; omega
    simp only [indexed_nil, fillBuffer]
    rw [if_neg (by omega)]
    simp [this]
  | cons c t ih =>
    obtain ⟨h1, h2⟩ := h.of_cons
    simp only [indexed_cons, fillBuffer, utf8Encode_ascii h1]
    by_cases hlt : done.length < n
    · rw [if_pos hlt]
      obtain ⟨m, hm⟩ : ∃ m, n - done.length = m + 1 := ⟨n - done.length - 1, by omega⟩
      simp only [writeAt, hm, List.replicate_succ]
      rw [if_pos (by simp)]
      have hset : (done ++ (0 : UInt8) :: List.replicate m 0).set done.length (byteOf c) =
          (done ++ [byteOf c]) ++ List.replicate m 0 := by
        rw [List.set_append_right _ _ (Nat.le_refl _)]
        simp
      simp only [Res.ok_bind, List.length_singleton, hset]
      have := ih h2 (done ++ [byteOf c]) (by simp at hn ⊢; omega) (by simp; omega)
      simp only [List.length_append, List.length_singleton] at this
      rw [show n - (done.length + 1) = m by omega] at this
      rw [this]
      simp
    · rw [if_neg hlt]
      have : done.length = n := by omega
      simp [this]

theorem ringMatches_spec (buf : List UInt8) (bs : List UInt8) (i : Nat) (hb : 0 < buf.length) :
    ringMatches buf.length buf i bs = true ↔ ∀ j (h : j < bs.length), buf[(i + j) % buf.length]? = some bs[j] := by
  induction bs generalizing i with
  | nil => simp [ringMatches]
  | cons b bs ih =>
    simp only [ringMatches]
    constructor
    · intro h
      split at h
      · rename_i hc
        intro j hj
        cases j with
        | zero => simpa using hc
        | succ j =>
          have := (ih (i + 1)).mp h j (by simpa using hj)
          rw [show i + (j + 1) = i + 1 + j by omega]
          simpa using this
      · cases h
    · intro h
      have h00 := h 0 (by simp)
      rw [Nat.add_zero, List.getElem_cons_zero] at h00
      rw [if_pos h00]
      refine (ih (i + 1)).mpr ?_
      intro j hj
      have := h (j + 1) (by simpa using hj)
      rw [show i + 1 + j = i + (j + 1) by omega]
      simpa using this

theorem ringMatches_rotate (buf needle : List UInt8) (i : Nat) (hb : 0 < buf.length)
    (hl : buf.length = needle.length) :
    (ringMatches needle.length buf i needle = true) ↔ buf.rotate i = needle := by
  rw [← hl, ringMatches_spec _ _ _ hb]
  constructor
  · intro h
    apply List.ext_getElem
    · simp [hl]
    · intro j h1 h2
      rw [List.getElem_rotate]
      have := h j h2
      rw [List.getElem?_eq_getElem (Nat.mod_lt _ hb), Option.some.injEq] at this
      rw [← this]
      congr 2
      omega
  · intro h j hj
    rw [List.getElem?_eq_getElem (Nat.mod_lt _ hb), Option.some.injEq]
    subst h
    rw [List.getElem_rotate]
    congr 2
    omega

theorem rotate_step (buf : List UInt8) (s : Nat) (x : UInt8) (hs : s < buf.length) :
    (buf.set s x).rotate ((s + 1) % buf.length) = (buf.rotate s).tail ++ [x] := by
  have hb : 0 < buf.length := by omega
  have e : (buf.set s x).rotate ((s + 1) % buf.length) = (buf.set s x).rotate (s + 1) := by
    have := List.rotate_mod (buf.set s x) (s + 1)
    rwa [List.length_set] at this
  rw [e, List.rotate_eq_drop_append_take (by simp; omega), List.rotate_eq_drop_append_take (by omega)]
  rw [List.drop_set_of_lt (by omega)]
  have h1 : (buf.set s x).take (s + 1) = buf.take s ++ [x] := by
    rw [List.take_add_one, List.take_set_of_le (Nat.le_refl _)]
    simp [hs]
  have h2 : buf.drop s = buf[s] :: buf.drop (s + 1) := List.drop_eq_getElem_cons hs
  rw [h1, h2, List.cons_append, List.tail_cons, List.append_assoc]

theorem searchLoop_spec (needle : List UInt8) (t : Str) (h : AsciiS t) (buf : List UInt8) (s i : Nat)
    (h0 : needle ≠ []) (hl : buf.length = needle.length) (hs : s < buf.length) (hi : needle.length ≤ i) :
    searchLoop needle false s buf (indexed i t) = .ok (slide needle (buf.rotate s) (t.map byteOf) i) := by
  induction t generalizing buf s i with
  | nil => rfl
  | cons c t ih =>
    obtain ⟨h1, h2⟩ := h.of_cons
    have hr := rotate_step buf s (byteOf c) hs
    simp only [indexed_cons, searchLoop, utf8Encode_ascii h1, writeRing, List.length_singleton, List.map_cons, slide,
      ← hl, Nat.mod_eq_of_lt hs]
    have hm := ringMatches_rotate (buf.set s (byteOf c)) needle ((s + 1) % buf.length) (by simp; omega) (by simp [hl])
    rw [← hl] at hm
    rw [hr] at hm
    by_cases hc : (buf.rotate s).tail ++ [byteOf c] = needle
    · rw [if_pos (hm.mpr hc), if_pos hc, usub_of_le (by omega)]; rfl
    · rw [if_neg (fun h => hc (hm.mp h)), if_neg hc, ← hr]
      exact ih h2 _ _ _ (by simp [hl]) (by simp; exact Nat.mod_lt _ (by omega)) (by omega)

theorem findSubstring_eq {s : Span} (h : s.WF) {t : Str} (ht : AsciiS t) (h0 : t ≠ []) :
    s.findSubstring t = .ok (firstOcc t s.text) := by
  have ha := ascii h
  have hlen := text_length h
  unfold findSubstring
  rw [bytesOf_ascii ht, chars_eq h]
  simp only [List.length_map, withIndices_eq 0 ha]
  by_cases hn : t.length > s.length
  · rw [if_pos hn]
    symm
    congr 1
    rw [firstOcc_none]
    rintro ⟨pre, post, he⟩
    have := congrArg List.length he
    simp at this; omega
  · rw [if_neg hn]
    have hf := fillBuffer_spec t.length false s.text ha [] (by simp; omega) (by simp)
    simp only [List.length_nil, List.nil_append, Nat.sub_zero] at hf
    rw [hf, Res.ok_bind]
    have hinj : ∀ a ∈ t, ∀ b ∈ s.text, byteOf a = byteOf b → a = b :=
      fun a h1 b h2 => byteOf_inj (ht a h1) (ha b h2)
    rw [← firstOcc_map byteOf t s.text hinj]
    have hb0 : t.map byteOf ≠ [] := by simpa using h0
    have hpos : 0 < t.length := List.length_pos_iff.mpr h0
    have hsl := slide_spec (t.map byteOf) ((s.text.take t.length).map byteOf)
      ((s.text.drop t.length).map byteOf) t.length hb0 (by simp; omega) (by simp)
    rw [← List.map_append, List.take_append_drop] at hsl
    simp only [List.length_map, Nat.sub_self, Nat.add_zero, Option.map_id'] at hsl
    rw [← hsl]
    by_cases he : (s.text.take t.length).map byteOf = t.map byteOf
    · simp [he]
    · simp only [he, if_false]
      rw [searchLoop_spec _ _ (ha.drop _) _ 0 _ hb0 (by simp; omega) (by simp; omega) (by simp)]
      simp

/-! ### Comparison -/

theorem mismatch_spec (a b : List Char) : ∃ r, mismatch false a b = .ok r ∧ (r = false ↔ a <+: b ∨ b <+: a) := by
  induction a generalizing b with
  | nil => exact ⟨false, by simp [mismatch], by simp⟩
  | cons x a ih =>
    cases b with
    | nil => exact ⟨false, by simp [mismatch], by simp⟩
    | cons y b =>
      simp only [mismatch]
      by_cases hxy : x = y
      · subst hxy
        obtain ⟨r, h1, h2⟩ := ih b
        exact ⟨r, by simp [h1], by simp [h2]⟩
      · exact ⟨true, by simp [hxy], by simp [hxy, Ne.symm hxy]⟩

theorem blen_ge (t : Str) : t.length ≤ blen t := by
  induction t with
  | nil => simp
  | cons c t ih => have := utf8Size_pos c; simp; omega

theorem compare_eq {s : Span} (h : s.WF) (t : Str) :
    (t <+: s.text ∧ s.compare t = .ok .ok) ∨ (s.text <+: t ∧ s.text ≠ t ∧ s.compare t = .ok .incomplete) ∨
      (¬ t <+: s.text ∧ ¬ s.text <+: t ∧ s.compare t = .ok .error) := by
  have hl := text_length h
  have ha := ascii h
  obtain ⟨r, h1, h2⟩ := mismatch_spec s.text t
  unfold compare
  rw [chars_eq h]
  simp only [h1, Res.ok_bind]
  cases r with
  | true =>
    simp only [Bool.true_eq_false, false_iff, not_or] at h2
    exact Or.inr (Or.inr ⟨h2.2, h2.1, rfl⟩)
  | false =>
    have h2 := h2.mp rfl
    simp only [Bool.false_eq_true, if_false]
    by_cases hg : s.length ≥ blen t
    · left
      rw [if_pos hg]
      refine ⟨?_, rfl⟩
      have := blen_ge t
      rcases h2 with h2 | h2
      · rw [h2.eq_of_length_le (by omega)]
      · exact h2
    · right; left
      rw [if_neg hg]
      have hnp : ¬ t <+: s.text := by
        rintro ⟨q, hq⟩
        have hat : AsciiS t := fun c hc => ha c (by rw [← hq]; simp [hc])
        rw [blen_ascii hat] at hg
        have := congrArg List.length hq
        simp at this; omega
      refine ⟨h2.resolve_right hnp, ?_, rfl⟩
      intro he; apply hnp; rw [he]

theorem lower_ascii {c : Char} (h : isAscii (lower c) = true) : isAscii c = true := by
  unfold lower at h
  split at h
  · rename_i hc
    unfold isAscii
    simp only [Bool.and_eq_true, decide_eq_true_eq] at hc
    have : c.val.toNat ≤ 90 := hc.2
    simp only [decide_eq_true_eq]
    show c.val.toNat < 128
    omega
  · exact h

theorem ascii_lower {c : Char} (h : isAscii c = true) : isAscii (lower c) = true := by
  unfold lower
  split
  · rename_i hc
    simp only [Bool.and_eq_true, decide_eq_true_eq] at hc
    have h1 : (Char.ofNat (c.toNat + 32)).toNat = c.toNat + 32 := by
      have hv : (c.toNat + 32).isValidChar := Or.inl (by omega)
      simp only [Char.ofNat, hv, dif_pos]
      rfl
    unfold isAscii
    simp only [decide_eq_true_eq]
    show (Char.ofNat (c.toNat + 32)).toNat < 128
    omega
  · exact h

theorem compareNoCase_eq {s : Span} (h : s.WF) (t : Str) :
    (t.map lower <+: s.text.map lower ∧ s.compareNoCase t = .ok .ok) ∨
      (s.text.map lower <+: t.map lower ∧ s.text.map lower ≠ t.map lower ∧ s.compareNoCase t = .ok .incomplete) ∨
      (¬ t.map lower <+: s.text.map lower ∧ ¬ s.text.map lower <+: t.map lower ∧ s.compareNoCase t = .ok .error) := by
  have hl := text_length h
  have ha := ascii h
  obtain ⟨r, h1, h2⟩ := mismatch_spec (s.text.map lower) (t.map lower)
  unfold compareNoCase
  rw [chars_eq h]
  simp only [h1, Res.ok_bind]
  cases r with
  | true =>
    simp only [Bool.true_eq_false, false_iff, not_or] at h2
    exact Or.inr (Or.inr ⟨h2.2, h2.1, rfl⟩)
  | false =>
    have h2 := h2.mp rfl
    simp only [Bool.false_eq_true, if_false]
    by_cases hg : s.length ≥ blen t
    · left
      rw [if_pos hg]
      refine ⟨?_, rfl⟩
      have := blen_ge t
      rcases h2 with h2 | h2
      · rw [h2.eq_of_length_le (by simp; omega)]
      · exact h2
    · right; left
      rw [if_neg hg]
      have hnp : ¬ t.map lower <+: s.text.map lower := by
        rintro ⟨q, hq⟩
        have hat : AsciiS t := by
          intro c hc
          apply lower_ascii
          have : lower c ∈ s.text.map lower := by
            rw [← hq]; exact List.mem_append_left _ (List.mem_map_of_mem hc)
          obtain ⟨d, hd, he⟩ := List.mem_map.mp this
          rw [← he]; exact ascii_lower (ha d hd)
        rw [blen_ascii hat] at hg
        have := congrArg List.length hq
        simp at this; omega
      refine ⟨h2.resolve_right hnp, ?_, rfl⟩
      intro he; apply hnp; rw [he]

/-! ### Splitting -/

/-- Number of characters before the first one that satisfies `p`. -/
def stopIdx (p : Char → Bool) (t : Str) : Nat := (t.takeWhile fun c => !p c).length

theorem stopIdx_le (p : Char → Bool) (t : Str) : stopIdx p t ≤ t.length := (List.takeWhile_sublist _).length_le

theorem find_indexed (p : Char → Bool) (t : Str) (n : Nat) :
    (indexed n t).find? (fun ic => p ic.2) =
      if h : stopIdx p t < t.length then some (n + stopIdx p t, t[stopIdx p t]) else none := by
  induction t generalizing n with
  | nil => simp
  | cons c t ih =>
    simp only [indexed_cons, List.find?_cons]
    cases hp : p c with
    | true => simp [stopIdx, hp]
    | false =>
      simp only [ih]
      have : stopIdx p (c :: t) = stopIdx p t + 1 := by simp [stopIdx, hp]
      simp only [this, List.length_cons, Nat.add_lt_add_iff_right, List.getElem_cons_succ]
      by_cases hs : stopIdx p t < t.length
      · rw [dif_pos hs, dif_pos hs, show n + 1 + stopIdx p t = n + (stopIdx p t + 1) by omega]
      · rw [dif_neg hs, dif_neg hs]

theorem findChar_eq {s : Span} (h : s.WF) (p : Char → Bool) :
    s.findChar p = .ok (if h : stopIdx p s.text < s.text.length then
      some (stopIdx p s.text, s.text[stopIdx p s.text]) else none) := by
  unfold findChar findIn
  rw [chars_eq h]
  simp only [withIndices_eq 0 (ascii h), find_indexed]
  split
  · rename_i a ha
    split at ha
    · rename_i hs
      simp only [Nat.zero_add] at ha
      rw [dif_pos hs, ← ha]
    · cases ha
  · rename_i ha
    split at ha
    · cases ha
    · rename_i hs
      rw [dif_neg hs]; simp

/-- Where a split leaves the rest. -/
def restAt (s : Span) (n : Nat) : Span := if n < s.length then s.dropS n else s.emptyAtEnd

theorem restAt_good {s : Span} (h : s.WF) (n : Nat) : (s.restAt n).Good := by
  unfold restAt
  split
  · exact dropS_good h (by omega)
  · exact emptyAtEnd_good h
theorem restAt_parent {s : Span} (h : s.WF) (n : Nat) : (s.restAt n).parent = s.parent := by
  unfold restAt
  split
  · exact dropS_parent h (by omega)
  · rfl
theorem restAt_ltext {s : Span} (h : s.WF) (n : Nat) : (s.restAt n).ltext = s.ltext.drop n := by
  unfold restAt
  split
  · exact dropS_ltext h (by omega)
  · rw [emptyAtEnd_ltext, List.drop_of_length_le (by rw [ltext_length h]; omega)]

theorem splitAtPosition_eq {s : Span} (h : s.WF) (p : Char → Bool) :
    s.splitAtPosition p = .ok (s.restAt (stopIdx p s.text), s.sliceTo (stopIdx p s.text)) := by
  unfold splitAtPosition
  have hl := text_length h
  have hle := stopIdx_le p s.text
  rw [findChar_eq h p, Res.ok_bind]
  by_cases hs : stopIdx p s.text < s.text.length
  · rw [dif_pos hs]
    simp only
    rw [sliceFrom_eq h (by omega)]
    simp [restAt, ← hl, hs]
  · rw [dif_neg hs]
    have he : stopIdx p s.text = s.length := by omega
    simp [restAt, he, sliceTo]

theorem drop_stopIdx (p : Char → Bool) (t : Str) : t.drop (stopIdx p t) = t.dropWhile fun c => !p c := by
  induction t with
  | nil => rfl
  | cons c t ih =>
    simp only [stopIdx, List.takeWhile_cons, List.dropWhile_cons]
    split
    · simpa [stopIdx] using ih
    · rfl

theorem take_stopIdx (p : Char → Bool) (t : Str) : t.take (stopIdx p t) = t.takeWhile fun c => !p c := by
  induction t with
  | nil => rfl
  | cons c t ih =>
    simp only [stopIdx, List.takeWhile_cons]
    split
    · simpa [stopIdx] using ih
    · rfl

/-! ### Offsets -/

theorem walkLengths_eq (cs : List CRef) (k : Nat) : walkLengths cs k = lensum (cs.take k) := by
  induction cs generalizing k with
  | nil => cases k <;> simp [walkLengths]
  | cons c cs ih => cases k <;> simp [walkLengths, ih]

/-- Exact outcome of `offset` between a span and its tail: when the tail starts in a later reference, the position
inside that reference is missing. -/
theorem offsetTo_dropS {s : Span} (h : s.Good) {n : Nat} (hn : n ≤ s.length) :
    s.offsetTo (s.dropS n) =
      .ok (if (s.dropS n).start = s.start then n else n - (s.dropS n).offset) ∧
      ((s.dropS n).start ≠ s.start → (s.dropS n).offset ≤ n) := by
  have hs := sliceFrom_eq h.wf hn
  by_cases hz : s.length = n
  · have hd : s.dropS n = { s with offset := s.offset + n, length := 0 } := by
      simp only [dropS, sliceFrom, usub_of_le hn]
      simp [hz, revalidate]
    rw [hd]
    simp [offsetTo, rassert, usub]
  · have hpos : s.length - n ≠ 0 := by omega
    obtain ⟨c, cs, e1, e2, e3⟩ := h.2.resolve_left (by omega)
    obtain ⟨k, d, rest, o, h1, h2, h3, h4, h5, h6⟩ :=
      revalLoop_spec (wf_contents h.1) s.start (s.offset + n) (by rw [e1]; simp; omega)
    have hd : s.dropS n = { s with start := s.start + k, offset := o, length := s.length - n } := by
      have hr : revalLoop (contents { s with offset := s.offset + n, length := s.length - n }) s.start (s.offset + n)
          = .ok (s.start + k, o) := h1
      simp only [dropS, sliceFrom, usub_of_le hn, Res.ok_bind, revalidate, if_neg hpos, hr]
      rfl
    rw [hd]
    have hk : k ≤ s.contents.length := by
      have := congrArg List.length h2
      simp at this; omega
    simp only [offsetTo]
    rw [rassert_of (by simp), Res.ok_bind, rassert_of (by simpa using hk), Res.ok_bind]
    by_cases hk0 : k = 0
    · subst hk0
      simp at h4
      rw [if_pos (by simp), if_pos (by simp), usub_of_le (by omega)]
      refine ⟨by congr 1; omega, by simp⟩
    · rw [if_neg (by omega), if_neg (by omega), e1]
      obtain ⟨j, rfl⟩ : ∃ j, k = j + 1 := ⟨k - 1, by omega⟩
      rw [e1] at h4
      simp only [List.take_succ_cons, lensum_cons] at h4
      simp only
      rw [usub_of_le (by omega), Res.ok_bind, walkLengths_eq, show s.start + (j + 1) - s.start - 1 = j by omega]
      refine ⟨by simp only [Res.pure_eq]; congr 1; omega, fun _ => by omega⟩

end Span
end Hastur
