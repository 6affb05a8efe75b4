import Verif.Proofs.Search
import Verif.Model.Lines
import Verif.Spec.SearchAny
/-
Lemmas for C71: substring search for an ASCII string in any text.
-/
namespace Hastur
open Span

/-! ### Bytes -/

theorem bytesOf_nil : bytesOf [] = [] := rfl
theorem bytesOf_cons (c : Char) (t : Str) : bytesOf (c :: t) = String.utf8EncodeChar c ++ bytesOf t := rfl
theorem bytesOf_append (a b : Str) : bytesOf (a ++ b) = bytesOf a ++ bytesOf b := by simp [bytesOf]

theorem utf8Encode_length (c : Char) : (String.utf8EncodeChar c).length = c.utf8Size := String.length_utf8EncodeChar c

theorem bytesOf_length (t : Str) : (bytesOf t).length = blen t := by
  induction t with
  | nil => rfl
  | cons c t ih => rw [bytesOf_cons, List.length_append, utf8Encode_length, ih]; simp

theorem mem_utf8_of_not_ascii {c : Char} (h : isAscii c = false) : ∀ b ∈ String.utf8EncodeChar c, 128 ≤ b.toNat := by
  have hv : ¬ c.val.toNat ≤ 127 := by
    unfold isAscii at h
    have : ¬ c.val < 128 := by simpa using h
    intro hc
    exact this (show c.val.toNat < 128 by omega)
  intro b hb
  unfold String.utf8EncodeChar at hb
  simp only [if_neg hv] at hb
  split at hb
  · simp only [List.mem_cons, List.not_mem_nil, or_false] at hb
    rcases hb with rfl | rfl <;> simp <;> omega
  · split at hb
    · simp only [List.mem_cons, List.not_mem_nil, or_false] at hb
      rcases hb with rfl | rfl | rfl <;> simp <;> omega
    · simp only [List.mem_cons, List.not_mem_nil, or_false] at hb
      rcases hb with rfl | rfl | rfl | rfl <;> simp <;> omega

theorem byteOf_lt {c : Char} (h : isAscii c = true) : (byteOf c).toNat < 128 := by
  unfold isAscii at h
  have h1 : c.val < 128 := by simpa using h
  have h1 : c.val.toNat < 128 := h1
  unfold byteOf
  rw [UInt8.toNat_ofNat', Nat.mod_eq_of_lt (by omega)]
  exact h1

/-- ASCII text at the end of the bytes is at the end of the text. -/
theorem suffix_of_bytes {needle : Str} (hn : AsciiS needle) {u : Str} (h : bytesOf needle <:+ bytesOf u) : needle <:+ u := by
  induction needle using List.reverseRecOn generalizing u with
  | nil => exact List.nil_suffix
  | append_singleton needle c ih =>
    have hc : isAscii c = true := hn c (by simp)
    have hn' : AsciiS needle := fun d hd => hn d (by simp [hd])
    rw [bytesOf_append, bytesOf_cons, bytesOf_nil, List.append_nil, utf8Encode_ascii hc] at h
    rcases List.eq_nil_or_concat u with rfl | ⟨v, d, rfl⟩
    · have := h.length_le
      simp [bytesOf_nil] at this
    · rw [List.concat_eq_append, bytesOf_append, bytesOf_cons, bytesOf_nil, List.append_nil] at h
      by_cases hd : isAscii d = true
      · rw [utf8Encode_ascii hd] at h
        obtain ⟨q, hq⟩ := h
        rw [← List.append_assoc] at hq
        obtain ⟨h1, h2⟩ := List.append_inj' hq rfl
        have : c = d := byteOf_inj hc hd (by simpa using h2)
        subst this
        obtain ⟨w, rfl⟩ := ih hn' ⟨q, h1⟩
        exact ⟨w, by simp⟩
      · exfalso
        have hd : isAscii d = false := by simpa using hd
        have hne : String.utf8EncodeChar d ≠ [] := by
          intro he
          have := utf8Encode_length d
          rw [he] at this
          have h2 := utf8Size_pos d
          simp only [List.length_nil] at this
          omega
        obtain ⟨q, hq⟩ := h
        have e := congrArg List.getLast? hq
        rw [← List.append_assoc, List.getLast?_append, List.getLast?_append (l := bytesOf v)] at e
        simp only [List.getLast?_singleton, Option.some_or] at e
        obtain ⟨z, hz⟩ : ∃ z, (String.utf8EncodeChar d).getLast? = some z :=
          ⟨_, List.getLast?_eq_some_getLast hne⟩
        rw [hz] at e
        have := mem_utf8_of_not_ascii hd z (List.mem_of_getLast? hz)
        have e2 : byteOf c = z := by simpa using e
        have h3 := byteOf_lt hc
        rw [e2] at h3
        omega

theorem suffix_bytes {needle u : Str} (h : needle <:+ u) : bytesOf needle <:+ bytesOf u := by
  obtain ⟨q, rfl⟩ := h
  exact ⟨bytesOf q, (bytesOf_append q needle).symm⟩

/-! ### The buffer -/

theorem writeAt_fits (done bs : List UInt8) (m : Nat) (h : bs.length ≤ m) :
    writeAt (done ++ List.replicate m 0) done.length bs = .ok (done ++ bs ++ List.replicate (m - bs.length) 0) := by
  induction bs generalizing done m with
  | nil => simp [writeAt]
  | cons b bs ih =>
    obtain ⟨k, rfl⟩ : ∃ k, m = k + 1 := ⟨m - 1, by simp at h; omega⟩
    have hset : (done ++ List.replicate (k + 1) (0 : UInt8)).set done.length b = (done ++ [b]) ++ List.replicate k 0 := by
      rw [List.replicate_succ, List.set_append_right _ _ (Nat.le_refl _)]
      simp
    have := ih (done ++ [b]) k (by simp at h; omega)
    rw [writeAt, if_pos (by simp), hset]
    rw [List.length_append, List.length_singleton] at this
    rw [this]
    simp

theorem writeAt_short (done bs : List UInt8) (m : Nat) (h : m < bs.length) :
    writeAt (done ++ List.replicate m 0) done.length bs = .panic .index := by
  induction bs generalizing done m with
  | nil => simp at h
  | cons b bs ih =>
    rw [writeAt]
    cases m with
    | zero => rw [if_neg (by simp)]
    | succ k =>
      have hset : (done ++ List.replicate (k + 1) (0 : UInt8)).set done.length b = (done ++ [b]) ++ List.replicate k 0 := by
        rw [List.replicate_succ, List.set_append_right _ _ (Nat.le_refl _)]
        simp
      rw [if_pos (by simp), hset]
      have := ih (done ++ [b]) k (by simp at h; omega)
      rw [List.length_append, List.length_singleton] at this
      exact this

theorem boundary_iff {c : Char} {t : Str} {n : Nat} (hn : 0 < n) :
    Boundary (c :: t) n ↔ c.utf8Size ≤ n ∧ Boundary t (n - c.utf8Size) := by
  constructor
  · rintro ⟨pre, post, h1, h2⟩
    cases pre with
    | nil => simp at h2; omega
    | cons d pre =>
      cases h1
      simp at h2
      exact ⟨by omega, pre, post, rfl, by omega⟩
  · rintro ⟨h1, pre, post, rfl, h3⟩
    exact ⟨c :: pre, post, rfl, by simp; omega⟩

/-- The first loop fills the buffer with whole characters. -/
theorem fillBuffer_any (n : Nat) (p q rest : Str) (h : blen (p ++ q) = n) :
    fillBuffer n false (blen p) (bytesOf p ++ List.replicate (n - blen p) 0) (withIndices (blen p) (q ++ rest)) =
      .ok (bytesOf (p ++ q), withIndices n rest) := by
  induction q generalizing p with
  | nil =>
    rw [List.append_nil] at h ⊢
    subst h
    cases rest with
    | nil => simp [withIndices, fillBuffer]
    | cons c rest => simp [withIndices, fillBuffer]
  | cons c q ih =>
    have hs := utf8Size_pos c
    have hb : blen p + (c.utf8Size + blen q) = n := by simpa using h
    have hw := writeAt_fits (bytesOf p) (String.utf8EncodeChar c) (n - blen p) (by rw [utf8Encode_length]; omega)
    rw [bytesOf_length] at hw
    rw [List.cons_append, withIndices, fillBuffer, if_pos (by omega), hw, Res.ok_bind, utf8Encode_length]
    have := ih (p ++ [c]) (by simpa using h)
    have e1 : blen (p ++ [c]) = blen p + c.utf8Size := by simp
    have e2 : bytesOf (p ++ [c]) = bytesOf p ++ String.utf8EncodeChar c := by
      rw [bytesOf_append, bytesOf_cons, bytesOf_nil, List.append_nil]
    rw [e1, e2] at this
    rw [show n - blen p - c.utf8Size = n - (blen p + c.utf8Size) by omega, this]
    simp

/-- When no whole number of characters fills the buffer, writing goes out of bounds. -/
theorem fillBuffer_stuck (n : Nat) (p t : Str) (h1 : blen p < n) (h2 : n ≤ blen p + blen t) (h : ¬ Boundary t (n - blen p)) :
    fillBuffer n false (blen p) (bytesOf p ++ List.replicate (n - blen p) 0) (withIndices (blen p) t) = .panic .index := by
  induction t generalizing p with
  | nil => simp at h2; omega
  | cons c t ih =>
    have hs := utf8Size_pos c
    rw [withIndices, fillBuffer, if_pos h1]
    rw [boundary_iff (by omega)] at h
    by_cases hc : c.utf8Size ≤ n - blen p
    · have hw := writeAt_fits (bytesOf p) (String.utf8EncodeChar c) (n - blen p) (by rw [utf8Encode_length]; omega)
      rw [bytesOf_length] at hw
      rw [hw, Res.ok_bind, utf8Encode_length]
      have e1 : blen (p ++ [c]) = blen p + c.utf8Size := by simp
      have e2 : bytesOf (p ++ [c]) = bytesOf p ++ String.utf8EncodeChar c := by
        rw [bytesOf_append, bytesOf_cons, bytesOf_nil, List.append_nil]
      have hb : ¬ Boundary t (n - blen p - c.utf8Size) := fun hb => h ⟨hc, hb⟩
      have hlt : blen p + c.utf8Size < n := by
        rcases Nat.lt_or_ge (blen p + c.utf8Size) n with h | h
        · exact h
        · exact absurd ⟨[], t, rfl, by simp; omega⟩ hb
      have := ih (p ++ [c]) (by rw [e1]; exact hlt) (by rw [e1]; simp at h2; omega)
        (by rw [e1, show n - (blen p + c.utf8Size) = n - blen p - c.utf8Size by omega]; exact hb)
      rw [e1, e2] at this
      rw [show n - blen p - c.utf8Size = n - (blen p + c.utf8Size) by omega, this]
    · have hw := writeAt_short (bytesOf p) (String.utf8EncodeChar c) (n - blen p) (by rw [utf8Encode_length]; omega)
      rw [bytesOf_length] at hw
      rw [hw]
      rfl

theorem writeRing_length (n : Nat) (buf : List UInt8) (s : Nat) (bs : List UInt8) :
    (writeRing n buf s bs).length = buf.length := by
  induction bs generalizing buf s with
  | nil => rfl
  | cons b bs ih => rw [writeRing, ih]; simp

/-- Writing into the ring keeps the last bytes. -/
theorem writeRing_rotate (buf : List UInt8) (s : Nat) (bs : List UInt8) (hb : 0 < buf.length) :
    (writeRing buf.length buf s bs).rotate (s + bs.length) = (buf.rotate s ++ bs).drop bs.length := by
  induction bs generalizing buf s with
  | nil => simp [writeRing]
  | cons b bs ih =>
    have hr := rotate_step buf (s % buf.length) b (Nat.mod_lt _ hb)
    have e : (buf.set (s % buf.length) b).rotate (s + 1) = (buf.rotate s).tail ++ [b] := by
      rw [List.rotate_mod] at hr
      rw [← hr]
      have hl : (buf.set (s % buf.length) b).length = buf.length := by simp
      have := List.rotate_mod (buf.set (s % buf.length) b) (s + 1)
      rw [hl] at this
      rw [← this, Nat.mod_add_mod]
    have := ih (buf.set (s % buf.length) b) (s + 1) (by simpa using hb)
    rw [List.length_set] at this
    rw [writeRing, List.length_cons, show s + (bs.length + 1) = s + 1 + bs.length by omega, this, e]
    have hne : buf.rotate s ≠ [] := by
      intro h
      have := congrArg List.length h
      simp at this
      subst this
      simp at hb
    obtain ⟨x, xs, hx⟩ := List.exists_cons_of_ne_nil hne
    rw [hx]
    simp

/-! ### The search loop -/

theorem occurs_iff_infix {needle text : Str} : Occurs needle text ↔ needle <:+: text := by
  constructor
  · rintro ⟨pre, post, rfl⟩; exact ⟨pre, post, rfl⟩
  · rintro ⟨pre, post, h⟩; exact ⟨pre, post, h.symm⟩

/-- An occurrence in `p ++ [c]` is one in `p` or it ends the text. -/
theorem occurs_snoc {needle p : Str} {c : Char} (h : Occurs needle (p ++ [c])) :
    Occurs needle p ∨ needle <:+ p ++ [c] := by
  obtain ⟨pre, post, h⟩ := h
  rcases List.eq_nil_or_concat post with rfl | ⟨post, d, rfl⟩
  · right
    rw [List.append_nil] at h
    exact ⟨pre, h.symm⟩
  · left
    rw [List.concat_eq_append, ← List.append_assoc] at h
    obtain ⟨h1, _⟩ := List.append_inj' h rfl
    exact ⟨pre, post, h1⟩

/-- When `needle` does not occur in `p` and ends `p ++ [c]`, this is the first occurrence in every continuation. -/
theorem first_of_snoc {needle p rest : Str} {c : Char} (hp : ¬ Occurs needle p)
    (h : needle <:+ p ++ [c]) : FirstAtByte needle (p ++ c :: rest) (blen (p ++ [c]) - blen needle) := by
  obtain ⟨pre, hpre⟩ := h
  constructor
  · refine ⟨pre, rest, ?_, ?_⟩
    · rw [hpre]; simp
    · rw [← hpre]; simp
  · intro pre' post' h'
    have hlen : pre.length ≤ pre'.length := by
      by_contra hlt
      apply hp
      have e : pre' ++ needle ++ post' = p ++ (c :: rest) := h'.symm
      have hl := congrArg List.length hpre
      simp at hl
      obtain ⟨w, hw⟩ : pre' ++ needle <+: p := by
        refine List.prefix_of_prefix_length_le (l₃ := p ++ c :: rest) ⟨post', e⟩ ⟨_, rfl⟩ ?_
        simp; omega
      exact ⟨pre', w, hw.symm⟩
    have e : p ++ c :: rest = pre ++ (needle ++ rest) := by
      have : p ++ [c] ++ rest = pre ++ needle ++ rest := by rw [hpre]
      simpa using this
    have h2 : pre <+: pre' := by
      refine List.prefix_of_prefix_length_le (l₃ := p ++ c :: rest) ⟨_, e.symm⟩ ⟨needle ++ post', ?_⟩ hlen
      rw [h']; simp
    obtain ⟨z, rfl⟩ := h2
    rw [← hpre]
    simp

theorem searchLoop_any {needle : Str} (hn : AsciiS needle) (h0 : needle ≠ []) (rest : Str) :
    ∀ (p : Str) (buf : List UInt8) (s : Nat), buf.length = needle.length →
      buf.rotate s = (bytesOf p).drop (blen p - needle.length) → needle.length ≤ blen p → ¬ Occurs needle p →
      ∃ r, searchLoop (bytesOf needle) false s buf (withIndices (blen p) rest) = .ok r ∧ RightAnswer needle (p ++ rest) r := by
  have hnl : (bytesOf needle).length = needle.length := by rw [bytesOf_length, blen_ascii hn]
  have hpos : 0 < needle.length := List.length_pos_iff.mpr h0
  induction rest with
  | nil =>
    intro p buf s hl hr hle hno
    exact ⟨none, rfl, by rw [List.append_nil]; exact hno⟩
  | cons c rest ih =>
    intro p buf s hl hr hle hno
    have hs := utf8Size_pos c
    have e1 : blen (p ++ [c]) = blen p + c.utf8Size := by simp
    have e2 : bytesOf (p ++ [c]) = bytesOf p ++ String.utf8EncodeChar c := by
      rw [bytesOf_append, bytesOf_cons, bytesOf_nil, List.append_nil]
    have hl2 : (writeRing needle.length buf s (String.utf8EncodeChar c)).length = needle.length := by
      rw [writeRing_length, hl]
    -- the ring holds the last bytes
    have hring : (writeRing needle.length buf s (String.utf8EncodeChar c)).rotate
        ((s + (String.utf8EncodeChar c).length) % needle.length) =
        (bytesOf (p ++ [c])).drop (blen (p ++ [c]) - needle.length) := by
      have := writeRing_rotate buf s (String.utf8EncodeChar c) (by omega)
      rw [hl] at this
      have hm := List.rotate_mod (writeRing needle.length buf s (String.utf8EncodeChar c))
        (s + (String.utf8EncodeChar c).length)
      rw [hl2] at hm
      rw [hm, this, hr, e2, e1, utf8Encode_length]
      have hbl := bytesOf_length p
      have : (bytesOf p).drop (blen p - needle.length) ++ String.utf8EncodeChar c =
          (bytesOf p ++ String.utf8EncodeChar c).drop (blen p - needle.length) := by
        rw [List.drop_append_of_le_length (by omega)]
      rw [this, List.drop_drop]
      congr 1
      omega
    have hmatch : ringMatches needle.length (writeRing needle.length buf s (String.utf8EncodeChar c))
        ((s + (String.utf8EncodeChar c).length) % needle.length) (bytesOf needle) = true ↔ needle <:+ p ++ [c] := by
      have := ringMatches_rotate (writeRing needle.length buf s (String.utf8EncodeChar c)) (bytesOf needle)
        ((s + (String.utf8EncodeChar c).length) % needle.length) (by omega) (by omega)
      rw [hnl] at this
      rw [this, hring]
      constructor
      · intro h
        exact suffix_of_bytes hn ⟨_, by rw [← h]; exact List.take_append_drop _ _⟩
      · intro h
        obtain ⟨q, hq⟩ := suffix_bytes h
        have hql := congrArg List.length hq
        rw [List.length_append, hnl, bytesOf_length] at hql
        rw [← hq, show blen (p ++ [c]) - needle.length = q.length by omega, List.drop_left' rfl]
    rw [withIndices]
    unfold searchLoop
    simp only [hnl]
    by_cases hc : needle <:+ p ++ [c]
    · rw [if_pos (hmatch.mpr hc), usub_of_le hle]
      refine ⟨_, rfl, ?_⟩
      have hf := first_of_snoc (rest := rest) hno hc
      -- the last character is one byte
      have hc1 : c.utf8Size = 1 := by
        obtain ⟨q, hq⟩ := hc
        have : c ∈ needle := by
          rcases List.eq_nil_or_concat needle with h | ⟨v, d, h⟩
          · exact absurd h h0
          · rw [h, List.concat_eq_append, ← List.append_assoc] at hq
            obtain ⟨_, h2⟩ := List.append_inj' hq rfl
            have : d = c := by simpa using h2
            subst this
            simp [h]
        have h1 := utf8Encode_length c
        rw [utf8Encode_ascii (hn c this)] at h1
        simpa using h1.symm
      have e : blen (p ++ [c]) - blen needle = blen p - needle.length + 1 := by
        rw [e1, blen_ascii hn]; omega
      rw [e] at hf
      exact hf
    · rw [if_neg (fun h => hc (hmatch.mp h))]
      have := ih (p ++ [c]) _ _ hl2 hring (by omega)
        (fun h => (occurs_snoc h).elim hno hc)
      rw [e1] at this
      simpa using this

theorem findSubstring_short {s : Span} {t needle : Str} (h : s.Shows t) (hl : blen t < blen needle) :
    s.findSubstring needle = .ok none := by
  unfold findSubstring
  simp only [bytesOf_length, h.2]
  simp only [gt_iff_lt, if_pos hl]

theorem findSubstring_stuck {s : Span} {t needle : Str} (h : s.Shows t) (hl : blen needle ≤ blen t)
    (hb : ¬ Boundary t (blen needle)) : s.findSubstring needle = .panic .index := by
  unfold findSubstring
  simp only [bytesOf_length, h.2, h.1]
  simp only [gt_iff_lt, if_neg (show ¬ blen t < blen needle by omega)]
  have h0 : 0 < blen needle := by
    rcases Nat.eq_zero_or_pos (blen needle) with h | h
    · exact absurd ⟨[], t, rfl, by simp [h]⟩ hb
    · exact h
  have := fillBuffer_stuck (blen needle) [] t (by simpa using h0) (by simpa using hl) (by simpa using hb)
  simp only [blen_nil, bytesOf_nil, List.nil_append, Nat.sub_zero] at this
  rw [this]
  rfl

theorem findSubstring_any {s : Span} {t needle : Str} (h : s.Shows t) (hn : AsciiS needle) (h0 : needle ≠ [])
    (hb : Boundary t (blen needle)) : ∃ r, s.findSubstring needle = .ok r ∧ RightAnswer needle t r := by
  obtain ⟨q, rest, rfl, hq⟩ := hb
  unfold findSubstring
  simp only [bytesOf_length, h.2, h.1]
  simp only [gt_iff_lt, if_neg (show ¬ blen (q ++ rest) < blen needle by rw [blen_append]; omega)]
  have := fillBuffer_any (blen needle) [] q rest (by simpa using hq)
  simp only [blen_nil, bytesOf_nil, List.nil_append, Nat.sub_zero] at this
  rw [this, Res.ok_bind]
  by_cases he : bytesOf q = bytesOf needle
  · simp only [he, if_true]
    refine ⟨some 0, rfl, ?_, fun _ _ _ => Nat.zero_le _⟩
    have hsuf : needle <:+ q := suffix_of_bytes hn (by rw [he])
    obtain ⟨w, rfl⟩ := hsuf
    have : blen w = 0 := by simp at hq; exact hq
    exact ⟨w, rest, rfl, this⟩
  · simp only [if_neg he]
    have hlen := blen_ascii hn
    have hno : ¬ Occurs needle q := by
      rintro ⟨pre, post, rfl⟩
      have : blen pre = 0 ∧ blen post = 0 := by simp at hq; omega
      have h1 : pre = [] := by
        by_contra hc
        have := blen_pos.mpr hc; omega
      have h2 : post = [] := by
        by_contra hc
        have := blen_pos.mpr hc; omega
      subst h1 h2
      simp at he
    have := searchLoop_any hn h0 rest q (bytesOf q) 0 (by rw [bytesOf_length]; omega)
      (by rw [hq, hlen]; simp) (by omega) hno
    rw [hq] at this
    exact this

/-! ### Spans of one text -/

theorem limitBytes_text (q : Str) (crash : Bool) : limitBytes (blen q) q crash = ⟨q, false⟩ := by
  induction q with
  | nil => simp [limitBytes]
  | cons c q ih =>
    have hp := utf8Size_pos c
    obtain ⟨k, hk⟩ : ∃ k, blen (c :: q) = k + 1 := ⟨blen (c :: q) - 1, by simp; omega⟩
    have hk' : c.utf8Size + blen q = k + 1 := by simpa using hk
    rw [hk, limitBytes, if_pos (by omega), show k + 1 - c.utf8Size = blen q by omega, ih]

/-- The part of a text block after its first characters. -/
def tailSpan (loc : Location) (a u : Str) : Span :=
  ⟨⟨[], [CRef.ofNode (.constant ⟨loc, a ++ u⟩)]⟩, 0, a.length, blen u⟩

theorem tailSpan_shows (loc : Location) (a u : Str) : (tailSpan loc a u).Shows u := by
  refine ⟨?_, rfl⟩
  have hit : CStream.take ⟨a ++ u, false⟩ (blen (a ++ u)) = ⟨a ++ u, false⟩ := by
    unfold CStream.take
    split
    · rename_i h
      have := blen_ge (a ++ u)
      rw [show List.take (blen (a ++ u)) (⟨a ++ u, false⟩ : CStream).items = a ++ u from List.take_of_length_le this]
    · rfl
  have hc : CRef.chars (CRef.ofNode (.constant ⟨loc, a ++ u⟩)) = ⟨a ++ u, false⟩ := by
    show refChars 0 (blen (a ++ u)) ⟨a ++ u, false⟩ = _
    unfold refChars
    rw [show (CStream.skip ⟨a ++ u, false⟩ 0) = ⟨a ++ u, false⟩ from rfl, hit]
  show limitBytes (blen u) ((CRef.chars (CRef.ofNode (.constant ⟨loc, a ++ u⟩))).skip a.length |>.append
    (CRef.charsList [])).items _ = _
  rw [hc]
  show limitBytes (blen u) ((a ++ u).drop a.length ++ []) _ = _
  rw [List.drop_left' rfl, List.append_nil]
  exact limitBytes_text u _

theorem tailSpan_sliceFrom (loc : Location) (a v u : Str) (ha : AsciiS a) (hv : AsciiS v) (hu : u ≠ []) :
    (tailSpan loc a (v ++ u)).sliceFrom v.length = .ok (tailSpan loc (a ++ v) u) := by
  have hp : 0 < blen u := blen_pos.mpr hu
  have h1 := blen_ascii ha
  have h2 := blen_ascii hv
  unfold sliceFrom
  have hl : (tailSpan loc a (v ++ u)).length = v.length + blen u := by
    show blen (v ++ u) = _
    rw [blen_append, h2]
  rw [hl, usub_of_le (Nat.le_add_right _ _), Res.ok_bind]
  unfold revalidate
  rw [if_neg (show ¬ v.length + blen u - v.length = 0 by omega)]
  show (revalLoop [CRef.ofNode (.constant ⟨loc, a ++ (v ++ u)⟩)] 0 (a.length + v.length) >>= _) = _
  unfold revalLoop
  rw [if_neg (show ¬ (CRef.ofNode (.constant ⟨loc, a ++ (v ++ u)⟩)).length ≤ a.length + v.length from
    show ¬ blen (a ++ (v ++ u)) ≤ _ by rw [blen_append, blen_append]; omega)]
  rw [Res.ok_bind]
  unfold tailSpan
  rw [show v.length + blen u - v.length = blen u by omega, List.append_assoc, List.length_append]
  rfl

theorem find_withIndices {f : Char → Bool} (v : Str) (c : Char) (u : Str) (hv : ∀ d ∈ v, f d = false) (hc : f c = true) :
    ∀ k, (withIndices k (v ++ c :: u)).find? (fun ic => f ic.2) = some (k + blen v, c) := by
  induction v with
  | nil => intro k; simp [withIndices, hc]
  | cons d v ih =>
    intro k
    rw [List.cons_append, withIndices, List.find?_cons_of_neg (by simp [hv d])]
    rw [ih (fun e he => hv e (by simp [he])), blen_cons]
    simp; omega

theorem tailSpan_whitespace (loc : Location) (a v : Str) (c : Char) (u : Str) (ha : AsciiS a)
    (hv : ∀ d ∈ v, isBlank d = true) (hc : isBlank c = false) :
    ∃ pre, whitespace (tailSpan loc a (v ++ c :: u)) = .ok (.done (tailSpan loc (a ++ v) (c :: u)) pre) := by
  have hva : AsciiS v := by
    intro d hd
    have := hv d hd
    unfold isBlank at this
    simp only [Bool.or_eq_true, beq_iff_eq] at this
    rcases this with rfl | rfl <;> rfl
  have hs := tailSpan_shows loc a (v ++ c :: u)
  unfold whitespace Nom.takeTill splitAtPosition findChar findIn
  rw [hs.1]
  simp only [find_withIndices (f := fun c => !isBlank c) v c u (fun d hd => by simp [hv d hd]) (by simp [hc]) 0, Res.ok_bind,
    blen_ascii hva, Nat.zero_add, tailSpan_sliceFrom loc a v (c :: u) ha hva (by simp)]
  exact ⟨_, rfl⟩

/-- Looking for the end of a line that begins with a character of several bytes goes out of bounds. -/
theorem grabLine_stuck {i : Span} {c : Char} {u : Str} (h : i.Shows (c :: u)) (hc : isAscii c = false) :
    grabLine i = .panic .index := by
  have h2 : 2 ≤ c.utf8Size := by
    unfold isAscii at hc
    have hc : ¬ c.val < 128 := by simpa using hc
    have hc : ¬ c.val.toNat ≤ 127 := fun h => hc (show c.val.toNat < 128 by omega)
    rw [← utf8Encode_length]
    unfold String.utf8EncodeChar
    simp only [if_neg hc]
    split
    · simp
    · split <;> simp
  have : i.findSubstring ['#'] = .panic .index := by
    refine findSubstring_stuck h ?_ ?_
    · show 1 ≤ _
      simp; omega
    · show ¬ Boundary _ 1
      rw [boundary_iff (by omega)]
      rintro ⟨h, _⟩
      omega
  unfold grabLine Nom.takeUntil
  rw [this]
  rfl

end Hastur
