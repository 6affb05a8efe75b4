import Verif.Model.Basic
/-
The vocabulary that the specifications share with the model: letters, whitespace, lower case, trimming and lengths in
bytes are the standard ones.
-/
namespace Hastur

/-- C65: the letters of drive specifications. -/
theorem C65_letters (c : Char) : isAlphabetic c = true ↔ ('A' ≤ c ∧ c ≤ 'Z') ∨ ('a' ≤ c ∧ c ≤ 'z') := by
  have h (d e : Char) : d ≤ e ↔ d.toNat ≤ e.toNat := UInt32.le_iff_toNat_le
  simp only [isAlphabetic, h, Bool.or_eq_true, Bool.and_eq_true, decide_eq_true_eq]
  exact Iff.rfl

/-- C65: the whitespace in front of a drive specification, in ASCII text. -/
theorem C65_whitespace (c : Char) (hc : c.toNat < 128) :
    isWhitespace c = true ↔ c ∈ [' ', '\t', '\n', Char.ofNat 11, Char.ofNat 12, '\r'] := by
  have h (d : Char) : c = d ↔ c.toNat = d.toNat := ⟨fun e => by rw [e], fun e => Char.ext (UInt32.toNat_inj.mp e)⟩
  simp only [isWhitespace, List.mem_cons, List.not_mem_nil, or_false, h, Bool.or_eq_true, Bool.and_eq_true,
    decide_eq_true_eq, beq_iff_eq]
  show _ ↔ c.toNat = 32 ∨ c.toNat = 9 ∨ c.toNat = 10 ∨ c.toNat = 11 ∨ c.toNat = 12 ∨ c.toNat = 13
  omega

/-- C41: the keywords of conditionals are compared in lower case: `A` to `Z` are replaced by the letters that stand 32
places behind them, other characters stay. -/
theorem C41_keyword_case (c : Char) :
    (('A' ≤ c ∧ c ≤ 'Z') → (lower c).toNat = c.toNat + 32) ∧ (¬ ('A' ≤ c ∧ c ≤ 'Z') → lower c = c) := by
  have h (d e : Char) : d ≤ e ↔ d.toNat ≤ e.toNat := UInt32.le_iff_toNat_le
  simp only [h]
  show ((65 ≤ c.toNat ∧ c.toNat ≤ 90) → _) ∧ (¬ (65 ≤ c.toNat ∧ c.toNat ≤ 90) → _)
  constructor
  · intro hc
    rw [lower, if_pos (by simpa using hc)]
    have hv : (c.toNat + 32).isValidChar := .inl (by omega)
    generalize c.toNat + 32 = n at hv
    rw [Char.ofNat, dif_pos hv]
    simp [Char.toNat, Char.ofNatAux]
  · intro hc
    rw [lower, if_neg (by simpa using hc)]

private theorem dropWhile_split (p : Char → Bool) (s : Str) : ∃ a, s = a ++ s.dropWhile p ∧ (∀ c ∈ a, p c = true) ∧
    ∀ c, (s.dropWhile p).head? = some c → p c = false := by
  induction s with
  | nil => exact ⟨[], rfl, by simp, by simp⟩
  | cons x s ih =>
    by_cases hx : p x = true
    · obtain ⟨a, h1, h2, h3⟩ := ih
      refine ⟨x :: a, ?_, ?_, ?_⟩
      · rw [List.dropWhile_cons_of_pos hx, List.cons_append, ← h1]
      · intro c hc
        rcases List.mem_cons.mp hc with rfl | hc
        · exact hx
        · exact h2 c hc
      · rw [List.dropWhile_cons_of_pos hx]; exact h3
    · rw [List.dropWhile_cons_of_neg hx]
      exact ⟨[], rfl, by simp, fun c hc => by simp at hc; subst hc; simpa using hx⟩

/-- C41: the sides of a conditional are compared without the whitespace at their ends, and with nothing else removed. -/
theorem C41_trimmed (s : Str) : ∃ a b, s = a ++ (trim s ++ b) ∧ (∀ c ∈ a, isWhitespace c = true) ∧
    (∀ c ∈ b, isWhitespace c = true) ∧ (∀ c, (trim s).head? = some c → isWhitespace c = false) ∧
    ∀ c, (trim s).getLast? = some c → isWhitespace c = false := by
  obtain ⟨a, h1, h2, h3⟩ := dropWhile_split isWhitespace s
  obtain ⟨b, g1, g2, g3⟩ := dropWhile_split isWhitespace (s.dropWhile isWhitespace).reverse
  have g1' := congrArg List.reverse g1
  rw [List.reverse_reverse, List.reverse_append] at g1'
  refine ⟨a, b.reverse, ?_, h2, fun c hc => g2 c (List.mem_reverse.mp hc), ?_, ?_⟩
  · rw [trim, ← g1', ← h1]
  · intro c hc
    apply h3
    rw [g1']
    show (trim s ++ b.reverse).head? = some c
    rw [List.head?_append, hc]
    rfl
  · intro c hc
    apply g3
    rw [trim, List.getLast?_reverse] at hc
    exact hc

/-- C13: the length of a text in bytes is the length of its UTF-8 encoding. -/
theorem C13_byte_length (s : Str) : blen s = (String.ofList s).utf8ByteSize := by
  induction s with
  | nil => rfl
  | cons c s ih =>
    rw [blen, ih, String.ofList_cons, String.utf8ByteSize_append, String.utf8ByteSize_singleton]

example : trim " a b\t".toList = "a b".toList ∧ lower 'Q' = 'q' ∧ isAlphabetic 'Q' = true := by decide

end Hastur
