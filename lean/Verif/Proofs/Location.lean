import Mathlib.Data.List.Induction
import Verif.Spec.Location
/-
Lemmas about byte indices and locations.
-/
namespace Hastur

@[simp] theorem blen_nil : blen [] = 0 := rfl
@[simp] theorem blen_cons (c : Char) (s : Str) : blen (c :: s) = c.utf8Size + blen s := rfl

@[simp] theorem blen_append (a b : Str) : blen (a ++ b) = blen a + blen b := by
  induction a with
  | nil => simp
  | cons c a ih => simp [ih, Nat.add_assoc]

theorem utf8Size_pos (c : Char) : 0 < c.utf8Size := Char.utf8Size_pos c

theorem blen_pos {s : Str} : 0 < blen s ↔ s ≠ [] := by
  cases s with
  | nil => simp
  | cons c s => have := utf8Size_pos c; simp; omega

theorem btake_split (p q : Str) : btake (blen p) (p ++ q) = .ok p := by
  induction p with
  | nil => simp [btake]
  | cons c p ih =>
    have hp := utf8Size_pos c
    obtain ⟨k, hk⟩ : ∃ k, blen (c :: p) = k + 1 := ⟨blen (c :: p) - 1, by simp; omega⟩
    rw [hk, List.cons_append, btake]
    have hk' : c.utf8Size + blen p = k + 1 := by simpa using hk
    rw [if_pos (by omega), show k + 1 - c.utf8Size = blen p by omega, ih]
    rfl

theorem bdrop_split (p q : Str) : bdrop (blen p) (p ++ q) = .ok q := by
  induction p with
  | nil => simp [bdrop]
  | cons c p ih =>
    have hp := utf8Size_pos c
    obtain ⟨k, hk⟩ : ∃ k, blen (c :: p) = k + 1 := ⟨blen (c :: p) - 1, by simp; omega⟩
    rw [hk, List.cons_append, bdrop]
    have hk' : c.utf8Size + blen p = k + 1 := by simpa using hk
    rw [if_pos (by omega), show k + 1 - c.utf8Size = blen p by omega, ih]

theorem btake_ok {n : Nat} {s p : Str} (h : btake n s = .ok p) : ∃ q, s = p ++ q ∧ blen p = n := by
  induction s generalizing n p with
  | nil =>
    cases n with
    | zero => simp only [btake, Res.ok.injEq] at h; subst h; exact ⟨[], rfl, rfl⟩
    | succ n => simp [btake] at h
  | cons c s ih =>
    cases n with
    | zero => simp only [btake, Res.ok.injEq] at h; subst h; exact ⟨_, rfl, rfl⟩
    | succ n =>
      simp only [btake] at h
      split at h
      · obtain ⟨p', hp', rfl⟩ := Res.map_eq_ok.mp h
        obtain ⟨q, rfl, hq⟩ := ih hp'
        refine ⟨q, rfl, ?_⟩
        simp only [blen_cons, hq]; omega
      · cases h

theorem btake_cases (n : Nat) (s : Str) : (∃ p, btake n s = .ok p) ∨ btake n s = .panic .index := by
  induction s generalizing n with
  | nil => cases n <;> simp [btake]
  | cons c s ih =>
    cases n with
    | zero => simp [btake]
    | succ n =>
      simp only [btake]
      split
      · rcases ih (n + 1 - c.utf8Size) with ⟨p, h⟩ | h <;> simp [h]
      · simp

namespace Location

@[simp] theorem foldl_advance (l : Location) (text : Str) : text.foldl advance l = l.after text := by
  induction text using List.reverseRecOn with
  | nil => cases l <;> simp [after, lineAfter, columnAfter]
  | append_singleton t c ih =>
    rw [List.foldl_append, ih]
    simp only [List.foldl_cons, List.foldl_nil, advance]
    by_cases hc : c = '\n'
    · subst hc
      cases l <;>
        simp [after, advanceLine, lineAfter, columnAfter, Nat.add_assoc]
    · rw [if_neg hc]
      cases l with
      | synthetic => rfl
      | _ =>
        simp only [after, advanceCharacter, lineAfter, columnAfter, List.count_append, List.mem_append,
          List.reverse_append, List.reverse_cons, List.reverse_nil, List.nil_append, List.cons_append,
          List.takeWhile_cons, List.length_append, List.length_cons, List.length_nil, List.mem_singleton]
        have h0 : List.count '\n' [c] = 0 := by simp [hc]
        have h1 : decide (c ≠ '\n') = true := by simpa using hc
        rw [h0, h1]
        by_cases hm : '\n' ∈ t
        · simp [hm, Nat.add_assoc]
        · simp [hm, Ne.symm hc, Nat.add_assoc]

theorem after_append (l : Location) (a b : Str) : l.after (a ++ b) = (l.after a).after b := by
  rw [← foldl_advance, ← foldl_advance, ← foldl_advance, List.foldl_append]

@[simp] theorem after_nil (l : Location) : l.after [] = l := by rw [← foldl_advance]; rfl

end Location
end Hastur
