import Verif.Model.Basic
/-
Specification of substring search.
-/
namespace Hastur

/-- `k` is the position of the first occurrence of `needle` in `text`. -/
def FirstAt (needle text : Str) (k : Nat) : Prop :=
  (∃ pre post, text = pre ++ needle ++ post ∧ pre.length = k) ∧
  ∀ pre post, text = pre ++ needle ++ post → k ≤ pre.length

/-- `needle` occurs in `text`. -/
def Occurs (needle text : Str) : Prop := ∃ pre post, text = pre ++ needle ++ post

/-- `k` is the byte index of the first occurrence of `needle` in `text`. -/
def FirstAtByte (needle text : Str) (k : Nat) : Prop :=
  (∃ pre post, text = pre ++ needle ++ post ∧ blen pre = k) ∧
  ∀ pre post, text = pre ++ needle ++ post → k ≤ blen pre

/-- `n` bytes of `text` are a whole number of characters: the number of bytes of some beginning of the text. -/
def Boundary (text : Str) (n : Nat) : Prop := ∃ pre post, text = pre ++ post ∧ blen pre = n

end Hastur
