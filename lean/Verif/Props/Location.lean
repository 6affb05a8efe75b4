import Verif.Proofs.Location
/-
C08, C09: source locations and located text.
-/
namespace Hastur
namespace Location

theorem cmpNat_eq (a b : Nat) : cmpNat a b = .eq ↔ a = b := by unfold cmpNat; grind
theorem cmpNat_lt (a b : Nat) : cmpNat a b = .lt ↔ a < b := by unfold cmpNat; grind
theorem cmpNat_gt (a b : Nat) : cmpNat a b = .gt ↔ b < a := by unfold cmpNat; grind

/-- C08: "Equal" means equal; "Less" and "Greater" are converse; "Less" is irreflexive and transitive. -/
theorem C08_partial_order (a b c : Location) :
    (a.partialCmp b = some .eq ↔ a = b) ∧
    (a.partialCmp b = some .lt ↔ b.partialCmp a = some .gt) ∧
    a.partialCmp a ≠ some .lt ∧
    (a.partialCmp b = some .lt → b.partialCmp c = some .lt → a.partialCmp c = some .lt) := by
  refine ⟨?_, ?_, ?_, ?_⟩
  · cases a <;> cases b <;> simp only [partialCmp, ne_eq, ite_not] <;> grind [cmpNat_eq]
  · cases a <;> cases b <;> simp only [partialCmp, ne_eq, ite_not] <;> grind [cmpNat_lt, cmpNat_gt]
  · cases a <;> simp only [partialCmp, ne_eq, ite_not] <;> grind [cmpNat_lt]
  · cases a <;> cases b <;> cases c <;> simp only [partialCmp, ne_eq, ite_not] <;> grind [cmpNat_lt]

/-- C08: in one file (and in one evaluated block) the order is the total lexicographic order. -/
theorem C08_lexicographic (l1 c1 l2 c2 : Nat) (f : FileName) (node : Nat) :
    ((source l1 c1 f).partialCmp (source l2 c2 f) = some .lt ↔ posLt l1 c1 l2 c2) ∧
    ((source l1 c1 f).partialCmp (source l2 c2 f) = some .gt ↔ posLt l2 c2 l1 c1) ∧
    ((source l1 c1 f).partialCmp (source l2 c2 f) = some .eq ↔ l1 = l2 ∧ c1 = c2) ∧
    ((eval node l1 c1).partialCmp (eval node l2 c2) = some .lt ↔ posLt l1 c1 l2 c2) ∧
    ((eval node l1 c1).partialCmp (eval node l2 c2) = some .gt ↔ posLt l2 c2 l1 c1) := by
  unfold posLt
  simp only [partialCmp, ne_eq, ite_not]
  refine ⟨?_, ?_, ?_, ?_, ?_⟩ <;> grind [cmpNat_lt, cmpNat_gt, cmpNat_eq]

/-- C08: nothing else is comparable: not two files, not two evaluated blocks, not a synthetic location
with a position, not a file position with a position in evaluated text. -/
theorem C08_incomparable (l1 c1 l2 c2 : Nat) (f g : FileName) (m n : Nat) :
    (f ≠ g → (source l1 c1 f).partialCmp (source l2 c2 g) = none) ∧
    (m ≠ n → (eval m l1 c1).partialCmp (eval n l2 c2) = none) ∧
    (source l1 c1 f).partialCmp synthetic = none ∧ synthetic.partialCmp (source l1 c1 f) = none ∧
    (eval m l1 c1).partialCmp synthetic = none ∧ synthetic.partialCmp (eval m l1 c1) = none ∧
    (source l1 c1 f).partialCmp (eval m l2 c2) = none ∧ (eval m l2 c2).partialCmp (source l1 c1 f) = none := by
  refine ⟨fun h => by simp [partialCmp, h], fun h => by simp [partialCmp, h], rfl, rfl, rfl, rfl, rfl, rfl⟩

-- three comparable locations and an incomparable one
example : (source 1 9 ⟨0⟩).partialCmp (source 2 1 ⟨0⟩) = some .lt ∧
    (source 2 1 ⟨0⟩).partialCmp (source 2 3 ⟨0⟩) = some .lt ∧
    (source 1 9 ⟨0⟩).partialCmp (source 2 1 ⟨1⟩) = none := by decide

end Location

namespace LStr

/-- C09: slicing.  When the text is `skipped ++ (taken ++ left)` with the byte lengths asked for (and
the start is inside the text), the slice is `taken`, located after `skipped`. -/
theorem C09_slice_exact (loc : Location) (skipped taken left : Str) (h : taken ++ left ≠ []) :
    LStr.slice ⟨loc, skipped ++ (taken ++ left)⟩ (blen skipped) (blen taken) =
      .ok ⟨loc.after skipped, taken⟩ := by
  have hp := blen_pos.mpr h
  unfold LStr.slice rassert LStr.len
  simp only [blen_append] at hp ⊢
  rw [if_pos (by simpa using by omega), if_pos (by simp)]
  simp only [Res.ok_bind, btake_split, bdrop_split, Location.foldl_advance, Res.pure_eq]

/-- C09: in every other case slicing panics: it never returns anything else. -/
theorem C09_slice_panics_otherwise (s : LStr) (b n : Nat)
    (h : ¬ ∃ skipped taken left, s.contents = skipped ++ (taken ++ left) ∧ blen skipped = b ∧
      blen taken = n ∧ taken ++ left ≠ []) : ∃ p, s.slice b n = .panic p := by
  unfold LStr.slice rassert LStr.len
  split
  · rename_i hb
    simp only [Res.ok_bind]
    split
    · simp only [Res.ok_bind]
      rcases btake_cases b s.contents with ⟨p, hp⟩ | hp
      · obtain ⟨q, hq, hbl⟩ := btake_ok hp
        rw [hp, hq, ← hbl, bdrop_split]
        simp only [Res.ok_bind]
        rcases btake_cases n q with ⟨m, hm⟩ | hm
        · obtain ⟨r, hr, hnl⟩ := btake_ok hm
          exfalso
          refine h ⟨p, m, r, by rw [hq, hr], hbl, hnl, ?_⟩
          rw [← hr]
          apply blen_pos.mp
          have : b < blen s.contents := by simpa using hb
          rw [hq, blen_append] at this
          omega
        · exact ⟨_, by rw [hm]; rfl⟩
      · exact ⟨_, by rw [hp]; rfl⟩
    · exact ⟨_, rfl⟩
  · exact ⟨_, rfl⟩

/-- C09: the panic condition in terms of bytes: slicing succeeds exactly when the start is inside the
text, the end is not past it, and both are character boundaries (byte lengths of prefixes). -/
theorem C09_slice_succeeds_iff (s : LStr) (b n : Nat) :
    (∃ t, s.slice b n = .ok t) ↔
      b < blen s.contents ∧ b + n ≤ blen s.contents ∧
      (∃ p, p <+: s.contents ∧ blen p = b) ∧ (∃ p, p <+: s.contents ∧ blen p = b + n) := by
  constructor
  · rintro ⟨t, ht⟩
    by_cases hx : ∃ skipped taken left, s.contents = skipped ++ (taken ++ left) ∧ blen skipped = b ∧
      blen taken = n ∧ taken ++ left ≠ []
    · obtain ⟨p, m, q, hs, hb, hn, hne⟩ := hx
      have := blen_pos.mpr hne
      rw [blen_append] at this
      refine ⟨?_, ?_, ⟨p, ⟨_, hs.symm⟩, hb⟩, ⟨p ++ m, ⟨q, by simp [hs]⟩, by simp [hb, hn]⟩⟩ <;>
        rw [hs] <;> simp only [blen_append] <;> omega
    · obtain ⟨p, hp⟩ := C09_slice_panics_otherwise s b n hx
      rw [hp] at ht; cases ht
  · rintro ⟨h1, h2, ⟨p, ⟨q, hq⟩, hp⟩, ⟨p', ⟨q', hq'⟩, hp'⟩⟩
    have hpre : p <+: p' := by
      apply List.prefix_of_prefix_length_le ⟨q, hq⟩ ⟨q', hq'⟩
      rcases Nat.le_total p.length p'.length with h | h
      · exact h
      · obtain ⟨r, hr⟩ := List.prefix_of_prefix_length_le ⟨q', hq'⟩ ⟨q, hq⟩ h
        have : blen r = 0 := by
          have := congrArg blen hr; rw [blen_append] at this; omega
        cases r with
        | nil => simp at hr; exact Nat.le_of_eq (congrArg List.length hr.symm)
        | cons c r => have := utf8Size_pos c; simp at *; omega
    obtain ⟨m, rfl⟩ := hpre
    have hm : blen m = n := by rw [blen_append] at hp'; omega
    have hs : s.contents = p ++ (m ++ q') := by rw [← hq']; simp
    refine ⟨⟨s.loc.after p, m⟩, ?_⟩
    have := C09_slice_exact s.loc p m q' (by
      apply blen_pos.mp; rw [hs, blen_append] at h1; omega)
    rw [← hs, hp, hm] at this
    exact this

-- "é" has two bytes: slicing "aé\nb" at byte 4 is at the second line, inside "é" it panics
example : LStr.slice ⟨.source 3 5 ⟨0⟩, ['a', 'é', '\n', 'b']⟩ 4 1 = .ok ⟨.source 4 1 ⟨0⟩, ['b']⟩ ∧
    LStr.slice ⟨.source 3 5 ⟨0⟩, ['a', 'é', '\n', 'b']⟩ 1 2 = .ok ⟨.source 3 6 ⟨0⟩, ['é']⟩ ∧
    LStr.slice ⟨.source 3 5 ⟨0⟩, ['a', 'é', '\n', 'b']⟩ 2 1 = .panic .index ∧
    LStr.slice ⟨.source 3 5 ⟨0⟩, ['a', 'é', '\n', 'b']⟩ 5 0 = .panic .assertion := by decide

end LStr
end Hastur
