import Verif.Props.Blocks
/-
C11: references to a part of a node.
-/
namespace Hastur

open Res

/-- C11: a reference to a part of a node that begins inside its text and does not go beyond it stands for exactly that part
of the text, with its locations, and reads as it.  Every other part is refused; that includes the empty part at the very
end. -/
theorem C11_node_slice (n : Node) (h : Node.WF n) (a len : Nat) :
    (a < (Node.ltext n).length ∧ a + len ≤ (Node.ltext n).length →
      ∃ c, CRef.ofNodeSlice n a len = .ok c ∧ CRef.WF c ∧ CRef.ltext c = ((Node.ltext n).drop a).take len ∧
        (CRef.chars c).all = .ok (textOf (((Node.ltext n).drop a).take len))) ∧
    (¬ (a < (Node.ltext n).length ∧ a + len ≤ (Node.ltext n).length) →
      CRef.ofNodeSlice n a len = .panic .assertion) := by
  rw [Node.ltext_length n h]
  constructor
  · rintro ⟨h1, h2⟩
    have hw : CRef.WF (⟨a, len, n⟩ : CRef) := ⟨h2, h⟩
    refine ⟨⟨a, len, n⟩, ?_, hw, rfl, ?_⟩
    · simp [CRef.ofNodeSlice, rassert, h1, h2]
    · rw [CRef.chars_eq _ hw]
      rfl
  · intro hn
    by_cases h1 : a < n.len
    · have h2 : ¬ a + len ≤ n.len := fun h2 => hn ⟨h1, h2⟩
      simp [CRef.ofNodeSlice, rassert, h1, h2]
    · simp [CRef.ofNodeSlice, rassert, h1]

/-- Three characters of `abx⏎yz`, across the border of its pieces; and the empty part at its end. -/
example : (∃ c, CRef.ofNodeSlice Example.inner 1 3 = .ok c ∧ (CRef.chars c).all = .ok "bx\n".toList ∧
    (CRef.ltext c).map Prod.snd = [.source 3 2 ⟨7⟩, .source 9 5 ⟨7⟩, .source 9 6 ⟨7⟩]) ∧
    CRef.ofNodeSlice Example.inner 6 0 = .panic .assertion := by
  have hw : Node.WF Example.inner := Example.block_wf.1.2
  constructor
  · obtain ⟨c, h1, _, h3, h4⟩ := (C11_node_slice _ hw 1 3).1 (by decide)
    exact ⟨c, h1, by rw [h4]; decide, by rw [h3]; decide⟩
  · exact (C11_node_slice _ hw 6 0).2 (by decide)

end Hastur
