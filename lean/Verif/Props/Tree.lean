import Verif.Proofs.Tree
/-
C73: the repository's own property test of the expression parser, for trees of any depth and size.

`Tree.print` and `Tree.ast` (Spec/Tree.lean) are the two results of the test's generator: the text of a tree and the
syntax tree, with locations, that the parser is expected to make of it.
-/
namespace Hastur

open Tree

/-- What the test asks: the text of every tree whose leaves are letters and digits is read back as the tree. -/
def C73_full : Prop :=
  ∀ (f : FileName) (t : Tree), t.Leaves Alphanum →
    ∃ r, parseAst (textBlock (.source 1 1 f) t.print).span = .ok (.done r (t.ast f 1))

/-- The test is wrong about variable names that begin with the name of a function: `$(evaluate)` is read as a call of
`eval` with the argument `uate`. -/
theorem C73_refuted : ¬ C73_full := by
  intro h
  obtain ⟨r, hr⟩ := h ⟨0⟩ (.ref (.text "evaluate".toList)) ⟨by decide, by decide⟩
  have hc : (match parseAst (textBlock (.source 1 1 ⟨0⟩) (Tree.ref (.text "evaluate".toList)).print).span with
      | .ok (.done _ (.eval _ _)) => true
      | _ => false) = true := by decide +kernel
  rw [hr] at hc
  exact Bool.noConfusion hc

/-- The text of every tree is read back as the tree, with the location of every node, and nothing is left over,
provided that no variable name that is plain text begins with the name of a function.  The leaves can have any ASCII
character that has no meaning of its own. -/
theorem C73_roundtrip_partial (f : FileName) (t : Tree) (h : t.Leaves Word) (hn : t.Names NotFunction) :
    ∃ r, parseAst (textBlock (.source 1 1 f) t.print).span = .ok (.done r (t.ast f 1)) ∧ r.ltext = [] := by
  have hat := textBlock_at (loc := .source 1 1 f) (t := t.print) (fun c hc => ((print_chars h).1 c hc).1)
  obtain ⟨r, h1, h2⟩ := gives_print (textBlock_mono _ _) (Nat.le_refl 1) f h hn _ 1 (Nat.lt_succ_self _) _ hat
  refine ⟨r, ?_, h2.ltext⟩
  unfold parseAst
  rw [hat.length, locate_length]
  exact h1

/-- The leaves the test's generator picks qualify. -/
theorem C73_alphanum_partial (f : FileName) (t : Tree) (h : t.Leaves Alphanum) (hn : t.Names NotFunction) :
    ∃ r, parseAst (textBlock (.source 1 1 f) t.print).span = .ok (.done r (t.ast f 1)) ∧ r.ltext = [] :=
  C73_roundtrip_partial f t (h.imp fun _ => word_of_alphanum) hn

/-- The condition is exact: where a variable name that is plain text begins with the name of a function, anywhere in the
tree, the text is not read back as the tree. -/
theorem C73_exact (f : FileName) (t : Tree) (h : t.Leaves Word) :
    (∃ r, parseAst (textBlock (.source 1 1 f) t.print).span = .ok (.done r (t.ast f 1))) ↔ t.Names NotFunction := by
  constructor
  · rintro ⟨r, hr⟩
    have hat := textBlock_at (loc := .source 1 1 f) (t := t.print) (fun c hc => ((print_chars h).1 c hc).1)
    obtain ⟨o, ho⟩ := reads_exists (locate (.source 1 1 f) t.print)
    have hm := parseAst_at (textBlock_mono _ _) hat ho
    rw [hr] at hm
    cases o with
    | error k => exact nomatch hm.1
    | ok es =>
      obtain ⟨r', a, h1, -, h2, -⟩ := hm
      injection h1 with h1
      injection h1 with _ h1
      subst h1 h2
      exact names_of_reads f h 1 ho
  · intro hn
    obtain ⟨r, hr, -⟩ := C73_roundtrip_partial f t h hn
    exact ⟨r, hr⟩

/-- So the text determines the tree: nesting is never confused. -/
theorem C73_unambiguous_partial (t u : Tree) (h : t.Leaves Word) (hn : t.Names NotFunction) (h' : u.Leaves Word)
    (hn' : u.Names NotFunction) (he : t.print = u.print) : t = u := by
  obtain ⟨r, h1, -⟩ := C73_roundtrip_partial ⟨0⟩ t h hn
  obtain ⟨r', h2, -⟩ := C73_roundtrip_partial ⟨0⟩ u h' hn'
  rw [he, h2] at h1
  injection h1 with h1
  injection h1 with _ h1
  exact (ast_injective h1).symm

/-- `$(word $(strip two),$(words $($(eval 1))))`. -/
private def sample : Tree :=
  .word (.strip (.text "two".toList)) (.words (.ref (.ref (.eval (.text "1".toList)))))

example : sample.print = "$(word $(strip two),$(words $($($(eval 1)))))".toList := by decide

example : ∃ r, parseAst (textBlock (.source 1 1 ⟨0⟩) "$(word $(strip two),$(words $($($(eval 1)))))".toList).span =
    .ok (.done r (sample.ast ⟨0⟩ 1)) ∧ r.ltext = [] :=
  C73_alphanum_partial ⟨0⟩ sample ⟨⟨by decide, by decide⟩, ⟨by decide, by decide⟩⟩ ⟨trivial, trivial⟩

/-- The name of a reference deep inside begins with `word`. -/
example : ¬ ∃ r, parseAst (textBlock (.source 1 1 ⟨0⟩) "$(eval $(strip $(wordlist)))".toList).span =
    .ok (.done r ((Tree.eval (.strip (.ref (.text "wordlist".toList)))).ast ⟨0⟩ 1)) :=
  fun h => ((C73_exact ⟨0⟩ (.eval (.strip (.ref (.text "wordlist".toList)))) ⟨by decide, by decide⟩).mp h) .word
    (by decide)

/-- A variable name with a character that the test never picks. -/
example : ∃ r, parseAst (textBlock (.source 1 1 ⟨0⟩) "$(CFLAGS-eval)".toList).span =
    .ok (.done r (.varRef (.source 1 1 ⟨0⟩) (.constant (.source 1 3 ⟨0⟩) ⟨.source 1 3 ⟨0⟩, "CFLAGS-eval".toList⟩))) ∧
      r.ltext = [] :=
  C73_roundtrip_partial ⟨0⟩ (.ref (.text "CFLAGS-eval".toList)) ⟨by decide, by decide⟩
    (by intro f; cases f <;> decide)

end Hastur
