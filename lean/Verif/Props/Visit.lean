import Verif.Proofs.Visit
/-
C52: walkers over syntax trees.
-/
namespace Hastur

variable {σ : Type}

/-- Every tree can be walked in just one way. -/
theorem C52_walk (a : Ast) : ∃ ps, Ast.Walk a ps ∧ ∀ qs, Ast.Walk a qs → qs = ps :=
  ⟨a.paths, a.walk_paths, fun _ h => h.unique a.walk_paths⟩

/-- C52: a visitor that does something in its methods and otherwise behaves like the default visitor visits every node
exactly once, in the order of a walk.  For each node its method `visit_ast` and the method for the kind of node are
called. -/
theorem C52_visits_all (f : Call → σ → σ) (a : Ast) (s : σ) {ps : List (List Nat)} (h : Ast.Walk a ps) :
    (Visitor.doing f).visitAst a s = (ps.filterMap a.at?).foldl (fun s n => f (.of n) (f (.ast n) s)) s := by
  rw [h.nodes]
  exact Visitor.visit_doing f a s

/-- C52: the record of all calls. -/
theorem C52_calls (a : Ast) {ps : List (List Nat)} (h : Ast.Walk a ps) :
    (Visitor.doing fun c cs => cs ++ [c]).visitAst a [] = (ps.filterMap a.at?).flatMap fun n => [.ast n, .of n] := by
  rw [C52_visits_all _ _ _ h, List.flatMap_eq_foldl]
  congr 1
  funext s n
  simp

/-- C52: a mutating visitor that overrides the method for constants changes the constants only: every other node stays as
it is and where it is. -/
theorem C52_only_constants (f : LStr → σ → LStr × σ) (a : Ast) (s : σ) (p : List Nat) :
    Ast.LikeAt (a.at? p) (((MutVisitor.onConstants f).visitAst a s).1.at? p) :=
  MutVisitor.onConstants_nodes f a s p

/-- C52: it changes all the constants, each of them once, in the order of the walk. -/
theorem C52_all_constants (f : LStr → σ → LStr × σ) (a : Ast) (s : σ) {ps : List (List Nat)} (h : Ast.Walk a ps) :
    ∃ a' s', (MutVisitor.onConstants f).visitAst a s = (a', s') ∧ Ast.Walk a' ps ∧
      Threads f s ((ps.filterMap a.at?).filterMap Ast.constant?) ((ps.filterMap a'.at?).filterMap Ast.constant?) s' := by
  have hw : Ast.Walk ((MutVisitor.onConstants f).visitAst a s).1 ps := by
    refine ⟨fun p => ?_, h.order⟩
    have := C52_only_constants f a s p
    rw [h.all]
    revert this
    cases a.at? p <;> cases ((MutVisitor.onConstants f).visitAst a s).1.at? p <;> simp [Ast.LikeAt]
  refine ⟨_, _, rfl, hw, ?_⟩
  rw [h.nodes, hw.nodes]
  exact MutVisitor.onConstants_threads f a s _ _ rfl

/-- C52 for a change that depends on the constant only: the new tree is the old one with the constants changed, and it is
the only such tree. -/
theorem C52_change (f : LStr → LStr) (a : Ast) (s : σ) (b : Ast) :
    ((MutVisitor.onConstants fun c s => (f c, s)).visitAst a s).1 = b ↔
      ∀ p, (b.at? p).map (fun n => (n.location, n.label)) = (a.at? p).map fun n => (n.location, n.label.change f) := by
  constructor
  · rintro rfl p
    exact MutVisitor.onConstants_pure f a s p
  · intro h
    exact Ast.ext_at fun p => by rw [h p, MutVisitor.onConstants_pure f a s p]

/-- `a$(b$(word c,d))e`, as a tree. -/
private def sample (l : Location) : Ast :=
  .concat l [.constant l ⟨l, ['a']⟩, .varRef l (.concat l [.constant l ⟨l, ['b']⟩,
    .word l (.constant l ⟨l, ['c']⟩) (.constant l ⟨l, ['d']⟩)]), .constant l ⟨l, ['e']⟩]

example (l : Location) : Ast.Walk (sample l)
    [[], [0], [1], [1, 0], [1, 0, 0], [1, 0, 1], [1, 0, 1, 0], [1, 0, 1, 1], [2]] := (sample l).walk_paths

/-- The visitor that collects the text of the constants. -/
example (l : Location) : (Visitor.doing fun c s => match c with
    | .constant x => s ++ x.contents
    | _ => s).visitAst (sample l) [] = "abcde".toList := by
  rw [C52_visits_all _ _ _ (sample l).walk_paths]
  rfl

/-- The mutating visitor that numbers the constants. -/
example (l : Location) : Threads (fun c n => (⟨c.loc, c.contents ++ [Char.ofNat (48 + n)]⟩, n + 1)) 0
    [⟨l, ['a']⟩, ⟨l, ['b']⟩] [⟨l, ['a', '0']⟩, ⟨l, ['b', '1']⟩] 2 := .cons rfl (.cons rfl .nil)

end Hastur
