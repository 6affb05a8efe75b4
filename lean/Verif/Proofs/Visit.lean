import Verif.Spec.Visit
/-
Lemmas: walks over syntax trees.
-/
namespace Hastur

variable {σ : Type}

namespace Ast

mutual
theorem induct_kids {P : Ast → Prop} (h : ∀ a, (∀ b ∈ a.kids, P b) → P a) : ∀ a, P a
  | .empty l => h _ (by simp [kids])
  | .constant l s => h _ (by simp [kids])
  | .preEvaluated l b => h _ (by simp [kids])
  | .concat l cs => h _ (induct_list h cs)
  | .varRef l n => h _ (by intro b hb; cases List.mem_singleton.mp hb; exact induct_kids h n)
  | .eval l a => h _ (by intro b hb; cases List.mem_singleton.mp hb; exact induct_kids h a)
  | .strip l a => h _ (by intro b hb; cases List.mem_singleton.mp hb; exact induct_kids h a)
  | .word l i w => h _ (by
      have hi := induct_kids h i
      have hw := induct_kids h w
      intro b hb
      simp only [kids, List.mem_cons, List.not_mem_nil, or_false] at hb
      rcases hb with rfl | rfl
      · exact hi
      · exact hw)
  | .words l a => h _ (by intro b hb; cases List.mem_singleton.mp hb; exact induct_kids h a)
theorem induct_list {P : Ast → Prop} (h : ∀ a, (∀ b ∈ a.kids, P b) → P a) : ∀ (as : List Ast) (b : Ast), b ∈ as → P b
  | [], _, hb => by cases hb
  | a :: as, b, hb => by
    have h1 := induct_kids h a
    have h2 := induct_list h as b
    rcases List.mem_cons.mp hb with rfl | hb
    · exact h1
    · exact h2 hb
end

mutual
/-- The paths of all nodes. -/
def paths : Ast → List (List Nat)
  | .empty _ => [[]]
  | .constant _ _ => [[]]
  | .preEvaluated _ _ => [[]]
  | .concat _ cs => [] :: pathsFrom 0 cs
  | .varRef _ n => [] :: (paths n).map (0 :: ·)
  | .eval _ a => [] :: (paths a).map (0 :: ·)
  | .strip _ a => [] :: (paths a).map (0 :: ·)
  | .word _ i w => [] :: ((paths i).map (0 :: ·) ++ (paths w).map (1 :: ·))
  | .words _ a => [] :: (paths a).map (0 :: ·)
/-- The paths that begin at one of the children, from position `k` on. -/
def pathsFrom : Nat → List Ast → List (List Nat)
  | _, [] => []
  | k, a :: as => (paths a).map (k :: ·) ++ pathsFrom (k + 1) as
end

theorem paths_eq (a : Ast) : a.paths = [] :: pathsFrom 0 a.kids := by
  cases a <;> simp [paths, pathsFrom, kids]

theorem mem_pathsFrom {p : List Nat} : ∀ {as : List Ast} {k : Nat},
    p ∈ pathsFrom k as ↔ ∃ j q a, p = (k + j) :: q ∧ as[j]? = some a ∧ q ∈ a.paths := by
  intro as
  induction as with
  | nil => simp [pathsFrom]
  | cons a as ih =>
    intro k
    rw [pathsFrom, List.mem_append, List.mem_map, ih]
    constructor
    · rintro (⟨q, hq, rfl⟩ | ⟨j, q, b, rfl, hj, hq⟩)
      · exact ⟨0, q, a, rfl, rfl, hq⟩
      · exact ⟨j + 1, q, b, by rw [Nat.add_right_comm]; rfl, by simpa using hj, hq⟩
    · rintro ⟨j, q, b, rfl, hj, hq⟩
      cases j with
      | zero =>
        cases hj
        exact .inl ⟨q, hq, rfl⟩
      | succ j => exact .inr ⟨j, q, b, by rw [Nat.add_right_comm]; rfl, by simpa using hj, hq⟩

theorem mem_paths (a : Ast) : ∀ p, p ∈ a.paths ↔ (a.at? p).isSome = true := by
  induction a using induct_kids with
  | h a ih =>
  intro p
  rw [paths_eq, List.mem_cons, mem_pathsFrom]
  cases p with
  | nil => simp [at?]
  | cons k p =>
    rw [at?]
    constructor
    · rintro (h | ⟨j, q, b, e, hj, hq⟩)
      · cases h
      · rw [Nat.zero_add] at e
        obtain ⟨rfl, rfl⟩ := List.cons.inj e
        rw [hj]
        exact (ih b (List.mem_of_getElem? hj) p).mp hq
    · intro h
      cases hk : a.kids[k]? with
      | none => rw [hk] at h; cases h
      | some b =>
        rw [hk] at h
        exact .inr ⟨k, p, b, by rw [Nat.zero_add], hk, (ih b (List.mem_of_getElem? hk) p).mpr h⟩

theorem pathsFrom_order {as : List Ast} (h : ∀ a ∈ as, a.paths.Pairwise fun p q => p < q) : ∀ k,
    (pathsFrom k as).Pairwise fun p q => p < q := by
  induction as with
  | nil => intro k; exact List.Pairwise.nil
  | cons a as ih =>
    intro k
    rw [pathsFrom, List.pairwise_append]
    refine ⟨?_, ih (fun b hb => h b (List.mem_cons_of_mem _ hb)) _, ?_⟩
    · rw [List.pairwise_map]
      exact (h a (by simp)).imp fun h => List.Lex.cons h
    · intro p hp q hq
      obtain ⟨p', _, rfl⟩ := List.mem_map.mp hp
      obtain ⟨j, q', b, rfl, _, _⟩ := mem_pathsFrom.mp hq
      exact List.Lex.rel (by omega)

theorem paths_order (a : Ast) : a.paths.Pairwise fun p q => p < q := by
  induction a using induct_kids with
  | h a ih =>
  rw [paths_eq, List.pairwise_cons]
  refine ⟨fun q hq => ?_, pathsFrom_order ih 0⟩
  obtain ⟨j, q', b, rfl, _, _⟩ := mem_pathsFrom.mp hq
  exact List.Lex.nil

theorem walk_paths (a : Ast) : Walk a a.paths := ⟨a.mem_paths, a.paths_order⟩

/-- There is one walk only. -/
theorem Walk.unique {a : Ast} {ps qs : List (List Nat)} (h1 : Walk a ps) (h2 : Walk a qs) : ps = qs := by
  refine List.Perm.eq_of_pairwise (le := fun p q => p < q) ?_ h1.order h2.order ?_
  · intro p q _ _ h h'
    exact absurd h' (List.lt_asymm h)
  · have nd : ∀ {rs : List (List Nat)}, Walk a rs → rs.Nodup := fun h =>
      h.order.imp fun h e => by subst e; exact List.lt_irrefl _ h
    exact (List.perm_ext_iff_of_nodup (nd h1) (nd h2)).mpr fun p => by rw [h1.all, h2.all]

/-- All nodes. -/
def nodes (a : Ast) : List Ast := a.paths.filterMap a.at?

theorem Walk.nodes {a : Ast} {ps : List (List Nat)} (h : Walk a ps) : ps.filterMap a.at? = a.nodes := by
  rw [h.unique a.walk_paths]; rfl

theorem filterMap_pathsFrom (g : List Nat → Option Ast) : ∀ (as : List Ast) (k : Nat),
    (∀ j b, as[j]? = some b → ∀ q, g ((k + j) :: q) = b.at? q) → (pathsFrom k as).filterMap g = as.flatMap Ast.nodes := by
  intro as
  induction as with
  | nil => intro k _; rfl
  | cons a as ih =>
    intro k h
    rw [pathsFrom, List.filterMap_append, List.flatMap_cons, ih (k + 1) fun j b hj q => by
      rw [← h (j + 1) b (by simpa using hj) q, Nat.add_right_comm]; rfl]
    congr 1
    rw [List.filterMap_map]
    unfold Ast.nodes
    congr 1
    funext q
    exact h 0 a rfl q

theorem nodes_eq (a : Ast) : a.nodes = a :: a.kids.flatMap Ast.nodes := by
  rw [nodes, paths_eq, List.filterMap_cons]
  simp only [at?]
  rw [filterMap_pathsFrom]
  intro j b hj q
  rw [Nat.zero_add, at?, hj]
  rfl

end Ast

/-! ### Visitors -/

/-- What happens at one node. -/
def Visitor.step (f : Call → σ → σ) (s : σ) (n : Ast) : σ := f (.of n) (f (.ast n) s)

theorem Visitor.superAst_doing (f : Call → σ → σ) (a : Ast) (s : σ) :
    (Visitor.doing f).superAst a s = (Visitor.doing f).superConcat a.kids (f (.of a) s) := by
  cases a <;> simp [superAst, superConcat, Ast.kids, Visitor.doing, Visitor.default, Call.of]

theorem Visitor.visit_doing (f : Call → σ → σ) (a : Ast) : ∀ s, (Visitor.doing f).visitAst a s = a.nodes.foldl (step f) s := by
  induction a using Ast.induct_kids with
  | h a ih =>
  intro s
  have key : ∀ (as : List Ast), (∀ b ∈ as, b ∈ a.kids) → ∀ s, (Visitor.doing f).superConcat as s =
      (as.flatMap Ast.nodes).foldl (step f) s := by
    intro as
    induction as with
    | nil => intro _ s; rfl
    | cons b as ih' =>
      intro hb s
      rw [superConcat, ih' (fun c hc => hb c (List.mem_cons_of_mem _ hc)), List.flatMap_cons, List.foldl_append]
      congr 1
      exact ih b (hb b (by simp)) s
  rw [Ast.nodes_eq, List.foldl_cons, ← key _ (fun _ h => h)]
  exact superAst_doing f a _

theorem threads_append {f : LStr → σ → LStr × σ} {s s1 s2 : σ} {a a' b b' : List LStr} (h1 : Threads f s a a' s1)
    (h2 : Threads f s1 b b' s2) : Threads f s (a ++ b) (a' ++ b') s2 := by
  induction h1 with
  | nil => exact h2
  | cons h _ ih => exact .cons h (ih h2)

theorem MutVisitor.visitList_length (v : MutVisitor σ) : ∀ (as : List Ast) (s : σ), (v.visitList as s).1.length = as.length := by
  intro as
  induction as with
  | nil => intro s; rfl
  | cons b as ih => intro s; simp [visitList, ih]

/-- A visitor of constants, at one node and on the children. -/
theorem MutVisitor.visitAst_constant (f : LStr → σ → LStr × σ) (a : Ast) (s : σ) :
    (∃ l c, a = .constant l c ∧ (onConstants f).visitAst a s = (.constant l (f c s).1, (f c s).2)) ∨
    (a.constant? = none ∧ ∃ a' s', (onConstants f).visitAst a s = (a', s') ∧ a'.location = a.location ∧
      a'.label = a.label ∧ a'.constant? = none ∧ (onConstants f).visitList a.kids s = (a'.kids, s')) := by
  cases a with
  | constant l c => exact .inl ⟨l, c, rfl, rfl⟩
  | concat l cs =>
    refine .inr ⟨rfl, _, _, rfl, rfl, ?_, rfl, rfl⟩
    show Ast.Label.concat _ = Ast.Label.concat _
    rw [visitList_length]
  | _ => exact .inr ⟨rfl, _, _, rfl, rfl, rfl, rfl, rfl⟩

theorem MutVisitor.onConstants_threads (f : LStr → σ → LStr × σ) (a : Ast) : ∀ s a' s',
    (onConstants f).visitAst a s = (a', s') →
    Threads f s (a.nodes.filterMap Ast.constant?) (a'.nodes.filterMap Ast.constant?) s' := by
  induction a using Ast.induct_kids with
  | h a ih =>
  intro s a' s' h
  rcases visitAst_constant f a s with ⟨l, c, rfl, e⟩ | ⟨e1, a1, s1, e2, _, _, e5, e6⟩
  · rw [e] at h
    cases h
    exact .cons rfl .nil
  · rw [e2] at h
    cases h
    rw [Ast.nodes_eq, Ast.nodes_eq, List.filterMap_cons, List.filterMap_cons, e1, e5]
    have key : ∀ (as : List Ast), (∀ b ∈ as, b ∈ a.kids) → ∀ s as' s', (onConstants f).visitList as s = (as', s') →
        Threads f s ((as.flatMap Ast.nodes).filterMap Ast.constant?) ((as'.flatMap Ast.nodes).filterMap Ast.constant?) s' := by
      intro as
      induction as with
      | nil => intro _ s as' s' h; cases h; exact .nil
      | cons b as ih' =>
        intro hb s as' s' h
        rw [visitList] at h
        cases h
        rw [List.flatMap_cons, List.flatMap_cons, List.filterMap_append, List.filterMap_append]
        exact threads_append (ih b (hb b (by simp)) _ _ _ rfl) (ih' (fun c hc => hb c (List.mem_cons_of_mem _ hc)) _ _ _ rfl)
    exact key _ (fun _ h => h) _ _ _ e6

theorem MutVisitor.visitList_get (v : MutVisitor σ) : ∀ (as : List Ast) (s : σ) (k : Nat),
    (as[k]? = none ∧ (v.visitList as s).1[k]? = none) ∨
    ∃ b s1, as[k]? = some b ∧ (v.visitList as s).1[k]? = some (v.visitAst b s1).1 := by
  intro as
  induction as with
  | nil => intro s k; exact .inl ⟨rfl, rfl⟩
  | cons b as ih =>
    intro s k
    cases k with
    | zero => exact .inr ⟨b, s, rfl, rfl⟩
    | succ k => simpa [visitList] using ih (v.visitAst b s).2 k

theorem MutVisitor.onConstants_nodes (f : LStr → σ → LStr × σ) (a : Ast) : ∀ s p,
    Ast.LikeAt (a.at? p) (((onConstants f).visitAst a s).1.at? p) := by
  induction a using Ast.induct_kids with
  | h a ih =>
  intro s p
  rcases visitAst_constant f a s with ⟨l, c, rfl, e⟩ | ⟨_, a1, s1, e2, e3, e4, _, e6⟩
  · rw [e]
    cases p with
    | nil => exact ⟨rfl, .constant⟩
    | cons k p => simp [Ast.at?, Ast.kids, Ast.LikeAt]
  · rw [e2]
    cases p with
    | nil => exact ⟨e3, by rw [e4]; exact .same⟩
    | cons k p =>
      simp only [Ast.at?]
      have e7 : a1.kids = ((onConstants f).visitList a.kids s).1 := by rw [e6]
      rw [e7]
      rcases (onConstants f).visitList_get a.kids s k with ⟨h1, h2⟩ | ⟨b, s2, h1, h2⟩
      · rw [h1, h2]; trivial
      · rw [h1, h2]
        exact ih b (List.mem_of_getElem? h1) s2 p

theorem Ast.label_change {a : Ast} (h : a.constant? = none) (f : LStr → LStr) : a.label.change f = a.label := by
  cases a <;> first | rfl | cases h

theorem MutVisitor.onConstants_pure (f : LStr → LStr) (a : Ast) : ∀ (s : σ) p,
    (((onConstants fun c s => (f c, s)).visitAst a s).1.at? p).map (fun n => (n.location, n.label)) =
      (a.at? p).map fun n => (n.location, n.label.change f) := by
  induction a using Ast.induct_kids with
  | h a ih =>
  intro s p
  rcases visitAst_constant (fun c s => (f c, s)) a s with ⟨l, c, rfl, e⟩ | ⟨e0, a1, s1, e2, e3, e4, _, e6⟩
  · rw [e]
    cases p with
    | nil => rfl
    | cons k p => simp [Ast.at?, Ast.kids]
  · rw [e2]
    cases p with
    | nil => simp [Ast.at?, e3, e4, Ast.label_change e0]
    | cons k p =>
      simp only [Ast.at?]
      have e7 : a1.kids = ((onConstants fun c s => (f c, s)).visitList a.kids s).1 := by rw [e6]
      rw [e7]
      rcases (onConstants fun c s => (f c, s)).visitList_get a.kids s k with ⟨h1, h2⟩ | ⟨b, s2, h1, h2⟩
      · rw [h1, h2]; rfl
      · rw [h1, h2]
        exact ih b (List.mem_of_getElem? h1) s2 p

/-- Trees with the same nodes are equal. -/
theorem Ast.ext_at {a : Ast} : ∀ {b : Ast}, (∀ p, (a.at? p).map (fun n => (n.location, n.label)) =
    (b.at? p).map fun n => (n.location, n.label)) → a = b := by
  induction a using Ast.induct_kids with
  | h a ih =>
  intro b h
  have h0 := h []
  simp only [Ast.at?, Option.map_some, Option.some.injEq, Prod.mk.injEq] at h0
  obtain ⟨h1, h2⟩ := h0
  have hk : a.kids.length = b.kids.length → a.kids = b.kids := by
    intro hl
    apply List.ext_getElem? 
    intro k
    cases ha : a.kids[k]? with
    | none =>
      have := List.getElem?_eq_none_iff.mp ha
      exact (List.getElem?_eq_none_iff.mpr (by omega)).symm
    | some c =>
      have hlt : k < a.kids.length := (List.getElem?_eq_some_iff.mp ha).1
      have hb : b.kids[k]? = some (b.kids[k]'(by omega)) := List.getElem?_eq_getElem _
      rw [hb]
      congr 1
      refine ih c (List.mem_of_getElem? ha) fun p => ?_
      have := h (k :: p)
      simp only [Ast.at?, ha, hb] at this
      exact this
  cases a <;> cases b <;> simp only [Ast.label] at h2 <;>
    simp_all [Ast.location, Ast.kids]

end Hastur
