import Verif.Spec.Stored
import Verif.Proofs.Invariant
import Verif.Proofs.Segments
/-
Data made of data that is in a world is in this world: blocks, spans and the nom combinators.
-/
namespace Hastur

open Res

variable {W W' : World}

/-! ### Growing worlds -/

theorem World.Le.refl (W : World) : W.Le W := ⟨fun _ h => h, fun _ h => h, fun _ h => h⟩
theorem World.Le.trans {A B C : World} (h : A.Le B) (h' : B.Le C) : A.Le C :=
  ⟨fun _ x => h'.letter _ (h.letter _ x), fun _ x => h'.var _ (h.var _ x), fun _ x => h'.file _ (h.file _ x)⟩

mutual
theorem Node.In.mono (h : W.Le W') : ∀ n : Node, Node.In W n → Node.In W' n
  | .constant _, hn => fun x hx => h.letter x (hn x hx)
  | .concat v, hn => Block.In.mono h v hn
  | .varRef n v, hn => ⟨Block.In.mono h n hn.1, Block.In.mono h v hn.2⟩
  | .subRef n k r v, hn => ⟨Block.In.mono h n hn.1, Block.In.mono h k hn.2.1, Block.In.mono h r hn.2.2.1,
      Block.In.mono h v hn.2.2.2⟩
  | .evaluated v, hn => Block.In.mono h v hn
theorem Block.In.mono (h : W.Le W') : ∀ b : BlockOf Node, Block.In W b → Block.In W' b
  | ⟨_, content⟩, hb => ⟨fun v hv => h.var v (hb.1 v hv), CRef.InList.mono h content hb.2⟩
theorem CRef.InList.mono (h : W.Le W') : ∀ cs : List (CRefOf Node), CRef.InList W cs → CRef.InList W' cs
  | [], _ => trivial
  | c :: cs, hc => ⟨CRef.In.mono h c hc.1, CRef.InList.mono h cs hc.2⟩
theorem CRef.In.mono (h : W.Le W') : ∀ c : CRefOf Node, CRef.In W c → CRef.In W' c
  | ⟨_, _, node⟩, hc => ⟨hc.1, Node.In.mono h node hc.2⟩
end

theorem World.Loc.mono (h : W.Le W') {l : Location} (hl : W.Loc l) : W'.Loc l :=
  hl.imp id fun ⟨c, hc⟩ => ⟨c, h.letter _ hc⟩

mutual
theorem Ast.In.mono (h : W.Le W') : ∀ a : Ast, Ast.In W a → Ast.In W' a
  | .empty _, ha => World.Loc.mono h ha
  | .constant _ _, ha => ⟨ha.1, ha.2.1.mono h, fun x hx => h.letter x (ha.2.2 x hx)⟩
  | .preEvaluated _ b, ha => ⟨ha.1.mono h, Block.In.mono h b ha.2⟩
  | .concat _ cs, ha => ⟨ha.1.mono h, Ast.InList.mono h cs ha.2⟩
  | .varRef _ n, ha => ⟨h.letter _ ha.1, Ast.In.mono h n ha.2⟩
  | .eval _ a, ha => ⟨h.letter _ ha.1, Ast.In.mono h a ha.2⟩
  | .strip _ a, ha => ⟨h.letter _ ha.1, Ast.In.mono h a ha.2⟩
  | .word _ i w, ha => ⟨h.letter _ ha.1, Ast.In.mono h i ha.2.1, Ast.In.mono h w ha.2.2⟩
  | .words _ a, ha => ⟨h.letter _ ha.1, Ast.In.mono h a ha.2⟩
theorem Ast.InList.mono (h : W.Le W') : ∀ as : List Ast, Ast.InList W as → Ast.InList W' as
  | [], _ => trivial
  | a :: as, ha => ⟨Ast.In.mono h a ha.1, Ast.InList.mono h as ha.2⟩
end

theorem Rule.In.mono (h : W.Le W') {r : Rule} (hr : Rule.In W r) : Rule.In W' r :=
  ⟨hr.target.mono h, h.file _ hr.targetName, fun d hd => (hr.deps d hd).mono h,
    fun f hf => h.file f (hr.depNames f hf), fun a ha => (hr.recipe a ha).mono h⟩

theorem Database.In.mono (h : W.Le W') {db : Database} (hd : Database.In W db) : Database.In W' db :=
  ⟨fun v p hp => ⟨h.var v (hd.variables v p hp).1, (hd.variables v p hp).2.mono h⟩,
    fun f v p hp => ⟨h.file f (hd.targetVariables f v p hp).1, h.var v (hd.targetVariables f v p hp).2.1,
      (hd.targetVariables f v p hp).2.2.mono h⟩,
    fun f r hr => ⟨h.file f (hd.rules f r hr).1, (hd.rules f r hr).2.mono h⟩⟩

/-! ### Lists of references -/

theorem CRef.inList_iff {cs : List CRef} : CRef.InList W cs ↔ ∀ c ∈ cs, CRef.In W c := by
  induction cs with
  | nil => simp [CRef.InList]
  | cons c cs ih => simp [CRef.InList, ih]

theorem CRef.in_iff {c : CRef} : CRef.In W c ↔ c.offset + c.length ≤ c.node.len ∧ Node.In W c.node := by
  cases c; rfl

theorem Block.in_iff {b : Block} : Block.In W b ↔ (∀ v ∈ b.sens, W.var v) ∧ CRef.InList W b.content := by
  cases b; rfl

theorem CRef.inList_append {a b : List CRef} : CRef.InList W (a ++ b) ↔ CRef.InList W a ∧ CRef.InList W b := by
  simp only [CRef.inList_iff, List.mem_append, or_imp, forall_and]

theorem CRef.inList_drop {a : List CRef} (n : Nat) (h : CRef.InList W a) : CRef.InList W (a.drop n) :=
  CRef.inList_iff.mpr fun c hc => CRef.inList_iff.mp h c (List.mem_of_mem_drop hc)

theorem Ast.inList_iff {as : List Ast} : Ast.InList W as ↔ ∀ a ∈ as, Ast.In W a := by
  induction as with
  | nil => simp [Ast.InList]
  | cons c cs ih => simp [Ast.InList, ih]

theorem Block.empty_in : Block.In W Block.empty := ⟨by simp, trivial⟩

theorem CRef.ofNode_in {n : Node} (h : Node.In W n) : CRef.In W (CRef.ofNode n) := ⟨by simp, h⟩

/-- A smaller window. -/
theorem CRef.In.cut {c : CRef} (h : CRef.In W c) {o l : Nat} (hl : o + l ≤ c.length) :
    CRef.In W (⟨c.offset + o, l, c.node⟩ : CRef) := by
  rw [CRef.in_iff] at h ⊢
  exact ⟨by simp only; omega, h.2⟩

theorem CRef.In.shorten {c : CRef} (h : CRef.In W c) {l : Nat} (hl : l ≤ c.length) :
    CRef.In W ({ c with length := l } : CRef) := by
  rw [CRef.in_iff] at h ⊢
  exact ⟨by simp only; omega, h.2⟩

/-! ### Located strings -/

theorem LStr.slice_sub {s t : LStr} {a l : Nat} (h : s.slice a l = .ok t) :
    (∀ x ∈ t.ltext, x ∈ s.ltext) ∧ t.len = l ∧ (0 < l → t.contents ≠ []) := by
  unfold LStr.slice at h
  obtain ⟨_, h1, h⟩ := bind_eq_ok.mp h
  obtain ⟨_, h2, h⟩ := bind_eq_ok.mp h
  obtain ⟨p, h3, h⟩ := bind_eq_ok.mp h
  obtain ⟨q, h4, h⟩ := bind_eq_ok.mp h
  obtain ⟨r, h5, h⟩ := bind_eq_ok.mp h
  cases h
  obtain ⟨q', e1, e2⟩ := btake_ok h3
  rw [← e2, e1, bdrop_split] at h4
  cases h4
  obtain ⟨u, e3, e4⟩ := btake_ok h5
  refine ⟨fun x hx => ?_, e4, fun h0 => ?_⟩
  · simp only [LStr.ltext, Location.foldl_advance] at hx ⊢
    rw [e1, e3, locate_append, locate_append]
    simp only [List.mem_append]
    exact .inr (.inl hx)
  · rw [← blen_pos]
    simp only [e4]; exact h0

/-! ### Simplification -/

theorem dropRefs_in {cs out : List CRef} {o : Nat} (h : CRef.InList W cs) (e : dropRefs cs o = .ok out) :
    CRef.InList W out := by
  induction cs generalizing o with
  | nil => cases e
  | cons c cs ih =>
    simp only [dropRefs] at e
    split at e
    · exact ih h.2 e
    · cases e
      refine ⟨?_, h.2⟩
      exact h.1.cut (by omega)

theorem takeRefs_in {cs out : List CRef} {l : Nat} (h : CRef.InList W cs) (e : takeRefs cs l = .ok out) :
    CRef.InList W out := by
  induction cs generalizing l out with
  | nil => cases e
  | cons c cs ih =>
    simp only [takeRefs] at e
    split at e
    · cases e
      exact ⟨h.1.shorten (by assumption), trivial⟩
    · obtain ⟨x, h1, h2⟩ := map_eq_ok.mp e
      cases h2
      exact ⟨h.1, ih h.2 h1⟩

theorem takeRefs_lensum {cs out : List CRef} {l : Nat} (e : takeRefs cs l = .ok out) : lensum out = l := by
  induction cs generalizing l out with
  | nil => cases e
  | cons c cs ih =>
    simp only [takeRefs] at e
    split at e
    · cases e; simp [lensum]
    · obtain ⟨x, h1, h2⟩ := map_eq_ok.mp e
      cases h2
      have := ih h1
      simp only [lensum, List.map_cons, List.sum_cons] at this ⊢
      omega

/-- What is needed of the simplification of a reference. -/
def SimpIn (W : World) (simp : CRef → Res CRef) : Prop :=
  ∀ c c', CRef.In W c → simp c = .ok c' → CRef.In W c' ∧ c'.length = c.length

theorem simplifyList_in {simp : CRef → Res CRef} (hs : SimpIn W simp) {cs : List CRef} : ∀ {out : List CRef},
    CRef.InList W cs → simplifyList simp cs = .ok out → CRef.InList W out ∧ lensum out = lensum cs := by
  induction cs with
  | nil => intro out _ e; cases e; exact ⟨trivial, rfl⟩
  | cons c cs ih =>
    intro out h e
    simp only [simplifyList] at e
    split at e
    · rename_i h0
      obtain ⟨g1, g2⟩ := ih h.2 e
      exact ⟨g1, by rw [g2]; simp [lensum, h0]⟩
    · obtain ⟨c', e1, e⟩ := bind_eq_ok.mp e
      obtain ⟨cs', e2, e⟩ := bind_eq_ok.mp e
      cases e
      obtain ⟨g1, g2⟩ := hs c c' h.1 e1
      obtain ⟨g3, g4⟩ := ih h.2 e2
      exact ⟨⟨g1, g3⟩, by simp only [lensum, List.map_cons, List.sum_cons] at g4 ⊢; omega⟩

theorem simplifyConstant_in {c c' : CRef} {s : LStr} (hc : c.node = .constant s) (h : CRef.In W c)
    (e : (do let s' ← s.slice c.offset c.length
             return (⟨0, c.length, .constant s'⟩ : CRef)) = .ok c') : CRef.In W c' ∧ c'.length = c.length := by
  obtain ⟨s', e1, e⟩ := bind_eq_ok.mp e
  cases e
  obtain ⟨g1, g2, _⟩ := LStr.slice_sub e1
  rw [CRef.in_iff, hc] at h
  refine ⟨⟨?_, fun x hx => h.2 x (g1 x hx)⟩, rfl⟩
  simp only [Node.len, g2]; omega

theorem simplifyRef_in (d : Nat) : SimpIn W (simplifyRef d) := by
  induction d with
  | zero =>
    intro c c' h e
    unfold simplifyRef at e
    split at e
    · exact simplifyConstant_in (by assumption) h e
    · cases e
    · cases e; exact ⟨h, rfl⟩
  | succ d ih =>
    intro c c' h e
    unfold simplifyRef at e
    split at e
    · exact simplifyConstant_in (by assumption) h e
    · rename_i b hb
      obtain ⟨kept, e1, e⟩ := bind_eq_ok.mp e
      obtain ⟨kept', e2, e⟩ := bind_eq_ok.mp e
      obtain ⟨content, e3, e⟩ := bind_eq_ok.mp e
      cases e
      rw [CRef.in_iff, hb] at h
      have hw : Block.In W b := h.2
      rw [Block.in_iff] at hw
      obtain ⟨g1, g2⟩ := simplifyList_in ih (takeRefs_in (dropRefs_in hw.2 e1) e2) e3
      rw [takeRefs_lensum e2] at g2
      refine ⟨⟨?_, hw.1, g1⟩, rfl⟩
      show 0 + c.length ≤ Block.len ⟨b.sens, content⟩
      have : Block.len ⟨b.sens, content⟩ = lensum content := rfl
      omega
    · cases e; exact ⟨h, rfl⟩

theorem Block.simplify_in {b : Block} (h : Block.In W b) : Post (Block.In W) b.simplify := by
  intro b' e
  rw [Block.in_iff] at h
  unfold Block.simplify at e
  obtain ⟨content, e1, e⟩ := bind_eq_ok.mp e
  cases e
  exact ⟨h.1, (simplifyList_in (simplifyRef_in _) h.2 e1).1⟩

theorem Block.new_in {sens : Sens} {cs : List CRef} (hs : ∀ v ∈ sens, W.var v) (h : CRef.InList W cs) :
    Post (Block.In W) (Block.new sens cs) := Block.simplify_in ⟨hs, h⟩

theorem Block.push_in {b : Block} {c : CRef} (h : Block.In W b) (hc : CRef.In W c) : Block.In W (b.push c) := by
  rw [Block.in_iff] at h
  exact ⟨h.1, CRef.inList_append.mpr ⟨h.2, hc, trivial⟩⟩

/-! ### Spans -/

/-- The block of the span is in the world. -/
def Span.In (W : World) (s : Span) : Prop := Block.In W s.parent

theorem Span.In.mono (h : W.Le W') {s : Span} (hs : Span.In W s) : Span.In W' s := Block.In.mono h _ hs

theorem Block.span_in {b : Block} (h : Block.In W b) : Span.In W b.span := h

theorem Span.In.contents {s : Span} (h : s.In W) : CRef.InList W s.contents :=
  CRef.inList_drop _ (Block.in_iff.mp h).2

theorem Span.empty_in : Span.In W Span.empty := Block.empty_in

theorem collectRefs_in {c : CRef} {cs : List CRef} {n : Nat} {out : List CRef} (hc : CRef.In W c) (h : CRef.InList W cs)
    (e : Span.collectRefs c cs n = .ok out) : CRef.InList W out := by
  induction cs generalizing c n out with
  | nil =>
    unfold Span.collectRefs at e
    split at e
    · cases e
    · cases e; exact ⟨hc.shorten (by omega), trivial⟩
  | cons d cs ih =>
    unfold Span.collectRefs at e
    split at e
    · obtain ⟨x, h1, h2⟩ := map_eq_ok.mp e
      cases h2
      exact ⟨hc, ih h.1 h.2 h1⟩
    · cases e; exact ⟨hc.shorten (by omega), trivial⟩

theorem Span.coveredRefs_in {s : Span} (h : s.In W) : Post (CRef.InList W) s.coveredRefs := by
  intro out e
  have hc := h.contents
  unfold Span.coveredRefs at e
  split at e
  · cases e
  · rename_i c cs hcs
    rw [hcs] at hc
    obtain ⟨_, e1, e⟩ := bind_eq_ok.mp e
    have h1 : s.offset < c.length := by
      unfold rassert at e1
      split at e1
      · rename_i h0; simpa using h0
      · cases e1
    exact collectRefs_in (hc.1.cut (by omega)) hc.2 e

theorem Span.toNewBlock_in {s : Span} (h : s.In W) : Post (Block.In W) s.toNewBlock := by
  unfold Span.toNewBlock
  split
  · exact Post.ok Block.empty_in
  · exact Post.bind (Span.coveredRefs_in h) fun cs hcs => Block.new_in (Block.in_iff.mp h).1 hcs

theorem Span.toContentReference_in {s : Span} (h : s.In W) : Post (CRef.In W) s.toContentReference :=
  Post.bind (Span.toNewBlock_in h) fun _ hb => Post.ok (CRef.ofNode_in hb)

theorem Block.pushAll_in {b : Block} {s : Span} (hb : Block.In W b) (h : s.In W) : Post (Block.In W) (b.pushAll s) := by
  unfold Block.pushAll
  split
  · exact Post.ok hb
  · refine Post.bind (Span.coveredRefs_in h) fun cs hcs => Post.ok ?_
    rw [Block.in_iff] at hb
    have hp := Block.in_iff.mp h
    refine ⟨fun v hv => ?_, CRef.inList_append.mpr ⟨hb.2, hcs⟩⟩
    rcases Sens.mem_union.mp hv with h' | h'
    · exact hb.1 v h'
    · exact hp.1 v h'

theorem Span.revalidate_in {s : Span} (h : s.In W) : Post (Span.In W) s.revalidate := by
  unfold Span.revalidate
  split
  · exact Post.ok h
  · refine Post.bind_any fun x => ?_
    exact Post.ok h

theorem Span.slice_in {s : Span} (h : s.In W) (a b : Nat) : Post (Span.In W) (s.slice a b) := by
  unfold Span.slice
  refine Post.bind_any fun x => ?_
  exact Span.revalidate_in h

theorem Span.sliceFrom_in {s : Span} (h : s.In W) (a : Nat) : Post (Span.In W) (s.sliceFrom a) := by
  unfold Span.sliceFrom
  refine Post.bind_any fun x => ?_
  exact Span.revalidate_in h

theorem Span.sliceTo_in {s : Span} (h : s.In W) (a : Nat) : Span.In W (s.sliceTo a) := h

theorem Span.takeSplit_in {s : Span} (h : s.In W) (n : Nat) :
    Post (fun x => Span.In W x.1 ∧ Span.In W x.2) (s.takeSplit n) := by
  unfold Span.takeSplit
  refine Post.bind_any fun x => ?_
  exact Post.bind (Span.sliceFrom_in h n) fun a ha => Post.ok ⟨ha, h⟩

theorem Span.splitAtPosition_in {s : Span} (h : s.In W) (p : Char → Bool) :
    Post (fun x => Span.In W x.1 ∧ Span.In W x.2) (s.splitAtPosition p) := by
  unfold Span.splitAtPosition
  refine Post.bind_any fun x => ?_
  split
  · exact Post.bind (Span.sliceFrom_in h _) fun a ha => Post.ok ⟨ha, h⟩
  · exact Post.ok ⟨h, h⟩

/-! ### Segments -/

/-- A segment that is in the world and not empty. -/
def LStr.In (W : World) (t : LStr) : Prop := t.contents ≠ [] ∧ ∀ x ∈ t.ltext, W.letter x

theorem LStr.In.loc {t : LStr} (h : t.In W) : W.Loc t.loc := by
  obtain ⟨l, c⟩ := t
  cases c with
  | nil => exact absurd rfl h.1
  | cons c cs => exact .inr ⟨c, h.2 _ (by simp [LStr.ltext, locate])⟩

theorem LStr.In.constant {t : LStr} (h : t.In W) : Ast.In W (Ast.mkConstant t) := ⟨rfl, h.loc, h.2⟩

theorem LStr.slice_in {s t : LStr} {a l : Nat} (h : ∀ x ∈ s.ltext, W.letter x) (hl : 0 < l) (e : s.slice a l = .ok t) :
    t.In W :=
  ⟨(LStr.slice_sub e).2.2 hl, fun x hx => h x ((LStr.slice_sub e).1 x hx)⟩

theorem LStr.slice_lt {s t : LStr} {a l : Nat} (e : s.slice a l = .ok t) : a < s.len := by
  unfold LStr.slice at e
  obtain ⟨_, e1, _⟩ := bind_eq_ok.mp e
  unfold rassert at e1
  split at e1
  · rename_i h0; simpa using h0
  · cases e1

theorem refSegs_in (ts : List LStr) (crash : Bool) (h : ∀ t ∈ ts, ∀ x ∈ t.ltext, W.letter x) :
    ∀ (o l : Nat), ∀ t ∈ (refSegs o l ts crash).items, LStr.In W t := by
  induction ts with
  | nil =>
    intro o l t ht
    cases l <;> simp [refSegs] at ht
  | cons t ts ih =>
    have ih := ih fun t ht => h t (List.mem_cons_of_mem _ ht)
    have h1 := h t (List.mem_cons_self ..)
    intro o l x hx
    cases l with
    | zero => simp [refSegs] at hx
    | succ l =>
      simp only [refSegs] at hx
      split at hx
      · exact ih _ _ x hx
      · split at hx
        · rename_i t1 e1
          have hlt := LStr.slice_lt e1
          have i1 := LStr.slice_in h1 (by omega) e1
          split at hx
          · split at hx
            · rename_i t2 e2
              simp only [SStream.cons, List.mem_cons] at hx
              rcases hx with rfl | hx
              · exact LStr.slice_in i1.2 (by omega) e2
              · exact ih _ _ x hx
            · simp at hx
          · simp only [SStream.cons, List.mem_cons] at hx
            rcases hx with rfl | hx
            · exact i1
            · exact ih _ _ x hx
        · simp at hx

theorem spanSegs_in (ts : List LStr) (crash : Bool) (h : ∀ t ∈ ts, LStr.In W t) :
    ∀ (o l : Nat), ∀ t ∈ (spanSegs o l ts crash).items, LStr.In W t := by
  induction ts with
  | nil =>
    intro o l t ht
    cases l <;> simp [spanSegs] at ht
  | cons t ts ih =>
    have ih := ih fun t ht => h t (List.mem_cons_of_mem _ ht)
    have h1 := h t (List.mem_cons_self ..)
    intro o l x hx
    cases l with
    | zero => simp [spanSegs] at hx
    | succ l =>
      simp only [spanSegs] at hx
      split at hx
      · exact ih _ _ x hx
      · split at hx
        · rename_i t1 e1
          have i1 : LStr.In W t1 := by
            split at e1
            · have hlt := LStr.slice_lt e1
              exact LStr.slice_in h1.2 (by omega) e1
            · cases e1; exact h1
          split at hx
          · rename_i t2 e2
            have i2 : LStr.In W t2 := by
              split at e2
              · exact LStr.slice_in i1.2 (by omega) e2
              · cases e2; exact i1
            simp only [SStream.cons, List.mem_cons] at hx
            rcases hx with rfl | hx
            · exact i2
            · exact ih _ _ x hx
          · simp at hx
        · simp at hx

theorem SStream.append_in {a b : SStream} (ha : ∀ t ∈ a.items, LStr.In W t) (hb : ∀ t ∈ b.items, LStr.In W t) :
    ∀ t ∈ (a.append b).items, LStr.In W t := by
  unfold SStream.append
  split
  · exact ha
  · simp only [List.mem_append]
    rintro t (h | h)
    · exact ha t h
    · exact hb t h

mutual
theorem Node.segments_in : ∀ n : Node, Node.In W n → ∀ t ∈ (Node.segments n).items, ∀ x ∈ t.ltext, W.letter x
  | .constant s, h => by
    simp only [Node.segments, List.mem_singleton]
    rintro t rfl
    exact h
  | .concat v, h => fun t ht => (Block.segments_in v h t (by simpa [Node.segments] using ht)).2
  | .varRef _ v, h => fun t ht => (Block.segments_in v h.2 t (by simpa [Node.segments] using ht)).2
  | .subRef _ _ _ v, h => fun t ht => (Block.segments_in v h.2.2.2 t (by simpa [Node.segments] using ht)).2
  | .evaluated v, h => fun t ht => (Block.segments_in v h t (by simpa [Node.segments] using ht)).2
theorem Block.segments_in : ∀ b : BlockOf Node, Block.In W b → ∀ t ∈ (Block.segments b).items, LStr.In W t
  | ⟨_, content⟩, h => by
    simp only [Block.segments]
    exact spanSegs_in _ _ (CRef.segmentsList_in content h.2) _ _
theorem CRef.segmentsList_in : ∀ cs : List (CRefOf Node), CRef.InList W cs → ∀ t ∈ (CRef.segmentsList cs).items, LStr.In W t
  | [], _ => by simp [CRef.segmentsList]
  | c :: cs, h => by
    simp only [CRef.segmentsList]
    exact SStream.append_in (CRef.segments_in c h.1) (CRef.segmentsList_in cs h.2)
theorem CRef.segments_in : ∀ c : CRefOf Node, CRef.In W c → ∀ t ∈ (CRef.segments c).items, LStr.In W t
  | ⟨_, _, node⟩, h => by
    simp only [CRef.segments]
    exact refSegs_in _ _ (Node.segments_in node h.2) _ _
end

theorem Span.segments_in {s : Span} (h : s.In W) : ∀ t ∈ s.segments.items, LStr.In W t :=
  spanSegs_in _ _ (CRef.segmentsList_in _ h.contents) _ _

theorem Span.allSegments_in {s : Span} (h : s.In W) : Post (fun ts => ∀ t ∈ ts, LStr.In W t) s.allSegments := by
  unfold Span.allSegments
  dsimp only
  split
  · exact Post.panic _
  · exact Post.ok (Span.segments_in h)

theorem Span.firstSegment_in {s : Span} (h : s.In W) : Post (fun o => ∀ t, o = some t → LStr.In W t) s.firstSegment := by
  have := Span.segments_in h
  unfold Span.firstSegment
  split
  · rename_i t ts c e
    refine Post.ok ?_
    rintro _ ⟨⟩
    exact this _ (by rw [e]; simp)
  · exact Post.panic _
  · exact Post.ok (by simp)

theorem Span.location_in {s : Span} (h : s.In W) : Post (fun o => ∀ l, o = some l → W.Loc l) s.location := by
  unfold Span.location
  refine Post.bind (Span.firstSegment_in h) fun o ho => Post.ok ?_
  intro l hl
  obtain ⟨t, rfl, rfl⟩ := Option.map_eq_some_iff.mp hl
  exact (ho t rfl).loc

theorem runwrap_post {α : Type} {Q : α → Prop} {o : Option α} (h : ∀ a, o = some a → Q a) : Post Q (runwrap o) := by
  cases o with
  | none => exact Post.panic _
  | some a => exact Post.ok (h a rfl)

/-! ### nom -/

/-- The result of a parser is in the world. -/
def IRes.In {α : Type} (W : World) (Q : α → Prop) : IRes α → Prop
  | .done r a => Span.In W r ∧ Q a
  | .err _ => True

/-- The parser yields what is in the world. -/
def PIn {α : Type} (W : World) (Q : α → Prop) (x : PRes α) : Prop := Post (IRes.In W Q) x

namespace PIn
variable {α β : Type} {Q : α → Prop} {Q' : β → Prop}

theorem done {i : Span} {a : α} (hi : i.In W) (ha : Q a) : PIn W Q (Res.done i a) := Post.ok ⟨hi, ha⟩
theorem err (e : NErr) : PIn W Q (.ok (.err e)) := Post.ok trivial
theorem errorOut (k : ParseErrorKind) : PIn W Q (Res.errorOut k) := err _
theorem failOut (k : ParseErrorKind) : PIn W Q (Res.failOut k) := err _
theorem codeError : PIn W Q Res.codeError := err _
theorem andThen {x : PRes α} {f : Span → α → PRes β} (h : PIn W Q x)
    (hf : ∀ i a, Span.In W i → Q a → PIn W Q' (f i a)) : PIn W Q' (x.andThen f) := by
  refine Post.bind h fun r hr => ?_
  cases r with
  | done i a => exact hf i a hr.1 hr.2
  | err e => exact err e
theorem orElse {x y : PRes α} (h : PIn W Q x) (h' : PIn W Q y) : PIn W Q (Res.orElse x y) := by
  refine Post.bind h fun r hr => ?_
  split
  · exact h'
  · exact Post.ok hr
theorem mapP {x : PRes α} {f : α → β} (h : PIn W Q x) (hf : ∀ a, Q a → Q' (f a)) : PIn W Q' (Res.mapP f x) :=
  andThen h fun _ a hi ha => done hi (hf a ha)
theorem mono {Q'' : α → Prop} {x : PRes α} (h : PIn W Q x) (hq : ∀ a, Q a → Q'' a) : PIn W Q'' x := by
  refine Post.mono h fun r hr => ?_
  cases r with
  | done i a => exact ⟨hr.1, hq a hr.2⟩
  | err e => trivial
theorem any {x : PRes α} (h : PIn W Q x) : PIn W (fun _ => True) x := h.mono fun _ _ => trivial
theorem returnError {x : PRes α} (h : PIn W Q x) : PIn W Q (Res.returnError x) := by
  refine Post.bind h fun r hr => ?_
  split
  · exact Post.ok trivial
  · exact Post.ok hr
end PIn

namespace Nom

variable {i : Span}

theorem tag_in (h : i.In W) (t : Str) : PIn W (Span.In W) (tag t i) := by
  unfold tag
  refine Post.bind_any fun c => ?_
  split
  · exact Post.bind (Span.takeSplit_in h _) fun x hx => PIn.done hx.1 hx.2
  · exact PIn.codeError

theorem tagNoCase_in (h : i.In W) (t : Str) : PIn W (Span.In W) (tagNoCase t i) := by
  unfold tagNoCase
  refine Post.bind_any fun c => ?_
  split
  · exact Post.bind (Span.takeSplit_in h _) fun x hx => PIn.done hx.1 hx.2
  · exact PIn.codeError

theorem char_in (h : i.In W) (c : Char) : PIn W (fun _ => True) (char c i) := by
  unfold char
  refine Post.bind_any fun d => ?_
  split
  · split
    · exact Post.bind (Span.sliceFrom_in h _) fun x hx => PIn.done hx trivial
    · exact PIn.codeError
  · exact PIn.codeError

theorem take_in (h : i.In W) (n : Nat) : PIn W (Span.In W) (take n i) := by
  unfold take
  split
  · exact Post.bind (Span.takeSplit_in h _) fun x hx => PIn.done hx.1 hx.2
  · exact PIn.codeError

theorem takeUntil_in (h : i.In W) (t : Str) : PIn W (Span.In W) (takeUntil t i) := by
  unfold takeUntil
  refine Post.bind_any fun c => ?_
  split
  · exact Post.bind (Span.takeSplit_in h _) fun x hx => PIn.done hx.1 hx.2
  · exact PIn.codeError

theorem takeUntilAndConsume_in (h : i.In W) (t : Str) : PIn W (Span.In W) (takeUntilAndConsume t i) := by
  unfold takeUntilAndConsume
  refine Post.bind_any fun c => ?_
  split
  · refine Post.bind (Span.sliceFrom_in h _) fun r hr => ?_
    exact Post.bind (Span.slice_in h _ _) fun x hx => PIn.done hr hx
  · exact PIn.codeError

theorem eof_in (h : i.In W) : PIn W (fun _ => True) (eof i) := by
  unfold eof
  split
  · exact PIn.done h trivial
  · exact PIn.codeError

theorem rest_in (h : i.In W) : PIn W (Span.In W) (rest i) :=
  Post.bind (Span.sliceFrom_in h _) fun _ hx => PIn.done hx h

theorem takeTill_in (h : i.In W) (p : Char → Bool) : PIn W (Span.In W) (takeTill p i) :=
  Post.bind (Span.splitAtPosition_in h _) fun _ hx => PIn.done hx.1 hx.2

theorem takeWhile_in (h : i.In W) (p : Char → Bool) : PIn W (Span.In W) (takeWhile p i) := takeTill_in h _

theorem recognize_in {α : Type} {Q : α → Prop} {p : Span → PRes α} (h : i.In W) (hp : PIn W Q (p i)) :
    PIn W (Span.In W) (recognize p i) := by
  refine PIn.andThen hp fun r _ hr _ => ?_
  refine Post.bind_any fun n => ?_
  exact PIn.done hr h

theorem many1Loop_in {α : Type} {Q : α → Prop} {p : Span → PRes α} (hp : ∀ i, Span.In W i → PIn W Q (p i)) (n : Nat) :
    ∀ i, Span.In W i → PIn W (fun _ => True) (many1Loop p n i) := by
  induction n with
  | zero => intro i _; exact Post.fuel
  | succ n ih =>
    intro i h
    unfold many1Loop
    refine Post.bind (hp i h) fun r hr => ?_
    cases r with
    | err e =>
      cases e with
      | error k => exact PIn.done h trivial
      | failure k => exact PIn.err _
    | done i' a =>
      dsimp only
      split
      · exact PIn.done h trivial
      · exact ih _ hr.1

theorem many1_in {α : Type} {Q : α → Prop} {p : Span → PRes α} (hp : ∀ i, Span.In W i → PIn W Q (p i)) (h : i.In W) :
    PIn W (fun _ => True) (many1 p i) := by
  unfold many1
  refine Post.bind (hp i h) fun r hr => ?_
  cases r with
  | err e =>
    cases e with
    | error k => exact PIn.codeError
    | failure k => exact PIn.err _
  | done i' a => exact many1Loop_in hp _ _ hr.1

theorem many0Loop_in {α : Type} {Q : α → Prop} {p : Span → PRes α} (hp : ∀ i, Span.In W i → PIn W Q (p i)) (n : Nat) :
    ∀ i, Span.In W i → PIn W (fun _ => True) (many0Loop p n i) := by
  induction n with
  | zero => intro i _; exact Post.fuel
  | succ n ih =>
    intro i h
    unfold many0Loop
    refine Post.bind (hp i h) fun r hr => ?_
    cases r with
    | err e =>
      cases e with
      | error k => exact PIn.done h trivial
      | failure k => exact PIn.err _
    | done i' a =>
      dsimp only
      split
      · exact PIn.done h trivial
      · exact ih _ hr.1

theorem many0_in {α : Type} {Q : α → Prop} {p : Span → PRes α} (hp : ∀ i, Span.In W i → PIn W Q (p i)) (h : i.In W) :
    PIn W (fun _ => True) (many0 p i) := many0Loop_in hp _ _ h

end Nom

end Hastur
