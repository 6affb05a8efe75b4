import Verif.Proofs.At
/-
Lemmas: blocks that consist of one window on a block of several pieces, as the parser for rule lines makes them from
lines with continuations.  Their segments are found as long as the window starts inside the first piece.
-/
namespace Hastur

open Res Span

/-- A block of pieces with one segment each, the first of which has more than `k` characters. -/
structure Block.Lined (k : Nat) (v : Block) : Prop where
  wf : Block.WF v
  mono : Block.Mono v
  solid : v.Solid
  head : ∃ c cs, v.content = c :: cs ∧ k < c.length

/-- The reference is a window on a block of pieces, and its first characters, up to number `k`, are in the first
piece. -/
def CRef.Front (k : Nat) (c : CRef) : Prop :=
  ∃ v, c.node = .concat v ∧ Block.Lined (c.offset + k) v

/-- The block is one such window. -/
def Block.Wrapped (k : Nat) (b : Block) : Prop := ∃ c, b.content = [c] ∧ CRef.Front k c

/-! ### Segments -/

theorem Block.Lined.segments {k : Nat} {v : Block} (h : Block.Lined k v) :
    ∃ t ts, Block.segments v = ⟨t :: ts, false⟩ ∧ k < t.contents.length ∧ SegsAscii (t :: ts) ∧ SegsSolid (t :: ts) := by
  obtain ⟨hw, hm, hs, c, cs, hv, hk⟩ := h
  obtain ⟨g1, g2, _, _⟩ := Block.segments_of v hw
  obtain ⟨m1, _⟩ := Block.segments_mono v hw hm
  rcases v with ⟨s, content⟩
  simp only at hv
  subst hv
  have hw' : CRef.WFList (c :: cs) := hw
  have hm' : CRef.MonoList (c :: cs) := hm
  obtain ⟨a1, a2⟩ := CRef.segments_mono c hw'.1 hm'.1
  have b4 := (CRef.segments_of c hw'.1).2.2.2 a1
  have hl := CRef.ltext_length c hw'.1
  obtain ⟨l1, _⟩ := CRef.segmentsList_mono _ hw' hm'
  obtain ⟨f1, f2, _, _⟩ := CRef.segmentsList_of (c :: cs) hw'
  have he : Block.segments ⟨s, c :: cs⟩ =
      spanSegs 0 ((c :: cs).map (·.length)).sum (CRef.segmentsList (c :: cs)).items (CRef.segmentsList (c :: cs)).crash := rfl
  have happ : CRef.segmentsList (c :: cs) = (CRef.segments c).append (CRef.segmentsList cs) := rfl
  generalize hi : (CRef.segments c).items = items at a2 b4
  match items, a2 with
  | [], _ =>
    rw [← b4] at hl
    simp at hl; omega
  | [t], _ =>
    have hitems : (CRef.segmentsList (c :: cs)).items = t :: (CRef.segmentsList cs).items := by
      rw [happ]; simp [SStream.append, a1, hi]
    have htl : t.contents.length = c.length := by rw [← hl, ← b4]; simp
    rw [hitems] at f1 f2 he
    have hpos : 0 < ((c :: cs).map (·.length)).sum := by simp; omega
    have hmin : min ((c :: cs).map (·.length)).sum (t.contents.length - 0) = c.length := by
      simp only [List.map_cons, List.sum_cons, htl]; omega
    rw [spanSegs_step (f1 t (by simp)) (f2 t (by simp)) hpos, if_neg (by omega), if_neg (by omega)] at he
    simp only [hmin] at he
    refine ⟨t.cut 0 c.length, (spanSegs 0 (((c :: cs).map (·.length)).sum - c.length) (CRef.segmentsList cs).items
        (CRef.segmentsList (c :: cs)).crash).items, ?_, ?_, ?_, ?_⟩
    · rw [he] at m1 ⊢
      simp only [SStream.cons] at m1 ⊢
      rw [m1]
    · rw [LStr.cut_length _ _ _ (by omega)]; exact hk
    · rw [he] at g1; exact g1
    · rw [he] at g2; exact g2

theorem refSegs_zero_crash (ts : List LStr) (ha : SegsAscii ts) (hs : SegsSolid ts) (l : Nat) :
    (refSegs 0 l ts false).crash = false := by
  induction ts generalizing l with
  | nil => cases l <;> simp [refSegs]
  | cons t ts ih =>
    have hpos : 0 < t.contents.length := List.length_pos_iff.mpr (hs t (by simp))
    by_cases h0 : 0 < l
    · rw [refSegs_step (ha t (by simp)) h0, if_neg (by omega), if_neg (by omega)]
      exact ih (fun u hu => ha u (by simp [hu])) (fun u hu => hs u (by simp [hu])) _
    · have : l = 0 := by omega
      subst this; simp [refSegs]

theorem CRef.Front.segments {k : Nat} {c : CRef} (h : CRef.Front k c) (hk : k < c.length) :
    ∃ t ts, CRef.segments c = ⟨t :: ts, false⟩ ∧ k < t.contents.length := by
  obtain ⟨v, hv, hl⟩ := h
  obtain ⟨t, ts, g1, g2, g3, g4⟩ := hl.segments
  rcases c with ⟨o, n, node⟩
  simp only at hv hk g2
  subst hv
  have he : CRef.segments ⟨o, n, Node.concat v⟩ = refSegs o n (Block.segments v).items (Block.segments v).crash := rfl
  rw [he, g1]
  simp only
  rw [refSegs_step (g3 t (by simp)) (by omega), if_neg (by omega), if_neg (by omega)]
  refine ⟨t.cut o (min n (t.contents.length - o)),
    (refSegs 0 (n - min n (t.contents.length - o)) ts false).items, ?_, ?_⟩
  · simp only [SStream.cons]
    rw [refSegs_zero_crash ts (fun u hu => g3 u (by simp [hu])) (fun u hu => g4 u (by simp [hu]))]
  · rw [LStr.cut_length _ _ _ (by omega)]; omega

/-- The segments of a span that starts inside the first piece. -/
theorem Span.segments_front {i : Span} {c : CRef} (h : Block.WF i.parent) (hc : i.contents = [c]) (ho : i.offset < c.length)
    (hf : CRef.Front i.offset c) : i.segments.crash = false := by
  obtain ⟨t, ts, g1, g2⟩ := hf.segments ho
  have hw := Span.wf_contents h
  rw [hc] at hw
  obtain ⟨f1, f2, _, _⟩ := CRef.segmentsList_of _ hw
  have he : CRef.segmentsList i.contents = ⟨t :: ts, false⟩ := by
    rw [hc]
    show (CRef.segments c).append (CRef.segmentsList []) = _
    rw [g1]
    simp [SStream.append, CRef.segmentsList]
  have he' := he
  rw [hc] at he'
  rw [he'] at f1 f2
  unfold Span.segments
  simp only [he]
  by_cases h0 : 0 < i.length
  · rw [spanSegs_step (f1 t (by simp)) (f2 t (by simp)) h0, if_neg (by omega), if_neg (by omega)]
    exact (spanSegs_zero_crash ts (fun u hu => f1 u (by simp [hu])) (fun u hu => f2 u (by simp [hu])) _).1
  · have : i.length = 0 := by omega
    rw [this]; simp [spanSegs]

/-! ### How the pieces survive -/

theorem simplifyList_head {simp : CRef → Res CRef} {c : CRef} {cs out : List CRef} (h : simplifyList simp (c :: cs) = .ok out)
    (h0 : c.length ≠ 0) : ∃ c' out', out = c' :: out' ∧ simp c = .ok c' := by
  simp only [simplifyList, if_neg h0] at h
  obtain ⟨c', e1, h⟩ := Res.bind_eq_ok.mp h
  obtain ⟨cs', e2, h⟩ := Res.bind_eq_ok.mp h
  cases h
  exact ⟨c', cs', rfl, e1⟩

/-- Building a block from pieces. -/
theorem Block.new_lined {k : Nat} {sens : Sens} {c : CRef} {cs : List CRef} {b : Block} (hw : CRef.WFList (c :: cs))
    (hm : CRef.MonoList (c :: cs)) (hk : k < c.length) (h : Block.new sens (c :: cs) = .ok b) : Block.Lined k b := by
  obtain ⟨b', e1, _, _, _, e5, e6, e7⟩ := Block.new_spec (sens := sens) hw
  rw [h] at e1
  cases e1
  refine ⟨e5, e7 hm, e6, ?_⟩
  unfold Block.new Block.simplify at h
  obtain ⟨out, f1, h⟩ := Res.bind_eq_ok.mp h
  cases h
  obtain ⟨c', out', rfl, f2⟩ := simplifyList_head f1 (by omega)
  obtain ⟨c'', g1, g2, _⟩ := simplifyRef_spec (CRef.depthList (c :: cs)) c hw.1
    (CRef.depth_le_of_mem List.mem_cons_self) (by omega)
  have : c' = c'' := by
    have := f2.symm.trans g1
    injection this
  exact ⟨c', out', rfl, by rw [this, g2]; exact hk⟩

theorem collectRefs_head {c : CRef} {cs out : List CRef} {n : Nat} (h : Span.collectRefs c cs n = .ok out) :
    ∃ c' out', out = c' :: out' ∧ c'.length = min c.length n ∧ c'.offset = c.offset ∧ c'.node = c.node ∧
      (cs = [] → out' = []) := by
  unfold Span.collectRefs at h
  split at h
  · rename_i hn
    cases cs with
    | nil => cases h
    | cons d cs =>
      obtain ⟨o', e1, e2⟩ := Res.map_eq_ok.mp h
      exact ⟨c, o', e2.symm, by omega, rfl, rfl, by simp⟩
  · rename_i hn
    cases h
    exact ⟨_, [], rfl, by simp; omega, rfl, rfl, fun _ => rfl⟩

/-- Copying a block of pieces. -/
theorem Block.Lined.copy {k : Nat} {v b : Block} (h : Block.Lined k v) (hb : v.span.toNewBlock = .ok b) :
    Block.Lined k b := by
  obtain ⟨hw, hm, hs, c, cs, hv, hk⟩ := h
  have hsum : v.len = c.length + lensum cs := by rw [Block.len_eq, hv]; simp
  have hgood := (Block.span_at hw hs).good
  have hl : v.span.length = v.len := rfl
  unfold Span.toNewBlock at hb
  rw [if_neg (by omega)] at hb
  obtain ⟨out, e1, e2⟩ := Res.bind_eq_ok.mp hb
  obtain ⟨out', f1, _, f3, _, f5, _⟩ := Span.coveredRefs_spec hgood (by omega)
  rw [e1] at f1
  cases f1
  have hc : v.span.contents = c :: cs := by simpa [Span.contents, Block.span] using hv
  unfold Span.coveredRefs at e1
  rw [hc] at e1
  obtain ⟨_, _, e1⟩ := Res.bind_eq_ok.mp e1
  obtain ⟨c', o', rfl, g2, _⟩ := collectRefs_head e1
  refine Block.new_lined f3 (f5 hm) ?_ e2
  rw [g2, hl, hsum]
  simp only [Block.span]
  omega

/-- Building a block from one window. -/
theorem Block.new_wrapped {k : Nat} {sens : Sens} {c : CRef} {b : Block} (hw : CRef.WF c) (hk : k < c.length)
    (hf : CRef.Front k c) (h : Block.new sens [c] = .ok b) :
    Block.Wrapped k b := by
  obtain ⟨v, hv, ⟨l1, l2, l3, d, ds, l4, l5⟩⟩ := hf
  rcases c with ⟨o, n, node⟩
  simp only at hv hk l5
  subst hv
  rcases v with ⟨vs, content⟩
  simp only at l4
  subst l4
  have l1' : CRef.WFList (d :: ds) := l1
  unfold Block.new Block.simplify at h
  obtain ⟨out, f1, h⟩ := Res.bind_eq_ok.mp h
  cases h
  have hlen := simplifyList_length f1
  obtain ⟨c', out', rfl, f2⟩ := simplifyList_head f1 (by simp; omega)
  have hout : out' = [] := by
    simp at hlen
    exact hlen
  subst hout
  generalize hd : CRef.depthList [(⟨o, n, Node.concat ⟨vs, d :: ds⟩⟩ : CRef)] = depth at f2
  have hdep : 0 < depth := by
    rw [← hd]; simp [CRef.depthList, CRef.depth, Node.depth]
  obtain ⟨depth, rfl⟩ : ∃ m, depth = m + 1 := ⟨depth - 1, by omega⟩
  have f2 : (do let kept ← dropRefs (d :: ds) o; let kept ← takeRefs kept n
                let content ← simplifyList (simplifyRef depth) kept
                return (⟨0, n, .concat ⟨vs, content⟩⟩ : CRef)) = .ok c' := f2
  have hdepth : CRef.depthList (d :: ds) ≤ depth := by
    have : CRef.depthList [(⟨o, n, Node.concat ⟨vs, d :: ds⟩⟩ : CRef)] = CRef.depthList (d :: ds) + 1 := by
      simp [CRef.depthList, CRef.depth, Node.depth, Block.depth]
    omega
  obtain ⟨kept, a1, f2⟩ := Res.bind_eq_ok.mp f2
  obtain ⟨kept2, b1, f2⟩ := Res.bind_eq_ok.mp f2
  obtain ⟨content, c1, f2⟩ := Res.bind_eq_ok.mp f2
  cases f2
  have hon : o + n ≤ lensum (d :: ds) := hw.1
  obtain ⟨o1, a1', _, a3, a4, a5, a6, a7⟩ := dropRefs_spec (d :: ds) o l1' (by omega)
  rw [a1] at a1'
  cases a1'
  obtain ⟨o2, b1', _, b3, b4, b5, b6, b7⟩ := takeRefs_spec kept n a3 (by omega) (by omega)
  rw [b1] at b1'
  cases b1'
  obtain ⟨o3, c1', _, c3, c4, c5, c6, c7⟩ := simplifyList_spec (simplifyRef depth) kept2
    (fun c hc hp => simplifyRef_spec depth c ((CRef.wfList_iff _).mp b3 c hc)
      (by have := CRef.depth_le_of_mem hc; omega) hp) b3
  rw [c1] at c1'
  cases c1'
  refine ⟨_, rfl, ⟨vs, content⟩, rfl, ⟨c3, c5 (b6 (a6 l2)), c7, ?_⟩⟩
  simp only [Nat.zero_add]
  -- the first piece
  rw [dropRefs, if_neg (by omega)] at a1
  cases a1
  have hhead : ∃ e es, kept2 = e :: es ∧ k < e.length := by
    unfold takeRefs at b1
    split at b1
    · cases b1
      exact ⟨_, _, rfl, hk⟩
    · obtain ⟨o', e1, e2⟩ := Res.map_eq_ok.mp b1
      exact ⟨_, _, e2.symm, by simp; omega⟩
  obtain ⟨e, es, rfl, he⟩ := hhead
  obtain ⟨e', es', rfl, g1⟩ := simplifyList_head c1 (by omega)
  obtain ⟨e'', g2, g3, _⟩ := simplifyRef_spec depth e b3.1
    (by have := CRef.depth_le_of_mem (show e ∈ e :: es from List.mem_cons_self); omega) (by omega)
  have : e' = e'' := by
    have := g1.symm.trans g2
    injection this
  exact ⟨e', es', rfl, by rw [this, g3]; exact he⟩

/-- Wrapping a block of pieces. -/
theorem Block.Lined.wrap {k : Nat} {sens : Sens} {v b : Block} (h : Block.Lined k v)
    (hb : Block.new sens [CRef.ofNode (.concat v)] = .ok b) : Block.Wrapped k b := by
  have hk : k < (CRef.ofNode (.concat v)).length := by
    obtain ⟨_, _, _, c, cs, hv, hk⟩ := h
    show k < Node.len (.concat v)
    have : Node.len (.concat v) = lensum v.content := by simp [Node.len, Block.len_eq]
    rw [this, hv]; simp; omega
  refine Block.new_wrapped (c := CRef.ofNode (.concat v)) ⟨by simp, h.wf⟩ hk ⟨v, rfl, ?_⟩ hb
  simpa [CRef.ofNode] using h

/-- Copying a wrapped block. -/
theorem Block.Wrapped.copy {k : Nat} {v b : Block} (h : Block.Wrapped k v) (hk : k < v.len) (hw : Block.WF v) (hs : v.Solid)
    (hb : v.span.toNewBlock = .ok b) : Block.Wrapped k b := by
  obtain ⟨c, hv, hf⟩ := h
  have hsum : v.len = c.length := by rw [Block.len_eq, hv]; simp
  have hgood := (Block.span_at hw hs).good
  have hl : v.span.length = v.len := rfl
  unfold Span.toNewBlock at hb
  rw [if_neg (by omega)] at hb
  obtain ⟨out, e1, e2⟩ := Res.bind_eq_ok.mp hb
  obtain ⟨out', f1, _, f3, _, _, _⟩ := Span.coveredRefs_spec hgood (by omega)
  rw [e1] at f1
  cases f1
  have hc : v.span.contents = [c] := by simpa [Span.contents, Block.span] using hv
  unfold Span.coveredRefs at e1
  rw [hc] at e1
  obtain ⟨_, _, e1⟩ := Res.bind_eq_ok.mp e1
  obtain ⟨c', o', rfl, g2, g3, g4, g5⟩ := collectRefs_head e1
  cases g5 rfl
  obtain ⟨w, hw1, hw2⟩ := hf
  refine Block.new_wrapped f3.1 ?_ ⟨w, by rw [g4]; exact hw1, by rw [g3]; exact hw2⟩ e2
  rw [g2, hl, hsum]
  simp only [Block.span]
  omega

/-! ### Where spans of such blocks start -/

theorem CRef.Front.le {k m : Nat} {c : CRef} (h : CRef.Front k c) (hm : m ≤ k) : CRef.Front m c := by
  obtain ⟨v, hv, h1, h2, h3, d, ds, h4, h5⟩ := h
  exact ⟨v, hv, h1, h2, h3, d, ds, h4, by omega⟩

/-- The span sees all references of its block and ends at position `n`. -/
def Span.EndsAt (n : Nat) (s : Span) : Prop := s.start = 0 ∧ s.offset + s.length = n

theorem Span.EndsAt.sliceFrom {n a : Nat} {i j : Span} {c : CRef} (hc : i.parent.content = [c]) (h : i.EndsAt n)
    (hj : i.sliceFrom a = .ok j) : j.EndsAt n ∧ j.parent = i.parent ∧ a ≤ i.length ∧ j.length = i.length - a := by
  unfold Span.sliceFrom at hj
  obtain ⟨l, e1, e2⟩ := Res.bind_eq_ok.mp hj
  unfold usub at e1
  split at e1
  · rename_i hle
    cases e1
    obtain ⟨h1, h2⟩ := h
    unfold Span.revalidate at e2
    split at e2
    · rename_i h0
      cases e2
      exact ⟨⟨h1, by simp only at h0 ⊢; omega⟩, rfl, hle, rfl⟩
    · obtain ⟨⟨st, o⟩, e3, e4⟩ := Res.bind_eq_ok.mp e2
      cases e4
      have hcon : ({ i with offset := i.offset + a, length := i.length - a } : Span).contents = [c] := by
        simp only [Span.contents, h1, hc, List.drop_zero]
      rw [hcon, Span.revalLoop] at e3
      split at e3
      · cases e3
      · cases e3
        exact ⟨⟨h1, by simp only; omega⟩, rfl, hle, rfl⟩
  · cases e1

theorem Span.EndsAt.takeSplit {n k : Nat} {i r m : Span} {c : CRef} (hc : i.parent.content = [c]) (h : i.EndsAt n)
    (hs : i.takeSplit k = .ok (r, m)) : r.EndsAt n ∧ m.start = 0 ∧ m.offset + m.length + r.length = n := by
  unfold Span.takeSplit at hs
  obtain ⟨_, _, hs⟩ := Res.bind_eq_ok.mp hs
  obtain ⟨a, e1, e2⟩ := Res.bind_eq_ok.mp hs
  cases e2
  obtain ⟨g1, _, g3, g4⟩ := h.sliceFrom hc e1
  refine ⟨g1, h.1, ?_⟩
  simp only [Span.sliceTo]
  have := h.2
  omega

theorem Span.EndsAt.takeTill {n : Nat} {i r w : Span} {p : Char → Bool} {c : CRef} (hc : i.parent.content = [c]) (h : i.EndsAt n)
    (hs : Nom.takeTill p i = .ok (.done r w)) : r.parent = i.parent ∧ (r.EndsAt n ∨ r.length = 0) := by
  unfold Nom.takeTill at hs
  obtain ⟨⟨r', w'⟩, e1, e2⟩ := Res.bind_eq_ok.mp hs
  cases e2
  unfold Span.splitAtPosition at e1
  obtain ⟨o, e3, e4⟩ := Res.bind_eq_ok.mp e1
  cases o with
  | none => cases e4; exact ⟨rfl, .inr rfl⟩
  | some x =>
    obtain ⟨a, e5, e6⟩ := Res.bind_eq_ok.mp e4
    cases e6
    obtain ⟨g1, g2, _⟩ := h.sliceFrom hc e5
    exact ⟨g2, .inl g1⟩

theorem Nom.tag_takeSplit {w : Str} {i r m : Span} (h : Nom.tag w i = .ok (.done r m)) : i.takeSplit (blen w) = .ok (r, m) := by
  unfold Nom.tag at h
  obtain ⟨o, _, h⟩ := Res.bind_eq_ok.mp h
  cases o with
  | ok =>
    obtain ⟨⟨a, b⟩, e1, e2⟩ := Res.bind_eq_ok.mp h
    cases e2
    exact e1
  | incomplete => cases h
  | error => cases h

/-- The segments of a span of such a block. -/
theorem Span.At.front {P : Block} {t : List LChar} {j : Span} {k : Nat} {c : CRef} (h : j.At P t) (hc : P.content = [c])
    (hs : j.start = 0) (ho : j.offset ≤ k) (hf : CRef.Front k c) : j.segments.crash = false := by
  obtain ⟨h1, ⟨h2, h3⟩, _⟩ := h
  have hcon : j.contents = [c] := by simp only [Span.contents, hs, h1, hc, List.drop_zero]
  rcases h3 with h0 | ⟨c', cs, e1, e2, _⟩
  · simp [Span.segments, h0, spanSegs]
  · rw [hcon] at e1
    cases e1
    exact Span.segments_front h2 hcon e2 (hf.le ho)

/-- Adding part of a block with one window to another block. -/
theorem Block.pushAll_window {b b' P : Block} {ln : Span} {c : CRef} {n : Nat} (hp : ln.parent = P) (hc : P.content = [c])
    (he : ln.EndsAt n) (h0 : ln.length ≠ 0) (h : b.pushAll ln = .ok b') :
    ∃ l, 0 < l ∧ b'.content = b.content ++ [⟨c.offset + ln.offset, l, c.node⟩] := by
  have hcon : ln.contents = [c] := by simp only [Span.contents, he.1, hp, hc, List.drop_zero]
  unfold Block.pushAll at h
  rw [if_neg h0] at h
  obtain ⟨out, e1, e2⟩ := Res.bind_eq_ok.mp h
  cases e2
  unfold Span.coveredRefs at e1
  rw [hcon] at e1
  obtain ⟨_, h1, e1⟩ := Res.bind_eq_ok.mp e1
  obtain ⟨⟨o', l', n'⟩, out', rfl, g1, g2, g3, g4⟩ := collectRefs_head e1
  cases g4 rfl
  simp only at g1 g2 g3
  subst g2 g3
  refine ⟨l', ?_, rfl⟩
  unfold rassert at h1
  split at h1
  · rename_i hlt
    have : ln.offset < c.length := by simpa using hlt
    omega
  · cases h1

/-- The text after the targets: where its first piece is. -/
theorem Span.front_after {b1 b2 P : Block} {ln slice : Span} {c : CRef} {k n m : Nat} {t : List LChar} (hp : ln.parent = P)
    (hc : P.content = [c]) (he : ln.EndsAt n) (h0 : ln.length ≠ 0) (h : b1.pushAll ln = .ok b2) (hat : slice.At b2 t)
    (hf : CRef.Front k c)
    (hs : (b1.content = [] ∧ slice.EndsAt m ∧ slice.offset + ln.offset ≤ k) ∨
      (∃ a, b1.content = [a] ∧ a.length = 1 ∧ ln.offset ≤ k ∧ ∃ q, b2.span.takeSplit 1 = .ok (slice, q)))
    (l : Nat) (hl : l ≤ slice.length) :
    (slice.sliceTo l).segments.crash = false := by
  obtain ⟨l', hl', hb2⟩ := Block.pushAll_window hp hc he h0 h
  obtain ⟨v, hv, l1, l2, l3, d, ds, l4, l5⟩ := hf
  rcases hs with ⟨h1, h2, h3⟩ | ⟨a, h1, ha, h3, q, h4⟩
  · rw [h1, List.nil_append] at hb2
    have hcon : (slice.sliceTo l).contents = [(⟨c.offset + ln.offset, l', c.node⟩ : CRef)] := by
      simp only [Span.contents, Span.sliceTo, h2.1, hat.parent, hb2, List.drop_zero]
    obtain ⟨_, ⟨g1, g2⟩, _⟩ := hat
    by_cases hz : slice.length = 0
    · have : l = 0 := by omega
      subst this
      simp [Span.segments, Span.sliceTo, spanSegs]
    obtain ⟨c', cs, e1, e2, _⟩ := g2.resolve_left hz
    have : slice.contents = (slice.sliceTo l).contents := rfl
    rw [this, hcon] at e1
    cases e1
    exact Span.segments_front (i := slice.sliceTo l) g1 hcon e2
      ⟨v, hv, l1, l2, l3, d, ds, l4, by simp only [Span.sliceTo]; omega⟩
  · rw [h1] at hb2
    have hslice : slice.length = 0 ∨ (slice.start = 1 ∧ slice.offset = 0) := by
      unfold Span.takeSplit at h4
      obtain ⟨_, _, h4⟩ := Res.bind_eq_ok.mp h4
      obtain ⟨s, e1, e2⟩ := Res.bind_eq_ok.mp h4
      cases e2
      unfold Span.sliceFrom at e1
      obtain ⟨len, e3, e4⟩ := Res.bind_eq_ok.mp e1
      unfold Span.revalidate at e4
      split at e4
      · rename_i hz
        cases e4
        exact .inl hz
      · obtain ⟨⟨st, o⟩, e5, e6⟩ := Res.bind_eq_ok.mp e4
        cases e6
        right
        have hcon : ({ b2.span with offset := b2.span.offset + 1, length := len } : Span).contents =
            [a, ⟨c.offset + ln.offset, l', c.node⟩] := by
          simp [Span.contents, Block.span, hb2]
        rw [hcon] at e5
        have e5 : Span.revalLoop [a, ⟨c.offset + ln.offset, l', c.node⟩] 0 1 = .ok (st, o) := e5
        rw [Span.revalLoop, if_pos (by omega), Span.revalLoop, if_neg (by simp only; omega)] at e5
        cases e5
        exact ⟨rfl, by simp only; omega⟩
    obtain ⟨g0, ⟨g1, g2⟩, _⟩ := hat
    rcases hslice with hz | ⟨s1, s2⟩
    · have : l = 0 := by omega
      subst this
      simp [Span.segments, Span.sliceTo, spanSegs]
    · have hcon : (slice.sliceTo l).contents = [(⟨c.offset + ln.offset, l', c.node⟩ : CRef)] := by
        simp [Span.contents, Span.sliceTo, s1, g0, hb2]
      exact Span.segments_front (i := slice.sliceTo l) g1 hcon (by simp only [Span.sliceTo, s2]; exact hl')
        ⟨v, hv, l1, l2, l3, d, ds, l4, by simp only [Span.sliceTo, s2]; omega⟩

end Hastur
