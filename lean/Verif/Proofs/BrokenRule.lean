import Verif.Proofs.ContinuedRule
import Verif.Proofs.SegmentsExact
/-
Lemmas: rule lines that are broken in front of their dependencies.  The word that follows the break starts exactly where
a piece of the line ends, so its location cannot be found (C17).
-/
namespace Hastur

open Res Span

/-! ### Aborts -/

theorem Res.panics_after {α β : Type} {x : Res α} {f : α → Res β} {a : α} (h : x = .ok a) (hf : ∃ e, f a = .panic e) :
    ∃ e, (x >>= f) = .panic e := by
  subst h
  exact hf

theorem Res.panics_here {α β : Type} {x : Res α} {f : α → Res β} (h : ∃ e, x = .panic e) : ∃ e, (x >>= f) = .panic e := by
  obtain ⟨e, rfl⟩ := h
  exact ⟨e, rfl⟩

/-- If the first segment cannot be found, neither can the location. -/
theorem Span.location_panics {s : Span} (h : s.Good) (h0 : s.length ≠ 0)
    (hb : (0 < s.offset ∧ PieceEnd s.contents s.offset) ∨ BadVisit s.contents (s.offset + 1)) :
    ∃ e, s.location = .panic e := by
  have hp := (Span.segments_behaves h (by omega)).panics 1 (by omega) (by omega)
  rw [show min 1 s.length = 1 by omega] at hp
  obtain ⟨h1, h2⟩ := hp.mp hb
  obtain ⟨_, g2, _, _⟩ := Span.segments_of h.1 (s := s)
  cases hs : s.segments with
  | mk items crash =>
    rw [hs] at h1 h2 g2
    cases items with
    | nil =>
      simp only at h1
      subst h1
      simp only [Span.location, Span.firstSegment, hs]
      exact ⟨_, rfl⟩
    | cons t ts =>
      have : t.contents ≠ [] := g2 t (by simp)
      have hpos : 0 < t.contents.length := List.length_pos_iff.mpr this
      simp only [segLens_cons, List.sum_cons] at h2
      omega

/-- A window on a block of pieces that starts where one of the pieces ends. -/
theorem Span.location_broken {s : Span} {o l : Nat} {v : Block} {tail : List CRef} (h : s.Good) (h0 : s.length ≠ 0)
    (hc : s.contents = ⟨o, l, .concat v⟩ :: tail) (hl : s.offset < l) (hv : PieceEnd v.content (o + s.offset)) :
    ∃ e, s.location = .panic e := by
  apply Span.location_panics h h0
  rw [hc]
  by_cases hz : s.offset = 0
  · right
    rw [hz, Nat.add_zero] at hv
    exact ⟨_, .here (by omega) (by simp only; omega), boundary_pos hv, v, .concat, hv⟩
  · left
    exact ⟨by omega, .inside .concat (by omega) hl hv⟩

theorem expandSegment_panics {r : Rec} {s : Span} {st : St} (h : ∃ e, s.location = .panic e) :
    ∃ e, expandSegment r s st = .panic e := by
  obtain ⟨e, h⟩ := h
  refine ⟨e, ?_⟩
  unfold expandSegment parseAst
  rw [parseAstF, h]
  rfl

/-! ### Pieces -/

/-- The first reference has `k` characters, the second one. -/
def CRef.Two (k : Nat) (cs : List CRef) : Prop := ∃ d s more, cs = d :: s :: more ∧ d.length = k ∧ s.length = 1

theorem CRef.Two.ends {k : Nat} {cs : List CRef} (h : CRef.Two k cs) (h0 : 0 < k) :
    PieceEnd cs k ∧ PieceEnd cs (k + 1) := by
  obtain ⟨d, s, more, rfl, rfl, h2⟩ := h
  refine ⟨.here h0, ?_⟩
  have : PieceEnd (s :: more) s.length := .here (by omega)
  rw [h2] at this
  exact .later this

theorem CRef.Two.simplify {k depth : Nat} {cs out : List CRef} (h : CRef.Two k cs) (h0 : 0 < k) (hw : CRef.WFList cs)
    (hd : CRef.depthList cs ≤ depth) (ho : simplifyList (simplifyRef depth) cs = .ok out) : CRef.Two k out := by
  obtain ⟨d, s, more, rfl, h1, h2⟩ := h
  have key : ∀ c ∈ d :: s :: more, 0 < c.length → ∀ c', simplifyRef depth c = .ok c' → c'.length = c.length := by
    intro c hc hp c' he
    obtain ⟨c'', g1, g2, _⟩ := simplifyRef_spec depth c ((CRef.wfList_iff _).mp hw c hc)
      (Nat.le_trans (CRef.depth_le_of_mem hc) hd) hp
    have := he.symm.trans g1
    injection this with this
    rw [this, g2]
  simp only [simplifyList, if_neg (show ¬ d.length = 0 by omega), if_neg (show ¬ s.length = 0 by omega)] at ho
  obtain ⟨d', e1, ho⟩ := Res.bind_eq_ok.mp ho
  obtain ⟨o1, e2, ho⟩ := Res.bind_eq_ok.mp ho
  obtain ⟨s', e3, e2⟩ := Res.bind_eq_ok.mp e2
  obtain ⟨o2, e4, e2⟩ := Res.bind_eq_ok.mp e2
  cases e2
  cases ho
  exact ⟨d', s', o2, rfl, by rw [key d (by simp) (by omega) d' e1, h1], by rw [key s (by simp) (by omega) s' e3, h2]⟩

theorem CRef.Two.new {k : Nat} {sens : Sens} {cs : List CRef} {b : Block} (h : CRef.Two k cs) (h0 : 0 < k)
    (hw : CRef.WFList cs) (hb : Block.new sens cs = .ok b) : CRef.Two k b.content := by
  unfold Block.new Block.simplify at hb
  obtain ⟨out, f1, hb⟩ := Res.bind_eq_ok.mp hb
  cases hb
  exact h.simplify h0 hw (Nat.le_refl _) f1

theorem lensum_two {k : Nat} {cs : List CRef} (h : CRef.Two k cs) : k + 1 ≤ lensum cs := by
  obtain ⟨d, s, more, rfl, h1, h2⟩ := h
  simp
  omega

/-- Copying a block of pieces. -/
theorem CRef.Two.copy {k : Nat} {v b : Block} (h : CRef.Two k v.content) (h0 : 0 < k) (hw : Block.WF v) (hs : v.Solid)
    (hb : v.span.toNewBlock = .ok b) : CRef.Two k b.content := by
  have hsum := lensum_two h
  have hlen : v.len = lensum v.content := Block.len_eq v
  have hl : v.span.length = v.len := rfl
  have hgood := (Block.span_at hw hs).good
  unfold Span.toNewBlock at hb
  rw [if_neg (by omega)] at hb
  obtain ⟨out, e1, e2⟩ := Res.bind_eq_ok.mp hb
  obtain ⟨out', f1, _, f3, _⟩ := Span.coveredRefs_spec hgood (by omega)
  rw [e1] at f1
  cases f1
  refine CRef.Two.new ?_ h0 f3 e2
  obtain ⟨d, s, more, hv, h1, h2⟩ := h
  have hc : v.span.contents = d :: s :: more := by simpa [Span.contents, Block.span] using hv
  unfold Span.coveredRefs at e1
  rw [hc] at e1
  obtain ⟨_, _, e1⟩ := Res.bind_eq_ok.mp e1
  have hsum : k + 1 ≤ v.span.length := by omega
  rw [Span.collectRefs, if_pos (by simp only [Block.span]; simp only [Block.span] at hsum; omega)] at e1
  obtain ⟨o, e3, e4⟩ := Res.map_eq_ok.mp e1
  obtain ⟨s', o', rfl, g2, _⟩ := collectRefs_head e3
  refine ⟨_, s', o', e4.symm, by simp only [Block.span]; omega, ?_⟩
  rw [g2]
  simp only [Block.span] at hsum ⊢
  omega

/-- The block is one window on a block of pieces of which the first has `k` characters and the second one. -/
def Block.Split (k : Nat) (b : Block) : Prop := ∃ l v, b.content = [⟨0, l, .concat v⟩] ∧ CRef.Two k v.content

theorem Block.new_split {k l : Nat} {sens : Sens} {v b : Block} (h : CRef.Two k v.content) (h0 : 0 < k)
    (hw : CRef.WF ⟨0, l, .concat v⟩) (hl : k + 1 ≤ l) (hb : Block.new sens [⟨0, l, .concat v⟩] = .ok b) : Block.Split k b := by
  rcases v with ⟨vs, content⟩
  have hwv : CRef.WFList content := hw.2
  unfold Block.new Block.simplify at hb
  obtain ⟨out, f1, hb⟩ := Res.bind_eq_ok.mp hb
  cases hb
  have hlen := simplifyList_length f1
  obtain ⟨c', out', rfl, f2⟩ := simplifyList_head f1 (by simp; omega)
  have hout : out' = [] := by
    simp at hlen
    exact hlen
  subst hout
  generalize hd : CRef.depthList [(⟨0, l, Node.concat ⟨vs, content⟩⟩ : CRef)] = depth at f2
  have hdep : 0 < depth := by
    rw [← hd]; simp [CRef.depthList, CRef.depth, Node.depth]
  obtain ⟨depth, rfl⟩ : ∃ m, depth = m + 1 := ⟨depth - 1, by omega⟩
  have f2 : (do let kept ← dropRefs content 0; let kept ← takeRefs kept l
                let content ← simplifyList (simplifyRef depth) kept
                return (⟨0, l, .concat ⟨vs, content⟩⟩ : CRef)) = .ok c' := f2
  have hdepth : CRef.depthList content ≤ depth := by
    have : CRef.depthList [(⟨0, l, Node.concat ⟨vs, content⟩⟩ : CRef)] = CRef.depthList content + 1 := by
      simp [CRef.depthList, CRef.depth, Node.depth, Block.depth]
    omega
  obtain ⟨kept, a1, f2⟩ := Res.bind_eq_ok.mp f2
  obtain ⟨kept2, b1, f2⟩ := Res.bind_eq_ok.mp f2
  obtain ⟨content', c1, f2⟩ := Res.bind_eq_ok.mp f2
  cases f2
  have hon : 0 + l ≤ lensum content := hw.1
  obtain ⟨o1, a1', _, a3, a4, a5, _⟩ := dropRefs_spec content 0 hwv (by omega)
  rw [a1] at a1'
  cases a1'
  obtain ⟨o2, b1', _, b3, b4, b5, _⟩ := takeRefs_spec kept l a3 (by omega) (by omega)
  rw [b1] at b1'
  cases b1'
  refine ⟨l, ⟨vs, content'⟩, rfl, CRef.Two.simplify ?_ h0 b3 (by omega) c1⟩
  obtain ⟨d, s, more, rfl, h1, h2⟩ := h
  rw [dropRefs, if_neg (by omega)] at a1
  cases a1
  rw [takeRefs, if_neg (by simp only; omega)] at b1
  obtain ⟨o, e1, e2⟩ := Res.map_eq_ok.mp b1
  unfold takeRefs at e1
  split at e1
  · rename_i hle
    simp only at hle
    cases e1
    exact ⟨_, _, [], e2.symm, by simp only; omega, by simp only; omega⟩
  · obtain ⟨o', e3, e4⟩ := Res.map_eq_ok.mp e1
    cases e4
    exact ⟨_, s, o', e2.symm, by simp only; omega, h2⟩

/-- Wrapping a block of pieces. -/
theorem CRef.Two.wrap {k : Nat} {sens : Sens} {v b : Block} (h : CRef.Two k v.content) (h0 : 0 < k) (hw : Block.WF v)
    (hb : Block.new sens [CRef.ofNode (.concat v)] = .ok b) : Block.Split k b := by
  have hsum := lensum_two h
  have hl : Node.len (.concat v) = lensum v.content := by simp [Node.len, Block.len_eq]
  exact Block.new_split (l := Node.len (.concat v)) h h0 ⟨by simp, hw⟩ (by omega) hb

/-- Copying a wrapped block. -/
theorem Block.Split.copy {k : Nat} {v b : Block} (h : Block.Split k v) (h0 : 0 < k) (hk : k + 1 ≤ v.len) (hw : Block.WF v)
    (hs : v.Solid) (hb : v.span.toNewBlock = .ok b) : Block.Split k b := by
  obtain ⟨l, u, hv, h⟩ := h
  have hsum : v.len = l := by rw [Block.len_eq, hv]; simp
  have hgood := (Block.span_at hw hs).good
  have hl : v.span.length = v.len := rfl
  unfold Span.toNewBlock at hb
  rw [if_neg (by omega)] at hb
  obtain ⟨out, e1, e2⟩ := Res.bind_eq_ok.mp hb
  obtain ⟨out', f1, _, f3, _⟩ := Span.coveredRefs_spec hgood (by omega)
  rw [e1] at f1
  cases f1
  have hc : v.span.contents = [⟨0, l, .concat u⟩] := by simpa [Span.contents, Block.span] using hv
  unfold Span.coveredRefs at e1
  rw [hc] at e1
  obtain ⟨_, _, e1⟩ := Res.bind_eq_ok.mp e1
  obtain ⟨⟨o', l', n'⟩, out', rfl, g2, g3, g4, g5⟩ := collectRefs_head e1
  cases g5 rfl
  simp only [Block.span] at g2 g3 g4 hl
  subst g3 g4
  exact Block.new_split h h0 f3.1 (by omega) e2

/-! ### Words -/

variable {P : Block} {t : List LChar} {i : Span}

/-- A word behind some blanks: a blank that is followed by something else is either the last of these blanks, or
behind the word. -/
theorem word_or_break {gap w u front X : List LChar} {sp : LChar} (hg : Blanks gap) (hw0 : w ≠ [])
    (hw : ∀ x ∈ w, lblank x = false) (hsp : lblank sp = true) (hX : ∀ x, X.head? = some x → lblank x = false)
    (h : gap ++ (w ++ u) = front ++ sp :: X) :
    X = w ++ u ∨ ∃ front', front = gap ++ (w ++ front') ∧ u = front' ++ sp :: X := by
  have first : ∀ {a : List LChar}, w ++ u = a ++ sp :: X → ∃ a', a = w ++ a' ∧ u = a' ++ sp :: X := by
    intro a ha
    rcases List.append_eq_append_iff.mp ha with ⟨a', e1, e2⟩ | ⟨c', e1, e2⟩
    · exact ⟨a', e1, e2⟩
    · cases c' with
      | nil => exact ⟨[], by simpa using e1.symm, by simpa using e2.symm⟩
      | cons y c' =>
        simp only [List.cons_append, List.cons.injEq] at e2
        have := hw y (by rw [e1]; simp)
        rw [← e2.1, hsp] at this
        cases this
  rcases List.append_eq_append_iff.mp h with ⟨a, e1, e2⟩ | ⟨c', e1, e2⟩
  · obtain ⟨a', e3, e4⟩ := first e2
    exact .inr ⟨a', by rw [e1, e3], e4⟩
  · cases c' with
    | nil =>
      obtain ⟨a', e3, e4⟩ := first (a := []) (by simpa using e2.symm)
      cases w with
      | nil => exact absurd rfl hw0
      | cons x w => cases e3
    | cons y c' =>
      simp only [List.cons_append, List.cons.injEq] at e2
      cases c' with
      | nil => exact .inl (by simpa using e2.2)
      | cons z c' =>
        have h1 := hX z (by rw [e2.2]; rfl)
        have h2 := hg z (by rw [e1]; simp)
        rw [lblank_iff.mpr h2] at h1
        cases h1

theorem lblank_wordChar {x : LChar} (h : WordChar x.1) : lblank x = false := by
  cases hl : lblank x with
  | false => rfl
  | true => exact absurd (wordChar_blank (lblank_iff.mp hl)) (by simp [h.1])

/-- A word that starts behind the second piece cannot be located. -/
theorem Block.Split.word {k l : Nat} {v : Block} {r m lineNext : Span} {reason : MWordEnd} {u : List LChar}
    (hP : P.content = [⟨0, l, .concat v⟩]) (hv : CRef.Two k v.content) (h0 : 0 < k)
    (hl : lineNext.At P t) (he : lineNext.EndsAt P.len)
    (hn : nextMword lineNext = .ok (.done r (m, reason))) (hm : m.At P u) (hu : u ≠ [])
    (hlen : P.len = k + 1 + u.length + r.length) : ∃ e, m.location = .panic e := by
  obtain ⟨_, g2, g3⟩ := nextMword_tail (by rw [hl.parent]; exact hP) he hn (by rw [hm.length]; simpa using hu)
  have hml := hm.length
  have hpos := List.length_pos_iff.mpr hu
  have hPl : P.len = l := by rw [Block.len_eq, hP]; simp
  have ho : m.offset = k + 1 := by omega
  refine Span.location_broken (o := 0) (l := l) (v := v) (tail := []) hm.good (by omega) ?_ (by omega) ?_
  · simp only [Span.contents, g2, hm.parent, hP, List.drop_zero]
  · rw [ho, Nat.zero_add]
    exact (hv.ends h0).2

/-- The loop over the targets, if the line is broken among them. -/
theorem wordLoop_broken (fs : Fs) {k l : Nat} {v : Block} {ts : List LChar} {ws : List (List LChar)}
    (hP : P.content = [⟨0, l, .concat v⟩]) (hv : CRef.Two k v.content) (h0 : 0 < k)
    (hf : CRef.Front (k - 1) ⟨0, l, .concat v⟩) (hts : WordList ts ws) {cs ds X : List LChar} {sp : LChar} {double : Bool}
    (hc : textOf cs = (if double then "::".toList else ":".toList)) (hd1 : (textOf ds).head? ≠ some '=')
    (hd2 : (textOf ds).head? ≠ some ':') (hd3 : (textOf ds).head? ≠ some '\\') (hsp : lblank sp = true) (hX : ∀ x, X.head? = some x → lblank x = false)
    (hlen : P.len = k + 1 + X.length) (hXl : (cs ++ ds).length ≤ X.length) (postSemi : Option Block) :
    ∀ {gap front : List LChar} {lineNext : Span}, Blanks gap → lineNext.At P (gap ++ (ts ++ (cs ++ ds))) →
      lineNext.EndsAt P.len → gap ++ (ts ++ (cs ++ ds)) = front ++ sp :: X →
      ∃ r m reason, nextMword lineNext = .ok (.done r (m, reason)) ∧ (reason = .static ∨ reason = .variable) ∧
        ∀ n j buf bt st, 2 ≤ n → ts.length + 1 < j → Buf bt buf →
          ∃ e, wordLoop (recF fs n) j r m reason buf postSemi st = .panic e := by
  -- one word
  have word : ∀ {w u gap front : List LChar} {lineNext : Span}, w ≠ [] → (∀ x ∈ w, WordChar x.1) →
      (∃ x u', u = x :: u' ∧ (x.1 = ' ' ∨ x.1 = '\t')) → Blanks gap →
      lineNext.At P (gap ++ (w ++ u)) → lineNext.EndsAt P.len → gap ++ (w ++ u) = front ++ sp :: X →
      ∃ r m reason, nextMword lineNext = .ok (.done r (m, reason)) ∧ (reason = .static ∨ reason = .variable) ∧
        r.At P u ∧ r.EndsAt P.len ∧
        ((∃ e, m.location = .panic e) ∨ ∃ front', u = front' ++ sp :: X ∧
          ∀ st, ∃ b, Buf w b ∧ ∀ n, 2 ≤ n → expandSegment (recF fs n) m st = .ok (.ok b, st)) := by
    intro w u gap front lineNext hne hw hu hg h he heq
    obtain ⟨x, u', rfl, hblank⟩ := hu
    obtain ⟨r, m, reason, e1, e2, e3, e4⟩ := nextMword_segment h hg (segment_word hw) hne
      (by rw [textOf_cons]; exact .blank hblank)
    have hx : WordStop.extra (textOf (x :: u')) = 0 := by
      rw [textOf_cons]
      simp only [WordStop.extra]
      rw [if_neg]
      rcases hblank with h | h <;> rw [h] <;> decide
    rw [hx, List.drop_zero] at e2
    rw [hx, List.take_zero, List.append_nil] at e3
    obtain ⟨g1, g2, g3⟩ := nextMword_tail (by rw [h.parent]; exact hP) he e1 (by rw [e3.length]; simpa using hne)
    refine ⟨r, m, reason, e1, e4, e2, g1, ?_⟩
    have hpos := List.length_pos_iff.mpr hne
    rw [e3.length, e2.length] at g3
    rcases word_or_break hg hne (fun x hx => lblank_wordChar (hw x hx)) hsp hX heq with h1 | ⟨front', h1, h2⟩
    · left
      refine Block.Split.word hP hv h0 h he e1 e3 hne ?_
      rw [hlen, h1, List.length_append, e2.length]
      omega
    · right
      have hl2 := congrArg List.length h2
      simp only [List.length_append, List.length_cons] at hl2 g3
      have hcrash := e3.front hP g2 (k := k - 1) (by omega) hf
      have hdollar : Free '$' w := free_of_names (fun x hx => .inl (hw x hx)) (by simp)
      exact ⟨front', h2, fun st => by
        obtain ⟨b, b1, _, b3⟩ := expandSegment_text fs hcrash e3 hdollar st
        exact ⟨b, b1, b3⟩⟩
  have abort : ∀ {n j : Nat} {r m : Span} {reason : MWordEnd} {buf : Block} {st : St}, 0 < j → (∃ e, m.location = .panic e) →
      ∃ e, wordLoop (recF fs n) j r m reason buf postSemi st = .panic e := by
    intro n j r m reason buf st hj he
    obtain ⟨j, rfl⟩ := Nat.exists_eq_add_of_lt hj
    rw [wordLoop]
    exact Res.panics_here (expandSegment_panics he)
  induction hts with
  | @last w gap' hne hw hg' =>
    intro gap front lineNext hg h he heq
    rw [List.append_assoc] at h heq
    cases gap' with
    | nil =>
      rcases word_or_break hg hne (fun x hx => lblank_wordChar (hw x hx)) hsp hX heq with h1 | ⟨front', h1, h2⟩
      · rw [List.nil_append] at h h1
        obtain ⟨lc, cs', rfl, hcs'⟩ := colons_split hc
        obtain ⟨r, m, reason, e1, e2, e3, e4⟩ := nextMword_segment h hg (segment_word hw) hne (by
          rw [List.cons_append, textOf_cons]
          refine .colon ?_
          rw [textOf_append, hcs']
          cases double with
          | true => simp
          | false => simpa using hd3)
        have hx : WordStop.extra (textOf ((':', lc) :: cs' ++ ds)) = 1 := rfl
        rw [hx] at e2 e3
        have e2 : r.At P (cs' ++ ds) := e2
        have e3 : m.At P (w ++ [(':', lc)]) := e3
        refine ⟨r, m, reason, e1, e4, fun n j buf bt st hn hj hbuf => abort (by omega) ?_⟩
        refine Block.Split.word hP hv h0 h he e1 e3 (by simp) ?_
        rw [hlen, h1, e2.length]
        simp
        omega
      · have := congrArg List.length h2
        simp at this hXl
        omega
    | cons x gap'' =>
      obtain ⟨r, m, reason, e1, e2, e3, e4, e5⟩ := word hne hw ⟨x, _, rfl, hg' x List.mem_cons_self⟩ hg h he heq
      refine ⟨r, m, reason, e1, e2, fun n j buf bt st hn hj hbuf => ?_⟩
      rcases e5 with e5 | ⟨front', h1, h2⟩
      · exact abort (by omega) e5
      · obtain ⟨b, b1, b2⟩ := h2 st
        obtain ⟨r2, m2, reason2, c1, c2, c3, c4⟩ := nextMword_colon e3 hg' hc hd1 hd2
        obtain ⟨j, rfl⟩ : ∃ i, j = i + 1 + 1 := ⟨j - 2, by simp at hj; omega⟩
        obtain ⟨buf1, g1, g2⟩ := wordLoop_plain (mwt := reason) (postSemi := postSemi) (b2 n hn) b1
          (fun x hx => .inl (hw x hx)) hne c1 c4 hbuf
        rw [g2]
        refine abort (by omega) ?_
        have hcne : cs ≠ [] := by rintro rfl; cases double <;> cases hc
        have hcb : ∀ x ∈ cs, lblank x = false := by
          intro x hx
          have : x.1 ∈ textOf cs := mem_textOf.mpr ⟨x, hx, rfl⟩
          rw [hc] at this
          have : x.1 = ':' := by cases double <;> simpa using this
          simp [lblank, this]
        rcases word_or_break hg' hcne hcb hsp hX h1 with h3 | ⟨front'', h3, h4⟩
        · refine Block.Split.word hP hv h0 e3 e4 c1 c3 hcne ?_
          rw [hlen, h3, List.length_append, c2.length]
          omega
        · have := congrArg List.length h4
          simp at this hXl
          omega
  | @more w gap' ts ws hne hw hg' hgne hts ih =>
    intro gap front lineNext hg h he heq
    obtain ⟨x, gap'', rfl⟩ := List.exists_cons_of_ne_nil hgne
    simp only [List.append_assoc] at h heq
    obtain ⟨r, m, reason, e1, e2, e3, e4, e5⟩ := word hne hw ⟨x, _, rfl, hg' x List.mem_cons_self⟩ hg h he heq
    refine ⟨r, m, reason, e1, e2, fun n j buf bt st hn hj hbuf => ?_⟩
    rcases e5 with e5 | ⟨front', h1, h2⟩
    · exact abort (by omega) e5
    · obtain ⟨b, b1, b2⟩ := h2 st
      obtain ⟨r2, m2, reason2, c1, c2, c3⟩ := ih hg' e3 e4 h1
      obtain ⟨j, rfl⟩ : ∃ i, j = i + 1 := ⟨j - 1, by omega⟩
      obtain ⟨buf1, g1, g2⟩ := wordLoop_plain (mwt := reason) (postSemi := postSemi) (b2 n hn) b1
        (fun x hx => .inl (hw x hx)) hne c1 (by rcases c2 with h | h <;> rw [h] <;> decide) hbuf
      rw [g2]
      exact c3 n j buf1 _ st hn (by
        have := List.length_pos_iff.mpr hne
        simp at hj; omega) g1

/-! ### The text after the targets -/

/-- The text after the targets, if it starts where a piece ends. -/
theorem Span.broken_after {b1 b2 : Block} {ln slice : Span} {l k n m : Nat} {v : Block} {t : List LChar} (hp : ln.parent = P)
    (hc : P.content = [⟨0, l, .concat v⟩]) (he : ln.EndsAt n) (h0 : ln.length ≠ 0) (h : b1.pushAll ln = .ok b2)
    (hat : slice.At b2 t) (hv : PieceEnd v.content k)
    (hs : (b1.content = [] ∧ slice.EndsAt m ∧ slice.offset + ln.offset = k) ∨
      (∃ a, b1.content = [a] ∧ a.length = 1 ∧ ln.offset = k ∧ ∃ q, b2.span.takeSplit 1 = .ok (slice, q)))
    {j : Nat} (hj0 : j ≠ 0) (hj : j ≤ t.length) :
    ∃ e, (slice.sliceTo j).location = .panic e := by
  obtain ⟨l', hl', hb2⟩ := Block.pushAll_window hp hc he h0 h
  simp only [Nat.zero_add] at hb2
  have hgood := (hat.sliceTo hj).good
  have hsl : slice.length ≠ 0 := by rw [hat.length]; omega
  rcases hs with ⟨h1, h2, h3⟩ | ⟨a, h1, ha, h3, q, h4⟩
  · rw [h1, List.nil_append] at hb2
    have hcon : (slice.sliceTo j).contents = [(⟨ln.offset, l', .concat v⟩ : CRef)] := by
      simp only [Span.contents, Span.sliceTo, h2.1, hat.parent, hb2, List.drop_zero]
    obtain ⟨_, ⟨g1, g2⟩, _⟩ := hat
    obtain ⟨c', cs, e1, e2, _⟩ := g2.resolve_left hsl
    have hsame : slice.contents = (slice.sliceTo j).contents := rfl
    rw [hsame, hcon] at e1
    cases e1
    refine Span.location_broken (tail := []) hgood (by simpa [Span.sliceTo] using hj0) hcon e2 ?_
    have : ln.offset + (slice.sliceTo j).offset = k := by simp only [Span.sliceTo]; omega
    rw [this]
    exact hv
  · rw [h1] at hb2
    have hslice : slice.start = 1 ∧ slice.offset = 0 := by
      unfold Span.takeSplit at h4
      obtain ⟨_, _, h4⟩ := Res.bind_eq_ok.mp h4
      obtain ⟨s, e1, e2⟩ := Res.bind_eq_ok.mp h4
      cases e2
      unfold Span.sliceFrom at e1
      obtain ⟨len, e3, e4⟩ := Res.bind_eq_ok.mp e1
      unfold Span.revalidate at e4
      split at e4
      · rename_i hz
        cases e4
        exact absurd hz hsl
      · obtain ⟨⟨st, o⟩, e5, e6⟩ := Res.bind_eq_ok.mp e4
        cases e6
        have hcon : ({ b2.span with offset := b2.span.offset + 1, length := len } : Span).contents =
            [a, ⟨ln.offset, l', .concat v⟩] := by
          simp [Span.contents, Block.span, hb2]
        rw [hcon] at e5
        have e5 : Span.revalLoop [a, ⟨ln.offset, l', .concat v⟩] 0 1 = .ok (st, o) := e5
        rw [Span.revalLoop, if_pos (by omega), Span.revalLoop, if_neg (by simp only; omega)] at e5
        cases e5
        exact ⟨rfl, by simp only; omega⟩
    obtain ⟨s1, s2⟩ := hslice
    have hcon : (slice.sliceTo j).contents = [(⟨ln.offset, l', .concat v⟩ : CRef)] := by
      simp [Span.contents, Span.sliceTo, s1, hat.parent, hb2]
    refine Span.location_broken (tail := []) hgood (by simpa [Span.sliceTo] using hj0) hcon
      (by simp only [Span.sliceTo, s2]; exact hl') ?_
    simp only [Span.sliceTo, s2, Nat.add_zero, h3]
    exact hv

/-- A rule line that is broken right after its colons. -/
theorem finishRule_broken (fs : Fs) {rest ln : Span} {pre after : Block} {at' lt cs ds : List LChar} {double : Bool}
    {l k : Nat} {v : Block} {st : St} {targets : List Block}
    (hP : P.content = [⟨0, l, .concat v⟩]) (hv : PieceEnd v.content k) (hsolid : P.Solid) (hlen : P.len = k + ds.length)
    (hends : ln.EndsAt P.len) (hds : ds ≠ []) (hle : ds.length ≤ lt.length)
    (htargets : parseFileSeq [] pre.span = .ok targets)
    (hafter : Buf at' after) (hln : ln.At P lt) (hat : at' ++ lt = cs ++ ds)
    (hcs : textOf cs = if double then [':'] else []) (hd : (textOf ds).head? ≠ some ':')
    (hvar : ¬ VarLike (ds.dropWhile lblank)) (n : Nat) :
    ∃ e, finishRule (recF fs n) rest pre after ln none st = .panic e := by
  obtain ⟨b1, p1, p2, _⟩ := Buf.empty.pushAll hafter.at hafter.solid
  obtain ⟨b2, q1, q2, _⟩ := p2.pushAll hln hsolid
  rw [List.nil_append, hat] at q2
  have hcs1 : cs.length ≤ 1 := by rw [← textOf_length cs, hcs]; cases double <;> simp
  -- the second colon
  have hslice : ∃ slice, slice.At b2 ds ∧
      ((slice = b2.span ∧ cs = []) ∨ (cs.length = 1 ∧ ∃ q, b2.span.takeSplit 1 = .ok (slice, q))) ∧ (Nom.tag [':'] b2.span >>= fun
      | .done i _ => do
        let n ← usub b2.len 1
        return (i, true, n)
      | .err _ => .ok (b2.span, false, b2.len) : Res (Span × Bool × Nat)) = .ok (slice, double, ds.length) := by
    have hat3 := q2.at
    cases double with
    | true =>
      obtain ⟨j, q, e1, e2, _⟩ := (Nom.tag_at hat3 (w := [':']) (by unfold AsciiS; decide)).1 (by
        rw [textOf_append, hcs]; exact ⟨_, rfl⟩)
      have hl : cs.length = 1 := by rw [← textOf_length cs, hcs]; rfl
      refine ⟨j, ?_, .inr ⟨hl, q, Nom.tag_takeSplit e1⟩, ?_⟩
      · have : ([':'] : Str).length = cs.length := by rw [hl]; rfl
        rw [this, List.drop_left] at e2
        exact e2
      · rw [e1]
        simp only [ok_bind]
        rw [q2.len, List.length_append, hl]
        have : usub (1 + ds.length) 1 = .ok ds.length := by
          unfold usub
          rw [if_pos (by omega), Nat.add_sub_cancel_left]
        rw [this]
        rfl
    | false =>
      have hl : cs = [] := by
        have : cs.length = 0 := by rw [← textOf_length cs, hcs]; rfl
        exact List.length_eq_zero_iff.mp this
      subst hl
      rw [List.nil_append] at hat3
      have hmiss := tag_miss hat3 (w := [':']) (by unfold AsciiS; decide) (by
        rintro ⟨v, hv⟩
        cases ds with
        | nil => cases hv
        | cons y ds =>
          simp only [textOf_cons, List.cons_append, List.nil_append, List.cons.injEq] at hv
          exact hd (by rw [textOf_cons, ← hv.1]; rfl))
      refine ⟨b2.span, hat3, .inl ⟨rfl, rfl⟩, ?_⟩
      rw [hmiss]
      simp only [ok_bind]
      rw [q2.len, List.nil_append]
  obtain ⟨slice, s1, s3, s2⟩ := hslice
  have hll := congrArg List.length hat
  simp only [List.length_append] at hll
  have hpos := List.length_pos_iff.mpr hds
  have hlnl := hln.length
  have hoff := hends.2
  have h0 : ln.length ≠ 0 := by omega
  have hpanic : ∃ e, (slice.sliceTo ds.length).location = .panic e := by
    refine Span.broken_after (m := b2.len) hln.parent hP hends h0 q1 s1 hv ?_ (by omega) (Nat.le_refl _)
    by_cases ha : at' = []
    · left
      have hb1c : b1.content = [] := by
        unfold Block.pushAll at p1
        have : after.span.length = 0 := by
          show after.len = 0
          rw [hafter.len, ha]; rfl
        rw [if_pos this] at p1
        cases p1
        rfl
      have hends' : slice.EndsAt b2.len := by
        have hspan : b2.span.EndsAt b2.len := ⟨rfl, by simp [Block.span]⟩
        rcases s3 with ⟨rfl, _⟩ | ⟨_, q, hq⟩
        · exact hspan
        · obtain ⟨l, _, hc⟩ := Block.pushAll_window hln.parent hP hends h0 q1
          rw [hb1c] at hc
          exact (hspan.takeSplit (i := b2.span) hc hq).1
      refine ⟨hb1c, hends', ?_⟩
      have := hends'.2
      rw [s1.length, q2.len, List.length_append] at this
      rw [ha, List.length_nil] at hll
      omega
    · right
      have hapos := List.length_pos_iff.mpr ha
      have hone : at'.length = 1 := by omega
      obtain ⟨x, rfl⟩ := List.length_eq_one_iff.mp hone
      obtain ⟨a, a1, a2⟩ := p2.single
      rcases s3 with ⟨_, rfl⟩ | ⟨hc1, hq⟩
      · simp at hll; omega
      · simp at hone
        exact ⟨a, a1, a2, by simp at hll; omega, hq⟩
  obtain ⟨kk, hvl⟩ := parseVariableLine_none (recF fs n) st s1 hvar
  unfold finishRule
  refine Res.panics_after htargets ?_
  refine Res.panics_after p1 ?_
  refine Res.panics_after q1 ?_
  refine Res.panics_after (a := b2) rfl ?_
  refine Res.panics_after s2 ?_
  refine Res.panics_after hvl ?_
  have hl : ¬ slice.length > ds.length := by rw [s1.length]; omega
  refine Res.panics_after (a := none) (by rw [if_neg hl]) ?_
  exact Res.panics_here (expandSegment_panics hpanic)

/-- A rule line of plain words that is broken in front of its dependencies. -/
theorem parseTargetLine_broken (fs : Fs) {c : Continued} {t' X line rest ts cs ds : List LChar} {sp : LChar}
    {ws us : List (List LChar)} {double : Bool} {st : St} (hP : P.content.length ≤ 1) (hm : Block.Mono P)
    (h : i.At P (c.line ++ t')) (hl : Logical (c.line ++ t') line rest) (hf : Free '#' (c.line ++ t')) (hw : st.WF) (hc : c.OK)
    (hb : c.body ≠ []) (hline : line = c.body ++ sp :: X) (hsp : lblank sp = true)
    (hX : ∀ x, X.head? = some x → lblank x = false)
    (hbreak : c.body.length ≤ (ts ++ cs).length) (e : line = ts ++ (cs ++ ds))
    (hts : WordList ts ws) (hcs : textOf cs = (if double then "::".toList else ":".toList)) (hds : WordList0 ds us)
    (h4 : ¬ VarLike (ds.dropWhile lblank)) :
    line ≠ [] ∧ line.dropWhile lblank = line ∧
    ∃ j b, makefileLine i .gnu true = .ok (.done j b) ∧ LineBlock P line b ∧
      ∃ N, ∀ n, N ≤ n → ∃ e, parseTargetLine (recF fs n) b.span st = .panic e := by
  have hds' : ∀ c ∈ [':', '=', ';', '#', '\\', '$'], Free c ds := fun c hc => free_of_names hds.names hc
  have hts' : ∀ c ∈ [':', '=', ';', '#', '\\', '$'], Free c ts := fun c hc => free_of_names hts.names hc
  have hcs' : ∀ x ∈ cs, x.1 = ':' := by
    intro x hx
    have : x.1 ∈ textOf cs := mem_textOf.mpr ⟨x, hx, rfl⟩
    rw [hcs] at this
    cases double <;> simpa using this
  have hhead : ∀ c ∈ [':', '=', ';', '#', '\\'], (textOf ds).head? ≠ some c := by
    intro c hc hh
    cases ds with
    | nil => cases hh
    | cons y ds =>
      simp only [textOf_cons, List.head?_cons, Option.some.injEq] at hh
      exact hds' c (by simp only [List.mem_cons, List.not_mem_nil, or_false] at hc ⊢; tauto) y List.mem_cons_self hh
  have hall : ∀ x ∈ line, (WordChar x.1 ∨ x.1 = ' ' ∨ x.1 = '\t') ∨ x.1 = ':' := by
    intro x hx
    rw [e] at hx
    rcases List.mem_append.mp hx with hx | hx
    · exact .inl (hts.names x hx)
    rcases List.mem_append.mp hx with hx | hx
    · exact .inr (hcs' x hx)
    · exact .inl (hds.names x hx)
  have hfree : ∀ c : Char, ¬ WordChar c → c ≠ ' ' → c ≠ '\t' → c ≠ ':' → Free c line := by
    intro c w1 w2 w3 w4 x hx hxc
    rcases hall x hx with (h | h | h) | h
    · exact w1 (hxc ▸ h)
    · exact w2 (hxc ▸ h)
    · exact w3 (hxc ▸ h)
    · exact w4 (hxc ▸ h)
  have hfs := hfree '\\' (by unfold WordChar; decide) (by decide) (by decide) (by decide)
  have hfc := hfree '#' (by unfold WordChar; decide) (by decide) (by decide) (by decide)
  have hfn := hfree '\n' (by unfold WordChar; decide) (by decide) (by decide) (by decide)
  have hfm := hfree ';' (by unfold WordChar; decide) (by decide) (by decide) (by decide)
  have hsl : trailingSlashes (textOf line) % 2 = 0 := by
    have : '\\' ∉ textOf line := by
      intro hm
      obtain ⟨x, hx, hx1⟩ := mem_textOf.mp hm
      exact hfs x hx hx1
    rw [trailingSlashes_free this]
  obtain ⟨x, l, h5, hx⟩ := hts.head
  have hdrop : line.dropWhile lblank = line := by
    rw [e, h5, List.cons_append, List.dropWhile_cons, if_neg (by rw [hx]; decide)]
  have hk : 0 < c.body.length := List.length_pos_iff.mpr hb
  -- the pieces of the line
  obtain ⟨j, b, e1, e2, e3⟩ := makefileLine_logical h hl hf
  refine ⟨by rw [e, h5]; simp, hdrop, j, b, e1, e3, ?_⟩
  obtain ⟨d, more, L', g1, g2, g3⟩ := makefileLine_firstPieces hc h hf hk e1
  have htwo : CRef.Two c.body.length b.content := CRef.Two.new ⟨d, _, more, rfl, g3, rfl⟩ hk g1.wf g2
  have hlined : Block.Lined (c.body.length - 1) b := makefileLine_lined hP hm hc h hf (by omega) e1
  obtain ⟨rest', L2, m1, _, m3, _⟩ := makefileLine_one (strip := false) e3.at (grabSpec_eof hfc hfn) hsl
  obtain ⟨v, v1, v2⟩ := makefileLine_wraps e3.at hfc hfn hsl m1
  have hsplit2 : Block.Split c.body.length L2 := (htwo.copy hk hlined.wf hlined.solid v1).wrap hk (hlined.copy v1).wf v2
  have hwrap2 : Block.Wrapped (c.body.length - 1) L2 := (hlined.copy v1).wrap v2
  have hat2 : L2.span.At L2 line := m3.at
  have hstop : ∀ x ∈ line, (fun c => c == ';' || c == '#') x.1 = false := by
    intro x hx
    have a1 := hfm x hx
    have a2 := hfc x hx
    simp [a1, a2]
  obtain ⟨q, q1, q2⟩ := takeUntilUnquote_miss (fun c => c == ';' || c == '#') (by decide) (by decide) hat2 hfs hstop
  have hcopy := takeUntilUnquote_copies hat2 (by decide) hstop q1
  have hlen2 : L2.len = line.length := by
    have h1 := hat2.length
    exact h1
  have hll : line.length = c.body.length + 1 + X.length := by rw [hline]; simp; omega
  have hsplit : Block.Split c.body.length q := hsplit2.copy hk (by omega) m3.wf m3.solid hcopy
  have hwrap : Block.Wrapped (c.body.length - 1) q := hwrap2.copy (by omega) m3.wf m3.solid hcopy
  have hqat : q.span.At q line := q2.buf.at
  have hqlen : q.len = line.length := q2.buf.len
  obtain ⟨l, u, s1, s2⟩ := hsplit
  obtain ⟨c', w1, w2⟩ := hwrap
  rw [s1] at w1
  cases w1
  have hends : q.span.EndsAt q.len := ⟨rfl, by simp [Block.span]⟩
  -- where the line is broken
  have hcase : (cs ++ ds).length ≤ X.length ∨ (c.body = ts ++ cs ∧ ds = sp :: X) := by
    have e' := hline.symm.trans e
    rcases List.append_eq_append_iff.mp e' with ⟨a, f1, f2⟩ | ⟨a, f1, f2⟩
    · cases a with
      | nil =>
        exfalso
        have : ∃ y cs', cs = y :: cs' := by
          cases cs with
          | nil => cases double <;> cases hcs
          | cons y cs' => exact ⟨y, cs', rfl⟩
        obtain ⟨y, cs', rfl⟩ := this
        simp only [List.nil_append, List.cons_append, List.cons.injEq] at f2
        have := hcs' y (by simp)
        rw [f2.1] at hsp
        simp [lblank, this] at hsp
      | cons y a =>
        simp only [List.cons_append, List.cons.injEq] at f2
        left
        rw [f2.2]
        simp
    · rw [f1] at hbreak
      simp only [List.length_append] at hbreak
      rcases List.append_eq_append_iff.mp f2 with ⟨a', k1, k2⟩ | ⟨a', k1, k2⟩
      · have : a' = [] := by
          have := congrArg List.length k1
          simp only [List.length_append] at this
          exact List.length_eq_zero_iff.mp (by omega)
        subst this
        right
        rw [List.append_nil] at k1
        exact ⟨by rw [f1, k1], by simpa using k2⟩
      · cases a' with
        | nil =>
          right
          rw [List.append_nil] at k1
          exact ⟨by rw [f1, k1], by simpa using k2.symm⟩
        | cons y a' =>
          exfalso
          simp only [List.cons_append, List.cons.injEq] at k2
          have := hcs' y (by rw [k1]; simp)
          rw [k2.1] at hsp
          simp [lblank, this] at hsp
  -- what the loop is given
  have hstart : ∀ {n : Nat} {r m : Span} {reason : MWordEnd}, nextMword q.span = .ok (.done r (m, reason)) →
      (reason = .static ∨ reason = .variable) →
      (∃ e, (do
        let (res, st) ← wordLoop (recF fs n) (q.len + 2) r m reason Block.empty none st
        match res with
        | .err e => return (.err e, st)
        | .noAction => return (.done rest' .noAction, st)
        | .finished preColon afterColon lineNext postSemi mwt =>
          if mwt = .eol then do
            match ← whitespace preColon.span with
            | .err _ => .panic .unwrap
            | .done afterSpace _ =>
              if afterSpace.length = 0 then return (.done rest' .noAction, st)
              else return (.err (.failure (.custom .missingSeparator)), st)
          else do
            let afterColon ← runwrap afterColon
            finishRule (recF fs n) rest' preColon afterColon lineNext postSemi st : Res (IRes TargetAction × St)) = .panic e) →
      ∃ e, parseTargetLine (recF fs n) b.span st = .panic e := by
    intro n r m reason hn hr hx
    unfold parseTargetLine
    refine Res.panics_after m1 ?_
    refine Res.panics_after (a := (q, none)) (by rw [q1]; rfl) ?_
    refine Res.panics_after hn ?_
    rcases hr with h | h <;> subst h <;> exact hx
  rcases hcase with hcase | ⟨k1, k2⟩
  · obtain ⟨r, m, reason, a1, a2, a3⟩ := wordLoop_broken fs s1 s2 hk w2 hts hcs (hhead _ (by simp)) (hhead _ (by simp))
      (hhead _ (by simp)) hsp hX (by omega) hcase none (gap := []) (front := c.body) (lineNext := q.span)
      (by intro x hx; cases hx) (by rw [List.nil_append, ← e]; exact hqat) hends (by rw [List.nil_append, ← e, hline])
    refine ⟨2, fun n hn => hstart a1 a2 (Res.panics_here (a3 n _ _ [] st hn ?_ Buf.empty))⟩
    rw [hqlen, e]
    simp only [List.length_append]
    omega
  · obtain ⟨tt, hT, htw⟩ := targets_words st.env hts
    have hll2 := congrArg List.length k1
    simp only [List.length_append] at hll2
    have hdl : ds.length = X.length + 1 := by rw [k2]; simp
    have htr : TargetsReadable q ts ds q.span :=
      .inr ⟨hts' _ (by simp), hends, _, _, s1, w2, by omega⟩
    obtain ⟨N, r, m, reason, aft, ln, at', lt, a1, a2, a0, ⟨a3, a4, a5, a6, a8, a7⟩⟩ :=
      wordLoop_targets fs hT hcs (hhead _ (by simp)) (hhead _ (by simp)) (hhead _ (by simp)) none hw rfl
        (gap := []) (lineNext := q.span) (by intro x hx; cases hx) (by rw [List.nil_append, ← e]; exact hqat) htr
    have hnm : ¬ Block.Mono q := by
      intro hmono
      rcases q with ⟨qs, content⟩
      simp only at s1
      subst s1
      have : u.content.length ≤ 1 := hmono.1.1
      obtain ⟨d, s, more, k3, _⟩ := s2
      rw [k3] at this
      simp at this
    have hlnends : ln.EndsAt q.len := a8.resolve_left hnm
    obtain ⟨lc, cs', rfl, hcs''⟩ := colons_split hcs
    obtain ⟨b0, mwt0, extra0, x1, x2, x3, x4⟩ := a7 N (q.len + 2) Block.empty [] (Nat.le_refl _) (by
      rw [hqlen, e]; simp; omega) Buf.empty
    have hsp' : spaced [] tt = tt := by simp [spaced]
    rw [hsp'] at x2
    have htt := targets_fileNames hT
    have htargets : ∃ targets, parseFileSeq [] b0.span = .ok targets := by
      have hfn : FileNames (tt ++ extra0) := by
        intro x hx
        rcases List.mem_append.mp hx with hx | hx
        · exact htt x hx
        · rcases x3 with rfl | rfl
          · cases hx
          · cases List.mem_singleton.mp hx
            exact .inr (by decide)
      obtain ⟨bs, f1, _⟩ := parseFileSeq_names x2 hfn (stops := []) (by simp) rfl
      exact ⟨bs, f1⟩
    obtain ⟨targets, htargets⟩ := htargets
    refine ⟨N, fun n hn => hstart a1 a2 ?_⟩
    refine Res.panics_after ((wordLoop_le (recF_le fs hn) (q.len + 2) r m reason Block.empty none st).ok x1) ?_
    simp only [if_neg x4, runwrap, ok_bind]
    exact finishRule_broken fs s1 ((s2.ends hk).1) q2.buf.solid (by omega) hlnends (by rw [k2]; simp) a0 htargets a3 a5 a6 hcs''
      (hhead _ (by simp)) h4 n

/-- A line on which `parse_target_line` aborts. -/
theorem parseLine_target_panics (fs : Fs) {n : Nat} {line : List LChar} {p : PState} {st : St} {b : Block} {j : Span}
    (h : i.At P t) (hf : Free '#' t) (hd : p.currentDefine = none) (ha : p.ignoring = false)
    (hc : isAscii st.commandChar = true) (hr : p.currentRule = none ∨ (textOf t).head? ≠ some st.commandChar)
    (e1 : makefileLine i .gnu true = .ok (.done j b)) (hat : b.span.At b line) (hne : line ≠ [])
    (hdrop : line.dropWhile lblank = line) (h4 : (textOf line).head? ≠ some st.commandChar) (h5 : ¬ CondLike line)
    (h6 : ¬ VarLike line) (h7 : ¬ DirectiveLike line)
    (f4 : ∃ e, parseTargetLine (recF fs n) b.span st = .panic e) :
    ∃ e, parseLine fs (recF fs n) p st i = .panic e := by
  have hlen : b.len ≠ 0 := by
    have := hat.length
    have e : b.span.length = b.len := rfl
    rw [← e, this]
    simpa using hne
  rw [parseLine_collapsed fs _ h hf hd hc hr]
  obtain ⟨k, hv⟩ := parseVariableLine_none (recF fs n) st hat (by rw [hdrop]; exact h6)
  obtain ⟨e, f4⟩ := f4
  refine ⟨e, ?_⟩
  unfold parseCollapsed
  simp only [e1, ok_bind, if_neg hlen, parseConditionalLine_none hat (by rw [hdrop]; exact h5),
    if_neg (show ¬ p.ignoring = true by rw [ha]; decide)]
  unfold parseStatement
  simp only [hv, ok_bind, parseDirectiveLine_none hat h7, Nom.firstChar_at hat, if_neg h4, f4]
  rfl

/-- A logical line does not begin with a blank. -/
theorem Logical.head_nonblank {line rest : List LChar} (h : Logical t line rest) :
    ∀ x, line.head? = some x → lblank x = false := by
  obtain ⟨cs, lead, final, tail, rest, h1, _, _, h4, _, _⟩ := h
  have not : ∀ {x : LChar}, ¬ (x.1 = ' ' ∨ x.1 = '\t') → lblank x = false := by
    intro x hx
    cases hl : lblank x with
    | false => rfl
    | true => exact absurd (lblank_iff.mp hl) hx
  induction cs with
  | nil => exact fun x hx => not (h4 x (by simpa [joinSpaces] using hx))
  | cons c cs ih =>
    have ih := ih fun c hc => h1 c (List.mem_cons_of_mem _ hc)
    rcases (h1 c List.mem_cons_self).body with ⟨hb, _⟩ | ⟨⟨y, l, hb, hy⟩, _⟩
    · simpa [hb] using ih
    · intro x hx
      have : x = y := by
        rw [List.map_cons, List.filter_cons, if_pos (by rw [hb]; rfl), List.cons_append, hb] at hx
        have hj : ∀ (ls : List (List LChar)), (joinSpaces ((y :: l) :: ls)).head? = some y := by
          intro ls
          cases ls <;> simp [joinSpaces]
        rw [hj] at hx
        exact (Option.some.inj hx).symm
      rw [this]
      exact not hy

end Hastur
