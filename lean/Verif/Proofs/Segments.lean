import Verif.Proofs.Blocks
/-
Lemmas: segments.
-/
namespace Hastur

/-- The text of a list of located strings. -/
def segsText (ts : List LStr) : List LChar := ts.flatMap LStr.ltext

@[simp] theorem segsText_nil : segsText [] = [] := rfl
@[simp] theorem segsText_cons (t : LStr) (ts : List LStr) : segsText (t :: ts) = t.ltext ++ segsText ts := rfl
@[simp] theorem segsText_append (a b : List LStr) : segsText (a ++ b) = segsText a ++ segsText b := by
  simp [segsText]

/-- All segments are ASCII. -/
def SegsAscii (ts : List LStr) : Prop := ∀ t ∈ ts, AsciiS t.contents
/-- No segment is empty. -/
def SegsSolid (ts : List LStr) : Prop := ∀ t ∈ ts, t.contents ≠ []

theorem segsAscii_nil : SegsAscii [] := fun _ h => nomatch h
theorem segsSolid_nil : SegsSolid [] := fun _ h => nomatch h

/-- A segment stream describes a text: it yields a prefix of it, and all of it unless it crashes. -/
def SStream.Of (s : SStream) (text : List LChar) : Prop :=
  SegsAscii s.items ∧ SegsSolid s.items ∧ segsText s.items <+: text ∧ (s.crash = false → segsText s.items = text)

theorem LStr.len_ascii {t : LStr} (h : AsciiS t.contents) : t.len = t.contents.length := blen_ascii h
@[simp] theorem LStr.ltext_len (t : LStr) : t.ltext.length = t.contents.length := by simp [LStr.ltext]

theorem LStr.slice_panic {s : LStr} {o l : Nat} (h : s.len ≤ o) : s.slice o l = .panic .assertion := by
  unfold slice rassert
  rw [if_neg (by simpa using h)]; rfl

/-- One segment cut to a window. -/
def LStr.cut (t : LStr) (o l : Nat) : LStr := ⟨t.loc.after (t.contents.take o), (t.contents.drop o).take l⟩

theorem LStr.cut_ltext (t : LStr) (o l : Nat) : (t.cut o l).ltext = (t.ltext.drop o).take l := t.slice_ltext o l
theorem LStr.cut_ascii {t : LStr} (h : AsciiS t.contents) (o l : Nat) : AsciiS (t.cut o l).contents :=
  (h.drop o).take l
theorem LStr.cut_length (t : LStr) (o l : Nat) (h : o + l ≤ t.contents.length) : (t.cut o l).contents.length = l := by
  simp only [LStr.cut, List.length_take, List.length_drop]; omega

theorem take_min_append {α : Type} (a b : List α) (n : Nat) :
    (a ++ b).take n = a.take (min n a.length) ++ b.take (n - min n a.length) := by
  rw [List.take_append]
  by_cases h : n ≤ a.length
  · rw [Nat.min_eq_left h]; simp [Nat.sub_eq_zero_of_le h]
  · have h : a.length ≤ n := by omega
    rw [Nat.min_eq_right h, List.take_of_length_le h, List.take_of_length_le (Nat.le_refl _)]

theorem refSegs_step {o l : Nat} {t : LStr} {ts : List LStr} {crash : Bool} (ha : AsciiS t.contents) (h0 : 0 < l) :
    refSegs o l (t :: ts) crash =
      if t.contents.length < o then refSegs (o - t.contents.length) l ts crash
      else if o = t.contents.length then ⟨[], true⟩
      else
        let n := min l (t.contents.length - o)
        SStream.cons (t.cut o n) (refSegs 0 (l - n) ts crash) := by
  obtain ⟨l, rfl⟩ : ∃ k, l = k + 1 := ⟨l - 1, by omega⟩
  simp only [refSegs, LStr.len_ascii ha]
  by_cases h1 : t.contents.length < o
  · rw [if_pos h1, if_pos h1]
  · rw [if_neg h1, if_neg h1]
    by_cases h2 : o = t.contents.length
    · rw [if_pos h2, LStr.slice_panic (by rw [LStr.len_ascii ha]; omega)]
    · rw [if_neg h2, LStr.slice_ascii ha (by omega) (by omega)]
      simp only
      have hc : (⟨t.loc.after (t.contents.take o), (t.contents.drop o).take (t.contents.length - o)⟩ : LStr)
          = t.cut o (t.contents.length - o) := rfl
      rw [hc, LStr.len_ascii (LStr.cut_ascii ha _ _), LStr.cut_length _ _ _ (by omega)]
      by_cases h3 : t.contents.length - o > l + 1
      · rw [if_pos h3, Nat.min_eq_left (by omega),
          LStr.slice_ascii (LStr.cut_ascii ha _ _) (by rw [LStr.cut_length _ _ _ (by omega)]; omega) (by omega)]
        simp only
        have hcc : (⟨(t.cut o (t.contents.length - o)).loc.after
            ((t.cut o (t.contents.length - o)).contents.take 0),
            ((t.cut o (t.contents.length - o)).contents.drop 0).take (l + 1)⟩ : LStr) = t.cut o (l + 1) := by
          rw [List.take_zero, Location.after_nil, List.drop_zero]
          simp only [LStr.cut, List.take_take]
          rw [Nat.min_eq_left (by omega)]
        rw [hcc, LStr.len_ascii (LStr.cut_ascii ha _ _), LStr.cut_length _ _ _ (by omega)]
      · rw [if_neg h3, Nat.min_eq_right (by omega)]

theorem spanSegs_step {o l : Nat} {t : LStr} {ts : List LStr} {crash : Bool} (ha : AsciiS t.contents)
    (hs : t.contents ≠ []) (h0 : 0 < l) :
    spanSegs o l (t :: ts) crash =
      if t.contents.length < o then spanSegs (o - t.contents.length) l ts crash
      else if o = t.contents.length then ⟨[], true⟩
      else
        let n := min l (t.contents.length - o)
        SStream.cons (t.cut o n) (spanSegs 0 (l - n) ts crash) := by
  obtain ⟨l, rfl⟩ : ∃ k, l = k + 1 := ⟨l - 1, by omega⟩
  have hpos : 0 < t.contents.length := List.length_pos_iff.mpr hs
  simp only [spanSegs, LStr.len_ascii ha]
  by_cases h1 : t.contents.length < o
  · rw [if_pos h1, if_pos h1]
  · rw [if_neg h1, if_neg h1]
    by_cases h2 : o = t.contents.length
    · rw [if_pos h2, if_pos (by omega), LStr.slice_panic (by rw [LStr.len_ascii ha]; omega)]
    · rw [if_neg h2]
      have e1 : (if o ≠ 0 then t.slice o (t.contents.length - o) else .ok t) =
          .ok (t.cut o (t.contents.length - o)) := by
        by_cases ho : o = 0
        · subst ho
          simp [LStr.cut]
        · rw [if_pos ho, LStr.slice_ascii ha (by omega) (by omega)]; rfl
      rw [e1]
      simp only
      rw [LStr.len_ascii (LStr.cut_ascii ha _ _), LStr.cut_length _ _ _ (by omega)]
      by_cases h3 : l + 1 < t.contents.length - o
      · rw [if_pos h3, Nat.min_eq_left (by omega),
          LStr.slice_ascii (LStr.cut_ascii ha _ _) (by rw [LStr.cut_length _ _ _ (by omega)]; omega) (by omega)]
        simp only
        have hcc : (⟨(t.cut o (t.contents.length - o)).loc.after
            ((t.cut o (t.contents.length - o)).contents.take 0),
            ((t.cut o (t.contents.length - o)).contents.drop 0).take (l + 1)⟩ : LStr) = t.cut o (l + 1) := by
          rw [List.take_zero, Location.after_nil, List.drop_zero]
          simp only [LStr.cut, List.take_take]
          rw [Nat.min_eq_left (by omega)]
        rw [hcc, LStr.len_ascii (LStr.cut_ascii ha _ _), LStr.cut_length _ _ _ (by omega)]
      · rw [if_neg h3, Nat.min_eq_right (by omega)]
        simp only
        rw [LStr.len_ascii (LStr.cut_ascii ha _ _), LStr.cut_length _ _ _ (by omega)]

/-- The window of a stream. -/
def WindowOk (s : SStream) (text : List LChar) (crash : Bool) (l : Nat) : Prop :=
  SegsAscii s.items ∧ SegsSolid s.items ∧ segsText s.items <+: text ∧
    (s.crash = false → segsText s.items = text ∧ (crash = true → (segsText s.items).length = l))

theorem windowOk_cons {t : LStr} {s : SStream} {text : List LChar} {crash : Bool} {o l n : Nat}
    (ha : AsciiS t.contents) (hn : n ≤ l) (h0 : 0 < n) (hl : o + n ≤ t.contents.length)
    (h : WindowOk s text crash (l - n)) :
    WindowOk (SStream.cons (t.cut o n) s) ((t.ltext.drop o).take n ++ text) crash l := by
  obtain ⟨h1, h2, h3, h4⟩ := h
  refine ⟨?_, ?_, ?_, ?_⟩
  · intro u hu
    rcases List.mem_cons.mp hu with rfl | hu
    · exact LStr.cut_ascii ha _ _
    · exact h1 u hu
  · intro u hu
    rcases List.mem_cons.mp hu with rfl | hu
    · rw [← List.length_pos_iff, LStr.cut_length _ _ _ hl]; exact h0
    · exact h2 u hu
  · simp only [SStream.cons, segsText_cons, LStr.cut_ltext]
    exact (List.prefix_append_right_inj _).mpr h3
  · intro hc
    obtain ⟨g1, g2⟩ := h4 hc
    refine ⟨by simp only [SStream.cons, segsText_cons, LStr.cut_ltext, g1], fun hcr => ?_⟩
    have := g2 hcr
    simp only [SStream.cons, segsText_cons, List.length_append, LStr.ltext_len, this, LStr.cut_length _ _ _ hl]
    omega

theorem window_text {t : LStr} {T : List LChar} {o l : Nat} (h : o < t.contents.length) :
    ((t.ltext ++ T).drop o).take l =
      (t.ltext.drop o).take (min l (t.contents.length - o)) ++ T.take (l - min l (t.contents.length - o)) := by
  rw [List.drop_append_of_le_length (by simp; omega), take_min_append]
  simp

theorem refSegs_spec (ts : List LStr) (crash : Bool) (ha : SegsAscii ts) (o l : Nat) :
    WindowOk (refSegs o l ts crash) (((segsText ts).drop o).take l) crash l := by
  induction ts generalizing o l with
  | nil =>
    cases l with
    | zero => exact ⟨segsAscii_nil, segsSolid_nil, by simp [refSegs], by simp [refSegs]⟩
    | succ l =>
      refine ⟨segsAscii_nil, segsSolid_nil, by simp [refSegs], ?_⟩
      intro hc
      simp only [refSegs] at hc
      simp [refSegs, hc]
  | cons t ts ih =>
    have hat := ha t (by simp)
    have has : SegsAscii ts := fun u hu => ha u (by simp [hu])
    by_cases h0 : 0 < l
    · rw [refSegs_step hat h0]
      split
      · rename_i h1
        have := ih has (o - t.contents.length) l
        rw [segsText_cons, List.drop_append, List.drop_of_length_le (by simp; omega)]
        simpa using this
      · rename_i h1
        split
        · exact ⟨segsAscii_nil, segsSolid_nil, by simp, by simp⟩
        · rename_i h2
          rw [segsText_cons, window_text (by omega)]
          exact windowOk_cons hat (by omega) (by omega) (by omega) (by simpa using ih has 0 _)
    · have : l = 0 := by omega
      subst this
      exact ⟨by simpa [refSegs] using segsAscii_nil, by simpa [refSegs] using segsSolid_nil, by simp [refSegs], by simp [refSegs]⟩

theorem spanSegs_spec (ts : List LStr) (crash : Bool) (ha : SegsAscii ts) (hs : SegsSolid ts) (o l : Nat) :
    WindowOk (spanSegs o l ts crash) (((segsText ts).drop o).take l) crash l := by
  induction ts generalizing o l with
  | nil =>
    cases l with
    | zero => exact ⟨segsAscii_nil, segsSolid_nil, by simp [spanSegs], by simp [spanSegs]⟩
    | succ l =>
      refine ⟨segsAscii_nil, segsSolid_nil, by simp [spanSegs], ?_⟩
      intro hc
      simp only [spanSegs] at hc
      simp [spanSegs, hc]
  | cons t ts ih =>
    have hat := ha t (by simp)
    have has : SegsAscii ts := fun u hu => ha u (by simp [hu])
    have hss : SegsSolid ts := fun u hu => hs u (by simp [hu])
    by_cases h0 : 0 < l
    · rw [spanSegs_step hat (hs t (by simp)) h0]
      split
      · rename_i h1
        have := ih has hss (o - t.contents.length) l
        rw [segsText_cons, List.drop_append, List.drop_of_length_le (by simp; omega)]
        simpa using this
      · rename_i h1
        split
        · exact ⟨segsAscii_nil, segsSolid_nil, by simp, by simp⟩
        · rename_i h2
          rw [segsText_cons, window_text (by omega)]
          exact windowOk_cons hat (by omega) (by omega) (by omega) (by simpa using ih has hss 0 _)
    · have : l = 0 := by omega
      subst this
      exact ⟨by simpa [spanSegs] using segsAscii_nil, by simpa [spanSegs] using segsSolid_nil, by simp [spanSegs], by simp [spanSegs]⟩

/-- A window of a prefix. -/
theorem window_prefix {α : Type} {p T : List α} (h : p <+: T) (o l : Nat) :
    (p.drop o).take l <+: (T.drop o).take l := by
  obtain ⟨q, rfl⟩ := h
  rw [List.drop_append, List.take_append]
  exact List.prefix_append _ _

theorem of_window {s inner : SStream} {T : List LChar} {o l : Nat}
    (hp : segsText inner.items <+: T) (he : inner.crash = false → segsText inner.items = T)
    (h : WindowOk s (((segsText inner.items).drop o).take l) inner.crash l) :
    s.Of ((T.drop o).take l) := by
  obtain ⟨h1, h2, h3, h4⟩ := h
  refine ⟨h1, h2, h3.trans (window_prefix hp o l), ?_⟩
  intro hc
  obtain ⟨g1, g2⟩ := h4 hc
  cases hcr : inner.crash with
  | false => rw [g1, he hcr]
  | true =>
    have g2 := g2 hcr
    have hpre := h3.trans (window_prefix hp o l)
    refine hpre.eq_of_length_le ?_
    rw [g2]
    simp only [List.length_take]
    omega

theorem SStream.of_append {a b : SStream} {A B : List LChar} (ha : a.Of A) (hb : b.Of B) :
    (a.append b).Of (A ++ B) := by
  obtain ⟨a1, a2, a3, a4⟩ := ha
  obtain ⟨b1, b2, b3, b4⟩ := hb
  unfold SStream.append
  split
  · rename_i hc
    exact ⟨a1, a2, a3.trans (List.prefix_append _ _), by simp [hc]⟩
  · rename_i hc
    have a4 := a4 (by simpa using hc)
    refine ⟨?_, ?_, ?_, ?_⟩
    · intro t ht
      rcases List.mem_append.mp ht with h | h
      · exact a1 t h
      · exact b1 t h
    · intro t ht
      rcases List.mem_append.mp ht with h | h
      · exact a2 t h
      · exact b2 t h
    · rw [segsText_append, a4]; exact (List.prefix_append_right_inj _).mpr b3
    · intro hcb
      rw [segsText_append, a4, b4 hcb]

mutual
theorem Node.segments_of : ∀ n : Node, Node.WF n →
    SegsAscii (Node.segments n).items ∧ segsText (Node.segments n).items <+: Node.ltext n ∧
      ((Node.segments n).crash = false → segsText (Node.segments n).items = Node.ltext n)
  | .constant s, h => by
    refine ⟨?_, ?_, ?_⟩
    · intro t ht
      simp [Node.segments] at ht; subst ht; exact h
    · simp [Node.segments, Node.ltext]
    · intro _; simp [Node.segments, Node.ltext]
  | .concat v, h => ⟨(Block.segments_of v h).1, (Block.segments_of v h).2.2⟩
  | .varRef _ v, h => ⟨(Block.segments_of v h).1, (Block.segments_of v h).2.2⟩
  | .subRef _ _ _ v, h => ⟨(Block.segments_of v h).1, (Block.segments_of v h).2.2⟩
  | .evaluated v, h => ⟨(Block.segments_of v h).1, (Block.segments_of v h).2.2⟩
theorem Block.segments_of : ∀ b : BlockOf Node, Block.WF b → (Block.segments b).Of (Block.ltext b)
  | ⟨s, content⟩, h => by
    obtain ⟨h1, h2, h3, h4⟩ := CRef.segmentsList_of content h
    have hl := CRef.ltextList_length content h
    have := of_window (T := CRef.ltextList content) h3 h4
      (spanSegs_spec _ (CRef.segmentsList content).crash h1 h2 0 (content.map (·.length)).sum)
    rw [List.drop_zero, ← hl, List.take_length] at this
    rw [hl] at this
    exact this
theorem CRef.segmentsList_of : ∀ cs : List (CRefOf Node), CRef.WFList cs →
    (CRef.segmentsList cs).Of (CRef.ltextList cs)
  | [], _ => ⟨segsAscii_nil, segsSolid_nil, by simp [CRef.segmentsList, CRef.ltextList],
      by simp [CRef.segmentsList, CRef.ltextList]⟩
  | c :: cs, h => SStream.of_append (CRef.segments_of c h.1) (CRef.segmentsList_of cs h.2)
theorem CRef.segments_of : ∀ c : CRefOf Node, CRef.WF c → (CRef.segments c).Of (CRef.ltext c)
  | ⟨o, l, node⟩, h => by
    obtain ⟨h1, h2, h3⟩ := Node.segments_of node h.2
    exact of_window h2 h3 (refSegs_spec _ (Node.segments node).crash h1 o l)
end

theorem Span.segments_of {s : Span} (h : Block.WF s.parent) : s.segments.Of s.ltext := by
  obtain ⟨h1, h2, h3, h4⟩ := CRef.segmentsList_of _ (Span.wf_contents h)
  exact of_window h3 h4 (spanSegs_spec _ (CRef.segmentsList s.contents).crash h1 h2 s.offset s.length)

/-! ### No crash on nodes with one segment -/

theorem spanSegs_zero_crash (ts : List LStr) (ha : SegsAscii ts) (hs : SegsSolid ts) (l : Nat) :
    (spanSegs 0 l ts false).crash = false ∧ (spanSegs 0 l ts false).items.length ≤ ts.length := by
  induction ts generalizing l with
  | nil => cases l <;> simp [spanSegs]
  | cons t ts ih =>
    have hat := ha t (by simp)
    have has : SegsAscii ts := fun u hu => ha u (by simp [hu])
    have hss : SegsSolid ts := fun u hu => hs u (by simp [hu])
    have hpos : 0 < t.contents.length := List.length_pos_iff.mpr (hs t (by simp))
    by_cases h0 : 0 < l
    · rw [spanSegs_step hat (hs t (by simp)) h0, if_neg (by omega), if_neg (by omega)]
      obtain ⟨g1, g2⟩ := ih has hss (l - min l (t.contents.length - 0))
      exact ⟨g1, by simp only [SStream.cons, List.length_cons]; omega⟩
    · have : l = 0 := by omega
      subst this; simp [spanSegs]

mutual
theorem Node.segments_mono : ∀ n : Node, Node.WF n → Node.Mono n →
    (Node.segments n).crash = false ∧ (Node.segments n).items.length ≤ 1
  | .constant s, _, _ => ⟨rfl, Nat.le_refl _⟩
  | .concat v, h, hm => ⟨(Block.segments_mono v h hm.2).1, Nat.le_trans (Block.segments_mono v h hm.2).2 hm.1⟩
  | .varRef _ v, h, hm => ⟨(Block.segments_mono v h hm.2).1, Nat.le_trans (Block.segments_mono v h hm.2).2 hm.1⟩
  | .subRef _ _ _ v, h, hm => ⟨(Block.segments_mono v h hm.2).1, Nat.le_trans (Block.segments_mono v h hm.2).2 hm.1⟩
  | .evaluated v, h, hm => ⟨(Block.segments_mono v h hm.2).1, Nat.le_trans (Block.segments_mono v h hm.2).2 hm.1⟩
theorem Block.segments_mono : ∀ b : BlockOf Node, Block.WF b → Block.Mono b →
    (Block.segments b).crash = false ∧ (Block.segments b).items.length ≤ b.content.length
  | ⟨s, content⟩, h, hm => by
    obtain ⟨h1, h2⟩ := CRef.segmentsList_mono content h hm
    obtain ⟨g1, g2, _, _⟩ := CRef.segmentsList_of content h
    simp only [Block.segments, h1]
    obtain ⟨k1, k2⟩ := spanSegs_zero_crash _ g1 g2 (content.map (·.length)).sum
    exact ⟨k1, Nat.le_trans k2 h2⟩
theorem CRef.segmentsList_mono : ∀ cs : List (CRefOf Node), CRef.WFList cs → CRef.MonoList cs →
    (CRef.segmentsList cs).crash = false ∧ (CRef.segmentsList cs).items.length ≤ cs.length
  | [], _, _ => ⟨rfl, Nat.le_refl _⟩
  | c :: cs, h, hm => by
    obtain ⟨a1, a2⟩ := CRef.segments_mono c h.1 hm.1
    obtain ⟨b1, b2⟩ := CRef.segmentsList_mono cs h.2 hm.2
    simp only [CRef.segmentsList, SStream.append, a1]
    simp [b1]; omega
theorem CRef.segments_mono : ∀ c : CRefOf Node, CRef.WF c → CRef.Mono c →
    (CRef.segments c).crash = false ∧ (CRef.segments c).items.length ≤ 1
  | ⟨o, l, node⟩, h, hm => by
    obtain ⟨a1, a2⟩ := Node.segments_mono node h.2 hm
    obtain ⟨b1, b2, b3⟩ := Node.segments_of node h.2
    have b3 := b3 a1
    have hl := Node.ltext_length node h.2
    have hol := h.1
    simp only [CRef.segments, a1]
    by_cases h0 : 0 < l
    · generalize hi : (Node.segments node).items = items at *
      match items, a2 with
      | [], _ =>
        simp at b3
        rw [b3] at hl
        simp at hl; omega
      | [t], _ =>
        have hat := b1 t (by simp)
        have : t.contents.length = node.len := by rw [← hl, ← b3]; simp
        rw [refSegs_step hat h0, if_neg (by omega), if_neg (by omega)]
        have hmin : l - min l (t.contents.length - o) = 0 := by omega
        simp [hmin, refSegs, SStream.cons]
    · have : l = 0 := by omega
      subst this; simp [refSegs]
end

theorem Span.segments_mono {s : Span} (h : s.Good) (hm : Block.Mono s.parent) :
    s.segments.crash = false := by
  have hc := Span.wf_contents h.1
  rw [Block.mono_eq] at hm
  have hm : CRef.MonoList s.contents := CRef.monoList_drop _ hm
  obtain ⟨g1, g2, _, _⟩ := CRef.segmentsList_of _ hc
  have h1 := (CRef.segmentsList_mono _ hc hm).1
  simp only [Span.segments, h1]
  rcases h.2 with h0 | ⟨c, cs, e1, e2, e3⟩
  · rw [h0]; simp [spanSegs]
  · rw [e1] at hc hm g1 g2 h1 ⊢
    obtain ⟨a1, a2⟩ := CRef.segments_mono c hc.1 hm.1
    have b4 := (CRef.segments_of c hc.1).2.2.2 a1
    have hl := CRef.ltext_length c hc.1
    simp only [CRef.segmentsList, SStream.append, a1] at g1 g2 h1 ⊢
    simp only [Bool.false_eq_true, if_false] at g1 g2 h1 ⊢
    by_cases h0 : s.length = 0
    · rw [h0]; simp [spanSegs]
    · generalize hi : (CRef.segments c).items = items at *
      match items, a2 with
      | [], _ =>
        rw [← b4] at hl
        simp at hl; omega
      | [t], _ =>
        have hat := g1 t (by simp)
        have : t.contents.length = c.length := by rw [← hl, ← b4]; simp
        rw [List.singleton_append] at g1 g2 ⊢
        rw [spanSegs_step hat (g2 t (by simp)) (by omega), if_neg (by omega), if_neg (by omega)]
        exact (spanSegs_zero_crash _ (fun u hu => g1 u (by simp [hu])) (fun u hu => g2 u (by simp [hu])) _).1

/-! ### Spans whose segments can be listed -/

theorem Span.allSegments_whole {s : Span} (h : s.Good) (hc : s.segments.crash = false) :
    ∃ ts, s.allSegments = .ok ts ∧ segsText ts = s.ltext ∧ SegsSolid ts ∧ SegsAscii ts := by
  obtain ⟨h1, h2, h3, h4⟩ := Span.segments_of h.1 (s := s)
  exact ⟨s.segments.items, by simp [Span.allSegments, hc], h4 hc, h2, h1⟩

theorem Span.firstSegment_whole {s : Span} (h : s.Good) (hc : s.segments.crash = false) :
    (s.length = 0 ∧ s.firstSegment = .ok none) ∨
      ∃ t, s.firstSegment = .ok (some t) ∧ AsciiS t.contents ∧ t.contents ≠ [] ∧ t.ltext <+: s.ltext := by
  obtain ⟨h1, h2, h3, h4⟩ := Span.segments_of h.1 (s := s)
  have h4 := h4 hc
  unfold Span.firstSegment
  cases hs : s.segments with
  | mk items crash =>
    rw [hs] at h1 h2 h3 h4 hc
    simp only at *
    subst hc
    cases items with
    | nil =>
      left
      simp at h4
      have := Span.ltext_length h.wf
      rw [h4] at this
      exact ⟨by simpa using this.symm, rfl⟩
    | cons t ts =>
      right
      refine ⟨t, rfl, h1 t (by simp), h2 t (by simp), ?_⟩
      rw [← h4]; simp

theorem Span.location_whole {s : Span} (h : s.Good) (hc : s.segments.crash = false) :
    s.location = .ok (s.ltext.head?.map Prod.snd) := by
  unfold Span.location
  rcases Span.firstSegment_whole h hc with ⟨h0, h1⟩ | ⟨t, h1, h2, h3, h4⟩
  · rw [h1]
    have := Span.ltext_length h.wf
    rw [h0, List.length_eq_zero_iff] at this
    simp [this]
  · rw [h1]
    obtain ⟨q, hq⟩ := h4
    rcases t with ⟨loc, contents⟩
    cases contents with
    | nil => exact absurd rfl h3
    | cons c cs =>
      rw [← hq]
      simp [LStr.ltext, locate]

/-- The segments of a span of a block with one segment per node. -/
theorem Span.allSegments_mono {s : Span} (h : s.Good) (hm : Block.Mono s.parent) :
    ∃ ts, s.allSegments = .ok ts ∧ segsText ts = s.ltext ∧ SegsSolid ts ∧ SegsAscii ts :=
  Span.allSegments_whole h (Span.segments_mono h hm)

theorem Span.firstSegment_mono {s : Span} (h : s.Good) (hm : Block.Mono s.parent) :
    (s.length = 0 ∧ s.firstSegment = .ok none) ∨
      ∃ t, s.firstSegment = .ok (some t) ∧ AsciiS t.contents ∧ t.contents ≠ [] ∧ t.ltext <+: s.ltext :=
  Span.firstSegment_whole h (Span.segments_mono h hm)

theorem Span.location_mono {s : Span} (h : s.Good) (hm : Block.Mono s.parent) :
    s.location = .ok (s.ltext.head?.map Prod.snd) :=
  Span.location_whole h (Span.segments_mono h hm)

end Hastur
