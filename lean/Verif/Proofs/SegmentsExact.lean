import Verif.Proofs.Segments
import Verif.Spec.Segments
/-
Lemmas: exactly when iterating segments panics.
-/
namespace Hastur

/-- `b` is a sum of some first lengths. -/
def Cut : List Nat → Nat → Prop
  | [], _ => False
  | m :: ms, b => b = m ∨ (m < b ∧ Cut ms (b - m))

/-- The lengths of segments. -/
def segLens (ts : List LStr) : List Nat := ts.map (·.contents.length)

@[simp] theorem segLens_nil : segLens [] = [] := rfl
@[simp] theorem segLens_cons (t : LStr) (ts : List LStr) : segLens (t :: ts) = t.contents.length :: segLens ts := rfl

theorem segLens_append (a b : List LStr) : segLens (a ++ b) = segLens a ++ segLens b := by simp [segLens]

theorem segsText_length (ts : List LStr) : (segsText ts).length = (segLens ts).sum := by
  induction ts with
  | nil => rfl
  | cons t ts ih => simp [ih]

theorem cut_le {ms : List Nat} {b : Nat} (h : Cut ms b) : b ≤ ms.sum := by
  induction ms generalizing b with
  | nil => exact h.elim
  | cons m ms ih =>
    rcases h with h | ⟨h1, h2⟩
    · simp; omega
    · have := ih h2; simp; omega

theorem cut_sum {ms : List Nat} (h : ∀ m ∈ ms, 0 < m) (hn : ms ≠ []) : Cut ms ms.sum := by
  induction ms with
  | nil => exact absurd rfl hn
  | cons m ms ih =>
    cases ms with
    | nil => left; simp
    | cons k ks =>
      right
      have hk := h k (by simp)
      refine ⟨by simp; omega, ?_⟩
      have := ih (fun x hx => h x (by simp [hx])) (by simp)
      simpa using this

theorem cut_append {as bs : List Nat} (h : ∀ m ∈ as, 0 < m) {b : Nat} :
    Cut (as ++ bs) b ↔ Cut as b ∨ (as.sum < b ∧ Cut bs (b - as.sum)) ∨ (as = [] ∧ b = 0 ∧ Cut bs 0) := by
  induction as generalizing b with
  | nil =>
    simp only [List.nil_append, Cut, List.sum_nil, false_or, Nat.sub_zero, true_and]
    constructor
    · intro h
      rcases Nat.eq_zero_or_pos b with hb | hb
      · right; exact ⟨hb, hb ▸ h⟩
      · left; exact ⟨hb, h⟩
    · rintro (⟨_, h⟩ | ⟨rfl, h⟩) <;> exact h
  | cons m ms ih =>
    have hm := h m (by simp)
    simp only [List.cons_append, Cut, List.sum_cons, reduceCtorEq, false_and, or_false]
    rw [ih (fun x hx => h x (by simp [hx]))]
    constructor
    · rintro (h | ⟨h1, h2 | ⟨h2, h3⟩ | ⟨_, h3, _⟩⟩)
      · exact .inl (.inl h)
      · exact .inl (.inr ⟨h1, h2⟩)
      · refine .inr ⟨by omega, ?_⟩
        rwa [Nat.sub_add_eq]
      · omega
    · rintro ((h | ⟨h1, h2⟩) | ⟨h1, h2⟩)
      · exact .inl h
      · exact .inr ⟨h1, .inl h2⟩
      · refine .inr ⟨by omega, ?_⟩
        rw [Nat.sub_add_eq] at h2
        exact .inr (.inl ⟨by omega, h2⟩)

theorem SegsSolid.pos {ts : List LStr} (h : SegsSolid ts) : ∀ m ∈ segLens ts, 0 < m := by
  intro m hm
  obtain ⟨t, ht, rfl⟩ := List.mem_map.mp hm
  exact List.length_pos_iff.mpr (h t ht)

theorem SegsSolid.tail {t : LStr} {ts : List LStr} (h : SegsSolid (t :: ts)) : SegsSolid ts :=
  fun u hu => h u (by simp [hu])
theorem SegsAscii.tail {t : LStr} {ts : List LStr} (h : SegsAscii (t :: ts)) : SegsAscii ts :=
  fun u hu => h u (by simp [hu])

theorem spanSegs_eq_refSegs {ts : List LStr} (ha : SegsAscii ts) (hs : SegsSolid ts) (o l : Nat) (crash : Bool) :
    spanSegs o l ts crash = refSegs o l ts crash := by
  induction ts generalizing o l with
  | nil => cases l <;> rfl
  | cons t ts ih =>
    by_cases h0 : 0 < l
    · rw [spanSegs_step (ha t (by simp)) (hs t (by simp)) h0, refSegs_step (ha t (by simp)) h0]
      simp only [ih ha.tail hs.tail]
    · have : l = 0 := by omega
      subst this; simp [spanSegs, refSegs]

theorem refSegs_cut {ts : List LStr} (ha : SegsAscii ts) {o l : Nat} {crash : Bool} (hl : 0 < l)
    (h : Cut (segLens ts) o) : refSegs o l ts crash = ⟨[], true⟩ := by
  induction ts generalizing o with
  | nil => exact h.elim
  | cons t ts ih =>
    rw [refSegs_step (ha t (by simp)) hl]
    rw [segLens_cons] at h
    rcases h with h | ⟨h1, h2⟩
    · rw [if_neg (by omega), if_pos h]
    · rw [if_pos h1]; exact ih ha.tail h2

theorem refSegs_past {ts : List LStr} (ha : SegsAscii ts) {o l : Nat} {crash : Bool} (hl : 0 < l)
    (h : (segLens ts).sum < o) : refSegs o l ts crash = ⟨[], crash⟩ := by
  induction ts generalizing o with
  | nil =>
    obtain ⟨k, rfl⟩ : ∃ k, l = k + 1 := ⟨l - 1, by omega⟩
    rfl
  | cons t ts ih =>
    rw [refSegs_step (ha t (by simp)) hl]
    simp only [segLens_cons, List.sum_cons] at h
    rw [if_pos (by omega)]
    exact ih ha.tail (by omega)

theorem refSegs_window {ts : List LStr} (ha : SegsAscii ts) (hs : SegsSolid ts) {o l : Nat} {crash : Bool}
    (ho : o ≤ (segLens ts).sum) (hc : 0 < o → ¬ Cut (segLens ts) o) :
    (segLens (refSegs o l ts crash).items).sum = min l ((segLens ts).sum - o) ∧
    ((refSegs o l ts crash).crash = true ↔ crash = true ∧ (segLens ts).sum < o + l) ∧
    ∀ b, 0 < b → b ≤ min l ((segLens ts).sum - o) →
      (Cut (segLens (refSegs o l ts crash).items) b ↔ b = l ∨ (b < l ∧ Cut (segLens ts) (o + b))) := by
  induction ts generalizing o l with
  | nil =>
    simp only [segLens_nil, List.sum_nil] at ho
    have : o = 0 := by omega
    subst this
    cases l <;> simp [refSegs] <;> omega
  | cons t ts ih =>
    have hat := ha t (by simp)
    have hpos : 0 < t.contents.length := List.length_pos_iff.mpr (hs t (by simp))
    simp only [segLens_cons, List.sum_cons] at ho hc ⊢
    by_cases h0 : 0 < l
    · rw [refSegs_step hat h0]
      split
      · rename_i h1
        obtain ⟨i1, i2, i3⟩ := ih ha.tail hs.tail (o := o - t.contents.length) (l := l) (by omega)
          (fun hp hcut => hc (by omega) (.inr ⟨h1, hcut⟩))
        refine ⟨by rw [i1]; omega, ?_, ?_⟩
        · rw [i2]
          constructor <;> rintro ⟨a, b⟩ <;> exact ⟨a, by omega⟩
        · intro b hb hb2
          rw [i3 b hb (by omega)]
          have e : o - t.contents.length + b = o + b - t.contents.length := by omega
          rw [e]
          constructor
          · rintro (h | ⟨h, h2⟩)
            · exact .inl h
            · exact .inr ⟨h, .inr ⟨by omega, h2⟩⟩
          · rintro (h | ⟨h, h2 | ⟨_, h2⟩⟩)
            · exact .inl h
            · omega
            · exact .inr ⟨h, h2⟩
      · rename_i h1
        split
        · rename_i h2
          exact absurd (Or.inl h2) (hc (by omega))
        · rename_i h2
          obtain ⟨i1, i2, i3⟩ := ih ha.tail hs.tail (o := 0) (l := l - min l (t.contents.length - o)) (by omega)
            (fun hp => by omega)
          simp only [SStream.cons, segLens_cons, List.sum_cons, LStr.cut_length t o _ (show o + min l (t.contents.length - o) ≤ _ by omega)]
          refine ⟨by rw [i1]; omega, ?_, ?_⟩
          · rw [i2]
            constructor <;> rintro ⟨a, b⟩ <;> exact ⟨a, by omega⟩
          · intro b hb hb2
            simp only [Cut]
            constructor
            · rintro (h | ⟨h, h3⟩)
              · by_cases hl : b = l
                · exact .inl hl
                · exact .inr ⟨by omega, .inl (by omega)⟩
              · have hmin : min l (t.contents.length - o) = t.contents.length - o := by omega
                rw [hmin] at h h3 i1 i3
                have hle := cut_le h3
                rw [i1] at hle
                rcases (i3 _ (by omega) hle).mp h3 with h4 | ⟨h4, h5⟩
                · exact .inl (by omega)
                · refine .inr ⟨by omega, .inr ⟨by omega, ?_⟩⟩
                  have e : o + b - t.contents.length = 0 + (b - (t.contents.length - o)) := by omega
                  rw [e]; exact h5
            · rintro (h | ⟨h, h3 | ⟨h3, h4⟩⟩)
              · by_cases hm : l ≤ t.contents.length - o
                · exact .inl (by omega)
                · refine .inr ⟨by omega, ?_⟩
                  rw [i3 _ (by omega) (by omega)]
                  exact .inl (by omega)
              · exact .inl (by omega)
              · refine .inr ⟨by omega, ?_⟩
                have hmin : min l (t.contents.length - o) = t.contents.length - o := by omega
                rw [hmin] at i3 ⊢
                rw [i3 _ (by omega) (by omega)]
                refine .inr ⟨by omega, ?_⟩
                have e : 0 + (b - (t.contents.length - o)) = o + b - t.contents.length := by omega
                rw [e]; exact h4
    · have : l = 0 := by omega
      subst this
      refine ⟨by simp [refSegs], ?_, fun b hb hb2 => by omega⟩
      simp only [refSegs, Bool.false_eq_true, false_iff]
      omega

/-- A stream of segments over `L` bytes, with pieces ending where `B` says, that panics when so many bytes are read
that `V` holds. -/
structure Behaves (s : SStream) (L : Nat) (B V : Nat → Prop) : Prop where
  ascii : SegsAscii s.items
  solid : 0 < L → SegsSolid s.items
  whole : s.crash = false → (segLens s.items).sum = L
  short : s.crash = true → (segLens s.items).sum < L
  cuts : ∀ b, 0 < b → b ≤ (segLens s.items).sum → (Cut (segLens s.items) b ↔ B b ∨ b = L)
  panics : ∀ n, 0 < n → n ≤ L → (V n ↔ s.crash = true ∧ (segLens s.items).sum < n)

theorem Behaves.le {s : SStream} {L : Nat} {B V : Nat → Prop} (h : Behaves s L B V) : (segLens s.items).sum ≤ L := by
  cases hc : s.crash with
  | false => exact Nat.le_of_eq (h.whole hc)
  | true => exact Nat.le_of_lt (h.short hc)

theorem Behaves.congr {s : SStream} {L : Nat} {B V B' V' : Nat → Prop} (h : Behaves s L B V)
    (hb : ∀ b, 0 < b → b ≤ L → (B' b ∨ b = L ↔ B b ∨ b = L)) (hv : ∀ n, 0 < n → n ≤ L → (V' n ↔ V n)) :
    Behaves s L B' V' :=
  ⟨h.ascii, h.solid, h.whole, h.short,
    fun b h0 h1 => (h.cuts b h0 h1).trans (hb b h0 (Nat.le_trans h1 h.le)).symm,
    fun n h0 h1 => (hv n h0 h1).trans (h.panics n h0 h1)⟩

/-- A window of a stream. -/
theorem Behaves.window {s : SStream} {L : Nat} {B V : Nat → Prop} (h : Behaves s L B V) {o l : Nat}
    (hl : o + l ≤ L) :
    Behaves (refSegs o l s.items s.crash) l (fun b => b < l ∧ B (o + b))
      (fun n => (0 < o ∧ B o) ∨ V (o + min n l)) := by
  have hspec := refSegs_spec s.items s.crash h.ascii o l
  by_cases h0 : 0 < l
  swap
  · have : l = 0 := by omega
    subst this
    have e : refSegs o 0 s.items s.crash = ⟨[], false⟩ := by cases s.items <;> rfl
    rw [e]
    exact ⟨segsAscii_nil, fun h => by omega, fun _ => rfl, by simp, fun b h1 h2 => by simp at h2; omega,
      fun n h1 h2 => by omega⟩
  have hs := h.solid (by omega)
  by_cases hcut : 0 < o ∧ Cut (segLens s.items) o
  · rw [refSegs_cut h.ascii h0 hcut.2]
    have hle := cut_le hcut.2
    have hB : B o := by
      rcases (h.cuts o hcut.1 hle).mp hcut.2 with hb | hb
      · exact hb
      · omega
    refine ⟨segsAscii_nil, fun _ => segsSolid_nil, by simp, by simpa using h0, fun b h1 h2 => by simp at h2; omega, ?_⟩
    intro n h1 _
    constructor
    · intro _; simpa using h1
    · intro _; exact .inl ⟨hcut.1, hB⟩
  · by_cases hpast : (segLens s.items).sum < o
    · rw [refSegs_past h.ascii h0 hpast]
      have hc : s.crash = true := by
        cases hc : s.crash with
        | true => rfl
        | false => have := h.whole hc; omega
      rw [hc]
      refine ⟨segsAscii_nil, fun _ => segsSolid_nil, by simp, by simpa using h0,
        fun b h1 h2 => by simp at h2; omega, ?_⟩
      intro n h1 h2
      constructor
      · intro _; simpa using h1
      · intro _
        exact .inr ((h.panics _ (by omega) (by omega)).mpr ⟨hc, by omega⟩)
    · obtain ⟨i1, i2, i3⟩ := refSegs_window h.ascii hs (o := o) (l := l) (crash := s.crash) (by omega)
        (fun hp hc => hcut ⟨hp, hc⟩)
      refine ⟨hspec.1, fun _ => hspec.2.1, ?_, ?_, ?_, ?_⟩
      · intro hc
        rw [i1]
        have : ¬ (s.crash = true ∧ (segLens s.items).sum < o + l) := by
          rw [← i2, hc]; simp
        cases hsc : s.crash with
        | false => have := h.whole hsc; omega
        | true => have : ¬ (segLens s.items).sum < o + l := fun hx => this ⟨hsc, hx⟩
                  omega
      · intro hc
        have := i2.mp hc
        rw [i1]; omega
      · intro b h1 h2
        rw [i1] at h2
        rw [i3 b h1 h2]
        constructor
        · rintro (hb | ⟨h3, h4⟩)
          · exact .inr hb
          · rcases (h.cuts _ (by omega) (by omega)).mp h4 with hb | hb
            · exact .inl ⟨h3, hb⟩
            · omega
        · rintro (⟨h3, h4⟩ | hb)
          · exact .inr ⟨h3, (h.cuts _ (by omega) (by omega)).mpr (.inl h4)⟩
          · exact .inl hb
      · intro n h1 h2
        have hBo : ¬ (0 < o ∧ B o) := by
          rintro ⟨ho, hb⟩
          exact hcut ⟨ho, (h.cuts o ho (by omega)).mpr (.inl hb)⟩
        rw [i1, i2]
        constructor
        · rintro (hb | hv)
          · exact absurd hb hBo
          · have := (h.panics _ (by omega) (by omega)).mp hv
            exact ⟨⟨this.1, by omega⟩, by omega⟩
        · rintro ⟨⟨h3, h4⟩, h5⟩
          exact .inr ((h.panics _ (by omega) (by omega)).mpr ⟨h3, by omega⟩)

/-- One stream after another. -/
theorem Behaves.append {a b : SStream} {La Lb : Nat} {Ba Va Bb Vb : Nat → Prop} (ha : Behaves a La Ba Va)
    (hb : Behaves b Lb Bb Vb) (hsa : SegsSolid a.items) (hsb : SegsSolid b.items) :
    Behaves (a.append b) (La + Lb)
      (fun n => (n < La ∧ Ba n) ∨ n = La ∨ (La < n ∧ Bb (n - La)))
      (fun n => (0 < La ∧ Va (min n La)) ∨ (La < n ∧ Vb (n - La))) := by
  unfold SStream.append
  split
  · rename_i hc
    have hlt := ha.short hc
    refine ⟨ha.ascii, fun _ => hsa, by simp [hc], fun _ => by omega, ?_, ?_⟩
    · intro n h1 h2
      rw [ha.cuts n h1 h2]
      constructor
      · rintro (h | h)
        · exact .inl (.inl ⟨by omega, h⟩)
        · omega
      · rintro ((⟨_, h⟩ | h | ⟨h, _⟩) | h)
        · exact .inl h
        · omega
        · omega
        · omega
    · intro n h1 h2
      constructor
      · rintro (⟨h3, h4⟩ | ⟨h3, _⟩)
        · have := (ha.panics _ (by omega) (by omega)).mp h4
          exact ⟨hc, by omega⟩
        · exact ⟨hc, by omega⟩
      · rintro ⟨_, h3⟩
        exact .inl ⟨by omega, (ha.panics _ (by omega) (by omega)).mpr ⟨hc, by omega⟩⟩
  · rename_i hc
    have hc : a.crash = false := by simpa using hc
    have hw := ha.whole hc
    have hble := hb.le
    have hpos := hsa.pos
    refine ⟨?_, ?_, ?_, ?_, ?_, ?_⟩
    · intro t ht
      rcases List.mem_append.mp ht with h | h
      · exact ha.ascii t h
      · exact hb.ascii t h
    · intro _ t ht
      rcases List.mem_append.mp ht with h | h
      · exact hsa t h
      · exact hsb t h
    · intro h
      have := hb.whole h
      simp only [segLens_append, List.sum_append]; omega
    · intro h
      have := hb.short h
      simp only [segLens_append, List.sum_append]; omega
    · intro n h1 h2
      simp only [segLens_append, List.sum_append] at h2 ⊢
      rw [cut_append hpos, hw]
      constructor
      · rintro (h | ⟨h3, h4⟩ | ⟨_, h3, _⟩)
        · have hle := cut_le h
          rcases (ha.cuts n h1 hle).mp h with h | h
          · by_cases hn : n = La
            · exact .inl (.inr (.inl hn))
            · exact .inl (.inl ⟨by omega, h⟩)
          · exact .inl (.inr (.inl h))
        · have hle := cut_le h4
          rcases (hb.cuts _ (by omega) hle).mp h4 with h | h
          · exact .inl (.inr (.inr ⟨h3, h⟩))
          · exact .inr (by omega)
        · omega
      · rintro ((⟨h3, h4⟩ | h | ⟨h3, h4⟩) | h)
        · exact .inl ((ha.cuts n h1 (by omega)).mpr (.inl h4))
        · exact .inl ((ha.cuts n h1 (by omega)).mpr (.inr h))
        · exact .inr (.inl ⟨h3, (hb.cuts _ (by omega) (by omega)).mpr (.inl h4)⟩)
        · by_cases hz : La < n
          · exact .inr (.inl ⟨hz, (hb.cuts _ (by omega) (by omega)).mpr (.inr (by omega))⟩)
          · exact .inl ((ha.cuts n h1 (by omega)).mpr (.inr (by omega)))
    · intro n h1 h2
      simp only [segLens_append, List.sum_append]
      constructor
      · rintro (⟨h3, h4⟩ | ⟨h3, h4⟩)
        · have := ((ha.panics _ (by omega) (by omega)).mp h4).1
          simp [hc] at this
        · have := (hb.panics _ (by omega) (by omega)).mp h4
          exact ⟨this.1, by omega⟩
      · rintro ⟨h3, h4⟩
        by_cases hz : La < n
        · exact .inr ⟨hz, (hb.panics _ (by omega) (by omega)).mpr ⟨h3, by omega⟩⟩
        · omega

/-! ### The specification, one reference at a time -/

/-- Reading `n` bytes visits a reference that starts where a piece ends. -/
def BadVisit (cs : List CRef) (n : Nat) : Prop := ∃ d, Visits cs n d ∧ StartsAtEnd d

/-- The pieces of the text of a node. -/
def NodeBoundary (node : Node) (n : Nat) : Prop := ∃ v, Wraps node v ∧ PieceEnd v.content n
/-- Reading a node. -/
def NodeBad (node : Node) (n : Nat) : Prop := ∃ v, Wraps node v ∧ BadVisit v.content n

theorem boundary_pos {cs : List CRef} {n : Nat} (h : PieceEnd cs n) : 0 < n := by
  induction h with
  | here h => exact h
  | later _ ih => omega
  | inside _ h _ _ _ => exact h

theorem not_boundary_nil {n : Nat} : ¬ PieceEnd [] n := nofun
theorem not_badVisit_nil {n : Nat} : ¬ BadVisit [] n := fun ⟨_, h, _⟩ => nomatch h

theorem boundary_cons {c : CRef} {cs : List CRef} {n : Nat} (h0 : 0 < n) :
    PieceEnd (c :: cs) n ↔
      (n < c.length ∧ n < c.length ∧ NodeBoundary c.node (c.offset + n)) ∨ n = c.length ∨ (c.length < n ∧ PieceEnd cs (n - c.length)) := by
  constructor
  · intro h
    cases h with
    | here h => exact .inr (.inl rfl)
    | later h =>
      have := boundary_pos h
      exact .inr (.inr ⟨by omega, by rw [Nat.add_sub_cancel_left]; exact h⟩)
    | inside hw _ hl hb => exact .inl ⟨hl, hl, _, hw, hb⟩
  · rintro (⟨hl, _, v, hw, hb⟩ | h | ⟨hl, hb⟩)
    · exact .inside hw h0 hl hb
    · subst h; exact .here h0
    · have e : n = c.length + (n - c.length) := by omega
      rw [e]; exact .later hb

theorem badVisit_cons {c : CRef} {cs : List CRef} {n : Nat} (h0 : 0 < n) :
    BadVisit (c :: cs) n ↔
      (0 < c.length ∧ ((0 < c.offset ∧ NodeBoundary c.node c.offset) ∨ NodeBad c.node (c.offset + min n c.length))) ∨
      (c.length < n ∧ BadVisit cs (n - c.length)) := by
  constructor
  · rintro ⟨d, hv, hs⟩
    cases hv with
    | here _ hl => exact .inl ⟨hl, .inl ⟨hs.1, hs.2⟩⟩
    | inside _ hl hw hv => exact .inl ⟨hl, .inr ⟨_, hw, _, hv, hs⟩⟩
    | later hl hv => exact .inr ⟨hl, _, hv, hs⟩
  · rintro (⟨hl, h | ⟨v, hw, d, hv, hs⟩⟩ | ⟨hl, d, hv, hs⟩)
    · exact ⟨c, .here h0 hl, h.1, h.2⟩
    · exact ⟨d, .inside h0 hl hw hv, hs⟩
    · exact ⟨d, .later hl hv, hs⟩

theorem wraps_constant {s : LStr} {v : Block} : ¬ Wraps (.constant s) v := nofun

theorem nodeBoundary_of {node : Node} {v : Block} (hw : Wraps node v) : NodeBoundary node = PieceEnd v.content := by
  funext n
  refine propext ⟨?_, fun h => ⟨v, hw, h⟩⟩
  rintro ⟨w, h, hb⟩
  cases hw <;> cases h <;> exact hb

theorem nodeBad_of {node : Node} {v : Block} (hw : Wraps node v) : NodeBad node = BadVisit v.content := by
  funext n
  refine propext ⟨?_, fun h => ⟨v, hw, h⟩⟩
  rintro ⟨w, h, hb⟩
  cases hw <;> cases h <;> exact hb

mutual
theorem Node.segments_behaves : ∀ n : Node, Node.WF n →
    Behaves (Node.segments n) n.len (NodeBoundary n) (NodeBad n)
  | .constant s, h => by
    have e : LStr.len s = s.contents.length := LStr.len_ascii h
    simp only [Node.segments, Node.len, e]
    refine ⟨?_, ?_, ?_, ?_, ?_, ?_⟩
    · intro t ht
      simp at ht; subst ht; exact h
    · intro h0 t ht
      simp at ht; subst ht; exact List.length_pos_iff.mp h0
    · intro _; simp
    · simp
    · intro b h1 h2
      simp only [segLens_cons, segLens_nil, Cut, and_false, or_false]
      constructor
      · exact .inr
      · rintro (⟨v, hw, _⟩ | h)
        · exact absurd hw wraps_constant
        · exact h
    · intro n h1 h2
      simp only [Bool.false_eq_true, false_and, iff_false]
      rintro ⟨v, hw, _⟩
      exact wraps_constant hw
  | .concat v, h => by
    rw [nodeBoundary_of .concat, nodeBad_of .concat]; exact Block.segments_behaves v h
  | .varRef _ v, h => by
    rw [nodeBoundary_of .varRef, nodeBad_of .varRef]; exact Block.segments_behaves v h
  | .subRef _ _ _ v, h => by
    rw [nodeBoundary_of .subRef, nodeBad_of .subRef]; exact Block.segments_behaves v h
  | .evaluated v, h => by
    rw [nodeBoundary_of .evaluated, nodeBad_of .evaluated]; exact Block.segments_behaves v h
theorem Block.segments_behaves : ∀ b : BlockOf Node, Block.WF b →
    Behaves (Block.segments b) (Block.len b) (PieceEnd b.content) (BadVisit b.content)
  | ⟨s, content⟩, h => by
    have hb := CRef.segmentsList_behaves content h
    obtain ⟨g1, g2, _, _⟩ := CRef.segmentsList_of content h
    simp only [Block.segments, spanSegs_eq_refSegs g1 g2]
    refine (hb.window (o := 0) (l := lensum content) (by omega)).congr ?_ ?_
    · intro b h0 h1
      simp only [Nat.zero_add]
      show PieceEnd content b ∨ b = lensum content ↔ _ ∨ b = lensum content
      have h1 : b ≤ lensum content := h1
      constructor
      · rintro (h | h)
        · by_cases he : b = lensum content
          · exact .inr he
          · exact .inl ⟨by omega, h⟩
        · exact .inr h
      · rintro (⟨_, h⟩ | h)
        · exact .inl h
        · exact .inr h
    · intro n h0 h1
      have h1 : n ≤ lensum content := h1
      simp only [Nat.zero_add, Nat.lt_irrefl, false_and, false_or, Nat.min_eq_left h1]
theorem CRef.segmentsList_behaves : ∀ cs : List (CRefOf Node), CRef.WFList cs →
    Behaves (CRef.segmentsList cs) (lensum cs) (PieceEnd cs) (BadVisit cs)
  | [], _ => ⟨segsAscii_nil, fun _ => segsSolid_nil, fun _ => rfl, by simp [CRef.segmentsList],
      fun b h1 h2 => by simp [CRef.segmentsList] at h2; omega, fun n h1 h2 => by simp at h2; omega⟩
  | c :: cs, h => by
    have hc := CRef.segments_behaves c h.1
    have hcs := CRef.segmentsList_behaves cs h.2
    have hsc := (CRef.segments_of c h.1).2.1
    have hscs := (CRef.segmentsList_of cs h.2).2.1
    refine (hc.append hcs hsc hscs).congr ?_ ?_
    · intro b h0 _
      rw [boundary_cons h0]
    · intro n h0 _
      rw [badVisit_cons h0, show min (min n c.length) c.length = min n c.length by omega]
theorem CRef.segments_behaves : ∀ c : CRefOf Node, CRef.WF c →
    Behaves (CRef.segments c) c.length (fun b => b < c.length ∧ NodeBoundary c.node (c.offset + b))
      (fun n => (0 < c.offset ∧ NodeBoundary c.node c.offset) ∨ NodeBad c.node (c.offset + min n c.length))
  | ⟨_, _, node⟩, h => (Node.segments_behaves node h.2).window h.1
end

/-- The segments of a span. -/
theorem Span.segments_behaves {s : Span} (h : s.Good) (h0 : 0 < s.length) :
    Behaves s.segments s.length (fun b => b < s.length ∧ PieceEnd s.contents (s.offset + b))
      (fun n => (0 < s.offset ∧ PieceEnd s.contents s.offset) ∨ BadVisit s.contents (s.offset + min n s.length)) := by
  have hw := Span.wf_contents h.1
  have hb := CRef.segmentsList_behaves _ hw
  obtain ⟨g1, g2, _, _⟩ := CRef.segmentsList_of _ hw
  simp only [Span.segments, spanSegs_eq_refSegs g1 g2]
  refine hb.window ?_
  rcases h.2 with h1 | ⟨c, cs, e1, e2, e3⟩
  · omega
  · rw [e1]; simpa using e3

theorem Span.segments_nil {s : Span} (h0 : s.length = 0) : s.segments = ⟨[], false⟩ := by
  simp only [Span.segments, h0]
  cases (CRef.segmentsList s.contents).items <;> rfl

end Hastur
