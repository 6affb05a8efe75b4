import Verif.Proofs.Search
import Verif.Proofs.Segments
import Verif.Model.Nom
/-
Lemmas: the parsers' view of a span, and the nom combinators in those terms.
-/
namespace Hastur

namespace Res

@[simp] theorem done_andThen {α β : Type} (i : Span) (a : α) (f : Span → α → PRes β) :
    andThen (.ok (.done i a)) f = f i a := rfl
@[simp] theorem err_andThen {α β : Type} (e : NErr) (f : Span → α → PRes β) :
    andThen (.ok (.err e) : PRes α) f = .ok (.err e) := rfl
@[simp] theorem panic_andThen {α β : Type} (p : Panic) (f : Span → α → PRes β) :
    andThen (.panic p : PRes α) f = .panic p := rfl
@[simp] theorem fuel_andThen {α β : Type} (f : Span → α → PRes β) :
    andThen (.fuel : PRes α) f = .fuel := rfl
@[simp] theorem done_orElse {α : Type} (i : Span) (a : α) (q : PRes α) :
    orElse (.ok (.done i a)) q = .ok (.done i a) := rfl
@[simp] theorem error_orElse {α : Type} (k : NErrKind) (q : PRes α) :
    orElse (.ok (.err (.error k))) q = q := rfl
@[simp] theorem failure_orElse {α : Type} (k : NErrKind) (q : PRes α) :
    orElse (.ok (.err (.failure k))) q = .ok (.err (.failure k)) := rfl
@[simp] theorem panic_orElse {α : Type} (p : Panic) (q : PRes α) : orElse (.panic p) q = .panic p := rfl
@[simp] theorem fuel_orElse {α : Type} (q : PRes α) : orElse .fuel q = .fuel := rfl
@[simp] theorem done_mapP {α β : Type} (i : Span) (a : α) (f : α → β) :
    mapP f (.ok (.done i a)) = .ok (.done i (f a)) := rfl
@[simp] theorem err_mapP {α β : Type} (e : NErr) (f : α → β) :
    mapP f (.ok (.err e) : PRes α) = .ok (.err e) := rfl
@[simp] theorem done_returnError {α : Type} (i : Span) (a : α) :
    returnError (.ok (.done i a)) = .ok (.done i a) := rfl
@[simp] theorem error_returnError {α : Type} (k : NErrKind) :
    returnError (.ok (.err (.error k)) : PRes α) = .ok (.err (.failure k)) := rfl
@[simp] theorem failure_returnError {α : Type} (k : NErrKind) :
    returnError (.ok (.err (.failure k)) : PRes α) = .ok (.err (.failure k)) := rfl
theorem done_def {α : Type} (i : Span) (a : α) : done i a = .ok (.done i a) := rfl
theorem codeError_def {α : Type} : (codeError : PRes α) = .ok (.err (.error .code)) := rfl
theorem errorOut_def {α : Type} (k : ParseErrorKind) : (errorOut k : PRes α) = .ok (.err (.error (.custom k))) := rfl
theorem failOut_def {α : Type} (k : ParseErrorKind) : (failOut k : PRes α) = .ok (.err (.failure (.custom k))) := rfl

end Res

/-! ### Located text -/

theorem textOf_length (t : List LChar) : (textOf t).length = t.length := by simp [textOf]
@[simp] theorem textOf_nil : textOf [] = [] := rfl
@[simp] theorem textOf_cons (x : LChar) (t : List LChar) : textOf (x :: t) = x.1 :: textOf t := rfl
@[simp] theorem textOf_append (s t : List LChar) : textOf (s ++ t) = textOf s ++ textOf t := by simp [textOf]
theorem textOf_drop (n : Nat) (t : List LChar) : textOf (t.drop n) = (textOf t).drop n := by simp [textOf, List.map_drop]
theorem textOf_take (n : Nat) (t : List LChar) : textOf (t.take n) = (textOf t).take n := by simp [textOf, List.map_take]
theorem textOf_dropWhile (p : Char → Bool) (t : List LChar) :
    textOf (t.dropWhile fun x => p x.1) = (textOf t).dropWhile p := by
  induction t with
  | nil => rfl
  | cons x t ih => simp only [List.dropWhile_cons, textOf_cons]; split <;> simp [ih]
theorem textOf_takeWhile (p : Char → Bool) (t : List LChar) :
    textOf (t.takeWhile fun x => p x.1) = (textOf t).takeWhile p := by
  induction t with
  | nil => rfl
  | cons x t ih => simp only [List.takeWhile_cons, textOf_cons]; split <;> simp [ih]

theorem ldropWhile (p : Char → Bool) (t : List LChar) :
    t.drop ((textOf t).takeWhile p).length = t.dropWhile fun x => p x.1 := by
  induction t with
  | nil => rfl
  | cons x t ih =>
    simp only [textOf_cons, List.takeWhile_cons, List.dropWhile_cons]
    split <;> simp [ih]
theorem ltakeWhile (p : Char → Bool) (t : List LChar) :
    t.take ((textOf t).takeWhile p).length = t.takeWhile fun x => p x.1 := by
  induction t with
  | nil => rfl
  | cons x t ih =>
    simp only [textOf_cons, List.takeWhile_cons]
    split <;> simp [ih]

theorem firstOcc_singleton {c : Char} (t : Str) :
    firstOcc [c] t = if c ∈ t then some (t.takeWhile (fun x => x != c)).length else none := by
  induction t with
  | nil => rfl
  | cons x t ih =>
    simp only [firstOcc]
    by_cases hx : x = c
    · subst hx; simp
    · have : ¬ c = x := fun h => hx h.symm
      simp [hx, this, ih]

/-! ### Number of references -/

theorem collectRefs_length {c : CRef} {cs : List CRef} {n : Nat} {out : List CRef}
    (h : Span.collectRefs c cs n = .ok out) : out.length ≤ cs.length + 1 := by
  induction cs generalizing c n out with
  | nil =>
    simp only [Span.collectRefs] at h
    split at h <;> simp_all
    subst h; simp
  | cons d cs ih =>
    simp only [Span.collectRefs] at h
    split at h
    · obtain ⟨o, h1, h2⟩ := Res.map_eq_ok.mp h
      have := ih h1
      subst h2; simp; omega
    · simp only [Res.ok.injEq] at h
      subst h; simp

theorem coveredRefs_length {s : Span} {out : List CRef} (h : s.coveredRefs = .ok out) :
    out.length ≤ s.parent.content.length := by
  unfold Span.coveredRefs at h
  have hl : s.contents.length ≤ s.parent.content.length := by simp [Span.contents]
  split at h
  · cases h
  · rename_i c cs hc
    rw [hc] at hl
    obtain ⟨_, _, h⟩ := Res.bind_eq_ok.mp h
    have := collectRefs_length h
    simp at hl; omega

theorem simplifyList_length {f : CRef → Res CRef} {cs out : List CRef} (h : simplifyList f cs = .ok out) :
    out.length ≤ cs.length := by
  induction cs generalizing out with
  | nil => simp only [simplifyList, Res.ok.injEq] at h; subst h; simp
  | cons c cs ih =>
    simp only [simplifyList] at h
    split at h
    · have := ih h; simp; omega
    · obtain ⟨c', _, h⟩ := Res.bind_eq_ok.mp h
      obtain ⟨cs', h1, h⟩ := Res.bind_eq_ok.mp h
      simp only [Res.pure_eq, Res.ok.injEq] at h
      have := ih h1
      subst h; simp; omega

theorem Block.new_length {sens : Sens} {cs : List CRef} {b : Block} (h : Block.new sens cs = .ok b) :
    b.content.length ≤ cs.length := by
  simp only [Block.new, Block.simplify] at h
  obtain ⟨c, h1, h⟩ := Res.bind_eq_ok.mp h
  simp only [Res.pure_eq, Res.ok.injEq] at h
  subst h
  exact simplifyList_length h1

theorem Span.toNewBlock_length {s : Span} {b : Block} (h : s.toNewBlock = .ok b) :
    b.content.length ≤ s.parent.content.length := by
  unfold Span.toNewBlock at h
  split at h
  · simp only [Res.ok.injEq] at h; subst h; simp [Block.empty]
  · obtain ⟨o, h1, h⟩ := Res.bind_eq_ok.mp h
    exact Nat.le_trans (Block.new_length h) (coveredRefs_length h1)

/-! ### Spans with a given text -/

namespace Span.At

variable {P : Block} {t : List LChar} {s : Span}

theorem wfP (h : s.At P t) : Block.WF P := h.parent ▸ h.good.1
theorem length (h : s.At P t) : s.length = t.length := by rw [← h.ltext, ltext_length h.good.wf]
theorem text (h : s.At P t) : s.text = textOf t := by rw [Span.text, h.ltext]
theorem ascii (h : s.At P t) : AsciiS (textOf t) := by rw [← h.text]; exact Span.ascii h.good.wf
theorem chars (h : s.At P t) : s.chars = ⟨textOf t, false⟩ := by rw [Span.chars_eq h.good.wf, h.text]
theorem intoString (h : s.At P t) : s.intoString = .ok (textOf t) := by rw [Span.intoString_eq h.good.wf, h.text]

theorem sliceFrom (h : s.At P t) {n : Nat} (hn : n ≤ t.length) :
    ∃ r, s.sliceFrom n = .ok r ∧ r.At P (t.drop n) := by
  have hn' : n ≤ s.length := by rw [h.length]; exact hn
  exact ⟨_, sliceFrom_eq h.good.wf hn', by rw [dropS_parent h.good.wf hn', h.parent], dropS_good h.good.wf hn',
    by rw [dropS_ltext h.good.wf hn', h.ltext]⟩

theorem sliceTo (h : s.At P t) {n : Nat} (hn : n ≤ t.length) : (s.sliceTo n).At P (t.take n) := by
  have hn' : n ≤ s.length := by rw [h.length]; exact hn
  exact ⟨h.parent, sliceTo_good h.good hn', by rw [sliceTo_ltext hn', h.ltext]⟩

theorem slice (h : s.At P t) {a b : Nat} (hab : a ≤ b) (hb : b ≤ t.length) :
    ∃ r, s.slice a b = .ok r ∧ r.At P ((t.drop a).take (b - a)) := by
  have hb' : b ≤ s.length := by rw [h.length]; exact hb
  exact ⟨_, slice_eq h.good.wf hab hb', by rw [sliceS_parent h.good.wf hab hb', h.parent],
    sliceS_good h.good.wf hab hb', by rw [sliceS_ltext h.good.wf hab hb', h.ltext]⟩

theorem takeSplit (h : s.At P t) {n : Nat} (hn : n ≤ t.length) :
    ∃ r p, s.takeSplit n = .ok (r, p) ∧ r.At P (t.drop n) ∧ p.At P (t.take n) := by
  have hn' : n ≤ s.length := by rw [h.length]; exact hn
  exact ⟨_, _, takeSplit_eq h.good.wf hn', ⟨by rw [dropS_parent h.good.wf hn', h.parent], dropS_good h.good.wf hn',
    by rw [dropS_ltext h.good.wf hn', h.ltext]⟩, h.sliceTo hn⟩

theorem splitAtPosition (h : s.At P t) (p : Char → Bool) :
    ∃ r q, s.splitAtPosition p = .ok (r, q) ∧ r.At P (t.dropWhile fun x => !p x.1) ∧
      q.At P (t.takeWhile fun x => !p x.1) := by
  refine ⟨_, _, splitAtPosition_eq h.good.wf p, ⟨?_, restAt_good h.good.wf _, ?_⟩, ?_⟩
  · rw [restAt_parent h.good.wf, h.parent]
  · rw [restAt_ltext h.good.wf, h.ltext, h.text, stopIdx, ldropWhile (fun c => !p c)]
  · have := h.sliceTo (n := stopIdx p s.text) (by rw [h.text, ← textOf_length t]; exact stopIdx_le p _)
    rw [h.text, stopIdx, ltakeWhile (fun c => !p c)] at this
    rwa [h.text, stopIdx]

theorem toNewBlock (h : s.At P t) :
    ∃ b, s.toNewBlock = .ok b ∧ Block.ltext b = t ∧ b.len = t.length ∧
      b.sens = (if t = [] then [] else P.sens) ∧ Block.WF b ∧ b.Solid ∧ (Block.Mono P → Block.Mono b) := by
  obtain ⟨b, h1, h2, h3, h4, h5, h6, h7⟩ := s.toNewBlock_spec h.good
  refine ⟨b, h1, by rw [h2, h.ltext], by rw [h3, h.length], ?_, h5, h6, by rw [← h.parent]; exact h7⟩
  rw [h4, h.length, h.parent]
  simp [List.length_eq_zero_iff]

theorem toContentReference (h : s.At P t) :
    ∃ c, s.toContentReference = .ok c ∧ CRef.ltext c = t ∧ c.length = t.length ∧ CRef.WF c ∧
      (P.content.length ≤ 1 → Block.Mono P → CRef.Mono c) := by
  obtain ⟨b, h1, h2, h3, _, h5, _, h7⟩ := h.toNewBlock
  have hl := toNewBlock_length h1
  rw [h.parent] at hl
  refine ⟨CRef.ofNode (.concat b), by simp only [Span.toContentReference, h1]; rfl, ?_, ?_, ?_,
    fun m1 m2 => ⟨by omega, h7 m2⟩⟩
  · simp only [CRef.ofNode, CRef.ltext, Node.ltext, List.drop_zero, Node.len]
    rw [List.take_of_length_le (by rw [Block.ltext_length b h5]), h2]
  · simpa [CRef.ofNode, Node.len] using h3
  · exact ⟨by simp, h5⟩

theorem find (h : s.At P t) {c : Char} (hc : isAscii c = true) :
    s.findSubstring [c] = .ok (if c ∈ textOf t then some ((textOf t).takeWhile (fun x => x != c)).length else none) := by
  rw [findSubstring_eq h.good.wf (by intro d hd; rw [List.mem_singleton.mp hd]; exact hc) (by simp), h.text,
    firstOcc_singleton]

end Span.At

theorem Block.span_at {b : Block} (h : Block.WF b) (hs : b.Solid) : b.span.At b (Block.ltext b) :=
  ⟨rfl, Block.span_good h hs, Block.span_ltext h⟩

theorem textBlock_wf {loc : Location} {t : Str} (h : AsciiS t) : Block.WF (textBlock loc t) :=
  ⟨⟨by simp, h⟩, trivial⟩
theorem textBlock_mono (loc : Location) (t : Str) : Block.Mono (textBlock loc t) := ⟨trivial, trivial⟩
theorem textBlock_ltext {loc : Location} {t : Str} (h : AsciiS t) : Block.ltext (textBlock loc t) = locate loc t := by
  have hl := blen_ascii h
  have hll : (locate loc t).length = t.length := locate_length loc t
  simp only [textBlock, Block.ltext, CRef.ltextList, CRef.ofNode, CRef.ltext, Node.ltext, LStr.ltext, Node.len, LStr.len,
    List.drop_zero, List.append_nil]
  rw [List.take_of_length_le (by omega)]
theorem textBlock_at {loc : Location} {t : Str} (h : AsciiS t) :
    (textBlock loc t).span.At (textBlock loc t) (locate loc t) := by
  have hw := textBlock_wf (loc := loc) h
  refine ⟨rfl, ⟨hw, ?_⟩, by rw [Block.span_ltext hw, textBlock_ltext h]⟩
  by_cases h0 : t = []
  · left; subst h0; rfl
  · right
    have hp : 0 < blen t := blen_pos.mpr h0
    exact ⟨_, _, rfl, hp, by simp [textBlock, Block.span, CRef.ofNode, Node.len, LStr.len, Block.len_eq]⟩

/-! ### nom -/

namespace Nom

open Span

variable {P : Block} {t : List LChar} {i : Span}

theorem firstChar_at (h : i.At P t) : firstChar i = .ok ((textOf t).head?) := by
  unfold firstChar
  rw [h.chars]
  cases textOf t <;> rfl

theorem char_at (h : i.At P t) {c : Char} (hc : isAscii c = true) :
    (∀ l rest, t = (c, l) :: rest → ∃ r, char c i = .ok (.done r ()) ∧ r.At P rest) ∧
      ((textOf t).head? ≠ some c → char c i = .ok (.err (.error .code))) := by
  constructor
  · rintro l rest rfl
    unfold char
    rw [firstChar_at h, utf8Size_ascii hc]
    obtain ⟨r, h1, h2⟩ := h.sliceFrom (n := 1) (by simp)
    exact ⟨r, by simp [h1, Res.done], h2⟩
  · intro hne
    unfold char
    rw [firstChar_at h]
    cases hh : (textOf t).head? with
    | none => rfl
    | some d =>
      rw [hh] at hne
      have : d ≠ c := fun e => hne (by rw [e])
      simp [this, Res.codeError]

theorem takeTill_at (h : i.At P t) (p : Char → Bool) :
    ∃ r q, takeTill p i = .ok (.done r q) ∧ r.At P (t.dropWhile fun x => !p x.1) ∧
      q.At P (t.takeWhile fun x => !p x.1) := by
  obtain ⟨r, q, h1, h2, h3⟩ := h.splitAtPosition p
  exact ⟨r, q, by simp [takeTill, h1, Res.done], h2, h3⟩

theorem takeWhile_at (h : i.At P t) (p : Char → Bool) :
    ∃ r q, takeWhile p i = .ok (.done r q) ∧ r.At P (t.dropWhile fun x => p x.1) ∧
      q.At P (t.takeWhile fun x => p x.1) := by
  obtain ⟨r, q, h1, h2, h3⟩ := takeTill_at h (fun c => !p c)
  simp only [Bool.not_not] at h2 h3
  exact ⟨r, q, h1, h2, h3⟩

theorem rest_at (h : i.At P t) : ∃ r, rest i = .ok (.done r i) ∧ r.At P [] := by
  obtain ⟨r, h1, h2⟩ := h.sliceFrom (Nat.le_refl t.length)
  rw [List.drop_length] at h2
  exact ⟨r, by simp [rest, h.length, h1, Res.done], h2⟩

theorem eof_at (h : i.At P t) : eof i = if t = [] then .ok (.done i ()) else .ok (.err (.error .code)) := by
  simp only [eof, h.length, List.length_eq_zero_iff]; rfl

theorem take_at (h : i.At P t) (n : Nat) :
    (n ≤ t.length → ∃ r q, take n i = .ok (.done r q) ∧ r.At P (t.drop n) ∧ q.At P (t.take n)) ∧
      (t.length < n → take n i = .ok (.err (.error .code))) := by
  constructor
  · intro hn
    obtain ⟨r, q, h1, h2, h3⟩ := h.takeSplit hn
    exact ⟨r, q, by simp [take, h.length, hn, h1, Res.done], h2, h3⟩
  · intro hn
    simp [take, h.length, Nat.not_le.mpr hn, Res.codeError]

theorem tag_at (h : i.At P t) {w : Str} (hw : AsciiS w) :
    (w <+: textOf t → ∃ r q, tag w i = .ok (.done r q) ∧ r.At P (t.drop w.length) ∧ q.At P (t.take w.length)) ∧
      (¬ w <+: textOf t → tag w i = .ok (.err (.error .code))) := by
  have hc := compare_eq h.good.wf w
  rw [h.text] at hc
  constructor
  · intro hp
    obtain ⟨r, q, h1, h2, h3⟩ := h.takeSplit (n := w.length) (by rw [← textOf_length t]; exact hp.length_le)
    refine ⟨r, q, ?_, h2, h3⟩
    rcases hc with ⟨_, h5⟩ | ⟨h4, h5, h6⟩ | ⟨h4, h5, h6⟩
    · simp [tag, h5, blen_ascii hw, h1, Res.done]
    · exact absurd (h4.eq_of_length_le hp.length_le) h5
    · exact absurd hp h4
  · intro hp
    rcases hc with ⟨h4, _⟩ | ⟨h4, h5, h6⟩ | ⟨h4, h5, h6⟩
    · exact absurd h4 hp
    · simp [tag, h6, Res.codeError]
    · simp [tag, h6, Res.codeError]

theorem tagNoCase_at (h : i.At P t) {w : Str} (hw : AsciiS w) :
    (w.map lower <+: (textOf t).map lower →
      ∃ r q, tagNoCase w i = .ok (.done r q) ∧ r.At P (t.drop w.length) ∧ q.At P (t.take w.length)) ∧
      (¬ w.map lower <+: (textOf t).map lower → tagNoCase w i = .ok (.err (.error .code))) := by
  have hc := compareNoCase_eq h.good.wf w
  rw [h.text] at hc
  constructor
  · intro hp
    obtain ⟨r, q, h1, h2, h3⟩ := h.takeSplit (n := w.length) (by
      have := hp.length_le
      simpa [textOf] using this)
    refine ⟨r, q, ?_, h2, h3⟩
    rcases hc with ⟨_, h5⟩ | ⟨h4, h5, h6⟩ | ⟨h4, h5, h6⟩
    · simp [tagNoCase, h5, blen_ascii hw, h1, Res.done]
    · exact absurd (h4.eq_of_length_le hp.length_le) h5
    · exact absurd hp h4
  · intro hp
    rcases hc with ⟨h4, _⟩ | ⟨h4, h5, h6⟩ | ⟨h4, h5, h6⟩
    · exact absurd h4 hp
    · simp [tagNoCase, h6, Res.codeError]
    · simp [tagNoCase, h6, Res.codeError]

theorem takeUntil_at (h : i.At P t) {c : Char} (hc : isAscii c = true) :
    (c ∈ textOf t → ∃ r q, takeUntil [c] i = .ok (.done r q) ∧ r.At P (t.dropWhile fun x => x.1 != c) ∧
      q.At P (t.takeWhile fun x => x.1 != c)) ∧
      (c ∉ textOf t → takeUntil [c] i = .ok (.err (.error .code))) := by
  constructor
  · intro hm
    have hle : ((textOf t).takeWhile (fun x => x != c)).length ≤ t.length := by
      rw [← textOf_length t]; exact (List.takeWhile_sublist _).length_le
    obtain ⟨r, q, h1, h2, h3⟩ := h.takeSplit hle
    rw [ldropWhile (fun x => x != c)] at h2
    rw [ltakeWhile (fun x => x != c)] at h3
    exact ⟨r, q, by simp only [takeUntil, h.find hc, if_pos hm, Res.ok_bind, h1]; rfl, h2, h3⟩
  · intro hm
    simp only [takeUntil, h.find hc, if_neg hm, Res.ok_bind]; rfl

end Nom
end Hastur
