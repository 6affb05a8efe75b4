import Verif.Proofs.At
import Verif.Spec.Lines
import Mathlib.Data.List.Induction
import Mathlib.Data.List.TakeWhile
/-
Lemmas: physical and logical lines, comments.
-/
namespace Hastur

open Span Res

variable {P : Block} {t : List LChar} {i : Span}

theorem mem_textOf {c : Char} {t : List LChar} : c ∈ textOf t ↔ ∃ x ∈ t, x.1 = c := by simp [textOf]
theorem free_iff {c : Char} {t : List LChar} : Free c t ↔ c ∉ textOf t := by
  rw [mem_textOf]
  constructor
  · rintro h ⟨x, hx, rfl⟩; exact h x hx rfl
  · intro h x hx he; exact h ⟨x, hx, he⟩
theorem Free.append {c : Char} {s t : List LChar} : Free c (s ++ t) ↔ Free c s ∧ Free c t := by
  simp only [Free, List.mem_append]
  constructor
  · intro h; exact ⟨fun x hx => h x (Or.inl hx), fun x hx => h x (Or.inr hx)⟩
  · rintro ⟨h1, h2⟩ x (hx | hx)
    · exact h1 x hx
    · exact h2 x hx
theorem Free.cons {c : Char} {x : LChar} {t : List LChar} : Free c (x :: t) ↔ x.1 ≠ c ∧ Free c t := by
  simp [Free]
@[simp] theorem Free.nil {c : Char} : Free c [] := by simp [Free]

theorem takeWhile_until {c : Char} {l r : List LChar} (h : Free c l) :
    (l ++ r).takeWhile (fun x => x.1 != c) = l ++ r.takeWhile (fun x => x.1 != c) := by
  induction l with
  | nil => rfl
  | cons x l ih =>
    rw [Free.cons] at h
    simp [h.1, ih h.2]
theorem dropWhile_until {c : Char} {l r : List LChar} (h : Free c l) :
    (l ++ r).dropWhile (fun x => x.1 != c) = r.dropWhile (fun x => x.1 != c) := by
  induction l with
  | nil => rfl
  | cons x l ih =>
    rw [Free.cons] at h
    simp [h.1, ih h.2]

/-! ### `makefile_grab_line` -/

/-- What one call does: the line, why it ended, what is left. -/
def grabSpec (t : List LChar) : List LChar × LineEnd × List LChar :=
  if '#' ∈ textOf t then (t.takeWhile (fun x => x.1 != '#'), .comment, t.dropWhile (fun x => x.1 != '#'))
  else if '\n' ∈ textOf t then
    (t.takeWhile (fun x => x.1 != '\n'), .lineBreak, (t.dropWhile (fun x => x.1 != '\n')).drop 1)
  else (t, .eof, [])

theorem dropWhile_head {c : Char} {t : List LChar} (h : c ∈ textOf t) :
    ∃ l rest, t.dropWhile (fun x => x.1 != c) = (c, l) :: rest := by
  induction t with
  | nil => simp at h
  | cons x t ih =>
    by_cases hx : x.1 = c
    · exact ⟨x.2, t, by simp [hx]; rw [← hx]⟩
    · have : c ∈ textOf t := by
        rcases List.mem_cons.mp (by simpa using h) with h | h
        · exact absurd h.symm hx
        · exact h
      obtain ⟨l, rest, h⟩ := ih this
      exact ⟨l, rest, by simpa [hx] using h⟩

theorem firstOcc_none_of {w t : Str} {c : Char} (hc : c ∈ w) (h : c ∉ t) : firstOcc w t = none := by
  rw [firstOcc_none]
  rintro ⟨a, b, rfl⟩
  exact h (by simp [hc])

theorem grabLine_at (h : i.At P t) :
    ∃ r l, grabLine i = .ok (.done r (l, (grabSpec t).2.1)) ∧ r.At P (grabSpec t).2.2 ∧ l.At P (grabSpec t).1 := by
  unfold grabLine grabSpec
  by_cases h1 : '#' ∈ textOf t
  · obtain ⟨r, q, e1, e2, e3⟩ := (Nom.takeUntil_at h (c := '#') (by decide)).1 h1
    rw [if_pos h1]
    exact ⟨r, q, by rw [e1]; rfl, e2, e3⟩
  · rw [if_neg h1, (Nom.takeUntil_at h (c := '#') (by decide)).2 h1]
    by_cases h2 : '\n' ∈ textOf t
    · obtain ⟨r, q, e1, e2, e3⟩ := (Nom.takeUntil_at h (c := '\n') (by decide)).1 h2
      rw [if_pos h2]
      obtain ⟨l, rest, hd⟩ := dropWhile_head h2
      rw [hd] at e2
      obtain ⟨r', q', f1, f2, f3⟩ := (Nom.tag_at e2 (w := ['\n']) (by unfold AsciiS; decide)).1 (by simp)
      refine ⟨r', q, ?_, ?_, e3⟩
      · simp [e1, f1]
      · rw [hd]; exact f2
    · rw [if_neg h2, (Nom.takeUntil_at h (c := '\n') (by decide)).2 h2]
      have h3 : Nom.takeUntil ['\r', '\n'] i = .ok (.err (.error .code)) := by
        unfold Nom.takeUntil
        rw [findSubstring_eq h.good.wf (by unfold AsciiS; decide) (by decide), h.text,
          firstOcc_none_of (c := '\n') (by decide) h2]
        rfl
      obtain ⟨r, e1, e2⟩ := Nom.rest_at h
      rw [h3]
      exact ⟨r, i, by simp [e1], e2, h⟩

/-- The comment character comes first, wherever it is. -/
theorem grabSpec_comment {l rest : List LChar} {loc : Location} (h : Free '#' l) :
    grabSpec (l ++ ('#', loc) :: rest) = (l, .comment, ('#', loc) :: rest) := by
  unfold grabSpec
  rw [if_pos (by simp), takeWhile_until h, dropWhile_until h]
  simp

theorem grabSpec_line {l rest : List LChar} {loc : Location} (h : Free '#' (l ++ ('\n', loc) :: rest))
    (hl : Free '\n' l) : grabSpec (l ++ ('\n', loc) :: rest) = (l, .lineBreak, rest) := by
  unfold grabSpec
  rw [if_neg (free_iff.mp h), if_pos (by simp), takeWhile_until hl, dropWhile_until hl]
  simp

theorem grabSpec_eof {t : List LChar} (h : Free '#' t) (hl : Free '\n' t) : grabSpec t = (t, .eof, []) := by
  unfold grabSpec
  rw [if_neg (free_iff.mp h), if_neg (free_iff.mp hl)]

/-! ### Blanks -/

theorem whitespace_at (h : i.At P t) :
    ∃ r q, whitespace i = .ok (.done r q) ∧ r.At P (t.dropWhile lblank) ∧ q.At P (t.takeWhile lblank) := by
  obtain ⟨r, q, h1, h2, h3⟩ := Nom.takeTill_at h (fun c => !isBlank c)
  simp only [Bool.not_not] at h2 h3
  exact ⟨r, q, h1, h2, h3⟩

theorem blanks_iff {t : List LChar} : Blanks t ↔ ∀ x ∈ t, lblank x = true := by
  simp [Blanks, lblank, isBlank]

theorem dropWhile_blanks {w r : List LChar} (hw : Blanks w) : (w ++ r).dropWhile lblank = r.dropWhile lblank := by
  rw [blanks_iff] at hw
  rw [List.dropWhile_append_of_pos hw]

theorem dropWhile_solid {r : List LChar} (hr : ∀ x, r.head? = some x → lblank x = false) :
    r.dropWhile lblank = r := by
  cases r with
  | nil => rfl
  | cons x r => simp [hr x rfl]

/-! ### Backslashes at the end -/

theorem countSlashes_eq (t : Str) : countSlashes t = trailingSlashes t := by
  unfold countSlashes trailingSlashes
  induction t using List.reverseRecOn with
  | nil => rfl
  | append_singleton t c ih =>
    rw [List.foldl_append, ih, List.reverse_append]
    by_cases hc : c = '\\'
    · subst hc; simp
    · simp [hc]

theorem endsWithBackslash_at (h : i.At P t) : endsWithBackslash i = .ok (trailingSlashes (textOf t)) := by
  unfold endsWithBackslash
  rw [h.chars]
  show _ = _
  simp [CStream.all, countSlashes_eq]

theorem trailingSlashes_le (t : Str) : trailingSlashes t ≤ t.length := by
  unfold trailingSlashes
  have := (List.takeWhile_sublist (fun x => x == '\\') (l := t.reverse)).length_le
  simpa using this

theorem trailingSlashes_append {s t : Str} (h : ∃ c ∈ t, c ≠ '\\') : trailingSlashes (s ++ t) = trailingSlashes t := by
  unfold trailingSlashes
  rw [List.reverse_append, List.takeWhile_append]
  split
  · rename_i hl
    exfalso
    obtain ⟨c, hc, hne⟩ := h
    have hall := List.takeWhile_eq_self_iff.mp ((List.takeWhile_sublist _).eq_of_length hl) c (by simpa using hc)
    simp [hne] at hall
  · rfl

theorem trailingSlashes_snoc (t : Str) {c : Char} (h : c ≠ '\\') : trailingSlashes (t ++ [c]) = 0 := by
  simp [trailingSlashes, h]

theorem trailingSlashes_slash (t : Str) : trailingSlashes (t ++ ['\\']) = trailingSlashes t + 1 := by
  simp [trailingSlashes]

/-- Neither blank nor backslash. -/
def lsolid (c : Char) : Bool := !(isBlank c || c = '\\')

theorem lastSolid_go (t : Str) (n a : Nat) :
    (indexed n t).foldl (fun l ic => if isBlank ic.2 || ic.2 = '\\' then l else ic.1) a =
      if t.any lsolid then n + (t.length - 1 - (t.reverse.takeWhile (fun c => !lsolid c)).length) else a := by
  induction t using List.reverseRecOn generalizing a with
  | nil => simp
  | append_singleton t c ih =>
    have hi : indexed n (t ++ [c]) = indexed n t ++ [(n + t.length, c)] := by
      simp [indexed, List.zipIdx_append]
    rw [hi, List.foldl_append, ih]
    by_cases hc : lsolid c = true
    · have hc' : ¬ ((isBlank c || decide (c = '\\')) = true) := by simpa [lsolid] using hc
      simp only [List.foldl_cons, List.foldl_nil]
      rw [if_neg hc']
      simp [hc]
    · have hc' : (isBlank c || decide (c = '\\')) = true := by
        simp only [lsolid, Bool.not_eq_true', Bool.not_eq_false] at hc
        exact hc
      simp only [List.foldl_cons, List.foldl_nil]
      rw [if_pos hc']
      have hf : lsolid c = false := by simpa using hc
      simp only [List.any_append, List.any_cons, hf, List.any_nil, Bool.or_false, List.reverse_append, List.reverse_cons,
        List.reverse_nil, List.nil_append, List.cons_append, List.takeWhile_cons, Bool.not_false, if_true, List.length_cons,
        List.length_append, List.length_nil]
      split
      · omega
      · rfl

/-- Number of characters `clean_line_end` keeps of a line that ends in an odd number of backslashes. -/
def cleanLen (mode : Compliance) (t : Str) : Nat :=
  if trailingSlashes t = 1 then
    match mode with
    | .posix => t.length - 1
    | .gnu => if t.length < 2 then 0 else lastSolid (indexed 0 t) + 1
  else t.length - trailingSlashes t + trailingSlashes t / 2

theorem lastSolid_lt {t : Str} (h : t ≠ []) : lastSolid (indexed 0 t) < t.length := by
  have := List.length_pos_iff.mpr h
  unfold lastSolid
  rw [lastSolid_go]
  split <;> omega

theorem cleanLen_le (mode : Compliance) (t : Str) : cleanLen mode t ≤ t.length := by
  have h1 := trailingSlashes_le t
  unfold cleanLen
  split
  · split
    · omega
    · split
      · omega
      · exact lastSolid_lt (by rintro rfl; simp at *)
  · omega

theorem cleanLineEnd_at (h : i.At P t) (mode : Compliance) :
    ∃ l, cleanLineEnd mode i (trailingSlashes (textOf t)) = .ok l ∧ l.At P (t.take (cleanLen mode (textOf t))) := by
  have hle := cleanLen_le mode (textOf t)
  have hts := trailingSlashes_le (textOf t)
  rw [textOf_length] at hle hts
  have hs := h.sliceTo hle
  unfold cleanLineEnd
  unfold cleanLen at hs ⊢
  by_cases h1 : trailingSlashes (textOf t) = 1
  · simp only [if_pos h1] at hs ⊢
    cases mode with
    | posix =>
      simp only [textOf_length] at hs ⊢
      rw [h.length, usub_of_le (by omega)]
      exact ⟨_, rfl, hs⟩
    | gnu =>
      simp only [textOf_length, h.length] at hs ⊢
      by_cases h2 : t.length < 2
      · simp only [if_pos h2]
        obtain ⟨r, e1, e2⟩ := h.slice (Nat.le_refl 0) (Nat.zero_le _)
        exact ⟨r, e1, by simpa using e2⟩
      · simp only [if_neg h2] at hs ⊢
        rw [h.chars]
        simp only [CStream.all, Bool.false_eq_true, if_false, Res.ok_bind]
        rw [withIndices_eq 0 h.ascii]
        exact ⟨_, rfl, hs⟩
  · simp only [if_neg h1] at hs ⊢
    rw [h.length, usub_of_le hts]
    simp only [textOf_length] at hs ⊢
    exact ⟨_, rfl, hs⟩

/-! ### Logical lines -/

theorem grabSpec_suffix (t : List LChar) : (grabSpec t).2.2 <:+ t := by
  unfold grabSpec
  split
  · exact List.dropWhile_suffix _
  · split
    · exact (List.drop_suffix _ _).trans (List.dropWhile_suffix _)
    · exact List.nil_suffix

theorem grabSpec_length (t : List LChar) : (grabSpec t).1.length + (grabSpec t).2.2.length ≤ t.length := by
  have key : ∀ p : LChar → Bool, (t.takeWhile p).length + (t.dropWhile p).length = t.length := by
    intro p
    have := congrArg List.length (List.takeWhile_append_dropWhile (p := p) (l := t))
    rwa [List.length_append] at this
  unfold grabSpec
  split
  · exact Nat.le_of_eq (key _)
  · split
    · have := key (fun x => x.1 != '\n')
      simp only [List.length_drop]; omega
    · simp

/-- A line that is not empty or not stopped by a comment character is progress. -/
theorem grabSpec_progress {t : List LChar} (h : t ≠ []) (h2 : (textOf t).head? ≠ some '#') :
    (grabSpec t).2.2.length < t.length := by
  have hpos := List.length_pos_iff.mpr h
  unfold grabSpec
  split
  · rename_i hm
    cases t with
    | nil => exact absurd rfl h
    | cons x t =>
      have hx : x.1 ≠ '#' := by simpa using h2
      have := (List.dropWhile_sublist (fun x : LChar => x.1 != '#') (l := t)).length_le
      simp [hx]
      omega
  · split
    · rename_i hm
      obtain ⟨l, rest, hd⟩ := dropWhile_head hm
      have := (List.dropWhile_sublist (fun x : LChar => x.1 != '\n') (l := t)).length_le
      rw [hd] at this ⊢
      simp at this ⊢
      omega
    · exact hpos

/-- The reference to a synthetic space. -/
theorem CRef.space_ltext : CRef.ltext CRef.space = [(' ', .synthetic)] := rfl
theorem CRef.space_wf : CRef.WF CRef.space := ⟨by decide, by show AsciiS [' ']; unfold AsciiS; decide⟩
theorem CRef.space_mono : CRef.Mono CRef.space := trivial
theorem CRef.space_length : CRef.space.length = 1 := rfl

/-- The block of a logical line: no sensitivity, and good for further parsing. -/
structure LineBlock (P : Block) (t : List LChar) (b : Block) : Prop where
  ltext : Block.ltext b = t
  sens : b.sens = []
  wf : Block.WF b
  solid : b.Solid
  mono : P.content.length ≤ 1 → Block.Mono P → Block.Mono b

theorem LineBlock.at {P : Block} {t : List LChar} {b : Block} (h : LineBlock P t b) : b.span.At b t := by
  have := Block.span_at h.wf h.solid
  rwa [h.ltext] at this

/-- Lines collected so far. -/
structure Lines (P : Block) (t : List LChar) (cs : List CRef) : Prop where
  ltext : CRef.ltextList cs = t
  wf : CRef.WFList cs
  mono : P.content.length ≤ 1 → Block.Mono P → CRef.MonoList cs

theorem Lines.nil {P : Block} : Lines P [] [] := ⟨rfl, trivial, fun _ _ => trivial⟩
theorem Lines.snoc {P : Block} {t u : List LChar} {cs : List CRef} {c : CRef} (h : Lines P t cs)
    (h1 : CRef.ltext c = u) (h2 : CRef.WF c) (h3 : P.content.length ≤ 1 → Block.Mono P → CRef.Mono c) :
    Lines P (t ++ u) (cs ++ [c]) := by
  refine ⟨?_, ?_, ?_⟩
  · rw [CRef.ltextList_append, h.ltext]; simp [CRef.ltextList, h1]
  · rw [CRef.wfList_append]; exact ⟨h.wf, h2, trivial⟩
  · intro m1 m2
    rw [CRef.monoList_append]
    exact ⟨h.mono m1 m2, h3 m1 m2, trivial⟩
theorem Lines.space {P : Block} {t : List LChar} {cs : List CRef} (h : Lines P t cs) :
    Lines P (t ++ [(' ', .synthetic)]) (cs ++ [CRef.space]) :=
  h.snoc CRef.space_ltext CRef.space_wf (fun _ _ => CRef.space_mono)
theorem Lines.block {P : Block} {t : List LChar} {cs : List CRef} (h : Lines P t cs) :
    ∃ b, Block.new [] cs = .ok b ∧ LineBlock P t b := by
  obtain ⟨b, h1, h2, _, h4, h5, h6, h7⟩ := Block.new_spec (sens := []) h.wf
  exact ⟨b, h1, by rw [h2, h.ltext], h4, h5, h6, fun m1 m2 => h7 (h.mono m1 m2)⟩

/-- The space added at the start of a round. -/
def roundSpace (strip addSpace : Bool) (reason : LineEnd) : List LChar :=
  if reason ≠ .comment then (if addSpace && !strip then [(' ', .synthetic)] else []) else [(' ', .synthetic)]
/-- The flag after the start of a round. -/
def roundFlag (addSpace : Bool) (reason : LineEnd) : Bool :=
  if reason ≠ .comment then true else addSpace

/-- One round of the loop. -/
theorem lineLoop_step {mode : Compliance} {n : Nat} {lines : List CRef} {strip addSpace : Bool} {reason : LineEnd}
    {L : List LChar} (h : i.At P t) (hl : Lines P L lines) :
    let g := grabSpec (t.dropWhile lblank)
    let k := cleanLen mode (textOf g.1)
    let L' := L ++ roundSpace strip addSpace reason
    let flag := roundFlag addSpace reason
    ∃ r, r.At P g.2.2 ∧
      (trailingSlashes (textOf g.1) % 2 = 0 →
        ∃ b, lineLoop mode (n + 1) i lines strip addSpace reason = .ok (.done r b) ∧ LineBlock P (L' ++ g.1) b) ∧
      (trailingSlashes (textOf g.1) % 2 ≠ 0 → 0 < k →
        ∃ lines', Lines P (L' ++ g.1.take k) lines' ∧ lineLoop mode (n + 1) i lines strip addSpace reason =
          lineLoop mode n r lines' false flag g.2.1) ∧
      (trailingSlashes (textOf g.1) % 2 ≠ 0 → k = 0 →
        ∃ lines', Lines P L' lines' ∧ lineLoop mode (n + 1) i lines strip addSpace reason =
          lineLoop mode n r lines' strip false g.2.1) := by
  intro g k L' flag
  obtain ⟨i1, w, e1, e2, _⟩ := whitespace_at h
  obtain ⟨r, l, f1, f2, f3⟩ := grabLine_at e2
  have hlines : ∃ lines', (if reason ≠ .comment then
        if (addSpace && !strip) = true then (lines ++ [CRef.space], addSpace) else (lines, true)
      else (lines ++ [CRef.space], addSpace)) = (lines', flag) ∧ Lines P L' lines' := by
    simp only [L', flag, roundSpace, roundFlag]
    by_cases hr : reason ≠ .comment
    · simp only [if_pos hr]
      by_cases ha : (addSpace && !strip) = true
      · simp only [if_pos ha]
        have : addSpace = true := by simp at ha; exact ha.1
        exact ⟨_, by rw [this], hl.space⟩
      · simp only [if_neg ha]
        exact ⟨_, rfl, by simpa using hl⟩
    · simp only [if_neg hr]
      exact ⟨_, rfl, hl.space⟩
  obtain ⟨lines', hl1, hl2⟩ := hlines
  have hstep : lineLoop mode (n + 1) i lines strip addSpace reason = (do
      if trailingSlashes (textOf g.1) % 2 = 0 then do
        let c ← l.toContentReference
        let b ← Block.new [] (lines' ++ [c])
        done r b
      else do
        let line ← cleanLineEnd mode l (trailingSlashes (textOf g.1))
        if line.length > 0 then do
          let c ← line.toContentReference
          lineLoop mode n r (lines' ++ [c]) false flag g.2.1
        else lineLoop mode n r lines' strip false g.2.1) := by
    simp only [lineLoop, hl1, e1, done_andThen, f1, Res.ok_bind, endsWithBackslash_at f3]
    rfl
  refine ⟨r, f2, ?_, ?_, ?_⟩
  · intro hev
    rw [hstep, if_pos hev]
    obtain ⟨c, c1, c2, _, c4, c5⟩ := f3.toContentReference
    obtain ⟨b, b1, b2⟩ := (hl2.snoc c2 c4 c5).block
    exact ⟨b, by simp [c1, b1, Res.done], b2⟩
  · intro hodd hk
    rw [hstep, if_neg hodd]
    obtain ⟨l', k1, k2⟩ := cleanLineEnd_at f3 mode
    obtain ⟨c, c1, c2, _, c4, c5⟩ := k2.toContentReference
    have hkl : k ≤ g.1.length := by have := cleanLen_le mode (textOf g.1); rwa [textOf_length] at this
    have hlen : l'.length > 0 := by
      rw [k2.length, List.length_take]
      show min k g.1.length > 0
      omega
    refine ⟨_, hl2.snoc c2 c4 c5, ?_⟩
    rw [k1, Res.ok_bind, if_pos hlen, c1, Res.ok_bind]
  · intro hodd hk
    rw [hstep, if_neg hodd]
    obtain ⟨l', k1, k2⟩ := cleanLineEnd_at f3 mode
    have hlen : ¬ l'.length > 0 := by
      rw [k2.length, List.length_take]
      show ¬ (min k g.1.length > 0)
      omega
    refine ⟨_, hl2, ?_⟩
    rw [k1, Res.ok_bind, if_neg hlen]

theorem odd_nonempty {t : Str} (h : trailingSlashes t % 2 ≠ 0) : 0 < t.length := by
  have := trailingSlashes_le t
  omega

/-- The loop always finishes with a block. -/
theorem lineLoop_total {mode : Compliance} {n : Nat} {lines : List CRef} {strip addSpace : Bool} {reason : LineEnd}
    {L : List LChar} (h : i.At P t) (hl : Lines P L lines) (hn : t.length < n) :
    ∃ r rest b u, lineLoop mode n i lines strip addSpace reason = .ok (.done r b) ∧ r.At P rest ∧ rest <:+ t ∧
      LineBlock P u b := by
  induction n generalizing i t lines strip addSpace reason L with
  | zero => omega
  | succ n ih =>
    obtain ⟨r, h1, h2, h3, h4⟩ := lineLoop_step (mode := mode) (n := n) (strip := strip) (addSpace := addSpace)
      (reason := reason) h hl
    have hsuf : (grabSpec (t.dropWhile lblank)).2.2 <:+ t := (grabSpec_suffix _).trans (List.dropWhile_suffix _)
    by_cases hev : trailingSlashes (textOf (grabSpec (t.dropWhile lblank)).1) % 2 = 0
    · obtain ⟨b, b1, b2⟩ := h2 hev
      exact ⟨r, _, b, _, b1, h1, hsuf, b2⟩
    · have hpos := odd_nonempty hev
      rw [textOf_length] at hpos
      have hlen := grabSpec_length (t.dropWhile lblank)
      have hdw := (List.dropWhile_sublist lblank (l := t)).length_le
      by_cases hk : cleanLen mode (textOf (grabSpec (t.dropWhile lblank)).1) = 0
      · obtain ⟨lines', e1, e2⟩ := h4 hev hk
        obtain ⟨r', rest, b, u, f1, f2, f3, f4⟩ := ih (strip := strip) (addSpace := false)
          (reason := (grabSpec (t.dropWhile lblank)).2.1) h1 e1 (by omega)
        exact ⟨r', rest, b, u, by rw [e2]; exact f1, f2, f3.trans hsuf, f4⟩
      · obtain ⟨lines', e1, e2⟩ := h3 hev (Nat.pos_of_ne_zero hk)
        obtain ⟨r', rest, b, u, f1, f2, f3, f4⟩ := ih (strip := false)
          (addSpace := roundFlag addSpace reason)
          (reason := (grabSpec (t.dropWhile lblank)).2.1) h1 e1 (by omega)
        exact ⟨r', rest, b, u, by rw [e2]; exact f1, f2, f3.trans hsuf, f4⟩

/-- The start of `makefile_line`. -/
theorem makefileLine_step {mode : Compliance} {strip : Bool} (h : i.At P t) :
    let g := grabSpec (if strip then t.dropWhile lblank else t)
    let k := cleanLen mode (textOf g.1)
    ∃ r, r.At P g.2.2 ∧
      (trailingSlashes (textOf g.1) % 2 = 0 →
        ∃ b, makefileLine i mode strip = .ok (.done r b) ∧ LineBlock P g.1 b) ∧
      (trailingSlashes (textOf g.1) % 2 ≠ 0 → 0 < k →
        ∃ c, Lines P (g.1.take k) [c] ∧ makefileLine i mode strip =
          lineLoop mode (g.2.2.length + 2) r [c] false true g.2.1) ∧
      (trailingSlashes (textOf g.1) % 2 ≠ 0 → k = 0 → makefileLine i mode strip =
          lineLoop mode (g.2.2.length + 2) r [] strip true g.2.1) := by
  intro g k
  have hgrab : ∃ r l, (if strip = true then (whitespace i).andThen fun i _ => grabLine i else grabLine i) =
      .ok (.done r (l, g.2.1)) ∧ r.At P g.2.2 ∧ l.At P g.1 := by
    cases strip with
    | true =>
      obtain ⟨i1, w, e1, e2, _⟩ := whitespace_at h
      obtain ⟨r, l, f1, f2, f3⟩ := grabLine_at e2
      exact ⟨r, l, by simp [e1, f1, g], f2, f3⟩
    | false =>
      obtain ⟨r, l, f1, f2, f3⟩ := grabLine_at h
      exact ⟨r, l, by simp [f1, g], f2, f3⟩
  obtain ⟨r, l, f1, f2, f3⟩ := hgrab
  have hstep : makefileLine i mode strip = (do
      if trailingSlashes (textOf g.1) % 2 = 0 then do
        let c ← l.toContentReference
        let b ← Block.new [] [c]
        done r b
      else do
        let line ← cleanLineEnd mode l (trailingSlashes (textOf g.1))
        if line.length > 0 then do
          let c ← line.toContentReference
          lineLoop mode (g.2.2.length + 2) r [c] false true g.2.1
        else lineLoop mode (g.2.2.length + 2) r [] strip true g.2.1) := by
    simp only [makefileLine, f1, done_andThen, endsWithBackslash_at f3, Res.ok_bind, f2.length]
  refine ⟨r, f2, ?_, ?_, ?_⟩
  · intro hev
    rw [hstep, if_pos hev]
    obtain ⟨c, c1, c2, _, c4, c5⟩ := f3.toContentReference
    obtain ⟨b, b1, b2⟩ := (Lines.nil.snoc c2 c4 c5).block
    exact ⟨b, by simp at b1; simp [c1, b1, Res.done], b2⟩
  · intro hodd hk
    rw [hstep, if_neg hodd]
    obtain ⟨l', k1, k2⟩ := cleanLineEnd_at f3 mode
    obtain ⟨c, c1, c2, _, c4, c5⟩ := k2.toContentReference
    have hkl : k ≤ g.1.length := by have := cleanLen_le mode (textOf g.1); rwa [textOf_length] at this
    have hlen : l'.length > 0 := by
      rw [k2.length, List.length_take]
      show min k g.1.length > 0
      omega
    refine ⟨_, Lines.nil.snoc c2 c4 c5, ?_⟩
    rw [k1, Res.ok_bind, if_pos hlen, c1, Res.ok_bind]
  · intro hodd hk
    rw [hstep, if_neg hodd]
    obtain ⟨l', k1, k2⟩ := cleanLineEnd_at f3 mode
    have hlen : ¬ l'.length > 0 := by
      rw [k2.length, List.length_take]
      show ¬ (min k g.1.length > 0)
      omega
    rw [k1, Res.ok_bind, if_neg hlen]

/-- `makefile_line` always returns a block and a suffix of the input; it makes progress unless the input is empty or
begins with a comment. -/
theorem makefileLine_total {mode : Compliance} {strip : Bool} (h : i.At P t) :
    ∃ r rest b u, makefileLine i mode strip = .ok (.done r b) ∧ r.At P rest ∧ rest <:+ t ∧ LineBlock P u b ∧
      (t ≠ [] → (textOf t).head? ≠ some '#' → rest.length < t.length) := by
  obtain ⟨r, h1, h2, h3, h4⟩ := makefileLine_step (mode := mode) (strip := strip) h
  have hsuf1 : (if strip then t.dropWhile lblank else t) <:+ t := by
    cases strip
    · exact List.suffix_refl _
    · exact List.dropWhile_suffix _
  have hsuf := (grabSpec_suffix (if strip then t.dropWhile lblank else t)).trans hsuf1
  have hprog : t ≠ [] → (textOf t).head? ≠ some '#' →
      (grabSpec (if strip then t.dropWhile lblank else t)).2.2.length < t.length := by
    intro p1 p2
    cases strip with
    | false => exact grabSpec_progress p1 p2
    | true =>
      simp only [if_true]
      cases t with
      | nil => exact absurd rfl p1
      | cons x t =>
        by_cases hx : lblank x = true
        · simp only [List.dropWhile_cons, hx, if_true]
          have := grabSpec_length (t.dropWhile lblank)
          have := (List.dropWhile_sublist lblank (l := t)).length_le
          simp only [List.length_cons]; omega
        · have : (x :: t).dropWhile lblank = x :: t := by simp [hx]
          rw [this]
          exact grabSpec_progress p1 p2
  generalize (if strip then t.dropWhile lblank else t) = t' at *
  by_cases hev : trailingSlashes (textOf (grabSpec t').1) % 2 = 0
  · obtain ⟨b, b1, b2⟩ := h2 hev
    exact ⟨r, _, b, _, b1, h1, hsuf, b2, hprog⟩
  · by_cases hk : cleanLen mode (textOf (grabSpec t').1) = 0
    · have e2 := h4 hev hk
      obtain ⟨r', rest, b, u, f1, f2, f3, f4⟩ := lineLoop_total (mode := mode) (strip := strip) (addSpace := true)
        (reason := (grabSpec t').2.1) h1 Lines.nil (Nat.lt_add_of_pos_right (by decide : 0 < 2))
      refine ⟨r', rest, b, u, by rw [e2]; exact f1, f2, f3.trans hsuf, f4, fun p1 p2 => ?_⟩
      exact Nat.lt_of_le_of_lt f3.length_le (hprog p1 p2)
    · obtain ⟨lines', e1, e2⟩ := h3 hev (Nat.pos_of_ne_zero hk)
      obtain ⟨r', rest, b, u, f1, f2, f3, f4⟩ := lineLoop_total (mode := mode) (strip := false) (addSpace := true)
        (reason := (grabSpec t').2.1) h1 e1 (Nat.lt_add_of_pos_right (by decide : 0 < 2))
      refine ⟨r', rest, b, u, by rw [e2]; exact f1, f2, f3.trans hsuf, f4, fun p1 p2 => ?_⟩
      exact Nat.lt_of_le_of_lt f3.length_le (hprog p1 p2)

/-! ### Comments -/

theorem leaves_exists (t : List LChar) : ∃ rest, Leaves t rest := by
  induction h : t.length using Nat.strongRecOn generalizing t with
  | ind n ih =>
    by_cases hm : '\n' ∈ textOf t
    · obtain ⟨loc, t', hd⟩ := dropWhile_head hm
      have hsplit := List.takeWhile_append_dropWhile (p := fun x : LChar => x.1 != '\n') (l := t)
      have hfree : Free '\n' (t.takeWhile (fun x : LChar => x.1 != '\n')) := by
        intro x hx
        have := List.mem_takeWhile_imp hx
        simpa using this
      rw [hd] at hsplit
      have hlen := congrArg List.length hsplit
      simp only [List.length_append, List.length_cons] at hlen
      rw [← hsplit]
      by_cases hev : trailingSlashes (textOf (t.takeWhile (fun x : LChar => x.1 != '\n'))) % 2 = 0
      · exact ⟨_, .stop _ _ _ hfree hev⟩
      · obtain ⟨rest, hr⟩ := ih t'.length (by omega) t' rfl
        exact ⟨rest, .cont _ _ _ _ hfree (by omega) hr⟩
    · exact ⟨[], .eof _ (free_iff.mpr hm)⟩

/-- The text a round of the comment loop reads from. -/
def afterHash (t : List LChar) : List LChar := if (textOf t).head? = some '#' then t.drop 1 else t

theorem afterHash_length (t : List LChar) : (afterHash t).length ≤ t.length := by
  unfold afterHash
  split
  · simp
  · exact Nat.le_refl _

theorem afterHash_suffix (t : List LChar) : afterHash t <:+ t := by
  unfold afterHash
  split
  · exact List.drop_suffix _ _
  · exact List.suffix_refl _

theorem afterHash_free {t : List LChar} (h : Free '#' t) : afterHash t = t := by
  unfold afterHash
  rw [if_neg]
  intro hh
  exact free_iff.mp h (List.mem_of_head? hh)

theorem afterHash_at (h : i.At P t) :
    ∃ r, orElse ((Nom.char '#' i).mapP fun _ => ()) (done i ()) = .ok (.done r ()) ∧ r.At P (afterHash t) := by
  unfold afterHash
  by_cases hh : (textOf t).head? = some '#'
  · rw [if_pos hh]
    cases t with
    | nil => simp at hh
    | cons x t =>
      simp only [textOf_cons, List.head?_cons, Option.some.injEq] at hh
      obtain ⟨r, e1, e2⟩ := (Nom.char_at h (c := '#') (by decide)).1 x.2 t (by rw [← hh])
      exact ⟨r, by simp [e1], e2⟩
  · rw [if_neg hh, (Nom.char_at h (c := '#') (by decide)).2 hh]
    exact ⟨i, rfl, h⟩

theorem commentLoop_step {n : Nat} {line : Span} {l : List LChar} {reason : LineEnd} (h : i.At P t)
    (hl : line.At P l) :
    (reason ≠ .comment → trailingSlashes (textOf l) % 2 = 0 →
      commentLoop (n + 1) i line reason = .ok (.done i ())) ∧
    (reason = .comment ∨ trailingSlashes (textOf l) % 2 = 1 →
      ∃ r l', r.At P (grabSpec (afterHash t)).2.2 ∧ l'.At P (grabSpec (afterHash t)).1 ∧
        commentLoop (n + 1) i line reason = commentLoop n r l' (grabSpec (afterHash t)).2.1) := by
  constructor
  · intro h1 h2
    simp [commentLoop, if_neg h1, endsWithBackslash_at hl, h2, Res.done]
  · intro h1
    obtain ⟨i1, e1, e2⟩ := afterHash_at h
    obtain ⟨r, l', f1, f2, f3⟩ := grabLine_at e2
    refine ⟨r, l', f2, f3, ?_⟩
    have hb : ∃ k, (if reason = .comment then .ok 1 else endsWithBackslash line : Res Nat) = .ok k ∧ k % 2 = 1 := by
      by_cases hr : reason = .comment
      · exact ⟨1, by rw [if_pos hr], rfl⟩
      · exact ⟨_, by rw [if_neg hr, endsWithBackslash_at hl], h1.resolve_left hr⟩
    obtain ⟨k, k1, k2⟩ := hb
    simp only [commentLoop, k1, Res.ok_bind, k2, if_true, e1, done_andThen, f1]

theorem commentLoop_total {n : Nat} {line : Span} {l : List LChar} {reason : LineEnd} (h : i.At P t)
    (hl : line.At P l) (hc : reason = .comment → (textOf t).head? = some '#') (hn : t.length + 2 ≤ n) :
    ∃ r rest, commentLoop n i line reason = .ok (.done r ()) ∧ r.At P rest ∧ rest <:+ t := by
  induction n generalizing i t line l reason with
  | zero => omega
  | succ n ih =>
    obtain ⟨h1, h2⟩ := commentLoop_step (n := n) (reason := reason) h hl
    by_cases hgo : reason = .comment ∨ trailingSlashes (textOf l) % 2 = 1
    · obtain ⟨r, l', e1, e2, e3⟩ := h2 hgo
      have hc' : (grabSpec (afterHash t)).2.1 = .comment →
          (textOf (grabSpec (afterHash t)).2.2).head? = some '#' := by
        unfold grabSpec
        split
        · rename_i hm
          obtain ⟨lo, re, hd⟩ := dropWhile_head hm
          intro _
          rw [hd]; rfl
        · split <;> simp
      by_cases ht : t = []
      · subst ht
        have hg : grabSpec (afterHash []) = ([], .eof, []) := by simp [afterHash, grabSpec]
        rw [hg] at e1 e2 e3
        obtain ⟨m, rfl⟩ : ∃ m, n = m + 1 := ⟨n - 1, by simp at hn; omega⟩
        have := (commentLoop_step (n := m) (reason := .eof) e1 e2).1 (by simp) (by rfl)
        exact ⟨r, [], by rw [e3, this], e1, List.suffix_refl _⟩
      · have hlt : (grabSpec (afterHash t)).2.2.length < t.length := by
          by_cases hh : (textOf t).head? = some '#'
          · have := grabSpec_length (afterHash t)
            have hpos := List.length_pos_iff.mpr ht
            have : (afterHash t).length < t.length := by
              unfold afterHash; rw [if_pos hh]; simp; omega
            omega
          · have : afterHash t = t := by unfold afterHash; rw [if_neg hh]
            rw [this]
            exact grabSpec_progress ht hh
        obtain ⟨r', rest, f1, f2, f3⟩ := ih e1 e2 hc' (by omega)
        exact ⟨r', rest, by rw [e3]; exact f1, f2, f3.trans ((grabSpec_suffix _).trans (afterHash_suffix t))⟩
    · have := h1 (fun he => hgo (Or.inl he)) (by omega)
      exact ⟨i, t, this, h, List.suffix_refl _⟩

theorem parseComment_total (h : i.At P t) :
    (∀ loc u, t = ('#', loc) :: u → ∃ r rest, parseComment i = .ok (.done r ()) ∧ r.At P rest ∧ rest <:+ u) ∧
      ((textOf t).head? ≠ some '#' → parseComment i = .ok (.err (.error .code))) := by
  constructor
  · rintro loc u rfl
    obtain ⟨i1, e1, e2⟩ := (Nom.char_at h (c := '#') (by decide)).1 loc u rfl
    obtain ⟨r, l, f1, f2, f3⟩ := grabLine_at e2
    have hc' : (grabSpec u).2.1 = .comment → (textOf (grabSpec u).2.2).head? = some '#' := by
      unfold grabSpec
      split
      · rename_i hm
        obtain ⟨lo, re, hd⟩ := dropWhile_head hm
        intro _
        rw [hd]; rfl
      · split <;> simp
    obtain ⟨r', rest, g1, g2, g3⟩ := commentLoop_total (n := (grabSpec u).2.2.length + 2) f2 f3 hc' (Nat.le_refl _)
    exact ⟨r', rest, by simp only [parseComment, e1, done_andThen, f1, f2.length, g1], g2,
      g3.trans (grabSpec_suffix u)⟩
  · intro hh
    simp only [parseComment, (Nom.char_at h (c := '#') (by decide)).2 hh, err_andThen]

/-- Reading on from a `#` that is the last of the input. -/
theorem commentLoop_leaves {u rest : List LChar} (hu : Leaves u rest) (hf : Free '#' u) :
    ∀ {n : Nat} {i line : Span} {t l : List LChar} {reason : LineEnd}, i.At P t → line.At P l → afterHash t = u →
      (reason = .comment ∨ trailingSlashes (textOf l) % 2 = 1) → u.length + 2 ≤ n →
      ∃ r, commentLoop n i line reason = .ok (.done r ()) ∧ r.At P rest := by
  induction hu with
  | eof u h1 =>
    intro n i line t l reason hi hl ht hgo hn
    obtain ⟨m, rfl⟩ : ∃ m, n = m + 1 + 1 := ⟨n - 2, by omega⟩
    obtain ⟨r, l', e1, e2, e3⟩ := (commentLoop_step (n := m + 1) (reason := reason) hi hl).2 hgo
    rw [ht, grabSpec_eof hf h1] at e1 e2 e3
    by_cases hev : trailingSlashes (textOf u) % 2 = 0
    · have := (commentLoop_step (n := m) (reason := .eof) e1 e2).1 (by simp) hev
      exact ⟨r, by rw [e3, this], e1⟩
    · have hpos := odd_nonempty hev
      rw [textOf_length] at hpos
      obtain ⟨k, rfl⟩ : ∃ k, m = k + 1 := ⟨m - 1, by omega⟩
      obtain ⟨r', l'', f1, f2, f3⟩ := (commentLoop_step (n := k + 1) (reason := .eof) e1 e2).2 (Or.inr (by simp only; omega))
      have hg : grabSpec (afterHash []) = ([], .eof, []) := by simp [afterHash, grabSpec]
      rw [hg] at f1 f2 f3
      have := (commentLoop_step (n := k) (reason := .eof) f1 f2).1 (by simp) (by rfl)
      exact ⟨r', by rw [e3, f3, this], f1⟩
  | stop a loc rest h1 h2 =>
    intro n i line t l reason hi hl ht hgo hn
    obtain ⟨m, rfl⟩ : ∃ m, n = m + 1 + 1 := ⟨n - 2, by omega⟩
    obtain ⟨r, l', e1, e2, e3⟩ := (commentLoop_step (n := m + 1) (reason := reason) hi hl).2 hgo
    rw [ht, grabSpec_line hf h1] at e1 e2 e3
    have := (commentLoop_step (n := m) (reason := .lineBreak) e1 e2).1 (by simp) h2
    exact ⟨r, by rw [e3, this], e1⟩
  | cont a loc u rest h1 h2 _ ih =>
    intro n i line t l reason hi hl ht hgo hn
    obtain ⟨m, rfl⟩ : ∃ m, n = m + 1 := ⟨n - 1, by omega⟩
    obtain ⟨r, l', e1, e2, e3⟩ := (commentLoop_step (n := m) (reason := reason) hi hl).2 hgo
    rw [ht, grabSpec_line hf h1] at e1 e2 e3
    have hf' : Free '#' u := (Free.cons.mp (Free.append.mp hf).2).2
    obtain ⟨r', g1, g2⟩ := ih hf' (n := m) e1 e2 (afterHash_free hf') (Or.inr h2) (by simp at hn; omega)
    exact ⟨r', by rw [e3]; exact g1, g2⟩

/-- Skipping over earlier comment characters. -/
theorem commentLoop_skip {b rest : List LChar} {loc : Location} (hb : Leaves b rest) (hf : Free '#' b) (n : Nat)
    {line : Span} {l : List LChar} (a : List LChar) (loc0 : Location)
    (hi : i.At P (('#', loc0) :: (a ++ ('#', loc) :: b)) ) (hl : line.At P l) (hn : a.length + b.length + 4 ≤ n) :
    ∃ r, commentLoop n i line .comment = .ok (.done r ()) ∧ r.At P rest := by
  induction n generalizing i a loc0 line l with
  | zero => omega
  | succ n ih =>
    obtain ⟨r, l', e1, e2, e3⟩ := (commentLoop_step (n := n) (reason := .comment) hi hl).2 (Or.inl rfl)
    have hah : afterHash (('#', loc0) :: (a ++ ('#', loc) :: b)) = a ++ ('#', loc) :: b := by
      simp [afterHash]
    rw [hah] at e1 e2 e3
    by_cases ha : '#' ∈ textOf a
    · obtain ⟨l1, a', hd⟩ := dropWhile_head ha
      have hsplit := List.takeWhile_append_dropWhile (p := fun x : LChar => x.1 != '#') (l := a)
      have hfree : Free '#' (a.takeWhile (fun x : LChar => x.1 != '#')) := by
        intro x hx
        have := List.mem_takeWhile_imp hx
        simpa using this
      rw [hd] at hsplit
      have hlen := congrArg List.length hsplit
      simp only [List.length_append, List.length_cons] at hlen
      have heq : a ++ ('#', loc) :: b =
          a.takeWhile (fun x : LChar => x.1 != '#') ++ ('#', l1) :: (a' ++ ('#', loc) :: b) := by
        conv => lhs; rw [← hsplit]
        simp
      rw [heq, grabSpec_comment hfree] at e1 e2 e3
      obtain ⟨r', g1, g2⟩ := ih a' l1 e1 e2 (by omega)
      exact ⟨r', by rw [e3]; exact g1, g2⟩
    · rw [grabSpec_comment (free_iff.mpr ha)] at e1 e2 e3
      obtain ⟨r', g1, g2⟩ := commentLoop_leaves hb hf (n := n) e1 e2 (by simp [afterHash]) (Or.inl rfl) (by omega)
      exact ⟨r', by rw [e3]; exact g1, g2⟩

/-- A comment without a further comment character in the rest of the input. -/
theorem parseComment_leaves {b rest : List LChar} {loc : Location} (hb : Leaves b rest) (hf : Free '#' b)
    (hi : i.At P (('#', loc) :: b)) : ∃ r, parseComment i = .ok (.done r ()) ∧ r.At P rest := by
  obtain ⟨i1, e1, e2⟩ := (Nom.char_at hi (c := '#') (by decide)).1 loc b rfl
  obtain ⟨r, l, f1, f2, f3⟩ := grabLine_at e2
  have hp : parseComment i = commentLoop ((grabSpec b).2.2.length + 2) r l (grabSpec b).2.1 := by
    simp only [parseComment, e1, done_andThen, f1, f2.length]
  rw [hp]
  cases hb with
  | eof _ h1 =>
    rw [grabSpec_eof hf h1] at f2 f3 ⊢
    by_cases hev : trailingSlashes (textOf b) % 2 = 0
    · exact ⟨r, (commentLoop_step (reason := .eof) f2 f3).1 (by simp) hev, f2⟩
    · exact commentLoop_leaves (.eof [] (by simp)) (by simp) f2 f3 (by simp [afterHash]) (Or.inr (by simp only; omega)) (by simp)
  | stop a loc _ h1 h2 =>
    rw [grabSpec_line hf h1] at f2 f3 ⊢
    exact ⟨r, (commentLoop_step (reason := .lineBreak) f2 f3).1 (by simp) h2, f2⟩
  | cont a loc u _ h1 h2 h3 =>
    rw [grabSpec_line hf h1] at f2 f3 ⊢
    have hf' : Free '#' u := (Free.cons.mp (Free.append.mp hf).2).2
    exact commentLoop_leaves h3 hf' f2 f3 (afterHash_free hf') (Or.inr h2) (by simp)

/-- With further comment characters, everything up to the last one is swallowed. -/
theorem parseComment_swallows {a b rest : List LChar} {loc0 loc : Location} (hb : Leaves b rest) (hf : Free '#' b)
    (hi : i.At P (('#', loc0) :: (a ++ ('#', loc) :: b))) : ∃ r, parseComment i = .ok (.done r ()) ∧ r.At P rest := by
  obtain ⟨i1, e1, e2⟩ := (Nom.char_at hi (c := '#') (by decide)).1 loc0 _ rfl
  obtain ⟨r, l, f1, f2, f3⟩ := grabLine_at e2
  have hp : parseComment i = commentLoop ((grabSpec (a ++ ('#', loc) :: b)).2.2.length + 2) r l
      (grabSpec (a ++ ('#', loc) :: b)).2.1 := by
    simp only [parseComment, e1, done_andThen, f1, f2.length]
  rw [hp]
  by_cases ha : '#' ∈ textOf a
  · obtain ⟨l1, a', hd⟩ := dropWhile_head ha
    have hsplit := List.takeWhile_append_dropWhile (p := fun x : LChar => x.1 != '#') (l := a)
    have hfree : Free '#' (a.takeWhile (fun x : LChar => x.1 != '#')) := by
      intro x hx
      have := List.mem_takeWhile_imp hx
      simpa using this
    rw [hd] at hsplit
    have heq : a ++ ('#', loc) :: b =
        a.takeWhile (fun x : LChar => x.1 != '#') ++ ('#', l1) :: (a' ++ ('#', loc) :: b) := by
      conv => lhs; rw [← hsplit]
      simp
    rw [heq, grabSpec_comment hfree] at f2 f3 ⊢
    exact commentLoop_skip hb hf _ a' l1 f2 f3 (by simp; omega)
  · rw [grabSpec_comment (free_iff.mpr ha)] at f2 f3 ⊢
    exact commentLoop_leaves hb hf f2 f3 (by simp [afterHash]) (Or.inl rfl) (by simp)

/-! ### Joining continued lines -/

theorem lblank_iff {x : LChar} : lblank x = true ↔ x.1 = ' ' ∨ x.1 = '\t' := by simp [lblank, isBlank]

theorem blanks_free {w : List LChar} (h : Blanks w) {c : Char} (h1 : c ≠ ' ') (h2 : c ≠ '\t') : Free c w := by
  intro x hx he
  rcases h x hx with h | h
  · exact h1 (he.symm.trans h)
  · exact h2 (he.symm.trans h)

/-- The text `clean_line_end` sees for a continued line. -/
def Continued.seen (c : Continued) : List LChar := c.body ++ (c.trail ++ [('\\', c.slash)])

theorem Continued.dropWhile_line {c : Continued} (h : c.OK) (more : List LChar) :
    (c.line ++ more).dropWhile lblank = c.seen ++ ('\n', c.feed) :: more := by
  have : c.line ++ more = c.lead ++ (c.seen ++ ('\n', c.feed) :: more) := by
    simp [Continued.line, Continued.seen]
  rw [this, dropWhile_blanks h.lead]
  apply dropWhile_solid
  intro x hx
  rcases h.body with ⟨h1, h2⟩ | ⟨⟨y, l, h1, h2⟩, _⟩
  · simp [Continued.seen, h1, h2] at hx
    subst hx
    rfl
  · simp [Continued.seen, h1] at hx
    subst hx
    simpa using fun hb => h2 (lblank_iff.mp hb)

theorem Continued.seen_free {c : Continued} (h : c.OK) : Free '\n' c.seen := by
  rw [Continued.seen, Free.append, Free.append]
  exact ⟨h.free, blanks_free h.trail (by decide) (by decide), by simp [Free]⟩

theorem Continued.seen_slashes {c : Continued} (h : c.OK) : trailingSlashes (textOf c.seen) = 1 := by
  have hs : textOf c.seen = textOf (c.body ++ c.trail) ++ ['\\'] := by simp [Continued.seen]
  rw [hs, trailingSlashes_slash]
  suffices h0 : trailingSlashes (textOf (c.body ++ c.trail)) = 0 by rw [h0]
  by_cases ht : c.trail = []
  · rw [ht]
    rcases h.body with ⟨h1, _⟩ | ⟨_, x, l, h1, h2⟩
    · rw [h1]; rfl
    · rw [h1]
      simp only [List.append_nil, textOf_append, textOf_cons, textOf_nil]
      exact trailingSlashes_snoc _ (fun e => h2 (Or.inr (Or.inr e)))
  · obtain ⟨l, x, hl⟩ : ∃ l x, c.trail = l ++ [x] := ⟨_, _, (List.dropLast_append_getLast ht).symm⟩
    rw [hl, ← List.append_assoc, textOf_append]
    apply trailingSlashes_snoc
    intro e
    have := h.trail x (by rw [hl]; simp)
    rw [e] at this
    revert this; decide

theorem Continued.seen_clean {c : Continued} (h : c.OK) : cleanLen .gnu (textOf c.seen) = c.body.length := by
  unfold cleanLen
  rw [if_pos (seen_slashes h)]
  simp only
  rcases h.body with ⟨h1, h2⟩ | ⟨_, x, l, h1, h2⟩
  · simp [Continued.seen, h1, h2]
  · have hlen : (textOf c.seen).length = l.length + 1 + (c.trail.length + 1) := by
      rw [textOf_length]; simp [Continued.seen, h1]; omega
    rw [if_neg (by omega)]
    unfold lastSolid
    rw [lastSolid_go]
    have hx : lsolid x.1 = true := by
      simp only [lsolid, isBlank]
      simp only [not_or] at h2
      simp [h2]
    have htr : ∀ c' ∈ (textOf c.trail).reverse, (!lsolid c') = true := by
      intro c' hc'
      rw [List.mem_reverse, mem_textOf] at hc'
      obtain ⟨y, hy, rfl⟩ := hc'
      have := h.trail y hy
      rcases this with e | e <;> rw [e] <;> decide
    rw [if_pos (by rw [Continued.seen, h1]; simp [hx])]
    have hrev : (textOf c.seen).reverse = '\\' :: ((textOf c.trail).reverse ++ (x.1 :: (textOf l).reverse)) := by
      simp [Continued.seen, h1]
    rw [hrev, List.takeWhile_cons, if_pos (by decide), List.takeWhile_append_of_pos htr, List.takeWhile_cons,
      if_neg (by simp [hx]), List.append_nil, List.length_cons, List.length_reverse, hlen, textOf_length, h1]
    simp; omega

/-- The pieces of a logical line put together, from the middle of the loop. -/
def glue : (strip addSpace : Bool) → List (List LChar) → List LChar → List LChar
  | strip, addSpace, [], final => roundSpace strip addSpace .lineBreak ++ final
  | strip, addSpace, b :: bs, final =>
    roundSpace strip addSpace .lineBreak ++ (if b = [] then glue strip false bs final else b ++ glue false true bs final)

theorem glue_strip_false (bs : List (List LChar)) (final : List LChar) :
    glue false false bs final = joinSpaces (bs.filter (fun b => !b.isEmpty) ++ [final]) ∧
    glue false true bs final = (' ', .synthetic) :: joinSpaces (bs.filter (fun b => !b.isEmpty) ++ [final]) := by
  induction bs with
  | nil => simp [glue, roundSpace, joinSpaces]
  | cons b bs ih =>
    have hj : ∀ (b : List LChar) (ls : List (List LChar)), joinSpaces (b :: (ls ++ [final])) =
        b ++ (' ', .synthetic) :: joinSpaces (ls ++ [final]) := by
      intro b ls
      cases ls <;> rfl
    by_cases hb : b = []
    · subst hb
      simp [glue, roundSpace, ih.1]
    · have : (b :: bs).filter (fun b => !b.isEmpty) = b :: bs.filter (fun b => !b.isEmpty) := by
        simp [hb]
      rw [this, List.cons_append, hj]
      constructor
      · simp [glue, roundSpace, hb, ih.2]
      · simp [glue, roundSpace, hb, ih.2]

theorem glue_strip_true (bs : List (List LChar)) (final : List LChar) (a : Bool) :
    glue true a bs final = joinSpaces (bs.filter (fun b => !b.isEmpty) ++ [final]) := by
  induction bs generalizing a with
  | nil => simp [glue, roundSpace, joinSpaces]
  | cons b bs ih =>
    have hj : ∀ (b : List LChar) (ls : List (List LChar)), joinSpaces (b :: (ls ++ [final])) =
        b ++ (' ', .synthetic) :: joinSpaces (ls ++ [final]) := by
      intro b ls
      cases ls <;> rfl
    by_cases hb : b = []
    · subst hb
      simp [glue, roundSpace, ih]
    · have : (b :: bs).filter (fun b => !b.isEmpty) = b :: bs.filter (fun b => !b.isEmpty) := by
        simp [hb]
      rw [this, List.cons_append, hj]
      simp [glue, roundSpace, hb, (glue_strip_false bs final).2]

/-- The last physical line of a logical line. -/
structure LastLine (lead final tail rest : List LChar) : Prop where
  lead : Blanks lead
  free : Free '\n' final
  head : ∀ x, final.head? = some x → lblank x = false
  even : trailingSlashes (textOf final) % 2 = 0
  ends : EndsLine tail rest

theorem LastLine.grab {lead final tail rest : List LChar} (h : LastLine lead final tail rest)
    (hf : Free '#' (final ++ tail)) :
    ∃ reason, grabSpec ((lead ++ (final ++ tail)).dropWhile lblank) = (final, reason, rest) ∧ reason ≠ .comment := by
  rw [dropWhile_blanks h.lead, dropWhile_solid]
  · rcases h.ends with ⟨h1, h2⟩ | ⟨loc, h1⟩
    · subst h1 h2
      rw [List.append_nil] at hf ⊢
      exact ⟨_, grabSpec_eof hf h.free, by simp⟩
    · subst h1
      exact ⟨_, grabSpec_line hf h.free, by simp⟩
  · intro x hx
    cases hfin : final with
    | nil =>
      rw [hfin] at hx
      rcases h.ends with ⟨h1, h2⟩ | ⟨loc, h1⟩
      · simp [h1] at hx
      · simp [h1] at hx; subst hx; rfl
    | cons y l =>
      rw [hfin] at hx
      simp at hx
      exact h.head x (by rw [hfin]; simp [hx])

theorem lineLoop_pieces {lead final tail rest : List LChar} (hlast : LastLine lead final tail rest)
    (cs : List Continued) (hcs : ∀ c ∈ cs, c.OK) {n : Nat} {lines : List CRef} {strip addSpace : Bool}
    {reason : LineEnd} {L : List LChar} (hreason : reason ≠ .comment)
    (h : i.At P (cs.flatMap Continued.line ++ (lead ++ (final ++ tail))))
    (hf : Free '#' (cs.flatMap Continued.line ++ (lead ++ (final ++ tail))))
    (hl : Lines P L lines) (hn : cs.length < n) :
    ∃ r b, lineLoop .gnu n i lines strip addSpace reason = .ok (.done r b) ∧ r.At P rest ∧
      LineBlock P (L ++ glue strip addSpace (cs.map (·.body)) final) b := by
  induction cs generalizing i n lines strip addSpace reason L with
  | nil =>
    obtain ⟨n, rfl⟩ : ∃ m, n = m + 1 := ⟨n - 1, by simp at hn; omega⟩
    simp only [List.flatMap_nil, List.nil_append] at h hf
    obtain ⟨rs, hg, _⟩ := hlast.grab (Free.append.mp hf).2
    obtain ⟨r, h1, h2, _⟩ := lineLoop_step (mode := .gnu) (n := n) (strip := strip) (addSpace := addSpace)
      (reason := reason) h hl
    rw [hg] at h1 h2
    obtain ⟨b, b1, b2⟩ := h2 hlast.even
    refine ⟨r, b, b1, h1, ?_⟩
    simpa [glue, roundSpace, hreason] using b2
  | cons c cs ih =>
    obtain ⟨n, rfl⟩ : ∃ m, n = m + 1 := ⟨n - 1, by simp at hn; omega⟩
    have hc := hcs c (by simp)
    simp only [List.flatMap_cons, List.append_assoc] at h hf
    obtain ⟨r, h1, h2, h3, h4⟩ := lineLoop_step (mode := .gnu) (n := n) (strip := strip) (addSpace := addSpace)
      (reason := reason) h hl
    have hg : grabSpec ((c.line ++ (cs.flatMap Continued.line ++ (lead ++ (final ++ tail)))).dropWhile lblank) =
        (c.seen, .lineBreak, cs.flatMap Continued.line ++ (lead ++ (final ++ tail))) := by
      rw [Continued.dropWhile_line hc]
      apply grabSpec_line _ (Continued.seen_free hc)
      have hh := Free.append.mp hf
      have hh1 : Free '#' c.lead ∧ Free '#' c.seen ∧ Free '#' [('\n', c.feed)] := by
        have : c.line = c.lead ++ (c.seen ++ [('\n', c.feed)]) := by simp [Continued.line, Continued.seen]
        have h' := hh.1
        rw [this, Free.append, Free.append] at h'
        exact h'
      rw [Free.append, Free.cons]
      exact ⟨hh1.2.1, by simp, hh.2⟩
    rw [hg] at h1 h2 h3 h4
    simp only [Continued.seen_slashes hc, Continued.seen_clean hc] at h3 h4
    have hf' := (Free.append.mp hf).2
    by_cases hb : c.body = []
    · obtain ⟨lines', e1, e2⟩ := h4 (by decide) (by rw [hb]; rfl)
      obtain ⟨r', b, f1, f2, f3⟩ := ih (fun d hd => hcs d (by simp [hd])) (strip := strip) (addSpace := false)
        (reason := .lineBreak) (by simp) h1 hf' e1 (by simp at hn; omega)
      refine ⟨r', b, by rw [e2]; exact f1, f2, ?_⟩
      simpa [glue, hb, roundSpace, hreason] using f3
    · obtain ⟨lines', e1, e2⟩ := h3 (by decide) (List.length_pos_iff.mpr hb)
      obtain ⟨r', b, f1, f2, f3⟩ := ih (fun d hd => hcs d (by simp [hd])) (strip := false)
        (addSpace := roundFlag addSpace reason) (reason := .lineBreak) (by simp) h1 hf' e1 (by simp at hn; omega)
      refine ⟨r', b, by rw [e2]; exact f1, f2, ?_⟩
      have : c.seen.take c.body.length = c.body := by simp [Continued.seen]
      rw [this] at f3
      simpa [glue, hb, roundSpace, roundFlag, hreason] using f3

/-- A logical line of any number of continued physical lines (leading blanks stripped). -/
theorem makefileLine_pieces {lead final tail rest : List LChar} (hlast : LastLine lead final tail rest)
    (cs : List Continued) (hcs : ∀ c ∈ cs, c.OK)
    (h : i.At P (cs.flatMap Continued.line ++ (lead ++ (final ++ tail))))
    (hf : Free '#' (cs.flatMap Continued.line ++ (lead ++ (final ++ tail)))) :
    ∃ r b, makefileLine i .gnu true = .ok (.done r b) ∧ r.At P rest ∧
      LineBlock P (joinSpaces ((cs.map (·.body)).filter (fun b => !b.isEmpty) ++ [final])) b := by
  cases cs with
  | nil =>
    simp only [List.flatMap_nil, List.nil_append] at h hf
    obtain ⟨rs, hg, _⟩ := hlast.grab (Free.append.mp hf).2
    obtain ⟨r, h1, h2, _⟩ := makefileLine_step (mode := .gnu) (strip := true) h
    simp only [if_true] at h1 h2
    rw [hg] at h1 h2
    obtain ⟨b, b1, b2⟩ := h2 hlast.even
    exact ⟨r, b, b1, h1, b2⟩
  | cons c cs =>
    have hc := hcs c (by simp)
    simp only [List.flatMap_cons, List.append_assoc] at h hf
    obtain ⟨r, h1, h2, h3, h4⟩ := makefileLine_step (mode := .gnu) (strip := true) h
    simp only [if_true] at h1 h2 h3 h4
    have hg : grabSpec ((c.line ++ (cs.flatMap Continued.line ++ (lead ++ (final ++ tail)))).dropWhile lblank) =
        (c.seen, .lineBreak, cs.flatMap Continued.line ++ (lead ++ (final ++ tail))) := by
      rw [Continued.dropWhile_line hc]
      apply grabSpec_line _ (Continued.seen_free hc)
      have hh := Free.append.mp hf
      have hh1 : Free '#' c.lead ∧ Free '#' c.seen ∧ Free '#' [('\n', c.feed)] := by
        have : c.line = c.lead ++ (c.seen ++ [('\n', c.feed)]) := by simp [Continued.line, Continued.seen]
        have h' := hh.1
        rw [this, Free.append, Free.append] at h'
        exact h'
      rw [Free.append, Free.cons]
      exact ⟨hh1.2.1, by simp, hh.2⟩
    rw [hg] at h1 h2 h3 h4
    simp only [Continued.seen_slashes hc, Continued.seen_clean hc] at h3 h4
    have hf' := (Free.append.mp hf).2
    have hlen : cs.length < (cs.flatMap Continued.line ++ (lead ++ (final ++ tail))).length + 2 := by
      have : cs.length ≤ (cs.flatMap Continued.line).length := by
        clear h hf hcs h1 h2 h3 h4 hg hf'
        induction cs with
        | nil => simp
        | cons c cs ih =>
          rw [List.flatMap_cons, List.length_append, List.length_cons]
          have : 1 ≤ c.line.length := by simp [Continued.line]; omega
          omega
      rw [List.length_append]; omega
    by_cases hb : c.body = []
    · have e2 := h4 (by decide) (by rw [hb]; rfl)
      obtain ⟨r', b, f1, f2, f3⟩ := lineLoop_pieces hlast cs (fun d hd => hcs d (by simp [hd])) (strip := true)
        (addSpace := true) (reason := .lineBreak) (by simp) h1 hf' Lines.nil hlen
      refine ⟨r', b, by rw [e2]; exact f1, f2, ?_⟩
      rw [glue_strip_true] at f3
      simpa [hb] using f3
    · obtain ⟨lines', e1, e2⟩ := h3 (by decide) (List.length_pos_iff.mpr hb)
      obtain ⟨r', b, f1, f2, f3⟩ := lineLoop_pieces hlast cs (fun d hd => hcs d (by simp [hd])) (strip := false)
        (addSpace := true) (reason := .lineBreak) (by simp) h1 hf' e1 hlen
      refine ⟨r', b, by rw [e2]; exact f1, f2, ?_⟩
      have : c.seen.take c.body.length = c.body := by simp [Continued.seen]
      rw [this, (glue_strip_false _ _).2] at f3
      have hj : ∀ (b : List LChar) (ls : List (List LChar)), joinSpaces (b :: (ls ++ [final])) =
          b ++ (' ', .synthetic) :: joinSpaces (ls ++ [final]) := by
        intro b ls
        cases ls <;> rfl
      simp only [List.map_cons]
      rw [List.filter_cons, if_pos (by simp [hb]), List.cons_append, hj]
      exact f3

end Hastur
