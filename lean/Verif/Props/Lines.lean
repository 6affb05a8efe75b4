import Verif.Proofs.Unquote
/-
C20-C25: physical and logical lines, comments, unquoting, file lists.

`i.At P t` says that the span `i` is a well-formed window of block `P` and shows the located text `t`
(Spec/Text.lean).
-/
namespace Hastur

open Res

/-- A line of the example makefile below. -/
private def line (s : String) : Str := s.toList

/-! ### C20 -/

/-- The number the code computes is the number of backslashes at the end of the line. -/
theorem C20_counts_trailing_backslashes (s : Span) (h : s.WF) :
    endsWithBackslash s = .ok (trailingSlashes s.text) := by
  unfold endsWithBackslash
  rw [Span.chars_eq h]
  simp [CStream.all, countSlashes_eq]

/-- The number of backslashes at the end: `t` is some text that does not end in a backslash, then that many. -/
theorem C20_trailing_meaning (t : Str) :
    ∃ a, t = a ++ List.replicate (trailingSlashes t) '\\' ∧ ∀ c, a.getLast? = some c → c ≠ '\\' := by
  refine ⟨(t.reverse.dropWhile (· == '\\')).reverse, ?_, ?_⟩
  · have h1 := List.takeWhile_append_dropWhile (p := fun c : Char => c == '\\') (l := t.reverse)
    have h2 : t.reverse.takeWhile (· == '\\') = List.replicate (trailingSlashes t) '\\' := by
      rw [List.eq_replicate_iff]
      exact ⟨rfl, fun c hc => by simpa using List.mem_takeWhile_imp hc⟩
    have h3 := congrArg List.reverse h1
    rw [List.reverse_append, List.reverse_reverse, h2, List.reverse_replicate] at h3
    exact h3.symm
  · intro c hc
    rw [List.getLast?_reverse] at hc
    have := List.head?_dropWhile_not (fun c : Char => c == '\\') t.reverse
    rw [hc] at this
    simpa using this

/-- A logical line stops after its first physical line exactly when that ends in an even number of backslashes; with
an odd number it goes on (unless nothing or a comment follows). -/
theorem C20_continued_iff_odd (P : Block) (t : List LChar) (i : Span) (h : i.At P t) (mode : Compliance)
    (l r : Span) (e : LineEnd) (hg : grabLine i = .ok (.done r (l, e))) :
    ∃ r' b, makefileLine i mode false = .ok (.done r' b) ∧
      (trailingSlashes l.text % 2 = 0 → r'.ltext = r.ltext ∧ Block.ltext b = l.ltext) ∧
      (trailingSlashes l.text % 2 = 1 → r.text ≠ [] → r.text.head? ≠ some '#' → r'.length < r.length) := by
  obtain ⟨r0, l0, g1, g2, g3⟩ := grabLine_at h
  rw [hg, Res.ok.injEq, IRes.done.injEq, Prod.mk.injEq] at g1
  obtain ⟨rfl, rfl, rfl⟩ := g1
  obtain ⟨r', h1, h2, h3, h4⟩ := makefileLine_step (mode := mode) (strip := false) h
  simp only [Bool.false_eq_true, if_false] at h1 h2 h3 h4
  have hlt : l.text = textOf (grabSpec t).1 := g3.text
  have hrt : r.ltext = (grabSpec t).2.2 := g2.ltext
  have hr : ∀ (lines : List CRef) (L : List LChar) (strip addSpace : Bool) (reason : LineEnd), Lines P L lines →
      ∃ r'' b, lineLoop mode ((grabSpec t).2.2.length + 2) r' lines strip addSpace reason = .ok (.done r'' b) ∧
        (r.text ≠ [] → r.text.head? ≠ some '#' → r''.length < r.length) := by
    intro lines L strip addSpace reason hl
    have hrlen : r.length = (grabSpec t).2.2.length := g2.length
    have hrtext : r.text = textOf (grabSpec t).2.2 := g2.text
    rw [hrlen, hrtext]
    generalize (grabSpec t).2.2 = u at *
    have key : u ≠ [] → (textOf u).head? ≠ some '#' → (grabSpec (u.dropWhile lblank)).2.2.length < u.length := by
      intro p1 p2
      cases u with
      | nil => exact absurd rfl p1
      | cons x u =>
        by_cases hx : lblank x = true
        · simp only [List.dropWhile_cons, hx, if_true]
          have := grabSpec_length (u.dropWhile lblank)
          have := (List.dropWhile_sublist lblank (l := u)).length_le
          simp only [List.length_cons]; omega
        · have : (x :: u).dropWhile lblank = x :: u := by simp [hx]
          rw [this]
          exact grabSpec_progress p1 p2
    have hne : textOf u ≠ [] → u ≠ [] := by rintro h rfl; exact h rfl
    obtain ⟨r1, k1, k2, k3, k4⟩ := lineLoop_step (mode := mode) (n := u.length + 1) (strip := strip)
      (addSpace := addSpace) (reason := reason) h1 hl
    by_cases hev : trailingSlashes (textOf (grabSpec (u.dropWhile lblank)).1) % 2 = 0
    · obtain ⟨b, b1, _⟩ := k2 hev
      exact ⟨r1, b, b1, fun p1 p2 => by rw [k1.length]; exact key (hne p1) p2⟩
    · have hpos := odd_nonempty hev
      rw [textOf_length] at hpos
      have hlen := grabSpec_length (u.dropWhile lblank)
      have hdw := (List.dropWhile_sublist lblank (l := u)).length_le
      by_cases hk : cleanLen mode (textOf (grabSpec (u.dropWhile lblank)).1) = 0
      · obtain ⟨lines', e1, e2⟩ := k4 hev hk
        obtain ⟨r2, rest, b, v, f1, f2, f3, f4⟩ := lineLoop_total (mode := mode) (n := u.length + 1) (strip := strip)
          (addSpace := false) (reason := (grabSpec (u.dropWhile lblank)).2.1) k1 e1 (by omega)
        refine ⟨r2, b, by rw [e2]; exact f1, fun p1 p2 => ?_⟩
        rw [f2.length]
        exact Nat.lt_of_le_of_lt f3.length_le (key (hne p1) p2)
      · obtain ⟨lines', e1, e2⟩ := k3 hev (Nat.pos_of_ne_zero hk)
        obtain ⟨r2, rest, b, v, f1, f2, f3, f4⟩ := lineLoop_total (mode := mode) (n := u.length + 1) (strip := false)
          (addSpace := roundFlag addSpace reason) (reason := (grabSpec (u.dropWhile lblank)).2.1) k1 e1 (by omega)
        refine ⟨r2, b, by rw [e2]; exact f1, fun p1 p2 => ?_⟩
        rw [f2.length]
        exact Nat.lt_of_le_of_lt f3.length_le (key (hne p1) p2)
  by_cases hev : trailingSlashes (textOf (grabSpec t).1) % 2 = 0
  · obtain ⟨b, b1, b2⟩ := h2 hev
    exact ⟨r', b, b1, fun _ => ⟨by rw [h1.ltext, hrt], by rw [b2.ltext, g3.ltext]⟩,
      fun ho => by rw [hlt] at ho; omega⟩
  · by_cases hk : cleanLen mode (textOf (grabSpec t).1) = 0
    · have e2 := h4 hev hk
      obtain ⟨r'', b, f1, f2⟩ := hr [] [] false true (grabSpec t).2.1 Lines.nil
      exact ⟨r'', b, by rw [e2]; exact f1, fun he => by rw [hlt] at he; omega, fun _ => f2⟩
    · obtain ⟨lines', e1, e2⟩ := h3 hev (Nat.pos_of_ne_zero hk)
      obtain ⟨r'', b, f1, f2⟩ := hr [lines'] _ false true (grabSpec t).2.1 e1
      exact ⟨r'', b, by rw [e2]; exact f1, fun he => by rw [hlt] at he; omega, fun _ => f2⟩

example : endsWithBackslash (textBlock .synthetic (line "a\\b\\\\\\")).span = .ok 3 := by decide

/-! ### C21 -/

/-- The specification of one physical line: the text up to the line feed (or the comment character, or the end)
without a carriage return in front of the line feed, and what follows. -/
def physicalLine (t : Str) : Str × Str :=
  let body := t.takeWhile (fun c => c != '\n' && c != '#')
  match t.dropWhile (fun c => c != '\n' && c != '#') with
  | '\n' :: rest => (if body.getLast? = some '\r' then body.dropLast else body, rest)
  | rest => (body, rest)

/-- Full statement. -/
def C21_full : Prop :=
  ∀ (P : Block) (t : List LChar) (i : Span), i.At P t →
    ∃ r l e, grabLine i = .ok (.done r (l, e)) ∧ (l.text, r.text) = physicalLine (textOf t)

/-- What the code does, for every input: a comment character anywhere in the remaining input ends the line; if there
is none, the first line feed does; if there is none, the line is the whole input.  Locations are kept. -/
theorem C21_exact_partial (P : Block) (t : List LChar) (i : Span) (h : i.At P t) :
    (∀ l rest loc, t = l ++ ('#', loc) :: rest → Free '#' l →
      ∃ r s, grabLine i = .ok (.done r (s, .comment)) ∧ s.ltext = l ∧ r.ltext = ('#', loc) :: rest) ∧
    (∀ l rest loc, t = l ++ ('\n', loc) :: rest → Free '#' t → Free '\n' l →
      ∃ r s, grabLine i = .ok (.done r (s, .lineBreak)) ∧ s.ltext = l ∧ r.ltext = rest) ∧
    (Free '#' t → Free '\n' t → ∃ r s, grabLine i = .ok (.done r (s, .eof)) ∧ s.ltext = t ∧ r.ltext = []) := by
  obtain ⟨r, s, h1, h2, h3⟩ := grabLine_at h
  refine ⟨?_, ?_, ?_⟩
  · rintro l rest loc rfl hl
    rw [grabSpec_comment hl] at h1 h2 h3
    exact ⟨r, s, h1, h3.ltext, h2.ltext⟩
  · rintro l rest loc rfl hf hl
    rw [grabSpec_line hf hl] at h1 h2 h3
    exact ⟨r, s, h1, h3.ltext, h2.ltext⟩
  · intro hf hl
    rw [grabSpec_eof hf hl] at h1 h2 h3
    exact ⟨r, s, h1, h3.ltext, h2.ltext⟩

/-- So the property holds for inputs without comment character and without carriage return. -/
theorem C21_line_partial (P : Block) (t : List LChar) (i : Span) (h : i.At P t) (hf : Free '#' t) (hr : Free '\r' t) :
    ∃ r l e, grabLine i = .ok (.done r (l, e)) ∧ (l.text, r.text) = physicalLine (textOf t) := by
  obtain ⟨r, s, h1, h2, h3⟩ := grabLine_at h
  refine ⟨r, s, _, h1, ?_⟩
  have hpred : (textOf t).takeWhile (fun c => c != '\n' && c != '#') = (textOf t).takeWhile (fun c => c != '\n') ∧
      (textOf t).dropWhile (fun c => c != '\n' && c != '#') = (textOf t).dropWhile (fun c => c != '\n') := by
    clear h h1 h2 h3 hr
    induction t with
    | nil => exact ⟨rfl, rfl⟩
    | cons x t ih =>
      rw [Free.cons] at hf
      obtain ⟨a, b⟩ := ih hf.2
      simp only [textOf_cons, List.takeWhile_cons, List.dropWhile_cons]
      have : (x.1 != '#') = true := by simpa using hf.1
      rw [this, Bool.and_true]
      split
      · exact ⟨by rw [a], b⟩
      · exact ⟨rfl, rfl⟩
  unfold physicalLine
  rw [hpred.1, hpred.2]
  by_cases hm : '\n' ∈ textOf t
  · have hg : grabSpec t = (t.takeWhile (fun x => x.1 != '\n'), .lineBreak, (t.dropWhile (fun x => x.1 != '\n')).drop 1) := by
      unfold grabSpec; rw [if_neg (free_iff.mp hf), if_pos hm]
    rw [hg] at h2 h3
    obtain ⟨loc, rest, hd⟩ := dropWhile_head hm
    rw [hd] at h2
    have hd' : (textOf t).dropWhile (fun c => c != '\n') = '\n' :: textOf rest := by
      rw [← textOf_dropWhile (fun c => c != '\n'), hd]; rfl
    rw [hd', h3.text, h2.text, textOf_takeWhile (fun c => c != '\n')]
    simp only [List.drop_succ_cons, List.drop_zero]
    rw [if_neg]
    intro hl
    have : '\r' ∈ textOf t := (List.takeWhile_subset _) (List.mem_of_getLast? hl)
    exact free_iff.mp hr this
  · have hg := grabSpec_eof hf (free_iff.mpr hm)
    rw [hg] at h2 h3
    have h4 : (textOf t).dropWhile (fun c => c != '\n') = [] := by
      rw [List.dropWhile_eq_nil_iff]
      intro c hc
      have : c ≠ '\n' := by rintro rfl; exact hm hc
      simpa using this
    have h5 := List.takeWhile_append_dropWhile (p := fun c : Char => c != '\n') (l := textOf t)
    rw [h4, List.append_nil] at h5
    rw [h4, h3.text, h2.text, h5]
    rfl

/-- The full statement is false: a comment on a later line. -/
theorem C21_refuted_comment : ¬ C21_full := by
  intro h
  obtain ⟨r, l, e, h1, h2⟩ := h _ _ _ (textBlock_at (loc := .synthetic) (t := line "a\n#b") (by unfold AsciiS; decide))
  obtain ⟨r', s, g1, g2, _⟩ := (C21_exact_partial _ _ _
    (textBlock_at (loc := .synthetic) (t := line "a\n#b") (by unfold AsciiS; decide))).1
      [('a', .synthetic), ('\n', .synthetic)] [('b', .synthetic)] .synthetic (by decide) (by unfold Free; decide)
  rw [h1, Res.ok.injEq, IRes.done.injEq, Prod.mk.injEq] at g1
  rw [Span.text, g1.2.1, g2] at h2
  have := congrArg Prod.fst h2
  simp only at this
  clear h2
  revert this
  decide +revert

/-- The full statement is false: the carriage return stays. -/
theorem C21_refuted_carriage_return : ¬ C21_full := by
  intro h
  obtain ⟨r, l, e, h1, h2⟩ := h _ _ _ (textBlock_at (loc := .synthetic) (t := line "a\r\n") (by unfold AsciiS; decide))
  obtain ⟨r', s, g1, g2, _⟩ := (C21_exact_partial _ _ _
    (textBlock_at (loc := .synthetic) (t := line "a\r\n") (by unfold AsciiS; decide))).2.1
      [('a', .synthetic), ('\r', .synthetic)] [] .synthetic (by decide) (by unfold Free; decide) (by unfold Free; decide)
  rw [h1, Res.ok.injEq, IRes.done.injEq, Prod.mk.injEq] at g1
  rw [Span.text, g1.2.1, g2] at h2
  have := congrArg Prod.fst h2
  simp only at this
  clear h2
  revert this
  decide +revert

example : ∃ r l e, grabLine (textBlock .synthetic (line "a = 1\nb = 2\n")).span = .ok (.done r (l, e)) ∧
    l.text = line "a = 1" ∧ r.text = line "b = 2\n" := by
  obtain ⟨r, l, e, h1, h2⟩ := C21_line_partial _ _ _
    (textBlock_at (loc := .synthetic) (t := line "a = 1\nb = 2\n") (by unfold AsciiS; decide))
    (by unfold Free; decide) (by unfold Free; decide)
  refine ⟨r, l, e, h1, ?_, ?_⟩
  · rw [show l.text = (l.text, r.text).1 from rfl, h2]; decide
  · rw [show r.text = (l.text, r.text).2 from rfl, h2]; decide

/-! ### C22 -/

/-- Full statement: a comment leaves exactly what follows its (continued) line. -/
def C22_full : Prop :=
  ∀ (P : Block) (i : Span) (loc : Location) (t rest : List LChar), i.At P (('#', loc) :: t) → Leaves t rest →
    ∃ r, parseComment i = .ok (.done r ()) ∧ r.ltext = rest

/-- It holds when no further comment character follows. -/
theorem C22_last_comment_partial (P : Block) (i : Span) (loc : Location) (t rest : List LChar)
    (h : i.At P (('#', loc) :: t)) (hl : Leaves t rest) (hf : Free '#' t) :
    ∃ r, parseComment i = .ok (.done r ()) ∧ r.ltext = rest := by
  obtain ⟨r, h1, h2⟩ := parseComment_leaves hl hf h
  exact ⟨r, h1, h2.ltext⟩

/-- With further comment characters everything up to the line of the last one is swallowed. -/
theorem C22_swallows_partial (P : Block) (i : Span) (loc loc' : Location) (between t rest : List LChar)
    (h : i.At P (('#', loc) :: (between ++ ('#', loc') :: t))) (hl : Leaves t rest) (hf : Free '#' t) :
    ∃ r, parseComment i = .ok (.done r ()) ∧ r.ltext = rest := by
  obtain ⟨r, h1, h2⟩ := parseComment_swallows hl hf h
  exact ⟨r, h1, h2.ltext⟩

/-- What a comment leaves is determined: every text has a first logical line. -/
theorem C22_leaves_exists (t : List LChar) : ∃ rest, Leaves t rest := leaves_exists t

/-- The full statement is false: the assignment between two comments is lost. -/
theorem C22_refuted : ¬ C22_full := by
  intro h
  have hat := textBlock_at (loc := .synthetic) (t := line "#x\na=1\n#y\nb=2") (by unfold AsciiS; decide)
  have hl1 : Leaves (locate .synthetic (line "x\na=1\n#y\nb=2")) (locate .synthetic (line "a=1\n#y\nb=2")) :=
    .stop [('x', .synthetic)] .synthetic _ (by unfold Free; decide) (by decide)
  have hl2 : Leaves (locate .synthetic (line "y\nb=2")) (locate .synthetic (line "b=2")) :=
    .stop [('y', .synthetic)] .synthetic _ (by unfold Free; decide) (by decide)
  obtain ⟨r, h1, h2⟩ := h _ _ .synthetic _ _ hat hl1
  obtain ⟨r', g1, g2⟩ := C22_swallows_partial _ _ .synthetic .synthetic (locate .synthetic (line "x\na=1\n")) _ _ hat hl2
    (by unfold Free; decide)
  rw [h1, Res.ok.injEq, IRes.done.injEq] at g1
  rw [← g1.1, h2] at g2
  revert g2
  decide

/-- A comment of two continued lines and a third one, then an assignment. -/
example : ∃ r, parseComment (textBlock .synthetic (line "#x\\\ny\\\\\\\nz\\\\\na=1\n")).span = .ok (.done r ()) ∧
    r.text = line "a=1\n" := by
  have hl : Leaves (locate .synthetic (line "x\\\ny\\\\\\\nz\\\\\na=1\n")) (locate .synthetic (line "a=1\n")) :=
    .cont (locate .synthetic (line "x\\")) .synthetic _ _ (by unfold Free; decide) (by decide)
      (.cont (locate .synthetic (line "y\\\\\\")) .synthetic _ _ (by unfold Free; decide) (by decide)
        (.stop (locate .synthetic (line "z\\\\")) .synthetic _ (by unfold Free; decide) (by decide)))
  obtain ⟨r, h1, h2⟩ := C22_last_comment_partial _ _ .synthetic _ _
    (textBlock_at (loc := .synthetic) (t := line "#x\\\ny\\\\\\\nz\\\\\na=1\n") (by unfold AsciiS; decide)) hl
    (by unfold Free; decide)
  exact ⟨r, h1, by rw [Span.text, h2]; decide⟩

/-! ### C23 -/

/-- Full statement: any number of physical lines `blanks body blanks \`, each ending in a single backslash, and a
last one are joined to the bodies separated by single spaces (empty bodies disappear), and what follows is left. -/
def C23_full : Prop :=
  ∀ (P : Block) (i : Span) (cs : List Continued) (lead final tail rest : List LChar),
    (∀ c ∈ cs, Blanks c.lead ∧ Blanks c.trail ∧ Free '\n' c.body ∧ Free '#' c.body ∧
      (∀ x, c.body.head? = some x → ¬ (x.1 = ' ' ∨ x.1 = '\t')) ∧
      (∀ x, c.body.getLast? = some x → ¬ (x.1 = ' ' ∨ x.1 = '\t')) ∧
      trailingSlashes (textOf (c.body ++ c.trail)) = 0 ∧ (c.body = [] → c.trail = [])) →
    Blanks lead → Free '\n' final → Free '#' final → (∀ x, final.head? = some x → ¬ (x.1 = ' ' ∨ x.1 = '\t')) →
    trailingSlashes (textOf final) % 2 = 0 → EndsLine tail rest →
    i.At P (cs.flatMap Continued.line ++ (lead ++ (final ++ tail))) →
    ∃ r b, makefileLine i .gnu true = .ok (.done r b) ∧ r.ltext = rest ∧
      Block.ltext b = joinSpaces ((cs.map (·.body)).filter (fun b => !b.isEmpty) ++ [final])

/-- It holds when no comment character follows and no body ends in a backslash.  Every character keeps its location;
the spaces are synthetic. -/
theorem C23_joined_partial (P : Block) (i : Span) (cs : List Continued) (lead final tail rest : List LChar)
    (hcs : ∀ c ∈ cs, c.OK) (h1 : Blanks lead) (h2 : Free '\n' final)
    (h3 : ∀ x, final.head? = some x → ¬ (x.1 = ' ' ∨ x.1 = '\t'))
    (h4 : trailingSlashes (textOf final) % 2 = 0) (h5 : EndsLine tail rest)
    (h : i.At P (cs.flatMap Continued.line ++ (lead ++ (final ++ tail))))
    (hf : Free '#' (cs.flatMap Continued.line ++ (lead ++ (final ++ tail)))) :
    ∃ r b, makefileLine i .gnu true = .ok (.done r b) ∧ r.ltext = rest ∧
      Block.ltext b = joinSpaces ((cs.map (·.body)).filter (fun b => !b.isEmpty) ++ [final]) ∧ b.sens = [] := by
  obtain ⟨r, b, g1, g2, g3⟩ := makefileLine_pieces (lead := lead) (final := final) (tail := tail) (rest := rest)
    ⟨h1, h2, fun x hx => by simpa using fun hb => h3 x hx (lblank_iff.mp hb), h4, h5⟩ cs hcs h hf
  exact ⟨r, b, g1, g2.ltext, g3.ltext, g3.sens⟩

/-- The continued line ` a \` of the example. -/
private def exA : Continued :=
  ⟨[(' ', .synthetic)], [('a', .synthetic)], [(' ', .synthetic)], .synthetic, .synthetic⟩
/-- The continued line `	\` of the example. -/
private def exE : Continued := ⟨[('\t', .synthetic)], [], [], .synthetic, .synthetic⟩
private theorem exA_ok : exA.OK :=
  ⟨by unfold Blanks; decide, by unfold Blanks; decide, by unfold Free; decide,
    Or.inr ⟨⟨_, _, rfl, by decide⟩, ⟨_, [], rfl, by decide⟩⟩⟩
private theorem exE_ok : exE.OK :=
  ⟨by unfold Blanks; decide, by unfold Blanks; decide, by unfold Free; decide, Or.inl ⟨rfl, rfl⟩⟩

/-- The full statement is false: a comment on a later line. -/
theorem C23_refuted_comment : ¬ C23_full := by
  intro h
  have hat := textBlock_at (loc := .synthetic) (t := line " a \\\nb\n#c") (by unfold AsciiS; decide)
  obtain ⟨r, b, h1, h2, h3⟩ := h _ [exA] [] [('b', .synthetic)] _
    (by intro c hc; rw [List.mem_singleton.mp hc]
        exact ⟨by unfold Blanks; decide, by unfold Blanks; decide, by unfold Free; decide, by unfold Free; decide,
          by decide, by decide, by decide, by decide⟩)
    (by unfold Blanks; decide) (by unfold Free; decide) (by unfold Free; decide) (by decide) (by decide)
    (Or.inr ⟨.synthetic, rfl⟩) (i := (textBlock .synthetic (line " a \\\nb\n#c")).span) (rest := locate .synthetic (line "#c"))
    hat
  have hd : (match makefileLine (textBlock .synthetic (line " a \\\nb\n#c")).span .gnu true with
    | .ok (.done _ b) => b.len
    | _ => 0) = 6 := by decide +kernel
  rw [h1] at hd
  have h4 : b.text.length = 3 := by rw [Block.text, h3]; decide
  obtain ⟨r', _, b', u, e1, _, _, e4, _⟩ := makefileLine_total (mode := .gnu) (strip := true) hat
  rw [h1, Res.ok.injEq, IRes.done.injEq] at e1
  rw [e1.2, Block.text_length e4.wf] at h4
  rw [e1.2] at hd
  simp only at hd
  omega

/-- The full statement is false: backslashes in front of the blanks are removed too. -/
theorem C23_refuted_backslash : ¬ C23_full := by
  intro h
  have hat := textBlock_at (loc := .synthetic) (t := line "a\\ \\\nb") (by unfold AsciiS; decide)
  obtain ⟨r, b, h1, h2, h3⟩ := h _
    [⟨[], [('a', .synthetic), ('\\', .synthetic)], [(' ', .synthetic)], .synthetic, .synthetic⟩] [] [('b', .synthetic)] _ _
    (by intro c hc; rw [List.mem_singleton.mp hc]
        exact ⟨by unfold Blanks; decide, by unfold Blanks; decide, by unfold Free; decide, by unfold Free; decide,
          by decide, by decide, by decide, by decide⟩)
    (by unfold Blanks; decide) (by unfold Free; decide) (by unfold Free; decide) (by decide) (by decide)
    (Or.inl ⟨rfl, rfl⟩) (i := (textBlock .synthetic (line "a\\ \\\nb")).span) hat
  have hd : (match makefileLine (textBlock .synthetic (line "a\\ \\\nb")).span .gnu true with
    | .ok (.done _ b) => b.len
    | _ => 0) = 3 := by decide +kernel
  rw [h1] at hd
  have h4 : b.text.length = 4 := by rw [Block.text, h3]; decide
  obtain ⟨r', _, b', u, e1, _, _, e4, _⟩ := makefileLine_total (mode := .gnu) (strip := true) hat
  rw [h1, Res.ok.injEq, IRes.done.injEq] at e1
  rw [e1.2, Block.text_length e4.wf] at h4
  rw [e1.2] at hd
  simp only at hd
  omega

/-- Four physical lines, one of them empty, and the next line. -/
example : ∃ r b, makefileLine (textBlock .synthetic (line " a \\\n\t\\\n a \\\n b \nc")).span .gnu true = .ok (.done r b) ∧
    r.text = line "c" ∧ b.text = line "a a b " := by
  have hat := textBlock_at (loc := .synthetic) (t := line " a \\\n\t\\\n a \\\n b \nc") (by unfold AsciiS; decide)
  obtain ⟨r, b, h1, h2, h3, _⟩ := C23_joined_partial _ _ [exA, exE, exA] [(' ', .synthetic)]
    [('b', .synthetic), (' ', .synthetic)] _ _
    (by intro c hc
        rcases List.mem_cons.mp hc with rfl | hc
        · exact exA_ok
        · rcases List.mem_cons.mp hc with rfl | hc
          · exact exE_ok
          · rw [List.mem_singleton.mp hc]; exact exA_ok)
    (by unfold Blanks; decide) (by unfold Free; decide) (by decide) (by decide) (Or.inr ⟨.synthetic, rfl⟩) hat
    (by unfold Free; decide)
  exact ⟨r, b, h1, by rw [Span.text, h2]; decide, by rw [Block.text, h3]; decide⟩

/-! ### C24 -/

/-- Full statement. -/
def C24_full : Prop :=
  ∀ (P : Block) (t : List LChar) (i : Span) (stop : Char → Bool), i.At P t → stop '\\' = false →
    (∀ x rest, (unquote stop [] t).2 = some (x, rest) →
      ∃ b sc post, takeUntilUnquote i stop = .ok (b, some (sc, post)) ∧ Block.ltext b = (unquote stop [] t).1 ∧
        sc.ltext = [x] ∧ post.ltext = rest) ∧
    ((unquote stop [] t).2 = none →
      ∃ b, takeUntilUnquote i stop = .ok (b, none) ∧ Block.ltext b = (unquote stop [] t).1)

/-- It holds when NUL is not a stop character. -/
theorem C24_unquote_partial (P : Block) (t : List LChar) (i : Span) (stop : Char → Bool) (h : i.At P t)
    (hs : stop '\\' = false) (h0 : stop (Char.ofNat 0) = false) :
    (∀ x rest, (unquote stop [] t).2 = some (x, rest) →
      ∃ b sc post, takeUntilUnquote i stop = .ok (b, some (sc, post)) ∧ Block.ltext b = (unquote stop [] t).1 ∧
        sc.ltext = [x] ∧ post.ltext = rest) ∧
    ((unquote stop [] t).2 = none →
      ∃ b, takeUntilUnquote i stop = .ok (b, none) ∧ Block.ltext b = (unquote stop [] t).1) := by
  obtain ⟨h1, h2⟩ := takeUntilUnquote_spec stop hs h0 h
  constructor
  · intro x rest hx
    obtain ⟨b, sc, post, e1, e2, e3, e4⟩ := h1 x rest hx
    exact ⟨b, sc, post, e1, e2.ltext, e3.ltext, e4.ltext⟩
  · intro hn
    obtain ⟨b, e1, e2⟩ := h2 hn
    exact ⟨b, e1, e2.ltext⟩

/-- When NUL is a stop character the end of the text is taken for one, and an empty text panics. -/
theorem C24_refuted : ¬ C24_full := by
  intro h
  have hat := textBlock_at (loc := .synthetic) (t := []) (by unfold AsciiS; decide)
  obtain ⟨b, h1, _⟩ := (h _ _ _ (· == Char.ofNat 0) hat (by decide)).2 rfl
  have h2 : takeUntilUnquote (textBlock .synthetic []).span (· == Char.ofNat 0) = .panic .underflow := by rfl
  rw [h2] at h1
  cases h1

/-- What happens when NUL is a stop character.  The empty text panics.  In any other text the first unescaped stop
character is found as it should be; without one, half of the backslashes at the end are dropped as `lastName` says, and
the end of the text passes for a stop character unless it is escaped by an odd number of backslashes. -/
theorem C24_nul_exact (P : Block) (t : List LChar) (i : Span) (stop : Char → Bool) (h : i.At P t)
    (hs : stop '\\' = false) (h0 : stop (Char.ofNat 0) = true) :
    (t = [] → takeUntilUnquote i stop = .panic .underflow) ∧
    (∀ x rest, (unquote stop [] t).2 = some (x, rest) →
      ∃ b sc post, takeUntilUnquote i stop = .ok (b, some (sc, post)) ∧ Block.ltext b = (unquote stop [] t).1 ∧
        sc.ltext = [x] ∧ post.ltext = rest) ∧
    (t ≠ [] → (unquote stop [] t).2 = none →
      ∃ b, Block.ltext b = lastName stop t ∧
        (trailingSlashes (textOf t) % 2 = 0 →
          ∃ sc post, takeUntilUnquote i stop = .ok (b, some (sc, post)) ∧ post.ltext = []) ∧
        (trailingSlashes (textOf t) % 2 = 1 → takeUntilUnquote i stop = .ok (b, none))) := by
  refine ⟨?_, ?_, ?_⟩
  · rintro rfl
    obtain ⟨piece, p1, p2⟩ := h.slice (a := 0) (b := 0) (by omega) (Nat.zero_le _)
    obtain ⟨tr, t1, t2⟩ := (Partial.start (P := P)).push p2
    have hl : i.length = 0 := h.length
    unfold takeUntilUnquote
    rw [h.chars]
    simp only [textOf, List.map_nil, Span.withIndices, unquoteLoop, Bool.false_eq_true, if_false, h.parent, Res.ok_bind, h0, if_true, hl, Nat.zero_div, Nat.sub_zero, p1, t1]
    rfl
  · intro x rest hx
    have hne : t ≠ [] := by rintro rfl; cases hx
    obtain ⟨b, sc, post, e1, e2, e3, e4⟩ := (takeUntilUnquote_end stop hs h0 h hne).1 x rest hx
    exact ⟨b, sc, post, e1, e2.ltext, e3.ltext, e4.ltext⟩
  · intro hne hn
    obtain ⟨k1, k2⟩ := (takeUntilUnquote_end stop hs h0 h hne).2 hn
    rcases Nat.mod_two_eq_zero_or_one (trailingSlashes (textOf t)) with hm | hm
    · obtain ⟨b, sc, post, e1, e2, e3⟩ := k1 hm
      exact ⟨b, e2.ltext, fun _ => ⟨sc, post, e1, e3.ltext⟩, fun h => by omega⟩
    · obtain ⟨b, e1, e2⟩ := k2 hm
      exact ⟨b, e2.ltext, fun h => by omega, fun _ => e1⟩

example : ∃ b sc post, takeUntilUnquote (textBlock .synthetic (line "a\\\\\\:\\b\\\\:c")).span (· == ':') =
    .ok (b, some (sc, post)) ∧ b.text = line "a\\:\\b\\" ∧ sc.text = line ":" ∧ post.text = line "c" := by
  obtain ⟨b, sc, post, h1, h2, h3, h4⟩ := (C24_unquote_partial _ _ _ (· == ':')
    (textBlock_at (loc := .synthetic) (t := line "a\\\\\\:\\b\\\\:c") (by unfold AsciiS; decide)) (by decide) (by decide)).1
    (':', .synthetic) [('c', .synthetic)] (by decide)
  exact ⟨b, sc, post, h1, by rw [Block.text, h2]; decide, by rw [Span.text, h3]; decide, by rw [Span.text, h4]; decide⟩

/-- Two backslashes at the end of the text become one when NUL is a stop character. -/
example : ∃ b sc post, takeUntilUnquote (textBlock .synthetic (line "a\\\\")).span (· == Char.ofNat 0) =
    .ok (b, some (sc, post)) ∧ b.text = line "a\\" ∧ post.ltext = [] := by
  obtain ⟨b, h1, h2, _⟩ := (C24_nul_exact _ _ _ (· == Char.ofNat 0)
    (textBlock_at (loc := .synthetic) (t := line "a\\\\") (by unfold AsciiS; decide)) (by decide) (by decide)).2.2
    (by decide) (by decide)
  obtain ⟨sc, post, h3, h4⟩ := h2 (by decide)
  exact ⟨b, sc, post, h3, by rw [Block.text, h1]; decide, h4⟩

/-! ### C25 -/

/-- The file list of a text without backslashes: the maximal runs of characters between separators (white space, NUL,
and the extra stop characters of the caller), in order, with their locations. -/
theorem C25_fields (P : Block) (t : List LChar) (i : Span) (extraStop : Str) (h : i.At P t)
    (hx : '\\' ∉ extraStop) (hf : Free '\\' t) :
    ∃ bs, parseFileSeq extraStop i = .ok bs ∧
      bs.map Block.ltext = fields (fun c => isWhitespace c || c == Char.ofNat 0 || extraStop.contains c) t := by
  obtain ⟨bs, h1, h2⟩ := parseFileSeq_spec extraStop (by simpa using hx) h hf
  refine ⟨bs, h1, ?_⟩
  unfold fileSep at h2
  generalize fields _ t = fs at *
  clear h1
  induction h2 with
  | nil => rfl
  | cons h _ ih => simp [ih, h.ltext]

/-- `fields` yields exactly the maximal runs: they are non-empty, contain no separator, and the text is the runs with
separators before, between (at least one) and after them. -/
theorem C25_fields_meaning (sep : Char → Bool) (t : List LChar) :
    (∀ f ∈ fields sep t, f ≠ [] ∧ ∀ x ∈ f, sep x.1 = false) ∧
      ∃ gaps : List (List LChar), gaps.length = (fields sep t).length + 1 ∧ (∀ g ∈ gaps, ∀ x ∈ g, sep x.1 = true) ∧
        (∀ g ∈ (gaps.drop 1).dropLast, g ≠ []) ∧
        t = (List.zipWith (· ++ ·) gaps ((fields sep t) ++ [[]])).flatten := by
  induction h : t.length using Nat.strongRecOn generalizing t with
  | ind n ih =>
    subst h
    have hsplit := List.takeWhile_append_dropWhile (p := fun x : LChar => !sep x.1) (l := t)
    have hfree : ∀ x ∈ t.takeWhile (fun x : LChar => !sep x.1), sep x.1 = false := by
      intro x hx
      have := List.mem_takeWhile_imp hx
      simpa using this
    rw [fields_step]
    cases hd : t.dropWhile (fun x => !sep x.1) with
    | nil =>
      rw [hd, List.append_nil] at hsplit
      have hn : fields sep (List.drop 1 ([] : List LChar)) = [] := rfl
      rw [hn, List.append_nil]
      by_cases he : t.takeWhile (fun x => !sep x.1) = []
      · rw [if_pos he]
        refine ⟨by simp, [[]], rfl, by simp, by simp, ?_⟩
        rw [← hsplit, he]; rfl
      · rw [if_neg he]
        refine ⟨?_, [[], []], rfl, by simp, by simp, ?_⟩
        · intro f hf
          rw [List.mem_singleton.mp hf]
          exact ⟨he, hfree⟩
        · simp [hsplit]
    | cons x r =>
      rw [hd] at hsplit
      have hx : sep x.1 = true := by
        have := List.head?_dropWhile_not (fun x : LChar => !sep x.1) t
        rw [hd] at this
        simpa using this
      have hlen := congrArg List.length hsplit
      simp only [List.length_append, List.length_cons] at hlen
      obtain ⟨i1, gaps, g1, g2, g3, g4⟩ := ih r.length (by omega) r rfl
      simp only [List.drop_succ_cons, List.drop_zero]
      obtain ⟨g, gs, rfl⟩ : ∃ g gs, gaps = g :: gs := by
        cases gaps with
        | nil => simp at g1
        | cons g gs => exact ⟨g, gs, rfl⟩
      by_cases he : t.takeWhile (fun x => !sep x.1) = []
      · rw [if_pos he, List.nil_append]
        rw [he, List.nil_append] at hsplit
        refine ⟨i1, (x :: g) :: gs, by simpa using g1, ?_, g3, ?_⟩
        · intro g' hg' y hy
          rcases List.mem_cons.mp hg' with rfl | hg'
          · rcases List.mem_cons.mp hy with rfl | hy
            · exact hx
            · exact g2 g (by simp) y hy
          · exact g2 g' (by simp [hg']) y hy
        · rw [← hsplit]
          conv => lhs; rw [g4]
          cases hf : fields sep r with
          | nil => simp
          | cons f fs => simp
      · rw [if_neg he]
        refine ⟨?_, [] :: (x :: g) :: gs, by simpa using g1, ?_, ?_, ?_⟩
        · intro f hf
          rcases List.mem_append.mp hf with hf | hf
          · rw [List.mem_singleton.mp hf]; exact ⟨he, hfree⟩
          · exact i1 f hf
        · intro g' hg' y hy
          rcases List.mem_cons.mp hg' with rfl | hg'
          · simp at hy
          rcases List.mem_cons.mp hg' with rfl | hg'
          · rcases List.mem_cons.mp hy with rfl | hy
            · exact hx
            · exact g2 g (by simp) y hy
          · exact g2 g' (by simp [hg']) y hy
        · intro g' hg'
          simp only [List.drop_succ_cons, List.drop_zero] at hg' g3
          cases gs with
          | nil => simp at hg'
          | cons g0 gs =>
            rw [List.dropLast_cons_of_ne_nil (by simp)] at hg'
            rcases List.mem_cons.mp hg' with rfl | hg'
            · simp
            · exact g3 g' hg'
        · refine hsplit.symm.trans ?_
          generalize t.takeWhile (fun x => !sep x.1) = w
          have g5 : w ++ x :: r =
              w ++ x :: (List.zipWith (· ++ ·) (g :: gs) (fields sep r ++ [[]])).flatten := by rw [← g4]
          refine g5.trans ?_
          cases hf : fields sep r with
          | nil => simp
          | cons f fs => simp

example : ∃ bs, parseFileSeq [] (textBlock .synthetic (line "  a.c\tb.c  ")).span = .ok bs ∧
    bs.map Block.text = [line "a.c", line "b.c"] := by
  obtain ⟨bs, h1, h2⟩ := C25_fields _ _ _ []
    (textBlock_at (loc := .synthetic) (t := line "  a.c\tb.c  ") (by unfold AsciiS; decide)) (by simp)
    (by unfold Free; decide)
  refine ⟨bs, h1, ?_⟩
  have : bs.map Block.text = (bs.map Block.ltext).map textOf := by simp [Block.text]
  rw [this, h2]
  decide

end Hastur
