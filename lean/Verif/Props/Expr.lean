import Verif.Proofs.Exact
import Verif.Proofs.EvalText
/-
C26-C31: how expressions are read.

`i.At P t` says that the span `i` is a well-formed window of block `P` and shows the located text `t`
(Spec/Text.lean); `Block.Mono P` says that the nodes of `P` have one segment each, like those of every line the engine
reads from a file (C17 shows what goes wrong otherwise).  `Parses i o` says what comes of parsing (Spec/Expr.lean).
-/
namespace Hastur

open Res

/-- A text used in the examples below. -/
private def txt (s : String) : Str := s.toList

private theorem at_txt (s : String) (h : AsciiS s.toList) :
    (textBlock .synthetic s.toList).span.At (textBlock .synthetic s.toList) (locate .synthetic s.toList) :=
  textBlock_at h

/-! ### C26 -/

/-- Parsing a text without `$` succeeds, and evaluating the result in any state gives back the text (with its
locations), reports no variable, and leaves the state as it was. -/
theorem C26_text (P : Block) (hm : Block.Mono P) (t : List LChar) (i : Span) (h : i.At P t) (hf : Free '$' t) :
    ∃ r a, parseAst i = .ok (.done r a) ∧ r.ltext = [] ∧ a.flat = Expr.text t ∧
      ∃ N, ∀ (fs : Fs) (n : Nat) (st : St), N ≤ n →
        ∃ b, evalF fs n a st = .ok (b, st) ∧ Block.ltext b = t ∧ b.sens = [] := by
  obtain ⟨r, a, h1, h2, h3, h4⟩ := parseAst_at hm h (reads_text hf)
  obtain ⟨N, hN⟩ := evalF_text h4 h3
  refine ⟨r, a, h1, h2.ltext, h3, N, fun fs n st hn => ?_⟩
  obtain ⟨b, g1, g2, g3, _⟩ := hN fs n st hn
  exact ⟨b, g1, g2, g3⟩

example : ∃ r a, parseAst (textBlock .synthetic (txt "a (b) c\n")).span = .ok (.done r a) ∧
    ∃ N, ∀ (fs : Fs) (n : Nat) (st : St), N ≤ n →
      ∃ b, evalF fs n a st = .ok (b, st) ∧ Block.text b = txt "a (b) c\n" := by
  obtain ⟨r, a, h1, _, _, N, hN⟩ := C26_text _ (textBlock_mono _ _) _ _ (at_txt "a (b) c\n" (by unfold AsciiS; decide))
    (by unfold Free; decide)
  refine ⟨r, a, h1, N, fun fs n st hn => ?_⟩
  obtain ⟨b, g1, g2, _⟩ := hN fs n st hn
  exact ⟨b, g1, by rw [Block.text, g2]; decide⟩

/-! ### C27 -/

/-- Texts are read one after the other: the first one is read completely (it does not end in half of a `$$`) and
contains no function call (see C30). -/
theorem reads_in_order (P P₁ P₂ : Block) (hm : Block.Mono P) (hm₁ : Block.Mono P₁) (hm₂ : Block.Mono P₂)
    (pre post : List LChar) (i i₁ i₂ : Span) (es : List Expr) (o : Outcome)
    (h : i.At P (pre ++ post)) (h₁ : i₁.At P₁ pre) (h₂ : i₂.At P₂ post)
    (hpre : Parses i₁ (.ok es)) (hp : Plain es) (hd : ¬ Dangling pre) (hpost : Parses i₂ o) :
    Parses i (o.map (es ++ ·)) :=
  parses_of_reads hm h (reads_append (reads_of_parses hm₁ h₁ hpre) hp hd (reads_of_parses hm₂ h₂ hpost))

/-- The full claim: `$$` between any two texts that are expressions by themselves stands for one dollar sign. -/
def C27_full : Prop :=
  ∀ (P P₁ P₂ : Block), Block.Mono P → Block.Mono P₁ → Block.Mono P₂ →
    ∀ (pre post : List LChar) (l l' : Location) (i i₁ i₂ : Span) (es fs : List Expr),
    i.At P (pre ++ ('$', l) :: ('$', l') :: post) → i₁.At P₁ pre → i₂.At P₂ post → Parses i₁ (.ok es) → ¬ Dangling pre →
    Parses i₂ (.ok fs) → Parses i (.ok (es ++ .char ('$', l') :: fs))

/-- `$$` between two texts stands for one dollar sign (the second one), if there is no function call before it. -/
theorem C27_double_dollar_partial (P P₁ P₂ : Block) (hm : Block.Mono P) (hm₁ : Block.Mono P₁) (hm₂ : Block.Mono P₂)
    (pre post : List LChar) (l l' : Location) (i i₁ i₂ : Span) (es : List Expr) (o : Outcome)
    (h : i.At P (pre ++ ('$', l) :: ('$', l') :: post)) (h₁ : i₁.At P₁ pre) (h₂ : i₂.At P₂ post)
    (hpre : Parses i₁ (.ok es)) (hp : Plain es) (hd : ¬ Dangling pre) (hpost : Parses i₂ o) :
    Parses i (o.map fun fs => es ++ .char ('$', l') :: fs) := by
  have := reads_append (reads_of_parses hm₁ h₁ hpre) hp hd (.dollar (l := l) (l' := l') (reads_of_parses hm₂ h₂ hpost))
  rw [map_map_outcome] at this
  exact parses_of_reads hm h this

/-- A dollar sign at the end of the text stands for itself, if there is no function call before it. -/
theorem C27_final_dollar_partial (P P₁ : Block) (hm : Block.Mono P) (hm₁ : Block.Mono P₁)
    (pre : List LChar) (l : Location) (i i₁ : Span) (es : List Expr)
    (h : i.At P (pre ++ [('$', l)])) (h₁ : i₁.At P₁ pre)
    (hpre : Parses i₁ (.ok es)) (hp : Plain es) (hd : ¬ Dangling pre) :
    Parses i (.ok (es ++ [.char ('$', l)])) :=
  parses_of_reads hm h (reads_append (reads_of_parses hm₁ h₁ hpre) hp hd .last)

/-- Seen from the outside: a dollar-free text with dollar signs doubled evaluates to the text, in any state. -/
theorem C27_escaped_text_partial (P : Block) (hm : Block.Mono P) (t : List LChar) (i : Span)
    (h : i.At P (t.flatMap fun x => if x.1 = '$' then [x, x] else [x])) :
    ∃ r a, parseAst i = .ok (.done r a) ∧ r.ltext = [] ∧
      ∃ N, ∀ (fs : Fs) (n : Nat) (st : St), N ≤ n →
        ∃ b, evalF fs n a st = .ok (b, st) ∧ Block.ltext b = t ∧ b.sens = [] := by
  have hr : Reads (t.flatMap fun x => if x.1 = '$' then [x, x] else [x]) (.ok (Expr.text t)) := by
    clear h
    induction t with
    | nil => exact .nil
    | cons x t ih =>
      rw [List.flatMap_cons]
      obtain ⟨c, l⟩ := x
      by_cases hx : c = '$'
      · subst hx; rw [if_pos rfl]; exact .dollar ih
      · rw [if_neg hx]; exact .char hx ih
  obtain ⟨r, a, h1, h2, h3, h4⟩ := parseAst_at hm h hr
  obtain ⟨N, hN⟩ := evalF_text h4 h3
  refine ⟨r, a, h1, h2.ltext, N, fun fs n st hn => ?_⟩
  obtain ⟨b, g1, g2, g3, _⟩ := hN fs n st hn
  exact ⟨b, g1, g2, g3⟩

private theorem parses_txt (s : String) (h : AsciiS s.toList) (hf : Free '$' (locate .synthetic s.toList)) :
    Parses (textBlock .synthetic s.toList).span (.ok (Expr.text (locate .synthetic s.toList))) :=
  parses_of_reads (textBlock_mono _ _) (textBlock_at h) (reads_text hf)

private theorem plain_text (t : List LChar) : Plain (Expr.text t) := by
  intro e he
  obtain ⟨x, _, rfl⟩ := List.mem_map.mp he
  exact .inl ⟨x, rfl⟩

example : Parses (textBlock .synthetic (txt "a$$b")).span
    (.ok [.char ('a', .synthetic), .char ('$', .synthetic), .char ('b', .synthetic)]) :=
  C27_double_dollar_partial _ _ _ (textBlock_mono _ _) (textBlock_mono _ _) (textBlock_mono _ _) [('a', .synthetic)]
    [('b', .synthetic)] .synthetic .synthetic _ _ _ _ (.ok _) (at_txt "a$$b" (by unfold AsciiS; decide))
    (at_txt "a" (by unfold AsciiS; decide)) (at_txt "b" (by unfold AsciiS; decide))
    (parses_txt "a" (by unfold AsciiS; decide) (by unfold Free; decide)) (plain_text _) (by unfold Dangling; decide)
    (parses_txt "b" (by unfold AsciiS; decide) (by unfold Free; decide))

example : Parses (textBlock .synthetic (txt "a$")).span (.ok [.char ('a', .synthetic), .char ('$', .synthetic)]) :=
  C27_final_dollar_partial _ _ (textBlock_mono _ _) (textBlock_mono _ _) [('a', .synthetic)] .synthetic _ _ _
    (at_txt "a$" (by unfold AsciiS; decide)) (at_txt "a" (by unfold AsciiS; decide))
    (parses_txt "a" (by unfold AsciiS; decide) (by unfold Free; decide)) (plain_text _) (by unfold Dangling; decide)

/-! ### C28 -/

/-- The full claim: `$(name)` and `${name}` refer to the variable called name (a text without dollar signs and
brackets that does not begin with a function name), `$c` to the one named by the single character, and the texts
around the reference are kept. -/
def C28_full : Prop :=
  ∀ (P P₁ P₂ : Block), Block.Mono P → Block.Mono P₁ → Block.Mono P₂ →
    ∀ (pre post name : List LChar) (l l₁ l₂ : Location) (i i₁ i₂ : Span) (es : List Expr) (o : Outcome),
    i₁.At P₁ pre → i₂.At P₂ post → Parses i₁ (.ok es) → Plain es → ¬ Dangling pre → Parses i₂ o →
    (∀ x ∈ name, x.1 ≠ '$' ∧ x.1 ≠ '(' ∧ x.1 ≠ ')' ∧ x.1 ≠ '{' ∧ x.1 ≠ '}') → ¬ CallLike name →
    (i.At P (pre ++ ('$', l) :: ('(', l₁) :: (name ++ (')', l₂) :: post)) ∨
     i.At P (pre ++ ('$', l) :: ('{', l₁) :: (name ++ ('}', l₂) :: post)) ∨
     (∃ x, name = [x] ∧ i.At P (pre ++ ('$', l) :: x :: post))) →
    Parses i (o.map fun fs => es ++ .ref l (Expr.text name) :: fs)

/-- Brace syntax does not work: `${x}` is read as a reference to a variable called `{`, then the text `x}`. -/
theorem C28_refuted : ¬ C28_full := by
  intro hfull
  have h := hfull _ _ _ (textBlock_mono .synthetic (txt "${x}")) (textBlock_mono .synthetic []) (textBlock_mono .synthetic [])
    [] [] [('x', .synthetic)] .synthetic .synthetic .synthetic _ _ _ [] (.ok [])
    (textBlock_at (by unfold AsciiS; decide)) (textBlock_at (by unfold AsciiS; decide))
    (parses_of_reads (textBlock_mono _ _) (textBlock_at (by unfold AsciiS; decide)) .nil) (by simp [Plain]) (by unfold Dangling; decide)
    (parses_of_reads (textBlock_mono _ _) (textBlock_at (by unfold AsciiS; decide)) .nil) (by decide)
    (by rintro ⟨f, hf⟩; cases f <;> exact absurd hf (by decide))
    (.inr (.inl (at_txt "${x}" (by unfold AsciiS; decide))))
  have h' : Parses (textBlock .synthetic (txt "${x}")).span
      (.ok [.ref .synthetic [.char ('{', .synthetic)], .char ('x', .synthetic), .char ('}', .synthetic)]) :=
    parses_of_reads (textBlock_mono _ _) (at_txt "${x}" (by unfold AsciiS; decide))
      (.single (o := .ok _) (by decide) (by decide) (by decide)
        (reads_text (t := [('x', .synthetic), ('}', .synthetic)]) (by unfold Free; decide)))
  have := parses_det h h'
  cases this

/-- What holds of C28.  (1) `$(name)`: the name may be any text with balanced parentheses that is itself an expression
`ns` and does not begin with a function name; the reference is to the variable named by `ns`.  If the name does not
parse, its error is reported.  (2) `$c` for a character other than `$`, `(` and `}`.  Missing: `${name}`. -/
theorem C28_references_partial (P P₁ P₂ P₃ : Block) (hm : Block.Mono P) (hm₁ : Block.Mono P₁) (hm₂ : Block.Mono P₂)
    (hm₃ : Block.Mono P₃) (pre post name : List LChar) (l l₁ l₂ : Location) (i i₁ i₂ i₃ : Span) (es : List Expr)
    (o : Outcome) (h₁ : i₁.At P₁ pre) (h₂ : i₂.At P₂ post) (h₃ : i₃.At P₃ name) (hpre : Parses i₁ (.ok es))
    (hp : Plain es) (hd : ¬ Dangling pre) (hpost : Parses i₂ o) :
    (i.At P (pre ++ ('$', l) :: ('(', l₁) :: (name ++ (')', l₂) :: post)) → Balanced name → ¬ CallLike name →
      (∀ ns, Parses i₃ (.ok ns) → Parses i (o.map fun fs => es ++ .ref l ns :: fs)) ∧
      (∀ k, Parses i₃ (.error k) → Parses i (.error k))) ∧
    (∀ x : LChar, x.1 ≠ '$' → x.1 ≠ '(' → x.1 ≠ '}' → i.At P (pre ++ ('$', l) :: x :: post) →
      Parses i (o.map fun fs => es ++ .ref l [.char x] :: fs)) := by
  have r1 := reads_of_parses hm₁ h₁ hpre
  have r2 := reads_of_parses hm₂ h₂ hpost
  refine ⟨fun h hb hc => ⟨fun ns hn => ?_, fun k hk => ?_⟩, fun x x1 x2 x3 h => ?_⟩
  · have := reads_append r1 hp hd (.paren (l := l) (l' := l₁) (by
      rw [closing_of_balanced (l := l₂) (u := post) hb]
      exact .ref (calls_eq_none.mpr hc) (reads_of_parses hm₃ h₃ hn) r2))
    rw [map_map_outcome] at this
    exact parses_of_reads hm h this
  · have := reads_append r1 hp hd (.paren (l := l) (l' := l₁) (by
      rw [closing_of_balanced (l := l₂) (u := post) hb]
      exact .nameError (calls_eq_none.mpr hc) (reads_of_parses hm₃ h₃ hk)))
    exact parses_of_reads hm h this
  · have := reads_append r1 hp hd (.single (l := l) x1 x2 x3 r2)
    rw [map_map_outcome] at this
    exact parses_of_reads hm h this

/-- In particular, for names as in the full claim. -/
theorem C28_plain_name_partial (P P₁ P₂ : Block) (hm : Block.Mono P) (hm₁ : Block.Mono P₁) (hm₂ : Block.Mono P₂)
    (pre post name : List LChar) (l l₁ l₂ : Location) (i i₁ i₂ : Span) (es : List Expr) (o : Outcome)
    (h₁ : i₁.At P₁ pre) (h₂ : i₂.At P₂ post) (hpre : Parses i₁ (.ok es)) (hp : Plain es) (hd : ¬ Dangling pre)
    (hpost : Parses i₂ o) (hn : ∀ x ∈ name, x.1 ≠ '$' ∧ x.1 ≠ '(' ∧ x.1 ≠ ')') (hc : ¬ CallLike name)
    (h : i.At P (pre ++ ('$', l) :: ('(', l₁) :: (name ++ (')', l₂) :: post))) :
    Parses i (o.map fun fs => es ++ .ref l (Expr.text name) :: fs) := by
  have hb : Balanced name := by
    clear h hc
    induction name with
    | nil => exact .nil
    | cons x n ih =>
      have hx := hn x (by simp)
      exact .char hx.2.1 hx.2.2 (ih fun y hy => hn y (by simp [hy]))
  have := reads_append (reads_of_parses hm₁ h₁ hpre) hp hd (.paren (l := l) (l' := l₁) (by
    rw [closing_of_balanced (l := l₂) (u := post) hb]
    exact .ref (calls_eq_none.mpr hc) (reads_text fun x hx => (hn x hx).1) (reads_of_parses hm₂ h₂ hpost)))
  rw [map_map_outcome] at this
  exact parses_of_reads hm h this

example : Parses (textBlock .synthetic (txt "a$(xy)b")).span (.ok [.char ('a', .synthetic),
    .ref .synthetic [.char ('x', .synthetic), .char ('y', .synthetic)], .char ('b', .synthetic)]) :=
  C28_plain_name_partial _ _ _ (textBlock_mono _ _) (textBlock_mono _ _) (textBlock_mono _ _) [('a', .synthetic)]
    [('b', .synthetic)] [('x', .synthetic), ('y', .synthetic)] .synthetic .synthetic .synthetic _ _ _ _ (.ok _)
    (at_txt "a" (by unfold AsciiS; decide)) (at_txt "b" (by unfold AsciiS; decide))
    (parses_txt "a" (by unfold AsciiS; decide) (by unfold Free; decide)) (plain_text _) (by unfold Dangling; decide)
    (parses_txt "b" (by unfold AsciiS; decide) (by unfold Free; decide)) (by decide)
    (by rintro ⟨f, hf⟩; cases f <;> exact absurd hf (by decide)) (at_txt "a$(xy)b" (by unfold AsciiS; decide))

/-! ### C29 -/

/-- The full claim: a `$(` after any text that is an expression by itself, with no partner for its parenthesis in what
follows, makes parsing fail with the unterminated-variable error. -/
def C29_full : Prop :=
  ∀ (P P₁ : Block), Block.Mono P → Block.Mono P₁ →
    ∀ (pre post : List LChar) (l l' : Location) (i i₁ : Span) (es : List Expr),
    i.At P (pre ++ ('$', l) :: ('(', l') :: post) → i₁.At P₁ pre → Parses i₁ (.ok es) → ¬ Dangling pre →
    (∀ a l b, post = a ++ (')', l) :: b → ¬ Balanced a) → Parses i (.error .unterminatedVariable)

/-- After a function call nothing is read any more, so `$$` there stands for nothing. -/
theorem C27_refuted : ¬ C27_full := by
  intro hfull
  have r1 : Reads (locate .synthetic (txt "$(strip a)")) (.ok [.strip .synthetic [.char ('a', .synthetic)]]) :=
    .paren (.call (f := .strip) (a := [('a', .synthetic)]) (name := locate .synthetic (txt "strip a")) (rest := [])
      (by decide) (.strip (o := .ok _) (x := [('a', .synthetic)]) (by decide)
        (reads_text (t := [('a', .synthetic)]) (by unfold Free; decide))))
  have r2 : Reads (locate .synthetic (txt "$(strip a)$$")) (.ok [.strip .synthetic [.char ('a', .synthetic)]]) :=
    .paren (.call (f := .strip) (a := [('a', .synthetic)]) (name := locate .synthetic (txt "strip a"))
      (rest := locate .synthetic (txt "$$")) (by decide) (.strip (o := .ok _) (x := [('a', .synthetic)]) (by decide)
        (reads_text (t := [('a', .synthetic)]) (by unfold Free; decide))))
  have a1 := at_txt "$(strip a)" (by unfold AsciiS; decide)
  have a2 := at_txt "$(strip a)$$" (by unfold AsciiS; decide)
  have a3 := at_txt "" (by unfold AsciiS; decide)
  have h := hfull _ _ _ (textBlock_mono _ _) (textBlock_mono _ _) (textBlock_mono _ _)
    (locate .synthetic (txt "$(strip a)")) [] .synthetic .synthetic _ _ _ _ _ a2 a1 a3
    (parses_of_reads (textBlock_mono _ _) a1 r1) (by unfold Dangling; decide) (parses_of_reads (textBlock_mono _ _) a3 .nil)
  have := parses_det h (parses_of_reads (textBlock_mono _ _) a2 r2)
  cases this

/-- After a function call nothing is read any more, so an unbalanced reference there goes unnoticed. -/
theorem C29_refuted : ¬ C29_full := by
  intro hfull
  have r1 : Reads (locate .synthetic (txt "$(strip a)")) (.ok [.strip .synthetic [.char ('a', .synthetic)]]) :=
    .paren (.call (f := .strip) (a := [('a', .synthetic)]) (name := locate .synthetic (txt "strip a")) (rest := [])
      (by decide) (.strip (o := .ok _) (x := [('a', .synthetic)]) (by decide)
        (reads_text (t := [('a', .synthetic)]) (by unfold Free; decide))))
  have r2 : Reads (locate .synthetic (txt "$(strip a)$(")) (.ok [.strip .synthetic [.char ('a', .synthetic)]]) :=
    .paren (.call (f := .strip) (a := [('a', .synthetic)]) (name := locate .synthetic (txt "strip a"))
      (rest := locate .synthetic (txt "$(")) (by decide) (.strip (o := .ok _) (x := [('a', .synthetic)]) (by decide)
        (reads_text (t := [('a', .synthetic)]) (by unfold Free; decide))))
  have a1 := at_txt "$(strip a)" (by unfold AsciiS; decide)
  have a2 := at_txt "$(strip a)$(" (by unfold AsciiS; decide)
  have h := hfull _ _ (textBlock_mono _ _) (textBlock_mono _ _) (locate .synthetic (txt "$(strip a)")) [] .synthetic
    .synthetic _ _ _ a2 a1 (parses_of_reads (textBlock_mono _ _) a1 r1) (by unfold Dangling; decide) (by simp)
  have := parses_det h (parses_of_reads (textBlock_mono _ _) a2 r2)
  cases this

/-- What holds: the text before the reference contains no function call. -/
theorem C29_unterminated_partial (P P₁ : Block) (hm : Block.Mono P) (hm₁ : Block.Mono P₁)
    (pre post : List LChar) (l l' : Location) (i i₁ : Span) (es : List Expr)
    (h : i.At P (pre ++ ('$', l) :: ('(', l') :: post)) (h₁ : i₁.At P₁ pre) (hpre : Parses i₁ (.ok es)) (hp : Plain es)
    (hd : ¬ Dangling pre) (hu : ∀ a l b, post = a ++ (')', l) :: b → ¬ Balanced a) :
    Parses i (.error .unterminatedVariable) :=
  parses_of_reads hm h (reads_append (reads_of_parses hm₁ h₁ hpre) hp hd
    (.paren (l := l) (l' := l') (by rw [closing_none hu]; exact .unclosed)))

/-- An unterminated reference inside the name of a reference is reported too. -/
theorem C29_nested_partial (P P₁ : Block) (hm : Block.Mono P) (hm₁ : Block.Mono P₁)
    (name post : List LChar) (l l₁ l₂ : Location) (i i₁ : Span)
    (h : i.At P (('$', l) :: ('(', l₁) :: (name ++ (')', l₂) :: post))) (h₁ : i₁.At P₁ name) (hb : Balanced name)
    (hc : ¬ CallLike name) (hn : Parses i₁ (.error .unterminatedVariable)) :
    Parses i (.error .unterminatedVariable) :=
  parses_of_reads hm h (.paren (by
    rw [closing_of_balanced hb]
    exact .nameError (calls_eq_none.mpr hc) (reads_of_parses hm₁ h₁ hn)))

private theorem not_balanced_of_open {t : List LChar} : Balanced t → ∀ u, t = u →
    (u.filter (·.1 == '(')).length = (u.filter (·.1 == ')')).length := by
  intro h
  induction h with
  | nil => rintro u rfl; rfl
  | char h1 h2 _ ih => rintro u rfl; simp [h1, h2, ih]
  | nest _ _ ih1 ih2 => rintro u rfl; simp [ih1, ih2]; omega

example : Parses (textBlock .synthetic (txt "a$(b (c)")).span (.error .unterminatedVariable) :=
  C29_unterminated_partial _ _ (textBlock_mono _ _) (textBlock_mono _ _) [('a', .synthetic)]
    (locate .synthetic (txt "b (c)")) .synthetic .synthetic _ _ _ (at_txt "a$(b (c)" (by unfold AsciiS; decide))
    (at_txt "a" (by unfold AsciiS; decide))
    (parses_txt "a" (by unfold AsciiS; decide) (by unfold Free; decide)) (plain_text _) (by unfold Dangling; decide)
    (by
      intro a l b hab hbal
      have hb := not_balanced_of_open hbal _ rfl
      have hl : (locate .synthetic (txt "b (c)")) =
        [('b', .synthetic), (' ', .synthetic), ('(', .synthetic), ('c', .synthetic), (')', .synthetic)] := by decide
      rw [hl] at hab
      rcases a with _ | ⟨a1, _ | ⟨a2, _ | ⟨a3, _ | ⟨a4, _ | ⟨a5, a⟩⟩⟩⟩⟩
      · cases hab
      · cases hab
      · cases hab
      · cases hab
      · cases hab; exact absurd hb (by decide)
      · simp at hab)

/-! ### C30 -/

/-- The full claim.  (1) What follows a function call is part of the expression.  (2) A reference whose name begins
with the name of a function, but not followed by a blank, is a variable reference. -/
def C30_full : Prop :=
  (∀ (P P₁ P₂ : Block), Block.Mono P → Block.Mono P₁ → Block.Mono P₂ →
    ∀ (pre post : List LChar) (i i₁ i₂ : Span) (es : List Expr) (o : Outcome),
    i.At P (pre ++ post) → i₁.At P₁ pre → i₂.At P₂ post → Parses i₁ (.ok es) → ¬ Dangling pre → Parses i₂ o →
    Parses i (o.map (es ++ ·))) ∧
  (∀ (P : Block), Block.Mono P → ∀ (name : List LChar) (l l₁ l₂ : Location) (i : Span),
    i.At P (('$', l) :: ('(', l₁) :: (name ++ [(')', l₂)])) → (∀ x ∈ name, x.1 ≠ '$' ∧ x.1 ≠ '(' ∧ x.1 ≠ ')') →
    ¬ IsCall name → Parses i (.ok [.ref l (Expr.text name)]))

/-- Both parts fail: what follows a call is dropped, and `$(evaluate)` calls the function eval with argument `uate`. -/
theorem C30_refuted : (∃ (i i₁ i₂ : Span) (P P₁ P₂ : Block) (pre post : List LChar) (es fs : List Expr),
      Block.Mono P ∧ Block.Mono P₁ ∧ Block.Mono P₂ ∧ i.At P (pre ++ post) ∧ i₁.At P₁ pre ∧ i₂.At P₂ post ∧
      Parses i₁ (.ok es) ∧ ¬ Dangling pre ∧ Parses i₂ (.ok fs) ∧ ¬ Parses i (.ok (es ++ fs))) ∧
    (∃ (i : Span) (P : Block) (name : List LChar), Block.Mono P ∧
      i.At P (('$', .synthetic) :: ('(', .synthetic) :: (name ++ [(')', .synthetic)])) ∧
      (∀ x ∈ name, x.1 ≠ '$' ∧ x.1 ≠ '(' ∧ x.1 ≠ ')') ∧ ¬ IsCall name ∧
      ¬ Parses i (.ok [.ref .synthetic (Expr.text name)])) := by
  constructor
  · have r1 : Reads (locate .synthetic (txt "$(strip a)")) (.ok [.strip .synthetic [.char ('a', .synthetic)]]) :=
      .paren (.call (f := .strip) (a := [('a', .synthetic)]) (name := locate .synthetic (txt "strip a")) (rest := [])
        (by decide) (.strip (o := .ok _) (x := [('a', .synthetic)]) (by decide)
          (reads_text (t := [('a', .synthetic)]) (by unfold Free; decide))))
    have r2 : Reads (locate .synthetic (txt "$(strip a)b")) (.ok [.strip .synthetic [.char ('a', .synthetic)]]) :=
      .paren (.call (f := .strip) (a := [('a', .synthetic)]) (name := locate .synthetic (txt "strip a"))
        (rest := locate .synthetic (txt "b")) (by decide) (.strip (o := .ok _) (x := [('a', .synthetic)]) (by decide)
          (reads_text (t := [('a', .synthetic)]) (by unfold Free; decide))))
    have a1 := at_txt "$(strip a)" (by unfold AsciiS; decide)
    have a2 := at_txt "$(strip a)b" (by unfold AsciiS; decide)
    refine ⟨_, _, _, _, _, _, _, _, _, _, textBlock_mono _ _, textBlock_mono _ _, textBlock_mono _ _, a2, a1,
      at_txt "b" (by unfold AsciiS; decide), parses_of_reads (textBlock_mono _ _) a1 r1, by unfold Dangling; decide,
      parses_txt "b" (by unfold AsciiS; decide) (by unfold Free; decide), fun h => ?_⟩
    have := parses_det h (parses_of_reads (textBlock_mono _ _) a2 r2)
    cases this
  · have r1 : Reads (locate .synthetic (txt "$(evaluate)")) (.ok [.eval .synthetic
        (Expr.text (locate .synthetic (txt "uate")))]) :=
      .paren (.call (f := .eval) (a := locate .synthetic (txt "uate")) (name := locate .synthetic (txt "evaluate")) (rest := [])
        (by decide) (.eval (o := .ok _) (reads_text (by unfold Free; decide))))
    have a1 := at_txt "$(evaluate)" (by unfold AsciiS; decide)
    refine ⟨_, _, locate .synthetic (txt "evaluate"), textBlock_mono _ _, a1, by decide, ?_, fun h => ?_⟩
    · rintro ⟨f, c, hc, hf⟩
      cases f <;> rcases hc with rfl | rfl <;> exact absurd hf (by decide)
    · have := parses_det h (parses_of_reads (textBlock_mono _ _) a1 r1)
      cases this

/-- So the full claim fails. -/
theorem C30_full_refuted : ¬ C30_full := by
  rintro ⟨h, _⟩
  obtain ⟨i, i₁, i₂, P, P₁, P₂, pre, post, es, fs, h1, h2, h3, h4, h5, h6, h7, h8, h9, h10⟩ := C30_refuted.1
  exact h10 (h P P₁ P₂ h1 h2 h3 pre post i i₁ i₂ es (.ok fs) h4 h5 h6 h7 h8 h9)

/-- What happens instead of (1): a call is read like the same call with nothing after it; the rest of the text,
whatever it is, is dropped. -/
theorem C30_rest_dropped (P P₁ : Block) (hm : Block.Mono P) (hm₁ : Block.Mono P₁) (inner post : List LChar)
    (l l₁ l₂ : Location) (i i₁ : Span) (o : Outcome) (hb : Balanced inner) (hc : CallLike inner)
    (h : i.At P (('$', l) :: ('(', l₁) :: (inner ++ (')', l₂) :: post)))
    (h₁ : i₁.At P₁ (('$', l) :: ('(', l₁) :: (inner ++ [(')', l₂)]))) (hp : Parses i₁ o) : Parses i o := by
  have r := reads_of_parses hm₁ h₁ hp
  refine parses_of_reads hm h ?_
  cases r with
  | single h1 h2 h3 _ => exact absurd rfl h2
  | char h1 _ => exact absurd rfl h1
  | paren r =>
    rw [closing_of_balanced hb] at r
    refine .paren ?_
    rw [closing_of_balanced hb]
    cases r with
    | ref g1 _ _ => exact absurd hc (calls_eq_none.mp g1)
    | nameError g1 _ => exact absurd hc (calls_eq_none.mp g1)
    | call g1 g2 => exact .call g1 g2

/-- What holds of C30.  (1) Text after something that contains no call is kept.  (2) A name that does not begin with
a function name is a reference.  Missing: text after calls, names that begin with a function name. -/
theorem C30_partial (P P₁ P₂ : Block) (hm : Block.Mono P) (hm₁ : Block.Mono P₁) (hm₂ : Block.Mono P₂) :
    (∀ (pre post : List LChar) (i i₁ i₂ : Span) (es : List Expr) (o : Outcome),
      i.At P (pre ++ post) → i₁.At P₁ pre → i₂.At P₂ post → Parses i₁ (.ok es) → Plain es → ¬ Dangling pre →
      Parses i₂ o → Parses i (o.map (es ++ ·))) ∧
    (∀ (name : List LChar) (l l₁ l₂ : Location) (i : Span),
      i.At P (('$', l) :: ('(', l₁) :: (name ++ [(')', l₂)])) → (∀ x ∈ name, x.1 ≠ '$' ∧ x.1 ≠ '(' ∧ x.1 ≠ ')') →
      ¬ CallLike name → Parses i (.ok [.ref l (Expr.text name)])) := by
  refine ⟨fun pre post i i₁ i₂ es o h h₁ h₂ g1 g2 g3 g4 =>
    reads_in_order P P₁ P₂ hm hm₁ hm₂ pre post i i₁ i₂ es o h h₁ h₂ g1 g2 g3 g4, ?_⟩
  intro name l l₁ l₂ i h hn hc
  have e : (textBlock .synthetic []).span.At (textBlock .synthetic []) [] := textBlock_at (by unfold AsciiS; decide)
  have pe : Parses (textBlock .synthetic []).span (.ok []) := parses_of_reads (textBlock_mono _ _) e .nil
  exact C28_plain_name_partial P _ _ hm (textBlock_mono _ _) (textBlock_mono _ _) [] [] name l l₁ l₂ i _ _ [] (.ok [])
    e e pe (by simp [Plain]) (by unfold Dangling; decide) pe hn hc h

example : Parses (textBlock .synthetic (txt "$(xeval)")).span (.ok [.ref .synthetic
    (Expr.text (locate .synthetic (txt "xeval")))]) :=
  (C30_partial _ _ _ (textBlock_mono _ _) (textBlock_mono .synthetic []) (textBlock_mono .synthetic [])).2
    (locate .synthetic (txt "xeval")) .synthetic .synthetic .synthetic _ (at_txt "$(xeval)" (by unfold AsciiS; decide))
    (by decide) (by rintro ⟨f, hf⟩; cases f <;> exact absurd hf (by decide))

/-! ### C31 -/

/-- The full claim: printing and parsing gives back every expression built from text and references whose printed
names have balanced parentheses and are not function calls. -/
def C31_full : Prop :=
  ∀ (P : Block), Block.Mono P → ∀ (es : List Expr) (i : Span), Printable (fun t => ¬ IsCall t) es →
    i.At P (Expr.printAll es) → Parses i (.ok es)

private theorem printAll_text {t : List LChar} (h : Free '$' t) : Expr.printAll (Expr.text t) = t := by
  induction t with
  | nil => rfl
  | cons x t ih =>
    rw [Free.cons] at h
    have := ih h.2
    rw [Expr.text] at this ⊢
    rw [List.map_cons, Expr.printAll, this, Expr.print, if_neg h.1]
    rfl

private theorem printable_text (ok : List LChar → Prop) (t : List LChar) : Printable ok (Expr.text t) := by
  induction t with
  | nil => exact .nil
  | cons x t ih => exact .char ih

/-- Names that begin with a function name are misread. -/
theorem C31_refuted : ¬ C31_full := by
  intro h
  obtain ⟨i, P, name, hm, hat, hn, hc, hnot⟩ := C30_refuted.2
  have hf : Free '$' name := fun x hx => (hn x hx).1
  have hb : Balanced name := by
    clear hat hc hnot hf
    induction name with
    | nil => exact .nil
    | cons x n ih =>
      have hx := hn x (by simp)
      exact .char hx.2.1 hx.2.2 (ih fun y hy => hn y (by simp [hy]))
  refine hnot (h P hm [.ref .synthetic (Expr.text name)] i (.ref (printable_text _ _) ?_ ?_ .nil) ?_)
  · rw [printAll_text hf]; exact hb
  · rw [printAll_text hf]; exact hc
  · simp only [Expr.printAll, Expr.print, printAll_text hf, List.append_nil]
    exact hat

/-- What holds: no printed name begins with a function name. -/
theorem C31_roundtrip_partial (P : Block) (hm : Block.Mono P) (es : List Expr) (i : Span)
    (hp : Printable (fun t => ¬ CallLike t) es) (h : i.At P (Expr.printAll es)) : Parses i (.ok es) :=
  parses_of_reads hm h (printable_reads hp)

/-- The condition is exact: where a printed name begins with a function name, at any depth, the expression is not read
back. -/
theorem C31_exact (P : Block) (hm : Block.Mono P) (es : List Expr) (i : Span) (hp : Printable (fun _ => True) es)
    (h : i.At P (Expr.printAll es)) : Parses i (.ok es) ↔ Printable (fun t => ¬ CallLike t) es :=
  ⟨fun hr => printable_of_reads hp (reads_of_parses hm h hr), fun hc => C31_roundtrip_partial P hm es i hc h⟩

private def nested : List Expr :=
  [.char ('$', .synthetic), .ref .synthetic [.char ('a', .synthetic), .char ('(', .synthetic),
    .ref .synthetic [.char ('b', .synthetic)], .char (')', .synthetic)], .char (')', .synthetic)]

example : Parses (textBlock .synthetic (txt "$$$(a($(b))))")).span (.ok nested) := by
  refine C31_roundtrip_partial _ (textBlock_mono _ _) _ _ ?_ (at_txt "$$$(a($(b))))" (by unfold AsciiS; decide))
  have hl : ∀ t : List LChar, (∀ f : Fn, f.name.isPrefixOf (textOf t) = false) → ¬ CallLike t := by
    rintro t h ⟨f, hf⟩
    have := h f
    rw [List.isPrefixOf_iff_prefix.mpr hf] at this
    cases this
  refine .char (.ref (.char (.char (.ref (.char .nil) (.char (by decide) (by decide) .nil) ?_ (.char .nil)))) ?_ ?_ (.char .nil))
  · exact hl _ (by intro f; cases f <;> decide)
  · refine .char (by decide) (by decide) ?_
    exact .nest (a := [('$', .synthetic), ('(', .synthetic), ('b', .synthetic), (')', .synthetic)]) (b := [])
      (.char (by decide) (by decide) (.nest (a := [('b', .synthetic)]) (b := [])
        (.char (by decide) (by decide) .nil) .nil)) .nil
  · exact hl _ (by intro f; cases f <;> decide)

/-- `$(a$(word))` is not read as a reference whose name has a reference to `word` in it. -/
example : ¬ Parses (textBlock .synthetic (txt "$(a$(word))")).span
    (.ok [.ref .synthetic (.char ('a', .synthetic) :: [.ref .synthetic (Expr.text (locate .synthetic (txt "word")))])]) := by
  have word : Balanced (locate .synthetic (txt "word")) :=
    .char (by decide) (by decide) (.char (by decide) (by decide) (.char (by decide) (by decide)
      (.char (by decide) (by decide) .nil)))
  rw [C31_exact _ (textBlock_mono _ _) _ _
    (.ref (.char (.ref (printable_text _ _) ?_ trivial .nil)) ?_ trivial .nil)
    (at_txt "$(a$(word))" (by unfold AsciiS; decide))]
  · intro h
    cases h with
    | ref h _ _ _ =>
      cases h with
      | char h =>
        cases h with
        | ref _ _ h _ => exact h ⟨.word, by decide⟩
  · exact word
  · exact .char (by decide) (by decide) (.char (by decide) (by decide) (.nest (a := locate .synthetic (txt "word")) (b := [])
      word .nil))

end Hastur
