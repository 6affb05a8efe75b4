import Verif.Proofs.RecipePrefix
import Verif.Proofs.Points
import Verif.Props.Rules
import Verif.Props.Comment
/-
C77: which lines are recipe lines.
-/
namespace Hastur

open Res

private def noFs : Fs := fun _ => .missing

private theorem no_comment {fs : Fs} {st0 : St} (hst : Reachable fs st0) {n : Nat} {P : Block} {i j : Span} {p : PState}
    {st : St} {start t : List LChar} (hi : i.At P start) (hs : LineSteps fs (recF fs n) i PState.new st0 j p st)
    {o : ProtoRule} (hj : j.At P t) (hp : p.currentRule = some o) (ht : (textOf t).head? = some '\t') : Free '#' t := by
  rcases hs.settled (by rw [hst.commandChar]; decide) hi with ⟨_, rfl, _⟩ | ⟨t', h3, h4⟩
  · cases hp
  · obtain rfl : t = t' := hj.ltext.symm.trans h3.ltext
    refine h4.resolve_right ?_
    rw [ht]
    decide

/-- **C77, the lines that begin with a tab.**  At any point of the reading of any makefile, wherever it has comments: if a
rule is open and the text goes on with a tab, the rest of the (possibly continued) line is added to the recipe of the open
rule, unexpanded. -/
theorem C77_tab_line (fs : Fs) {st0 : St} (hst : Reachable fs st0) {n : Nat} {P : Block} {i j : Span} {p : PState} {st : St}
    {start t line rest : List LChar} (h1 : P.content.length ≤ 1) (h2 : Block.Mono P) (hi : i.At P start)
    (hs : LineSteps fs (recF fs n) i PState.new st0 j p st) {o : ProtoRule} {es : List Expr} (hj : j.At P t)
    (hp : p.currentRule = some o) (hr : RecipeText '\t' t line rest) (he : Reads line (.ok es)) :
    ∃ a, LineGives fs P j p st rest { p with currentRule := some { o with recipe := o.recipe ++ [a] } } st ∧ a.flat = es := by
  have hc : st.commandChar = '\t' := hs.commandChar.trans hst.commandChar
  exact C47_recipe_line fs h1 h2 hj (no_comment hst hi hs hj hp hr.head) (by rw [hc]; decide) hp (by rw [hc]; exact hr) he

/-- **C77, the lines that begin with a tab, all of them.**  When the text goes on with a tab, a recipe line is there; and
it is added to the recipe of the open rule, or it is not a well-formed expression, and this is reported. -/
theorem C77_tab_line_total (fs : Fs) {st0 : St} (hst : Reachable fs st0) {n : Nat} {P : Block} {i j : Span} {p : PState}
    {st : St} {start t : List LChar} (h1 : P.content.length ≤ 1) (h2 : Block.Mono P) (hi : i.At P start)
    (hs : LineSteps fs (recF fs n) i PState.new st0 j p st) {o : ProtoRule} (hj : j.At P t)
    (hp : p.currentRule = some o) (ht : (textOf t).head? = some '\t') :
    ∃ line rest, RecipeText '\t' t line rest ∧
      ((∃ es a, Reads line (.ok es) ∧ a.flat = es ∧
        LineGives fs P j p st rest { p with currentRule := some { o with recipe := o.recipe ++ [a] } } st) ∨
      ∃ k, Reads line (.error k) ∧ ∀ r, parseLine fs r p st j = .ok (.err (.failure (.custom k)), p, st)) := by
  have hc : st.commandChar = '\t' := hs.commandChar.trans hst.commandChar
  obtain ⟨line, rest, hr⟩ := recipeText_exists ht
  obtain ⟨out, he⟩ := reads_exists line
  refine ⟨line, rest, hr, ?_⟩
  cases out with
  | ok es =>
    obtain ⟨a, g1, g2⟩ := C77_tab_line fs hst h1 h2 hi hs hj hp hr he
    exact .inl ⟨es, a, he, g2, g1⟩
  | error k =>
    exact .inr ⟨k, he, fun r => parseLine_badRecipe fs r h1 h2 hj (no_comment hst hi hs hj hp ht) (by rw [hc]; decide) hp
      (by rw [hc]; exact hr) he⟩

/-- **C77, all other lines.**  At any point of the reading of any makefile: a line adds to the recipe of the open rule
only if it begins with a tab.  All other lines leave the open rule as it is, or close it; and if they open a new one,
its recipe has at most one command, the one on the rule line. -/
theorem C77_other_lines (fs : Fs) {st0 : St} (hst : Reachable fs st0) {n : Nat} {P : Block} {i j : Span} {p p' : PState}
    {st st' : St} (hs : LineSteps fs (recF fs n) i PState.new st0 j p st) {t : List LChar} {o : ProtoRule} {res : IRes Unit}
    (hj : j.At P t) (hp : p.currentRule = some o) (h : parseLine fs (recF fs n) p st j = .ok (res, p', st')) :
    p'.currentRule = some o ∨ p'.currentRule = none ∨ (∃ r, p'.currentRule = some r ∧ r.recipe.length ≤ 1) ∨
      ((textOf t).head? = some '\t' ∧ ∃ a, p'.currentRule = some { o with recipe := o.recipe ++ [a] }) := by
  have hc : st.commandChar = '\t' := hs.commandChar.trans hst.commandChar
  rcases parseLine_open fs (recF fs n) hj (by rw [hc]; decide) hp _ h with (h1 | h1 | h1) | ⟨h1, h2⟩
  · exact .inl h1
  · exact .inr (.inl h1)
  · exact .inr (.inr (.inl h1))
  · exact .inr (.inr (.inr ⟨by rw [← hc]; exact h1, h2⟩))

/-- The reason: nothing that is read or expanded changes the recipe prefix, not even an assignment to `.RECIPEPREFIX`. -/
theorem C77_prefix (fs : Fs) {st0 : St} (hst : Reachable fs st0) {n : Nat} {i j : Span} {p : PState} {st : St}
    (hs : LineSteps fs (recF fs n) i PState.new st0 j p st) : st.commandChar = '\t' := hs.commandChar.trans hst.commandChar

/-- Read some lines, as long as there are no errors. -/
private def readLines : Nat → Span → PState → St → Option (Span × PState × St)
  | 0, i, p, st => some (i, p, st)
  | k + 1, i, p, st =>
    if i.length = 0 then none
    else match parseLine noFs (recF noFs 3) p st i with
      | .ok (.done j (), p, st) => readLines k j p st
      | _ => none

private theorem readLines_steps (k : Nat) : ∀ {i j : Span} {p p' : PState} {st st' : St},
    readLines k i p st = some (j, p', st') → LineSteps noFs (recF noFs 3) i p st j p' st' := by
  induction k with
  | zero =>
    rintro i j p p' st st' h
    cases h
    exact .nil
  | succ k ih =>
    intro i j p p' st st' h
    unfold readLines at h
    split at h
    · cases h
    · split at h
      · rename_i h0 _ _ _ _ h1
        exact .cons h0 h1 (ih h)
      · cases h

private def text : Str := ".RECIPEPREFIX = >\na:\n\techo hi\n>echo\n".toList

/-- After an assignment to `.RECIPEPREFIX` and a rule line, the rule is open and a line that begins with a tab is added
to it; and in the state after that, the next line, which begins with `>`, is not. -/
private def prefixDemo : Bool :=
  match readLines 2 (textBlock .synthetic text).span PState.new St.init with
  | some (_, p, _) => (match p.currentRule with | some o => o.recipe.length == 0 | none => false) &&
    match readLines 3 (textBlock .synthetic text).span PState.new St.init with
    | some (_, p, _) => match p.currentRule with | some o => o.recipe.length == 1 | none => false
    | none => false
  | none => false

example : prefixDemo = true := by decide +kernel

/-- The hypotheses of the theorems are met in the middle of that text. -/
example : ∃ (j : Span) (p : PState) (st : St) (o : ProtoRule), Reachable noFs St.init ∧
    LineSteps noFs (recF noFs 3) (textBlock .synthetic text).span PState.new St.init j p st ∧ p.currentRule = some o ∧
    st.commandChar = '\t' := by
  have h : prefixDemo = true := by decide +kernel
  unfold prefixDemo at h
  split at h
  · rename_i j p st h1
    have hs := readLines_steps 2 h1
    simp only [Bool.and_eq_true] at h
    cases ho : p.currentRule with
    | none => rw [ho] at h; exact absurd h.1 (by decide)
    | some o => exact ⟨j, p, st, o, .init, hs, ho, C77_prefix noFs .init hs⟩
  · cases h

private def commented : Str := "a:\n# c\n\td\n".toList

private def commentedDemo : Bool :=
  match readLines 2 (textBlock .synthetic commented).span PState.new St.init with
  | some (j, p, _) => p.currentRule.isSome && decide (j.ltext = locate .synthetic "\td\n".toList)
  | none => false

/-- With a comment in front of it, a recipe line is added to the open rule. -/
example : ∃ (j : Span) (p : PState) (st : St) (o : ProtoRule) (a : Ast),
    LineSteps noFs (recF noFs 3) (textBlock .synthetic commented).span PState.new St.init j p st ∧ p.currentRule = some o ∧
    LineGives noFs (textBlock .synthetic commented) j p st [] { p with currentRule := some { o with recipe := o.recipe ++ [a] } } st ∧
    a.flat = Expr.text [('d', .synthetic)] := by
  have h : commentedDemo = true := by decide +kernel
  unfold commentedDemo at h
  split at h
  · rename_i j p st h1
    have hs := readLines_steps 2 h1
    simp only [Bool.and_eq_true, decide_eq_true_eq] at h
    have hi : (textBlock .synthetic commented).span.At (textBlock .synthetic commented) (locate .synthetic commented) :=
      textBlock_at (by unfold AsciiS; decide)
    cases ho : p.currentRule with
    | none => rw [ho] at h; exact absurd h.1 (by decide)
    | some o =>
      have hj : j.At (textBlock .synthetic commented) (locate .synthetic "\td\n".toList) := by
        rcases hs.settled rfl hi with ⟨_, rfl, _⟩ | ⟨t, h2, _⟩
        · cases ho
        · rw [← h.2, h2.ltext]; exact h2
      have hr : RecipeText '\t' (locate .synthetic "\td\n".toList) [('d', .synthetic)] [] :=
        .last (l := .synthetic) (line := [('d', .synthetic)]) (tail := [('\n', .synthetic)])
          (by intro x hx; cases List.mem_singleton.mp hx; decide) (by decide) (.inr ⟨_, rfl⟩)
      obtain ⟨a, g1, g2⟩ := C77_tab_line noFs .init (by simp [textBlock]) (textBlock_mono _ _) hi hs hj ho hr
        (reads_text (by intro x hx; cases List.mem_singleton.mp hx; decide))
      exact ⟨j, p, st, o, a, hs, ho, g1, g2⟩
  · cases h

private def malformed : List Char := "t:\n\t$(d\n".toList

private def malformedDemo : Bool :=
  match readLines 1 (textBlock .synthetic malformed).span PState.new St.init with
  | some (j, p, st) =>
    p.currentRule.isSome && decide (j.ltext = locate .synthetic "\t$(d\n".toList) &&
      match recipeLine '\t' j with
      | .ok (.done _ _) => false
      | _ => true
  | none => false

/-- A recipe line with a reference that is not closed is reported. -/
example : ∃ (j : Span) (p : PState) (st : St) (k : ParseErrorKind),
    LineSteps noFs (recF noFs 3) (textBlock .synthetic malformed).span PState.new St.init j p st ∧
    ∀ r, parseLine noFs r p st j = .ok (.err (.failure (.custom k)), p, st) := by
  have h : malformedDemo = true := by decide +kernel
  unfold malformedDemo at h
  split at h
  · rename_i j p st h1
    have hs := readLines_steps 1 h1
    simp only [Bool.and_eq_true, decide_eq_true_eq] at h
    have hi : (textBlock .synthetic malformed).span.At (textBlock .synthetic malformed) (locate .synthetic malformed) :=
      textBlock_at (by unfold AsciiS; decide)
    cases ho : p.currentRule with
    | none => rw [ho] at h; exact absurd h.1.1 (by decide)
    | some o =>
      have hj : j.At (textBlock .synthetic malformed) (locate .synthetic "\t$(d\n".toList) := by
        rcases hs.settled rfl hi with ⟨_, rfl, _⟩ | ⟨t, h2, _⟩
        · cases ho
        · rw [← h.1.2, h2.ltext]; exact h2
      obtain ⟨_, _, hr, h3 | ⟨k, _, h3⟩⟩ := C77_tab_line_total noFs .init (by simp [textBlock]) (textBlock_mono _ _) hi hs hj ho
        (by rw [textOf_locate]; decide)
      · obtain ⟨_, _, he, _⟩ := h3
        obtain ⟨_, _, g1, _⟩ := recipeLine_out (by decide) (by simp [textBlock]) (textBlock_mono _ _) hj
          (by intro x hx; revert x; decide) hr he
        rw [g1] at h
        exact absurd h.2 Bool.false_ne_true
      · exact ⟨j, p, st, k, hs, h3⟩
  · cases h

private def pointsDemo : Bool :=
  match readLines 1 (textBlock .synthetic commented).span PState.new St.init with
  | some (j, p, st) =>
    match parseLine noFs (recF noFs 3) p st j with
    | .ok (.done _ (), _, _) => decide (j.length = 7)
    | _ => false
  | none => false

/-- The same text meets the hypotheses of `C69_points` after its first line. -/
example : ∃ (j k : Span) (t rest : List LChar), j.At (textBlock .synthetic commented) t ∧
    k.At (textBlock .synthetic commented) rest ∧ (Free '#' t ∨ (textOf t).head? = some '#') ∧ Free '#' rest := by
  have h : pointsDemo = true := by decide +kernel
  unfold pointsDemo at h
  split at h
  · rename_i j p st h1
    split at h
    · rename_i k p' st' h2
      have hl : j.length = 7 := of_decide_eq_true h
      have hi : (textBlock .synthetic commented).span.At (textBlock .synthetic commented) (locate .synthetic commented) :=
        textBlock_at (by unfold AsciiS; decide)
      exact ⟨j, k, C69_points noFs hi rfl (readLines_steps 1 h1) (by
        rintro rfl
        rw [hi.length] at hl
        exact absurd hl (by decide)) (by omega) h2⟩
    · cases h
  · cases h

end Hastur
