import Verif.Proofs.Drive
import Verif.Proofs.RuleDemo
/-
C65: the colon of a drive specification does not end the targets.
-/
namespace Hastur

open Res Span

/-- The full claim, the comment of `find_non_drivespec_colon`: a text in which no colon is quoted is cut at the first colon
that belongs to no drive specification; when there is none, it is not cut. -/
def C65_full : Prop :=
  ∀ (P : Block) (i : Span) (t : List LChar), i.At P t → P.Solid → UnquotedColons t →
    (∀ pre post, FirstColon t pre post →
      ∃ b s, findNonDrivespecColon i = .ok (b, some s) ∧ Block.ltext b = pre ∧ s.At P post) ∧
    ((∀ a b, ColonAt t a b → DriveColon a b) → ∃ b, findNonDrivespecColon i = .ok (b, none) ∧ Block.ltext b = t)

/-- C65 for texts in which neither whitespace nor an opening parenthesis is one of the two characters before a colon that a
slash follows.  Missing: drive specifications that are not at the beginning of the text. -/
theorem C65_colon_partial {P : Block} {i : Span} {t : List LChar} (h : i.At P t) (hP : P.Solid) (hq : UnquotedColons t)
    (hw : ∀ pre post, ColonAt t pre post → SlashNext post →
      ∀ x ∈ pre.drop (pre.length - 2), isWhitespace x.1 = false ∧ x.1 ≠ '(') :
    (∀ pre post, FirstColon t pre post →
      ∃ b s, findNonDrivespecColon i = .ok (b, some s) ∧ Block.ltext b = pre ∧ s.At P post) ∧
    ((∀ a b, ColonAt t a b → DriveColon a b) → ∃ b, findNonDrivespecColon i = .ok (b, none) ∧ Block.ltext b = t) := by
  rcases findColon_first h hP hq hw with ⟨pre, post, b, s, h1, h2, h3, h4⟩ | ⟨h1, b, h2, h3⟩
  · constructor
    · intro pre' post' h'
      obtain ⟨rfl, rfl⟩ := h1.unique h'
      exact ⟨b, s, h2, h3.ltext, h4⟩
    · intro hd
      exact absurd (hd _ _ h1.1) h1.2.1
  · constructor
    · intro pre' post' h'
      exact absurd (h1 _ _ h'.1) h'.2.1
    · intro _
      exact ⟨b, h2, h3.ltext⟩

private theorem demo_solid {s : Str} (h : 0 < blen s) : (textBlock .synthetic s).Solid := by
  intro c hc
  simp only [textBlock, List.mem_singleton] at hc
  subst hc
  exact h

private theorem colonAt_iff {t a b : List LChar} (h : ColonAt t a b) :
    ∃ n, n < t.length ∧ (t[n]?).map Prod.fst = some ':' ∧ a = t.take n ∧ b = t.drop (n + 1) := by
  obtain ⟨l, rfl⟩ := h
  exact ⟨a.length, by simp, by simp, by simp, by simp⟩

private def demo : Str := "x c:/d:e".toList

private theorem demo_unquoted : UnquotedColons (locate .synthetic demo) := by
  intro pre post ⟨l, h⟩ x hx hc
  obtain ⟨a, rfl⟩ := List.getLast?_eq_some_iff.mp hx
  have hm : x ∈ locate .synthetic demo := by rw [h]; simp
  exact mem_locate (s := demo) (q := fun c => c ≠ '\\') (by decide) x hm hc

private theorem demo_first : FirstColon (locate .synthetic demo) (locate .synthetic "x c:/d".toList)
    (locate .synthetic ['e']) := by
  refine ⟨⟨.synthetic, rfl⟩, ?_, ?_⟩
  · rintro ⟨⟨x, v, h, h'⟩, _⟩
    cases h
    rcases h' with h' | h' <;> cases h'
  · intro a b h hl
    obtain ⟨n, hn, h1, rfl, rfl⟩ := colonAt_iff h
    have hn' : n < 6 := by
      rw [List.length_take] at hl
      have : (locate .synthetic "x c:/d".toList).length = 6 := rfl
      omega
    match n, hn', h1 with
    | 3, _, _ =>
      exact ⟨⟨('/', .synthetic), locate .synthetic "d:e".toList, rfl, .inl rfl⟩, locate .synthetic "x ".toList,
        ('c', .synthetic), rfl, rfl, fun y hy => by cases hy; exact .inl rfl⟩
    | 0, _, h | 1, _, h | 2, _, h | 4, _, h | 5, _, h => cases h

/-- `x c:/d:e`: the code looks for a letter followed by a blank instead of a blank followed by a letter, and cuts at the
first colon. -/
theorem C65_refuted : ¬ C65_full := by
  intro h
  obtain ⟨b, s, e, hb, _⟩ := (h _ _ _ (textBlock_at (loc := .synthetic) (t := demo) (by unfold AsciiS; decide))
    (demo_solid (by decide)) demo_unquoted).1 _ _ demo_first
  have : (match findNonDrivespecColon (textBlock .synthetic demo).span with
    | .ok (b, some _) => decide ((Block.ltext b).length = 3)
    | _ => false) = true := by decide +kernel
  rw [e] at this
  have h3 := of_decide_eq_true this
  rw [hb] at h3
  cases h3

/-- The claim for rules: a rule for a file on a drive is read as such. -/
def C65_rule_full : Prop :=
  ∀ (fs : Fs) (c : Char) (P : Block) (i : Span) (t line rest : List LChar) (p : PState) (st : St), isAlphabetic c = true →
    Ready P i t line rest p st → Physical t line rest → textOf line = c :: ":/d: e".toList →
    ∃ r : ProtoRule, LineGives fs P i p st rest { p with currentRule := some r } st ∧
      r.targets.map (fun b => textOf (Block.ltext b)) = [c :: ":/d".toList]

private def noFs : Fs := fun _ => .missing

private theorem drive_aborts : ∃ e, parseLine noFs (recF noFs 2) PState.new St.init
    (textBlock .synthetic "c:/d: e\n".toList).span = .panic e := by
  have h : (match parseLine noFs (recF noFs 2) PState.new St.init (textBlock .synthetic "c:/d: e\n".toList).span with
    | .panic _ => true
    | _ => false) = true := by decide +kernel
  split at h
  · rename_i e he
    exact ⟨e, he⟩
  · cases h

/-- The scanner of words stops at every colon, and `c:/d: e` is taken for a static pattern rule. -/
theorem C65_rule_refuted : ¬ C65_rule_full := by
  intro h
  have hr : Ready _ _ _ _ _ PState.new St.init := ready_locate (l := .synthetic) (line := "c:/d: e".toList)
    (rest := []) (by unfold AsciiS; decide) (by decide) (by decide) (by simp) (by decide) rfl St.init_wf
  obtain ⟨r, ⟨N, j, _, h1⟩, _⟩ := h noFs 'c' _ _ _ _ _ _ _ (by decide) hr
    (physical_locate (by decide) (by simp) (by decide)) (by rw [textOf_locate]; rfl)
  obtain ⟨e, h2⟩ := drive_aborts
  have h3 := h1 (N + 2) (Nat.le_add_right _ _)
  rw [show (textBlock .synthetic ("c:/d: e".toList ++ '\n' :: [])) = textBlock .synthetic "c:/d: e\n".toList from rfl,
    (parseLine_le (recF_le noFs (Nat.le_add_left 2 N)) noFs _ _ _).panic h2] at h3
  cases h3

/-- `c:/d:e` is cut at the second colon. -/
example : ∃ b s, findNonDrivespecColon (textBlock .synthetic "c:/d:e".toList).span = .ok (b, some s) ∧
    textOf (Block.ltext b) = "c:/d".toList := by
  have ht := textBlock_at (loc := .synthetic) (t := "c:/d:e".toList) (by unfold AsciiS; decide)
  have hq : UnquotedColons (locate .synthetic "c:/d:e".toList) := by
    intro pre post ⟨l, h⟩ x hx hc
    obtain ⟨a, rfl⟩ := List.getLast?_eq_some_iff.mp hx
    have hm : x ∈ locate .synthetic "c:/d:e".toList := by rw [h]; simp
    exact mem_locate (s := "c:/d:e".toList) (q := fun c => c ≠ '\\') (by decide) x hm hc
  have hw : ∀ pre post, ColonAt (locate .synthetic "c:/d:e".toList) pre post → SlashNext post →
      ∀ x ∈ pre.drop (pre.length - 2), isWhitespace x.1 = false ∧ x.1 ≠ '(' := by
    intro pre post ⟨l, h⟩ _ x hx
    have hm : x ∈ locate .synthetic "c:/d:e".toList := by rw [h]; simp [List.mem_of_mem_drop hx]
    exact mem_locate (s := "c:/d:e".toList) (q := fun c => isWhitespace c = false ∧ c ≠ '(') (by decide) x hm
  have hf : FirstColon (locate .synthetic "c:/d:e".toList) (locate .synthetic "c:/d".toList) (locate .synthetic ['e']) := by
    refine ⟨⟨.synthetic, rfl⟩, ?_, ?_⟩
    · rintro ⟨⟨x, v, h, h'⟩, _⟩
      cases h
      rcases h' with h' | h' <;> cases h'
    · intro a b h hl
      obtain ⟨n, hn, h1, rfl, rfl⟩ := colonAt_iff h
      have hn' : n < 4 := by
        rw [List.length_take] at hl
        have : (locate .synthetic "c:/d".toList).length = 4 := rfl
        omega
      match n, hn', h1 with
      | 1, _, _ =>
        exact ⟨⟨('/', .synthetic), locate .synthetic "d:e".toList, rfl, .inl rfl⟩, [],
          ('c', .synthetic), rfl, rfl, fun y hy => by cases hy⟩
      | 0, _, h | 2, _, h | 3, _, h => cases h
  obtain ⟨b, s, h1, h2, _⟩ := (C65_colon_partial ht (demo_solid (by decide)) hq hw).1 _ _ hf
  exact ⟨b, s, h1, by rw [h2]; rfl⟩

end Hastur
