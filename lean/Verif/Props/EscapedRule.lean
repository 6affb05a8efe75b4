import Verif.Proofs.EscapedRule
/-
C76: rule lines with backslashes.

`Ready`, `LineGives` and `Physical` are in Spec/Makefile.lean and Spec/RuleLine.lean; `writeRule`, `EscapedTargets` and
`EscapedRuleText` are in Spec/EscapedRule.lean; `NamesIn` and `lastName` (the reading of C74) are in Spec/Lines.lean.
-/
namespace Hastur

open Res

private def noFs : Fs := fun _ => .missing

/-- The full claim: a rule whose targets and dependencies are any names of file name characters, colons and semicolons
can be written down with backslashes in front of the colons and semicolons, and is read back.  (That the line does not
begin with a keyword of another kind of line is assumed; see C47.) -/
def C76_full : Prop :=
  ∀ (fs : Fs) (P : Block) (i : Span) (t rest : List LChar) (ts ds : List (List LChar × Location)) (colon : Location)
    (p : PState) (st : St),
    Ready P i t (writeRule ts colon ds) rest p st → Physical t (writeRule ts colon ds) rest → ts ≠ [] →
    (∀ q ∈ ts ++ ds, q.1 ≠ [] ∧ ∀ x ∈ q.1, WordChar x.1 ∨ x.1 = ':' ∨ x.1 = ';') →
    (textOf (writeRule ts colon ds)).head? ≠ some st.commandChar →
    ¬ CondLike (writeRule ts colon ds) → ¬ VarLike (writeRule ts colon ds) → ¬ DirectiveLike (writeRule ts colon ds) →
    ¬ VarLike ((ds.flatMap fun q => (' ', q.2) :: writeName q.1).dropWhile lblank) →
    ∃ r : ProtoRule, LineGives fs P i p st rest { p with currentRule := some r } st ∧
      r.targets.map Block.ltext = ts.map Prod.fst ∧ r.deps.map Block.ltext = ds.map Prod.fst ∧ r.recipe = [] ∧
      r.ruleType = .standard

/-- C76 for names without semicolons. -/
theorem C76_written_rule_partial (fs : Fs) {P : Block} {i : Span} {t rest : List LChar}
    {ts ds : List (List LChar × Location)} {colon : Location} {p : PState} {st : St}
    (h : Ready P i t (writeRule ts colon ds) rest p st) (hl : Physical t (writeRule ts colon ds) rest) (hne : ts ≠ [])
    (hn : ∀ q ∈ ts ++ ds, q.1 ≠ [] ∧ ∀ x ∈ q.1, WordChar x.1 ∨ x.1 = ':')
    (hc : (textOf (writeRule ts colon ds)).head? ≠ some st.commandChar)
    (h1 : ¬ CondLike (writeRule ts colon ds)) (h2 : ¬ VarLike (writeRule ts colon ds))
    (h3 : ¬ DirectiveLike (writeRule ts colon ds))
    (h4 : ¬ VarLike ((ds.flatMap fun q => (' ', q.2) :: writeName q.1).dropWhile lblank)) :
    ∃ r : ProtoRule, LineGives fs P i p st rest { p with currentRule := some r } st ∧
      r.targets.map Block.ltext = ts.map Prod.fst ∧ r.deps.map Block.ltext = ds.map Prod.fst ∧ r.recipe = [] ∧
      r.ruleType = .standard := by
  obtain ⟨d1, d2, d3, d4⟩ := writeDeps (ds := ds) fun q hq => hn q (List.mem_append_right _ hq)
  obtain ⟨r, g1, g2, g3, g4, g5⟩ := parseLine_escaped fs h hl hc h1 h2 h3
    (.plain (cs := [(':', colon)]) (double := false) rfl d1 d2 d3) h4
    (writeTargets hne fun q hq => hn q (List.mem_append_left _ hq)) d4 .none
  exact ⟨r, g1, g2, g3, List.map_eq_nil_iff.mp g4, g5⟩

/-- C76 for any rule line without references and without escaped semicolons: the targets are as `EscapedTargets` says,
the dependencies are a list as in C74, and there may be a command after a semicolon.  In particular a blank is part of
a name if there is a backslash in front of it. -/
theorem C76_escapes_partial (fs : Fs) {P : Block} {i : Span} {t line rest ts after ds : List LChar}
    {tns dns : List (List LChar)} {double : Bool} {command : Option (List LChar)} {recipe : List (List Expr)} {p : PState}
    {st : St} (h : Ready P i t line rest p st) (hl : Physical t line rest)
    (hc : (textOf line).head? ≠ some st.commandChar) (hr : EscapedRuleText line ts double after ds command)
    (hts : EscapedTargets ts tns) (hds : NamesIn (separates [':']) (lastName (separates [':'])) ds dns)
    (hcmd : CommandReads command recipe) (h1 : ¬ CondLike line) (h2 : ¬ VarLike line) (h3 : ¬ DirectiveLike line)
    (h4 : ¬ VarLike (after.dropWhile lblank)) :
    ∃ r : ProtoRule, LineGives fs P i p st rest { p with currentRule := some r } st ∧
      r.targets.map Block.ltext = tns ∧ r.deps.map Block.ltext = dns ∧ r.recipe.map Ast.flat = recipe ∧
      r.ruleType = (if double then .doubleColon else .standard) :=
  parseLine_escaped fs h hl hc h1 h2 h3 hr h4 hts hds hcmd

/-! ### Semicolons -/

/-- The line is read without error; the texts of the targets and dependencies of the open rule, and the number of its
commands. -/
private def ruleIn : Res LineOut → Option (Option (List Str × List Str × Nat))
  | .ok (.done _ _, p, _) => some (p.currentRule.map fun r =>
      (r.targets.map (fun b => textOf (Block.ltext b)), r.deps.map (fun b => textOf (Block.ltext b)), r.recipe.length))
  | _ => none

private theorem ruleIn_of {s : Str} {n m : Nat} {x : Option (List Str × List Str × Nat)}
    (h : ruleIn (parseLine noFs (recF noFs n) PState.new St.init (textBlock .synthetic s).span) = some x) (hm : n ≤ m) :
    ruleIn (parseLine noFs (recF noFs m) PState.new St.init (textBlock .synthetic s).span) = some x := by
  cases he : parseLine noFs (recF noFs n) PState.new St.init (textBlock .synthetic s).span with
  | ok a => rw [(parseLine_le (recF_le noFs hm) noFs _ _ _).ok he, ← he]; exact h
  | panic e => rw [he] at h; cases h
  | fuel => rw [he] at h; cases h

/-- `a : b\;c d` is read as the rule `a: b` with the command `c d`. -/
theorem C76_refuted : ¬ C76_full := by
  intro h
  have hr : Ready _ _ _ _ _ PState.new St.init := ready_locate (l := .synthetic) (line := "a : b\\;c d".toList)
    (rest := []) (by unfold AsciiS; decide) (by decide) (by decide) (by simp) (by decide) rfl St.init_wf
  have e : writeRule [(locate .synthetic ['a'], .synthetic)] .synthetic
      [(locate .synthetic "b;c".toList, .synthetic), (locate .synthetic ['d'], .synthetic)] =
      locate .synthetic "a : b\\;c d".toList := by decide
  obtain ⟨r, ⟨N, j, _, h1⟩, h2, h3, _⟩ := h noFs _ _ _ _ [(locate .synthetic ['a'], .synthetic)]
    [(locate .synthetic "b;c".toList, .synthetic), (locate .synthetic ['d'], .synthetic)] .synthetic PState.new St.init
    (by rw [e]; exact hr) (by rw [e]; exact physical_locate (by decide) (by simp) (by decide)) (by simp)
    (by unfold WordChar; decide) (by rw [e, textOf_locate]; decide)
    (by rw [e]; exact not_condLike (by simp) (by unfold condWords; decide))
    (by rw [e]; exact not_varLike (by rw [textOf_locate]; decide) (by rw [textOf_locate]; unfold varWords; decide))
    (by rw [e]; rintro ⟨w, hw, hp⟩; rw [textOf_locate] at hp; revert w; unfold directiveWords; decide)
    (not_varLike (by decide) (by unfold varWords; decide))
  have h4 := ruleIn_of (s := "a : b\\;c d\n".toList) (n := 8) (m := N + 8)
    (x := some ([['a']], [['b']], 1)) (by decide +kernel) (by omega)
  have h5 : ruleIn (parseLine noFs (recF noFs (N + 8)) PState.new St.init
      (textBlock .synthetic "a : b\\;c d\n".toList).span) =
      some (some (r.targets.map (fun b => textOf (Block.ltext b)), r.deps.map (fun b => textOf (Block.ltext b)),
        r.recipe.length)) := by
    have := h1 (N + 8) (by omega)
    rw [show (textBlock .synthetic ("a : b\\;c d".toList ++ '\n' :: [])) = textBlock .synthetic "a : b\\;c d\n".toList from rfl]
      at this
    rw [this]
    rfl
  rw [h4] at h5
  simp only [Option.some.injEq, Prod.mk.injEq] at h5
  have h6 : r.deps.map (fun b => textOf (Block.ltext b)) = (r.deps.map Block.ltext).map textOf := by rw [List.map_map]; rfl
  rw [h6, h3] at h5
  exact absurd h5.2.1 (by decide)

/-- `a\;b: c` gives no rule at all, and no error. -/
theorem C76_escaped_semicolon_lost (n : Nat) : ruleIn (parseLine noFs (recF noFs (n + 8)) PState.new St.init
    (textBlock .synthetic "a\\;b: c\n".toList).span) = some none :=
  ruleIn_of (n := 8) (by decide +kernel) (by omega)

/-- In `a\:` at the end of a line the colon counts although it is escaped, and the target gets a space at its end. -/
theorem C76_escaped_colon_at_end (n : Nat) : ruleIn (parseLine noFs (recF noFs (n + 8)) PState.new St.init
    (textBlock .synthetic "a\\:\n".toList).span) = some (some ([['a', ' ']], [], 0)) :=
  ruleIn_of (n := 8) (by decide +kernel) (by omega)

/-! ### Examples -/

private theorem texts {bs : List Block} {ns : List (List LChar)} {xs : List Str} (h : bs.map Block.ltext = ns)
    (hx : ns.map textOf = xs) : bs.map (fun b => textOf (Block.ltext b)) = xs := by
  rw [← hx, ← h, List.map_map]
  rfl

/-- `a\:b : c\:d e`: the target is `a:b`, the dependencies are `c:d` and `e`. -/
example (fs : Fs) : ∃ P rest r, P = textBlock .synthetic "a\\:b : c\\:d e\n".toList ∧
    LineGives fs P P.span PState.new St.init rest { PState.new with currentRule := some r } St.init ∧
    r.targets.map (fun b => textOf (Block.ltext b)) = ["a:b".toList] ∧
    r.deps.map (fun b => textOf (Block.ltext b)) = ["c:d".toList, ['e']] ∧ r.ruleType = .standard := by
  have hr : Ready _ _ _ _ _ PState.new St.init := ready_locate (l := .synthetic) (line := "a\\:b : c\\:d e".toList)
    (rest := []) (by unfold AsciiS; decide) (by decide) (by decide) (by simp) (by decide) rfl St.init_wf
  have e : writeRule [(locate .synthetic "a:b".toList, .synthetic)] .synthetic
      [(locate .synthetic "c:d".toList, .synthetic), (locate .synthetic ['e'], .synthetic)] =
      locate .synthetic "a\\:b : c\\:d e".toList := by decide
  obtain ⟨r, h1, h2, h3, _, h5⟩ := C76_written_rule_partial fs (ts := [(locate .synthetic "a:b".toList, .synthetic)])
    (ds := [(locate .synthetic "c:d".toList, .synthetic), (locate .synthetic ['e'], .synthetic)]) (colon := .synthetic)
    (by rw [e]; exact hr) (by rw [e]; exact physical_locate (by decide) (by simp) (by decide)) (by simp)
    (by unfold WordChar; decide) (by rw [e, textOf_locate]; decide)
    (by rw [e]; exact not_condLike (by simp) (by unfold condWords; decide))
    (by rw [e]; exact not_varLike (by rw [textOf_locate]; decide) (by rw [textOf_locate]; unfold varWords; decide))
    (by rw [e]; rintro ⟨w, hw, hp⟩; rw [textOf_locate] at hp; revert w; unfold directiveWords; decide)
    (not_varLike (by decide) (by unfold varWords; decide))
  exact ⟨_, _, r, rfl, h1, texts h2 (by decide), texts h3 (by decide), h5⟩

/-- `a\ b x\y:: c\ d; e`: the targets are `a b` and `x\y`, the dependency is `c d`, and there is a command. -/
example (fs : Fs) : ∃ P rest r, P = textBlock .synthetic "a\\ b x\\y:: c\\ d; e\n".toList ∧
    LineGives fs P P.span PState.new St.init rest { PState.new with currentRule := some r } St.init ∧
    r.targets.map (fun b => textOf (Block.ltext b)) = ["a b".toList, "x\\y".toList] ∧
    r.deps.map (fun b => textOf (Block.ltext b)) = ["c d".toList] ∧ r.recipe.length = 1 ∧ r.ruleType = .doubleColon := by
  have hr : Ready _ _ _ _ _ PState.new St.init := ready_locate (l := .synthetic) (line := "a\\ b x\\y:: c\\ d; e".toList)
    (rest := []) (by unfold AsciiS; decide) (by decide) (by decide) (by simp) (by decide) rfl St.init_wf
  have wc : ∀ c ∈ "abxycd".toList, WordChar c := by unfold WordChar; decide
  have bl : Blanks [(' ', Location.synthetic)] := by unfold Blanks; simp
  have word : ∀ c ∈ "abxycd".toList, EscapedWord [(c, .synthetic)] [(c, .synthetic)] := fun c hc => .char (wc c hc) .nil
  have hT : EscapedTargets (locate .synthetic "a\\ b x\\y".toList)
      [locate .synthetic "a b".toList, locate .synthetic "x\\y".toList] :=
    .blank (word 'a' (by decide)) bl (by simp) (.more (word 'b' (by decide)) (by simp) bl (by simp)
      (.last (gap := []) (.char (wc 'x' (by decide)) (.slash (wc 'y' (by decide)) (word 'y' (by decide)))) (by simp)
        (by intro x hx; cases hx)))
  have hD : NamesIn (separates [':']) (lastName (separates [':'])) (locate .synthetic " c\\ d".toList)
      [locate .synthetic "c d".toList] :=
    NamesIn.next (x := (' ', .synthetic)) (rest := locate .synthetic "c\\ d".toList) (by decide) (NamesIn.rest (by decide))
  obtain ⟨r, h1, h2, h3, h4, h5⟩ := C76_escapes_partial fs hr (physical_locate (by decide) (by simp) (by decide))
    (by rw [textOf_locate]; decide)
    (.command (ts := locate .synthetic "a\\ b x\\y".toList) (cs := locate .synthetic "::".toList)
      (ds := locate .synthetic " c\\ d".toList) (cmd := locate .synthetic " e".toList) (l := .synthetic) (double := true)
      rfl (by unfold depStops; decide) (by decide) (by decide) (by decide)) hT hD
    (.some (reads_text (free_locate (by decide))))
    (not_condLike (by simp) (by unfold condWords; decide))
    (not_varLike (by rw [textOf_locate]; decide) (by rw [textOf_locate]; unfold varWords; decide))
    (by rintro ⟨w, hw, hp⟩; rw [textOf_locate] at hp; revert w; unfold directiveWords; decide)
    (not_varLike (by decide) (by unfold varWords; decide))
  refine ⟨_, _, r, rfl, h1, texts h2 (by decide), texts h3 (by decide), ?_, h5⟩
  have := congrArg List.length h4
  simpa using this

end Hastur
