import Verif.Proofs.Keywords
import Verif.Props.Rules
/-
C53: names that begin with a keyword.
-/
namespace Hastur

open Res

private def noFs : Fs := fun _ => .missing

/-- The full claim: an ordinary name that is not a keyword itself can be assigned to, and can be the target of a rule. -/
def C53_full : Prop :=
  (∀ (fs : Fs) (P : Block) (i : Span) (t line rest name value : List LChar) (p : PState) (st : St),
    Ready P i t line rest p st → IdentName name → (textOf name).map lower ∉ keywords →
    AssignText line name .recursive value → Free '$' value →
    ∃ st' a, LineGives fs P i p st rest p st' ∧ Assigned st st' (textOf name) ⟨a, .recursive, .file⟩ ∧
      a.flat = Expr.text value) ∧
  (∀ (fs : Fs) (P : Block) (i : Span) (t line rest name cs ds : List LChar) (us : List (List LChar)) (p : PState) (st : St),
    Ready P i t line rest p st → Physical t line rest → (textOf line).head? ≠ some st.commandChar →
    IdentName name → (textOf name).map lower ∉ keywords → line = name ++ (cs ++ ds) → textOf cs = ":".toList →
    WordList0 ds us → ¬ VarLike (ds.dropWhile lblank) →
    ∃ r : ProtoRule, LineGives fs P i p st rest { p with currentRule := some r } st ∧ r.targets.map Block.ltext = [name] ∧
      r.deps.map Block.ltext = us ∧ r.recipe = [] ∧ r.ruleType = .standard)

/-- C53 for variables: every ordinary name can be assigned to, unless it begins with `ifdef`, `ifndef`, `else` or `endif`.
In particular names that begin with `define`, `export`, `include`, `ifeq` and so on are treated like any other. -/
theorem C53_variables_partial (fs : Fs) {P : Block} {i : Span} {t line rest name value : List LChar} {p : PState} {st : St}
    (h : Ready P i t line rest p st) (hn : IdentName name) (hk : (textOf name).map lower ∉ keywords)
    (ha : AssignText line name .recursive value) (hv : Free '$' value)
    (hg : ∀ w ∈ greedyConds, ¬ w <+: (textOf name).map lower) :
    ∃ st' a, LineGives fs P i p st rest p st' ∧ Assigned st st' (textOf name) ⟨a, .recursive, .file⟩ ∧
      a.flat = Expr.text value := by
  obtain ⟨x, u, e, hx⟩ := ha.after_name
  have hc : ¬ CondLike (line.dropWhile lblank) := by
    rw [e, dropBlanks_name hn]
    exact not_condLike_name hn hx hk hg
  have hfree : Free '$' name := by
    intro y hy hd
    have := (hn.2 y hy).facts.2.1
    rw [hd] at this
    revert this
    unfold WordChar
    decide
  obtain ⟨N, j, st', pv, hj, _, h2, h3, h4⟩ := parseLine_assign_plain fs h.pieces h.mono h.at_ h.logical h.comment
    h.define h.active h.command h.rule ha hc (reads_text hfree) (reads_text hv) h.wf (Expands.text _ name) (by simp)
  rw [trim_name hn] at h2 h3
  generalize hes : Expr.text value = es at h3
  cases h3
  exact ⟨st', _, ⟨N, j, hj, h4⟩, h2, rfl⟩

/-- What happens to the other names: a line that begins with `ifdef`, `ifndef`, `else` or `endif`, followed directly by
more characters of a name, always is an error or aborts. -/
theorem C53_conditional_keywords_fail (fs : Fs) {P : Block} {i : Span} {t line rest w u : List LChar} {x : LChar} {p : PState}
    {st : St} (h : Ready P i t line rest p st) (e : line = w ++ x :: u) (hw : (textOf w).map lower ∈ greedyConds)
    (hx : IdentChar x.1) : ¬ ∃ rest p' st', LineGives fs P i p st rest p' st' := by
  rintro ⟨rest', p', st', N, j, _, h1⟩
  exact parseLine_greedy fs h.toAtLine (.inl h.rule) e hw hx _ j p' st' (h1 N (Nat.le_refl _))

/-- C53 for targets: every ordinary name can be the target of a rule, unless it begins with a keyword other than `ifeq`,
`ifneq` and `endef` (or, followed by an ordinary name, `override` and `private`). -/
theorem C53_targets_partial (fs : Fs) {P : Block} {i : Span} {t line rest name cs ds : List LChar} {us : List (List LChar)}
    {p : PState} {st : St} (h : Ready P i t line rest p st) (hl : Physical t line rest)
    (hcc : (textOf line).head? ≠ some st.commandChar) (hn : IdentName name) (hk : (textOf name).map lower ∉ keywords)
    (e : line = name ++ (cs ++ ds)) (hcs : textOf cs = ":".toList) (hds : WordList0 ds us)
    (hdv : ¬ VarLike (ds.dropWhile lblank)) (hp : PlainStart ((textOf name).map lower)) :
    ∃ r : ProtoRule, LineGives fs P i p st rest { p with currentRule := some r } st ∧ r.targets.map Block.ltext = [name] ∧
      r.deps.map Block.ltext = us ∧ r.recipe = [] ∧ r.ruleType = .standard := by
  obtain ⟨l, rfl⟩ : ∃ l, cs = [(':', l)] := by
    cases cs with
    | nil => cases hcs
    | cons c cs =>
      cases cs with
      | nil =>
        obtain ⟨c, l⟩ := c
        have : c = ':' := (List.cons.inj hcs).1
        exact ⟨l, by rw [this]⟩
      | cons => have := congrArg List.length hcs; simp [textOf] at this
  subst e
  have hx : KeyChar (lower (':', l).1) = false := rfl
  have hnp := hp.not_prefix
  refine C47_rule_line_partial fs h hl hcc rfl (wordList_one hn.1 fun x hx => (hn.2 x hx).facts.2.1) (double := false) hcs hds
    (not_condLike_name hn hx hk fun w hw => hnp w (by simp [hw])) ?_ ?_ hdv
  · refine not_varLike_name hp (u := ((':' : Char) :: textOf ds).map lower) ?_ ?_ ?_ ?_ ?_
    · rw [textOf_append, List.map_append]; rfl
    · simpa [textOf] using hn.1
    · intro c hc
      simp only [textOf, List.map_map, List.mem_map, Function.comp] at hc
      obtain ⟨x, hx, rfl⟩ := hc
      exact IdentChar.lower_blank (hn.2 x hx)
    · intro c hc; cases hc; rfl
    · intro hm
      rw [textOf_append, List.mem_append] at hm
      rcases hm with hm | hm
      · obtain ⟨x, hx, hc⟩ := List.mem_map.mp hm
        have := (hn.2 x hx).facts.1.2.2.1
        exact this hc
      · rcases List.mem_cons.mp hm with hm | hm
        · cases hm
        · obtain ⟨x, hx, hc⟩ := List.mem_map.mp hm
          exact free_of_names hds.names (c := '=') (by decide) x hx hc
  · rintro ⟨w, hw, hpre⟩
    exact hnp w (by simp [hw]) (keyword_within (by simp [keywords, hw]) hx hpre)

/-- `elsewhere = 1` -/
theorem C53_refuted : ¬ C53_full := by
  intro h
  have hr : Ready _ _ _ _ _ PState.new St.init := ready_locate (l := .synthetic) (line := "elsewhere = 1".toList)
    (rest := []) (by unfold AsciiS; decide) (by decide) (by decide) (by simp) (by decide) rfl St.init_wf
  have ha := assignText_locate (l := .synthetic) (name := "elsewhere".toList) (gap := [' ']) (op := ['=']) (gap' := [' '])
    (value := ['1']) (ty := .recursive) (by unfold NameChar; decide) (by decide) .recursive (by decide) (by simp)
  obtain ⟨st', a, h1, _⟩ := h.1 noFs _ _ _ _ _ _ _ _ _ hr ⟨by decide, mem_locate (by unfold IdentChar; decide)⟩
    (by rw [textOf_locate]; unfold keywords condWords directiveWords; decide) ha (free_locate (by decide))
  refine C53_conditional_keywords_fail noFs hr (w := locate .synthetic "else".toList) (x := ('w', .synthetic))
    (u := locate .synthetic "here = 1".toList) rfl (by rw [textOf_locate]; unfold greedyConds; decide)
    (by unfold IdentChar; decide) ⟨_, _, _, h1⟩

/-- The names `exports` and `ifeqx` meet the hypotheses of `C53_variables_partial`. -/
example (fs : Fs) (s : Str) (h : s ∈ ["exports".toList, "ifeqx".toList, "define_".toList]) : ∃ P rest st' a,
    LineGives fs P P.span PState.new St.init rest PState.new st' ∧ Assigned St.init st' s ⟨a, .recursive, .file⟩ := by
  have h1 : ∀ c ∈ s, IdentChar c := by revert s; unfold IdentChar; decide
  have h2 : s.map lower ∉ keywords ∧ (∀ w ∈ greedyConds, ¬ w <+: s.map lower) ∧ s ≠ [] ∧ AsciiS (s ++ " = 1\n".toList) ∧
      '#' ∉ s ++ " = 1\n".toList ∧ '\n' ∉ s ++ " = 1".toList ∧ (∀ c ∈ s, NameChar c) ∧
      trailingSlashes (s ++ " = 1".toList) % 2 = 0 ∧
      (s ++ " = 1".toList).head? ≠ some ' ' ∧ (s ++ " = 1".toList).head? ≠ some '\t' := by
    revert s
    unfold keywords condWords directiveWords greedyConds AsciiS
    decide
  obtain ⟨g1, g2, g3, g4, g5, g6, g7, g8, g9, g10⟩ := h2
  have hr : Ready _ _ _ _ _ PState.new St.init := ready_locate (l := .synthetic) (line := s ++ " = 1".toList) (rest := [])
    (by simpa using g4) (by simpa using g5) g6
    (by rintro c hc (rfl | rfl)
        · exact g9 hc
        · exact g10 hc) g8 rfl St.init_wf
  have ha := assignText_locate (l := .synthetic) (name := s) (gap := [' ']) (op := ['=']) (gap' := [' '])
    (value := ['1']) (ty := .recursive) g7 (by decide) .recursive (by decide) (by simp)
  obtain ⟨st', a, k1, k2, _⟩ := C53_variables_partial fs hr ⟨by cases s <;> simp [locate] at g3 ⊢, mem_locate h1⟩
    (by rw [textOf_locate]; exact g1) ha (free_locate (by decide)) (by rw [textOf_locate]; exact g2)
  rw [textOf_locate] at k2
  exact ⟨_, _, st', a, k1, k2⟩

/-- The target `override.o` meets the hypotheses of `C53_targets_partial`. -/
example (fs : Fs) : ∃ P rest r, LineGives fs P P.span PState.new St.init rest { PState.new with currentRule := some r } St.init ∧
    r.targets.map Block.ltext = [locate .synthetic "override.o".toList] := by
  have hr : Ready _ _ _ _ _ PState.new St.init := ready_locate (l := .synthetic) (line := "override.o:".toList)
    (rest := []) (by unfold AsciiS; decide) (by decide) (by decide) (by simp) (by decide) rfl St.init_wf
  obtain ⟨r, h1, h2, _⟩ := C53_targets_partial fs hr (physical_locate (by decide) (by simp) (by decide))
    (by rw [textOf_locate]; decide) (name := locate .synthetic "override.o".toList) (cs := locate .synthetic ":".toList)
    (ds := []) (us := []) ⟨by decide, mem_locate (by unfold IdentChar; decide)⟩
    (by rw [textOf_locate]; unfold keywords condWords directiveWords; decide) rfl rfl (.none (by intro x hx; cases hx))
    (not_varLike (by decide) (by unfold varWords; decide))
    (by
      rw [textOf_locate]
      exact .modifier (kw := "override".toList) (s := ".o".toList) (by decide) (by decide)
        (.plain (by unfold greedyConds directiveWords; decide)))
  exact ⟨_, _, r, h1, h2⟩

end Hastur
