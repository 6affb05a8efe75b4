import Verif.Proofs.Junk
/-
Lemmas: rule lines made of plain words, single rule lines, and texts given as strings.
-/
namespace Hastur

open Res Span

variable {P : Block} {t : List LChar} {i : Span}

theorem segment_word {w : List LChar} (h : ∀ x ∈ w, WordChar x.1) : Segment w := by
  induction w with
  | nil => exact .nil
  | cons x w ih => exact .char (h x (by simp)) (ih fun y hy => h y (by simp [hy]))

theorem wordChar_blank {c : Char} (h : c = ' ' ∨ c = '\t') : isWhitespace c = true := by
  rcases h with rfl | rfl <;> decide

theorem fieldsFrom_word (sep : Char → Bool) {w : List LChar} (h : ∀ x ∈ w, sep x.1 = false) :
    ∀ cur u, fieldsFrom sep cur (w ++ u) = fieldsFrom sep (cur ++ w) u := by
  induction w with
  | nil => simp
  | cons x w ih =>
    intro cur u
    rw [List.cons_append, fieldsFrom, if_neg (by rw [h x (by simp)]; simp), ih (fun y hy => h y (by simp [hy]))]
    simp

theorem fieldsFrom_gap (sep : Char → Bool) {g : List LChar} (h : ∀ x ∈ g, sep x.1 = true) :
    ∀ u, fieldsFrom sep [] (g ++ u) = fieldsFrom sep [] u := by
  induction g with
  | nil => simp
  | cons x g ih =>
    intro u
    rw [List.cons_append, fieldsFrom, if_pos (h x (by simp))]
    simpa using ih (fun y hy => h y (by simp [hy])) u

theorem wordsOf_list {ws : List (List LChar)} (h : WordList t ws) : wordsOf t = ws := by
  induction h with
  | @last w gap hne hw hg =>
    unfold wordsOf fields
    have : fieldsFrom isWhitespace [] (w ++ gap) = fieldsFrom isWhitespace w gap := by
      rw [fieldsFrom_word _ fun x hx => (hw x hx).1]; rfl
    rw [this]
    cases gap with
    | nil => simp [fieldsFrom, hne]
    | cons x gap =>
      rw [fieldsFrom, if_pos (wordChar_blank (hg x (by simp))), if_neg hne]
      have := fieldsFrom_gap isWhitespace (fun y hy => wordChar_blank (hg y (List.mem_cons_of_mem _ hy))) []
      rw [List.append_nil] at this
      rw [this]
      simp [fieldsFrom]
  | @more w gap t ws hne hw hg hgne _ ih =>
    obtain ⟨x, gap, rfl⟩ := List.exists_cons_of_ne_nil hgne
    unfold wordsOf fields at ih ⊢
    rw [fieldsFrom_word _ (fun x hx => (hw x hx).1), List.nil_append, List.cons_append, fieldsFrom,
      if_pos (wordChar_blank (hg x (by simp))), if_neg hne,
      fieldsFrom_gap isWhitespace (fun y hy => wordChar_blank (hg y (List.mem_cons_of_mem _ hy))), ih]

theorem wordsOf_list0 {ws : List (List LChar)} (h : WordList0 t ws) : wordsOf t = ws := by
  cases h with
  | none hg =>
    have := fieldsFrom_gap isWhitespace (fun y hy => wordChar_blank (hg y hy)) []
    rw [List.append_nil] at this
    unfold wordsOf fields
    rw [this]
    simp [fieldsFrom]
  | some hg hw =>
    have := wordsOf_list hw
    unfold wordsOf fields at this ⊢
    rw [fieldsFrom_gap isWhitespace (fun y hy => wordChar_blank (hg y hy)), this]

theorem WordList.names {ws : List (List LChar)} (h : WordList t ws) :
    ∀ x ∈ t, WordChar x.1 ∨ x.1 = ' ' ∨ x.1 = '\t' := by
  induction h with
  | last _ hw hg =>
    intro x hx
    rcases List.mem_append.mp hx with hx | hx
    · exact .inl (hw x hx)
    · exact .inr (hg x hx)
  | more _ hw hg _ _ ih =>
    intro x hx
    rcases List.mem_append.mp hx with hx | hx
    · exact .inl (hw x hx)
    rcases List.mem_append.mp hx with hx | hx
    · exact .inr (hg x hx)
    · exact ih x hx

theorem WordList0.names {ws : List (List LChar)} (h : WordList0 t ws) :
    ∀ x ∈ t, WordChar x.1 ∨ x.1 = ' ' ∨ x.1 = '\t' := by
  cases h with
  | none hg => exact fun x hx => .inr (hg x hx)
  | some hg hw =>
    intro x hx
    rcases List.mem_append.mp hx with hx | hx
    · exact .inr (hg x hx)
    · exact hw.names x hx

theorem fileNames_of (h : ∀ x ∈ t, WordChar x.1 ∨ x.1 = ' ' ∨ x.1 = '\t') : FileNames t := fun x hx =>
  (h x hx).imp_right wordChar_blank

theorem free_of_names {c : Char} (h : ∀ x ∈ t, WordChar x.1 ∨ x.1 = ' ' ∨ x.1 = '\t')
    (hc : c ∈ [':', '=', ';', '#', '\\', '$']) : Free c t := by
  rintro x hx rfl
  rcases h x hx with h | h
  · have := wordChar_ne h
    simp only [List.mem_cons, List.not_mem_nil, or_false] at hc
    rcases hc with hc | hc | hc | hc | hc | hc <;> simp [hc] at this
  · revert hc
    rcases h with h | h <;> rw [h] <;> decide

theorem reads_names (h : ∀ x ∈ t, WordChar x.1 ∨ x.1 = ' ' ∨ x.1 = '\t') : Reads t (.ok (Expr.text t)) :=
  reads_text (free_of_names h (by decide))

/-- Plain targets. -/
theorem targets_words (env : Env) {ws : List (List LChar)} (h : WordList t ws) :
    ∃ tt, TargetsExpand env t tt [] ∧ wordsOf tt = ws := by
  have word : ∀ {w : List LChar}, (∀ x ∈ w, WordChar x.1) → Reads w (.ok (Expr.text w)) ∧ FileNames w := fun hw =>
    ⟨reads_names fun x hx => .inl (hw x hx), fun x hx => .inl (hw x hx)⟩
  induction h with
  | @last w gap hne hw hg =>
    refine ⟨w, .last (segment_word hw) hne hg (word hw).1 (Expands.text env w) (word hw).2 hne, ?_⟩
    have := wordsOf_list (.last hne hw (gap := []) (by intro x hx; cases hx))
    rwa [List.append_nil] at this
  | @more w gap t ws hne hw hg hgne _ ih =>
    obtain ⟨tt, h1, h2⟩ := ih
    refine ⟨_, .more (segment_word hw) hne hg hgne (word hw).1 (Expands.text env w) (word hw).2 hne h1, ?_⟩
    unfold wordsOf fields at h2 ⊢
    rw [fieldsFrom_word _ (fun x hx => (hw x hx).1), List.nil_append, fieldsFrom,
      if_pos (by decide), if_neg hne, h2]

theorem Texts.map_ltext {ts : List (List LChar)} {bs : List Block} (h : Texts ts bs) : bs.map Block.ltext = ts := by
  induction h with
  | nil => rfl
  | cons h _ ih => rw [List.map_cons, ih, h.ltext]

/-- A rule line, outside rules. -/
theorem parseLine_rule (fs : Fs) {line rest ts after ds tt dt : List LChar} {double : Bool} {p : PState} {st : St}
    {command : Option (List LChar)} {vs us : List Str} {des : List Expr} {recipe : List (List Expr)}
    (h : Ready P i t line rest p st) (h3 : Physical t line rest)
    (h4 : (textOf line).head? ≠ some st.commandChar) (h5 : ¬ CondLike line) (h6 : ¬ VarLike line) (h7 : ¬ DirectiveLike line)
    (h8 : RuleText line ts double after ds command) (h9 : ¬ VarLike (after.dropWhile lblank))
    (h10 : TargetsExpand st.env ts tt vs) (h11 : Reads ds (.ok des)) (h12 : Expands st.env des dt us)
    (h13 : FileNames dt) (h14 : CommandReads command recipe) :
    ∃ r : ProtoRule, LineGives fs P i p st rest { p with currentRule := some r } (st.interned (vs ++ us)) ∧
      r.targets.map Block.ltext = wordsOf tt ∧ r.deps.map Block.ltext = wordsOf dt ∧ r.recipe.map Ast.flat = recipe ∧
      r.ruleType = (if double then .doubleColon else .standard) := by
  obtain ⟨j, b, e1, e2, e3, e4⟩ := makefileLine_physical h.at_ h3 h.comment
  have hat := e3.at
  have hbm := e3.mono h.pieces h.mono
  have hdrop : line.dropWhile lblank = line := by
    cases h3 with
    | mk _ _ hh _ _ => exact dropWhile_solid fun x hx => by simpa using fun hb => hh x hx (lblank_iff.mp hb)
  have hf := h.comment
  have hnl : Free '\n' line ∧ trailingSlashes (textOf line) % 2 = 0 ∧ Free '#' line := by
    cases h3 with
    | mk _ hl _ hl' _ => exact ⟨hl, hl', (Free.append.mp (Free.append.mp hf).2).1⟩
  have hne : line ≠ [] := h8.ne_nil
  have hlen : b.len ≠ 0 := by
    have := hat.length
    have e : b.span.length = b.len := rfl
    rw [← e, this]
    simpa using hne
  obtain ⟨N, rest', targets, deps, a, f1, f2, f3, f4⟩ := parseTargetLine_at fs (.inl ⟨e4, hbm⟩) hat hnl.1 hnl.2.2 hnl.2.1 h8
    h10 h9 h.wf h11 h12 h13 h14
  have hrecipe : ∃ rs, handleTargetAction p (.newRule targets deps double a) = .ok { p with
        currentRule := some ⟨targets, deps, rs, if double then .doubleColon else .standard⟩ } ∧
      rs.map Ast.flat = recipe := by
    cases f3 with
    | none => exact ⟨[], rfl, rfl⟩
    | some _ => exact ⟨[_], rfl, rfl⟩
  obtain ⟨rs, k1, k2⟩ := hrecipe
  refine ⟨⟨targets, deps, rs, if double then .doubleColon else .standard⟩, ⟨N, j, e2, fun n hn => ?_⟩,
    f1.map_ltext, f2.map_ltext, k2, rfl⟩
  rw [parseLine_collapsed fs _ h.at_ hf h.define h.command (.inl h.rule)]
  obtain ⟨k, hv⟩ := parseVariableLine_none (recF fs n) st hat (by rw [hdrop]; exact h6)
  unfold parseCollapsed
  simp only [e1, ok_bind, if_neg hlen, parseConditionalLine_none hat (by rw [hdrop]; exact h5),
    if_neg (show ¬ p.ignoring = true by rw [h.active]; decide)]
  unfold parseStatement
  have hcl : p.closeRule (st.interned (vs ++ us)) = .ok (p, st.interned (vs ++ us)) := by
    simp [PState.closeRule, h.rule]
  simp only [hv, ok_bind, parseDirectiveLine_none hat h7, Nom.firstChar_at hat, if_neg h4, f4 n hn, hcl, k1]
  rfl

/-- A line of words without a colon, outside rules. -/
theorem parseLine_words (fs : Fs) {line rest tt : List LChar} {p : PState} {st : St} {vs : List Str}
    (h : Ready P i t line rest p st) (h3 : Physical t line rest)
    (h4 : (textOf line).head? ≠ some st.commandChar) (h5 : ¬ CondLike line) (h6 : ¬ VarLike line) (h7 : ¬ DirectiveLike line)
    (h10 : TargetsExpand st.env line tt vs) : LineGives fs P i p st rest p (st.interned vs) := by
  obtain ⟨j, b, e1, e2, e3, e4⟩ := makefileLine_physical h.at_ h3 h.comment
  have hat := e3.at
  have hbm := e3.mono h.pieces h.mono
  have hdrop : line.dropWhile lblank = line := by
    cases h3 with
    | mk _ _ hh _ _ => exact dropWhile_solid fun x hx => by simpa using fun hb => hh x hx (lblank_iff.mp hb)
  have hf := h.comment
  have hnl : Free '\n' line ∧ trailingSlashes (textOf line) % 2 = 0 ∧ Free '#' line := by
    cases h3 with
    | mk _ hl _ hl' _ => exact ⟨hl, hl', (Free.append.mp (Free.append.mp hf).2).1⟩
  have hne : line ≠ [] := by
    generalize line = l at h10
    cases h10 with
    | last _ hn => simp [hn]
    | more _ hn => simp [hn]
  have hlen : b.len ≠ 0 := by
    have := hat.length
    have e : b.span.length = b.len := rfl
    rw [← e, this]
    simpa using hne
  obtain ⟨N, rest', f4⟩ := parseTargetLine_words fs e4 hbm hat hnl.1 hnl.2.2 hnl.2.1 h10 h.wf
  refine ⟨N, j, e2, fun n hn => ?_⟩
  rw [parseLine_collapsed fs _ h.at_ hf h.define h.command (.inl h.rule)]
  obtain ⟨k, hv⟩ := parseVariableLine_none (recF fs n) st hat (by rw [hdrop]; exact h6)
  unfold parseCollapsed
  simp only [e1, ok_bind, if_neg hlen, parseConditionalLine_none hat (by rw [hdrop]; exact h5),
    if_neg (show ¬ p.ignoring = true by rw [h.active]; decide)]
  unfold parseStatement
  have hcl : p.closeRule (st.interned vs) = .ok (p, st.interned vs) := by
    simp [PState.closeRule, h.rule]
  simp only [hv, ok_bind, parseDirectiveLine_none hat h7, Nom.firstChar_at hat, if_neg h4, f4 n hn, hcl, handleTargetAction]
  rfl

/-- A line that begins with the recipe character, outside rules, if that character is not a blank. -/
theorem parseLine_stray (fs : Fs) (r : Rec) {line rest : List LChar} {p : PState} {st : St}
    (h : Ready P i t line rest p st) (h3 : Physical t line rest)
    (h4 : (textOf line).head? = some st.commandChar) (h5 : ¬ CondLike line) (h6 : ¬ VarLike line) (h7 : ¬ DirectiveLike line) :
    parseLine fs r p st i = .ok (.err (.failure (.custom .recipeExpected)), p, st) := by
  obtain ⟨j, b, e1, e2, e3, e4⟩ := makefileLine_physical h.at_ h3 h.comment
  have hat := e3.at
  have hdrop : line.dropWhile lblank = line := by
    cases h3 with
    | mk _ _ hh _ _ => exact dropWhile_solid fun x hx => by simpa using fun hb => hh x hx (lblank_iff.mp hb)
  have hne : line ≠ [] := by rintro rfl; cases h4
  have hlen : b.len ≠ 0 := by
    have := hat.length
    have e : b.span.length = b.len := rfl
    rw [← e, this]
    simpa using hne
  rw [parseLine_collapsed fs _ h.at_ h.comment h.define h.command (.inl h.rule)]
  obtain ⟨k, hv⟩ := parseVariableLine_none r st hat (by rw [hdrop]; exact h6)
  unfold parseCollapsed
  simp only [e1, ok_bind, if_neg hlen, parseConditionalLine_none hat (by rw [hdrop]; exact h5),
    if_neg (show ¬ p.ignoring = true by rw [h.active]; decide)]
  unfold parseStatement
  simp only [hv, ok_bind, parseDirectiveLine_none hat h7, Nom.firstChar_at hat, if_pos h4]
  rfl

/-! ### Texts given as strings -/

theorem physical_locate {l : Location} {line rest : Str} (h1 : '\n' ∉ line)
    (h2 : ∀ c, line.head? = some c → ¬ (c = ' ' ∨ c = '\t')) (h3 : trailingSlashes line % 2 = 0) :
    Physical (locate l (line ++ '\n' :: rest)) (locate l line) (locate ((l.after line).after ['\n']) rest) := by
  have := Physical.mk (lead := []) (line := locate l line) (tail := locate (l.after line) ('\n' :: rest))
    (rest := locate ((l.after line).after ['\n']) rest) (by intro x hx; cases hx) (free_locate h1)
    (head_locate h2) (by rw [textOf_locate]; exact h3) (.inr ⟨_, rfl⟩)
  rw [locate_append]
  exact this

/-- The words with which a variable definition may begin. -/
def varWords : List Str :=
  ["define".toList, "undefine".toList, "export".toList, "override".toList, "private".toList]

theorem not_varLike (h1 : '=' ∉ textOf t) (h2 : ∀ w ∈ varWords, ¬ w <+: (textOf t).map lower) : ¬ VarLike t := by
  intro h
  cases h with
  | assign ha =>
    cases ha with
    | mk name gap op gap' value ty _ _ hop =>
      refine h1 ?_
      simp only [textOf_append, List.mem_append]
      right; right; left
      generalize textOf op = s at hop
      cases hop <;> simp
  | define h => exact h2 _ (by simp [varWords]) h
  | undefine h => exact h2 _ (by simp [varWords]) h
  | @modifier kw gap line hk _ _ _ =>
    refine h2 ((textOf kw).map lower) ?_ ?_
    · simp only [varWords, List.mem_cons, List.not_mem_nil, or_false] at hk ⊢
      rcases hk with h | h | h <;> simp [h]
    · rw [textOf_append, List.map_append]
      exact List.prefix_append _ _

theorem not_condLike {s : Str} {l : Location} (h : ∀ c, s.head? = some c → ¬ (c = ' ' ∨ c = '\t'))
    (hc : ∀ w ∈ condWords, ¬ w <+: s.map lower) : ¬ CondLike (locate l s) := by
  have := not_condLike_locate (l := l) h hc
  rwa [dropWhile_locate h] at this

theorem wordList_one {w : List LChar} (h : w ≠ []) (hw : ∀ x ∈ w, WordChar x.1) : WordList w [w] := by
  have := WordList.last h hw (gap := []) (by intro x hx; cases hx)
  rwa [List.append_nil] at this

theorem mem_locate {l : Location} {s : Str} {q : Char → Prop} (h : ∀ c ∈ s, q c) : ∀ x ∈ locate l s, q x.1 := by
  intro x hx
  refine h x.1 ?_
  have := List.mem_map_of_mem (f := Prod.fst) hx
  rwa [locate_fst] at this

end Hastur
