import Verif.Proofs.EscapedWords
import Verif.Proofs.RuleDemo
/-
Lemmas: rule lines with backslashes.
-/
namespace Hastur

open Res Span

variable {P : Block} {t : List LChar} {i : Span}

/-! ### The names -/

/-- Text without stop characters stands for itself. -/
theorem unquote_text (stop : Char → Bool) {n v : List LChar} (hs : ∀ y ∈ n, stop y.1 = false) :
    ∀ run, (n = [] → run = []) → (∀ y, n.getLast? = some y → y.1 ≠ '\\') →
      unquote stop run (n ++ v) = (run ++ (n ++ (unquote stop [] v).1), (unquote stop [] v).2) := by
  induction n with
  | nil => intro run hr _; rw [hr rfl]; rfl
  | cons y n ih =>
    intro run _ hl
    have ih := ih fun z hz => hs z (List.mem_cons_of_mem _ hz)
    have hl' : ∀ z, n.getLast? = some z → z.1 ≠ '\\' := by
      intro z hz
      cases n with
      | nil => cases hz
      | cons w n => exact hl z (by rw [List.getLast?_cons_cons]; exact hz)
    rw [List.cons_append, unquote, hs y List.mem_cons_self]
    split
    · rename_i hy
      rw [ih (run ++ [y]) (by rintro rfl; exact absurd hy (hl y rfl)) hl']
      simp
    · rw [ih [] (fun _ => rfl) hl']
      simp

/-- The first name of a list begins at its beginning, and is `m`. -/
def FirstName (stop : Char → Bool) (t m : List LChar) (ns : List (List LChar)) : Prop :=
  (unquote stop [] t).1 = m ∧ m ≠ [] ∧ (((unquote stop [] t).2 = none ∧ ns = []) ∨
    ∃ x rest, (unquote stop [] t).2 = some (x, rest) ∧ NamesIn stop (fun s => (unquote stop [] s).1) rest ns)

theorem FirstName.names {stop : Char → Bool} {m : List LChar} {ns : List (List LChar)} (h : FirstName stop t m ns) :
    NamesIn stop (fun s => (unquote stop [] s).1) t (m :: ns) := by
  obtain ⟨h1, h2, ⟨h3, rfl⟩ | ⟨x, rest, h3, h4⟩⟩ := h
  · have := NamesIn.rest (last := fun s => (unquote stop [] s).1) h3
    simpa [h1, h2] using this
  · have := NamesIn.next (last := fun s => (unquote stop [] s).1) h3 h4
    simpa [h1, h2] using this

theorem namesIn_empty (stop : Char → Bool) : NamesIn stop (fun s => (unquote stop [] s).1) [] [] := by
  have := NamesIn.rest (stop := stop) (last := fun s => (unquote stop [] s).1) (t := []) rfl
  simpa [unquote] using this

theorem EscapedWord.not_sep {w n : List LChar} (h : EscapedWord w n) : ∀ y ∈ n, fileSep [] y.1 = false := by
  intro y hy
  rcases h.word_chars y hy with h | h | h
  · have h0 : y.1 ≠ Char.ofNat 0 := fun e => h.2 (by rw [e]; simp)
    simp [fileSep, h.1, h0]
  · rw [h]; decide
  · rw [h]; decide

theorem EscapedTargets.words {ns : List (List LChar)} (h : EscapedTargets t ns) :
    ∃ b m ms, TargetWords t b ∧ ns = m :: ms ∧ b ≠ [] ∧ (∀ y, b.getLast? = some y → y.1 ≠ '\\') ∧
      ∀ extra : List LChar, (extra = [] ∨ extra = [(' ', .synthetic)]) → FirstName (fileSep []) (b ++ extra) m ms := by
  induction h with
  | @last w n gap hw hne hg =>
    refine ⟨n, n, [], .last hw hne hg, rfl, hw.ne_nil hne, hw.last, ?_⟩
    rintro extra (rfl | rfl)
    · have := unquote_text (fileSep []) (v := []) hw.not_sep [] (fun _ => rfl) hw.last
      simp only [unquote] at this
      exact ⟨by rw [this]; simp, hw.ne_nil hne, .inl ⟨by rw [this], rfl⟩⟩
    · have := unquote_text (fileSep []) (v := [(' ', .synthetic)]) hw.not_sep [] (fun _ => rfl) hw.last
      have e : unquote (fileSep []) [] [(' ', .synthetic)] = ([], some ((' ', .synthetic), [])) := by decide
      rw [e] at this
      exact ⟨by rw [this]; simp, hw.ne_nil hne, .inr ⟨_, _, by rw [this], namesIn_empty _⟩⟩
  | @more w n gap t ns hw hne hg hgne _ ih =>
    obtain ⟨b, m, ms, h1, rfl, h2, h3, h4⟩ := ih
    refine ⟨_, n, m :: ms, .more (.inl ⟨hw, hne⟩) hg hgne h1, rfl, by simp, ?_, ?_⟩
    · intro y hy
      obtain ⟨z, b, rfl⟩ := List.exists_cons_of_ne_nil h2
      rw [List.getLast?_append, List.getLast?_cons_cons] at hy
      cases hz : (z :: b).getLast? with
      | none => simp at hz
      | some z' =>
        rw [hz] at hy
        simp only [Option.some_or, Option.some.injEq] at hy
        rw [← hy]; exact h3 z' hz
    · intro extra hx
      have := unquote_text (fileSep []) (v := (' ', .synthetic) :: (b ++ extra)) hw.not_sep [] (fun _ => rfl) hw.last
      have e : unquote (fileSep []) [] ((' ', .synthetic) :: (b ++ extra)) = ([], some ((' ', .synthetic), b ++ extra)) := by
        rw [unquote, if_neg (show ¬ ' ' = '\\' by decide), if_pos (show fileSep [] ' ' = true by decide)]
        rfl
      rw [e] at this
      have e' : n ++ (' ', .synthetic) :: b ++ extra = n ++ (' ', .synthetic) :: (b ++ extra) := by simp
      rw [e']
      exact ⟨by rw [this]; simp, hw.ne_nil hne, .inr ⟨_, _, by rw [this], (h4 extra hx).names⟩⟩
  | @blank w n gap t m l ns hw hg hgne _ ih =>
    obtain ⟨b, m', ms, h1, h0, h2, h3, h4⟩ := ih
    cases h0
    have e0 : w ++ (('\\', l) :: (gap ++ t)) = (w ++ [('\\', l)]) ++ (gap ++ t) := by simp
    rw [e0]
    refine ⟨_, _, ns, .more (.inr ⟨w, n, l, hw, rfl, rfl⟩) hg hgne h1, rfl, by simp, ?_, ?_⟩
    · intro y hy
      obtain ⟨z, b, rfl⟩ := List.exists_cons_of_ne_nil h2
      rw [List.getLast?_append, List.getLast?_cons_cons] at hy
      cases hz : (z :: b).getLast? with
      | none => simp at hz
      | some z' =>
        rw [hz] at hy
        simp only [Option.some_or, Option.some.injEq] at hy
        rw [← hy]; exact h3 z' hz
    · intro extra hx
      have := unquote_text (fileSep []) (v := ('\\', l) :: (' ', .synthetic) :: (b ++ extra)) hw.not_sep [] (fun _ => rfl) hw.last
      have e : unquote (fileSep []) [] (('\\', l) :: (' ', .synthetic) :: (b ++ extra)) =
          ((' ', .synthetic) :: (unquote (fileSep []) [] (b ++ extra)).1, (unquote (fileSep []) [] (b ++ extra)).2) := by
        rw [unquote, if_pos rfl, unquote, if_neg (show ¬ ' ' = '\\' by decide), if_pos (show fileSep [] ' ' = true by decide)]
        simp
      rw [e] at this
      obtain ⟨k1, k2, k3⟩ := h4 extra hx
      have e' : n ++ [('\\', l)] ++ (' ', .synthetic) :: b ++ extra = n ++ ('\\', l) :: (' ', .synthetic) :: (b ++ extra) := by simp
      rw [e']
      exact ⟨by rw [this, k1]; simp, by simp, by rw [this]; exact k3⟩

/-- The targets are read from the buffer. -/
theorem parseFileSeq_targets {b : Block} {m : List LChar} {ns : List (List LChar)} (h : Buf t b)
    (hl : ∀ y, t.getLast? = some y → y.1 ≠ '\\') (hn : FirstName (fileSep []) t m ns) :
    ∃ targets, parseFileSeq [] b.span = .ok targets ∧ Texts (m :: ns) targets := by
  obtain ⟨bs, ns', h1, h2, h3⟩ := parseFileSeq_escaped [] (by decide) h.at
  refine ⟨bs, h1, ?_⟩
  have h4 := h2.congr (last' := fun s => (unquote (fileSep []) [] s).1) fun a s hs =>
    lastName_of_even (trailing_suffix (a := a) (by
      rw [← hs]
      have := trailing_eq (a := t) (run := []) (fun y z e => hl z (by rw [e]; simp)) (by simp)
      simpa using this))
  rw [hn.names.unique h4]
  exact h3.texts

theorem hasSecondColon_unquote : ∀ (run : List LChar), (∀ x ∈ run, x.1 = '\\') → (unquote (· == ':') run t).2 = none →
    hasSecondColon run.length (textOf t) = false := by
  induction t with
  | nil => intro run _ _; rfl
  | cons x t ih =>
    intro run hr h
    rw [textOf_cons, hasSecondColon]
    rw [unquote] at h
    split
    · rename_i hx
      rw [if_pos hx] at h
      have := ih (run ++ [x]) (by
        intro y hy
        rcases List.mem_append.mp hy with hy | hy
        · exact hr y hy
        · rw [List.mem_singleton.mp hy]; exact hx) h
      simpa using this
    · rename_i hx
      rw [if_neg hx] at h
      by_cases hc : x.1 = ':'
      · simp only [hc, beq_self_eq_true, if_true] at h ⊢
        by_cases ho : run.length % 2 = 1
        · rw [if_pos ho] at h
          rw [if_neg (by omega)]
          exact ih [] (by simp) h
        · rw [if_neg ho] at h
          cases h
      · rw [if_neg hc]
        simp only [beq_iff_eq, if_neg hc] at h
        exact ih [] (by simp) h

/-! ### The line -/

theorem EscapedRuleText.ne_nil {line ts after ds : List LChar} {double : Bool} {command : Option (List LChar)}
    (h : EscapedRuleText line ts double after ds command) : line ≠ [] := by
  have : ∀ {cs : List LChar} {double : Bool}, textOf cs = (if double then "::".toList else ":".toList) → cs ≠ [] := by
    rintro _ double hc rfl
    cases double <;> cases hc
  cases h with
  | plain hc => simp [this hc]
  | command hc => simp

theorem parseTargetLine_escaped (fs : Fs) {L : Block} {line ts after ds : List LChar} {tns dns : List (List LChar)} {double : Bool}
    {command : Option (List LChar)} {st : St} (hL : L.content.length ≤ 1) (hm : Block.Mono L)
    (h : L.span.At L line) (hnl : Free '\n' line) (hcom : Free '#' line)
    (hev : trailingSlashes (textOf line) % 2 = 0) (hrule : EscapedRuleText line ts double after ds command)
    (hT : EscapedTargets ts tns) (hvar : ¬ VarLike (after.dropWhile lblank)) (hst : st.WF)
    (hdn : NamesIn (separates [':']) (lastName (separates [':'])) ds dns)
    {recipe : List (List Expr)} (hcr : CommandReads command recipe) :
    ∃ N rest targets deps a, Texts tns targets ∧ Texts dns deps ∧ FirstCommand recipe a ∧
      ∀ n, N ≤ n → parseTargetLine (recF fs n) L.span st =
        .ok (.done rest (.newRule targets deps double a), st) := by
  obtain ⟨tt, m0, ms, hTW, rfl, htne, htl, htn⟩ := hT.words
  -- the line once more
  obtain ⟨rest, L2, m1, _, m3, _⟩ := makefileLine_one (strip := false) h (grabSpec_eof hcom hnl) hev
  have hm2 : Block.Mono L2 := m3.mono hL hm
  have hat2 : L2.span.At L2 line := m3.at
  -- the semicolon
  have hsplit : ∃ cs postSemi b, textOf cs = (if double then "::".toList else ":".toList) ∧
      (∀ x ∈ ds, x.1 ∉ depStops) ∧ (textOf ds).head? ≠ some '\\' ∧ (unquote (· == ':') [] ds).2 = none ∧
      CommandAt command postSemi ∧
      ¬ VarLike ((afterText ds command).dropWhile lblank) ∧ Buf (ts ++ (cs ++ ds)) b ∧ Block.Mono b ∧
      (do
        match ← takeUntilUnquote L2.span (fun c => c == ';' || c == '#') with
        | (pre, some (stopChar, post)) => do
          let c ← Nom.firstChar stopChar
          if c = some '#' then return (pre, none)
          else do
            let b ← post.toNewBlock
            return (pre, some b)
        | (pre, none) => return (pre, none) : Res (Block × Option Block)) = .ok (b, postSemi) := by
    have good : ∀ {cs : List LChar}, textOf cs = (if double then "::".toList else ":".toList) →
        (∀ x ∈ ds, x.1 ∉ depStops) → ∀ x ∈ ts ++ (cs ++ ds), (fun c => c == ';' || c == '#') x.1 = false := by
      intro cs hc hd x hx
      rcases List.mem_append.mp hx with hx | hx
      · have := hTW.chars x hx
        simp only [List.mem_cons, List.not_mem_nil, or_false, not_or] at this
        simp [this.1, this.2.1]
      rcases List.mem_append.mp hx with hx | hx
      · have : x.1 ∈ textOf cs := mem_textOf.mpr ⟨x, hx, rfl⟩
        rw [hc] at this
        have : x.1 = ':' := by cases double <;> simpa using this
        rw [this]; decide
      · have := hd x hx
        simp only [depStops, List.mem_cons, List.not_mem_nil, or_false, not_or] at this
        simp [this.2.1, this.2.2.1]
    cases hrule with
    | @plain _ cs _ _ hc hd hd1 hd2 =>
      obtain ⟨b, e1, e2⟩ := takeUntilUnquote_copy (fun c => c == ';' || c == '#') (by decide) (by decide) hat2 (good hc hd)
      refine ⟨cs, none, b, hc, hd, hd1, hd2, .none, hvar, e2.buf, e2.mono hm2, ?_⟩
      rw [e1]; rfl
    | @command _ cs _ cmd _ l hc hd hd1 hd2 hd3 =>
      have hat2' : L2.span.At L2 ((ts ++ (cs ++ ds)) ++ (';', l) :: cmd) := by simpa using hat2
      have hu := unquote_first (fun c => c == ';' || c == '#') (v := cmd) (x := (';', l)) (good hc hd) (by simp)
        (show ';' ≠ '\\' by decide) [] (fun _ => rfl) (by
          intro y hy
          cases hds : ds.getLast? with
          | some z =>
            rw [List.getLast?_append, List.getLast?_append, hds] at hy
            simp only [Option.some_or, Option.some.injEq] at hy
            rw [← hy]; exact hd3 z hds
          | none =>
            rw [List.getLast?_eq_none_iff] at hds
            subst hds
            rw [List.append_nil, List.getLast?_append] at hy
            cases hcl : cs.getLast? with
            | none =>
              rw [List.getLast?_eq_none_iff] at hcl
              subst hcl
              cases double <;> cases hc
            | some z =>
              rw [hcl] at hy
              simp only [Option.some_or, Option.some.injEq] at hy
              have : z.1 ∈ textOf cs := mem_textOf.mpr ⟨z, List.mem_of_getLast? hcl, rfl⟩
              rw [hc] at this
              have : z.1 = ':' := by cases double <;> simpa using this
              rw [← hy, this]; decide)
      obtain ⟨b, sc, post, e1, e2, e3, e4⟩ :=
        (takeUntilUnquote_spec (fun c => c == ';' || c == '#') (by decide) (by decide) hat2').1 (';', l) cmd (by rw [hu])
      rw [hu] at e2
      obtain ⟨pb, k1, k2⟩ := e4.part
      refine ⟨cs, some pb, b, hc, hd, hd1, hd2, .some k2.buf (k2.mono hm2), ?_, e2.buf, e2.mono hm2, ?_⟩
      · intro hv
        refine hvar (hv.congr ?_)
        rw [textOf_dropBlank, textOf_dropBlank]
        simp [afterText]
      · rw [e1]
        simp only [ok_bind, Nom.firstChar_at e3, k1]
        rfl
  obtain ⟨cs, postSemi, b, hc, hd, hd1, hd2, hcommand, hvar', hb, hbm, hsemi⟩ := hsplit
  have hd3 : (textOf ds).head? ≠ some ':' := by
    cases ds with
    | nil => simp
    | cons y ds =>
      intro e
      simp only [textOf_cons, List.head?_cons, Option.some.injEq] at e
      rw [unquote, if_neg (by rw [e]; decide), if_pos (by rw [e]; rfl), if_neg (by decide)] at hd2
      cases hd2
  have hd4 : (textOf ds).head? ≠ some '=' := by
    cases ds with
    | nil => simp
    | cons y ds =>
      intro e
      simp only [textOf_cons, List.head?_cons, Option.some.injEq] at e
      exact hd y List.mem_cons_self (by rw [e]; decide)
  -- the targets
  obtain ⟨r, m, reason, aft, ln, at', lt, w1, w2, ⟨w3, w4, w5, w6, _, w7⟩⟩ :=
    wordLoop_escaped fs hTW hc hd4 hd3 hd1 hbm postSemi st
      (gap := []) (lineNext := b.span) (by intro x hx; cases hx) hb.at
  obtain ⟨l, cs', rfl, hcs'⟩ := colons_split hc
  obtain ⟨b0, mwt0, extra0, x1, x2, x3, x4⟩ := w7 2 (b.len + 2) Block.empty [] (Nat.le_refl _) (by
    rw [hb.len]; simp; omega) Buf.empty
  have hsp : spaced [] tt = tt := by simp [spaced]
  rw [hsp] at x2
  have hlast : ∀ y, (tt ++ extra0).getLast? = some y → y.1 ≠ '\\' := by
    rcases x3 with rfl | rfl
    · rw [List.append_nil]; exact htl
    · intro y hy
      rw [List.getLast?_concat] at hy
      cases hy
      show ' ' ≠ '\\'
      decide
  have hfree : ∀ c ∈ [';', '$'], Free c ds := by
    intro c hc x hx e
    refine hd x hx ?_
    simp only [List.mem_cons, List.not_mem_nil, or_false] at hc
    rcases hc with h | h <;> rw [e, h] <;> decide
  obtain ⟨M, targets, deps, a, f1, f2, f3, f4⟩ := finishRule_names fs (rest := rest) (dns := dns) (.inl hbm) hb.solid
    (parseFileSeq_targets x2 hlast (htn extra0 x3)) w3 w4 w5 w6 hcs' hd3 hcommand hvar' (hst.interned [])
    (reads_text (hfree '$' (by simp))) (Expands.text _ _) (hfree ';' (by simp))
    (hasSecondColon_unquote [] (by simp) hd2) (fun b hb => by
      obtain ⟨bs, ns', h1, h2, h3⟩ := parseFileSeq_escaped [':'] (by decide) hb.at
      exact ⟨bs, h1, by rw [hdn.unique h2]; exact h3.texts⟩) hcr
  refine ⟨max 2 M, rest, targets, deps, a, f1, f2, f3, fun n hn => ?_⟩
  have hloop := (wordLoop_le (recF_le fs (show 2 ≤ n by omega)) (b.len + 2) r m reason Block.empty postSemi st).ok x1
  unfold parseTargetLine
  refine Res.bind_eq_ok.mpr ⟨_, m1, ?_⟩
  refine Res.bind_eq_ok.mpr ⟨_, hsemi, ?_⟩
  refine Res.bind_eq_ok.mpr ⟨_, w1, ?_⟩
  have hfin : (do
      let (res, st) ← wordLoop (recF fs n) (b.len + 2) r m reason Block.empty postSemi st
      match res with
      | .err e => return (.err e, st)
      | .noAction => return (.done rest .noAction, st)
      | .finished preColon afterColon lineNext postSemi mwt =>
        if mwt = .eol then do
          match ← whitespace preColon.span with
          | .err _ => .panic .unwrap
          | .done afterSpace _ =>
            if afterSpace.length = 0 then return (.done rest .noAction, st)
            else return (.err (.failure (.custom .missingSeparator)), st)
        else do
          let afterColon ← runwrap afterColon
          finishRule (recF fs n) rest preColon afterColon lineNext postSemi st : Res (IRes TargetAction × St)) =
      .ok (.done rest (.newRule targets deps double a), st) := by
    rw [hloop]
    simp only [ok_bind, if_neg x4, runwrap]
    rw [f4 n (by omega)]
    rfl
  rcases w2 with h | h <;> subst h <;> exact hfin

/-- A rule line with backslashes. -/
theorem parseLine_escaped (fs : Fs) {line rest ts after ds : List LChar} {tns dns : List (List LChar)} {double : Bool} {p : PState}
    {st : St} {command : Option (List LChar)} {recipe : List (List Expr)}
    (h : Ready P i t line rest p st) (h3 : Physical t line rest)
    (h4 : (textOf line).head? ≠ some st.commandChar) (h5 : ¬ CondLike line) (h6 : ¬ VarLike line) (h7 : ¬ DirectiveLike line)
    (h8 : EscapedRuleText line ts double after ds command) (h9 : ¬ VarLike (after.dropWhile lblank))
    (h10 : EscapedTargets ts tns) (h11 : NamesIn (separates [':']) (lastName (separates [':'])) ds dns)
    (h14 : CommandReads command recipe) :
    ∃ r : ProtoRule, LineGives fs P i p st rest { p with currentRule := some r } st ∧
      r.targets.map Block.ltext = tns ∧ r.deps.map Block.ltext = dns ∧ r.recipe.map Ast.flat = recipe ∧
      r.ruleType = (if double then .doubleColon else .standard) := by
  obtain ⟨j, b, e1, e2, e3, e4⟩ := makefileLine_physical h.at_ h3 h.comment
  have hat := e3.at
  have hbm := e3.mono h.pieces h.mono
  have hdrop : line.dropWhile lblank = line := by
    cases h3 with
    | mk _ _ hh _ _ => exact dropWhile_solid fun x hx => by simpa using fun hb => hh x hx (lblank_iff.mp hb)
  have hf := h.comment
  have hnl : Free '\n' line ∧ trailingSlashes (textOf line) % 2 = 0 ∧ Free '#' line := by
    cases h3 with
    | mk _ hl _ hl' _ => exact ⟨hl, hl', (Free.append.mp (Free.append.mp hf).2).1⟩
  have hlen : b.len ≠ 0 := by
    have := hat.length
    have e : b.span.length = b.len := rfl
    rw [← e, this]
    simpa using h8.ne_nil
  obtain ⟨N, rest', targets, deps, a, f1, f2, f3, f4⟩ := parseTargetLine_escaped fs e4 hbm hat hnl.1 hnl.2.2 hnl.2.1 h8
    h10 h9 h.wf h11 h14
  have hrecipe : ∃ rs, handleTargetAction p (.newRule targets deps double a) = .ok { p with
        currentRule := some ⟨targets, deps, rs, if double then .doubleColon else .standard⟩ } ∧
      rs.map Ast.flat = recipe := by
    cases f3 with
    | none => exact ⟨[], rfl, rfl⟩
    | some _ => exact ⟨[_], rfl, rfl⟩
  obtain ⟨rs, k1, k2⟩ := hrecipe
  refine ⟨⟨targets, deps, rs, if double then .doubleColon else .standard⟩, ⟨N, j, e2, fun n hn => ?_⟩,
    f1.map_ltext, f2.map_ltext, k2, rfl⟩
  rw [parseLine_collapsed fs _ h.at_ hf h.define h.command (.inl h.rule)]
  obtain ⟨k, hv⟩ := parseVariableLine_none (recF fs n) st hat (by rw [hdrop]; exact h6)
  unfold parseCollapsed
  simp only [e1, ok_bind, if_neg hlen, parseConditionalLine_none hat (by rw [hdrop]; exact h5),
    if_neg (show ¬ p.ignoring = true by rw [h.active]; decide)]
  unfold parseStatement
  have hcl : p.closeRule st = .ok (p, st) := by
    simp [PState.closeRule, h.rule]
  simp only [hv, ok_bind, parseDirectiveLine_none hat h7, Nom.firstChar_at hat, if_neg h4, f4 n hn, hcl, k1]
  rfl

/-! ### Writing a rule -/

theorem writeName_word {n : List LChar} (h : ∀ x ∈ n, WordChar x.1 ∨ x.1 = ':') : EscapedWord (writeName n) n := by
  induction n with
  | nil => exact .nil
  | cons x n ih =>
    have ih := ih fun y hy => h y (List.mem_cons_of_mem _ hy)
    rcases h x List.mem_cons_self with hx | hx
    · have : writeName (x :: n) = x :: writeName n := by
        have := wordChar_ne hx
        simp [writeName, this.2.2.2.1, this.2.2.2.2.2.1]
      rw [this]
      exact .char hx ih
    · obtain ⟨c, l⟩ := x
      cases hx
      exact .colon ih

theorem writeName_ne {n : List LChar} (h : n ≠ []) : writeName n ≠ [] := by
  obtain ⟨x, n, rfl⟩ := List.exists_cons_of_ne_nil h
  rw [writeName, List.flatMap_cons]
  split <;> simp

/-- A name that can be written. -/
def Writable (n : List LChar) : Prop := n ≠ [] ∧ ∀ x ∈ n, WordChar x.1 ∨ x.1 = ':'

theorem writeTargets {ts : List (List LChar × Location)} (hne : ts ≠ []) (h : ∀ p ∈ ts, Writable p.1) :
    EscapedTargets (ts.flatMap fun p => writeName p.1 ++ [(' ', p.2)]) (ts.map Prod.fst) := by
  have bl : ∀ l : Location, Blanks [(' ', l)] := by intro l; unfold Blanks; simp
  induction ts with
  | nil => exact absurd rfl hne
  | cons p ts ih =>
    obtain ⟨h1, h2⟩ := h p List.mem_cons_self
    cases ts with
    | nil =>
      have := EscapedTargets.last (writeName_word h2) (writeName_ne h1) (bl p.2)
      simpa using this
    | cons q ts =>
      have := EscapedTargets.more (writeName_word h2) (writeName_ne h1) (bl p.2) (by simp)
        (ih (by simp) fun r hr => h r (List.mem_cons_of_mem _ hr))
      rw [List.flatMap_cons, List.append_assoc]
      exact this

private theorem sep_word {c : Char} (h : WordChar c) : separates [':'] c = false := by
  have h0 : c ≠ Char.ofNat 0 := fun e => h.2 (by rw [e]; simp)
  have h1 : c ≠ ':' := (wordChar_ne h).2.2.2.1
  simp [separates, h.1, h0, h1]

theorem writeDeps_step {ds : List (List LChar × Location)} (h : ∀ p ∈ ds, Writable p.1) :
    ∀ d, Writable d → NamesIn (separates [':']) (lastName (separates [':']))
      (writeName d ++ ds.flatMap fun p => (' ', p.2) :: writeName p.1) (d :: ds.map Prod.fst) := by
  induction ds with
  | nil =>
    intro d hd
    have hu := (writeName_word hd.2).unquote_of (separates [':']) (by decide) (fun c hc => sep_word hc) []
    rw [List.append_nil] at hu
    have := NamesIn.rest (last := lastName (separates [':'])) (show (unquote (separates [':']) [] (writeName d)).2 = none by rw [hu]; rfl)
    rw [lastName_of_even, hu] at this
    · simpa [unquote, hd.1] using this
    · have := trailing_eq (a := writeName d) (run := [])
        (fun y z e => (writeName_word hd.2).written_last z (by rw [e]; simp)) (by simp)
      simpa using this
  | cons p ds ih =>
    intro d hd
    have ih := ih (fun q hq => h q (List.mem_cons_of_mem _ hq)) p.1 (h p List.mem_cons_self)
    have hu := (writeName_word hd.2).unquote_of (separates [':']) (by decide) (fun c hc => sep_word hc)
      ((' ', p.2) :: (writeName p.1 ++ ds.flatMap fun p => (' ', p.2) :: writeName p.1))
    rw [unquote, if_neg (show ¬ ' ' = '\\' by decide), if_pos (show separates [':'] ' ' = true by decide), if_neg (by decide)] at hu
    have := NamesIn.next (last := lastName (separates [':'])) (by rw [hu]) ih
    rw [hu] at this
    simpa [hd.1] using this

theorem writeDeps {ds : List (List LChar × Location)} (h : ∀ p ∈ ds, Writable p.1) :
    (∀ x ∈ ds.flatMap (fun p => (' ', p.2) :: writeName p.1), x.1 ∉ depStops) ∧
    (textOf (ds.flatMap fun p => (' ', p.2) :: writeName p.1)).head? ≠ some '\\' ∧
    (unquote (· == ':') [] (ds.flatMap fun p => (' ', p.2) :: writeName p.1)).2 = none ∧
    NamesIn (separates [':']) (lastName (separates [':'])) (ds.flatMap fun p => (' ', p.2) :: writeName p.1)
      (ds.map Prod.fst) := by
  refine ⟨?_, ?_, ?_, ?_⟩
  · intro x hx
    obtain ⟨p, hp, hx⟩ := List.mem_flatMap.mp hx
    rcases List.mem_cons.mp hx with rfl | hx
    · simp [depStops]
    · rcases (writeName_word (h p hp).2).chars x hx with h | h | h
      · intro hm
        refine h.2 ?_
        simp only [depStops, List.mem_cons, List.not_mem_nil, or_false] at hm ⊢
        rcases hm with e | e | e | e <;> simp [e]
      · rw [h]; decide
      · rw [h]; decide
  · cases ds with
    | nil => simp
    | cons p ds => simp
  · induction ds with
    | nil => rfl
    | cons p ds ih =>
      have ih := ih fun q hq => h q (List.mem_cons_of_mem _ hq)
      rw [List.flatMap_cons, List.cons_append, unquote, if_neg (show ¬ ' ' = '\\' by decide), if_neg (show ¬ (' ' == ':') = true by decide)]
      rw [(writeName_word (h p List.mem_cons_self).2).unquote]
      exact ih
  · cases ds with
    | nil =>
      have := NamesIn.rest (stop := separates [':']) (last := lastName (separates [':'])) (t := []) rfl
      simpa [lastName, unquote] using this
    | cons p ds =>
      have : NamesIn (separates [':']) (lastName (separates [':']))
          (writeName p.1 ++ ds.flatMap fun p => (' ', p.2) :: writeName p.1) (p.1 :: ds.map Prod.fst) :=
        writeDeps_step (fun q hq => h q (List.mem_cons_of_mem _ hq)) p.1 (h p List.mem_cons_self)
      exact NamesIn.blanks (w := [(' ', p.2)]) (by simp [separates, isWhitespace]) this

end Hastur
