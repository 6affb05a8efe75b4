import Verif.Proofs.RuleDemo
/-
Lemmas: rule lines that go over several physical lines.
-/
namespace Hastur

open Res Span

variable {P : Block} {t : List LChar} {i : Span}

theorem trailingSlashes_free {s : Str} (h : '\\' ∉ s) : trailingSlashes s = 0 := by
  rcases List.eq_nil_or_concat s with rfl | ⟨l, c, rfl⟩
  · rfl
  · rw [List.concat_eq_append] at h ⊢
    exact trailingSlashes_snoc l fun hc => h (by rw [hc]; simp)

theorem WordList.head {ws : List (List LChar)} (h : WordList t ws) : ∃ x l, t = x :: l ∧ lblank x = false := by
  have key : ∀ {w u : List LChar}, w ≠ [] → (∀ x ∈ w, WordChar x.1) → ∃ x l, w ++ u = x :: l ∧ lblank x = false := by
    intro w u hw hwc
    cases w with
    | nil => exact absurd rfl hw
    | cons x w =>
      refine ⟨x, _, rfl, ?_⟩
      have := hwc x (by simp)
      cases hl : lblank x with
      | false => rfl
      | true => exact absurd (wordChar_blank (lblank_iff.mp hl)) (by simp [this.1])
  cases h with
  | last hw hwc _ => exact key hw hwc
  | more hw hwc _ _ _ => exact key hw hwc

/-- The pieces collected so far stay in front. -/
theorem lineLoop_keeps {mode : Compliance} (n : Nat) : ∀ {i : Span} {t L : List LChar} {lines : List CRef}
    {strip addSpace : Bool} {reason : LineEnd} {r : Span} {b : Block}, i.At P t → Lines P L lines →
    lineLoop mode n i lines strip addSpace reason = .ok (.done r b) →
    ∃ more L', Lines P L' (lines ++ more) ∧ Block.new [] (lines ++ more) = .ok b ∧
      (addSpace = true → strip = false → ∃ more', more = CRef.space :: more') := by
  induction n with
  | zero => intro i t L lines strip addSpace reason r b _ _ h; cases h
  | succ n ih =>
    intro i t L lines strip addSpace reason r b h hl he
    obtain ⟨i1, w, e1, e2, _⟩ := whitespace_at h
    obtain ⟨r', l, f1, f2, f3⟩ := grabLine_at e2
    obtain ⟨extra, flag, L1, hl1, hl2, hl0⟩ : ∃ extra flag L1, (if reason ≠ .comment then
        if (addSpace && !strip) = true then (lines ++ [CRef.space], addSpace) else (lines, true)
      else (lines ++ [CRef.space], addSpace)) = (lines ++ extra, flag) ∧ Lines P L1 (lines ++ extra) ∧
        (addSpace = true → strip = false → extra = [CRef.space]) := by
      by_cases hr : reason ≠ .comment
      · simp only [if_pos hr]
        by_cases ha : (addSpace && !strip) = true
        · simp only [if_pos ha]
          exact ⟨_, _, _, rfl, hl.space, fun _ _ => rfl⟩
        · simp only [if_neg ha]
          exact ⟨[], _, _, by rw [List.append_nil], by rw [List.append_nil]; exact hl,
            fun h1 h2 => absurd (by rw [h1, h2]; rfl) ha⟩
      · simp only [if_neg hr]
        exact ⟨_, _, _, rfl, hl.space, fun _ _ => rfl⟩
    simp only [lineLoop, hl1, e1, done_andThen, f1, Res.ok_bind, endsWithBackslash_at f3] at he
    split at he
    · obtain ⟨c, c1, c2, _, c4, c5⟩ := f3.toContentReference
      have hl3 := hl2.snoc c2 c4 c5
      obtain ⟨b', b1, _⟩ := hl3.block
      simp only [c1, b1, Res.ok_bind, Res.done] at he
      cases he
      rw [List.append_assoc] at hl3 b1
      exact ⟨_, _, hl3, b1, fun h1 h2 => ⟨_, by rw [hl0 h1 h2]; rfl⟩⟩
    · obtain ⟨l', k1, k2⟩ := cleanLineEnd_at f3 mode
      rw [k1, Res.ok_bind] at he
      split at he
      · obtain ⟨c, c1, c2, _, c4, c5⟩ := k2.toContentReference
        rw [c1, Res.ok_bind] at he
        obtain ⟨more, L', g1, g2, _⟩ := ih f2 (hl2.snoc c2 c4 c5) he
        rw [List.append_assoc, List.append_assoc] at g1 g2
        exact ⟨_, _, g1, g2, fun h1 h2 => ⟨_, by rw [hl0 h1 h2]; rfl⟩⟩
      · obtain ⟨more, L', g1, g2, _⟩ := ih f2 hl2 he
        rw [List.append_assoc] at g1 g2
        exact ⟨_, _, g1, g2, fun h1 h2 => ⟨_, by rw [hl0 h1 h2]; rfl⟩⟩

/-- The first piece of a continued line is the body of the first physical line, the second a space. -/
theorem makefileLine_firstPieces {c : Continued} {t' : List LChar} {r : Span} {b : Block} (hc : c.OK)
    (h : i.At P (c.line ++ t')) (hf : Free '#' (c.line ++ t')) (hk : 0 < c.body.length)
    (he : makefileLine i .gnu true = .ok (.done r b)) :
    ∃ d more L', Lines P L' (d :: CRef.space :: more) ∧ Block.new [] (d :: CRef.space :: more) = .ok b ∧
      d.length = c.body.length := by
  obtain ⟨r', h1, _, h3, _⟩ := makefileLine_step (mode := .gnu) (strip := true) h
  simp only [if_true] at h1 h3
  have hg : grabSpec ((c.line ++ t').dropWhile lblank) = (c.seen, .lineBreak, t') := by
    rw [Continued.dropWhile_line hc]
    apply grabSpec_line _ (Continued.seen_free hc)
    have hh := Free.append.mp hf
    have hh1 : Free '#' c.lead ∧ Free '#' c.seen ∧ Free '#' [('\n', c.feed)] := by
      have : c.line = c.lead ++ (c.seen ++ [('\n', c.feed)]) := by simp [Continued.line, Continued.seen]
      have h' := hh.1
      rw [this, Free.append, Free.append] at h'
      exact h'
    rw [Free.append, Free.cons]
    exact ⟨hh1.2.1, by simp, hh.2⟩
  rw [hg] at h1 h3
  simp only [Continued.seen_slashes hc, Continued.seen_clean hc] at h3
  obtain ⟨d, e1, e2⟩ := h3 (by decide) (by omega)
  have hb : c.seen.take c.body.length = c.body := by simp [Continued.seen]
  rw [hb] at e1
  rw [e2] at he
  obtain ⟨_, L', g1, g2, g3⟩ := lineLoop_keeps _ h1 e1 he
  obtain ⟨more, rfl⟩ := g3 rfl rfl
  have hd : d.length = c.body.length := by
    rw [← CRef.ltext_length d e1.wf.1, ← e1.ltext]
    simp [CRef.ltextList]
  exact ⟨d, more, L', g1, g2, hd⟩

/-- So the block has one segment per piece, and the first piece is known. -/
theorem makefileLine_lined {c : Continued} {t' : List LChar} {r : Span} {b : Block} {k : Nat} (hP : P.content.length ≤ 1)
    (hm : Block.Mono P) (hc : c.OK) (h : i.At P (c.line ++ t')) (hf : Free '#' (c.line ++ t')) (hk : k < c.body.length)
    (he : makefileLine i .gnu true = .ok (.done r b)) : Block.Lined k b := by
  obtain ⟨d, more, L', g1, g2, hd⟩ := makefileLine_firstPieces hc h hf (by omega) he
  exact Block.new_lined g1.wf (g1.mono hP hm) (by omega) g2

/-- A rule line without dollar signs and without a command that goes over several physical lines, the first of which
contains the beginning of the dependencies: what `parse_target_line` makes of it. -/
theorem parseTargetLine_continued (fs : Fs) {c : Continued} {t' line rest ts cs ds tt dt : List LChar} {double : Bool}
    {st : St} {vs us : List Str} {des : List Expr} (hP : P.content.length ≤ 1) (hm : Block.Mono P)
    (h : i.At P (c.line ++ t')) (hl : Logical (c.line ++ t') line rest) (hf : Free '#' (c.line ++ t')) (hw : st.WF) (hc : c.OK)
    (hfirst : line.length < c.body.length + ds.length)
    (hnl : Free '\n' line) (hsl : trailingSlashes (textOf line) % 2 = 0)
    (hcm : Free '#' line) (hts : Free '$' ts) (hds : Free '$' ds)
    (hline : line = ts ++ (cs ++ ds)) (hcs : textOf cs = (if double then "::".toList else ":".toList))
    (hd : ∀ x ∈ ds, x.1 ∉ [':', '=', ';', '#', '\\']) (h9 : ¬ VarLike (ds.dropWhile lblank))
    (h10 : TargetsExpand st.env ts tt vs) (h11 : Reads ds (.ok des)) (h12 : Expands st.env des dt us)
    (h13 : FileNames dt) :
    ∃ j b, makefileLine i .gnu true = .ok (.done j b) ∧ j.At P rest ∧ LineBlock P line b ∧
      ∃ N rest' targets deps, Texts (wordsOf tt) targets ∧ Texts (wordsOf dt) deps ∧
      ∀ n, N ≤ n → parseTargetLine (recF fs n) b.span st =
        .ok (.done rest' (.newRule targets deps double none), st.interned (vs ++ us)) := by
  obtain ⟨j, b, e1, e2, e3⟩ := makefileLine_logical h hl hf
  have hat := e3.at
  have h8 : RuleText line ts double ds ds none := by rw [hline]; exact .plain hcs hd
  have hbody : c.body.length ≤ line.length := by
    by_cases h0 : c.body.length = 0
    · omega
    obtain ⟨d, ds, g1, g2⟩ := (makefileLine_lined hP hm hc h hf (k := c.body.length - 1) (by omega) e1).head
    have h1 := hat.length
    have h2 : b.span.length = b.len := rfl
    have h3 : b.len = d.length + (ds.map (·.length)).sum := by simp [Block.len, g1]
    omega
  have hdl : ds.length ≤ line.length := by
    rw [hline]
    simp only [List.length_append]
    omega
  have hlined : Block.Lined (line.length - ds.length) b := makefileLine_lined hP hm hc h hf (by omega) e1
  obtain ⟨N, rest', targets, deps, a, f1, f2, f3, f4⟩ := parseTargetLine_at fs
    (.inr ⟨rfl, hts, hds, by rintro rfl; simp at hfirst; omega, _, hlined, by omega⟩) hat hnl hcm hsl h8
    h10 h9 hw h11 h12 h13 .none
  cases f3
  exact ⟨j, b, e1, e2, e3, N, rest', targets, deps, f1, f2, f4⟩

/-- The same for plain words. -/
theorem parseTargetLine_continued_words (fs : Fs) {c : Continued} {t' line rest ts cs ds : List LChar}
    {ws us : List (List LChar)} {double : Bool} {st : St} (hP : P.content.length ≤ 1) (hm : Block.Mono P)
    (h : i.At P (c.line ++ t')) (hl : Logical (c.line ++ t') line rest) (hf : Free '#' (c.line ++ t')) (hw : st.WF) (hc : c.OK)
    (hfirst : (ts ++ cs).length < c.body.length) (e : line = ts ++ (cs ++ ds))
    (hts : WordList ts ws) (hcs : textOf cs = (if double then "::".toList else ":".toList)) (hds : WordList0 ds us)
    (h4 : ¬ VarLike (ds.dropWhile lblank)) :
    line ≠ [] ∧ line.dropWhile lblank = line ∧
    ∃ j b, makefileLine i .gnu true = .ok (.done j b) ∧ j.At P rest ∧ LineBlock P line b ∧
      ∃ N rest' targets deps, Texts ws targets ∧ Texts us deps ∧
      ∀ n, N ≤ n → parseTargetLine (recF fs n) b.span st =
        .ok (.done rest' (.newRule targets deps double none), st) := by
  obtain ⟨tt, hT, rfl⟩ := targets_words st.env hts
  have hd : ∀ x ∈ ds, x.1 ∉ [':', '=', ';', '#', '\\'] := by
    intro x hx hm
    have key : ∀ c ∈ [':', '=', ';', '#', '\\', '$'], x.1 ≠ c := fun c hc => free_of_names hds.names hc x hx
    simp only [List.mem_cons, List.not_mem_nil, or_false] at hm
    rcases hm with h | h | h | h | h <;> exact key _ (by simp) h
  have hall : ∀ x ∈ line, (WordChar x.1 ∨ x.1 = ' ' ∨ x.1 = '\t') ∨ x.1 = ':' := by
    intro x hx
    rw [e] at hx
    rcases List.mem_append.mp hx with hx | hx
    · exact .inl (hts.names x hx)
    rcases List.mem_append.mp hx with hx | hx
    · have : x.1 ∈ textOf cs := mem_textOf.mpr ⟨x, hx, rfl⟩
      rw [hcs] at this
      exact .inr (by cases double <;> simpa using this)
    · exact .inl (hds.names x hx)
  have hfree : ∀ c : Char, ¬ WordChar c → c ≠ ' ' → c ≠ '\t' → c ≠ ':' → Free c line := by
    intro c w1 w2 w3 w4 x hx hxc
    rcases hall x hx with (h | h | h) | h
    · exact w1 (hxc ▸ h)
    · exact w2 (hxc ▸ h)
    · exact w3 (hxc ▸ h)
    · exact w4 (hxc ▸ h)
  have hsl : trailingSlashes (textOf line) % 2 = 0 := by
    have : '\\' ∉ textOf line := by
      intro hm
      obtain ⟨x, hx, hx1⟩ := mem_textOf.mp hm
      exact hfree '\\' (by unfold WordChar; decide) (by decide) (by decide) (by decide) x hx hx1
    rw [trailingSlashes_free this]
  obtain ⟨x, l, h5, hx⟩ := hts.head
  have hdrop : line.dropWhile lblank = line := by
    rw [e, h5, List.cons_append, List.dropWhile_cons, if_neg (by rw [hx]; decide)]
  have hlen := congrArg List.length e
  simp only [List.length_append] at hlen hfirst
  obtain ⟨j, b, g1, g2, g3, N, rest', targets, deps, k1, k2, k3⟩ := parseTargetLine_continued fs hP hm h hl hf hw hc (ds := ds) (by omega)
    (hfree '\n' (by unfold WordChar; decide) (by decide) (by decide) (by decide)) hsl
    (hfree '#' (by unfold WordChar; decide) (by decide) (by decide) (by decide))
    (fun x hx => free_of_names hts.names (by simp) x hx) (fun x hx => free_of_names hds.names (by simp) x hx)
    e hcs hd h4 hT (reads_names hds.names) (Expands.text _ _) (fileNames_of hds.names)
  rw [wordsOf_list0 hds] at k2
  exact ⟨by rw [e, h5]; simp, hdrop, j, b, g1, g2, g3, N, rest', targets, deps, k1, k2, k3⟩

end Hastur
