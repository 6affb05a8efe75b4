import Verif.Proofs.RuleLine
import Verif.Spec.Program
/-
Lemmas: recipe lines.
-/
namespace Hastur

open Res Span

variable {P : Block} {t : List LChar} {i : Span}

theorem CRef.newline_ltext : CRef.ltext CRef.newline = [('\n', .synthetic)] := rfl
theorem CRef.newline_wf : CRef.WF CRef.newline := ⟨by decide, by show AsciiS ['\n']; unfold AsciiS; decide⟩
theorem CRef.newline_mono : CRef.Mono CRef.newline := trivial

/-- A block with this text, whose first reference is not empty; later ones may be. -/
structure Front (t : List LChar) (b : Block) : Prop where
  ltext : Block.ltext b = t
  wf : Block.WF b
  first : ∀ c cs, b.content = c :: cs → 0 < c.length

theorem Buf.front {b : Block} (h : Buf t b) : Front t b :=
  ⟨h.ltext, h.wf, fun c cs e => h.solid c (by rw [e]; simp)⟩

theorem Front.at {b : Block} (h : Front t b) : b.span.At b t := by
  refine ⟨rfl, ⟨h.wf, ?_⟩, (Block.span_ltext h.wf).trans h.ltext⟩
  cases hc : b.content with
  | nil => left; simp [Block.span, Block.len, hc]
  | cons c cs =>
    right
    refine ⟨c, cs, by simp [Block.span, Span.contents, hc], h.first c cs hc, ?_⟩
    simp [Block.span, Block.len, hc, lensum]

theorem Front.newline {b : Block} (h : Front t b) : Front (t ++ [('\n', .synthetic)]) (b.push CRef.newline) ∧
    (Block.Mono b → Block.Mono (b.push CRef.newline)) ∧ (b.push CRef.newline).content ≠ [] := by
  refine ⟨⟨?_, ?_, ?_⟩, fun hm => ?_, by simp [Block.push]⟩
  · have := h.ltext
    rw [Block.ltext_eq] at this
    rw [Block.ltext_eq, Block.push, CRef.ltextList_append, this]
    simp [CRef.ltextList, CRef.newline_ltext]
  · have := h.wf
    rw [Block.wf_eq] at this ⊢
    exact CRef.wfList_append.mpr ⟨this, CRef.newline_wf, trivial⟩
  · intro c cs e
    cases hc : b.content with
    | nil =>
      simp only [Block.push, hc, List.nil_append, List.cons.injEq] at e
      rw [← e.1]; decide
    | cons d ds =>
      simp only [Block.push, hc, List.cons_append, List.cons.injEq] at e
      rw [← e.1]; exact h.first d ds hc
  · rw [Block.mono_eq] at hm ⊢
    exact CRef.monoList_append.mpr ⟨hm, CRef.newline_mono, trivial⟩

theorem Front.pushRef {b : Block} {c : CRef} {u : List LChar} (h : Front t b) (h0 : b.content ≠ [])
    (h1 : CRef.ltext c = u) (h2 : CRef.WF c) : Front (t ++ u) (b.push c) := by
  refine ⟨?_, ?_, ?_⟩
  · have := h.ltext
    rw [Block.ltext_eq] at this
    rw [Block.ltext_eq, Block.push, CRef.ltextList_append, this]
    simp [CRef.ltextList, h1]
  · have := h.wf
    rw [Block.wf_eq] at this ⊢
    exact CRef.wfList_append.mpr ⟨this, h2, trivial⟩
  · intro d ds e
    cases hc : b.content with
    | nil => exact absurd hc h0
    | cons d' ds' =>
      simp only [Block.push, hc, List.cons_append, List.cons.injEq] at e
      rw [← e.1]; exact h.first d' ds' hc

theorem Block.push_mono {b : Block} {c : CRef} (h : Block.Mono b) (hc : CRef.Mono c) : Block.Mono (b.push c) := by
  rw [Block.mono_eq] at h ⊢
  exact CRef.monoList_append.mpr ⟨h, hc, trivial⟩

theorem trailingSlashes_last {s u : Str} {c : Char} (hc : c ≠ '\\') :
    trailingSlashes (s ++ c :: u) = trailingSlashes u := by
  unfold trailingSlashes
  rw [List.reverse_append, List.reverse_cons]
  induction u.reverse with
  | nil => simp [hc]
  | cons x l ih =>
    simp only [List.cons_append, List.takeWhile_cons]
    split
    · simp only [List.length_cons] at ih ⊢
      rw [ih]
    · rfl

/-- The end of a line. -/
theorem grabSpec_ends {line tail rest : List LChar} (hl : Free '\n' line) (he : EndsLine tail rest)
    (hf : Free '#' (line ++ tail)) : ∃ reason, grabSpec (line ++ tail) = (line, reason, rest) ∧ reason ≠ .comment := by
  rcases he with ⟨h1, h2⟩ | ⟨loc, h1⟩
  · subst h1 h2
    rw [List.append_nil] at hf ⊢
    exact ⟨_, grabSpec_eof hf hl, by simp⟩
  · subst h1
    exact ⟨_, grabSpec_line hf hl, by simp⟩

theorem grabCommandLine_at {c : Char} (hc : isAscii c = true) {l : Location} {line tail rest : List LChar}
    (h : i.At P ((c, l) :: (line ++ tail))) (hl : Free '\n' line) (he : EndsLine tail rest) (hf : Free '#' (line ++ tail)) :
    ∃ r q reason, grabCommandLine c i = .ok (.done r (q, reason)) ∧ reason ≠ .comment ∧ r.At P rest ∧ q.At P line := by
  obtain ⟨i1, e1, e2⟩ := (Nom.char_at h hc).1 _ _ rfl
  obtain ⟨r, q, f1, f2, f3⟩ := grabLine_at e2
  obtain ⟨reason, g1, g2⟩ := grabSpec_ends hl he hf
  rw [g1] at f1 f2 f3
  refine ⟨r, q, reason, ?_, g2, f2, f3⟩
  unfold grabCommandLine
  rw [e1, done_andThen, f1]

/-- The outcome of reading a recipe line. -/
def RecipeOut (P : Block) (rest : List LChar) (res : PRes Ast) : Outcome → Prop
  | .ok es => ∃ j a, res = .ok (.done j a) ∧ j.At P rest ∧ a.flat = es ∧ a.WF
  | .error k => res = .ok (.err (.failure (.custom k)))

/-- The loop reads the remaining lines. -/
theorem recipeLoop_at {c : Char} (hc : isAscii c = true) (hP : P.content.length ≤ 1) (hm : Block.Mono P)
    {line rest : List LChar} (hr : RecipeText c t line rest) :
    ∀ {i : Span} {pre : List LChar} {o : Outcome}, (pre = [] ∨ ∃ a, pre = a ++ [('\n', .synthetic)]) →
      Reads (pre ++ line) o → i.At P t → Free '#' t →
      ∃ r q reason phys next, grabCommandLine c i = .ok (.done r (q, reason)) ∧ reason ≠ .comment ∧ q.At P phys ∧
        r.At P next ∧ next.length < t.length ∧ ∀ acc n, Front (pre ++ phys) acc → Block.Mono acc →
        next.length < n → RecipeOut P rest (recipeLoop c n r acc) o := by
  have parse : ∀ {b : Block} {t : List LChar} {j : Span} {rest : List LChar} {o : Outcome}, Front t b → Block.Mono b →
      Reads t o → j.At P rest → RecipeOut P rest ((parseAst b.span).andThen fun _ ast => done j ast) o := by
    intro b t j rest o hb hbm hr hj
    have hmt := parseAst_at hbm hb.at hr
    cases o with
    | ok es =>
      obtain ⟨r', a, e1, _, e3, e4⟩ := hmt
      exact ⟨j, a, by rw [e1, done_andThen]; rfl, hj, e3, e4⟩
    | error k =>
      show _ = _
      rw [hmt.1]; rfl
  have slashes : ∀ {pre line : List LChar}, (pre = [] ∨ ∃ a, pre = a ++ [('\n', .synthetic)]) →
      trailingSlashes (textOf (pre ++ line)) = trailingSlashes (textOf line) := by
    intro pre line hpre
    rcases hpre with rfl | ⟨a, rfl⟩
    · rfl
    · simp only [List.append_assoc, List.singleton_append, textOf_append, textOf_cons]
      exact trailingSlashes_last (by decide)
  have short : ∀ {tail rest : List LChar}, EndsLine tail rest → rest.length ≤ tail.length := by
    intro tail rest he
    rcases he with ⟨rfl, rfl⟩ | ⟨loc, rfl⟩ <;> simp
  induction hr with
  | @last l line tail rest hl hev he =>
    intro i pre o hpre hread h hf
    obtain ⟨r, q, reason, e1, e2, e3, e4⟩ := grabCommandLine_at hc h hl he (Free.cons.mp hf).2
    refine ⟨r, q, reason, line, rest, e1, e2, e4, e3, ?_, fun acc n hb hbm hn => ?_⟩
    · have := short he
      simp; omega
    obtain ⟨n, rfl⟩ : ∃ k, n = k + 1 := ⟨n - 1, by omega⟩
    have : ¬ trailingSlashes (textOf line) % 2 = 1 := by omega
    simp only [recipeLoop, endsWithBackslash_at hb.at, ok_bind, slashes hpre, if_neg this]
    exact parse hb hbm hread e3
  | @stop l line tail rest hl hodd he hh =>
    intro i pre o hpre hread h hf
    obtain ⟨r, q, reason, e1, e2, e3, e4⟩ := grabCommandLine_at hc h hl he (Free.cons.mp hf).2
    refine ⟨r, q, reason, line, rest, e1, e2, e4, e3, ?_, fun acc n hb hbm hn => ?_⟩
    · have := short he
      simp; omega
    obtain ⟨n, rfl⟩ : ∃ k, n = k + 1 := ⟨n - 1, by omega⟩
    obtain ⟨hb', hbm', _⟩ := hb.newline
    rw [List.append_assoc] at hb'
    have hnone : grabCommandLine c r = .ok (.err (.error .code)) := by
      unfold grabCommandLine
      rw [(Nom.char_at e3 hc).2 hh]
      rfl
    simp only [recipeLoop, endsWithBackslash_at hb.at, ok_bind, slashes hpre, if_pos hodd, hnone]
    exact parse hb' (hbm' hbm) hread e3
  | @more l line tail next line' rest hl hodd he _ ih =>
    intro i pre o hpre hread h hf
    obtain ⟨r, q, reason, e1, e2, e3, e4⟩ := grabCommandLine_at hc h hl he (Free.cons.mp hf).2
    have hfn : Free '#' next := by
      intro x hx
      refine hf x (List.mem_cons_of_mem _ (List.mem_append.mpr (.inr ?_)))
      rcases he with ⟨rfl, rfl⟩ | ⟨loc, rfl⟩
      · cases hx
      · exact List.mem_cons_of_mem _ hx
    obtain ⟨r', q', reason', phys, next', f1, f2, f3, f4, f6, f7⟩ := ih (i := r) (pre := pre ++ line ++ [('\n', .synthetic)])
      (.inr ⟨_, rfl⟩) (o := o) (by simpa using hread) e3 hfn
    refine ⟨r, q, reason, line, next, e1, e2, e4, e3, ?_, fun acc n hb hbm hn => ?_⟩
    · have := short he
      simp; omega
    obtain ⟨n, rfl⟩ : ∃ k, n = k + 1 := ⟨n - 1, by omega⟩
    obtain ⟨hb', hbm', hb0⟩ := hb.newline
    obtain ⟨cr, c1, c2, c3, c4, c5⟩ := f3.toContentReference
    have g1 := f7 _ n (hb'.pushRef hb0 c2 c4) (Block.push_mono (hbm' hbm) (c5 hP hm)) (by omega)
    simp only [recipeLoop, endsWithBackslash_at hb.at, ok_bind, slashes hpre, if_pos hodd, f1, c1, if_neg f2]
    exact g1

/-- Reading a recipe line, whatever its text. -/
theorem recipeLine_out {c : Char} (hc : isAscii c = true) (hP : P.content.length ≤ 1) (hm : Block.Mono P)
    {line rest : List LChar} (h : i.At P t) (hf : Free '#' t) (hr : RecipeText c t line rest) {o : Outcome}
    (he : Reads line o) : RecipeOut P rest (recipeLine c i) o := by
  obtain ⟨r, q, reason, phys, next, e1, e2, e3, e4, _, e6⟩ := recipeLoop_at hc hP hm hr (.inl rfl) (pre := []) he h hf
  obtain ⟨b, b1, b2, b3, _, b5, b6, b7⟩ := e3.toNewBlock
  have g := e6 b (r.length + 1) (Buf.front ⟨b2, b5, b6⟩) (b7 hm) (by rw [e4.length]; omega)
  simp only [recipeLine, e1, done_andThen, if_neg e2, b1, ok_bind]
  exact g

theorem recipeLine_at {c : Char} (hc : isAscii c = true) (hP : P.content.length ≤ 1) (hm : Block.Mono P)
    {line rest : List LChar} (h : i.At P t) (hf : Free '#' t) (hr : RecipeText c t line rest) {es : List Expr}
    (he : Reads line (.ok es)) :
    ∃ j a, recipeLine c i = .ok (.done j a) ∧ j.At P rest ∧ a.flat = es ∧ a.WF :=
  recipeLine_out hc hP hm h hf hr he

/-- Every text that begins with the marker begins with a recipe line. -/
theorem recipeText_exists {c : Char} : ∀ {t : List LChar}, (textOf t).head? = some c → ∃ line rest, RecipeText c t line rest := by
  intro t
  induction h : t.length using Nat.strongRecOn generalizing t with
  | ind n ih =>
    intro hh
    cases t with
    | nil => simp at hh
    | cons x u =>
      obtain ⟨d, l⟩ := x
      simp only [textOf_cons, List.head?_cons, Option.some.injEq] at hh
      subst hh
      have key : ∃ line tail next, u = line ++ tail ∧ Free '\n' line ∧ EndsLine tail next := by
        by_cases hn : '\n' ∈ textOf u
        · obtain ⟨a, loc, b, e, h1, _⟩ := Nom.takeWhile_split hn
          exact ⟨a, ('\n', loc) :: b, b, e, free_iff.mpr h1, .inr ⟨loc, rfl⟩⟩
        · exact ⟨u, [], [], by simp, free_iff.mpr hn, .inl ⟨rfl, rfl⟩⟩
      obtain ⟨line, tail, next, rfl, hl, he⟩ := key
      by_cases hev : trailingSlashes (textOf line) % 2 = 0
      · exact ⟨line, next, .last hl hev he⟩
      · by_cases hc : (textOf next).head? = some d
        · have hlt : next.length < n := by
            subst h
            rcases he with ⟨rfl, rfl⟩ | ⟨loc, rfl⟩ <;> simp
            omega
          obtain ⟨line', rest, hr⟩ := ih _ hlt rfl hc
          exact ⟨_, rest, .more hl (by omega) he hr⟩
        · exact ⟨_, next, .stop hl (by omega) he hc⟩

theorem RecipeText.lt {c : Char} {line rest : List LChar} (h : RecipeText c t line rest) : rest.length < t.length := by
  have short : ∀ {tail rest : List LChar}, EndsLine tail rest → rest.length ≤ tail.length := by
    intro tail rest he
    rcases he with ⟨rfl, rfl⟩ | ⟨loc, rfl⟩ <;> simp
  induction h with
  | last _ _ he => have := short he; simp; omega
  | stop _ _ he _ => have := short he; simp; omega
  | more _ _ he _ ih => have := short he; simp; omega

theorem EndsLine.suffix {tail rest : List LChar} (h : EndsLine tail rest) : rest <:+ tail := by
  rcases h with ⟨rfl, rfl⟩ | ⟨loc, rfl⟩
  · exact List.suffix_refl _
  · exact List.suffix_cons _ _

theorem RecipeText.suffix {c : Char} {line rest : List LChar} (h : RecipeText c t line rest) : rest <:+ t := by
  induction h with
  | last _ _ he => exact (he.suffix.trans (List.suffix_append _ _)).trans (List.suffix_cons _ _)
  | stop _ _ he _ => exact (he.suffix.trans (List.suffix_append _ _)).trans (List.suffix_cons _ _)
  | more _ _ he _ ih => exact ((ih.trans he.suffix).trans (List.suffix_append _ _)).trans (List.suffix_cons _ _)

theorem RecipeText.head {c : Char} {line rest : List LChar} (h : RecipeText c t line rest) : (textOf t).head? = some c := by
  cases h <;> rfl

/-- A recipe line of an open rule that is not a well-formed expression. -/
theorem parseLine_badRecipe (fs : Fs) (r : Rec) (hP : P.content.length ≤ 1) (hm : Block.Mono P) {p : PState} {st : St}
    {o : ProtoRule} {line rest : List LChar} (h : i.At P t) (hf : Free '#' t) (hc : isAscii st.commandChar = true)
    (hp : p.currentRule = some o) (hr : RecipeText st.commandChar t line rest) {k : ParseErrorKind} (he : Reads line (.error k)) :
    parseLine fs r p st i = .ok (.err (.failure (.custom k)), p, st) := by
  have e1 : recipeLine st.commandChar i = .ok (.err (.failure (.custom k))) := recipeLine_out hc hP hm h hf hr he
  unfold parseLine
  rw [comment_none h (free_dropWhile hf)]
  simp [hp, e1]

/-- A recipe line of an open rule. -/
theorem parseLine_recipe (fs : Fs) (r : Rec) (hP : P.content.length ≤ 1) (hm : Block.Mono P) {p : PState} {st : St}
    {o : ProtoRule} {line rest : List LChar} (h : i.At P t) (hf : Free '#' t) (hc : isAscii st.commandChar = true)
    (hp : p.currentRule = some o) (hr : RecipeText st.commandChar t line rest) {es : List Expr} (he : Reads line (.ok es)) :
    ∃ j a, j.At P rest ∧ a.flat = es ∧ a.WF ∧ parseLine fs r p st i =
      .ok (.done j (), { p with currentRule := some { o with recipe := o.recipe ++ [a] } }, st) := by
  obtain ⟨j, a, e1, e2, e3, e4⟩ := recipeLine_at hc hP hm h hf hr he
  refine ⟨j, a, e2, e3, e4, ?_⟩
  unfold parseLine
  rw [comment_none h (free_dropWhile hf)]
  simp only [ok_bind, hp, Option.isSome_some, if_true, e1, PState.pushCommandLine, runwrap]
  rfl

end Hastur
