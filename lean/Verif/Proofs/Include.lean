import Verif.Spec.Include
import Verif.Proofs.Close
import Verif.Proofs.Driver
import Verif.Proofs.FileNames
/-
Lemmas: include lines.
-/
namespace Hastur

open Res Span

variable {P : Block} {t : List LChar} {i : Span}

/-! ### The keyword -/

def includeWords : List Str := ["include".toList, "sinclude".toList, "-include".toList]

theorem not_prefix_append {w kw rest : Str} (h1 : ¬ w <+: kw) (h2 : ¬ kw <+: w) : ¬ w <+: kw ++ rest := fun h =>
  (List.prefix_or_prefix_of_prefix h (List.prefix_append kw rest)).elim h1 h2

theorem include_not_cond : ∀ kw ∈ includeWords, ∀ w ∈ condWords, ¬ w <+: kw ∧ ¬ kw <+: w := by decide

theorem include_not_directive : ∀ w ∈ ["export".toList, "unexport".toList, "vpath".toList],
    ∀ kw ∈ includeWords, ¬ w <+: kw ∧ ¬ kw <+: w := by decide

theorem include_head : ∀ kw ∈ includeWords, ∃ c s, kw = c :: s ∧ c ≠ ' ' ∧ c ≠ '\t' := by
  unfold includeWords
  intro kw h
  simp only [List.mem_cons, List.not_mem_nil, or_false] at h
  rcases h with rfl | rfl | rfl <;> exact ⟨_, _, rfl, by decide, by decide⟩

theorem IncludeText.keyword {line args : List LChar} {soft : Bool} (h : IncludeText line soft args) :
    ∃ kw, line = kw ++ args ∧ (textOf kw).map lower ∈ includeWords := by
  cases h with
  | hard h => exact ⟨_, rfl, by rw [h]; unfold includeWords; simp⟩
  | soft h => exact ⟨_, rfl, by unfold includeWords; exact List.mem_cons_of_mem _ h⟩

theorem IncludeText.not_cond {line args : List LChar} {soft : Bool} (h : IncludeText line soft args) : ¬ CondLike line := by
  obtain ⟨kw, rfl, hk⟩ := h.keyword
  have key : ∀ w ∈ condWords, ¬ w <+: (textOf (kw ++ args)).map lower := by
    intro w hw
    rw [textOf_append, List.map_append]
    exact not_prefix_append (include_not_cond _ hk w hw).1 (include_not_cond _ hk w hw).2
  intro hc
  cases hc with
  | word hw hp =>
    refine key _ ?_ hp
    simp only [condWords, List.mem_cons, List.not_mem_nil, or_false] at hw ⊢
    rcases hw with rfl | rfl | rfl | rfl <;> simp
  | @eq a b e hw _ =>
    refine key ((textOf a).map lower) ?_ (by rw [e, textOf_append, List.map_append]; exact List.prefix_append _ _)
    generalize (textOf a).map lower = w at hw ⊢
    simp only [condWords, List.mem_cons, List.not_mem_nil, or_false] at hw ⊢
    rcases hw with rfl | rfl <;> simp

theorem IncludeText.dropBlanks {line args : List LChar} {soft : Bool} (h : IncludeText line soft args) :
    line.dropWhile lblank = line ∧ line ≠ [] := by
  obtain ⟨kw, rfl, hk⟩ := h.keyword
  obtain ⟨c, s, e, h1, h2⟩ := include_head _ hk
  cases kw with
  | nil => cases e
  | cons x kw =>
    refine ⟨dropWhile_solid fun y hy => ?_, by simp⟩
    cases hy
    have hl : lower x.1 = c := (List.cons.inj e).1
    simp only [Bool.eq_false_iff, ne_eq, lblank_iff]
    rintro (hb | hb) <;> rw [hb] at hl <;> subst hl
    · exact h1 (by decide)
    · exact h2 (by decide)

/-! ### The directive -/

theorem parseDirectiveLine_include {line args : List LChar} {soft : Bool} {es : List Expr} (hm : Block.Mono P)
    (h : i.At P line) (hi : IncludeText line soft args) (hr : Reads args (.ok es)) :
    ∃ r a, parseDirectiveLine i = .ok (.done r (if soft then .softInclude a else .include_ a)) ∧ a.flat = es ∧ a.WF := by
  obtain ⟨kw, rfl, hk⟩ := hi.keyword
  have bad : ∀ w ∈ ["export".toList, "unexport".toList, "vpath".toList],
      Nom.tagNoCase w i = .ok (.err (.error .code)) := by
    intro w hw
    have h1 : AsciiS w ∧ w.map lower = w := by
      revert w; unfold AsciiS; decide
    refine (Nom.tagNoCase_at h h1.1).2 fun hp => ?_
    rw [h1.2, textOf_append, List.map_append] at hp
    have := include_not_directive w hw _ hk
    exact not_prefix_append this.1 this.2 hp
  have good : ∀ w, AsciiS w → w.map lower = w → (textOf kw).map lower = w →
      ∃ r q a r', Nom.tagNoCase w i = .ok (.done r q) ∧ parseAst r = .ok (.done r' a) ∧ a.flat = es ∧ a.WF := by
    intro w h1 h2 h3
    obtain ⟨r, q, e1, e2, _⟩ := (Nom.tagNoCase_at h h1).1 (by
      rw [h2, textOf_append, List.map_append, h3]; exact List.prefix_append _ _)
    have : w.length = kw.length := by rw [← h3]; simp [textOf]
    rw [this, List.drop_left] at e2
    obtain ⟨r', a, f1, _, f2, f3⟩ := parseAst_at hm e2 hr
    exact ⟨r, q, a, r', e1, f1, f2, f3⟩
  have no : ∀ w w', AsciiS w → w.map lower = w → (textOf kw).map lower = w' → (¬ w <+: w' ∧ ¬ w' <+: w) →
      Nom.tagNoCase w i = .ok (.err (.error .code)) := by
    intro w w' h1 h2 h3 h4
    refine (Nom.tagNoCase_at h h1).2 fun hp => ?_
    rw [h2, textOf_append, List.map_append, h3] at hp
    exact not_prefix_append h4.1 h4.2 hp
  have ascii : ∀ w ∈ includeWords, AsciiS w ∧ w.map lower = w := by
    unfold AsciiS includeWords; decide
  have a1 := ascii _ (show "include".toList ∈ _ by unfold includeWords; simp)
  have a2 := ascii _ (show "sinclude".toList ∈ _ by unfold includeWords; simp)
  have a3 := ascii _ (show "-include".toList ∈ _ by unfold includeWords; simp)
  have key : (soft = false ∧ (textOf kw).map lower = "include".toList) ∨
      (soft = true ∧ ((textOf kw).map lower = "sinclude".toList ∨ (textOf kw).map lower = "-include".toList)) := by
    generalize hl : kw ++ args = line at hi
    cases hi with
    | hard h =>
      rename_i kw'
      cases List.append_cancel_right hl
      exact .inl ⟨rfl, h⟩
    | soft h =>
      rename_i kw'
      cases List.append_cancel_right hl
      exact .inr ⟨rfl, by simpa using h⟩
  unfold parseDirectiveLine
  simp only [bad _ (show "export".toList ∈ _ by simp), bad _ (show "unexport".toList ∈ _ by simp),
    bad _ (show "vpath".toList ∈ _ by simp)]
  rcases key with ⟨rfl, hk⟩ | ⟨rfl, hk | hk⟩
  · obtain ⟨r, q, a, r', e1, e2, e3, e4⟩ := good _ a1.1 a1.2 hk
    refine ⟨r', a, ?_, e3, e4⟩
    rw [e1, done_andThen, e2]
    rfl
  · obtain ⟨r, q, a, r', e1, e2, e3, e4⟩ := good _ a2.1 a2.2 hk
    refine ⟨r', a, ?_, e3, e4⟩
    rw [no _ _ a1.1 a1.2 hk (by decide), e1, done_andThen, e2]
    rfl
  · obtain ⟨r, q, a, r', e1, e2, e3, e4⟩ := good _ a3.1 a3.2 hk
    refine ⟨r', a, ?_, e3, e4⟩
    rw [no _ _ a1.1 a1.2 hk (by decide), no _ _ a2.1 a2.2 hk (by decide), e1, done_andThen, e2]
    rfl

/-- An include line ends the current rule and is handled. -/
theorem parseLine_include_of (fs : Fs) {line rest args : List LChar} {soft : Bool} {p : PState} {st : St} {es : List Expr}
    (h : FoundLine P i t line rest p st) (ho : p.currentRule = none ∨ (textOf t).head? ≠ some st.commandChar)
    (ha : p.ignoring = false) (hi : IncludeText line soft args) (hv : ¬ VarLike line) (hr : Reads args (.ok es)) :
    ∃ j a, j.At P rest ∧ a.WF ∧ a.flat = es ∧ ∀ n, parseLine fs (recF fs n) p st i =
      (p.closeRule st).bind fun (p, st) => (handleInclude fs (recF fs n) soft a st).bind fun (res, st) =>
        .ok (lineResult j (res, p, st)) := by
  obtain ⟨j, b, e1, e2, e3⟩ := h.found
  have hat := e3.at
  have hbm := e3.mono h.pieces h.mono
  have hdrop := hi.dropBlanks
  have hlen : b.len ≠ 0 := by
    have := hat.length
    have e : b.span.length = b.len := rfl
    rw [← e, this]
    simpa using hdrop.2
  obtain ⟨r, a, f1, f2, f3⟩ := parseDirectiveLine_include hbm hat hi hr
  refine ⟨j, a, e2, f3, f2, fun n => ?_⟩
  rw [parseLine_collapsed_of fs _ h.at_ h.comment h.define h.command ho]
  obtain ⟨k, hv⟩ := parseVariableLine_none (recF fs n) st hat (by rw [hdrop.1]; exact hv)
  unfold parseCollapsed
  simp only [e1, ok_bind, if_neg hlen, parseConditionalLine_none hat (by rw [hdrop.1]; exact hi.not_cond),
    if_neg (show ¬ p.ignoring = true by rw [ha]; decide)]
  unfold parseStatement
  simp only [hv, ok_bind, f1]
  cases soft <;> rfl

theorem parseLine_include (fs : Fs) {line rest args : List LChar} {soft : Bool} {p : PState} {st : St} {es : List Expr}
    (h : AtLine P i t line rest p st) (ho : p.currentRule = none ∨ (textOf t).head? ≠ some st.commandChar)
    (ha : p.ignoring = false) (hi : IncludeText line soft args) (hv : ¬ VarLike line) (hr : Reads args (.ok es)) :
    ∃ j a, j.At P rest ∧ a.WF ∧ a.flat = es ∧ ∀ n, parseLine fs (recF fs n) p st i =
      (p.closeRule st).bind fun (p, st) => (handleInclude fs (recF fs n) soft a st).bind fun (res, st) =>
        .ok (lineResult j (res, p, st)) :=
  parseLine_include_of fs h.found ho ha hi hv hr

/-! ### The files -/

/-- What is reported for an include line. -/
def includeOutcome : Option Str → Except ParseErrorKind Unit
  | none => .ok ()
  | some f => .error (.includeFailure f)

theorem includeLoop_files {fs : Fs} {soft : Bool} {names : List Str} {st st' : St} {o : Option Str}
    (h : Includes fs soft names st o st') : ∀ {ts : List (List LChar)} {bs : List Block}, Texts ts bs →
      names = ts.map textOf → ∃ N, ∀ n, N ≤ n → includeLoop fs (recF fs n) soft bs st =
        .ok (includeOutcome o, st') := by
  induction h with
  | done =>
    intro ts bs hb e
    cases hb with
    | nil => exact ⟨0, fun n _ => rfl⟩
    | cons _ _ => cases e
  | file hf hg _ ih =>
    intro ts bs hb e
    cases hb with
    | nil => cases e
    | cons h1 h2 =>
    obtain ⟨e1, e2⟩ := List.cons.inj e
    obtain ⟨N1, hN1⟩ := hg
    obtain ⟨N2, hN2⟩ := ih h2 e2
    refine ⟨max N1 N2, fun n hn => ?_⟩
    have hread := hN1 n (by omega)
    unfold readF at hread
    unfold includeLoop
    rw [h1.string, ← e1]
    simp only [ok_bind, hf, hread]
    exact hN2 n (by omega)
  | skip hs hf _ ih =>
    intro ts bs hb e
    cases hb with
    | nil => cases e
    | cons h1 h2 =>
    obtain ⟨e1, e2⟩ := List.cons.inj e
    obtain ⟨N2, hN2⟩ := ih h2 e2
    refine ⟨N2, fun n hn => ?_⟩
    unfold includeLoop
    rw [h1.string, ← e1]
    simp only [ok_bind, hf, hs, if_true]
    rw [← hs]
    exact hN2 n hn
  | missing hs hf =>
    intro ts bs hb e
    cases hb with
    | nil => cases e
    | cons h1 h2 =>
    obtain ⟨e1, e2⟩ := List.cons.inj e
    refine ⟨0, fun n hn => ?_⟩
    unfold includeLoop
    rw [h1.string, ← e1]
    simp only [ok_bind, hf, hs]
    rfl
  | unreadable hf =>
    intro ts bs hb e
    cases hb with
    | nil => cases e
    | cons h1 h2 =>
    obtain ⟨e1, e2⟩ := List.cons.inj e
    refine ⟨0, fun n hn => ?_⟩
    unfold includeLoop
    rw [h1.string, ← e1]
    simp only [ok_bind, hf]
    rfl

theorem parseFileSeq_plain {b : Block} (h : Buf t b) (hf : PlainNames t) :
    ∃ bs, parseFileSeq [] b.span = .ok bs ∧ Texts (wordsOf t) bs := by
  obtain ⟨bs, e1, e2⟩ := parseFileSeq_spec [] rfl h.at hf.1
  have : fields (fileSep []) t = wordsOf t := by
    refine fieldsFrom_congr [] fun x hx => ?_
    have h2 : (x.1 == Char.ofNat 0) = false := by simpa using hf.2 x hx
    unfold fileSep
    rw [h2]
    simp
  rw [this] at e2
  exact ⟨bs, e1, e2.texts⟩

theorem fileSep_eq (extra : Str) : fileSep extra = separates extra := rfl

theorem IncludeNames.blocks {b : Block} (h : Buf t b) {names : List Str} (hn : IncludeNames t names) :
    ∃ bs ts, parseFileSeq [] b.span = .ok bs ∧ Texts ts bs ∧ names = ts.map textOf := by
  obtain ⟨bs, ns, e1, e2, e3⟩ := parseFileSeq_escaped [] rfl h.at
  obtain ⟨ns', h1, h2⟩ := hn
  exact ⟨bs, ns, e1, e3.texts, by rw [h2, NamesIn.unique h1 (by rw [← fileSep_eq]; exact e2)]⟩

theorem unquote_plain {stop : Char → Bool} (h : Free '\\' t) : unquote stop [] t =
    (t.takeWhile (fun x => !stop x.1), match t.dropWhile (fun x => !stop x.1) with | [] => none | x :: r => some (x, r)) := by
  induction t with
  | nil => rfl
  | cons x t ih =>
    have hx : x.1 ≠ '\\' := h x (by simp)
    rw [unquote, if_neg hx]
    by_cases hs : stop x.1 = true
    · simp [hs]
    · rw [if_neg hs, ih (fun y hy => h y (by simp [hy]))]
      simp [hs]

theorem trailingSlashes_textOf (h : Free '\\' t) : trailingSlashes (textOf t) = 0 := by
  unfold trailingSlashes
  rw [List.length_eq_zero_iff, List.takeWhile_eq_nil_iff]
  intro h0 hc
  have hm : (textOf t).reverse[0] ∈ (textOf t).reverse := List.getElem_mem _
  obtain ⟨x, hx, e⟩ := List.mem_map.mp (List.mem_reverse.mp hm)
  exact h x hx (by rw [e]; simpa using hc)

theorem namesIn_fields (stop : Char → Bool) (h : Free '\\' t) : NamesIn stop (lastName stop) t (fields stop t) := by
  obtain ⟨n, hn⟩ : ∃ n, t.length < n := ⟨_, Nat.lt_succ_self _⟩
  induction n generalizing t with
  | zero => omega
  | succ n ih =>
    rw [fields_step]
    have hu := unquote_plain (stop := stop) h
    have hf : (if t.takeWhile (fun x => !stop x.1) = [] then [] else [t.takeWhile (fun x => !stop x.1)]) =
        [t.takeWhile (fun x => !stop x.1)].filter (· ≠ []) := by
      split <;> simp_all
    rw [hf]
    cases hd : t.dropWhile (fun x => !stop x.1) with
    | nil =>
      rw [hd] at hu
      have hl : lastName stop t = t.takeWhile (fun x => !stop x.1) := by
        unfold lastName
        rw [trailingSlashes_textOf h, hu]
        simp
      have := NamesIn.rest (last := lastName stop) (t := t) (stop := stop) (by rw [hu])
      rw [hl] at this
      simpa [fields, fieldsFrom] using this
    | cons x r =>
      rw [hd] at hu
      have hr : t = t.takeWhile (fun x => !stop x.1) ++ x :: r := by rw [← hd, List.takeWhile_append_dropWhile]
      have hlen : r.length < t.length := by rw [hr]; simp; omega
      have := NamesIn.next (last := lastName stop) (t := t) (stop := stop) (x := x) (rest := r) (by rw [hu])
        (ih (fun y hy => h y (by rw [hr]; simp [hy])) (by omega))
      rw [hu] at this
      exact this

/-- Names without escapes are the words of the text. -/
theorem PlainNames.names (h : PlainNames t) : IncludeNames t ((wordsOf t).map textOf) := by
  refine ⟨wordsOf t, ?_, rfl⟩
  have : fields (separates []) t = wordsOf t := by
    refine fieldsFrom_congr [] fun x hx => ?_
    have h2 : (x.1 == Char.ofNat 0) = false := by simpa using h.2 x hx
    unfold separates
    rw [h2]
    simp
  rw [← this]
  exact namesIn_fields _ h.1

/-- Expanding the arguments, and reading the files. -/
theorem handleInclude_files {fs : Fs} {soft : Bool} {a : Ast} {st st' : St} {o : Option Str} {u : List LChar} {vs : List Str}
    (ha : a.WF) (hst : st.WF) (he : Expands st.env a.flat u vs) {names : List Str}
    (hu : IncludeNames u names) (h : Includes fs soft names (st.interned vs) o st') :
    ∃ N, ∀ n, N ≤ n → handleInclude fs (recF fs n) soft a st =
      .ok (includeOutcome o, st') := by
  obtain ⟨N1, hN1⟩ := evals_of_expands fs ha hst he
  obtain ⟨b, g1, g2, _, g4, g5⟩ := hN1.eval
  obtain ⟨bs, ts, k1, k2, k3⟩ := hu.blocks ⟨g2, g4, g5⟩
  obtain ⟨N2, hN2⟩ := includeLoop_files h k2 k3
  refine ⟨max N1 N2, fun n hn => ?_⟩
  unfold handleInclude
  simp only [((recF_le fs (show N1 ≤ n by omega)).eval a st).ok g1, ok_bind, k1]
  exact hN2 n (by omega)

end Hastur
