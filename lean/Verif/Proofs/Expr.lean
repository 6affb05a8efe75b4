import Verif.Proofs.Unquote
import Verif.Spec.Expr
/-
Lemmas: the expression parser reads a text as `Reads` says.
-/
namespace Hastur

open Res
open Span (indexed stopIdx)

/-! ### Whitespace repetition -/

theorem Span.sliceFrom_zero {s : Span} (h : s.Good) (hl : 0 < s.length) : s.sliceFrom 0 = .ok s := by
  obtain ⟨_, h⟩ := h
  rcases h with h | ⟨c, cs, h1, h2, _⟩
  · omega
  · have h3 : (⟨s.parent, s.start, s.offset, s.length⟩ : Span).contents = c :: cs := h1
    have h4 : ¬ s.length = 0 := by omega
    have h5 : ¬ c.length ≤ s.offset := by omega
    simp [Span.sliceFrom, usub, Span.revalidate, h4, h3, Span.revalLoop, h5]

theorem whitespace_again {P : Block} {t : List LChar} {i r q : Span} (h : i.At P t)
    (hr : whitespace i = .ok (.done r q)) : ∃ q', whitespace r = .ok (.done r q') := by
  obtain ⟨r0, q0, h1, h2, h3⟩ := whitespace_at h
  rw [hr] at h1
  simp only [Res.ok.injEq, IRes.done.injEq] at h1
  obtain ⟨rfl, rfl⟩ := h1
  have hs := Span.splitAtPosition_eq h2.good.wf (fun c => !isBlank c)
  cases hd : t.dropWhile lblank with
  | nil =>
    -- all blanks: `r` is the empty span at the end
    have hri : r = i.emptyAtEnd := by
      have hs' := Span.splitAtPosition_eq h.good.wf (fun c => !isBlank c)
      simp only [whitespace, Nom.takeTill, hs', Res.ok_bind, Res.done, Res.ok.injEq, IRes.done.injEq] at hr
      have : ¬ stopIdx (fun c => !isBlank c) i.text < i.length := by
        have hlen : (i.text.dropWhile isBlank).length = 0 := by
          rw [h.text, ← textOf_dropWhile]
          have : (t.dropWhile fun x => isBlank x.1) = [] := hd
          rw [this]; rfl
        rw [h.length, ← textOf_length t, ← h.text]
        have e := List.takeWhile_append_dropWhile (p := isBlank) (l := i.text)
        have e := congrArg List.length e
        rw [List.length_append] at e
        have e2 : stopIdx (fun c => !isBlank c) i.text = (i.text.takeWhile isBlank).length := by simp [stopIdx]
        rw [e2]
        omega
      rw [← hr.1, Span.restAt, if_neg this]
    refine ⟨r.sliceTo (stopIdx (fun c => !isBlank c) r.text), ?_⟩
    · simp only [whitespace, Nom.takeTill, hs, Res.ok_bind, Res.done, Res.ok.injEq, IRes.done.injEq]
      refine ⟨?_, trivial⟩
      subst hri
      rw [Span.restAt]
      have : ¬ stopIdx (fun c => !isBlank c) i.emptyAtEnd.text < i.emptyAtEnd.length := by
        simp [Span.emptyAtEnd]
      rw [if_neg this]
      rfl
  | cons x u =>
    have hx : lblank x = false := by
      have := List.head?_dropWhile_not lblank t
      rw [hd] at this
      simpa using this
    rw [hd] at h2
    have h0 : stopIdx (fun c => !isBlank c) r.text = 0 := by
      rw [h2.text]
      have : isBlank x.1 = false := hx
      simp [stopIdx, this]
    have hl : 0 < r.length := by rw [h2.length]; simp
    refine ⟨r.sliceTo (stopIdx (fun c => !isBlank c) r.text), ?_⟩
    · simp only [whitespace, Nom.takeTill, hs, Res.ok_bind, Res.done, Res.ok.injEq, IRes.done.injEq]
      refine ⟨?_, trivial⟩
      rw [h0, Span.restAt, if_pos hl, Span.dropS, Span.sliceFrom_zero h2.good hl]

theorem many0_whitespace {P : Block} {t : List LChar} {i : Span} (h : i.At P t) :
    ∃ r, Nom.many0 whitespace i = .ok (.done r ()) ∧ r.At P (skipBlanks t) := by
  obtain ⟨r, q, h1, h2, h3⟩ := whitespace_at h
  obtain ⟨q', h4⟩ := whitespace_again h h1
  have hsk : skipBlanks t = t.dropWhile lblank := rfl
  rw [hsk]
  unfold Nom.many0
  rw [show i.length + 3 = (i.length + 1 + 1) + 1 from rfl, Nom.many0Loop, h1]
  simp only [Res.ok_bind]
  by_cases hs : Nom.sameSpan r i = true
  · rw [if_pos hs]
    refine ⟨i, rfl, ?_⟩
    have : r = i := by
      have hp := h2.parent.trans h.parent.symm
      cases r; cases i
      simp only [Nom.sameSpan, Bool.and_eq_true, beq_iff_eq] at hs
      simp only at hp
      simp [hs, hp]
    rw [← this]; exact h2
  · rw [if_neg hs, Nom.many0Loop, h4]
    simp only [Res.ok_bind]
    rw [if_pos (by simp [Nom.sameSpan])]
    exact ⟨r, rfl, h2⟩

theorem many1_whitespace {P : Block} {t : List LChar} {i : Span} (h : i.At P t) :
    ∃ r, Nom.many1 whitespace i = .ok (.done r ()) ∧ r.At P (skipBlanks t) := by
  obtain ⟨r, q, h1, h2, h3⟩ := whitespace_at h
  obtain ⟨q', h4⟩ := whitespace_again h h1
  refine ⟨r, ?_, h2⟩
  unfold Nom.many1
  rw [h1]
  simp only [Res.ok_bind, Nom.many1Loop, h4]
  simp [Res.done]

/-! ### Brackets and arguments -/

theorem balance_eq (opn cls : Char) (k d : Nat) (t : List LChar) :
    balance opn cls (d + 1) (indexed k (textOf t)) = (closing opn cls d t).map fun p => k + p.1.length := by
  induction t generalizing k d with
  | nil => rfl
  | cons x t ih =>
    simp only [textOf_cons, Span.indexed_cons, balance, closing]
    split
    · rw [ih]; cases closing opn cls (d + 1) t <;> simp; omega
    · split
      · by_cases hd : d = 0
        · subst hd; simp
        · rw [if_neg (by omega), if_neg hd]
          obtain ⟨e, rfl⟩ := Nat.exists_eq_succ_of_ne_zero hd
          have := ih (k + 1) e
          simp only [Nat.succ_eq_add_one, Nat.add_sub_cancel] at this ⊢
          rw [this]; cases closing opn cls e t <;> simp; omega
      · rw [ih]; cases closing opn cls d t <;> simp; omega

theorem closing_some {opn cls : Char} {d : Nat} {t name rest : List LChar} (h : closing opn cls d t = some (name, rest)) :
    ∃ l, t = name ++ (cls, l) :: rest := by
  induction t generalizing d name with
  | nil => cases h
  | cons x t ih =>
    simp only [closing] at h
    have key : ∀ d', (closing opn cls d' t).map (fun p => (x :: p.1, p.2)) = some (name, rest) →
        ∃ l, x :: t = name ++ (cls, l) :: rest := by
      intro d' h
      obtain ⟨⟨n, r⟩, h1, h2⟩ := Option.map_eq_some_iff.mp h
      simp only [Prod.mk.injEq] at h2
      obtain ⟨rfl, rfl⟩ := h2
      obtain ⟨l, rfl⟩ := ih h1
      exact ⟨l, rfl⟩
    split at h
    · exact key _ h
    · split at h
      · rename_i hx
        split at h
        · simp only [Option.some.injEq, Prod.mk.injEq] at h
          obtain ⟨rfl, rfl⟩ := h
          exact ⟨x.2, by rw [← hx]; rfl⟩
        · exact key _ h
      · exact key _ h

/-- What the scan for the end of an argument finds. -/
theorem argScan_eq (k p c : Nat) (t : List LChar) :
    (cutArg p c t = none → argScan p c (indexed k (textOf t)) = .unbalanced) ∧
    (∀ a, cutArg p c t = some (a, []) → a = t ∧ argScan p c (indexed k (textOf t)) = .toEnd) ∧
    (∀ a x r, cutArg p c t = some (a, x :: r) → t = a ++ x :: r ∧ x.1 = ',' ∧
      argScan p c (indexed k (textOf t)) = .comma (k + a.length)) := by
  induction t generalizing k p c with
  | nil => simp [cutArg, argScan]
  | cons y t ih =>
    have key : ∀ p' c', argScan p c (indexed k (textOf (y :: t))) = argScan p' c' (indexed (k + 1) (textOf t)) →
        cutArg p c (y :: t) = (cutArg p' c' t).map (fun q => (y :: q.1, q.2)) →
        (cutArg p c (y :: t) = none → argScan p c (indexed k (textOf (y :: t))) = .unbalanced) ∧
        (∀ a, cutArg p c (y :: t) = some (a, []) → a = y :: t ∧ argScan p c (indexed k (textOf (y :: t))) = .toEnd) ∧
        (∀ a x r, cutArg p c (y :: t) = some (a, x :: r) → y :: t = a ++ x :: r ∧ x.1 = ',' ∧
          argScan p c (indexed k (textOf (y :: t))) = .comma (k + a.length)) := by
      intro p' c' e1 e2
      rw [e1, e2]
      obtain ⟨i1, i2, i3⟩ := ih (k + 1) p' c'
      refine ⟨?_, ?_, ?_⟩
      · intro h
        exact i1 (by simpa using h)
      · intro a h
        obtain ⟨⟨a', r'⟩, h1, h2⟩ := Option.map_eq_some_iff.mp h
        simp only [Prod.mk.injEq] at h2
        obtain ⟨rfl, rfl⟩ := h2
        obtain ⟨rfl, h3⟩ := i2 _ h1
        exact ⟨rfl, h3⟩
      · intro a x r h
        obtain ⟨⟨a', r'⟩, h1, h2⟩ := Option.map_eq_some_iff.mp h
        simp only [Prod.mk.injEq] at h2
        obtain ⟨rfl, rfl⟩ := h2
        obtain ⟨rfl, h3, h4⟩ := i3 _ _ _ h1
        refine ⟨rfl, h3, ?_⟩
        rw [h4]; simp; omega
    by_cases h1 : y.1 = '('
    · exact key (p + 1) c (by simp [argScan, h1]) (by simp [cutArg, h1])
    by_cases h2 : y.1 = ')'
    · by_cases hp : 0 < p
      · exact key (p - 1) c (by simp [argScan, h2, hp]) (by simp [cutArg, h2, hp])
      · simp [argScan, cutArg, h2, hp]
    by_cases h3 : y.1 = '{'
    · exact key p (c + 1) (by simp [argScan, h3]) (by simp [cutArg, h3])
    by_cases h4 : y.1 = '}'
    · by_cases hp : 0 < c
      · exact key p (c - 1) (by simp [argScan, h4, hp]) (by simp [cutArg, h4, hp])
      · simp [argScan, cutArg, h4, hp]
    by_cases h5 : y.1 = ','
    · by_cases h6 : c = 0 ∧ p = 0
      · simp only [textOf_cons, Span.indexed_cons, argScan, cutArg, if_neg h1, if_neg h2, if_neg h3, if_neg h4, if_pos h5, if_pos h6,
          if_pos (And.intro h5 h6)]
        refine ⟨by simp, by simp, ?_⟩
        intro a x r h
        simp only [Option.some.injEq, Prod.mk.injEq, List.cons.injEq] at h
        obtain ⟨rfl, rfl, rfl⟩ := h
        exact ⟨rfl, h5, rfl⟩
      · refine key p c ?_ ?_
        · simp only [textOf_cons, Span.indexed_cons, argScan, if_neg h1, if_neg h2, if_neg h3, if_neg h4, if_pos h5, if_neg h6]
        · have : ¬ (y.1 = ',' ∧ c = 0 ∧ p = 0) := fun h => h6 h.2
          simp only [cutArg, if_neg h1, if_neg h2, if_neg h3, if_neg h4, if_neg this]
    · refine key p c ?_ ?_
      · simp only [textOf_cons, Span.indexed_cons, argScan, if_neg h1, if_neg h2, if_neg h3, if_neg h4, if_neg h5]
      · have : ¬ (y.1 = ',' ∧ c = 0 ∧ p = 0) := fun h => h5 h.1
        simp only [cutArg, if_neg h1, if_neg h2, if_neg h3, if_neg h4, if_neg this]

theorem skipBlanks_idem (t : List LChar) : skipBlanks (skipBlanks t) = skipBlanks t := by
  unfold skipBlanks
  induction t with
  | nil => rfl
  | cons x t ih =>
    by_cases hx : (x.1 == ' ' || x.1 == '\t') = true
    · simp only [List.dropWhile_cons, hx, if_true]; exact ih
    · simp only [List.dropWhile_cons, hx, if_false]
      simp [hx]

theorem skipBlanks_length (t : List LChar) : (skipBlanks t).length ≤ t.length :=
  (List.dropWhile_sublist _).length_le

theorem functionArgument_at {P : Block} {t : List LChar} {i : Span} (h : i.At P t) :
    (cutArg 0 0 (skipBlanks t) = none → functionArgument i = .ok (.err (.failure (.custom .unterminatedVariable)))) ∧
    (∀ a r, cutArg 0 0 (skipBlanks t) = some (a, r) →
      ∃ ri ai, functionArgument i = .ok (.done ri ai) ∧ ri.At P r ∧ ai.At P a) := by
  obtain ⟨j, h1, h2⟩ := many0_whitespace h
  unfold functionArgument
  rw [h1, done_andThen, h2.chars]
  simp only [Span.withIndices_eq 0 h2.ascii]
  obtain ⟨e1, e2, e3⟩ := argScan_eq 0 0 0 (skipBlanks t)
  refine ⟨?_, ?_⟩
  · intro hn
    rw [e1 hn]; rfl
  · intro a r har
    cases r with
    | nil =>
      obtain ⟨rfl, e⟩ := e2 _ har
      rw [e]
      obtain ⟨r, p, s1, s2, s3⟩ := h2.takeSplit (Nat.le_refl _)
      rw [List.drop_length] at s2
      rw [List.take_length] at s3
      simp only [Bool.false_eq_true, if_false, h2.length, s1, Res.ok_bind]
      exact ⟨r, p, rfl, s2, s3⟩
    | cons x r =>
      obtain ⟨e4, _, e⟩ := e3 _ _ _ har
      rw [e]
      obtain ⟨r', p, s1, s2, s3⟩ := h2.takeSplit (n := a.length) (by rw [e4]; simp)
      simp only [Nat.zero_add, s1, Res.ok_bind]
      rw [e4] at s2 s3
      refine ⟨r', p, rfl, by simpa using s2, by simpa using s3⟩

/-! ### The parser -/

theorem flatList_append (a b : List Ast) : Ast.flatList (a ++ b) = Ast.flatList a ++ Ast.flatList b := by
  induction a with
  | nil => rfl
  | cons x a ih => simp [Ast.flatList, ih]

theorem flat_empty {a : Ast} (h : a.isEmpty = true) : a.flat = [] := by
  cases a <;> simp_all [Ast.isEmpty, Ast.flat]

theorem flat_collapsing (loc : Location) (v : List Ast) : (Ast.collapsingConcat loc v).flat = Ast.flatList v := by
  have h : Ast.flatList (v.filter fun a => !a.isEmpty) = Ast.flatList v := by
    induction v with
    | nil => rfl
    | cons a v ih =>
      rw [List.filter_cons]
      by_cases ha : a.isEmpty = true
      · simp only [ha, Bool.not_true, Bool.false_eq_true, if_false]
        rw [ih, Ast.flatList, flat_empty ha, List.nil_append]
      · simp only [ha, Bool.not_false, if_true, Ast.flatList, ih]
  rw [← h]
  unfold Ast.collapsingConcat
  split
  · rename_i a ha
    rw [ha]; simp [Ast.flatList]
  · rfl

theorem flatList_constants (ts : List LStr) : Ast.flatList (ts.map Ast.mkConstant) = Expr.text (segsText ts) := by
  induction ts with
  | nil => rfl
  | cons t ts ih =>
    simp only [List.map_cons, Ast.flatList, ih, segsText_cons, Ast.mkConstant, Ast.flat, Expr.text, List.map_append]

theorem wfList_iff {as : List Ast} : Ast.WFList as ↔ ∀ a ∈ as, a.WF := by
  induction as with
  | nil => simp [Ast.WFList]
  | cons a as ih => simp [Ast.WFList, ih]

theorem wfList_append {a b : List Ast} : Ast.WFList (a ++ b) ↔ Ast.WFList a ∧ Ast.WFList b := by
  simp only [wfList_iff, List.mem_append]
  exact ⟨fun h => ⟨fun x hx => h x (.inl hx), fun x hx => h x (.inr hx)⟩, fun h x hx => hx.elim (h.1 x) (h.2 x)⟩

theorem wfList_constants {ts : List LStr} (h : SegsAscii ts) : Ast.WFList (ts.map Ast.mkConstant) := by
  rw [wfList_iff]
  intro a ha
  obtain ⟨t, ht, rfl⟩ := List.mem_map.mp ha
  exact h t ht

theorem wf_collapsing {loc : Location} {v : List Ast} (h : Ast.WFList v) : (Ast.collapsingConcat loc v).WF := by
  have h' : Ast.WFList (v.filter fun a => !a.isEmpty) := by
    rw [wfList_iff] at h ⊢
    exact fun a ha => h a (List.mem_of_mem_filter ha)
  unfold Ast.collapsingConcat
  split
  · rename_i a ha
    rw [ha] at h'
    exact h'.1
  · exact h'

/-- The parser's result agrees with the specification. -/
def Matches (P : Block) (res : PRes Ast) (o : Outcome) : Prop :=
  match o with
  | .ok es => ∃ r a, res = .ok (.done r a) ∧ r.At P [] ∧ a.flat = es ∧ a.WF
  | .error k => res = .ok (.err (.failure (.custom k))) ∧ k ≠ notAFunctionCall

/-- The recursive parser agrees with the specification on texts shorter than `n`. -/
def ParsesBelow (parse : AstParser) (n : Nat) : Prop :=
  ∀ (P : Block) (t : List LChar) (i : Span) (o : Outcome), t.length < n → Block.Mono P → i.At P t → Reads t o →
    Matches P (parse i) o

theorem funcEntry_at {P : Block} {t : List LChar} {i : Span} (h : i.At P t) {w : Str} (hw : AsciiS w)
    (f : Span → PRes Ast) :
    (w.isPrefixOf (textOf t) = true → ∃ j, funcEntry w f i = f j ∧ j.At P (skipBlanks (t.drop w.length))) ∧
    (w.isPrefixOf (textOf t) = false → funcEntry w f i = .ok (.err (.error .code))) := by
  obtain ⟨h1, h2⟩ := Nom.tag_at h hw
  constructor
  · intro hp
    obtain ⟨r, q, e1, e2, _⟩ := h1 (List.isPrefixOf_iff_prefix.mp hp)
    obtain ⟨j, e3, e4⟩ := many1_whitespace e2
    exact ⟨j, by simp only [funcEntry, e1, done_andThen, e3], e4⟩
  · intro hp
    have := h2 (fun hp' => by rw [List.isPrefixOf_iff_prefix.mpr hp'] at hp; cases hp)
    simp only [funcEntry, this, err_andThen]

/-- The parser of each function. -/
def fnParser (parse : AstParser) (loc : Location) : Fn → Span → PRes Ast
  | .eval => fnEval parse loc
  | .strip => fnStrip parse loc
  | .words => fnWords parse loc
  | .word => fnWord parse loc

theorem eval_orElse_failure {k : NErrKind} {q : PRes Ast} {x : PRes Ast} (h : x = .ok (.err (.failure k))) :
    orElse x q = x := by rw [h]; rfl

/-- A result `alt!` does not recover from. -/
def Final (res : PRes Ast) : Prop := ∀ q, orElse res q = res

theorem functionCall_at {P : Block} {t : List LChar} {i : Span} (h : i.At P t) (parse : AstParser) (loc : Location) :
    (calls t = none → functionCall parse loc i = .ok (.err (.failure (.custom notAFunctionCall)))) ∧
    (∀ f a, calls t = some (f, a) → (∀ j, j.At P a → Final (fnParser parse loc f j)) →
      ∃ j, functionCall parse loc i = fnParser parse loc f j ∧ j.At P a) := by
  have ha : ∀ f : Fn, AsciiS f.name := by intro f; cases f <;> (unfold AsciiS; decide)
  have he := funcEntry_at h (ha .eval) (fnEval parse loc)
  have hs := funcEntry_at h (ha .strip) (fnStrip parse loc)
  have hws := funcEntry_at h (ha .words) (fnWords parse loc)
  have hw := funcEntry_at h (ha .word) (fnWord parse loc)
  simp only [Fn.name] at he hs hws hw
  unfold functionCall calls
  simp only [List.find?_cons, List.find?_nil, Fn.name]
  cases h1 : "eval".toList.isPrefixOf (textOf t) with
  | true =>
    refine ⟨by simp, ?_⟩
    intro f a hfa hfin
    simp only [Option.map_some, Option.some.injEq, Prod.mk.injEq] at hfa
    obtain ⟨rfl, rfl⟩ := hfa
    obtain ⟨j, e1, e2⟩ := he.1 h1
    exact ⟨j, by rw [e1]; exact hfin j e2 _, e2⟩
  | false =>
    rw [he.2 h1, error_orElse]
    cases h2 : "strip".toList.isPrefixOf (textOf t) with
    | true =>
      refine ⟨by simp, ?_⟩
      intro f a hfa hfin
      simp only [Option.map_some, Option.some.injEq, Prod.mk.injEq] at hfa
      obtain ⟨rfl, rfl⟩ := hfa
      obtain ⟨j, e1, e2⟩ := hs.1 h2
      exact ⟨j, by rw [e1]; exact hfin j e2 _, e2⟩
    | false =>
      rw [hs.2 h2, error_orElse]
      cases h3 : "words".toList.isPrefixOf (textOf t) with
      | true =>
        refine ⟨by simp, ?_⟩
        intro f a hfa hfin
        simp only [Option.map_some, Option.some.injEq, Prod.mk.injEq] at hfa
        obtain ⟨rfl, rfl⟩ := hfa
        obtain ⟨j, e1, e2⟩ := hws.1 h3
        exact ⟨j, by rw [e1]; exact hfin j e2 _, e2⟩
      | false =>
        rw [hws.2 h3, error_orElse]
        cases h4 : "word".toList.isPrefixOf (textOf t) with
        | true =>
          refine ⟨by simp, ?_⟩
          intro f a hfa hfin
          simp only [Option.map_some, Option.some.injEq, Prod.mk.injEq] at hfa
          obtain ⟨rfl, rfl⟩ := hfa
          obtain ⟨j, e1, e2⟩ := hw.1 h4
          exact ⟨j, by rw [e1]; exact hfin j e2 _, e2⟩
        | false =>
          rw [hw.2 h4, error_orElse]
          exact ⟨fun _ => rfl, by simp⟩

theorem Matches.final {P : Block} {res : PRes Ast} {o : Outcome} (h : Matches P res o) : Final res := by
  intro q
  cases o with
  | ok es => obtain ⟨r, a, e, _⟩ := h; rw [e]; rfl
  | error k => rw [h.1]; rfl

theorem cutArg_le {p c : Nat} {t a r : List LChar} (h : cutArg p c t = some (a, r)) : a.length + r.length = t.length := by
  cases r with
  | nil => rw [((argScan_eq 0 p c t).2.1 _ h).1]; simp
  | cons x r => rw [((argScan_eq 0 p c t).2.2 _ _ _ h).1]; simp

/-- Function calls. -/
theorem fnParser_at {parse : AstParser} {n : Nat} (hp : ParsesBelow parse n) {P : Block} (hm : Block.Mono P)
    {l : Location} {f : Fn} {a : List LChar} {o : Outcome} (hr : ReadsCall l f a o) (hn : a.length < n) {i : Span}
    (h : i.At P a) (hb : skipBlanks a = a) : Matches P (fnParser parse l f i) o := by
  have hfa := functionArgument_at h
  rw [hb] at hfa
  cases hr with
  | eval hr =>
    rename_i o
    have := hp P a i o hn hm h hr
    cases o with
    | ok es =>
      obtain ⟨r, b, e1, e2, e3, e4⟩ := this
      exact ⟨r, .eval l b, by simp only [fnParser, fnEval, e1, done_andThen]; rfl, e2, by simp [Ast.flat, e3], e4⟩
    | error k =>
      refine ⟨?_, this.2⟩
      show fnEval parse l i = _
      simp only [fnEval, this.1, err_andThen]
  | unbalanced hf hc =>
    have := hfa.1 hc
    cases f with
    | eval => exact absurd rfl hf
    | strip => refine ⟨?_, by simp [notAFunctionCall]⟩; show fnStrip parse l i = _; simp only [fnStrip, this, err_andThen]
    | words => refine ⟨?_, by simp [notAFunctionCall]⟩; show fnWords parse l i = _; simp only [fnWords, this, err_andThen]
    | word => refine ⟨?_, by simp [notAFunctionCall]⟩; show fnWord parse l i = _; simp only [fnWord, this, err_andThen]
  | extra hf hc hy =>
    obtain ⟨ri, ai, e1, e2, e3⟩ := hfa.2 _ _ hc
    have hl : ri.length ≠ 0 := by rw [e2.length]; simpa using hy
    rcases hf with rfl | rfl
    · refine ⟨?_, by simp [notAFunctionCall]⟩; show fnStrip parse l i = _; simp only [fnStrip, e1, done_andThen, if_pos hl]; rfl
    · refine ⟨?_, by simp [notAFunctionCall]⟩; show fnWords parse l i = _; simp only [fnWords, e1, done_andThen, if_pos hl]; rfl
  | strip hc hx =>
    rename_i x o
    obtain ⟨ri, ai, e1, e2, e3⟩ := hfa.2 _ _ hc
    have hl : ¬ ri.length ≠ 0 := by rw [e2.length]; simp
    have hle := cutArg_le hc
    have := hp P x ai o (by simp at hle; omega) hm e3 hx
    cases o with
    | ok es =>
      obtain ⟨r, b, g1, g2, g3, g4⟩ := this
      refine ⟨ri, .strip l b, ?_, e2, by simp [Ast.flat, g3], g4⟩
      simp only [fnParser, fnStrip, e1, done_andThen, if_neg hl, g1]; rfl
    | error k =>
      refine ⟨?_, this.2⟩
      show fnStrip parse l i = _
      simp only [fnStrip, e1, done_andThen, if_neg hl, this.1, err_andThen]
  | words hc hx =>
    rename_i x o
    obtain ⟨ri, ai, e1, e2, e3⟩ := hfa.2 _ _ hc
    have hl : ¬ ri.length ≠ 0 := by rw [e2.length]; simp
    have hle := cutArg_le hc
    have := hp P x ai o (by simp at hle; omega) hm e3 hx
    cases o with
    | ok es =>
      obtain ⟨r, b, g1, g2, g3, g4⟩ := this
      refine ⟨ri, .words l b, ?_, e2, by simp [Ast.flat, g3], g4⟩
      simp only [fnParser, fnWords, e1, done_andThen, if_neg hl, g1]; rfl
    | error k =>
      refine ⟨?_, this.2⟩
      show fnWords parse l i = _
      simp only [fnWords, e1, done_andThen, if_neg hl, this.1, err_andThen]
  | few hc =>
    obtain ⟨ri, ai, e1, e2, e3⟩ := hfa.2 _ _ hc
    have := (Nom.char_at e2 (c := ',') (by decide)).2 (by simp)
    refine ⟨?_, by simp [notAFunctionCall]⟩
    show fnWord parse l i = _
    simp only [fnWord, e1, done_andThen, this, Res.ok_bind]; rfl
  | indexError hc hx =>
    rename_i x y c k
    obtain ⟨ri, ai, e1, e2, e3⟩ := hfa.2 _ _ hc
    obtain ⟨e4, e5, _⟩ := (argScan_eq 0 0 0 a).2.2 _ _ _ hc
    obtain ⟨r2, e6, e7⟩ := (Nom.char_at e2 (c := ',') (by decide)).1 c.2 y (by rw [← e5])
    have hle := cutArg_le hc
    have := hp P x ai _ (by simp at hle; omega) hm e3 hx
    refine ⟨?_, this.2⟩
    show fnWord parse l i = _
    simp only [fnWord, e1, done_andThen, e6, Res.ok_bind, this.1, err_andThen]
  | unbalanced2 hc hx hc2 =>
    rename_i x y c es
    obtain ⟨ri, ai, e1, e2, e3⟩ := hfa.2 _ _ hc
    obtain ⟨e4, e5, _⟩ := (argScan_eq 0 0 0 a).2.2 _ _ _ hc
    obtain ⟨r2, e6, e7⟩ := (Nom.char_at e2 (c := ',') (by decide)).1 c.2 y (by rw [← e5])
    have hle := cutArg_le hc
    obtain ⟨r3, b, g1, g2, g3, g4⟩ := hp P x ai _ (by simp at hle; omega) hm e3 hx
    refine ⟨?_, by simp [notAFunctionCall]⟩
    show fnWord parse l i = _
    simp only [fnWord, e1, done_andThen, e6, Res.ok_bind, g1, (functionArgument_at e7).1 hc2, err_andThen]
  | extra2 hc hx hc2 hw =>
    rename_i x y z w c es
    obtain ⟨ri, ai, e1, e2, e3⟩ := hfa.2 _ _ hc
    obtain ⟨e4, e5, _⟩ := (argScan_eq 0 0 0 a).2.2 _ _ _ hc
    obtain ⟨r2, e6, e7⟩ := (Nom.char_at e2 (c := ',') (by decide)).1 c.2 y (by rw [← e5])
    have hle := cutArg_le hc
    obtain ⟨r3, b, g1, g2, g3, g4⟩ := hp P x ai _ (by simp at hle; omega) hm e3 hx
    obtain ⟨r4, a4, k1, k2, k3⟩ := (functionArgument_at e7).2 _ _ hc2
    have hl : r4.length ≠ 0 := by rw [k2.length]; simpa using hw
    refine ⟨?_, by simp [notAFunctionCall]⟩
    show fnWord parse l i = _
    simp only [fnWord, e1, done_andThen, e6, Res.ok_bind, g1, k1, if_pos hl]; rfl
  | word hc hx hc2 hz =>
    rename_i x y z c es o
    obtain ⟨ri, ai, e1, e2, e3⟩ := hfa.2 _ _ hc
    obtain ⟨e4, e5, _⟩ := (argScan_eq 0 0 0 a).2.2 _ _ _ hc
    obtain ⟨r2, e6, e7⟩ := (Nom.char_at e2 (c := ',') (by decide)).1 c.2 y (by rw [← e5])
    have hle := cutArg_le hc
    obtain ⟨r3, b, g1, g2, g3, g4⟩ := hp P x ai _ (by simp at hle; omega) hm e3 hx
    obtain ⟨r4, a4, k1, k2, k3⟩ := (functionArgument_at e7).2 _ _ hc2
    have hl : ¬ r4.length ≠ 0 := by rw [k2.length]; simp
    have hle2 := cutArg_le hc2
    have hsk := skipBlanks_length y
    have := hp P z a4 o (by simp at hle hle2; omega) hm k3 hz
    cases o with
    | ok ws =>
      obtain ⟨r5, b5, m1, m2, m3, m4⟩ := this
      refine ⟨r4, .word l b b5, ?_, k2, by simp [Ast.flat, g3, m3], g4, m4⟩
      simp only [fnParser, fnWord, e1, done_andThen, e6, Res.ok_bind, g1, k1, if_neg hl, m1]; rfl
    | error k =>
      refine ⟨?_, this.2⟩
      show fnWord parse l i = _
      simp only [fnWord, e1, done_andThen, e6, Res.ok_bind, g1, k1, if_neg hl, this.1, err_andThen]

theorem calls_some {t a : List LChar} {f : Fn} (h : calls t = some (f, a)) :
    skipBlanks a = a ∧ a.length ≤ t.length := by
  unfold calls at h
  obtain ⟨g, _, h2⟩ := Option.map_eq_some_iff.mp h
  simp only [Prod.mk.injEq] at h2
  obtain ⟨rfl, rfl⟩ := h2
  refine ⟨skipBlanks_idem _, ?_⟩
  have := skipBlanks_length (t.drop g.name.length)
  simp at this; omega

/-- One reference was read: what follows it is read next. -/
def RefMatches (P : Block) (n : Nat) (res : PRes Ast) (o : Outcome) : Prop :=
  (∃ r a t' o', res = .ok (.done r a) ∧ r.At P t' ∧ t'.length < n ∧ Reads t' o' ∧ o = o'.map (a.flat ++ ·) ∧ a.WF) ∨
  (∃ k, o = .error k ∧ res = .ok (.err (.failure (.custom k))) ∧ k ≠ notAFunctionCall)

theorem RefMatches.mono {P : Block} {m n : Nat} {res : PRes Ast} {o : Outcome} (h : RefMatches P m res o) (hmn : m ≤ n) :
    RefMatches P n res o := by
  rcases h with ⟨r, a, t', o', h1, h2, h3, h4, h5⟩ | h
  · exact Or.inl ⟨r, a, t', o', h1, h2, by omega, h4, h5⟩
  · exact Or.inr h

theorem RefMatches.final {P : Block} {n : Nat} {res : PRes Ast} {o : Outcome} (h : RefMatches P n res o) : Final res := by
  intro q
  rcases h with ⟨r, a, t', o', h1, _⟩ | ⟨k, _, h1, _⟩ <;> rw [h1] <;> rfl

theorem advancedVar_at {parse : AstParser} {n : Nat} (hp : ParsesBelow parse n) {P : Block} (hm : Block.Mono P)
    {l : Location} {opn cls : Char} {t : List LChar} {o : Outcome} (hr : ReadsRef l (closing opn cls 0 t) o)
    (hn : t.length ≤ n) {i : Span} (h : i.At P t) :
    RefMatches P (t.length + 1) (advancedVar parse l opn cls i) o := by
  unfold advancedVar
  rw [h.chars]
  simp only [Span.withIndices_eq 0 h.ascii]
  rw [show (1 : Nat) = 0 + 1 from rfl, balance_eq]
  cases hc : closing opn cls 0 t with
  | none =>
    rw [hc] at hr
    cases hr
    exact Or.inr ⟨_, rfl, rfl, by simp [notAFunctionCall]⟩
  | some p =>
    obtain ⟨name, rest⟩ := p
    rw [hc] at hr
    obtain ⟨lc, rfl⟩ := closing_some hc
    obtain ⟨r, q, s1, s2, s3⟩ := h.takeSplit (n := name.length + 1) (by simp)
    have hd : (name ++ (cls, lc) :: rest).drop (name.length + 1) = rest := by simp
    have ht : (name ++ (cls, lc) :: rest).take (name.length + 1) = name ++ [(cls, lc)] := by
      rw [List.take_append]; simp
    rw [hd] at s2
    rw [ht] at s3
    have s4 := s3.sliceTo (n := name.length) (by simp)
    have ht2 : (name ++ [(cls, lc)]).take name.length = name := by simp
    rw [ht2] at s4
    simp only [Option.map_some, Nat.zero_add, s1, Res.ok_bind]
    have hl : q.length = name.length + 1 := by rw [s3.length]; simp
    have hu : usub q.length 1 = .ok name.length := by simp [usub, hl]
    rw [hu]
    simp only [Res.ok_bind]
    have hlen : name.length < n := by simp at hn; omega
    cases hr with
    | ref hcl h1 h2 =>
      rename_i ns o
      rw [(functionCall_at s4 parse l).1 hcl]
      simp only [Res.ok_bind, if_true]
      obtain ⟨r', a, e1, e2, e3, e4⟩ := hp P name _ _ hlen hm s4 h1
      rw [e1, done_andThen]
      exact Or.inl ⟨r, .varRef l a, rest, o, rfl, s2, by simp; omega, h2, by simp [Ast.flat, e3], e4⟩
    | nameError hcl h1 =>
      rename_i k
      rw [(functionCall_at s4 parse l).1 hcl]
      simp only [Res.ok_bind, if_true]
      have := hp P name _ _ hlen hm s4 h1
      rw [this.1, err_andThen]
      exact Or.inr ⟨k, rfl, rfl, this.2⟩
    | call hcl h1 =>
      rename_i f a
      obtain ⟨hb, hle⟩ := calls_some hcl
      have hf := fun j hj => fnParser_at hp hm h1 (by omega) (i := j) hj hb
      obtain ⟨j, e1, e2⟩ := (functionCall_at s4 parse l).2 _ _ hcl (fun j hj => (hf j hj).final)
      rw [e1]
      have := hf j e2
      cases o with
      | ok es =>
        obtain ⟨r', b, g1, g2, g3, g4⟩ := this
        rw [g1]
        refine Or.inl ⟨r', b, [], .ok [], rfl, g2, by simp, .nil, ?_, g4⟩
        simp [Except.map, g3]
      | error k =>
        rw [this.1]
        have hk : ¬ NErrKind.custom k = NErrKind.custom notAFunctionCall := by
          intro hc; injection hc with hc; exact this.2 hc
        simp only [Res.ok_bind, if_neg hk]
        exact Or.inr ⟨k, rfl, rfl, this.2⟩

theorem firstConstant_at {P : Block} (hm : Block.Mono P) {x : LChar} {i : Span} (h : i.At P [x]) :
    ∃ s, firstConstant i = .ok (Ast.mkConstant s) ∧ s.ltext = [x] ∧ AsciiS s.contents := by
  rcases Span.firstSegment_mono h.good (by rw [h.parent]; exact hm) with ⟨h0, _⟩ | ⟨s, h1, h2, h3, h4⟩
  · rw [h.length] at h0; simp at h0
  · refine ⟨s, by simp only [firstConstant, h1, Res.ok_bind, runwrap]; rfl, ?_, h2⟩
    rw [h.ltext] at h4
    have hl : 0 < s.ltext.length := by
      rw [LStr.ltext_len]; exact List.length_pos_iff.mpr h3
    exact h4.eq_of_length_le hl

theorem parseVarRef_at {parse : AstParser} {n : Nat} (hp : ParsesBelow parse n) {P : Block} (hm : Block.Mono P)
    {l : Location} {t : List LChar} {o : Outcome} (hr : Reads (('$', l) :: t) o)
    (hn : t.length ≤ n) {i : Span} (h : i.At P t) :
    RefMatches P (t.length + 1) (parseVarRef parse l i) o := by
  unfold parseVarRef
  rw [Nom.eof_at h]
  cases hr with
  | char hx _ => exact absurd rfl hx
  | last =>
    refine Or.inl ⟨i, _, [], .ok [], rfl, h, by simp, .nil, ?_, by show AsciiS ['$']; unfold AsciiS; decide⟩
    simp [Except.map, Ast.mkConstant, Ast.flat, Expr.text, LStr.ltext, locate]
  | dollar h1 =>
    rename_i l' t o
    rw [if_neg (by simp)]
    simp only [err_mapP, error_orElse]
    obtain ⟨r, q, e1, e2, e3⟩ := (Nom.tag_at h (w := ['$']) (by unfold AsciiS; decide)).1 (by simp [textOf])
    simp only [List.length_singleton, List.drop_succ_cons, List.drop_zero, List.take_succ_cons, List.take_zero] at e2 e3
    obtain ⟨s, f1, f2, f3⟩ := firstConstant_at hm e3
    rw [e1]
    simp only [done_andThen, f1, Res.ok_bind]
    refine Or.inl ⟨r, _, t, o, rfl, e2, by simp; omega, h1, ?_, f3⟩
    simp [Ast.mkConstant, Ast.flat, f2, Expr.text]
  | single hx1 hx2 hx3 h1 =>
    rename_i x t o
    rw [if_neg (by simp)]
    simp only [err_mapP, error_orElse]
    rw [(Nom.tag_at h (w := ['$']) (by unfold AsciiS; decide)).2 (by
      intro hp
      simp only [textOf_cons, List.cons_prefix_cons] at hp
      exact hx1 hp.1.symm)]
    simp only [err_andThen, error_orElse]
    rw [(Nom.char_at h (c := '(') (by decide)).2 (by simpa using hx2)]
    simp only [err_andThen, error_orElse]
    rw [(Nom.char_at h (c := '}') (by decide)).2 (by simpa using hx3)]
    simp only [err_andThen, error_orElse]
    obtain ⟨r, q, e1, e2, e3⟩ := (Nom.take_at h 1).1 (by simp)
    simp only [List.drop_succ_cons, List.drop_zero, List.take_succ_cons, List.take_zero] at e2 e3
    obtain ⟨s, f1, f2, f3⟩ := firstConstant_at hm e3
    rw [e1]
    simp only [done_andThen, f1, Res.ok_bind]
    refine Or.inl ⟨r, _, t, o, rfl, e2, by simp; omega, h1, ?_, f3⟩
    simp [Ast.mkConstant, Ast.flat, f2, Expr.text]
  | paren h1 =>
    rename_i l' t
    rw [if_neg (by simp)]
    simp only [err_mapP, error_orElse]
    rw [(Nom.tag_at h (w := ['$']) (by unfold AsciiS; decide)).2 (by
      intro hp
      simp only [textOf_cons, List.cons_prefix_cons] at hp
      exact absurd hp.1 (by decide))]
    simp only [err_andThen, error_orElse]
    obtain ⟨r, e1, e2⟩ := (Nom.char_at h (c := '(') (by decide)).1 _ _ rfl
    rw [e1]
    simp only [done_andThen]
    have := advancedVar_at hp hm h1 (by simp at hn; omega) e2
    rw [this.final]
    exact this.mono (by simp)
  | brace h1 =>
    rename_i l' t
    rw [if_neg (by simp)]
    simp only [err_mapP, error_orElse]
    rw [(Nom.tag_at h (w := ['$']) (by unfold AsciiS; decide)).2 (by
      intro hp
      simp only [textOf_cons, List.cons_prefix_cons] at hp
      exact absurd hp.1 (by decide))]
    simp only [err_andThen, error_orElse]
    rw [(Nom.char_at h (c := '(') (by decide)).2 (by simp)]
    simp only [err_andThen, error_orElse]
    obtain ⟨r, e1, e2⟩ := (Nom.char_at h (c := '}') (by decide)).1 _ _ rfl
    rw [e1]
    simp only [done_andThen]
    have := advancedVar_at hp hm h1 (by simp at hn; omega) e2
    rw [this.final]
    exact this.mono (by simp)

theorem map_map_outcome (o : Outcome) (f g : List Expr → List Expr) : (o.map f).map g = o.map (fun x => g (f x)) := by
  cases o <;> rfl
theorem map_id_outcome (o : Outcome) : o.map (fun x => x) = o := by cases o <;> rfl

theorem reads_prefix {pre t : List LChar} {o : Outcome} (hf : Free '$' pre) (h : Reads (pre ++ t) o) :
    ∃ o', Reads t o' ∧ o = o'.map (Expr.text pre ++ ·) := by
  induction pre generalizing o with
  | nil => exact ⟨o, h, by simp [Expr.text, map_id_outcome]⟩
  | cons x pre ih =>
    rw [Free.cons] at hf
    rw [List.cons_append] at h
    generalize hu : x :: (pre ++ t) = u at h
    cases h with
    | nil => cases hu
    | char h1 h2 =>
      cases hu
      obtain ⟨o', g1, g2⟩ := ih hf.2 h2
      exact ⟨o', g1, by rw [g2, map_map_outcome]; rfl⟩
    | last => injection hu with hu; subst hu; exact absurd rfl hf.1
    | dollar => injection hu with hu; subst hu; exact absurd rfl hf.1
    | single => injection hu with hu; subst hu; exact absurd rfl hf.1
    | paren => injection hu with hu; subst hu; exact absurd rfl hf.1
    | brace => injection hu with hu; subst hu; exact absurd rfl hf.1

theorem reads_text {t : List LChar} (hf : Free '$' t) : Reads t (.ok (Expr.text t)) := by
  induction t with
  | nil => exact .nil
  | cons x t ih =>
    rw [Free.cons] at hf
    exact .char hf.1 (ih hf.2)

theorem reads_nil {o : Outcome} (h : Reads [] o) : o = .ok [] := by cases h; rfl

/-- The loop's result agrees with the specification. -/
def LoopMatches (P : Block) (res : PRes (List Ast)) (acc : List Ast) (o : Outcome) : Prop :=
  match o with
  | .ok es => ∃ r nodes, res = .ok (.done r (acc ++ nodes)) ∧ r.At P [] ∧ Ast.flatList nodes = es ∧ Ast.WFList nodes
  | .error k => res = .ok (.err (.failure (.custom k))) ∧ k ≠ notAFunctionCall

theorem parseAstLoop_at {parse : AstParser} {n : Nat} (hp : ParsesBelow parse n) {P : Block} (hm : Block.Mono P)
    (m : Nat) {t : List LChar} {o : Outcome} (hr : Reads t o) (hn : t.length ≤ n) (ht : t.length < m)
    {i : Span} (h : i.At P t) (acc : List Ast) :
    LoopMatches P (parseAstLoop parse m i acc) acc o := by
  induction m generalizing t o i acc with
  | zero => omega
  | succ m ih =>
    rw [parseAstLoop]
    by_cases h0 : t = []
    · subst h0
      rw [reads_nil hr]
      have : ¬ i.length > 0 := by rw [h.length]; simp
      rw [if_neg this]
      exact ⟨i, [], by simp [Res.done], h, rfl, trivial⟩
    · have : i.length > 0 := by rw [h.length]; exact List.length_pos_iff.mpr h0
      rw [if_pos this]
      obtain ⟨u1, u2⟩ := Nom.takeUntil_at h (c := '$') (by decide)
      by_cases hd : '$' ∈ textOf t
      · obtain ⟨r, q, e1, e2, e3⟩ := u1 hd
        obtain ⟨l, rest, hdw⟩ := dropWhile_head hd
        have hsplit := List.takeWhile_append_dropWhile (p := fun x : LChar => x.1 != '$') (l := t)
        have hfree : Free '$' (t.takeWhile fun x => x.1 != '$') := by
          intro x hx
          have := List.mem_takeWhile_imp hx
          simpa using this
        generalize t.takeWhile (fun x => x.1 != '$') = pre at *
        rw [hdw] at e2 hsplit
        subst hsplit
        obtain ⟨o', r1, r2⟩ := reads_prefix hfree hr
        obtain ⟨r', q', e4, e5, e6⟩ := (Nom.tag_at e2 (w := ['$']) (by unfold AsciiS; decide)).1 (by simp [textOf])
        simp only [List.length_singleton, List.drop_succ_cons, List.drop_zero, List.take_succ_cons, List.take_zero] at e5 e6
        have hloc := Span.location_mono e6.good (by rw [e6.parent]; exact hm)
        rw [e6.ltext] at hloc
        obtain ⟨ts, g1, g2, _, g3⟩ := Span.allSegments_mono e3.good (by rw [e3.parent]; exact hm)
        rw [e3.ltext] at g2
        have hrest : rest.length + 1 ≤ (pre ++ ('$', l) :: rest).length := by simp
        simp only [e1, done_andThen, e4, hloc, Res.ok_bind, List.head?_cons, Option.map_some, runwrap, Res.done, done_orElse, g1]
        have hv := parseVarRef_at hp hm r1 (by simp at hn; omega) e5
        rcases hv with ⟨r2', a, t', o'', v1, v2, v3, v4, v5, v6⟩ | ⟨k, v1, v2, v3⟩
        · rw [v1, done_andThen]
          have := ih v4 (by omega) (by simp at ht; omega) v2 (acc ++ List.map Ast.mkConstant ts ++ [a])
          subst r2 v5
          cases o'' with
          | ok es =>
            obtain ⟨r3, nodes, w1, w2, w3, w4⟩ := this
            refine ⟨r3, ts.map Ast.mkConstant ++ [a] ++ nodes, ?_, w2, ?_,
              wfList_append.mpr ⟨wfList_append.mpr ⟨wfList_constants g3, v6, trivial⟩, w4⟩⟩
            · rw [w1]; simp
            · simp only [flatList_append, flatList_constants, g2, w3, Ast.flatList, List.append_nil, List.append_assoc]
          | error k => exact this
        · rw [v2, err_andThen]
          subst r2 v1
          exact ⟨rfl, v3⟩
      · rw [u2 hd, err_andThen, error_orElse]
        obtain ⟨r, e1, e2⟩ := Nom.rest_at h
        obtain ⟨ts, g1, g2, _, g3⟩ := Span.allSegments_mono h.good (by rw [h.parent]; exact hm)
        rw [h.ltext] at g2
        simp only [e1, done_mapP, done_andThen, g1, Res.ok_bind]
        have hf : Free '$' t := free_iff.mpr hd
        have hr' : Reads (t ++ []) o := by rw [List.append_nil]; exact hr
        obtain ⟨o', r1, r2⟩ := reads_prefix hf hr'
        rw [reads_nil r1] at r2
        subst r2
        exact ⟨r, _, rfl, e2, by rw [flatList_constants, g2]; simp, wfList_constants g3⟩

theorem parseAstF_at (n : Nat) : ParsesBelow (parseAstF n) n := by
  induction n with
  | zero => intro P t i o h; omega
  | succ n ih =>
    intro P t i o hn hm h hr
    rw [parseAstF, Span.location_mono h.good (by rw [h.parent]; exact hm), h.ltext]
    simp only [Res.ok_bind]
    cases t with
    | nil =>
      rw [reads_nil hr]
      exact ⟨i, Ast.mkEmpty, rfl, h, rfl, trivial⟩
    | cons x t =>
      have := parseAstLoop_at ih hm (i.length + 1) hr (by omega) (by rw [h.length]; omega) h []
      simp only [List.head?_cons, Option.map_some]
      cases o with
      | ok es =>
        obtain ⟨r, nodes, e1, e2, e3, e4⟩ := this
        refine ⟨r, Ast.collapsingConcat x.2 nodes, ?_, e2, by rw [flat_collapsing, e3], wf_collapsing e4⟩
        rw [e1]; rfl
      | error k =>
        rw [this.1]
        exact ⟨rfl, this.2⟩

/-- The parser reads a text as the specification says. -/
theorem parseAst_at {P : Block} (hm : Block.Mono P) {t : List LChar} {i : Span} (h : i.At P t) {o : Outcome}
    (hr : Reads t o) : Matches P (parseAst i) o :=
  parseAstF_at _ P t i o (by rw [h.length]; omega) hm h hr

/-! ### Every text is read -/

theorem readsCall_exists {n : Nat} (ih : ∀ t : List LChar, t.length < n → ∃ o, Reads t o) (l : Location) (f : Fn)
    {a : List LChar} (ha : a.length < n) : ∃ o, ReadsCall l f a o := by
  cases f with
  | eval => obtain ⟨o, h⟩ := ih a ha; exact ⟨_, .eval h⟩
  | strip =>
    cases hc : cutArg 0 0 a with
    | none => exact ⟨_, .unbalanced (by simp) hc⟩
    | some p =>
      obtain ⟨x, y⟩ := p
      have hle := cutArg_le hc
      cases y with
      | nil => obtain ⟨o, h⟩ := ih x (by omega); exact ⟨_, .strip hc h⟩
      | cons z y => exact ⟨_, .extra (.inl rfl) hc (by simp)⟩
  | words =>
    cases hc : cutArg 0 0 a with
    | none => exact ⟨_, .unbalanced (by simp) hc⟩
    | some p =>
      obtain ⟨x, y⟩ := p
      have hle := cutArg_le hc
      cases y with
      | nil => obtain ⟨o, h⟩ := ih x (by omega); exact ⟨_, .words hc h⟩
      | cons z y => exact ⟨_, .extra (.inr rfl) hc (by simp)⟩
  | word =>
    cases hc : cutArg 0 0 a with
    | none => exact ⟨_, .unbalanced (by simp) hc⟩
    | some p =>
      obtain ⟨x, y⟩ := p
      have hle := cutArg_le hc
      cases y with
      | nil => exact ⟨_, .few hc⟩
      | cons z y =>
        obtain ⟨o, h⟩ := ih x (by simp at hle; omega)
        cases o with
        | error k => exact ⟨_, .indexError hc h⟩
        | ok es =>
          cases hc2 : cutArg 0 0 (skipBlanks y) with
          | none => exact ⟨_, .unbalanced2 hc h hc2⟩
          | some p2 =>
            obtain ⟨z2, w⟩ := p2
            have hle2 := cutArg_le hc2
            have hsk := skipBlanks_length y
            cases w with
            | nil => obtain ⟨o, h2⟩ := ih z2 (by simp at hle hle2; omega); exact ⟨_, .word hc h hc2 h2⟩
            | cons w1 w => exact ⟨_, .extra2 hc h hc2 (by simp)⟩

theorem readsRef_exists {n : Nat} (ih : ∀ t : List LChar, t.length < n → ∃ o, Reads t o) (l : Location) (opn cls : Char)
    {t : List LChar} (ht : t.length < n) : ∃ o, ReadsRef l (closing opn cls 0 t) o := by
  cases hc : closing opn cls 0 t with
  | none => exact ⟨_, .unclosed⟩
  | some p =>
    obtain ⟨name, rest⟩ := p
    obtain ⟨lc, rfl⟩ := closing_some hc
    simp only [List.length_append, List.length_cons] at ht
    cases hcl : calls name with
    | none =>
      obtain ⟨o, h⟩ := ih name (by omega)
      obtain ⟨o2, h2⟩ := ih rest (by omega)
      cases o with
      | ok ns => exact ⟨_, .ref hcl h h2⟩
      | error k => exact ⟨_, .nameError hcl h⟩
    | some p =>
      obtain ⟨f, a⟩ := p
      have := (calls_some hcl).2
      obtain ⟨o, h⟩ := readsCall_exists ih l f (a := a) (by omega)
      exact ⟨_, .call hcl h⟩

theorem reads_exists (t : List LChar) : ∃ o, Reads t o := by
  induction hn : t.length using Nat.strongRecOn generalizing t with
  | ind n ih =>
    subst hn
    have ih' : ∀ u : List LChar, u.length < t.length → ∃ o, Reads u o := fun u hu => ih u.length hu u rfl
    cases t with
    | nil => exact ⟨_, .nil⟩
    | cons x t =>
      by_cases hx : x.1 = '$'
      · obtain ⟨c, l⟩ := x
        simp only at hx
        subst hx
        cases t with
        | nil => exact ⟨_, .last⟩
        | cons y t =>
          obtain ⟨d, l'⟩ := y
          by_cases h1 : d = '$'
          · subst h1; obtain ⟨o, h⟩ := ih' t (by simp; omega); exact ⟨_, .dollar h⟩
          by_cases h2 : d = '('
          · subst h2
            obtain ⟨o, h⟩ := readsRef_exists ih' l '(' ')' (t := t) (by simp; omega); exact ⟨_, .paren h⟩
          by_cases h3 : d = '}'
          · subst h3
            obtain ⟨o, h⟩ := readsRef_exists ih' l '{' '}' (t := t) (by simp; omega); exact ⟨_, .brace h⟩
          · obtain ⟨o, h⟩ := ih' t (by simp; omega)
            exact ⟨_, .single h1 h2 h3 h⟩
      · obtain ⟨o, h⟩ := ih' t (by simp)
        exact ⟨_, .char hx h⟩

end Hastur
