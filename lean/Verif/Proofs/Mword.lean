import Verif.Proofs.VarLine
import Verif.Proofs.Compose
import Verif.Proofs.Wrapped
/-
Lemmas: how the words of a rule line are found.
-/
namespace Hastur

open Res Span

variable {P : Block} {t : List LChar} {i : Span}

theorem wordChar_ne {c : Char} (h : WordChar c) :
    c ≠ ' ' ∧ c ≠ '\t' ∧ c ≠ Char.ofNat 0 ∧ c ≠ ':' ∧ c ≠ '=' ∧ c ≠ ';' ∧ c ≠ '#' ∧ c ≠ '$' ∧ c ≠ '\\' := by
  obtain ⟨h1, h2⟩ := h
  simp only [List.mem_cons, List.not_mem_nil, or_false, not_or] at h2
  refine ⟨?_, ?_, h2⟩ <;> (rintro rfl; revert h1; decide)

/-- What may follow a word: the end, a blank, or a colon that is not followed by a backslash. -/
inductive WordStop : Str → Prop
  | eof : WordStop []
  | blank {c : Char} {t : Str} : c = ' ' ∨ c = '\t' → WordStop (c :: t)
  | colon {t : Str} : t.head? ≠ some '\\' → WordStop (':' :: t)

/-- The number of characters of what follows that belong to the word: a colon does. -/
def WordStop.extra : Str → Nat
  | [] => 0
  | c :: _ => if c = ':' then 1 else 0

theorem mwordScan_stop {t : Str} (h : WordStop t) (prev : Char) (stop n : Nat) (reason : MWordEnd)
    (hs : t = [] → stop = n) (hr : reason = .static ∨ reason = .variable) :
    ∃ reason', mwordScan false .normal prev stop reason (indexed n t) = .ok (n + WordStop.extra t, reason') ∧
      (reason' = .static ∨ reason' = .variable) := by
  cases h with
  | eof =>
    refine ⟨reason, ?_, hr⟩
    simp [mwordScan, WordStop.extra, hs rfl]
  | blank hc =>
    refine ⟨.static, ?_, .inl rfl⟩
    rename_i c t
    have : c ≠ ':' := by rcases hc with rfl | rfl <;> decide
    rw [indexed_cons, mwordScan]
    rcases hc with rfl | rfl <;> simp [WordStop.extra]
  | colon hh =>
    rename_i t
    refine ⟨reason, ?_, hr⟩
    rw [indexed_cons, mwordScan]
    simp only [WordStop.extra, if_true]
    rw [if_neg (by decide)]
    simp only [Bool.and_false, if_true]
    rw [if_neg (by decide), if_neg]
    rintro ⟨h1, _⟩
    cases t with
    | nil => cases h1
    | cons d t =>
      simp only [indexed_cons, List.head?_cons, Option.some.injEq, Prod.mk.injEq] at h1
      exact hh (by simp [h1.2])

theorem mwordScan_balanced {name : List LChar} (h : Balanced name) (k : Nat) (prev : Char) (stop n : Nat)
    (reason : MWordEnd) (u : Str) :
    ∃ stop', mwordScan false (.brackets '(' ')' (k + 1)) prev stop reason (indexed n (textOf name ++ u)) =
      mwordScan false (.brackets '(' ')' (k + 1)) prev stop' reason (indexed (n + name.length) u) := by
  induction h generalizing k stop n u with
  | nil => exact ⟨stop, by simp⟩
  | @char x t h1 h2 _ ih =>
    obtain ⟨stop', e⟩ := ih k (n + 1) (n + 1) u
    refine ⟨stop', ?_⟩
    rw [textOf_cons, List.cons_append, indexed_cons, mwordScan]
    simp only [if_neg h1, if_neg h2]
    rw [e, List.length_cons]
    congr 2
    omega
  | @nest l l' a b _ _ iha ihb =>
    obtain ⟨s1, e1⟩ := iha (k + 1) (n + 1) (n + 1) (')' :: (textOf b ++ u))
    obtain ⟨s2, e2⟩ := ihb k (n + 1 + a.length + 1) (n + 1 + a.length + 1) u
    refine ⟨s2, ?_⟩
    simp only [textOf_cons, textOf_append, List.cons_append, List.append_assoc]
    rw [indexed_cons, mwordScan]
    simp only [if_true]
    rw [e1, indexed_cons, mwordScan]
    rw [if_neg (by decide)]
    simp only [if_true]
    rw [if_neg (by omega)]
    show mwordScan false (.brackets '(' ')' (k + 1)) prev _ reason _ = _
    rw [e2]
    simp only [List.length_cons, List.length_append]
    congr 2
    omega

/-- Braces without braces inside. -/
theorem mwordScan_brace {name : List LChar} (h : ∀ x ∈ name, x.1 ≠ '{' ∧ x.1 ≠ '}') (prev : Char) (stop n : Nat)
    (reason : MWordEnd) (u : Str) :
    ∃ stop', mwordScan false (.brackets '{' '}' 1) prev stop reason (indexed n (textOf name ++ u)) =
      mwordScan false (.brackets '{' '}' 1) prev stop' reason (indexed (n + name.length) u) := by
  induction name generalizing stop n with
  | nil => exact ⟨stop, by simp⟩
  | cons x t ih =>
    obtain ⟨stop', e⟩ := ih (fun y hy => h y (by simp [hy])) (n + 1) (n + 1)
    obtain ⟨h1, h2⟩ := h x (by simp)
    refine ⟨stop', ?_⟩
    rw [textOf_cons, List.cons_append, indexed_cons, mwordScan]
    simp only [if_neg h1, if_neg h2]
    rw [e, List.length_cons]
    congr 2
    omega

/-- What is scanned as one word: file name characters, anything in parentheses after a dollar sign, and anything without
braces in braces after a dollar sign. -/
inductive Scanned : List LChar → Prop
  | nil : Scanned []
  | char {x : LChar} {t : List LChar} : WordChar x.1 → Scanned t → Scanned (x :: t)
  | ref {l l' l'' : Location} {name t : List LChar} : Balanced name → Scanned t →
      Scanned (('$', l) :: ('(', l') :: (name ++ (')', l'') :: t))
  | single {l : Location} {x : LChar} {t : List LChar} : x.1 ∉ ['$', '(', '{'] → Scanned t → Scanned (('$', l) :: x :: t)
  | brace {l l' l'' : Location} {name t : List LChar} : (∀ x ∈ name, x.1 ≠ '{' ∧ x.1 ≠ '}') → Scanned t →
      Scanned (('$', l) :: ('{', l') :: (name ++ ('}', l'') :: t))

theorem Segment.scanned {w : List LChar} (h : Segment w) : Scanned w := by
  induction h with
  | nil => exact .nil
  | char hx _ ih => exact .char hx ih
  | ref hb _ _ _ ih => exact .ref hb ih
  | single hx hn _ ih =>
    have := wordChar_ne hx
    simp only [List.mem_cons, List.not_mem_nil, or_false, not_or] at hn
    exact .single (by simp [this.2.2.2.2.2.2.2.1, hn]) ih
  | brace hn _ ih =>
    refine .brace (fun x hx => ?_) ih
    have := (hn x hx).2
    simpa using this

theorem mwordScan_segment {w : List LChar} (h : Scanned w) {u : Str} (hu : WordStop u) (prev : Char) (stop n : Nat)
    (reason : MWordEnd) (hs : stop = n ∨ (∃ x w', w = x :: w') ∨ u ≠ []) (hr : reason = .static ∨ reason = .variable) :
    ∃ reason', mwordScan false .normal prev stop reason (indexed n (textOf w ++ u)) =
        .ok (n + w.length + WordStop.extra u, reason') ∧ (reason' = .static ∨ reason' = .variable) := by
  induction h generalizing prev stop n reason with
  | nil =>
    refine mwordScan_stop hu prev stop n reason (fun he => ?_) hr
    rcases hs with h | ⟨x, w', h⟩ | h
    · exact h
    · cases h
    · exact absurd he h
  | @char x w hx hw ih =>
    obtain ⟨n1, n2, n3, n4, n5, n6, n7, n8, n9⟩ := wordChar_ne hx
    rw [textOf_cons, List.cons_append, indexed_cons, mwordScan]
    rw [if_neg (by simp [n1, n2, n5]), if_neg n4, if_neg n8, if_neg n9]
    have fin : ∀ prev stop reason, (stop = n + 1 ∨ (∃ x w', w = x :: w') ∨ u ≠ []) →
        (reason = .static ∨ reason = .variable) →
        ∃ reason', mwordScan false .normal prev stop reason (indexed (n + 1) (textOf w ++ u)) =
        .ok (n + (x :: w).length + WordStop.extra u, reason') ∧ (reason' = .static ∨ reason' = .variable) := by
      intro prev stop reason hs hr
      obtain ⟨reason', e, e'⟩ := ih prev stop (n + 1) reason hs hr
      exact ⟨reason', by rw [e, List.length_cons]; congr 2; omega, e'⟩
    split
    · cases hd : textOf w ++ u with
      | nil =>
        rw [← hd]
        have : (indexed (n + 1) (textOf w ++ u)).head? = none := by rw [hd]; rfl
        rw [this]
        exact fin _ _ _ (.inl rfl) hr
      | cons d v =>
        rw [← hd]
        have : (indexed (n + 1) (textOf w ++ u)).head? = some (n + 1, d) := by rw [hd]; rfl
        rw [this]
        have hne : d ≠ '=' := by
          cases hw with
          | nil =>
            cases hu with
            | eof => cases hd
            | blank hc => cases hd; rcases hc with rfl | rfl <;> decide
            | colon hc => cases hd; decide
          | char hy _ => cases hd; exact (wordChar_ne hy).2.2.2.2.1
          | ref => cases hd; show '$' ≠ '='; decide
          | single => cases hd; show '$' ≠ '='; decide
          | brace => cases hd; show '$' ≠ '='; decide
        simp only [if_neg hne]
        refine fin _ _ _ (.inr ?_) hr
        cases w with
        | nil => right; rw [textOf_nil, List.nil_append] at hd; rw [hd]; simp
        | cons y w => exact .inl ⟨y, w, rfl⟩
    · exact fin _ _ _ (.inl rfl) hr
  | @ref l l' l'' name w hb _ ih =>
    simp only [textOf_cons, textOf_append, List.cons_append, List.append_assoc]
    rw [indexed_cons, mwordScan]
    rw [if_neg (by decide), if_neg (by decide)]
    simp only [if_true]
    rw [indexed_cons, mwordScan]
    rw [if_neg (by decide)]
    simp only [if_true]
    obtain ⟨s1, e1⟩ := mwordScan_balanced hb 0 '(' (n + 1 + 1) (n + 1 + 1) .variable (')' :: (textOf w ++ u))
    rw [e1, indexed_cons, mwordScan]
    rw [if_neg (by decide)]
    simp only [if_true]
    obtain ⟨reason', e, e'⟩ := ih ')' _ (n + 1 + 1 + name.length + 1) .variable (.inl rfl) (.inr rfl)
    refine ⟨reason', ?_, e'⟩
    rw [e]
    simp only [List.length_cons, List.length_append]
    congr 2
    omega

  | @single l x w hx _ ih =>
    simp only [List.mem_cons, List.not_mem_nil, or_false, not_or] at hx
    simp only [textOf_cons, List.cons_append]
    rw [indexed_cons, mwordScan]
    rw [if_neg (by decide), if_neg (by decide)]
    simp only [if_true]
    rw [indexed_cons, mwordScan]
    simp only [if_neg hx.1, if_neg hx.2.1, if_neg hx.2.2]
    obtain ⟨reason', e, e'⟩ := ih x.1 _ (n + 1 + 1) .variable (.inl rfl) (.inr rfl)
    refine ⟨reason', ?_, e'⟩
    rw [e]
    simp only [List.length_cons]
    congr 2
    omega
  | @brace l l' l'' name w hb _ ih =>
    simp only [textOf_cons, textOf_append, List.cons_append, List.append_assoc]
    rw [indexed_cons, mwordScan]
    rw [if_neg (by decide), if_neg (by decide)]
    simp only [if_true]
    rw [indexed_cons, mwordScan]
    rw [if_neg (by decide), if_neg (by decide)]
    simp only [if_true]
    obtain ⟨s1, e1⟩ := mwordScan_brace hb '{' (n + 1 + 1) (n + 1 + 1) .variable ('}' :: (textOf w ++ u))
    rw [e1, indexed_cons, mwordScan]
    rw [if_neg (by decide)]
    simp only [if_true]
    obtain ⟨reason', e, e'⟩ := ih '}' _ (n + 1 + 1 + name.length + 1) .variable (.inl rfl) (.inr rfl)
    refine ⟨reason', ?_, e'⟩
    rw [e]
    simp only [List.length_cons, List.length_append]
    congr 2
    omega

theorem segment_head {w : List LChar} (h : Scanned w) (hne : w ≠ []) :
    ∃ x w', w = x :: w' ∧ (x.1 = '$' ∨ WordChar x.1) ∧ ∀ y w'', w' = y :: w'' → (x.1 ≠ '$' → y.1 ≠ '=') := by
  cases h with
  | nil => exact absurd rfl hne
  | @char x t hx ht =>
    refine ⟨x, t, rfl, .inr hx, ?_⟩
    intro y w'' he _
    subst he
    cases ht with
    | char hy _ => exact (wordChar_ne hy).2.2.2.2.1
    | ref => intro hh; exact absurd (show '$' = '=' from hh) (by decide)
    | single => intro hh; exact absurd (show '$' = '=' from hh) (by decide)
    | brace => intro hh; exact absurd (show '$' = '=' from hh) (by decide)
  | ref => exact ⟨_, _, rfl, .inl rfl, fun y w'' _ h => absurd rfl h⟩
  | single => exact ⟨_, _, rfl, .inl rfl, fun y w'' _ h => absurd rfl h⟩
  | brace => exact ⟨_, _, rfl, .inl rfl, fun y w'' _ h => absurd rfl h⟩

/-- A tag does not match when the text does not begin with it. -/
theorem tag_miss (h : i.At P t) {w : Str} (hw : AsciiS w) (hn : ¬ w <+: textOf t) :
    Nom.tag w i = .ok (.err (.error .code)) := (Nom.tag_at h hw).2 hn

/-- The next word of a rule line. -/
theorem nextMword_scanned {gap w u : List LChar} (h : i.At P (gap ++ (w ++ u))) (hg : Blanks gap) (hw : Scanned w)
    (hne : w ≠ []) (hu : WordStop (textOf u)) :
    ∃ r m reason, nextMword i = .ok (.done r (m, reason)) ∧ r.At P (u.drop (WordStop.extra (textOf u))) ∧
      m.At P (w ++ u.take (WordStop.extra (textOf u))) ∧ (reason = .static ∨ reason = .variable) := by
  obtain ⟨x, w', hw', hx, hy⟩ := segment_head hw hne
  obtain ⟨r, q, e1, e2, _⟩ := whitespace_at h
  have hxs : lblank x = false := by
    rw [← Bool.not_eq_true]
    intro hb
    have := lblank_iff.mp hb
    rcases hx with hx | hx
    · rw [hx] at this; revert this; decide
    · have hn := wordChar_ne hx
      rcases this with h | h
      · exact hn.1 h
      · exact hn.2.1 h
  have e3 : (gap ++ (w ++ u)).dropWhile lblank = w ++ u := by
    rw [dropWhile_blanks hg, dropWhile_solid]
    intro y hy
    rw [hw'] at hy
    simp only [List.cons_append, List.head?_cons, Option.some.injEq] at hy
    rw [← hy]; exact hxs
  rw [e3] at e2
  have htext : textOf (w ++ u) = x.1 :: (textOf w' ++ textOf u) := by rw [hw']; simp
  have first : ∀ c s, c ≠ '$' → (c = ';' ∨ c = '=' ∨ c = ':') → ¬ (c :: s) <+: textOf (w ++ u) := by
    rintro c s h0 hc hp
    rw [htext, List.cons_prefix_cons] at hp
    have := hp.1
    rcases hx with hx | hx
    · exact h0 (this.trans hx)
    · have hn := wordChar_ne hx
      rcases hc with rfl | rfl | rfl
      · exact hn.2.2.2.2.2.1 this.symm
      · exact hn.2.2.2.2.1 this.symm
      · exact hn.2.2.2.1 this.symm
  have second : ∀ c, c ≠ '$' → ¬ [c, '='] <+: textOf (w ++ u) := by
    rintro c h0 hp
    rw [htext, List.cons_prefix_cons] at hp
    obtain ⟨h1, h2⟩ := hp
    cases w' with
    | cons y w'' =>
      rw [textOf_cons, List.cons_append, List.cons_prefix_cons] at h2
      exact hy y w'' rfl (by rw [← h1]; exact h0) h2.1.symm
    | nil =>
      rw [textOf_nil, List.nil_append] at h2
      cases hu' : textOf u with
      | nil => rw [hu'] at h2; simp at h2
      | cons d v =>
        rw [hu'] at h2 hu
        rw [List.cons_prefix_cons] at h2
        have h3 := h2.1
        cases hu with
        | blank hc => subst h3; revert hc; decide
        | colon => exact absurd h3 (by decide)
  have m1 := tag_miss e2 (w := ";".toList) (by unfold AsciiS; decide) (first ';' [] (by decide) (by simp))
  have m2 := tag_miss e2 (w := "=".toList) (by unfold AsciiS; decide) (first '=' [] (by decide) (by simp))
  have m3 := tag_miss e2 (w := ":=".toList) (by unfold AsciiS; decide) (first ':' ['='] (by decide) (by simp))
  have m4 := tag_miss e2 (w := "::=".toList) (by unfold AsciiS; decide) (first ':' [':', '='] (by decide) (by simp))
  have m5 := tag_miss e2 (w := "::".toList) (by unfold AsciiS; decide) (first ':' [':'] (by decide) (by simp))
  have m6 := tag_miss e2 (w := ":".toList) (by unfold AsciiS; decide) (first ':' [] (by decide) (by simp))
  have m7 := tag_miss e2 (w := "+=".toList) (by unfold AsciiS; decide) (second '+' (by decide))
  have m8 := tag_miss e2 (w := "?=".toList) (by unfold AsciiS; decide) (second '?' (by decide))
  have m9 := tag_miss e2 (w := "!=".toList) (by unfold AsciiS; decide) (second '!' (by decide))
  obtain ⟨reason, s1, s2⟩ := mwordScan_segment hw hu (Char.ofNat 0) 0 0 .static (.inl rfl) (.inl rfl)
  rw [Nat.zero_add] at s1
  have hk : WordStop.extra (textOf u) ≤ u.length := by
    cases u with
    | nil => exact Nat.le_refl _
    | cons x u => simp only [textOf_cons, WordStop.extra, List.length_cons]; split <;> omega
  obtain ⟨r', m, t1, t2, t3⟩ := e2.takeSplit (n := w.length + WordStop.extra (textOf u)) (by simp; omega)
  refine ⟨r', m, reason, ?_, ?_, ?_, s2⟩
  · unfold nextMword
    simp only [e1, done_andThen, m1, m2, m3, m4, m5, m6, m7, m8, m9, err_mapP, error_orElse]
    rw [e2.chars]
    simp only [Span.withIndices_eq 0 e2.ascii]
    rw [textOf_append, s1]
    simp only [ok_bind, t1]
    rfl
  · simpa using t2
  · rw [List.take_append, List.take_of_length_le (by omega), Nat.add_sub_cancel_left] at t3
    exact t3

theorem nextMword_segment {gap w u : List LChar} (h : i.At P (gap ++ (w ++ u))) (hg : Blanks gap) (hw : Segment w)
    (hne : w ≠ []) (hu : WordStop (textOf u)) :
    ∃ r m reason, nextMword i = .ok (.done r (m, reason)) ∧ r.At P (u.drop (WordStop.extra (textOf u))) ∧
      m.At P (w ++ u.take (WordStop.extra (textOf u))) ∧ (reason = .static ∨ reason = .variable) :=
  nextMword_scanned h hg hw.scanned hne hu

/-- The colon of a rule line, when it stands by itself. -/
theorem nextMword_colon_at {gap cs u : List LChar} {double : Bool} (h : i.At P (gap ++ (cs ++ u))) (hg : Blanks gap)
    (hc : textOf cs = (if double then "::".toList else ":".toList)) (hu : (textOf u).head? ≠ some '=')
    (hu' : (textOf u).head? ≠ some ':') :
    ∃ r m, nextMword i = .ok (.done r (m, if double then .dcolon else .colon)) ∧ r.At P u ∧ m.At P cs := by
  obtain ⟨r, q, e1, e2, _⟩ := whitespace_at h
  have hcs : ∃ l cs', cs = (':', l) :: cs' ∧ textOf cs' = if double then [':'] else [] := by
    cases cs with
    | nil => cases double <;> cases hc
    | cons x cs' =>
      obtain ⟨c, l⟩ := x
      cases double <;>
      · simp only [textOf_cons] at hc
        injection hc with h1 h2
        subst h1
        exact ⟨l, cs', rfl, h2⟩
  obtain ⟨l, cs', rfl, hcs'⟩ := hcs
  have e3 : (gap ++ ((':', l) :: cs' ++ u)).dropWhile lblank = (':', l) :: cs' ++ u := by
    rw [dropWhile_blanks hg, dropWhile_solid]
    intro y hy
    simp only [List.cons_append, List.head?_cons, Option.some.injEq] at hy
    rw [← hy]; rfl
  rw [e3] at e2
  have htext : textOf ((':', l) :: cs' ++ u) = ':' :: ((if double then [':'] else []) ++ textOf u) := by
    rw [List.cons_append, textOf_cons, textOf_append, hcs']
  have key : ∀ c v, c ≠ ':' → ¬ (c :: v) <+: textOf ((':', l) :: cs' ++ u) := by
    intro c v h0 hp
    rw [htext, List.cons_prefix_cons] at hp
    exact h0 hp.1
  have m1 := tag_miss e2 (w := ";".toList) (by unfold AsciiS; decide) (key ';' [] (by decide))
  have m2 := tag_miss e2 (w := "=".toList) (by unfold AsciiS; decide) (key '=' [] (by decide))
  have hpre : ∀ c, (textOf u).head? ≠ some c → ¬ [c] <+: textOf u := by
    intro c hn hp
    obtain ⟨v, hv⟩ := hp
    rw [← hv] at hn
    simp at hn
  have m3 := tag_miss e2 (w := ":=".toList) (by unfold AsciiS; decide) (by
    rw [htext, show ":=".toList = [':', '='] from rfl, List.cons_prefix_cons]
    rintro ⟨_, h2⟩
    cases double with
    | false => exact hpre _ hu h2
    | true => simp [List.cons_prefix_cons] at h2)
  have m4 := tag_miss e2 (w := "::=".toList) (by unfold AsciiS; decide) (by
    rw [htext, show "::=".toList = [':', ':', '='] from rfl, List.cons_prefix_cons]
    rintro ⟨_, h2⟩
    cases double with
    | false =>
      obtain ⟨v, hv⟩ := h2
      simp only [Bool.false_eq_true, if_false, List.nil_append] at hv
      rw [← hv] at hu'
      simp at hu'
    | true =>
      simp only [if_true, List.cons_append, List.nil_append, List.cons_prefix_cons, true_and] at h2
      exact hpre _ hu h2)
  cases double with
  | true =>
    obtain ⟨r1, q1, f1, f2, f3⟩ := (Nom.tag_at e2 (w := "::".toList) (by unfold AsciiS; decide)).1 (by
      rw [htext]; exact ⟨textOf u, rfl⟩)
    have hlen : cs'.length = 1 := by rw [← textOf_length cs', hcs']; rfl
    refine ⟨r1, q1, ?_, ?_, ?_⟩
    · unfold nextMword
      simp only [e1, done_andThen, m1, m2, m3, m4, err_mapP, error_orElse, f1, done_mapP, done_orElse, if_true]
    · have : ("::".toList).length = ((':', l) :: cs').length := by simp [hlen]
      rw [this, List.drop_left] at f2
      exact f2
    · have : ("::".toList).length = ((':', l) :: cs').length := by simp [hlen]
      rw [this, List.take_left] at f3
      exact f3
  | false =>
    have hlen : cs' = [] := by
      have : cs'.length = 0 := by rw [← textOf_length cs', hcs']; rfl
      exact List.length_eq_zero_iff.mp this
    subst hlen
    have m5 := tag_miss e2 (w := "::".toList) (by unfold AsciiS; decide) (by
      rw [htext, show "::".toList = [':', ':'] from rfl, List.cons_prefix_cons]
      rintro ⟨_, h2⟩
      exact hpre _ hu' h2)
    obtain ⟨r1, q1, f1, f2, f3⟩ := (Nom.tag_at e2 (w := ":".toList) (by unfold AsciiS; decide)).1 (by
      rw [htext]; exact ⟨textOf u, rfl⟩)
    refine ⟨r1, q1, ?_, f2, f3⟩
    unfold nextMword
    simp only [e1, done_andThen, m1, m2, m3, m4, m5, err_mapP, error_orElse, f1, done_mapP, done_orElse, Bool.false_eq_true, if_false]

theorem nextMword_colon {gap cs u : List LChar} {double : Bool} (h : i.At P (gap ++ (cs ++ u))) (hg : Blanks gap)
    (hc : textOf cs = (if double then "::".toList else ":".toList)) (hu : (textOf u).head? ≠ some '=')
    (hu' : (textOf u).head? ≠ some ':') :
    ∃ r m reason, nextMword i = .ok (.done r (m, reason)) ∧ r.At P u ∧ m.At P cs ∧ reason ≠ .eol := by
  obtain ⟨r, m, e1, e2, e3⟩ := nextMword_colon_at h hg hc hu hu'
  exact ⟨r, m, _, e1, e2, e3, by cases double <;> decide⟩

theorem reads_single_append {l : Location} {x : LChar} {t u : List LChar} {es : List Expr} {o : Outcome} (h1 : x.1 ≠ '$')
    (h2 : x.1 ≠ '(') (h3 : x.1 ≠ '}') (hw : Reads (('$', l) :: x :: t) (.ok es))
    (ih : ∀ {es}, Reads t (.ok es) → Reads (t ++ u) (o.map (es ++ ·))) :
    Reads (('$', l) :: x :: (t ++ u)) (o.map (es ++ ·)) := by
  generalize ho : Except.ok es = o0 at hw
  cases hw with
  | char h _ => exact absurd rfl h
  | dollar => exact absurd rfl h1
  | paren => exact absurd rfl h2
  | brace => exact absurd rfl h3
  | @single _ _ _ o1 _ _ _ hr =>
    cases o1 with
    | error k => cases ho
    | ok es1 =>
      cases ho
      have := Reads.single (l := l) h1 h2 h3 (ih hr)
      rw [map_map_outcome] at this
      simpa using this

theorem reads_chars {w t u : List LChar} {es : List Expr} {o : Outcome} (h : ∀ x ∈ w, x.1 ≠ '$')
    (hw : Reads (w ++ t) (.ok es)) (ih : ∀ {es}, Reads t (.ok es) → Reads (t ++ u) (o.map (es ++ ·))) :
    Reads (w ++ (t ++ u)) (o.map (es ++ ·)) := by
  induction w generalizing es with
  | nil => exact ih hw
  | cons x w ih' =>
    have hx := h x (by simp)
    rw [List.cons_append] at hw
    generalize hr : w ++ t = r at hw ih'
    generalize ho : Except.ok es = o0 at hw
    cases hw with
    | @char _ _ o1 _ h1 =>
      cases o1 with
      | error k => cases ho
      | ok es1 =>
        cases ho
        have := Reads.char hx (ih' (fun y hy => h y (by simp [hy])) h1)
        rw [map_map_outcome] at this
        simpa using this
    | last => exact absurd rfl hx
    | dollar => exact absurd rfl hx
    | single => exact absurd rfl hx
    | paren => exact absurd rfl hx
    | brace => exact absurd rfl hx

/-- A target followed by more text is read piece by piece. -/
theorem reads_segment {w u : List LChar} (h : Segment w) {es : List Expr} {o : Outcome} (hw : Reads w (.ok es))
    (hu : Reads u o) : Reads (w ++ u) (o.map (es ++ ·)) := by
  induction h generalizing es with
  | nil =>
    cases reads_nil hw
    have : o.map (([] : List Expr) ++ ·) = o := by cases o <;> rfl
    rw [this]; exact hu
  | @char x t hx _ ih =>
    have hx' := (wordChar_ne hx).2.2.2.2.2.2.2.1
    generalize ho : Except.ok es = o0 at hw
    cases hw with
    | @char _ _ o1 _ h1 =>
      cases o1 with
      | error k => cases ho
      | ok es1 =>
        cases ho
        have := Reads.char hx' (ih h1)
        rw [map_map_outcome] at this
        simpa using this
    | last => exact absurd rfl hx'
    | dollar => exact absurd rfl hx'
    | single => exact absurd rfl hx'
    | paren => exact absurd rfl hx'
    | brace => exact absurd rfl hx'
  | @ref l l' l'' name t hb hc _ _ ih =>
    generalize ho : Except.ok es = o0 at hw
    cases hw with
    | char h1 _ => exact absurd rfl h1
    | single _ h2 _ _ => exact absurd rfl h2
    | paren hr =>
      rw [closing_of_balanced hb] at hr
      cases hr with
      | @ref _ _ _ ns o1 _ hn hrest =>
        cases o1 with
        | error k => cases ho
        | ok es1 =>
          cases ho
          have h2 := ih hrest
          have : ReadsRef l (some (name, t ++ u)) _ := .ref hc hn h2
          rw [map_map_outcome] at this
          simp only [List.cons_append, List.append_assoc]
          refine .paren ?_
          rw [closing_of_balanced hb]
          simpa using this
      | nameError => cases ho
      | call hcall => rw [hc] at hcall; cases hcall
  | @single l x t hx hn _ ih =>
    simp only [List.mem_cons, List.not_mem_nil, or_false, not_or] at hn
    exact reads_single_append (wordChar_ne hx).2.2.2.2.2.2.2.1 hn.1 hn.2.2 hw ih
  | @brace l l' l'' name t hn _ ih =>
    have := reads_single_append (t := name ++ ('}', l'') :: t) (u := u) (o := o) (x := ('{', l')) (by show '{' ≠ _; decide)
      (by show '{' ≠ _; decide) (by show '{' ≠ _; decide) hw (fun {es} h => ?_)
    · simpa using this
    · have := reads_chars (w := name ++ [('}', l'')]) (t := t) (u := u) (o := o) (es := es) (fun x hx => ?_) (by simpa using h) ih
      · simpa using this
      · rcases List.mem_append.mp hx with hx | hx
        · exact (wordChar_ne (hn x hx).1).2.2.2.2.2.2.2.1
        · cases List.mem_singleton.mp hx
          show '}' ≠ '$'; decide

theorem orElse_done {α : Type} {p q : PRes α} {r : Span} {a : α} (h : orElse p q = .ok (.done r a)) :
    p = .ok (.done r a) ∨ q = .ok (.done r a) := by
  cases p with
  | ok x =>
    cases x with
    | done => exact .inl h
    | err e =>
      cases e with
      | error => exact .inr h
      | failure => cases h
  | panic => cases h
  | fuel => cases h

theorem mapP_done {α β : Type} {f : α → β} {p : PRes α} {r : Span} {b : β} (h : p.mapP f = .ok (.done r b)) :
    ∃ a, p = .ok (.done r a) ∧ b = f a := by
  cases p with
  | ok x =>
    cases x with
    | done => cases h; exact ⟨_, rfl, rfl⟩
    | err e => cases h
  | panic => cases h
  | fuel => cases h

/-- The next word of a rule line stands between blanks and the text that is left. -/
theorem nextMword_takeSplit {r m : Span} {reason : MWordEnd} (h : nextMword i = .ok (.done r (m, reason))) :
    ∃ i' w k, whitespace i = .ok (.done i' w) ∧ i'.takeSplit k = .ok (r, m) := by
  unfold nextMword at h
  generalize hw : whitespace i = x at h
  cases x with
  | panic => cases h
  | fuel => cases h
  | ok x =>
    cases x with
    | err => cases h
    | done i' w =>
      rw [done_andThen] at h
      refine ⟨i', w, ?_⟩
      have tag : ∀ {t : Str} {e : MWordEnd}, (Nom.tag t i').mapP (fun c => (c, e)) = .ok (.done r (m, reason)) →
          ∃ k, Res.ok (IRes.done i' w) = (.ok (.done i' w) : PRes Span) ∧ i'.takeSplit k = .ok (r, m) := by
        intro t e ht
        obtain ⟨a, h1, h2⟩ := mapP_done ht
        cases h2
        exact ⟨_, rfl, Nom.tag_takeSplit h1⟩
      repeat (rcases orElse_done h with h | h; · exact tag h)
      obtain ⟨⟨stop, reason'⟩, _, h⟩ := Res.bind_eq_ok.mp h
      obtain ⟨⟨r', m'⟩, h1, h2⟩ := Res.bind_eq_ok.mp h
      cases h2
      exact ⟨stop, rfl, h1⟩

theorem takeSplit_length {k : Nat} {r m : Span} (h : i.takeSplit k = .ok (r, m)) : m.length ≤ i.length := by
  unfold Span.takeSplit at h
  obtain ⟨_, h1, h⟩ := Res.bind_eq_ok.mp h
  obtain ⟨a, e1, e2⟩ := Res.bind_eq_ok.mp h
  cases e2
  unfold rassert at h1
  split at h1
  · rename_i hk
    simpa [Span.sliceTo] using hk
  · cases h1

/-- Where the next word of a rule line is, in a block with one piece. -/
theorem nextMword_tail {r m : Span} {reason : MWordEnd} {n : Nat} {c : CRef} (hc : i.parent.content = [c]) (ht : i.EndsAt n)
    (h : nextMword i = .ok (.done r (m, reason))) (hm : m.length ≠ 0) :
    r.EndsAt n ∧ m.start = 0 ∧ m.offset + m.length + r.length = n := by
  obtain ⟨i', w, k, h1, h2⟩ := nextMword_takeSplit h
  obtain ⟨g1, g2⟩ := ht.takeTill hc h1
  rcases g2 with g2 | g2
  · exact g2.takeSplit (by rw [g1]; exact hc) h2
  · have := takeSplit_length h2
    omega

end Hastur
