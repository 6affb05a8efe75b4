import Verif.Spec.BadRule
import Verif.Proofs.Unsupported
import Verif.Proofs.Junk
import Verif.Proofs.Compose
import Verif.Proofs.Program
/-
Lemmas: rule lines of which an expression is not well-formed.
-/
namespace Hastur

open Res Span

variable {P : Block} {t : List LChar} {i : Span}

/-! ### The scan of a word -/

theorem mwordScan_open {t : List LChar} : ∀ {d : Nat} {n : Nat} {prev : Char} {reason : MWordEnd},
    closing '(' ')' d t = none →
    mwordScan false (.brackets '(' ')' (d + 1)) prev n reason (indexed n (textOf t)) = .ok (n + t.length, reason) := by
  induction t with
  | nil => intro d n prev reason _; simp [mwordScan]
  | cons x t ih =>
    intro d n prev reason h
    rw [textOf_cons, indexed_cons, mwordScan]
    rw [closing] at h
    have len : n + (x :: t).length = n + 1 + t.length := by simp; omega
    rw [len]
    by_cases h1 : x.1 = '('
    · rw [if_pos h1] at h
      simp only [if_pos h1]
      exact ih (Option.map_eq_none_iff.mp h)
    · rw [if_neg h1] at h
      simp only [if_neg h1]
      by_cases h2 : x.1 = ')'
      · rw [if_pos h2] at h
        simp only [if_pos h2]
        by_cases h3 : d = 0
        · rw [if_pos h3] at h; cases h
        · rw [if_neg h3] at h
          rw [if_neg (by omega)]
          obtain ⟨d, rfl⟩ := Nat.exists_eq_succ_of_ne_zero h3
          exact ih (Option.map_eq_none_iff.mp h)
      · rw [if_neg h2] at h
        simp only [if_neg h2]
        exact ih (Option.map_eq_none_iff.mp h)

/-- The scan goes on through a word when a dollar sign follows. -/
theorem mwordScan_through {w : List LChar} (h : Scanned w) (u : Str) (prev : Char) (stop n : Nat) (reason : MWordEnd)
    (hr : reason = .static ∨ reason = .variable) :
    ∃ prev' stop' reason', mwordScan false .normal prev stop reason (indexed n (textOf w ++ '$' :: u)) =
      mwordScan false .normal prev' stop' reason' (indexed (n + w.length) ('$' :: u)) ∧
      (reason' = .static ∨ reason' = .variable) := by
  induction h generalizing prev stop n reason with
  | nil => exact ⟨prev, stop, reason, by simp, hr⟩
  | @char x w hx hw ih =>
    obtain ⟨n1, n2, n3, n4, n5, n6, n7, n8, n9⟩ := wordChar_ne hx
    rw [textOf_cons, List.cons_append, indexed_cons, mwordScan]
    rw [if_neg (by simp [n1, n2, n5]), if_neg n4, if_neg n8, if_neg n9]
    have fin : ∀ prev stop, ∃ prev' stop' reason',
        mwordScan false .normal prev stop reason (indexed (n + 1) (textOf w ++ '$' :: u)) =
        mwordScan false .normal prev' stop' reason' (indexed (n + (x :: w).length) ('$' :: u)) ∧
        (reason' = .static ∨ reason' = .variable) := by
      intro prev stop
      obtain ⟨p', s', r', e, e'⟩ := ih prev stop (n + 1) reason hr
      exact ⟨p', s', r', by rw [e, List.length_cons]; congr 2; omega, e'⟩
    split
    · obtain ⟨d, v, hd, hne⟩ : ∃ d v, textOf w ++ '$' :: u = d :: v ∧ d ≠ '=' := by
        cases hw with
        | nil => exact ⟨_, _, rfl, by decide⟩
        | char hy _ => exact ⟨_, _, rfl, (wordChar_ne hy).2.2.2.2.1⟩
        | ref => exact ⟨'$', _, rfl, by decide⟩
        | single => exact ⟨'$', _, rfl, by decide⟩
        | brace => exact ⟨'$', _, rfl, by decide⟩
      have : (indexed (n + 1) (textOf w ++ '$' :: u)).head? = some (n + 1, d) := by rw [hd]; rfl
      rw [this]
      simp only [if_neg hne]
      exact fin _ _
    · exact fin _ _
  | @ref l l' l'' name w hb _ ih =>
    simp only [textOf_cons, textOf_append, List.cons_append, List.append_assoc]
    rw [indexed_cons, mwordScan]
    rw [if_neg (by decide), if_neg (by decide)]
    simp only [if_true]
    rw [indexed_cons, mwordScan]
    rw [if_neg (by decide)]
    simp only [if_true]
    obtain ⟨s1, e1⟩ := mwordScan_balanced hb 0 '(' (n + 1 + 1) (n + 1 + 1) .variable (')' :: (textOf w ++ '$' :: u))
    rw [e1, indexed_cons, mwordScan]
    rw [if_neg (by decide)]
    simp only [if_true]
    obtain ⟨p', s', r', e, e'⟩ := ih ')' (n + 1 + 1 + name.length + 1) (n + 1 + 1 + name.length + 1) .variable (.inr rfl)
    refine ⟨p', s', r', ?_, e'⟩
    rw [e]
    simp only [List.length_cons, List.length_append]
    congr 2
    omega
  | @single l x w hx _ ih =>
    simp only [List.mem_cons, List.not_mem_nil, or_false, not_or] at hx
    simp only [textOf_cons, List.cons_append]
    rw [indexed_cons, mwordScan]
    rw [if_neg (by decide), if_neg (by decide)]
    simp only [if_true]
    rw [indexed_cons, mwordScan]
    simp only [if_neg hx.1, if_neg hx.2.1, if_neg hx.2.2]
    obtain ⟨p', s', r', e, e'⟩ := ih x.1 (n + 1 + 1) (n + 1 + 1) .variable (.inr rfl)
    refine ⟨p', s', r', ?_, e'⟩
    rw [e]
    simp only [List.length_cons]
    congr 2
    omega
  | @brace l l' l'' name w hb _ ih =>
    simp only [textOf_cons, textOf_append, List.cons_append, List.append_assoc]
    rw [indexed_cons, mwordScan]
    rw [if_neg (by decide), if_neg (by decide)]
    simp only [if_true]
    rw [indexed_cons, mwordScan]
    rw [if_neg (by decide), if_neg (by decide)]
    simp only [if_true]
    obtain ⟨s1, e1⟩ := mwordScan_brace hb '{' (n + 1 + 1) (n + 1 + 1) .variable ('}' :: (textOf w ++ '$' :: u))
    rw [e1, indexed_cons, mwordScan]
    rw [if_neg (by decide)]
    simp only [if_true]
    obtain ⟨p', s', r', e, e'⟩ := ih '}' (n + 1 + 1 + name.length + 1) (n + 1 + 1 + name.length + 1) .variable (.inr rfl)
    refine ⟨p', s', r', ?_, e'⟩
    rw [e]
    simp only [List.length_cons, List.length_append]
    congr 2
    omega

/-- A word with a reference that is not closed goes to the end of the line. -/
theorem nextMword_open {gap w t : List LChar} {l l' : Location} (h : i.At P (gap ++ (w ++ ('$', l) :: ('(', l') :: t)))
    (hg : Blanks gap) (hw : Scanned w) (hc : closing '(' ')' 0 t = none) :
    ∃ r m, nextMword i = .ok (.done r (m, .variable)) ∧ m.At P (w ++ ('$', l) :: ('(', l') :: t) := by
  obtain ⟨r, q, e1, e2, _⟩ := whitespace_at h
  obtain ⟨x, v, hv, hx, hy⟩ : ∃ x v, w ++ ('$', l) :: ('(', l') :: t = x :: v ∧ (x.1 = '$' ∨ WordChar x.1) ∧
      ∀ y v', v = y :: v' → x.1 ≠ '$' → y.1 ≠ '=' := by
    cases w with
    | nil => exact ⟨_, _, rfl, .inl rfl, fun y v' _ h => absurd rfl h⟩
    | cons z w =>
      obtain ⟨x, w', hw', hx, hy⟩ := segment_head hw (by simp)
      refine ⟨x, w' ++ ('$', l) :: ('(', l') :: t, by rw [hw']; rfl, hx, fun y v' he hne => ?_⟩
      cases w' with
      | nil => cases he; show '$' ≠ '='; decide
      | cons y' w'' => cases he; exact hy _ _ rfl hne
  have e3 : (gap ++ (w ++ ('$', l) :: ('(', l') :: t)).dropWhile lblank = w ++ ('$', l) :: ('(', l') :: t := by
    rw [dropWhile_blanks hg, dropWhile_solid]
    intro y hy
    rw [hv] at hy
    simp only [List.head?_cons, Option.some.injEq] at hy
    rw [← hy, ← Bool.not_eq_true]
    intro hb
    have := lblank_iff.mp hb
    rcases hx with hx | hx
    · rw [hx] at this; revert this; decide
    · have hn := wordChar_ne hx
      exact this.elim hn.1 hn.2.1
  rw [e3] at e2
  have htext : textOf (w ++ ('$', l) :: ('(', l') :: t) = x.1 :: textOf v := by rw [hv]; rfl
  have first : ∀ c s, c ≠ '$' → (c = ';' ∨ c = '=' ∨ c = ':') → ¬ (c :: s) <+: textOf (w ++ ('$', l) :: ('(', l') :: t) := by
    rintro c s h0 hc hp
    rw [htext, List.cons_prefix_cons] at hp
    have := hp.1
    rcases hx with hx | hx
    · exact h0 (this.trans hx)
    · have hn := wordChar_ne hx
      rcases hc with rfl | rfl | rfl
      · exact hn.2.2.2.2.2.1 this.symm
      · exact hn.2.2.2.2.1 this.symm
      · exact hn.2.2.2.1 this.symm
  have second : ∀ c, c ≠ '$' → ¬ [c, '='] <+: textOf (w ++ ('$', l) :: ('(', l') :: t) := by
    rintro c h0 hp
    rw [htext, List.cons_prefix_cons] at hp
    obtain ⟨h1, h2⟩ := hp
    cases v with
    | nil => simp at h2
    | cons y v =>
      rw [textOf_cons, List.cons_prefix_cons] at h2
      exact hy y v rfl (by rw [← h1]; exact h0) h2.1.symm
  have m1 := tag_miss e2 (w := ";".toList) (by unfold AsciiS; decide) (first ';' [] (by decide) (by simp))
  have m2 := tag_miss e2 (w := "=".toList) (by unfold AsciiS; decide) (first '=' [] (by decide) (by simp))
  have m3 := tag_miss e2 (w := ":=".toList) (by unfold AsciiS; decide) (first ':' ['='] (by decide) (by simp))
  have m4 := tag_miss e2 (w := "::=".toList) (by unfold AsciiS; decide) (first ':' [':', '='] (by decide) (by simp))
  have m5 := tag_miss e2 (w := "::".toList) (by unfold AsciiS; decide) (first ':' [':'] (by decide) (by simp))
  have m6 := tag_miss e2 (w := ":".toList) (by unfold AsciiS; decide) (first ':' [] (by decide) (by simp))
  have m7 := tag_miss e2 (w := "+=".toList) (by unfold AsciiS; decide) (second '+' (by decide))
  have m8 := tag_miss e2 (w := "?=".toList) (by unfold AsciiS; decide) (second '?' (by decide))
  have m9 := tag_miss e2 (w := "!=".toList) (by unfold AsciiS; decide) (second '!' (by decide))
  have hscan : mwordScan false .normal (Char.ofNat 0) 0 .static (indexed 0 (textOf (w ++ ('$', l) :: ('(', l') :: t))) =
      .ok ((w ++ ('$', l) :: ('(', l') :: t).length, .variable) := by
    obtain ⟨p', s', r', s1, _⟩ := mwordScan_through hw ('(' :: textOf t) (Char.ofNat 0) 0 0 .static (.inl rfl)
    simp only [textOf_append, textOf_cons]
    rw [s1, indexed_cons, mwordScan, if_neg (by decide), if_neg (by decide)]
    simp only [if_true]
    rw [indexed_cons, mwordScan, if_neg (by decide)]
    simp only [if_true]
    rw [mwordScan_open hc]
    simp only [List.length_append, List.length_cons]
    congr 2
    omega
  obtain ⟨r', m, t1, t2, t3⟩ := e2.takeSplit (n := (w ++ ('$', l) :: ('(', l') :: t).length) (Nat.le_refl _)
  rw [List.take_length] at t3
  refine ⟨r', m, ?_, t3⟩
  unfold nextMword
  simp only [e1, done_andThen, m1, m2, m3, m4, m5, m6, m7, m8, m9, err_mapP, error_orElse]
  rw [e2.chars]
  simp only [Span.withIndices_eq 0 e2.ascii]
  rw [hscan]
  simp only [ok_bind, t1]
  rfl

/-! ### The targets -/

theorem reads_bad {name u : List LChar} {l l' l'' : Location} {k : ParseErrorKind} (hb : Balanced name)
    (h : Reads (('$', l) :: ('(', l') :: (name ++ [(')', l'')])) (.error k)) :
    Reads (('$', l) :: ('(', l') :: (name ++ (')', l'') :: u)) (.error k) := by
  refine .paren ?_
  rw [closing_of_balanced hb]
  generalize ho : (Except.error k : Outcome) = o at h
  cases h with
  | paren h =>
    rw [closing_of_balanced hb] at h
    cases h with
    | ref _ _ h3 =>
      cases reads_nil h3
      cases ho
    | nameError h1 h2 =>
      cases ho
      exact .nameError h1 h2
    | call h1 h2 =>
      subst ho
      exact .call h1 h2
  | char h => exact absurd rfl h
  | single _ h => exact absurd rfl h

theorem Scanned.append {a b : List LChar} (ha : Scanned a) (hb : Scanned b) : Scanned (a ++ b) := by
  induction ha with
  | nil => exact hb
  | char hx _ ih => exact .char hx ih
  | @ref l l' l'' name t hn _ ih =>
    have := Scanned.ref (l := l) (l' := l') (l'' := l'') hn ih
    simpa using this
  | single hx _ ih => exact .single hx ih
  | @brace l l' l'' name t hn _ ih =>
    have := Scanned.brace (l := l) (l' := l') (l'' := l'') hn ih
    simpa using this

theorem expandSegment_bad (hm : Block.Mono P) (h : i.At P t) {k : ParseErrorKind} (hr : Reads t (.error k)) (r : Rec)
    (st : St) : expandSegment r i st = .ok (.error (.failure (.custom k)), st) := by
  unfold expandSegment
  rw [(parseAst_at hm h hr).1]
  rfl

theorem wordLoop_bad {r : Rec} {n : Nat} {lineNext m : Span} {mwt : MWordEnd} {buf : Block} {postSemi : Option Block} {st st' : St}
    {e : NErr} (h : expandSegment r m st = .ok (.error e, st')) :
    wordLoop r (n + 1) lineNext m mwt buf postSemi st = .ok (.err e, st') := by
  rw [wordLoop, h]
  rfl

theorem BadTargets.ne_nil {env : Env} {k : ParseErrorKind} (h : BadTargets env t k) : t ≠ [] := by
  cases h with
  | closed => simp
  | unclosed => simp
  | more _ h => simp [h]

/-- The loop over targets of which one is malformed. -/
theorem wordLoop_badTargets (fs : Fs) (hm : Block.Mono P) {env : Env} {ts : List LChar} {k : ParseErrorKind}
    (hT : BadTargets env ts k) (postSemi : Option Block) (hs : ∀ x ∈ ts, x.1 ∉ [';', '#', '\\']) :
    ∀ {st : St} {gap : List LChar} {lineNext : Span}, st.WF → st.env = env → Blanks gap →
      lineNext.At P (gap ++ ts) →
      ∃ N r m reason st', nextMword lineNext = .ok (.done r (m, reason)) ∧ (reason = .static ∨ reason = .variable) ∧
        ∀ n k' buf bt, N ≤ n → ts.length < k' → Buf bt buf →
          wordLoop (recF fs n) k' r m reason buf postSemi st = .ok (.err (.failure (.custom k)), st') := by
  induction hT with
  | @closed p name q u es l l' l'' k hp hpr hb hr hq hu =>
    intro st gap lineNext hst henv hg h
    have hsc : Scanned (p ++ ('$', l) :: ('(', l') :: (name ++ (')', l'') :: q)) :=
      hp.scanned.append (.ref hb hq.scanned)
    have hstop : WordStop (textOf u) := by
      cases u with
      | nil => exact .eof
      | cons x u =>
        simp only [textOf_cons, List.head?_cons, List.mem_cons, List.not_mem_nil, or_false, Option.some.injEq] at hu
        rw [textOf_cons]
        rcases hu with hu | hu | hu | hu
        · cases hu
        · exact .blank (.inl hu)
        · exact .blank (.inr hu)
        · rw [hu]
          refine .colon fun he => ?_
          cases u with
          | nil => cases he
          | cons y u =>
            simp only [textOf_cons, List.head?_cons, Option.some.injEq] at he
            exact hs y (by simp) (by rw [he]; decide)
    obtain ⟨r, m, reason, e1, _, e3, e4⟩ := nextMword_scanned (w := p ++ ('$', l) :: ('(', l') :: (name ++ (')', l'') :: q))
      (u := u) (by simpa using h) hg hsc (by simp) hstop
    have hread : Reads (p ++ ('$', l) :: ('(', l') :: (name ++ (')', l'') :: (q ++ u.take (WordStop.extra (textOf u)))))
        (.error k) := reads_segment (o := .error k) hp hpr (reads_bad hb hr)
    refine ⟨0, r, m, _, st, e1, e4, fun n k' buf bt _ hk _ => ?_⟩
    obtain ⟨k', rfl⟩ := Nat.exists_eq_add_of_lt (show 0 < k' by omega)
    exact wordLoop_bad (expandSegment_bad hm (by simpa using e3) hread _ _)
  | @unclosed p t es l l' hp hpr hc =>
    intro st gap lineNext hst henv hg h
    obtain ⟨r, m, e1, e2⟩ := nextMword_open h hg hp.scanned (closing_none hc)
    have hread : Reads (p ++ ('$', l) :: ('(', l') :: t) (.error .unterminatedVariable) :=
      reads_segment (o := .error _) hp hpr (.paren (l := l) (l' := l') (by rw [closing_none hc]; exact .unclosed))
    refine ⟨0, r, m, _, st, e1, .inr rfl, fun n k' buf bt _ hk _ => ?_⟩
    obtain ⟨k', rfl⟩ := Nat.exists_eq_add_of_lt (show 0 < k' by omega)
    exact wordLoop_bad (expandSegment_bad hm e2 hread _ _)
  | @more w gap' t ts es vs k hw hne hg' hgne hr he hfn hte hT ih =>
    intro st gap lineNext hst henv hg h
    subst henv
    obtain ⟨x, gap'', rfl⟩ := List.exists_cons_of_ne_nil hgne
    have hblank := hg' x List.mem_cons_self
    have hstop : WordStop (textOf (x :: gap'' ++ ts)) := by
      rw [List.cons_append, textOf_cons]
      exact .blank hblank
    obtain ⟨r, m, reason, e1, e2, e3, e4⟩ := nextMword_segment h hg hw hne hstop
    have hx : WordStop.extra (textOf (x :: gap'' ++ ts)) = 0 := by
      rw [List.cons_append, textOf_cons]
      simp only [WordStop.extra]
      rw [if_neg]
      rcases hblank with h | h <;> rw [h] <;> decide
    rw [hx, List.drop_zero] at e2
    rw [hx, List.take_zero, List.append_nil] at e3
    obtain ⟨N, b, b1, b2⟩ := expandSegment_at fs hm e3 hr hst he
    obtain ⟨M, r2, m2, reason2, st', c1, c2, d5⟩ :=
      ih (fun y hy => hs y (by simp [hy])) (st := st.interned vs) (hst.interned vs) (hst.env_interned vs) hg' e2
    refine ⟨max N M, r, m, reason, st', e1, e4, ?_⟩
    intro n k buf bt hn hk hbuf
    obtain ⟨k, rfl⟩ := Nat.exists_eq_add_of_lt (show 0 < k by omega)
    obtain ⟨buf1, g1, g2⟩ := wordLoop_plain (mwt := reason) (postSemi := postSemi) (b2 n (by omega)) b1 hfn hte c1
      (by rcases c2 with h | h <;> rw [h] <;> decide) hbuf
    rw [g2, d5 n (0 + k) buf1 _ (by omega) (by
      have := List.length_pos_iff.mpr hne
      simp at hk; omega) g1]

theorem BadCommand.ne_nil {env : Env} {k : ParseErrorKind} (h : BadCommand env t k) : t ≠ [] := by
  cases h with
  | here _ h => simp [h]
  | more _ h => simp [h]

/-- The loop over targets of which one has a semicolon in its value, if the rest of the line is malformed. -/
theorem wordLoop_badCommand (fs : Fs) (hm : Block.Mono P) {env : Env} {ts : List LChar} {k : ParseErrorKind}
    (hT : BadCommand env ts k) :
    ∀ {st : St} {gap : List LChar} {lineNext : Span}, st.WF → st.env = env → Blanks gap →
      lineNext.At P (gap ++ ts) →
      ∃ N r m reason st', nextMword lineNext = .ok (.done r (m, reason)) ∧ (reason = .static ∨ reason = .variable) ∧
        ∀ n k' buf bt, N ≤ n → ts.length < k' → Buf bt buf →
          wordLoop (recF fs n) k' r m reason buf none st = .ok (.err (.failure (.custom k)), st') := by
  induction hT with
  | @here w pre post rest es vs l k hw hne hr he hp hh hbad =>
    intro st gap lineNext hst henv hg h
    subst henv
    obtain ⟨x, rest, rfl⟩ : ∃ x u, rest = x :: u := by
      cases rest with
      | nil => simp at hh
      | cons x u => exact ⟨x, u, rfl⟩
    have hblank : x.1 = ' ' ∨ x.1 = '\t' := by simpa using hh
    have hstop : WordStop (textOf (x :: rest)) := by
      rw [textOf_cons]
      exact .blank hblank
    obtain ⟨r, m, reason, e1, e2, e3, e4⟩ := nextMword_segment h hg hw hne hstop
    have hx : WordStop.extra (textOf (x :: rest)) = 0 := by
      rw [textOf_cons]
      simp only [WordStop.extra]
      rw [if_neg]
      rcases hblank with h | h <;> rw [h] <;> decide
    rw [hx, List.drop_zero] at e2
    rw [hx, List.take_zero, List.append_nil] at e3
    obtain ⟨N, b, b1, b2⟩ := expandSegment_at fs hm e3 hr hst he
    obtain ⟨pb, sc, po, c1, _, _, c4⟩ := takeUntilUnquote_hit (· == ';') (by decide) (by decide) b1.at
      (fun y hy he => hp y hy (by rw [he]; simp)) (fun y hy => by
        have := hp y hy
        simp only [List.mem_cons, List.not_mem_nil, or_false, not_or] at this
        simpa using this.1) (by rfl)
    obtain ⟨qb, d1, _⟩ := c4.part
    refine ⟨N, r, m, reason, st.interned vs, e1, e4, fun n k' buf bt hn hk _ => ?_⟩
    obtain ⟨k', rfl⟩ := Nat.exists_eq_add_of_lt (show 0 < k' by omega)
    rw [wordLoop, b2 n hn]
    simp only [ok_bind, semicolonInWord, c1, d1, expandSegment_bad hm e2 hbad]
    rfl
  | @more w gap' t ts es vs k hw hne hg' hgne hr he hfn hte hT ih =>
    intro st gap lineNext hst henv hg h
    subst henv
    obtain ⟨x, gap'', rfl⟩ := List.exists_cons_of_ne_nil hgne
    have hblank := hg' x List.mem_cons_self
    have hstop : WordStop (textOf (x :: gap'' ++ ts)) := by
      rw [List.cons_append, textOf_cons]
      exact .blank hblank
    obtain ⟨r, m, reason, e1, e2, e3, e4⟩ := nextMword_segment h hg hw hne hstop
    have hx : WordStop.extra (textOf (x :: gap'' ++ ts)) = 0 := by
      rw [List.cons_append, textOf_cons]
      simp only [WordStop.extra]
      rw [if_neg]
      rcases hblank with h | h <;> rw [h] <;> decide
    rw [hx, List.drop_zero] at e2
    rw [hx, List.take_zero, List.append_nil] at e3
    obtain ⟨N, b, b1, b2⟩ := expandSegment_at fs hm e3 hr hst he
    obtain ⟨M, r2, m2, reason2, st', c1, c2, d5⟩ :=
      ih (st := st.interned vs) (hst.interned vs) (hst.env_interned vs) hg' e2
    refine ⟨max N M, r, m, reason, st', e1, e4, ?_⟩
    intro n k buf bt hn hk hbuf
    obtain ⟨k, rfl⟩ := Nat.exists_eq_add_of_lt (show 0 < k by omega)
    obtain ⟨buf1, g1, g2⟩ := wordLoop_plain (mwt := reason) (postSemi := none) (b2 n (by omega)) b1 hfn hte c1
      (by rcases c2 with h | h <;> rw [h] <;> decide) hbuf
    rw [g2, d5 n (0 + k) buf1 _ (by omega) (by
      have := List.length_pos_iff.mpr hne
      simp at hk; omega) g1]

/-! ### Dependencies and command -/

/-- The text after the targets, as it is put together, with the command. -/
theorem finish_after {ln : Span} {after : Block} {at' lt cs ds : List LChar} {double : Bool} {postSemi : Option Block}
    {command : Option (List LChar)} (hm : Block.Mono P) (hP : P.Solid) (hafter : Buf at' after)
    (hamono : at' ≠ [] → Block.Mono after) (hln : ln.At P lt)
    (hat : at' ++ lt = cs ++ ds) (hcs : textOf cs = if double then [':'] else []) (hd : (textOf ds).head? ≠ some ':')
    (hcommand : CommandAt command postSemi) :
    ∃ b1 b2 b3 slice, Block.empty.pushAll after.span = .ok b1 ∧ b1.pushAll ln = .ok b2 ∧
      (match postSemi with
      | some content => (b2.push CRef.semicolon).pushAll content.span
      | none => .ok b2 : Res Block) = .ok b3 ∧ Block.Mono b3 ∧ slice.At b3 (afterText ds command) ∧
      (Nom.tag [':'] b3.span >>= fun
      | .done i _ => do
        let n ← usub b2.len 1
        return (i, true, n)
      | .err _ => .ok (b3.span, false, b2.len) : Res (Span × Bool × Nat)) = .ok (slice, double, ds.length) := by
  obtain ⟨b1, p1, p2, p3⟩ := Buf.empty.pushAll hafter.at hafter.solid
  obtain ⟨b2, q1, q2, q3⟩ := p2.pushAll hln hP
  rw [List.nil_append, hat] at q2
  have hm2 : Block.Mono b2 := q3 (p3 trivial hamono) (fun _ => hm)
  have hblock : ∃ b3, (match postSemi with
      | some content => (b2.push CRef.semicolon).pushAll content.span
      | none => .ok b2 : Res Block) = .ok b3 ∧ Buf (cs ++ afterText ds command) b3 ∧ Block.Mono b3 := by
    cases hcommand with
    | none => exact ⟨b2, rfl, q2, hm2⟩
    | @some cmd b hb hbm =>
      obtain ⟨s1, s2⟩ := q2.semicolon
      obtain ⟨b3, r1, r2, r3⟩ := s1.pushAll hb.at hb.solid
      exact ⟨b3, r1, by simpa [afterText] using r2, r3 (s2 hm2) fun _ => hbm⟩
  obtain ⟨b3, r1, r2, r3⟩ := hblock
  have hat3 := r2.at
  cases double with
  | true =>
    obtain ⟨j, q, e1, e2, _⟩ := (Nom.tag_at hat3 (w := [':']) (by unfold AsciiS; decide)).1 (by
      rw [textOf_append, hcs]; exact ⟨_, rfl⟩)
    have hl : cs.length = 1 := by rw [← textOf_length cs, hcs]; rfl
    refine ⟨b1, b2, b3, j, p1, q1, r1, r3, ?_, ?_⟩
    · have : ([':'] : Str).length = cs.length := by rw [hl]; rfl
      rw [this, List.drop_left] at e2
      exact e2
    · rw [e1]
      simp only [ok_bind]
      rw [q2.len, List.length_append, hl]
      have : usub (1 + ds.length) 1 = .ok ds.length := by
        unfold usub
        rw [if_pos (by omega), Nat.add_sub_cancel_left]
      rw [this]
      rfl
  | false =>
    have hl : cs = [] := by
      have : cs.length = 0 := by rw [← textOf_length cs, hcs]; rfl
      exact List.length_eq_zero_iff.mp this
    subst hl
    rw [List.nil_append] at hat3
    have hmiss := tag_miss hat3 (w := [':']) (by unfold AsciiS; decide) (by
      rintro ⟨v, hv⟩
      cases ds with
      | nil =>
        cases command with
        | none => simp [afterText] at hv
        | some cmd => simp [afterText] at hv
      | cons y ds =>
        have hy : y.1 ≠ ':' := fun e => hd (by rw [textOf_cons, e]; rfl)
        cases command with
        | none => simp [afterText] at hv; exact hy hv.1.symm
        | some cmd => simp [afterText] at hv; exact hy hv.1.symm)
    refine ⟨b1, b2, b3, b3.span, p1, q1, r1, r3, hat3, ?_⟩
    rw [hmiss]
    simp only [ok_bind]
    rw [q2.len, List.nil_append]

/-- The outcomes of rule lines that are not accepted. -/
inductive Refused : IRes TargetAction → Prop
  | err {e : NErrKind} : Refused (.err (.failure e))
  | assign {rest : Span} {ts : List Block} {a : VarAction} : Refused (.done rest (.targetVariable ts a))

theorem finishRule_bad (r : Rec) {rest ln : Span} {pre after : Block} {at' lt cs ds : List LChar} {double : Bool}
    {postSemi : Option Block} {command : Option (List LChar)} {st st' : St} {o : IRes TargetAction} {k : ParseErrorKind}
    (hm : Block.Mono P) (hP : P.Solid) (hafter : Buf at' after) (hamono : at' ≠ [] → Block.Mono after) (hln : ln.At P lt)
    (hat : at' ++ lt = cs ++ ds) (hcs : textOf cs = if double then [':'] else []) (hd : (textOf ds).head? ≠ some ':')
    (hcommand : CommandAt command postSemi)
    (hb : Reads ds (.error k) ∨ ∃ cmd, command = some cmd ∧ Reads cmd (.error k))
    (ho : finishRule r rest pre after ln postSemi st = .ok (o, st')) : Refused o := by
  obtain ⟨b1, b2, b3, slice, e1, e2, e6, e3, e4, e5⟩ := finish_after hm hP hafter hamono hln hat hcs hd hcommand
  have hle : ds.length ≤ (afterText ds command).length := by cases command <;> simp [afterText]
  have hpart : (slice.sliceTo ds.length).At b3 ds := by
    have h1 := e4.sliceTo hle
    have h2 : (afterText ds command).take ds.length = ds := by cases command <;> simp [afterText]
    rwa [h2] at h1
  unfold finishRule at ho
  obtain ⟨targets, _, ho⟩ := Res.bind_eq_ok.mp ho
  simp only [e1, e2, ok_bind] at ho
  obtain ⟨x3, f3, ho⟩ := Res.bind_eq_ok.mp ho
  cases f3.symm.trans e6
  obtain ⟨x5, f5, ho⟩ := Res.bind_eq_ok.mp ho
  cases f5.symm.trans e5
  dsimp only at ho
  obtain ⟨⟨v, st1⟩, k1, k2⟩ := Res.bind_eq_ok.mp ho
  cases v with
  | done _ a => cases k2; exact .assign
  | err e =>
    dsimp only at k2
    obtain ⟨ps, k3, k4⟩ := Res.bind_eq_ok.mp k2
    obtain ⟨⟨buf, st2⟩, k5, k6⟩ := Res.bind_eq_ok.mp k4
    rcases hb with hb | ⟨cmd, rfl, hb⟩
    · rw [expandSegment_bad e3 hpart hb] at k5
      cases k5
      cases k6
      exact .err
    · have hl : slice.length > ds.length := by rw [e4.length]; simp [afterText]
      obtain ⟨s, g1, g2⟩ := e4.sliceFrom (n := ds.length + 1) (by simp [afterText])
      have g2' : s.At b3 cmd := by
        have h1 : (ds.length + 1) - ds.length = 1 := by omega
        rw [afterText, List.drop_append, List.drop_of_length_le (by omega), h1] at g2
        exact g2
      obtain ⟨pb, g3, g4⟩ := g2'.part
      rw [if_pos hl, g1] at k3
      cases k3
      cases buf with
      | error e =>
        cases k6
        unfold expandSegment at k5
        rcases parseAst_hard e3 hpart with ⟨rr, a, f⟩ | ⟨kk, f⟩
        · simp only [f, ok_bind] at k5
          obtain ⟨_, _, k7⟩ := Res.bind_eq_ok.mp k5
          cases k7
        · rw [f] at k5
          cases k5
          exact .err
      | ok buf =>
        simp only [g3, ok_bind] at k6
        obtain ⟨⟨preB, postB⟩, k7, k8⟩ := Res.bind_eq_ok.mp k6
        cases k7
        dsimp only at k8
        rw [(parseAst_at (g4.mono e3) g4.at hb).1] at k8
        cases k8
        exact .err

/-! ### The line -/

/-- The text in front of the first semicolon, and what follows. -/
theorem preSemi_split {L : Block} {pre tail : List LChar} (hm : Block.Mono L) (h : L.span.At L (pre ++ tail))
    (hp : ∀ x ∈ pre, x.1 ∉ [';', '#', '\\']) (ht : Tail tail) :
    ∃ b postSemi command, CommandAt command postSemi ∧ Part L pre b ∧ (∀ l cmd, tail = (';', l) :: cmd → command = some cmd) ∧
      (do
        match ← takeUntilUnquote L.span (fun c => c == ';' || c == '#') with
        | (pre, some (stopChar, post)) => do
          let c ← Nom.firstChar stopChar
          if c = some '#' then return (pre, none)
          else do
            let b ← post.toNewBlock
            return (pre, some b)
        | (pre, none) => return (pre, none) : Res (Block × Option Block)) = .ok (b, postSemi) := by
  have g1 : Free '\\' pre := fun x hx he => hp x hx (by rw [he]; simp)
  have g2 : ∀ x ∈ pre, (fun c => c == ';' || c == '#') x.1 = false := by
    intro x hx
    have := hp x hx
    simp only [List.mem_cons, List.not_mem_nil, or_false, not_or] at this
    simp [this.1, this.2.1]
  cases ht with
  | nil =>
    rw [List.append_nil] at h
    obtain ⟨b, e1, e2⟩ := takeUntilUnquote_miss (fun c => c == ';' || c == '#') (by decide) (by decide) h g1 g2
    exact ⟨b, none, none, .none, e2, (fun l cmd he => by cases he), by rw [e1]; rfl⟩
  | @semicolon l cmd =>
    obtain ⟨b, sc, post, e1, e2, e3, e4⟩ := takeUntilUnquote_hit (fun c => c == ';' || c == '#') (by decide) (by decide)
      h g1 g2 (by simp)
    obtain ⟨pb, k1, k2⟩ := e4.part
    refine ⟨b, some pb, some cmd, .some k2.buf (k2.mono hm), e2, (fun l cmd he => by cases he; rfl), ?_⟩
    rw [e1]
    simp only [ok_bind, Nom.firstChar_at e3, k1]
    rfl

theorem parseTargetLine_bad (fs : Fs) {L : Block} {line : List LChar} {st : St} {k : ParseErrorKind}
    (hL : L.content.length ≤ 1) (hm : Block.Mono L) (h : L.span.At L line) (hnl : Free '\n' line) (hcom : Free '#' line)
    (hev : trailingSlashes (textOf line) % 2 = 0) (hb : BadRule st.env line k) (hst : st.WF) :
    ∃ N, ∀ n, N ≤ n → ∀ o st', parseTargetLine (recF fs n) L.span st = .ok (o, st') → Refused o := by
  obtain ⟨rest, L2, m1, _, m3, _⟩ := makefileLine_one (strip := false) h (grabSpec_eof hcom hnl) hev
  have hm2 := m3.mono hL hm
  have hat2 := m3.at
  have found : ∀ {ts tt cs ds tail : List LChar} {vs : List Str} {double : Bool}, line = ts ++ (cs ++ (ds ++ tail)) →
      TargetsExpand st.env ts tt vs → textOf cs = (if double then "::".toList else ":".toList) →
      (textOf ds).head? ∉ [some ':', some '='] → (∀ x ∈ ds, x.1 ∉ [';', '#', '\\']) → Tail tail →
      (Reads ds (.error k) ∨ ∃ l cmd, tail = (';', l) :: cmd ∧ Reads cmd (.error k)) →
      ∃ N, ∀ n, N ≤ n → ∀ o st', parseTargetLine (recF fs n) L.span st = .ok (o, st') → Refused o := by
    intro ts tt cs ds tail vs double hline hT hc hh hds ht hr
    subst hline
    have good : ∀ x ∈ ts ++ (cs ++ ds), x.1 ∉ [';', '#', '\\'] := by
      intro x hx
      rcases List.mem_append.mp hx with hx | hx
      · exact targets_chars hT x hx
      rcases List.mem_append.mp hx with hx | hx
      · have : x.1 ∈ textOf cs := mem_textOf.mpr ⟨x, hx, rfl⟩
        rw [hc] at this
        have : x.1 = ':' := by cases double <;> simpa using this
        rw [this]; decide
      · exact hds x hx
    obtain ⟨b, postSemi, command, c1, e2, c2, hsemi⟩ := preSemi_split hm2 (pre := ts ++ (cs ++ ds)) (tail := tail)
      (by simpa using hat2) good ht
    have hb := e2.buf
    have hbm := e2.mono hm2
    simp only [List.mem_cons, List.not_mem_nil, or_false, not_or] at hh
    obtain ⟨N, r, m, reason, aft, ln, at', lt, w1, w2, _, ⟨w3, w4, w5, w6, _, w7⟩⟩ :=
      wordLoop_targets fs hT hc hh.2 hh.1 (by
        intro he
        cases ds with
        | nil => cases he
        | cons y ds =>
          simp only [textOf_cons, List.head?_cons, Option.some.injEq] at he
          exact hds y List.mem_cons_self (by rw [he]; decide)) postSemi hst rfl (gap := []) (lineNext := b.span)
        (by intro x hx; cases hx) hb.at (.inl hbm)
    obtain ⟨l, cs', rfl, hcs'⟩ := colons_split hc
    obtain ⟨b0, mwt0, extra0, x1, x2, x3, x4⟩ := w7 N (b.len + 2) Block.empty [] (Nat.le_refl _) (by
      rw [hb.len]; simp; omega) Buf.empty
    refine ⟨N, fun n hn o st' ho => ?_⟩
    have hloop := (wordLoop_le (recF_le fs hn) (b.len + 2) r m reason Block.empty postSemi st).ok x1
    unfold parseTargetLine at ho
    rw [m1] at ho
    simp only [ok_bind] at ho
    obtain ⟨x5, f5, ho⟩ := Res.bind_eq_ok.mp ho
    cases f5.symm.trans hsemi
    dsimp only at ho
    rw [w1] at ho
    simp only [ok_bind] at ho
    have fin : finishRule (recF fs n) rest b0 aft ln postSemi (st.interned vs) = .ok (o, st') := by
      rcases w2 with rfl | rfl <;> simpa only [hloop, ok_bind, if_neg x4, runwrap] using ho
    refine finishRule_bad (k := k) _ hbm hb.solid w3 w4 w5 w6 hcs' hh.1 c1 ?_ fin
    rcases hr with hr | ⟨l, cmd, rfl, hr⟩
    · exact .inl hr
    · exact .inr ⟨cmd, c2 l cmd rfl, hr⟩
  cases hb with
  | deps hT hc hh hds hr ht => exact found rfl hT hc hh hds ht (.inl hr)
  | @command _ _ _ _ cmd _ _ l _ hT hc hh hds hr => exact found rfl hT hc hh hds .semicolon (.inr ⟨l, cmd, rfl, hr⟩)
  | @targets ts tail _ hT hs ht =>
    obtain ⟨b, postSemi, command, c1, e2, c2, hsemi⟩ := preSemi_split hm2 hat2 hs ht
    have hb := e2.buf
    obtain ⟨N, r, m, reason, st1, w1, w2, w3⟩ := wordLoop_badTargets fs (e2.mono hm2) hT postSemi hs hst rfl (gap := [])
      (lineNext := b.span) (by intro x hx; cases hx) hb.at
    refine ⟨N, fun n hn o st' ho => ?_⟩
    have hloop := w3 n (b.len + 2) Block.empty [] hn (by rw [hb.len]; omega) Buf.empty
    unfold parseTargetLine at ho
    rw [m1] at ho
    simp only [ok_bind] at ho
    obtain ⟨x5, f5, ho⟩ := Res.bind_eq_ok.mp ho
    cases f5.symm.trans hsemi
    dsimp only at ho
    rw [w1] at ho
    simp only [ok_bind] at ho
    have fin : o = .err (.failure (.custom k)) := by
      rcases w2 with rfl | rfl
      · simp only [hloop, ok_bind] at ho
        cases ho
        rfl
      · simp only [hloop, ok_bind] at ho
        cases ho
        rfl
    rw [fin]
    exact .err
  | hidden hT hs =>
    have hat2 : L2.span.At L2 line := hat2
    obtain ⟨b, e1, e2⟩ := takeUntilUnquote_miss (fun c => c == ';' || c == '#') (by decide) (by decide) hat2
      (fun y hy he => hs y hy (by rw [he]; simp)) (fun y hy => by
        have := hs y hy
        simp only [List.mem_cons, List.not_mem_nil, or_false, not_or] at this
        simp [this.1, this.2.1])
    have hb := e2.buf
    obtain ⟨N, r, m, reason, st1, w1, w2, w3⟩ := wordLoop_badCommand fs (e2.mono hm2) hT hst rfl (gap := [])
      (lineNext := b.span) (by intro x hx; cases hx) hb.at
    refine ⟨N, fun n hn o st' ho => ?_⟩
    have hloop := w3 n (b.len + 2) Block.empty [] hn (by rw [hb.len]; omega) Buf.empty
    unfold parseTargetLine at ho
    rw [m1] at ho
    simp only [ok_bind, e1] at ho
    dsimp only [Res.pure_eq, ok_bind] at ho
    rw [w1] at ho
    simp only [ok_bind] at ho
    have fin : o = .err (.failure (.custom k)) := by
      rcases w2 with rfl | rfl
      · simp only [hloop, ok_bind] at ho
        cases ho
        rfl
      · simp only [hloop, ok_bind] at ho
        cases ho
        rfl
    rw [fin]
    exact .err

theorem parseLine_badRule (fs : Fs) {line rest : List LChar} {p : PState} {st : St} {k : ParseErrorKind}
    (h : AtLine P i t line rest p st) (hr : p.currentRule = none ∨ (textOf t).head? ≠ some st.commandChar)
    (ha : p.ignoring = false) (h3 : Physical t line rest)
    (h4 : (textOf line).head? ≠ some st.commandChar) (h5 : ¬ CondLike line) (h6 : ¬ VarLike line) (h7 : ¬ DirectiveLike line)
    (hb : BadRule st.env line k) : Rejects fs i p st := by
  intro n j p' st' hp0
  obtain ⟨j1, b, e1, e2, e3, e4⟩ := makefileLine_physical h.at_ h3 h.comment
  have hat := e3.at
  have hbm := e3.mono h.pieces h.mono
  have hdrop : line.dropWhile lblank = line := by
    cases h3 with
    | mk _ _ hh _ _ => exact dropWhile_solid fun x hx => by simpa using fun hb => hh x hx (lblank_iff.mp hb)
  have hf := h.comment
  have hnl : Free '\n' line ∧ trailingSlashes (textOf line) % 2 = 0 ∧ Free '#' line := by
    cases h3 with
    | mk _ hl _ hl' _ => exact ⟨hl, hl', (Free.append.mp (Free.append.mp hf).2).1⟩
  have colonNe : ∀ {ts cs ds : List LChar} {double : Bool}, textOf cs = (if double then "::".toList else ":".toList) →
      ts ++ (cs ++ ds) ≠ [] := by
    intro ts cs ds double hc e
    have := (List.append_eq_nil_iff.mp (List.append_eq_nil_iff.mp e).2).1
    subst this
    cases double <;> cases hc
  have hne : line ≠ [] := by
    cases hb with
    | targets hT => simp [hT.ne_nil]
    | hidden hT => exact hT.ne_nil
    | deps _ hc => exact colonNe hc
    | command _ hc => exact colonNe hc
  have hlen : b.len ≠ 0 := by
    have := hat.length
    have e : b.span.length = b.len := rfl
    rw [← e, this]
    simpa using hne
  obtain ⟨N, hN⟩ := parseTargetLine_bad fs e4 hbm hat hnl.1 hnl.2.2 hnl.2.1 hb h.wf
  have hp := (parseLine_le (recF_le fs (Nat.le_max_left n N)) fs p st i).ok hp0
  rw [parseLine_collapsed fs _ h.at_ hf h.define h.command hr] at hp
  obtain ⟨k, hv⟩ := parseVariableLine_none (recF fs (max n N)) st hat (by rw [hdrop]; exact h6)
  unfold parseCollapsed at hp
  simp only [e1, ok_bind, if_neg hlen, parseConditionalLine_none hat (by rw [hdrop]; exact h5),
    if_neg (show ¬ p.ignoring = true by rw [ha]; decide)] at hp
  unfold parseStatement at hp
  simp only [hv, ok_bind, parseDirectiveLine_none hat h7, Nom.firstChar_at hat, if_neg h4] at hp
  obtain ⟨⟨o, st1⟩, k1, k2⟩ := Res.bind_eq_ok.mp hp
  cases hN _ (Nat.le_max_right n N) _ _ k1 with
  | err => cases k2
  | assign =>
    obtain ⟨⟨p1, st2⟩, _, k3⟩ := Res.bind_eq_ok.mp k2
    cases k3

end Hastur
