import Verif.Spec.EscapedRule
import Verif.Proofs.RuleLine
import Verif.Proofs.FileNames
/-
Lemmas: the words in front of the colon of a rule line, with backslashes.
-/
namespace Hastur

open Res Span

variable {P : Block} {t : List LChar} {i : Span}

/-- A word followed by blanks: it may end in a backslash. -/
def SpacedWord (w n : List LChar) : Prop :=
  (EscapedWord w n ∧ w ≠ []) ∨ ∃ v m l, EscapedWord v m ∧ w = v ++ [('\\', l)] ∧ n = m ++ [('\\', l)]

theorem EscapedWord.ne_nil {w n : List LChar} (h : EscapedWord w n) (hw : w ≠ []) : n ≠ [] := by
  cases h with
  | nil => exact absurd rfl hw
  | char => simp
  | slash => simp
  | colon => simp

theorem EscapedWord.chars {w n : List LChar} (h : EscapedWord w n) :
    ∀ x ∈ w, WordChar x.1 ∨ x.1 = '\\' ∨ x.1 = ':' := by
  induction h with
  | nil => simp
  | char hx _ ih =>
    intro y hy
    rcases List.mem_cons.mp hy with rfl | hy
    · exact .inl hx
    · exact ih y hy
  | slash hx _ ih =>
    intro y hy
    rcases List.mem_cons.mp hy with rfl | hy
    · exact .inr (.inl rfl)
    · exact ih y hy
  | colon _ ih =>
    intro y hy
    simp only [List.mem_cons] at hy
    rcases hy with rfl | rfl | hy
    · exact .inr (.inl rfl)
    · exact .inr (.inr rfl)
    · exact ih y hy

theorem EscapedWord.word_chars {w n : List LChar} (h : EscapedWord w n) :
    ∀ x ∈ n, WordChar x.1 ∨ x.1 = '\\' ∨ x.1 = ':' := by
  induction h with
  | nil => simp
  | char hx _ ih =>
    intro y hy
    rcases List.mem_cons.mp hy with rfl | hy
    · exact .inl hx
    · exact ih y hy
  | slash hx _ ih =>
    intro y hy
    rcases List.mem_cons.mp hy with rfl | hy
    · exact .inr (.inl rfl)
    · exact ih y hy
  | colon _ ih =>
    intro y hy
    simp only [List.mem_cons] at hy
    rcases hy with rfl | hy
    · exact .inr (.inr rfl)
    · exact ih y hy

theorem EscapedWord.last {w n : List LChar} (h : EscapedWord w n) : ∀ x, n.getLast? = some x → x.1 ≠ '\\' := by
  induction h with
  | nil => intro x hx; cases hx
  | @char y w n hy hw ih =>
    intro x hx
    cases n with
    | nil =>
      simp only [List.getLast?_singleton, Option.some.injEq] at hx
      rw [← hx]
      exact (wordChar_ne hy).2.2.2.2.2.2.2.2
    | cons z n => rw [List.getLast?_cons_cons] at hx; exact ih x hx
  | @slash l y w n hy hw ih =>
    intro x hx
    have := hw.ne_nil (by simp)
    obtain ⟨z, n', rfl⟩ := List.exists_cons_of_ne_nil this
    rw [List.getLast?_cons_cons] at hx
    exact ih x hx
  | @colon l l' w n hw ih =>
    intro x hx
    cases n with
    | nil =>
      simp only [List.getLast?_singleton, Option.some.injEq] at hx
      rw [← hx]
      show ':' ≠ '\\'
      decide
    | cons z n => rw [List.getLast?_cons_cons] at hx; exact ih x hx

/-- What the search for a colon makes of a word. -/
theorem EscapedWord.unquote_of {w n : List LChar} (h : EscapedWord w n) (stop : Char → Bool) (hs : stop ':' = true)
    (hw : ∀ c, WordChar c → stop c = false) (v : List LChar) :
    unquote stop [] (w ++ v) = (n ++ (unquote stop [] v).1, (unquote stop [] v).2) := by
  induction h with
  | nil => rfl
  | @char x w n hx _ ih =>
    obtain ⟨_, _, _, n4, _, _, _, _, n9⟩ := wordChar_ne hx
    rw [List.cons_append, Hastur.unquote, if_neg n9]
    simp only [hw _ hx, Bool.false_eq_true, if_false, ih]
    rfl
  | @slash l x w n hx _ ih =>
    obtain ⟨_, _, _, n4, _, _, _, _, n9⟩ := wordChar_ne hx
    rw [List.cons_append, Hastur.unquote] at ih
    simp only [hw _ hx, Bool.false_eq_true, if_false, if_neg n9] at ih
    rw [List.cons_append, Hastur.unquote, if_pos rfl, List.cons_append, Hastur.unquote, if_neg n9]
    simp only [hw _ hx, Bool.false_eq_true, if_false, List.nil_append, List.cons_append, Prod.mk.injEq] at ih ⊢
    exact ⟨by rw [ih.1], ih.2⟩
  | @colon l l' w n _ ih =>
    rw [List.cons_append, Hastur.unquote, if_pos rfl, List.cons_append, Hastur.unquote, if_neg (show ¬ ':' = '\\' by decide)]
    simp [ih, hs]

theorem EscapedWord.unquote {w n : List LChar} (h : EscapedWord w n) (v : List LChar) :
    unquote (· == ':') [] (w ++ v) = (n ++ (unquote (· == ':') [] v).1, (unquote (· == ':') [] v).2) :=
  h.unquote_of _ rfl (fun c hc => by simpa using (wordChar_ne hc).2.2.2.1) v

theorem EscapedWord.written_last {w n : List LChar} (h : EscapedWord w n) : ∀ x, w.getLast? = some x → x.1 ≠ '\\' := by
  induction h with
  | nil => intro x hx; cases hx
  | @char y w n hy hw ih =>
    intro x hx
    cases w with
    | nil =>
      simp only [List.getLast?_singleton, Option.some.injEq] at hx
      rw [← hx]
      exact (wordChar_ne hy).2.2.2.2.2.2.2.2
    | cons z w => rw [List.getLast?_cons_cons] at hx; exact ih x hx
  | @slash l y w n hy hw ih =>
    intro x hx
    rw [List.getLast?_cons_cons] at hx
    exact ih x hx
  | @colon l l' w n hw ih =>
    intro x hx
    rw [List.getLast?_cons_cons] at hx
    cases w with
    | nil =>
      simp only [List.getLast?_singleton, Option.some.injEq] at hx
      rw [← hx]
      show ':' ≠ '\\'
      decide
    | cons z w => rw [List.getLast?_cons_cons] at hx; exact ih x hx

theorem SpacedWord.ne_nil {w n : List LChar} (h : SpacedWord w n) : w ≠ [] ∧ n ≠ [] := by
  rcases h with ⟨h, hw⟩ | ⟨v, m, l, h, rfl, rfl⟩
  · exact ⟨hw, h.ne_nil hw⟩
  · simp

theorem SpacedWord.chars {w n : List LChar} (h : SpacedWord w n) : ∀ x ∈ w, WordChar x.1 ∨ x.1 = '\\' ∨ x.1 = ':' := by
  rcases h with ⟨h, hw⟩ | ⟨v, m, l, h, rfl, rfl⟩
  · exact h.chars
  · intro x hx
    rcases List.mem_append.mp hx with hx | hx
    · exact h.chars x hx
    · rw [List.mem_singleton.mp hx]; exact .inr (.inl rfl)

theorem SpacedWord.unquote {w n : List LChar} (h : SpacedWord w n) : unquote (· == ':') [] w = (n, none) := by
  rcases h with ⟨h, hw⟩ | ⟨v, m, l, h, rfl, rfl⟩
  · have := h.unquote []
    simpa [Hastur.unquote] using this
  · rw [h.unquote]
    simp [Hastur.unquote]

theorem free_escaped {w : List LChar} (h : ∀ x ∈ w, WordChar x.1 ∨ x.1 = '\\' ∨ x.1 = ':') {c : Char}
    (hc : c ∈ [Char.ofNat 0, '=', ';', '#', '$']) : Free c w := by
  intro x hx he
  rcases h x hx with h | h | h
  · exact h.2 (by rw [he]; simp only [List.mem_cons, List.not_mem_nil, or_false] at hc ⊢; rcases hc with h | h | h | h | h <;> simp [h])
  · rw [h] at he; subst he; revert hc; decide
  · rw [h] at he; subst he; revert hc; decide

/-! ### The scan for the end of a word -/

theorem mwordScan_escaped {w n : List LChar} (h : EscapedWord w n) {u : Str} (hu : u ≠ []) (hu' : u.head? ≠ some '=')
    (prev : Char) (stop k : Nat) (reason : MWordEnd) :
    ∃ prev' stop', mwordScan false .normal prev stop reason (indexed k (textOf w ++ u)) =
      mwordScan false .normal prev' stop' reason (indexed (k + w.length) u) := by
  induction h generalizing prev stop k with
  | nil => exact ⟨prev, stop, by simp⟩
  | @char x w n hx hw ih =>
    obtain ⟨n1, n2, n3, n4, n5, n6, n7, n8, n9⟩ := wordChar_ne hx
    rw [textOf_cons, List.cons_append, indexed_cons, mwordScan]
    rw [if_neg (by simp [n1, n2, n5]), if_neg n4, if_neg n8, if_neg n9]
    have fin : ∀ prev stop, ∃ prev' stop', mwordScan false .normal prev stop reason (indexed (k + 1) (textOf w ++ u)) =
        mwordScan false .normal prev' stop' reason (indexed (k + (x :: w).length) u) := by
      intro prev stop
      obtain ⟨p', s', e⟩ := ih prev stop (k + 1)
      exact ⟨p', s', by rw [e, List.length_cons]; congr 2; omega⟩
    split
    · cases hd : textOf w ++ u with
      | nil =>
        rw [List.append_eq_nil_iff] at hd
        exact absurd hd.2 hu
      | cons d v =>
        rw [← hd]
        have : (indexed (k + 1) (textOf w ++ u)).head? = some (k + 1, d) := by rw [hd]; rfl
        rw [this]
        have hne : d ≠ '=' := by
          cases hw with
          | nil =>
            rw [textOf_nil, List.nil_append] at hd
            rw [hd] at hu'
            simpa using hu'
          | char hy _ => cases hd; exact (wordChar_ne hy).2.2.2.2.1
          | slash => cases hd; show '\\' ≠ '='; decide
          | colon => cases hd; show '\\' ≠ '='; decide
        simp only [if_neg hne]
        exact fin _ _
    · exact fin _ _
  | @slash l x w n hx hw ih =>
    obtain ⟨n1, n2, n3, n4, n5, n6, n7, n8, n9⟩ := wordChar_ne hx
    rw [textOf_cons, List.cons_append, indexed_cons, mwordScan]
    rw [if_neg (show ¬ ('\\' = ' ' ∨ '\\' = '\t' ∨ '\\' = '=') by decide), if_neg (show ¬ '\\' = ':' by decide),
      if_neg (show ¬ '\\' = '$' by decide), if_pos rfl]
    have : (indexed (k + 1) (textOf (x :: w) ++ u)).head? = some (k + 1, x.1) := rfl
    rw [this]
    simp only [if_neg (show ¬ (x.1 = ':' ∨ x.1 = ';' ∨ x.1 = '=' ∨ x.1 = '\\') by simp [n4, n5, n6, n9])]
    obtain ⟨p', s', e⟩ := ih '\\' (k + 1) (k + 1)
    exact ⟨p', s', by rw [e, List.length_cons (a := ('\\', l))]; congr 2; omega⟩
  | @colon l l' w n hw ih =>
    rw [textOf_cons, List.cons_append, indexed_cons, mwordScan]
    rw [if_neg (show ¬ ('\\' = ' ' ∨ '\\' = '\t' ∨ '\\' = '=') by decide), if_neg (show ¬ '\\' = ':' by decide),
      if_neg (show ¬ '\\' = '$' by decide), if_pos rfl]
    have : (indexed (k + 1) (textOf ((':', l') :: w) ++ u)).head? = some (k + 1, ':') := rfl
    rw [this]
    simp only [true_or, if_true]
    rw [textOf_cons, List.cons_append, indexed_cons, mwordScan]
    obtain ⟨p', s', e⟩ := ih ':' (k + 1) (k + 1 + 1)
    refine ⟨p', s', ?_⟩
    rw [e]
    simp only [List.length_cons]
    congr 2
    omega

/-- Where a word ends. -/
theorem mwordScan_word {w n : List LChar} (h : EscapedWord w n) {u : Str} (hu : u ≠ []) (hs : WordStop u) :
    ∃ reason, mwordScan false .normal (Char.ofNat 0) 0 .static (indexed 0 (textOf w ++ u)) =
      .ok (w.length + WordStop.extra u, reason) ∧ (reason = .static ∨ reason = .variable) := by
  obtain ⟨p', s', e⟩ := mwordScan_escaped h hu (by
    cases hs with
    | eof => exact absurd rfl hu
    | blank hc => rcases hc with rfl | rfl <;> simp
    | colon => simp) (Char.ofNat 0) 0 0 .static
  obtain ⟨reason, f1, f2⟩ := mwordScan_stop hs p' s' (0 + w.length) .static (fun he => absurd he hu) (.inl rfl)
  exact ⟨reason, by rw [e, f1, Nat.zero_add], f2⟩

theorem mwordScan_spaced {w n : List LChar} (h : SpacedWord w n) {u : Str} {c : Char} (hc : c = ' ' ∨ c = '\t') :
    ∃ reason, mwordScan false .normal (Char.ofNat 0) 0 .static (indexed 0 (textOf w ++ c :: u)) =
      .ok (w.length, reason) ∧ (reason = .static ∨ reason = .variable) := by
  have hx : WordStop.extra (c :: u) = 0 := by
    show (if c = ':' then 1 else 0) = 0
    rw [if_neg]
    rcases hc with rfl | rfl <;> decide
  rcases h with ⟨h, hw⟩ | ⟨v, m, l, h, rfl, rfl⟩
  · obtain ⟨reason, e1, e2⟩ := mwordScan_word h (u := c :: u) (by simp) (.blank hc)
    rw [hx] at e1
    exact ⟨reason, e1, e2⟩
  · obtain ⟨p', s', e⟩ := mwordScan_escaped h (u := '\\' :: c :: u) (by simp) (by simp) (Char.ofNat 0) 0 0 .static
    have e' : mwordScan false .normal p' s' .static (indexed (0 + v.length) ('\\' :: c :: u)) =
        mwordScan false .normal '\\' (v.length + 1) .static (indexed (v.length + 1) (c :: u)) := by
      rw [Nat.zero_add, indexed_cons, mwordScan]
      rw [if_neg (by decide), if_neg (by decide), if_neg (by decide), if_pos rfl]
      have : (indexed (v.length + 1) (c :: u)).head? = some (v.length + 1, c) := rfl
      rw [this]
      simp only
      rw [if_neg]
      rcases hc with rfl | rfl <;> decide
    obtain ⟨reason, f1, f2⟩ := mwordScan_stop (.blank hc : WordStop (c :: u)) '\\' (v.length + 1) (v.length + 1) .static
      (fun he => by cases he) (.inl rfl)
    refine ⟨reason, ?_, f2⟩
    rw [textOf_append, List.append_assoc]
    refine (e.trans (e'.trans f1)).trans ?_
    rw [hx]
    simp

/-- The next word of a rule line, given where it ends. -/
theorem nextMword_scan {gap w u : List LChar} {k : Nat} {reason : MWordEnd} (h : i.At P (gap ++ (w ++ u))) (hg : Blanks gap)
    (hw : ∀ x ∈ w, WordChar x.1 ∨ x.1 = '\\' ∨ x.1 = ':') (hne : w ≠ []) (hc : (textOf w).head? ≠ some ':')
    (hu : (textOf u).head? ≠ some '=') (hk : w.length + k ≤ (w ++ u).length)
    (hs : mwordScan false .normal (Char.ofNat 0) 0 .static (indexed 0 (textOf w ++ textOf u)) = .ok (w.length + k, reason)) :
    ∃ r m, nextMword i = .ok (.done r (m, reason)) ∧ r.At P (u.drop k) ∧ m.At P (w ++ u.take k) := by
  obtain ⟨x, w', rfl⟩ := List.exists_cons_of_ne_nil hne
  obtain ⟨r, q, e1, e2, _⟩ := whitespace_at h
  have hx : x.1 ≠ ' ' ∧ x.1 ≠ '\t' ∧ x.1 ≠ ';' ∧ x.1 ≠ '=' ∧ x.1 ≠ ':' := by
    have hxc : x.1 ≠ ':' := by simpa using hc
    rcases hw x (by simp) with hx | hx | hx
    · have := wordChar_ne hx
      exact ⟨this.1, this.2.1, this.2.2.2.2.2.1, this.2.2.2.2.1, hxc⟩
    · rw [hx]; decide
    · exact absurd hx hxc
  have e3 : (gap ++ (x :: w' ++ u)).dropWhile lblank = x :: w' ++ u := by
    rw [dropWhile_blanks hg, dropWhile_solid]
    intro y hy
    simp only [List.cons_append, List.head?_cons, Option.some.injEq] at hy
    rw [← hy, ← Bool.not_eq_true]
    intro hb
    rcases lblank_iff.mp hb with h | h
    · exact hx.1 h
    · exact hx.2.1 h
  rw [e3] at e2
  have htext : textOf (x :: w' ++ u) = x.1 :: (textOf w' ++ textOf u) := by simp
  have first : ∀ c s, (c = ';' ∨ c = '=' ∨ c = ':') → ¬ (c :: s) <+: textOf (x :: w' ++ u) := by
    rintro c s hc hp
    rw [htext, List.cons_prefix_cons] at hp
    rcases hc with rfl | rfl | rfl
    · exact hx.2.2.1 hp.1.symm
    · exact hx.2.2.2.1 hp.1.symm
    · exact hx.2.2.2.2 hp.1.symm
  have second : ∀ c, ¬ [c, '='] <+: textOf (x :: w' ++ u) := by
    rintro c hp
    rw [htext, List.cons_prefix_cons] at hp
    obtain ⟨h1, h2⟩ := hp
    cases w' with
    | cons y w'' =>
      rw [textOf_cons, List.cons_append, List.cons_prefix_cons] at h2
      have he := h2.1.symm
      rcases hw y (by simp) with hy | hy | hy
      · exact (wordChar_ne hy).2.2.2.2.1 he
      · rw [hy] at he; revert he; decide
      · rw [hy] at he; revert he; decide
    | nil =>
      rw [textOf_nil, List.nil_append] at h2
      obtain ⟨v, hv⟩ := h2
      rw [← hv] at hu
      simp at hu
  have m1 := tag_miss e2 (w := ";".toList) (by unfold AsciiS; decide) (first ';' [] (by simp))
  have m2 := tag_miss e2 (w := "=".toList) (by unfold AsciiS; decide) (first '=' [] (by simp))
  have m3 := tag_miss e2 (w := ":=".toList) (by unfold AsciiS; decide) (first ':' ['='] (by simp))
  have m4 := tag_miss e2 (w := "::=".toList) (by unfold AsciiS; decide) (first ':' [':', '='] (by simp))
  have m5 := tag_miss e2 (w := "::".toList) (by unfold AsciiS; decide) (first ':' [':'] (by simp))
  have m6 := tag_miss e2 (w := ":".toList) (by unfold AsciiS; decide) (first ':' [] (by simp))
  have m7 := tag_miss e2 (w := "+=".toList) (by unfold AsciiS; decide) (second '+')
  have m8 := tag_miss e2 (w := "?=".toList) (by unfold AsciiS; decide) (second '?')
  have m9 := tag_miss e2 (w := "!=".toList) (by unfold AsciiS; decide) (second '!')
  obtain ⟨r', m, t1, t2, t3⟩ := e2.takeSplit (n := (x :: w').length + k) hk
  refine ⟨r', m, ?_, ?_, ?_⟩
  · unfold nextMword
    simp only [e1, done_andThen, m1, m2, m3, m4, m5, m6, m7, m8, m9, err_mapP, error_orElse]
    rw [e2.chars]
    simp only [Span.withIndices_eq 0 e2.ascii]
    rw [textOf_append, hs]
    simp only [ok_bind, t1]
    rfl
  · rw [List.drop_append, List.drop_of_length_le (by omega), Nat.add_sub_cancel_left, List.nil_append] at t2
    exact t2
  · rw [List.take_append, List.take_of_length_le (by omega), Nat.add_sub_cancel_left] at t3
    exact t3

theorem EscapedWord.head {w n : List LChar} (h : EscapedWord w n) (v : List LChar) (hv : (textOf v).head? ≠ some ':') :
    (textOf (w ++ v)).head? ≠ some ':' := by
  cases h with
  | nil => exact hv
  | char hx =>
    simp only [List.cons_append, textOf_cons, List.head?_cons, ne_eq, Option.some.injEq]
    exact (wordChar_ne hx).2.2.2.1
  | slash => simp
  | colon => simp

theorem SpacedWord.head {w n : List LChar} (h : SpacedWord w n) : (textOf w).head? ≠ some ':' := by
  rcases h with ⟨h, hw⟩ | ⟨v, m, l, h, rfl, rfl⟩
  · have := h.head [] (by simp)
    simpa using this
  · exact h.head _ (by simp)

/-! ### One word -/

/-- A word without an unescaped colon. -/
theorem findColon_unquoted {b : Block} {n : List LChar} (h : Buf t b) (hu : unquote (· == ':') [] t = (n, none)) :
    ∃ pre, findNonDrivespecColon b.span = .ok (pre, none) ∧ Buf n pre := by
  obtain ⟨p, e1, e2⟩ := (takeUntilUnquote_spec (· == ':') (by decide) (by decide) h.at).2 (by rw [hu])
  rw [hu] at e2
  obtain ⟨q, f1, f2, _⟩ := Buf.empty.pushAll e2.buf.at e2.solid
  refine ⟨q, ?_, by simpa using f2⟩
  unfold findNonDrivespecColon colonLoop
  simp only [e1, ok_bind, f1]
  rfl

/-- A word that ends in a colon. -/
theorem findColon_at_end {b : Block} {n : List LChar} {x : LChar} (h : Buf t b)
    (hu : unquote (· == ':') [] t = (n, some (x, []))) :
    ∃ pre post, findNonDrivespecColon b.span = .ok (pre, some post) ∧ Buf n pre ∧ post.At b [] := by
  obtain ⟨p, sc, post, e1, e2, e3, e4⟩ := (takeUntilUnquote_spec (· == ':') (by decide) (by decide) h.at).1 x [] (by rw [hu])
  rw [hu] at e2
  obtain ⟨q, f1, f2, _⟩ := Buf.empty.pushAll e2.buf.at e2.solid
  refine ⟨q, post, ?_, by simpa using f2, e4⟩
  have hd : isDrivespec p post = .ok false := by
    unfold isDrivespec
    rw [Nom.firstChar_at e4]
    rfl
  unfold findNonDrivespecColon colonLoop
  simp only [e1, ok_bind, f1, hd]
  rfl

theorem semicolonInWord_copy (r : Rec) {b : Block} (h : Buf t b) (hs : Free ';' t) (lineNext : Span)
    (postSemi : Option Block) (st : St) :
    semicolonInWord r b lineNext postSemi st = .ok (.ok (b, lineNext, postSemi), st) := by
  cases postSemi with
  | some q => rfl
  | none =>
    obtain ⟨p, e1, e2⟩ := takeUntilUnquote_copy (· == ';') (by decide) (by decide) h.at (fun x hx => by simpa using hs x hx)
    unfold semicolonInWord
    simp only [e1, ok_bind]
    rfl

/-- One round of the loop, for a word without an unescaped colon. -/
theorem wordLoop_unquoted {r : Rec} {lineNext m r2 m2 : Span} {mwt mwt2 : MWordEnd} {buf b : Block} {bt u n : List LChar}
    {postSemi : Option Block} {st st' : St} (he : expandSegment r m st = .ok (.ok b, st')) (hb : Buf u b)
    (hs : Free ';' u) (hu : unquote (· == ':') [] u = (n, none))
    (hne : u ≠ []) (hn : nextMword lineNext = .ok (.done r2 (m2, mwt2))) (hm : mwt2 ≠ .eol) (hbuf : Buf bt buf) :
    ∃ buf', Buf (spaced bt n) buf' ∧ ∀ k, wordLoop r (k + 1) lineNext m mwt buf postSemi st =
      wordLoop r k r2 m2 mwt2 buf' postSemi st' := by
  obtain ⟨pre, p1, p2⟩ := findColon_unquoted hb hu
  obtain ⟨buf', q1, q2⟩ := pushWord_at hbuf p2
  refine ⟨buf', q2, fun k => ?_⟩
  have hlen : ¬ b.len = 0 := by rw [hb.len]; simpa using hne
  rw [wordLoop]
  simp only [he, ok_bind, semicolonInWord_copy r hb hs, if_neg hlen, p1, hn, if_neg hm, q1]

/-- The last round of the loop, for a word that ends in a colon. -/
theorem wordLoop_at_colon {b : Block} {u n : List LChar} {x : LChar} (hb : Buf u b) (hs : Free ';' u) (hne : u ≠ [])
    (hu : unquote (· == ':') [] u = (n, some (x, []))) :
    ∃ after, Buf [] after ∧
      ∀ {r : Rec} {lineNext m : Span} {mwt : MWordEnd} {buf : Block} {bt : List LChar} {postSemi : Option Block} {st st' : St},
        expandSegment r m st = .ok (.ok b, st') → Buf bt buf → ∃ buf', Buf (spaced bt n) buf' ∧
        ∀ k, wordLoop r (k + 1) lineNext m mwt buf postSemi st =
          .ok (.finished buf' (some after) lineNext postSemi mwt, st') := by
  obtain ⟨pre, post, p1, p2, p3⟩ := findColon_at_end hb hu
  obtain ⟨after, a1, a2⟩ := p3.part
  refine ⟨after, a2.buf, ?_⟩
  intro r lineNext m mwt buf bt postSemi st st' he hbuf
  obtain ⟨buf', q1, q2⟩ := pushWord_at hbuf p2
  refine ⟨buf', q2, fun k => ?_⟩
  have hlen : ¬ b.len = 0 := by rw [hb.len]; simpa using hne
  rw [wordLoop]
  simp only [he, ok_bind, semicolonInWord_copy r hb hs, if_neg hlen, p1, a1, q1]
  rfl

/-! ### All words -/

/-- The words of the text in front of the colon, joined by spaces and without the backslashes in front of colons. -/
inductive TargetWords : (t b : List LChar) → Prop
  | last {w n gap : List LChar} : EscapedWord w n → w ≠ [] → Blanks gap → TargetWords (w ++ gap) n
  | more {w n gap t b : List LChar} : SpacedWord w n → Blanks gap → gap ≠ [] → TargetWords t b →
      TargetWords (w ++ (gap ++ t)) (n ++ (' ', .synthetic) :: b)

theorem TargetWords.chars {b : List LChar} (h : TargetWords t b) : ∀ x ∈ t, x.1 ∉ [';', '#', '$'] := by
  have word : ∀ {w : List LChar}, (∀ x ∈ w, WordChar x.1 ∨ x.1 = '\\' ∨ x.1 = ':') → ∀ x ∈ w, x.1 ∉ [';', '#', '$'] := by
    intro w hw x hx hm
    simp only [List.mem_cons, List.not_mem_nil, or_false] at hm
    rcases hm with e | e | e
    · exact free_escaped hw (c := ';') (by simp) x hx e
    · exact free_escaped hw (c := '#') (by simp) x hx e
    · exact free_escaped hw (c := '$') (by simp) x hx e
  have blank : ∀ {w : List LChar}, Blanks w → ∀ x ∈ w, x.1 ∉ [';', '#', '$'] := by
    intro w hw x hx
    rcases hw x hx with e | e <;> rw [e] <;> decide
  induction h with
  | last hw _ hg =>
    intro x hx
    rcases List.mem_append.mp hx with hx | hx
    · exact word hw.chars x hx
    · exact blank hg x hx
  | more hw hg _ _ ih =>
    intro x hx
    simp only [List.mem_append] at hx
    rcases hx with hx | hx | hx
    · exact word hw.chars x hx
    · exact blank hg x hx
    · exact ih x hx

/-- The loop over the targets of a rule line. -/
theorem wordLoop_escaped (fs : Fs) {ts tt : List LChar} (hT : TargetWords ts tt) {cs ds : List LChar} {double : Bool}
    (hc : textOf cs = (if double then "::".toList else ":".toList)) (hd1 : (textOf ds).head? ≠ some '=')
    (hd2 : (textOf ds).head? ≠ some ':') (hd3 : (textOf ds).head? ≠ some '\\') (hm : Block.Mono P)
    (postSemi : Option Block) (st : St) :
    ∀ {gap : List LChar} {lineNext : Span}, Blanks gap → lineNext.At P (gap ++ (ts ++ (cs ++ ds))) →
      ∃ r m reason after ln at' lt, nextMword lineNext = .ok (.done r (m, reason)) ∧
        (reason = .static ∨ reason = .variable) ∧
        WordsDone fs P st r m reason postSemi tt (cs.drop 1 ++ ds) [] (ts.length + 1) 2 after ln at' lt := by
  obtain ⟨l, cs', hcs, hcs'⟩ := colons_split hc
  have hcs'' : cs' = [] ∨ textOf cs' = [':'] := by
    cases double with
    | true => exact .inr hcs'
    | false =>
      left
      have : cs'.length = 0 := by rw [← textOf_length cs', hcs']; rfl
      exact List.length_eq_zero_iff.mp this
  have hst : st.interned [] = st := rfl
  induction hT with
  | @last w n gap' hw hne hg' =>
    intro gap lineNext hg h
    cases gap' with
    | nil =>
      rw [List.append_nil] at h
      have hstop : WordStop (textOf (cs ++ ds)) := by
        rw [hcs, List.cons_append, textOf_cons]
        refine .colon ?_
        rw [textOf_append]
        rcases hcs'' with h0 | h0
        · rw [h0]; exact hd3
        · rw [h0]; simp
      obtain ⟨reason, s1, s2⟩ := mwordScan_word hw (u := textOf (cs ++ ds)) (by rw [hcs]; simp) hstop
      have hx : WordStop.extra (textOf (cs ++ ds)) = 1 := by rw [hcs]; rfl
      rw [hx] at s1
      have hhead := hw.head [] (by simp)
      rw [List.append_nil] at hhead
      obtain ⟨r, m, e1, e2, e3⟩ := nextMword_scan h hg hw.chars hne hhead (by rw [hcs]; simp) (by rw [hcs]; simp) s1
      have e2' : r.At P (cs' ++ ds) := by rw [hcs] at e2; exact e2
      have e3' : m.At P (w ++ [(':', l)]) := by rw [hcs] at e3; exact e3
      have hfree : ∀ c ∈ [';', '$'], Free c (w ++ [(':', l)]) := by
        intro c hc
        rw [Free.append]
        refine ⟨free_escaped hw.chars (by simp only [List.mem_cons, List.not_mem_nil, or_false] at hc ⊢; rcases hc with h | h <;> simp [h]), ?_⟩
        intro x hx
        cases List.mem_singleton.mp hx
        simp only [List.mem_cons, List.not_mem_nil, or_false] at hc
        rcases hc with rfl | rfl
        · show ':' ≠ ';'; decide
        · show ':' ≠ '$'; decide
      obtain ⟨b, b1, _, b2⟩ := expandSegment_text fs (e3'.whole hm) e3' (hfree _ (by simp)) st
      obtain ⟨after, a1, a3⟩ := wordLoop_at_colon (n := n) (x := (':', l)) b1 (hfree _ (by simp)) (by simp) (by
        rw [hw.unquote]
        simp [unquote])
      refine ⟨r, m, reason, after, r, [], cs' ++ ds, e1, s2, ⟨a1, fun h => absurd rfl h, e2', by rw [hcs]; rfl, .inl hm, ?_⟩⟩
      intro k j buf bt hk hj hbuf
      obtain ⟨j, rfl⟩ := Nat.exists_eq_add_of_lt hj
      obtain ⟨buf', g1, g2⟩ := a3 (r := recF fs k) (lineNext := r) (mwt := reason) (postSemi := postSemi) (b2 k hk) hbuf
      exact ⟨buf', reason, [], g2 _, by simpa using g1, .inl rfl, by rcases s2 with h | h <;> rw [h] <;> decide⟩
    | cons x gap'' =>
      have hblank := hg' x List.mem_cons_self
      rw [List.append_assoc] at h
      have hsw : SpacedWord w n := .inl ⟨hw, hne⟩
      obtain ⟨reason, s1, s2⟩ := mwordScan_spaced hsw (u := textOf (gap'' ++ (cs ++ ds))) hblank
      obtain ⟨r, m, e1, e2, e3⟩ := nextMword_scan (k := 0) h hg hsw.chars hne hsw.head (by
        simp only [List.cons_append, textOf_cons, List.head?_cons, ne_eq, Option.some.injEq]
        rcases hblank with h | h <;> rw [h] <;> decide) (by simp) s1
      rw [List.drop_zero] at e2
      rw [List.take_zero, List.append_nil] at e3
      obtain ⟨b, b1, _, b2⟩ := expandSegment_text fs (e3.whole hm) e3 (free_escaped hsw.chars (by simp)) st
      obtain ⟨r2, m2, reason2, c1, c2, c3, c4⟩ := nextMword_colon e2 hg' hc hd1 hd2
      rw [hcs] at c3
      obtain ⟨b', k1, k2, k3⟩ := expandSegment_text fs (c3.whole hm) c3 (by
        intro y hy
        rcases List.mem_cons.mp hy with rfl | hy
        · simp
        · rcases hcs'' with h0 | h0
          · rw [h0] at hy; cases hy
          · have : y.1 ∈ textOf cs' := mem_textOf.mpr ⟨y, hy, rfl⟩
            rw [h0] at this
            simp only [List.mem_singleton] at this
            rw [this]; decide) st
      obtain ⟨after, a1, a2, a3⟩ := wordLoop_colon (u := []) k1 (fun x hx => by cases hx) hcs''
      refine ⟨r, m, reason, after, r2, cs', ds, e1, s2, ⟨a1, fun _ => a2 k2, c2, by rw [hcs]; rfl, .inl hm, ?_⟩⟩
      intro k j buf bt hk hj hbuf
      have hj' : ∃ j', j = j' + 1 + 1 := ⟨j - 2, by
        have := List.length_pos_iff.mpr hne
        simp at hj; omega⟩
      obtain ⟨j, rfl⟩ := hj'
      obtain ⟨buf1, g1, g2⟩ := wordLoop_unquoted (mwt := reason) (postSemi := postSemi) (b2 k hk) b1
        (free_escaped hsw.chars (by simp)) hsw.unquote hne c1 c4 hbuf
      obtain ⟨buf2, g3, g4⟩ := a3 (r := recF fs k) (lineNext := r2) (mwt := reason2) (postSemi := postSemi)
        (k3 k hk) g1
      refine ⟨buf2, reason2, [(' ', .synthetic)], by rw [g2, g4, hst], ?_, .inr rfl, c4⟩
      have : spaced (spaced bt n) [] = spaced bt n ++ [(' ', .synthetic)] := by
        rw [spaced, if_neg (spaced_ne hsw.ne_nil.2)]
      rwa [this] at g3
  | @more w n gap' ts tt hsw hg' hgne hT ih =>
    intro gap lineNext hg h
    obtain ⟨x, gap'', rfl⟩ := List.exists_cons_of_ne_nil hgne
    have hblank := hg' x List.mem_cons_self
    simp only [List.append_assoc] at h
    have hne := hsw.ne_nil.1
    obtain ⟨reason, s1, s2⟩ := mwordScan_spaced hsw (u := textOf (gap'' ++ (ts ++ (cs ++ ds)))) hblank
    obtain ⟨r, m, e1, e2, e3⟩ := nextMword_scan (k := 0) h hg hsw.chars hne hsw.head (by
      simp only [List.cons_append, textOf_cons, List.head?_cons, ne_eq, Option.some.injEq]
      rcases hblank with h | h <;> rw [h] <;> decide) (by simp) s1
    rw [List.drop_zero] at e2
    rw [List.take_zero, List.append_nil] at e3
    obtain ⟨b, b1, _, b2⟩ := expandSegment_text fs (e3.whole hm) e3 (free_escaped hsw.chars (by simp)) st
    obtain ⟨r2, m2, reason2, after, ln, at', lt, c1, c2, ⟨d1, d2, d3, d4, d6, d5⟩⟩ := ih hg' e2
    refine ⟨r, m, reason, after, ln, at', lt, e1, s2, ⟨d1, d2, d3, d4, d6, ?_⟩⟩
    intro k j buf bt hk hj hbuf
    obtain ⟨j, rfl⟩ := Nat.exists_eq_add_of_lt (show 0 < j by omega)
    obtain ⟨buf1, g1, g2⟩ := wordLoop_unquoted (mwt := reason) (postSemi := postSemi) (b2 k hk) b1
      (free_escaped hsw.chars (by simp)) hsw.unquote hne c1 (by rcases c2 with h | h <;> rw [h] <;> decide) hbuf
    obtain ⟨b', mwt, extra, f1, f2, f3, f4⟩ := d5 k (0 + j) buf1 _ hk (by
      have := List.length_pos_iff.mpr hne
      simp at hj; omega) g1
    refine ⟨b', mwt, extra, by rw [g2, f1], ?_, f3, f4⟩
    rwa [spaced_spaced hsw.ne_nil.2] at f2

end Hastur
