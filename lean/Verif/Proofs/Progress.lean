import Verif.Proofs.Dispatch
/-
Lemmas: every line consumes at least one character.
-/
namespace Hastur

open Res

variable {P : Block} {t : List LChar} {i : Span}

/-- The span shows a proper part of the text, at its end. -/
def Progress (P : Block) (t : List LChar) (j : Span) : Prop := ∃ rest, j.At P rest ∧ rest <:+ t ∧ rest.length < t.length

theorem Progress.suffix {P : Block} {t u : List LChar} {j : Span} (h : Progress P u j) (hs : u <:+ t) : Progress P t j := by
  obtain ⟨rest, h1, h2, h3⟩ := h
  exact ⟨rest, h1, h2.trans hs, Nat.lt_of_lt_of_le h3 hs.length_le⟩

theorem parseComment_done (h : i.At P t) {j : Span} {x : Unit} (hc : parseComment i = .ok (.done j x)) :
    Progress P t j := by
  by_cases hh : (textOf t).head? = some '#'
  · obtain ⟨loc, u, rfl⟩ : ∃ loc u, t = ('#', loc) :: u := by
      cases t with
      | nil => simp at hh
      | cons y u =>
        obtain ⟨c, l⟩ := y
        simp only [textOf_cons, List.head?_cons, Option.some.injEq] at hh
        subst hh
        exact ⟨l, u, rfl⟩
    obtain ⟨r, rest, h1, h2, h3⟩ := (parseComment_total h).1 loc u rfl
    rw [h1, Res.ok.injEq, IRes.done.injEq] at hc
    rw [← hc.1]
    exact ⟨rest, h2, h3.trans (List.suffix_cons _ _), Nat.lt_succ_of_le h3.length_le⟩
  · rw [(parseComment_total h).2 hh] at hc
    cases hc

/-- The outcomes of looking for a comment. -/
theorem comment_cases (h : i.At P t) :
    (∃ j, parseCommentFollowingWhitespace i = .ok (.done j ()) ∧ Progress P t j) ∨
      (parseCommentFollowingWhitespace i = .ok (.err (.error .code)) ∧ (textOf t).head? ≠ some '#') := by
  by_cases hh : (textOf (t.dropWhile lblank)).head? = some '#'
  · left
    obtain ⟨r, q, h1, h2, _⟩ := whitespace_at h
    obtain ⟨loc, u, hu⟩ : ∃ loc u, t.dropWhile lblank = ('#', loc) :: u := by
      cases hd : t.dropWhile lblank with
      | nil => rw [hd] at hh; simp at hh
      | cons y u =>
        obtain ⟨c, l⟩ := y
        rw [hd] at hh
        simp only [textOf_cons, List.head?_cons, Option.some.injEq] at hh
        subst hh
        exact ⟨l, u, rfl⟩
    obtain ⟨j, rest, g1, g2, g3⟩ := (parseComment_total h2).1 loc u hu
    have hp := parseComment_done h2 g1
    refine ⟨j, ?_, hp.suffix (List.dropWhile_suffix _)⟩
    unfold parseCommentFollowingWhitespace
    rw [h1, done_andThen, g1]
  · right
    refine ⟨comment_none h hh, fun h' => hh ?_⟩
    cases t with
    | nil => simp at h'
    | cons x t =>
      simp only [textOf_cons, List.head?_cons, Option.some.injEq] at h'
      rw [dropWhile_solid (by
        intro z hz
        simp only [List.head?_cons, Option.some.injEq] at hz
        subst hz
        simp [lblank, h', isBlank])]
      simp [h']

theorem grabCommandLine_done {c : Char} (hc : isAscii c = true) (h : i.At P t) {j : Span} {x : Span × LineEnd}
    (hg : grabCommandLine c i = .ok (.done j x)) : Progress P t j := by
  unfold grabCommandLine at hg
  by_cases hh : (textOf t).head? = some c
  · obtain ⟨loc, u, rfl⟩ : ∃ loc u, t = (c, loc) :: u := by
      cases t with
      | nil => simp at hh
      | cons y u =>
        obtain ⟨d, l⟩ := y
        simp only [textOf_cons, List.head?_cons, Option.some.injEq] at hh
        subst hh
        exact ⟨l, u, rfl⟩
    obtain ⟨r, h1, h2⟩ := (Nom.char_at h hc).1 loc u rfl
    rw [h1, done_andThen] at hg
    obtain ⟨r', l, g1, g2, _⟩ := grabLine_at h2
    rw [g1, Res.ok.injEq, IRes.done.injEq] at hg
    rw [← hg.1]
    exact ⟨_, g2, (grabSpec_suffix u).trans (List.suffix_cons _ _), Nat.lt_succ_of_le (grabSpec_suffix u).length_le⟩
  · rw [(Nom.char_at h hc).2 hh] at hg
    cases hg

theorem andThen_done {α β : Type} {x : PRes α} {f : Span → α → PRes β} {j : Span} {b : β}
    (h : andThen x f = .ok (.done j b)) : ∃ k a, x = .ok (.done k a) ∧ f k a = .ok (.done j b) := by
  unfold andThen at h
  obtain ⟨y, h1, h2⟩ := bind_eq_ok.mp h
  cases y with
  | done k a => exact ⟨k, a, h1, h2⟩
  | err e => cases h2

theorem recipeLoop_done {c : Char} (hc : isAscii c = true) (n : Nat) : ∀ {t : List LChar} {i : Span} {line : Block},
    i.At P t → ∀ {j : Span} {a : Ast}, recipeLoop c n i line = .ok (.done j a) → ∃ rest, j.At P rest ∧ rest <:+ t := by
  induction n with
  | zero => intro t i line _ j a h; cases h
  | succ n ih =>
    intro t i line hi j a h
    unfold recipeLoop at h
    obtain ⟨k, _, h⟩ := bind_eq_ok.mp h
    split at h
    · obtain ⟨g, hg, h⟩ := bind_eq_ok.mp h
      cases g with
      | err e =>
        obtain ⟨_, _, _, h⟩ := andThen_done h
        cases h
        exact ⟨t, hi, List.suffix_refl _⟩
      | done i' x =>
        obtain ⟨rest, h1, h2, _⟩ := grabCommandLine_done hc hi hg
        simp only at h
        obtain ⟨cr, _, h⟩ := bind_eq_ok.mp h
        split at h
        · obtain ⟨_, _, _, h⟩ := andThen_done h
          cases h
          exact ⟨rest, h1, h2⟩
        · obtain ⟨rest', h3, h4⟩ := ih h1 h
          exact ⟨rest', h3, h4.trans h2⟩
    · obtain ⟨_, _, _, h⟩ := andThen_done h
      cases h
      exact ⟨t, hi, List.suffix_refl _⟩

theorem recipeLine_done {c : Char} (hc : isAscii c = true) (h : i.At P t) {j : Span} {a : Ast}
    (hr : recipeLine c i = .ok (.done j a)) : Progress P t j := by
  unfold recipeLine at hr
  obtain ⟨k, x, h1, h2⟩ := andThen_done hr
  obtain ⟨rest, g1, g2, g3⟩ := grabCommandLine_done hc h h1
  obtain ⟨line, reason⟩ := x
  dsimp only at h2
  split at h2
  · obtain ⟨_, _, _, h2⟩ := andThen_done h2
    cases h2
    exact ⟨rest, g1, g2, g3⟩
  · obtain ⟨b, _, h2⟩ := bind_eq_ok.mp h2
    obtain ⟨rest', k1, k2⟩ := recipeLoop_done hc _ g1 h2
    exact ⟨rest', k1, k2.trans g2, Nat.lt_of_le_of_lt k2.length_le g3⟩

theorem dropWhile_ne_suffix {c : Char} {t : List LChar} (hne : t ≠ []) (hh : (textOf t).head? ≠ some c) :
    (t.dropWhile fun x => x.1 != c).length < t.length := by
  cases t with
  | nil => exact absurd rfl hne
  | cons x t =>
    have : x.1 ≠ c := by simpa using hh
    simp only [List.dropWhile_cons, bne_iff_ne, ne_eq, this, not_false_eq_true, if_true, List.length_cons]
    exact Nat.lt_succ_of_le (List.dropWhile_sublist _).length_le

theorem orElse_done {α : Type} {x y : PRes α} {j : Span} {a : α} (h : orElse x y = .ok (.done j a)) :
    x = .ok (.done j a) ∨ y = .ok (.done j a) := by
  unfold orElse at h
  obtain ⟨z, h1, h2⟩ := bind_eq_ok.mp h
  cases z with
  | done k b => left; rw [h1]; exact h2
  | err e =>
    cases e with
    | error k => right; exact h2
    | failure k => cases h2

theorem takeSplit_tail {s r q : Span} {n : Nat} (h : s.WF) (e : s.takeSplit n = .ok (r, q)) : s.Tail n r := by
  unfold Span.takeSplit at e
  obtain ⟨_, h1, e⟩ := bind_eq_ok.mp e
  obtain ⟨a, h2, e⟩ := bind_eq_ok.mp e
  cases e
  have hn : n ≤ s.length := by
    unfold rassert at h1
    split at h1
    · rename_i hh; simpa using hh
    · cases h1
  exact Span.Tail.sliceFrom h hn h2

theorem takeUntil_tail {w : Str} {s r q : Span} (h : s.WF) (e : Nom.takeUntil w s = .ok (.done r q)) : ∃ n, s.Tail n r := by
  unfold Nom.takeUntil at e
  obtain ⟨o, _, e⟩ := bind_eq_ok.mp e
  cases o with
  | none => cases e
  | some idx =>
    obtain ⟨⟨r', q'⟩, h1, e⟩ := bind_eq_ok.mp e
    cases e
    exact ⟨_, takeSplit_tail h h1⟩

theorem tag_tail {w : Str} {s r q : Span} (h : s.WF) (e : Nom.tag w s = .ok (.done r q)) : ∃ n, s.Tail n r := by
  unfold Nom.tag at e
  obtain ⟨o, _, e⟩ := bind_eq_ok.mp e
  cases o with
  | ok =>
    obtain ⟨⟨r', q'⟩, h1, e⟩ := bind_eq_ok.mp e
    cases e
    exact ⟨_, takeSplit_tail h h1⟩
  | incomplete => cases e
  | error => cases e

/-- How a line of a definition is cut off.  The line keeps its line feed; if it spans several references of the block,
it may be cut short. -/
theorem grabDefineLine_at (h : i.At P t) :
    (∀ a loc b, t = a ++ ('#', loc) :: b → Free '#' a →
      ∃ r l, grabDefineLine i = .ok (.done r l) ∧ r.At P (('#', loc) :: b) ∧ l.At P a) ∧
    (∀ a loc b, Free '#' t → t = a ++ ('\n', loc) :: b → Free '\n' a →
      ∃ r n, grabDefineLine i = .ok (.done r (i.sliceTo n)) ∧ r.At P b ∧ i.Tail (a.length + 1) r ∧
        n = (if r.start = i.start then a.length + 1 else a.length + 1 - r.offset)) ∧
    (Free '#' t → Free '\n' t → ∃ r, grabDefineLine i = .ok (.done r i) ∧ r.At P []) := by
  refine ⟨?_, ?_, ?_⟩
  · rintro a loc b rfl ha
    obtain ⟨r, q, h1, h2, h3⟩ := (Nom.takeUntil_at (c := '#') h (by decide)).1 (by simp)
    rw [dropWhile_until ha] at h2
    rw [takeWhile_until ha] at h3
    simp only [List.dropWhile_cons, List.takeWhile_cons, bne_self_eq_false, Bool.false_eq_true, if_false,
      List.append_nil] at h2 h3
    exact ⟨r, q, by unfold grabDefineLine; rw [h1, done_orElse], h2, h3⟩
  · rintro a loc b hf rfl ha
    obtain ⟨r, q, h1, h2, _⟩ := (Nom.takeUntil_at (c := '\n') h (by decide)).1 (by simp)
    rw [dropWhile_until ha] at h2
    simp only [List.dropWhile_cons, bne_self_eq_false, Bool.false_eq_true, if_false] at h2
    obtain ⟨r', q', t1, t2, _⟩ := (Nom.tag_at (w := ['\n']) h2 (by unfold AsciiS; decide)).1 (by simp)
    simp only [List.length_cons, List.length_nil, List.drop_succ_cons, List.drop_zero] at t2
    obtain ⟨n1, T1⟩ := takeUntil_tail h.good.wf h1
    obtain ⟨n2, T2⟩ := tag_tail h2.good.wf t1
    have T := T1.trans T2
    have hn : n1 + n2 = a.length + 1 := by
      have := T.length
      rw [t2.length, h.length] at this
      simp at this
      omega
    rw [hn] at T
    obtain ⟨ho, _⟩ := T.offsetTo h.good (by rw [h.length]; simp)
    refine ⟨r', _, ?_, t2, T, rfl⟩
    unfold grabDefineLine
    rw [(Nom.takeUntil_at (c := '#') h (by decide)).2 (free_iff.mp hf), error_orElse]
    simp only [Nom.recognize, h1, done_andThen, t1, ho, ok_bind]
    rfl
  · intro hf hn
    obtain ⟨r, h1, h2⟩ := Nom.rest_at h
    refine ⟨r, ?_, h2⟩
    have h3 : Nom.takeUntil ['\r', '\n'] i = .ok (.err (.error .code)) := by
      unfold Nom.takeUntil
      rw [Span.findSubstring_eq h.good.wf (by unfold AsciiS; decide) (by decide), h.text,
        firstOcc_none_of (c := '\n') (by decide) (free_iff.mp hn)]
      rfl
    unfold grabDefineLine
    rw [(Nom.takeUntil_at (c := '#') h (by decide)).2 (free_iff.mp hf), error_orElse]
    simp only [Nom.recognize, (Nom.takeUntil_at (c := '\n') h (by decide)).2 (free_iff.mp hn), h3, err_andThen,
      error_orElse, h1]

theorem first_split {c : Char} {t : List LChar} (h : ¬ Free c t) : ∃ a loc b, t = a ++ (c, loc) :: b ∧ Free c a := by
  have hm : c ∈ textOf t := by
    by_contra hn
    exact h (free_iff.mpr hn)
  obtain ⟨a, l, b, h1, h2, _⟩ := Nom.takeWhile_split hm
  exact ⟨a, l, b, h1, free_iff.mpr h2⟩

theorem grabDefineLine_done (h : i.At P t) (hne : t ≠ []) (hh : (textOf t).head? ≠ some '#') {j l : Span}
    (hg : grabDefineLine i = .ok (.done j l)) : Progress P t j := by
  obtain ⟨g1, g2, g3⟩ := grabDefineLine_at h
  by_cases hm : Free '#' t
  · by_cases hn : Free '\n' t
    · obtain ⟨r, e1, e2⟩ := g3 hm hn
      rw [e1, Res.ok.injEq, IRes.done.injEq] at hg
      rw [← hg.1]
      exact ⟨[], e2, List.nil_suffix, List.length_pos_of_ne_nil hne⟩
    · obtain ⟨a, loc, b, e, ha⟩ := first_split hn
      obtain ⟨r, n, e1, e2, _⟩ := g2 a loc b hm e ha
      rw [e1, Res.ok.injEq, IRes.done.injEq] at hg
      rw [← hg.1]
      refine ⟨b, e2, ⟨a ++ [('\n', loc)], by rw [e]; simp⟩, ?_⟩
      rw [e]; simp; omega
  · obtain ⟨a, loc, b, e, ha⟩ := first_split hm
    obtain ⟨r, l', e1, e2, _⟩ := g1 a loc b e ha
    rw [e1, Res.ok.injEq, IRes.done.injEq] at hg
    rw [← hg.1]
    refine ⟨_, e2, ⟨a, e.symm⟩, ?_⟩
    cases a with
    | nil => rw [e] at hh; simp at hh
    | cons x a => rw [e]; simp; omega

theorem parseDefineLine_done (h : i.At P t) (hne : t ≠ []) (hh : (textOf t).head? ≠ some '#') {j : Span} {l : DefineLine}
    (hg : parseDefineLine i = .ok (.done j l)) : Progress P t j := by
  unfold parseDefineLine at hg
  obtain ⟨k, x, h1, hg⟩ := andThen_done hg
  have hp := grabDefineLine_done h hne hh h1
  obtain ⟨_, _, hg⟩ := bind_eq_ok.mp hg
  obtain ⟨_, _, hg⟩ := bind_eq_ok.mp hg
  obtain ⟨_, _, _, hg⟩ := andThen_done hg
  obtain ⟨_, _, _, hg⟩ := andThen_done hg
  obtain ⟨_, _, _, hg⟩ := andThen_done hg
  obtain ⟨_, _, _, hg⟩ := andThen_done hg
  split at hg
  · cases hg
  · cases hg
    exact hp

theorem parseStatement_done {fs : Fs} {r : Rec} {p p' : PState} {st st' : St} {line : Block} {j : Span}
    (h : parseStatement fs r p st i line = .ok (.done j (), p', st')) : j = i := by
  unfold parseStatement at h
  obtain ⟨⟨var, st1⟩, _, h⟩ := bind_eq_ok.mp h
  cases var with
  | done _ a =>
    obtain ⟨⟨p1, st2⟩, _, h⟩ := bind_eq_ok.mp h
    obtain ⟨⟨p2, st3⟩, _, h⟩ := bind_eq_ok.mp h
    cases h; rfl
  | err e =>
    cases e with
    | failure k => cases h
    | error k =>
      obtain ⟨d, _, h⟩ := bind_eq_ok.mp h
      cases d with
      | done _ d =>
        obtain ⟨⟨p1, st2⟩, _, h⟩ := bind_eq_ok.mp h
        obtain ⟨⟨res, st3⟩, _, h⟩ := bind_eq_ok.mp h
        cases res with
        | ok u => cases h; rfl
        | error e => cases h
      | err e =>
        cases e with
        | failure k => cases h
        | error k =>
          obtain ⟨c, _, h⟩ := bind_eq_ok.mp h
          split at h
          · cases h
          · obtain ⟨⟨tg, st2⟩, _, h⟩ := bind_eq_ok.mp h
            cases tg with
            | done _ a =>
              obtain ⟨⟨p1, st3⟩, _, h⟩ := bind_eq_ok.mp h
              obtain ⟨p2, _, h⟩ := bind_eq_ok.mp h
              cases h; rfl
            | err e =>
              cases e with
              | failure k => cases h
              | error k => cases h; rfl

theorem parseCollapsed_done {fs : Fs} {r : Rec} {p p' : PState} {st st' : St} {j : Span} (hi : i.At P t) (hne : t ≠ [])
    (hh : (textOf t).head? ≠ some '#') (h : parseCollapsed fs r p st i = .ok (.done j (), p', st')) : Progress P t j := by
  obtain ⟨k, rest, b, u, m1, m2, m3, _, m5⟩ := makefileLine_total (mode := .gnu) (strip := true) hi
  have hp : Progress P t k := ⟨rest, m2, m3, m5 hne hh⟩
  unfold parseCollapsed at h
  simp only [m1, ok_bind] at h
  split at h
  · cases h; exact hp
  · obtain ⟨c, _, h⟩ := bind_eq_ok.mp h
    cases c with
    | done _ c =>
      obtain ⟨⟨res, p1, st1⟩, _, h⟩ := bind_eq_ok.mp h
      cases res with
      | ok u => cases h; exact hp
      | error e => cases h
    | err e =>
      cases e with
      | failure k => cases h
      | error k =>
        simp only at h
        split at h
        · cases h; exact hp
        · rw [parseStatement_done h]; exact hp

/-- Every line that is read consumes at least one character. -/
theorem parseLine_done {fs : Fs} {r : Rec} {p p' : PState} {st st' : St} {j : Span} (hc : isAscii st.commandChar = true)
    (hi : i.At P t) (hne : t ≠ []) (h : parseLine fs r p st i = .ok (.done j (), p', st')) : Progress P t j := by
  unfold parseLine at h
  rcases comment_cases hi with ⟨k, hk, hp⟩ | ⟨hk, hh⟩
  · simp only [hk, ok_bind] at h
    cases h; exact hp
  · simp only [hk, ok_bind] at h
    split at h
    · obtain ⟨c, hrc, h⟩ := bind_eq_ok.mp h
      cases c with
      | done k a =>
        obtain ⟨p1, _, h⟩ := bind_eq_ok.mp h
        cases h
        exact recipeLine_done hc hi hrc
      | err e =>
        cases e with
        | failure k => cases h
        | error k => exact parseCollapsed_done hi hne hh h
    · split at h
      · obtain ⟨c, hrc, h⟩ := bind_eq_ok.mp h
        cases c with
        | done k a =>
          obtain ⟨⟨p1, st1⟩, _, h⟩ := bind_eq_ok.mp h
          cases h
          exact parseDefineLine_done hi hne hh hrc
        | err e =>
          cases e with
          | failure k => cases h
          | error k => cases h
      · exact parseCollapsed_done hi hne hh h

end Hastur
