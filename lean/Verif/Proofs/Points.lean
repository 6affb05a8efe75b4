import Verif.Proofs.Progress
import Verif.Proofs.Comment
import Verif.Proofs.RecipePrefix
/-
Lemmas: where comment characters can be at the points a reading reaches.
-/
namespace Hastur

open Res

variable {P : Block} {t : List LChar} {i : Span}

/-- No comment character follows, or the next character is one. -/
def Settled (t : List LChar) : Prop := Free '#' t ∨ (textOf t).head? = some '#'

theorem settled_grab (t : List LChar) : Settled (grabSpec t).2.2 := by
  by_cases h : '#' ∈ textOf t
  · right
    obtain ⟨l, rest, e⟩ := dropWhile_head h
    unfold grabSpec
    rw [if_pos h]
    dsimp only
    rw [e]
    rfl
  · exact .inl (Free.of_suffix (free_iff.mpr h) (grabSpec_suffix t))

theorem lineLoop_settled {mode : Compliance} {n : Nat} {lines : List CRef} {strip addSpace : Bool} {reason : LineEnd}
    {L : List LChar} (h : i.At P t) (hl : Lines P L lines) {r : Span} {b : Block}
    (e : lineLoop mode n i lines strip addSpace reason = .ok (.done r b)) : ∃ rest, r.At P rest ∧ Settled rest := by
  induction n generalizing i t lines strip addSpace reason L with
  | zero => cases e
  | succ n ih =>
    obtain ⟨r1, h1, h2, h3, h4⟩ := lineLoop_step (mode := mode) (n := n) (strip := strip) (addSpace := addSpace)
      (reason := reason) h hl
    by_cases hev : trailingSlashes (textOf (grabSpec (t.dropWhile lblank)).1) % 2 = 0
    · obtain ⟨b', b1, _⟩ := h2 hev
      rw [b1] at e
      cases e
      exact ⟨_, h1, settled_grab _⟩
    · by_cases hk : cleanLen mode (textOf (grabSpec (t.dropWhile lblank)).1) = 0
      · obtain ⟨lines', e1, e2⟩ := h4 hev hk
        exact ih h1 e1 (e2 ▸ e)
      · obtain ⟨lines', e1, e2⟩ := h3 hev (Nat.pos_of_ne_zero hk)
        exact ih h1 e1 (e2 ▸ e)

theorem makefileLine_settled {mode : Compliance} {strip : Bool} (h : i.At P t) {r : Span} {b : Block}
    (e : makefileLine i mode strip = .ok (.done r b)) : ∃ rest, r.At P rest ∧ Settled rest := by
  obtain ⟨r1, h1, h2, h3, h4⟩ := makefileLine_step (mode := mode) (strip := strip) h
  generalize (if strip then t.dropWhile lblank else t) = t' at *
  by_cases hev : trailingSlashes (textOf (grabSpec t').1) % 2 = 0
  · obtain ⟨b', b1, _⟩ := h2 hev
    rw [b1] at e
    cases e
    exact ⟨_, h1, settled_grab _⟩
  · by_cases hk : cleanLen mode (textOf (grabSpec t').1) = 0
    · exact lineLoop_settled h1 Lines.nil ((h4 hev hk) ▸ e)
    · obtain ⟨c, e1, e2⟩ := h3 hev (Nat.pos_of_ne_zero hk)
      exact lineLoop_settled h1 e1 (e2 ▸ e)

theorem grabCommandLine_settled {c : Char} (hc : isAscii c = true) (h : i.At P t) {j : Span} {x : Span × LineEnd}
    (hg : grabCommandLine c i = .ok (.done j x)) : ∃ rest, j.At P rest ∧ Settled rest := by
  unfold grabCommandLine at hg
  by_cases hh : (textOf t).head? = some c
  · obtain ⟨loc, u, rfl⟩ : ∃ loc u, t = (c, loc) :: u := by
      cases t with
      | nil => simp at hh
      | cons y u =>
        obtain ⟨d, l⟩ := y
        simp only [textOf_cons, List.head?_cons, Option.some.injEq] at hh
        subst hh
        exact ⟨l, u, rfl⟩
    obtain ⟨r, h1, h2⟩ := (Nom.char_at h hc).1 loc u rfl
    rw [h1, done_andThen] at hg
    obtain ⟨r', l, g1, g2, _⟩ := grabLine_at h2
    rw [g1, Res.ok.injEq, IRes.done.injEq] at hg
    rw [← hg.1]
    exact ⟨_, g2, settled_grab u⟩
  · rw [(Nom.char_at h hc).2 hh] at hg
    cases hg

theorem recipeLoop_settled {c : Char} (hc : isAscii c = true) (n : Nat) : ∀ {t : List LChar} {i : Span} {line : Block},
    i.At P t → Settled t → ∀ {j : Span} {a : Ast}, recipeLoop c n i line = .ok (.done j a) →
      ∃ rest, j.At P rest ∧ Settled rest := by
  induction n with
  | zero => intro t i line _ _ j a h; cases h
  | succ n ih =>
    intro t i line hi hs j a h
    unfold recipeLoop at h
    obtain ⟨k, _, h⟩ := bind_eq_ok.mp h
    split at h
    · obtain ⟨g, hg, h⟩ := bind_eq_ok.mp h
      cases g with
      | err e =>
        obtain ⟨_, _, _, h⟩ := andThen_done h
        cases h
        exact ⟨t, hi, hs⟩
      | done i' x =>
        obtain ⟨rest, h1, h2⟩ := grabCommandLine_settled hc hi hg
        simp only at h
        obtain ⟨cr, _, h⟩ := bind_eq_ok.mp h
        split at h
        · obtain ⟨_, _, _, h⟩ := andThen_done h
          cases h
          exact ⟨rest, h1, h2⟩
        · exact ih h1 h2 h
    · obtain ⟨_, _, _, h⟩ := andThen_done h
      cases h
      exact ⟨t, hi, hs⟩

theorem recipeLine_settled {c : Char} (hc : isAscii c = true) (h : i.At P t) {j : Span} {a : Ast}
    (hr : recipeLine c i = .ok (.done j a)) : ∃ rest, j.At P rest ∧ Settled rest := by
  unfold recipeLine at hr
  obtain ⟨k, x, h1, h2⟩ := andThen_done hr
  obtain ⟨rest, g1, g2⟩ := grabCommandLine_settled hc h h1
  obtain ⟨line, reason⟩ := x
  dsimp only at h2
  split at h2
  · obtain ⟨_, _, _, h2⟩ := andThen_done h2
    cases h2
    exact ⟨rest, g1, g2⟩
  · obtain ⟨b, _, h2⟩ := bind_eq_ok.mp h2
    exact recipeLoop_settled hc _ g1 g2 h2

theorem grabDefineLine_settled (h : i.At P t) {j l : Span} (hg : grabDefineLine i = .ok (.done j l)) :
    ∃ rest, j.At P rest ∧ Settled rest := by
  obtain ⟨g1, g2, g3⟩ := grabDefineLine_at h
  by_cases hm : Free '#' t
  · by_cases hn : Free '\n' t
    · obtain ⟨r, e1, e2⟩ := g3 hm hn
      rw [e1, Res.ok.injEq, IRes.done.injEq] at hg
      rw [← hg.1]
      exact ⟨[], e2, .inl (by intro x hx; cases hx)⟩
    · obtain ⟨a, loc, b, e, ha⟩ := first_split hn
      obtain ⟨r, n, e1, e2, _⟩ := g2 a loc b hm e ha
      rw [e1, Res.ok.injEq, IRes.done.injEq] at hg
      rw [← hg.1]
      exact ⟨b, e2, .inl (hm.of_suffix ⟨a ++ [('\n', loc)], by rw [e]; simp⟩)⟩
  · obtain ⟨a, loc, b, e, ha⟩ := first_split hm
    obtain ⟨r, l', e1, e2, _⟩ := g1 a loc b e ha
    rw [e1, Res.ok.injEq, IRes.done.injEq] at hg
    rw [← hg.1]
    exact ⟨_, e2, .inr rfl⟩

theorem parseDefineLine_settled (h : i.At P t) {j : Span} {l : DefineLine}
    (hg : parseDefineLine i = .ok (.done j l)) : ∃ rest, j.At P rest ∧ Settled rest := by
  unfold parseDefineLine at hg
  obtain ⟨k, x, h1, hg⟩ := andThen_done hg
  have hp := grabDefineLine_settled h h1
  obtain ⟨_, _, hg⟩ := bind_eq_ok.mp hg
  obtain ⟨_, _, hg⟩ := bind_eq_ok.mp hg
  obtain ⟨_, _, _, hg⟩ := andThen_done hg
  obtain ⟨_, _, _, hg⟩ := andThen_done hg
  obtain ⟨_, _, _, hg⟩ := andThen_done hg
  obtain ⟨_, _, _, hg⟩ := andThen_done hg
  split at hg
  · cases hg
  · cases hg
    exact hp

/-- After a comment there are no comment characters left. -/
theorem comment_free (h : i.At P t) {j : Span} {x : Unit} (hc : parseCommentFollowingWhitespace i = .ok (.done j x)) :
    ∃ rest, j.At P rest ∧ Free '#' rest := by
  by_cases hh : (textOf (t.dropWhile lblank)).head? = some '#'
  · obtain ⟨r, q, h1, h2, _⟩ := whitespace_at h
    obtain ⟨loc, u, hu⟩ : ∃ loc u, t.dropWhile lblank = ('#', loc) :: u := by
      cases hd : t.dropWhile lblank with
      | nil => rw [hd] at hh; simp at hh
      | cons y u =>
        obtain ⟨c, l⟩ := y
        rw [hd] at hh
        simp only [textOf_cons, List.head?_cons, Option.some.injEq] at hh
        subst hh
        exact ⟨l, u, rfl⟩
    unfold parseCommentFollowingWhitespace at hc
    rw [h1, done_andThen] at hc
    rw [hu] at h2
    rcases last_hash u with hf | ⟨a, l, b, rfl, hf⟩
    · obtain ⟨rest, hr⟩ := leaves_exists u
      obtain ⟨j', k1, k2⟩ := parseComment_leaves hr hf h2
      rw [k1] at hc
      cases hc
      exact ⟨rest, k2, hf.of_suffix hr.suffix⟩
    · obtain ⟨rest, hr⟩ := leaves_exists b
      obtain ⟨j', k1, k2⟩ := parseComment_swallows hr hf h2
      rw [k1] at hc
      cases hc
      exact ⟨rest, k2, hf.of_suffix hr.suffix⟩
  · rw [comment_none h hh] at hc
    cases hc

theorem parseCollapsed_settled {fs : Fs} {r : Rec} {p p' : PState} {st st' : St} {j : Span} (hi : i.At P t)
    (h : parseCollapsed fs r p st i = .ok (.done j (), p', st')) : ∃ rest, j.At P rest ∧ Settled rest := by
  obtain ⟨k, rest, b, u, m1, _⟩ := makefileLine_total (mode := .gnu) (strip := true) hi
  have hp := makefileLine_settled hi m1
  unfold parseCollapsed at h
  simp only [m1, ok_bind] at h
  split at h
  · cases h; exact hp
  · obtain ⟨c, _, h⟩ := bind_eq_ok.mp h
    cases c with
    | done _ c =>
      obtain ⟨⟨res, p1, st1⟩, _, h⟩ := bind_eq_ok.mp h
      cases res with
      | ok u => cases h; exact hp
      | error e => cases h
    | err e =>
      cases e with
      | failure k => cases h
      | error k =>
        simp only at h
        split at h
        · cases h; exact hp
        · rw [parseStatement_done h]; exact hp

/-- Whatever line is read in whatever state: then no comment character follows, or the next character is one.  If the
line is a comment, the former. -/
theorem parseLine_settled {fs : Fs} {r : Rec} {p p' : PState} {st st' : St} {j : Span} (hc : isAscii st.commandChar = true)
    (hi : i.At P t) (h : parseLine fs r p st i = .ok (.done j (), p', st')) :
    ∃ rest, j.At P rest ∧ Settled rest ∧ ((textOf (t.dropWhile lblank)).head? = some '#' → Free '#' rest) := by
  unfold parseLine at h
  by_cases hh : (textOf (t.dropWhile lblank)).head? = some '#'
  · rcases comment_cases hi with ⟨k, hk, _⟩ | ⟨hk, _⟩
    · obtain ⟨rest, h1, h2⟩ := comment_free hi hk
      simp only [hk, ok_bind] at h
      cases h
      exact ⟨rest, h1, .inl h2, fun _ => h2⟩
    · exfalso
      obtain ⟨q, r', h1, h2, _⟩ := whitespace_at hi
      have hk' := hk
      unfold parseCommentFollowingWhitespace at hk'
      rw [h1, done_andThen] at hk'
      cases hd : t.dropWhile lblank with
      | nil => rw [hd] at hh; simp at hh
      | cons y u =>
        obtain ⟨c, l⟩ := y
        rw [hd] at hh h2
        simp only [textOf_cons, List.head?_cons, Option.some.injEq] at hh
        subst hh
        obtain ⟨j', rest, g1, _⟩ := (parseComment_total h2).1 l u rfl
        rw [g1] at hk'
        cases hk'
  · suffices h' : ∃ rest, j.At P rest ∧ Settled rest from by
      obtain ⟨rest, h1, h2⟩ := h'
      exact ⟨rest, h1, h2, fun e => absurd e hh⟩
    simp only [comment_none hi hh, ok_bind] at h
    split at h
    · obtain ⟨c, hrc, h⟩ := bind_eq_ok.mp h
      cases c with
      | done k a =>
        obtain ⟨p1, _, h⟩ := bind_eq_ok.mp h
        cases h
        exact recipeLine_settled hc hi hrc
      | err e =>
        cases e with
        | failure k => cases h
        | error k => exact parseCollapsed_settled hi h
    · split at h
      · obtain ⟨c, hrc, h⟩ := bind_eq_ok.mp h
        cases c with
        | done k a =>
          obtain ⟨⟨p1, st1⟩, _, h⟩ := bind_eq_ok.mp h
          cases h
          exact parseDefineLine_settled hi hrc
        | err e =>
          cases e with
          | failure k => cases h
          | error k => cases h
      · exact parseCollapsed_settled hi h

private theorem steps_settled {fs : Fs} {n : Nat} {i j : Span} {p p' : PState} {st st' : St}
    (hs : LineSteps fs (recF fs n) i p st j p' st') : ∀ {rest : List LChar}, isAscii st.commandChar = true → i.At P rest →
    Settled rest → ∃ rest, j.At P rest ∧ Settled rest := by
  induction hs with
  | nil => exact fun _ h1 h2 => ⟨_, h1, h2⟩
  | cons h0 h1 hs ih =>
    intro rest hc r1 r2
    obtain ⟨rest', k1, k2, _⟩ := parseLine_settled hc r1 h1
    exact ih (by rw [(LineSteps.cons h0 h1 .nil).commandChar]; exact hc) k1 k2

/-- Where a reading can be: at its beginning, or at a settled text. -/
theorem LineSteps.settled {fs : Fs} {n : Nat} {i j : Span} {p p' : PState} {st st' : St}
    (hs : LineSteps fs (recF fs n) i p st j p' st') (hc : isAscii st.commandChar = true) (hi : i.At P t) :
    (i = j ∧ p = p' ∧ st = st') ∨ ∃ rest, j.At P rest ∧ Settled rest := by
  cases hs with
  | nil => exact .inl ⟨rfl, rfl, rfl⟩
  | cons h0 h1 hs =>
    right
    obtain ⟨rest, r1, r2, _⟩ := parseLine_settled hc hi h1
    exact steps_settled hs (by rw [(LineSteps.cons h0 h1 .nil).commandChar]; exact hc) r1 r2

end Hastur
