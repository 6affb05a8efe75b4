import Verif.Spec.Trailed
import Verif.Proofs.Program
import Verif.Proofs.Junk
/-
Lemmas: lines with a comment behind them.
-/
namespace Hastur

open Res Span

variable {P : Block} {t : List LChar} {i : Span}

/-- All that precedes the comment is read as one line, and the comments come next. -/
theorem makefileLine_trailed {line rest : List LChar} (h : i.At P t) (hl : Trailed t line rest) (hne : line ≠ []) :
    parseCommentFollowingWhitespace i = .ok (.err (.error .code)) ∧
    ∃ j b u, makefileLine i .gnu true = .ok (.done j b) ∧ j.At P u ∧ LineBlock P line b ∧ b.content.length ≤ 1 ∧
      Swallowed u rest ∧ u.length < t.length ∧ line.dropWhile lblank = line := by
  obtain ⟨h1, h2, h3, h4, h5⟩ := hl
  rename_i bl u l
  have hsolid : line.dropWhile lblank = line := dropWhile_solid fun x hx => by simpa using fun hb => h2 x hx (lblank_iff.mp hb)
  have hd : (bl ++ (line ++ ('#', l) :: u)).dropWhile lblank = line ++ ('#', l) :: u := by
    rw [List.dropWhile_append_of_pos (blanks_iff.mp h1)]
    cases line with
    | nil => exact absurd rfl hne
    | cons x r =>
      refine dropWhile_solid fun y hy => ?_
      simp only [List.cons_append, List.head?_cons, Option.some.injEq] at hy
      subst hy
      simpa using fun hb => h2 x rfl (lblank_iff.mp hb)
  refine ⟨comment_none h ?_, ?_⟩
  · rw [hd]
    cases line with
    | nil => exact absurd rfl hne
    | cons x r =>
      have := (Free.cons.mp h3).1
      simpa using this
  · have hg : grabSpec ((bl ++ (line ++ ('#', l) :: u)).dropWhile lblank) = (line, .comment, ('#', l) :: u) := by
      rw [hd, grabSpec_comment h3]
    obtain ⟨j, b, e1, e2, e3, e4⟩ := makefileLine_one (strip := true) h hg h4
    refine ⟨j, b, _, e1, e2, e3, e4, h5, ?_, hsolid⟩
    cases line with
    | nil => exact absurd rfl hne
    | cons x r => simp only [List.length_append, List.length_cons]; omega

theorem Trailed.free {line rest : List LChar} (h : Trailed t line rest) :
    Free '#' line ∧ trailingSlashes (textOf line) % 2 = 0 := by
  cases h with
  | mk _ _ a b _ => exact ⟨a, b⟩

/-- The line, as the parser finds it, and the comments behind it. -/
theorem Trailed.found {line rest : List LChar} (hl : Trailed t line rest) (hne : line ≠ []) (hP : P.content.length ≤ 1)
    (hm : Block.Mono P) (h : i.At P t) {p : PState} {st : St} (hd : p.currentDefine = none)
    (hch : isAscii st.commandChar = true) (hw : st.WF) :
    ∃ u, FoundLine P i t line u p st ∧ Swallowed u rest ∧ u.length < t.length := by
  obtain ⟨hc, j, b, u, e1, e2, e3, _, e5, e7, _⟩ := makefileLine_trailed h hl hne
  exact ⟨u, ⟨hP, hm, h, hc, ⟨j, b, e1, e2, e3⟩, hd, hch, hw⟩, e5, e7⟩

/-- A line that begins with a line feed. -/
theorem parseTargetLine_empty (fs : Fs) {L : Block} {more : List LChar} {l : Location} (hL : L.content.length ≤ 1)
    (hm : Block.Mono L) (h : L.span.At L (('\n', l) :: more)) (hcom : Free '#' (('\n', l) :: more)) (st : St) :
    ∃ rest, ∀ n, 2 ≤ n → parseTargetLine (recF fs n) L.span st = .ok (.done rest .noAction, st) := by
  obtain ⟨rest, L2, m1, _, m3, _⟩ := makefileLine_one (strip := false) h
    (grabSpec_line (l := []) hcom (by intro x hx; cases hx)) rfl
  obtain ⟨b, e1, e2⟩ := takeUntilUnquote_miss (fun c => c == ';' || c == '#') (by decide) (by decide) m3.at
    (by intro x hx; cases hx) (by intro x hx; cases hx)
  obtain ⟨r, m, w1, w2⟩ := nextMword_end e2.buf.at (by intro x hx; cases hx)
  refine ⟨rest, fun n hn => ?_⟩
  have hloop := wordLoop_end fs (e2.mono (m3.mono hL hm)) w2 st none r .static Block.empty n (b.len + 1) hn
  unfold parseTargetLine
  refine Res.bind_eq_ok.mpr ⟨_, m1, ?_⟩
  refine Res.bind_eq_ok.mpr ⟨(b, none), by rw [e1]; rfl, ?_⟩
  refine Res.bind_eq_ok.mpr ⟨_, w1, ?_⟩
  show (wordLoop (recF fs n) (b.len + 2) r m .static Block.empty none st).bind _ = _
  rw [hloop]
  rfl

theorem not_condLike_feed {l : Location} {more : List LChar} : ¬ CondLike (('\n', l) :: more) := by
  refine fun h => ?_
  cases h with
  | word hw hp =>
    simp only [List.mem_cons, List.not_mem_nil, or_false] at hw
    rcases hw with h | h | h | h <;> subst h <;> simp [textOf, lower] at hp
  | @eq a b e hw =>
    cases a with
    | nil => simp at hw
    | cons x a =>
      rw [List.cons_append] at e
      cases e
      simp [textOf, lower] at hw

theorem not_directiveLike_feed {l : Location} {more : List LChar} : ¬ DirectiveLike (('\n', l) :: more) := by
  rintro ⟨w, hw, hp⟩
  simp only [directiveWords, List.mem_cons, List.not_mem_nil, or_false] at hw
  rcases hw with h | h | h | h | h | h | h | h <;> subst h <;> simp [textOf, lower] at hp

/-- What happens on a line with a comment behind it. -/
theorem trailed_steps (fs : Fs) (hP : P.content.length ≤ 1) (hm : Block.Mono P) {m m1 : MakeState} (hA : AllTaken m.branches)
    {p : PState} {st : St} {rest : List LChar} (hl : TrailedDoes st.commandChar m t rest m1) (hR : Reflects m p st)
    (h : i.At P t) (hch : isAscii st.commandChar = true) :
    Free '#' rest ∧ ∃ j p1 st1, j.At P rest ∧ Reflects m1 p1 st1 ∧ st1.commandChar = st.commandChar ∧
      ∀ p' st', Proc fs j p1 st1 p' st' → Proc fs i p st p' st' := by
  have key : (∃ u, Steps (AllTaken m1.branches) fs P i p st u m1 ∧ Swallowed u rest ∧ u.length < t.length) →
      Free '#' rest ∧ ∃ j p1 st1, j.At P rest ∧ Reflects m1 p1 st1 ∧ st1.commandChar = st.commandChar ∧
        ∀ p' st', Proc fs j p1 st1 p' st' → Proc fs i p st p' st' := by
    rintro ⟨u, ⟨p1, st1, ⟨N, j, hj, e⟩, k1, k2⟩, k3, k5⟩
    obtain ⟨j', hj', e'⟩ := parseLine_swallowed (bl := []) (by intro x hx; cases hx) k3 hj
    refine ⟨k3.free, j', p1, st1, hj', k1, k2, fun p' st' hp => ?_⟩
    exact .trans N h hj k5 e (.trans 0 hj hj' k3.suffix.2 (fun n _ => e' fs _ p1 st1) hp)
  cases hl with
  | assign h2 h3 h4 h5 h6 h7 h8 h9 =>
    obtain ⟨hc, j, b, u, e1, e2, e3, _, e5, e7, _⟩ := makefileLine_trailed h h3 (by
      rintro rfl
      exact h4.dropBlanks.2 rfl)
    refine key ⟨u, ?_, e5, e7⟩
    show Steps (AllTaken m.close.branches) _ _ _ _ _ _ _
    rw [MakeState.close_branches]
    exact steps_assign_of fs hP hm hR h hc e1 e2 e3 hch hA h2 h4 h5 h6 h7 h8 h9
  | rule h2 h3 hl he hnl hsl h4 h5 h6 h7 h8 h9 h10 h11 h12 h13 h14 =>
    have hne := h8.ne_nil
    obtain ⟨hc, j, b, u, e1, e2, e3, e4, e5, e7, e8⟩ := makefileLine_trailed h h3 (by rw [hl]; simp [hne])
    obtain ⟨reason, g1, _⟩ := grabSpec_ends hnl he (by rw [← hl]; exact h3.free.1)
    obtain ⟨rest', L2, m1, _, m3, _⟩ := makefileLine_one (strip := false) e3.at (by
      simp only [Bool.false_eq_true, if_false]
      rw [hl]
      exact g1) hsl
    obtain ⟨N, targets, deps, a, f1, f2, f3, f4⟩ := parseTargetLine_found fs m1 m3 (.inl (m3.mono e4 (e3.mono hP hm)))
      h8 (by rw [hR.env]; exact h10) h9 hR.wf h11 (by rw [hR.env]; exact h12) h13 h14
    refine key ⟨u, ?_, e5, e7⟩
    show Steps (AllTaken m.close.branches) _ _ _ _ _ _ _
    rw [MakeState.close_branches]
    exact steps_newRule_of fs hR h hc hch hA h2 e1 e2 e3.at (by rw [hl]; simp [hne]) e8 h4 h5 h6 h7 f1 f2 f3 f4
  | @empty _ more _ l h2 h3 hcn h6 =>
    obtain ⟨hc, j, b, u, e1, e2, e3, e4, e5, e7, e8⟩ := makefileLine_trailed h h3 (by simp)
    obtain ⟨rest', f⟩ := parseTargetLine_empty fs e4 (e3.mono hP hm) e3.at h3.free.1 st
    obtain ⟨p', st', cs, c1, c2, c3, c4, c5, c6, c7, c8, c9, c10, c11⟩ := hR.close
    refine key ⟨u, ?_, e5, e7⟩
    rw [MakeState.close_branches]
    refine ⟨p', st', ⟨2, j, e2, fun n hn => ?_⟩, c2, c5⟩
    rw [parseLine_newRule_of fs h hc hR.define (by simpa using hR.active hA) hch (hR.outside h2) e1 e3.at (by simp) e8
      (by simpa using fun he => hcn he.symm) not_condLike_feed h6 not_directiveLike_feed (f n hn), c1]
    rfl
  | test h2 h3 h4 h5 h6 =>
    obtain ⟨u, hF, e5, e7⟩ := h3.found h4.ne_nil hP hm h hR.define hch hR.wf
    exact key ⟨u, steps_test_of fs hP hm hR h hch hF.comment hF.found h2 h4 h5 h6 Iff.rfl, e5, e7⟩
  | define h2 h3 h4 h5 h6 =>
    obtain ⟨u, hF, e5, e7⟩ := h3.found h4.dropBlanks.2.1 hP hm h hR.define hch hR.wf
    obtain ⟨j, p1, st1, _, k1, k2, k3, k4, k5⟩ := steps_define_of fs hR hF hA h2 e7 e5.free (fun {j} hj => by
      obtain ⟨j', hj', e'⟩ := parseLine_swallowed (bl := []) (by intro x hx; cases hx) e5 hj
      exact ⟨j', hj', fun hp => .step 0 (by rw [hj.length, hj'.length]; exact e5.suffix.2) (fun n _ => e' fs _ _ _) hp⟩)
      h4 (many_body fs hP hm h5) h6
    rw [PState.no_define k4.define] at k1
    rw [← MakeState.close_branches] at k4
    exact ⟨e5.free.of_suffix k3, j, p1, st1, k2, k4, k5, fun p' st' hp => k1.proc hp⟩

/-- A whole makefile. -/
theorem file_trailed (fs : Fs) {text name : Str} {st : St} {m1 m' : MakeState} (ht : AsciiS text) {rest : List LChar}
    (hc : TrailedDoes st.commandChar ⟨st.vars, st.ruleTable, [], none⟩
      (locate (.source 1 1 (st.names.internFile name).1) text) rest m1)
    (hch : isAscii st.commandChar = true) (hw : st.WF) (hk : RulesKnown st.db st.names)
    (hl : Makes st.commandChar NoSwitch m1 rest m') :
    ∃ p' st', FileGives fs name text st st' ∧ Reflects m' p' st' ∧ st'.commandChar = st.commandChar := by
  obtain ⟨P, i, h1, h2, h3, h4⟩ := read_of_proc (fs := fs) (name := name) (st := st) ht
  have hcs : ({ st with names := (st.names.internFile name).2 } : St).names = st.names.after [.file name] := rfl
  have hlk : St.lookup { st with names := (st.names.internFile name).2 } = st.lookup := hw.lookup_after rfl hcs
  have hR : Reflects ⟨st.vars, st.ruleTable, [], none⟩ PState.new { st with names := (st.names.internFile name).2 } := by
    refine ⟨by rw [vars_of_lookup hlk], ?_, rfl, by simp [PState.new, AllTaken], rfl, .none, hw.after rfl hcs,
      hk.after [.file name]⟩
    exact hk.table_after [.file name]
  obtain ⟨k1, j, p1, st1, k2, k3, k4, k5⟩ := trailed_steps fs h1 h2
    (st := { st with names := (st.names.internFile name).2 }) (by simp [AllTaken]) hc hR h3 hch
  obtain ⟨p', st', g1, g2, g3⟩ := proc_makes fs h1 h2 hl k3 k2 k1 k4 hch
  exact ⟨p', st', h4 _ _ (k5 _ _ g1), g2, g3⟩

end Hastur
