import Verif.Proofs.RuleLine
import Verif.Proofs.DemoCond
import Verif.Proofs.Define
import Verif.Proofs.Comment
/-
Lemmas: lines of words without a colon, and recipe lines outside a rule.
-/
namespace Hastur

open Res Span

variable {P : Block} {t : List LChar} {i : Span}

/-- At the end of a line, the next word is empty. -/
theorem nextMword_end {gap : List LChar} (h : i.At P gap) (hg : Blanks gap) :
    ∃ r m, nextMword i = .ok (.done r (m, .static)) ∧ m.At P [] := by
  obtain ⟨r, q, e1, e2, _⟩ := whitespace_at h
  have e3 : gap.dropWhile lblank = [] := by
    have := dropWhile_blanks (r := []) hg
    simpa using this
  rw [e3] at e2
  have miss : ∀ {w : Str}, w ≠ [] → AsciiS w → Nom.tag w r = .ok (.err (.error .code)) := fun hw ha =>
    tag_miss e2 ha (by rw [textOf_nil]; intro hp; exact hw (List.prefix_nil.mp hp))
  have m1 := miss (w := ";".toList) (by decide) (by unfold AsciiS; decide)
  have m2 := miss (w := "=".toList) (by decide) (by unfold AsciiS; decide)
  have m3 := miss (w := ":=".toList) (by decide) (by unfold AsciiS; decide)
  have m4 := miss (w := "::=".toList) (by decide) (by unfold AsciiS; decide)
  have m5 := miss (w := "::".toList) (by decide) (by unfold AsciiS; decide)
  have m6 := miss (w := ":".toList) (by decide) (by unfold AsciiS; decide)
  have m7 := miss (w := "+=".toList) (by decide) (by unfold AsciiS; decide)
  have m8 := miss (w := "?=".toList) (by decide) (by unfold AsciiS; decide)
  have m9 := miss (w := "!=".toList) (by decide) (by unfold AsciiS; decide)
  obtain ⟨r', m, t1, t2, t3⟩ := e2.takeSplit (n := 0) (by simp)
  refine ⟨r', m, ?_, by simpa using t3⟩
  unfold nextMword
  simp only [e1, done_andThen, m1, m2, m3, m4, m5, m6, m7, m8, m9, err_mapP, error_orElse]
  rw [e2.chars]
  simp only [textOf_nil]
  rw [show mwordScan false .normal (Char.ofNat 0) 0 .static (withIndices 0 []) = .ok (0, .static) from rfl]
  simp only [ok_bind, t1]
  rfl

/-- The word loop at the end of the line. -/
theorem wordLoop_end (fs : Fs) (hm : Block.Mono P) {m : Span} (h : m.At P []) (st : St) (postSemi : Option Block)
    (lineNext : Span) (mwt : MWordEnd) (buf : Block) :
    ∀ n k, 2 ≤ n → wordLoop (recF fs n) (k + 1) lineNext m mwt buf postSemi st = .ok (.noAction, st) := by
  intro n k hn
  obtain ⟨b, k1, _, k3⟩ := expandSegment_text fs (h.whole hm) h (by intro y hy; cases hy) st
  have hlen : b.len = 0 := by rw [k1.len]; rfl
  rw [wordLoop]
  simp only [k3 n hn, ok_bind, semicolonInWord_none (recF fs n) k1 (fun x hx => by cases hx) (fun x hx => by cases hx),
    if_pos hlen]
  rfl

/-- The word loop on a line of words without a colon. -/
theorem wordLoop_words (fs : Fs) (hm : Block.Mono P) {env : Env} {ts tt : List LChar} {vs : List Str}
    (hT : TargetsExpand env ts tt vs) (postSemi : Option Block) :
    ∀ {st : St} {gap : List LChar} {lineNext : Span}, st.WF → st.env = env → Blanks gap →
      lineNext.At P (gap ++ ts) →
      ∃ N r m reason, nextMword lineNext = .ok (.done r (m, reason)) ∧ (reason = .static ∨ reason = .variable) ∧
        ∀ n k buf bt, N ≤ n → ts.length < k → Buf bt buf →
          wordLoop (recF fs n) k r m reason buf postSemi st = .ok (.noAction, st.interned vs) := by
  induction hT with
  | @last w gap' t es vs hw hne hg' hr he hfn hte =>
    intro st gap lineNext hst henv hg h
    subst henv
    have hstop : WordStop (textOf gap') ∧ WordStop.extra (textOf gap') = 0 := by
      cases gap' with
      | nil => exact ⟨.eof, rfl⟩
      | cons x gap'' =>
        have hblank := hg' x List.mem_cons_self
        refine ⟨.blank hblank, ?_⟩
        rw [textOf_cons]
        simp only [WordStop.extra]
        rw [if_neg]
        rcases hblank with h | h <;> rw [h] <;> decide
    obtain ⟨r, m, reason, e1, e2, e3, e4⟩ := nextMword_segment h hg hw hne hstop.1
    rw [hstop.2, List.drop_zero] at e2
    rw [hstop.2, List.take_zero, List.append_nil] at e3
    obtain ⟨N, b, b1, b2⟩ := expandSegment_at fs hm e3 hr hst he
    obtain ⟨r2, m2, c1, c2⟩ := nextMword_end e2 hg'
    refine ⟨max N 2, r, m, reason, e1, e4, fun n k buf bt hn hk hbuf => ?_⟩
    have hk' : ∃ k', k = k' + 1 + 1 := ⟨k - 2, by
      have := List.length_pos_iff.mpr hne
      simp at hk; omega⟩
    obtain ⟨k, rfl⟩ := hk'
    obtain ⟨buf1, g1, g2⟩ := wordLoop_plain (mwt := reason) (postSemi := postSemi) (b2 n (by omega)) b1 hfn hte c1
      (by decide) hbuf
    rw [g2, wordLoop_end fs hm c2 _ _ _ _ _ n k (by omega)]
  | @more w gap' t ts tt es vs us hw hne hg' hgne hr he hfn hte hT ih =>
    intro st gap lineNext hst henv hg h
    subst henv
    obtain ⟨x, gap'', rfl⟩ := List.exists_cons_of_ne_nil hgne
    have hblank := hg' x List.mem_cons_self
    have hstop : WordStop (textOf (x :: gap'' ++ ts)) := by
      rw [List.cons_append, textOf_cons]
      exact .blank hblank
    obtain ⟨r, m, reason, e1, e2, e3, e4⟩ := nextMword_segment h hg hw hne hstop
    have hx : WordStop.extra (textOf (x :: gap'' ++ ts)) = 0 := by
      rw [List.cons_append, textOf_cons]
      simp only [WordStop.extra]
      rw [if_neg]
      rcases hblank with h | h <;> rw [h] <;> decide
    rw [hx, List.drop_zero] at e2
    rw [hx, List.take_zero, List.append_nil] at e3
    obtain ⟨N, b, b1, b2⟩ := expandSegment_at fs hm e3 hr hst he
    obtain ⟨M, r2, m2, reason2, c1, c2, d5⟩ :=
      ih (st := st.interned vs) (hst.interned vs) (hst.env_interned vs) hg' e2
    refine ⟨max N M, r, m, reason, e1, e4, ?_⟩
    intro n k buf bt hn hk hbuf
    obtain ⟨k, rfl⟩ := Nat.exists_eq_add_of_lt (show 0 < k by omega)
    obtain ⟨buf1, g1, g2⟩ := wordLoop_plain (mwt := reason) (postSemi := postSemi) (b2 n (by omega)) b1 hfn hte c1
      (by rcases c2 with h | h <;> rw [h] <;> decide) hbuf
    rw [g2, d5 n (0 + k) buf1 _ (by omega) (by
      have := List.length_pos_iff.mpr hne
      simp at hk; omega) g1, St.interned_append]

theorem parseTargetLine_words (fs : Fs) {L : Block} {line tt : List LChar} {st : St} {vs : List Str}
    (hL : L.content.length ≤ 1) (hm : Block.Mono L) (h : L.span.At L line) (hnl : Free '\n' line) (hcom : Free '#' line)
    (hev : trailingSlashes (textOf line) % 2 = 0) (hT : TargetsExpand st.env line tt vs) (hst : st.WF) :
    ∃ N rest, ∀ n, N ≤ n → parseTargetLine (recF fs n) L.span st = .ok (.done rest .noAction, st.interned vs) := by
  obtain ⟨rest, L2, m1, _, m3, _⟩ := makefileLine_one (strip := false) h (grabSpec_eof hcom hnl) hev
  have hm2 := m3.mono hL hm
  have hat2 := m3.at
  have g : Free '\\' line ∧ ∀ x ∈ line, (fun c => c == ';' || c == '#') x.1 = false := by
    have hg := targets_chars hT
    refine ⟨fun x hx he => hg x hx (by rw [he]; simp), fun x hx => ?_⟩
    have := hg x hx
    simp only [List.mem_cons, List.not_mem_nil, or_false, not_or] at this
    simp [this.1, this.2.1]
  obtain ⟨b, e1, e2⟩ := takeUntilUnquote_miss (fun c => c == ';' || c == '#') (by decide) (by decide) hat2 g.1 g.2
  have hsemi : (do
        match ← takeUntilUnquote L2.span (fun c => c == ';' || c == '#') with
        | (pre, some (stopChar, post)) => do
          let c ← Nom.firstChar stopChar
          if c = some '#' then return (pre, none)
          else do
            let b ← post.toNewBlock
            return (pre, some b)
        | (pre, none) => return (pre, none) : Res (Block × Option Block)) = .ok (b, none) := by rw [e1]; rfl
  have hb := e2.buf
  obtain ⟨N, r, m, reason, w1, w2, w7⟩ := wordLoop_words fs (e2.mono hm2) hT none hst rfl
    (gap := []) (lineNext := b.span) (by intro x hx; cases hx) hb.at
  refine ⟨N, rest, fun n hn => ?_⟩
  have hloop := w7 n (b.len + 2) Block.empty [] hn (by
    have : b.len = line.length := hb.len
    omega) Buf.empty
  unfold parseTargetLine
  refine Res.bind_eq_ok.mpr ⟨_, m1, ?_⟩
  refine Res.bind_eq_ok.mpr ⟨_, hsemi, ?_⟩
  refine Res.bind_eq_ok.mpr ⟨_, w1, ?_⟩
  have hfin : (do
      let (res, st) ← wordLoop (recF fs n) (b.len + 2) r m reason Block.empty none st
      match res with
      | .err e => return (.err e, st)
      | .noAction => return (.done rest .noAction, st)
      | .finished preColon afterColon lineNext postSemi mwt =>
        if mwt = .eol then do
          match ← whitespace preColon.span with
          | .err _ => .panic .unwrap
          | .done afterSpace _ =>
            if afterSpace.length = 0 then return (.done rest .noAction, st)
            else return (.err (.failure (.custom .missingSeparator)), st)
        else do
          let afterColon ← runwrap afterColon
          finishRule (recF fs n) rest preColon afterColon lineNext postSemi st : Res (IRes TargetAction × St)) =
      .ok (.done rest .noAction, st.interned vs) := by
    rw [hloop]; rfl
  rcases w2 with h | h <;> subst h <;> exact hfin

end Hastur
