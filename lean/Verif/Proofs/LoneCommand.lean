import Verif.Proofs.RuleDemo
import Verif.Proofs.Junk
import Verif.Spec.LoneCommand

/-!
Lines with a semicolon and no colon in front of it.
-/

namespace Hastur
open Nom Res
variable {P : Block} {i : Span} {t : List LChar}

theorem LoneCommand.split {line : List LChar} (h : LoneCommand line) (env : Env) : ∃ u v x, line = u ++ x :: v ∧ x.1 = ';' ∧
    (u = [] ∨ ∃ tt, TargetsExpand env u tt []) := by
  cases h with
  | @bare x v hx => exact ⟨[], v, x, rfl, hx, .inl rfl⟩
  | @words u v ws x hw hx =>
    obtain ⟨tt, h1, _⟩ := targets_words env hw
    exact ⟨u, v, x, rfl, hx, .inr ⟨tt, h1⟩⟩

/-- The parser of rules ignores such lines. -/
theorem parseTargetLine_lone (fs : Fs) {L : Block} {line : List LChar} {st : St}
    (hL : L.content.length ≤ 1) (hm : Block.Mono L) (h : L.span.At L line) (hnl : Free '\n' line) (hcom : Free '#' line)
    (hev : trailingSlashes (textOf line) % 2 = 0) (hT : LoneCommand line) (hst : st.WF) :
    ∃ N rest, ∀ n, N ≤ n → parseTargetLine (recF fs n) L.span st = .ok (.done rest .noAction, st) := by
  obtain ⟨rest, L2, m1, _, m3, _⟩ := makefileLine_one (strip := false) h (grabSpec_eof hcom hnl) hev
  have hm2 := m3.mono hL hm
  have hat2 : L2.span.At L2 line := m3.at
  obtain ⟨u, v, x, rfl, hx, hu⟩ := hT.split st.env
  have g : Free '\\' u ∧ ∀ y ∈ u, (fun c => c == ';' || c == '#') y.1 = false := by
    rcases hu with rfl | ⟨tt, hT⟩
    · exact ⟨fun y hy => (by cases hy), fun y hy => (by cases hy)⟩
    · have hg := targets_chars hT
      refine ⟨fun y hy he => hg y hy (by rw [he]; simp), fun y hy => ?_⟩
      have := hg y hy
      simp only [List.mem_cons, List.not_mem_nil, or_false, not_or] at this
      simp [this.1, this.2.1]
  obtain ⟨b, sc, post, e1, e2, e3, e4⟩ := takeUntilUnquote_hit (fun c => c == ';' || c == '#') (by decide) (by decide) hat2
    g.1 g.2 (by rw [hx]; rfl)
  obtain ⟨pb, f1, f2⟩ := e4.part
  have hsemi : (do
        match ← takeUntilUnquote L2.span (fun c => c == ';' || c == '#') with
        | (pre, some (stopChar, post)) => do
          let c ← Nom.firstChar stopChar
          if c = some '#' then return (pre, none)
          else do
            let b ← post.toNewBlock
            return (pre, some b)
        | (pre, none) => return (pre, none) : Res (Block × Option Block)) = .ok (b, some pb) := by
    rw [e1]
    simp only [ok_bind, Nom.firstChar_at e3]
    rw [if_neg (by simp [textOf, hx]), f1]
    rfl
  have hb := e2.buf
  have hw : ∃ N r m reason, nextMword b.span = .ok (.done r (m, reason)) ∧ (reason = .static ∨ reason = .variable) ∧
      ∀ n, N ≤ n → wordLoop (recF fs n) (b.len + 2) r m reason Block.empty (some pb) st = .ok (.noAction, st) := by
    rcases hu with rfl | ⟨tt, hT⟩
    · obtain ⟨r, m, k1, k2⟩ := nextMword_end (gap := []) hb.at (by intro y hy; cases hy)
      exact ⟨2, r, m, .static, k1, .inl rfl, fun n hn => wordLoop_end fs (e2.mono hm2) k2 st _ _ _ _ n _ hn⟩
    · obtain ⟨N, r, m, reason, w1, w2, w7⟩ := wordLoop_words fs (e2.mono hm2) hT (some pb) hst rfl
        (gap := []) (lineNext := b.span) (by intro x hx; cases hx) hb.at
      refine ⟨N, r, m, reason, w1, w2, fun n hn => ?_⟩
      rw [w7 n (b.len + 2) Block.empty [] hn (by
        have : b.len = u.length := hb.len
        omega) Buf.empty]
      rfl
  obtain ⟨N, r, m, reason, w1, w2, w7⟩ := hw
  refine ⟨N, rest, fun n hn => ?_⟩
  have hloop := w7 n hn
  unfold parseTargetLine
  refine Res.bind_eq_ok.mpr ⟨_, m1, ?_⟩
  refine Res.bind_eq_ok.mpr ⟨_, hsemi, ?_⟩
  refine Res.bind_eq_ok.mpr ⟨_, w1, ?_⟩
  have hfin : (do
      let (res, st) ← wordLoop (recF fs n) (b.len + 2) r m reason Block.empty (some pb) st
      match res with
      | .err e => return (.err e, st)
      | .noAction => return (.done rest .noAction, st)
      | .finished preColon afterColon lineNext postSemi mwt =>
        if mwt = .eol then do
          match ← whitespace preColon.span with
          | .err _ => .panic .unwrap
          | .done afterSpace _ =>
            if afterSpace.length = 0 then return (.done rest .noAction, st)
            else return (.err (.failure (.custom .missingSeparator)), st)
        else do
          let afterColon ← runwrap afterColon
          finishRule (recF fs n) rest preColon afterColon lineNext postSemi st : Res (IRes TargetAction × St)) =
      .ok (.done rest .noAction, st) := by
    rw [hloop]; rfl
  rcases w2 with h | h <;> subst h <;> exact hfin

theorem LoneCommand.ne_nil {line : List LChar} (h : LoneCommand line) : line ≠ [] := by
  cases h <;> simp

end Hastur
