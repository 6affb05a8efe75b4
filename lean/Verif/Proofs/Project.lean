import Verif.Proofs.Does
/-
Lemmas: makefiles that include others (C62).
-/
namespace Hastur

open Res Span

theorem proc_means (fs : Fs) {c : Char} {m : MakeState} {t : List LChar} {M : MakeState → Prop} (ha : isAscii c = true)
    (h : Means fs c NoSwitch NoOpenRule m t M) (P : Block) (i : Span) (p : PState) (st : St) (hP : P.content.length ≤ 1)
    (hm : Block.Mono P) (hR : Reflects m p st) (hi : i.At P t) (hf : Free '#' t) (hc : st.commandChar = c) :
    ∃ m' p' q st', M m' ∧ Proc fs i p st p' st' ∧ Reflects m' q st' ∧ st'.commandChar = c := by
  classical
  have ho := decide_eq_true_iff (p := AllTaken m.branches)
  obtain ⟨on', m', p', q, st', ⟨g0, g1⟩, g2, g3, g4⟩ := proc_does fs ha (means_does h _ ho) P i p st hP hm
    (by rwa [ho]) hi hf hc
  rw [g0] at g3
  exact ⟨m', p', q, st', g1, g2, g3, g4⟩

/-- A whole makefile. -/
theorem file_means (fs : Fs) {text name : Str} {st : St} {M : MakeState → Prop} (ht : AsciiS text)
    {body : List LChar} (hc : Headed (locate (.source 1 1 (st.names.internFile name).1) text) body)
    (hch : isAscii st.commandChar = true) (hw : st.WF) (hk : RulesKnown st.db st.names)
    (hl : Means fs st.commandChar NoSwitch NoOpenRule ⟨st.vars, st.ruleTable, [], none⟩ body M) :
    ∃ m' q st', M m' ∧ FileGives fs name text st st' ∧ Reflects m' q st' ∧ st'.commandChar = st.commandChar := by
  obtain ⟨P, i, h1, h2, h3, h4⟩ := read_of_proc (fs := fs) (name := name) (st := st) ht
  have hcs : ({ st with names := (st.names.internFile name).2 } : St).names = st.names.after [.file name] := rfl
  have hlk : St.lookup { st with names := (st.names.internFile name).2 } = st.lookup := hw.lookup_after rfl hcs
  have hR : Reflects ⟨st.vars, st.ruleTable, [], none⟩ PState.new { st with names := (st.names.internFile name).2 } := by
    refine ⟨vars_of_lookup hlk, ?_, rfl, by simp [PState.new, AllTaken], rfl, .none, hw.after rfl hcs,
      hk.after [.file name]⟩
    exact hk.table_after [.file name]
  obtain ⟨j, hj, hp⟩ := hc.proc h3
  obtain ⟨m', p', q, st', g0, g1, g2, g3⟩ := proc_means fs hch hl _ _ _ _ h1 h2 hR hj hc.free rfl
  exact ⟨m', q, st', g0, h4 _ _ (hp _ _ g1), g2, g3⟩

end Hastur
