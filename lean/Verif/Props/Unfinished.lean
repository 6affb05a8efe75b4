import Verif.Spec.Unfinished
import Verif.Proofs.Program
import Verif.Proofs.RuleDemo
import Verif.Proofs.DemoCond
import Verif.Props.Conditional
/-
C80: makefiles that end too early.
-/
namespace Hastur

open Res Span

/-- The full claim: a makefile that ends inside a conditional or a definition is not accepted. -/
def C80_full : Prop :=
  ∀ (fs : Fs) (text name : Str) (st : St) (body : List LChar), AsciiS text →
    Headed (locate (.source 1 1 (st.names.internFile name).1) text) body → isAscii st.commandChar = true → st.WF →
    RulesKnown st.db st.names →
    Unfinished st.commandChar (fun _ _ => True) FirstWord ⟨st.vars, st.ruleTable, [], none⟩ body →
    ¬ ∃ st', FileGives fs name text st st'

private theorem proc_unfinished (fs : Fs) {P : Block} (hP : P.content.length ≤ 1) (hm : Block.Mono P) {c : Char}
    {m : MakeState} {t : List LChar} (hl : Unfinished c NoSwitch Begins m t) : ∀ {i : Span} {p : PState} {st : St},
      Reflects m p st → i.At P t → Free '#' t → st.commandChar = c → isAscii c = true → ∃ p' st', Proc fs i p st p' st' := by
  induction hl with
  | line hl _ ih =>
    intro i p st hR h hf hc ha
    subst hc
    obtain ⟨⟨p1, st1, ⟨N, j, hj, e⟩, k1, k2⟩, k3, k4⟩ := line_steps fs hP hm hl hR h hf ha
    obtain ⟨p', st', g⟩ := ih k1 hj (hf.of_suffix k3) k2 ha
    exact ⟨p', st', .trans N h hj k4 e g⟩
  | define h1 h2 h3 h4 h5 h6 _ ih =>
    intro i p st hR h hf hc ha
    subst hc
    obtain ⟨j, p1, st1, k1, k2, k3, k4, k5⟩ := steps_define fs hP hm hR h hf ha h1 h2 h3 h4 h5 h6
    rw [← MakeState.close_branches] at k4
    obtain ⟨p', st', g⟩ := ih k4 k2 (hf.of_suffix k3) k5 ha
    exact ⟨p', st', k1.proc g⟩
  | conditional _ =>
    intro i p st hR h hf hc ha
    exact ⟨p, st, .done (by rw [h.length]; rfl)⟩
  | definition h1 h2 h3 h4 h5 =>
    intro i p st hR h hf hc ha
    subst hc
    obtain ⟨d, hcol⟩ := many_openBody fs hP hm h5
    rw [← hR.env] at h4
    obtain ⟨us, hus⟩ := many_define_of fs (AtLine.found ⟨hP, hm, h, h3, hf, hR.define, ha, hR.wf⟩) (hR.outside h2)
      (hR.active h1) h4 (h3.lt (h3.ne_nil h4.dropBlanks.2.1)) (hf.of_suffix h3.suffix) (fun hj => ⟨_, hj, id⟩) hcol
    obtain ⟨p', st', cs, c1, c2, c3, c4, c5, c6, _⟩ := (hR.interned us).close
    obtain ⟨j, st1, pv, x, k1, k2, _⟩ := hus p' st' c1 c2.wf c6 c2.define ⟨cs, c3⟩
    exact ⟨_, st1, k1.proc (.done (by rw [k2.length]; rfl))⟩

/-- What the code does instead: a makefile that ends inside a conditional or a definition is read to its end, without any
complaint, whatever precedes it. -/
theorem C80_never_reported (fs : Fs) {text name : Str} {st : St} {body : List LChar} (ht : AsciiS text)
    (hh : Headed (locate (.source 1 1 (st.names.internFile name).1) text) body) (hch : isAscii st.commandChar = true)
    (hw : st.WF) (hk : RulesKnown st.db st.names)
    (hm : Unfinished st.commandChar NoSwitch Begins ⟨st.vars, st.ruleTable, [], none⟩ body) :
    ∃ st', FileGives fs name text st st' := by
  obtain ⟨P, i, h1, h2, h3, h4⟩ := read_of_proc (fs := fs) (name := name) (st := st) ht
  have hcs : ({ st with names := (st.names.internFile name).2 } : St).names = st.names.after [.file name] := rfl
  have hlk : St.lookup { st with names := (st.names.internFile name).2 } = st.lookup := hw.lookup_after rfl hcs
  have hR : Reflects ⟨st.vars, st.ruleTable, [], none⟩ PState.new { st with names := (st.names.internFile name).2 } := by
    refine ⟨vars_of_lookup hlk, ?_, rfl, by simp [PState.new, AllTaken], rfl, .none, hw.after rfl hcs,
      hk.after [.file name]⟩
    exact hk.table_after [.file name]
  obtain ⟨j, hj, hp⟩ := hh.proc h3
  obtain ⟨p', st', g⟩ := proc_unfinished fs h1 h2 hm hR hj hh.free rfl hch
  exact ⟨st', h4 _ _ (hp _ _ g)⟩

private theorem steps_end {fs : Fs} {n : Nat} {P : Block} {i j : Span} {p p' : PState} {st st' : St}
    (hs : LineSteps fs (recF fs n) i p st j p' st') : ∀ {t : List LChar} {m : Nat}, i.At P t → isAscii st.commandChar = true →
    t.length < m → j.length = 0 → processLoop fs (recF fs n) m i p st = .ok (.ok (), st') := by
  induction hs with
  | @nil i p st =>
    intro t m hi _ hm h0
    obtain ⟨m, rfl⟩ : ∃ k, m = k + 1 := ⟨m - 1, by omega⟩
    unfold processLoop
    rw [if_neg (by omega)]
  | @cons i j k p p1 p' st st1 st' h0 h1 _ ih =>
    intro t m hi hc hm hk
    obtain ⟨m, rfl⟩ : ∃ k, m = k + 1 := ⟨m - 1, by omega⟩
    have hne : t ≠ [] := by
      rintro rfl
      exact h0 (by rw [hi.length]; rfl)
    obtain ⟨rest, g1, _, g3⟩ := parseLine_done hc hi hne h1
    have hkeep := parseLine_keeps (commandChar_inv st.commandChar) (recF_keeps (commandChar_inv st.commandChar) fs n) fs p st i rfl
    rw [h1] at hkeep
    unfold processLoop
    rw [if_pos (by omega), h1]
    exact ih g1 (by rw [show st1.commandChar = st.commandChar from hkeep _ rfl]; exact hc) (by omega) hk

/-- What the code does instead, for all texts: when the lines of a file can be read, the file is accepted, whatever
conditionals, definition or rule are open (`p`) when its end is reached. -/
theorem C80_end_unchecked (fs : Fs) (n : Nat) (name text : Str) (st : St) (ht : AsciiS text)
    (hc : isAscii st.commandChar = true) {b : Block} (hb : fileBlock (st.names.internFile name).1 text = .ok b)
    {j : Span} {p : PState} {st' : St}
    (hs : LineSteps fs (recF fs n) b.span PState.new { st with names := (st.names.internFile name).2 } j p st')
    (hj : j.length = 0) : readF fs (n + 1) (.text text) name st = .ok (.ok (), st') := by
  obtain ⟨b', h1, h2, h3, h4⟩ := fileBlock_spec (f := (st.names.internFile name).1) ht
  cases h1.symm.trans hb
  unfold readF readMakefile
  simp only [h1, ok_bind]
  show processStep fs (recF fs n) b _ = _
  unfold processStep
  rw [char_bom h4, error_orElse]
  have hlen : b.len = _ := h4.length
  exact steps_end hs h4 hc (by omega) hj

/-! ### Examples -/

private theorem init_known : RulesKnown St.init.db St.init.names :=
  ⟨⟨List.nodup_nil, List.nodup_nil⟩, fun f r h => by cases h⟩

private abbrev at_ (line col : Nat) : Location := .source line col (St.init.names.internFile "Makefile".toList).1

private theorem no_assignment {l : Location} {s : Str} (h : '=' ∉ s) {name value : List LChar} {ty : AssignType} :
    ¬ AssignText (locate l s) name ty value := by
  generalize e : locate l s = line
  intro ha
  cases ha with
  | mk _ _ op _ _ _ _ _ h3 _ _ =>
    have : '=' ∈ textOf (locate l s) := by
      rw [e]
      simp only [textOf_append, List.mem_append]
      refine .inr (.inr (.inl ?_))
      generalize textOf op = o at h3
      cases h3 <;> simp
    rw [textOf_locate] at this
    exact h this

/-- The text `define x`, `1`. -/
private theorem open_define {ok : List Branch → Branch → Prop} {starts : Str → List LChar → Prop} {m : MakeState}
    (h1 : ¬ starts "define".toList (locate (at_ 2 1) "1\n".toList)) (h2 : ¬ starts "endef".toList (locate (at_ 2 1) "1\n".toList))
    (hb : AllTaken m.branches) (hc : m.current = none) :
    Unfinished '\t' ok starts m (locate (at_ 1 1) "define x\n1\n".toList) := by
  have hh := DefineHead.name (env := m.vars.env) (kw := locate (at_ 1 1) "define".toList) (gap := locate (at_ 1 7) [' '])
    (name := locate (at_ 1 8) ['x']) (by rw [textOf_locate]; decide)
    (by intro y hy; exact mem_locate (q := fun c => c = ' ' ∨ c = '\t') (by decide) y hy)
    (by intro y hy; cases hy; decide)
    (fun n ty v => no_assignment (l := at_ 1 1) (s := "define x".toList) (by decide))
    (fun n ty => no_assignment (by decide))
  exact .definition hb (.inl hc) (logical_locate (line := "define x".toList) (rest := "1\n".toList) (by decide) (by simp) (by decide)) hh
    (.line (line := locate (at_ 2 1) "1\n".toList) (t := [])
      (.feed (body := locate (at_ 2 1) ['1']) (free_locate (by decide))) h1 h2 (reads_text (free_locate (by decide))) .nil)

/-- The line `ifeq (a,b)`. -/
private theorem test_line {ok : List Branch → Branch → Prop} {m : MakeState} {rest : Str} (hc : m.current = none) :
    LineMeans '\t' ok m (locate (at_ 1 1) ("ifeq (a,b)".toList ++ '\n' :: rest)) (locate (at_ 2 1) rest)
      { m with branches := m.branches ++ [⟨false, false⟩] } := by
  obtain ⟨p1, p2, e⟩ := condText_test (l := at_ 1 1) (kw := "ifeq".toList) (a := ['a']) (b := ['b'])
    (inverted := false) (by decide) (by decide) (by decide)
  exact .test (.inl hc) (logical_locate (line := "ifeq (a,b)".toList) (rest := rest) (by decide) (by decide) (by decide)) e
    (Expands.text _ _) (Expands.text _ _)

/-- A conditional without `endif`, and a line in its branch that is not taken: accepted. -/
example (fs : Fs) : ∃ st', FileGives fs "Makefile".toList "ifeq (a,b)\nx=1\n".toList St.init st' :=
  C80_never_reported fs (by unfold AsciiS; decide) (.none (free_locate (by decide))) rfl St.init_wf init_known
    (.line (test_line (rest := "x=1\n".toList) rfl)
      (.line (.skip (by simp [AllTaken]) (logical_locate (line := "x=1".toList) (rest := []) (by decide) (by simp) (by decide))
        (by simp [locate]) (.inl rfl) (not_condLike_locate (by simp) (by unfold condWords; decide)))
        (.conditional (by simp))))

/-- The hypotheses of `C80_end_unchecked` can be met with an open conditional. -/
example (fs : Fs) : ∃ b, fileBlock (St.init.names.internFile "Makefile".toList).1 "ifeq (a,b)\n".toList = .ok b ∧
    ∃ n j p st', LineSteps fs (recF fs n) b.span PState.new
      { St.init with names := (St.init.names.internFile "Makefile".toList).2 } j p st' ∧ j.length = 0 ∧ p.conditionals ≠ [] := by
  obtain ⟨b, h1, h2, h3, h4⟩ := fileBlock_spec (f := (St.init.names.internFile "Makefile".toList).1)
    (s := "ifeq (a,b)\n".toList) (by unfold AsciiS; decide)
  have hcs : ({ St.init with names := (St.init.names.internFile "Makefile".toList).2 } : St).names =
    St.init.names.after [.file "Makefile".toList] := rfl
  have hlk : St.lookup { St.init with names := (St.init.names.internFile "Makefile".toList).2 } = St.init.lookup :=
    St.init_wf.lookup_after rfl hcs
  have hR : Reflects ⟨St.init.vars, St.init.ruleTable, [], none⟩ PState.new
      { St.init with names := (St.init.names.internFile "Makefile".toList).2 } := by
    refine ⟨vars_of_lookup hlk, ?_, rfl, by simp [PState.new, AllTaken], rfl, .none, St.init_wf.after rfl hcs,
      init_known.after [.file "Makefile".toList]⟩
    exact init_known.table_after [.file "Makefile".toList]
  obtain ⟨⟨p1, st1, ⟨N, j, hj, e⟩, k1, _⟩, _⟩ := line_steps fs h2 h3 (test_line (rest := []) rfl) hR h4 (free_locate (by decide)) rfl
  exact ⟨b, h1, N, j, p1, st1, .cons (by rw [h4.length]; simp [locate]) (e N (Nat.le_refl _)) .nil, hj.length,
    by rw [k1.branches]; simp [condsOf]⟩

/-- A definition without `endef` is accepted. -/
theorem C80_refuted : ¬ C80_full := by
  intro h
  refine h (fun _ => .missing) "define x\n1\n".toList "Makefile".toList St.init _ (by unfold AsciiS; decide)
    (.none (free_locate (by decide))) rfl St.init_wf init_known
    (open_define ?_ ?_ (by simp [AllTaken]) rfl)
    (C80_never_reported _ (by unfold AsciiS; decide) (.none (free_locate (by decide))) rfl St.init_wf init_known
      (open_define (by unfold Begins; decide) (by unfold Begins; decide) (by simp [AllTaken]) rfl))
  · rintro ⟨s, hs, _⟩
    have : "define".toList <+: ['1', '\n'] := ⟨s, hs.symm⟩
    revert this; decide
  · rintro ⟨s, hs, _⟩
    have : "endef".toList <+: ['1', '\n'] := ⟨s, hs.symm⟩
    revert this; decide

end Hastur
