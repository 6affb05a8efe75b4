import Verif.Proofs.Switch
import Verif.Proofs.DemoCond
import Verif.Proofs.Comment
/-
C42 for whole files: what the program does with conditionals, whatever is closed where.
-/
namespace Hastur

open Res

/-- C42, exactly: what any file of assignments and conditionals does.  The variables afterwards are those of `SwitchRun`,
which differs from `CondRun` (C41) in one point: an `endif` does not turn processing on again. -/
theorem C42_files_exact (fs : Fs) {text name : Str} {st : St} {l : List MLine} {v : Vars} {bs : List Branch} {on : Bool}
    (ht : AsciiS text) {body : List LChar}
    (hc : Headed (locate (.source 1 1 (st.names.internFile name).1) text) body) (hch : isAscii st.commandChar = true) (hw : st.WF)
    (hl : MakeText body l) (hv : SwitchRun true st.vars [] l on v bs) :
    ∃ st', FileGives fs name text st st' ∧ st'.vars = v ∧ st'.db.rules = st.db.rules ∧
      st'.db.targetVariables = st.db.targetVariables ∧ st'.WF := by
  obtain ⟨P, i, h1, h2, h3, h4⟩ := read_of_proc (fs := fs) (name := name) (st := st) ht
  have hcs : ({ st with names := (st.names.internFile name).2 } : St).names = st.names.after [.file name] := rfl
  have hw' : St.WF { st with names := (st.names.internFile name).2 } := hw.after rfl hcs
  have hlk : St.lookup { st with names := (st.names.internFile name).2 } = st.lookup := hw.lookup_after rfl hcs
  have hvars : St.vars { st with names := (st.names.internFile name).2 } = st.vars := by
    unfold St.vars; rw [hlk]
  obtain ⟨j, hj, hp⟩ := hc.proc h3
  obtain ⟨p', st', g1, _, _, _, _, g5, g6, g7, g8, _⟩ := proc_switch fs h1 h2 hl (p := PState.new) (bs := []) (on := true)
    (st := { st with names := (st.names.internFile name).2 }) hj hc.free rfl rfl rfl rfl
    hch hw' (by rw [hvars]; exact hv)
  exact ⟨st', h4 _ _ (hp _ _ g1), g6, g7, g8, g5⟩

private theorem off_until_cond {post : List MLine} (h : ∀ x ∈ post, ∀ c, x ≠ .cond c) {v : Vars} {bs : List Branch} :
    SwitchRun false v bs post false v bs := by
  induction post with
  | nil => exact .nil
  | cons x post ih =>
    have ih := ih fun y hy => h y (by simp [hy])
    cases x with
    | blank => exact .blank ih
    | assign a => exact .skipAssign ih
    | cond c => exact absurd rfl (h _ (by simp) c)
    | other => exact .skip ih

private theorem SwitchRun.trans {on on1 on' : Bool} {v v1 v' : Vars} {bs bs1 bs' : List Branch} {l l' : List MLine}
    (h : SwitchRun on v bs l on1 v1 bs1) (h' : SwitchRun on1 v1 bs1 l' on' v' bs') :
    SwitchRun on v bs (l ++ l') on' v' bs' := by
  induction h with
  | nil => exact h'
  | blank _ ih => exact .blank (ih h')
  | assign hv _ ih => exact .assign hv (ih h')
  | skipAssign _ ih => exact .skipAssign (ih h')
  | skip _ ih => exact .skip (ih h')
  | test h1 h2 h3 _ ih => exact .test h1 h2 h3 (ih h')
  | else_ h1 _ ih => exact .else_ h1 (ih h')
  | endif _ ih => exact .endif (ih h')

/-- So everything is lost between an `endif` that closes a branch not taken and the next conditional (or the end of the
file): whatever stands there, the variables are those before the `endif`. -/
theorem C42_rest_lost (fs : Fs) {text name : Str} {st : St} {pre post : List MLine} {v : Vars} {bs : List Branch}
    {b : Branch} (ht : AsciiS text) {body : List LChar}
    (hc : Headed (locate (.source 1 1 (st.names.internFile name).1) text) body) (hch : isAscii st.commandChar = true) (hw : st.WF)
    (hl : MakeText body (pre ++ .cond .endif :: post)) (hv : SwitchRun true st.vars [] pre false v (bs ++ [b]))
    (hp : ∀ x ∈ post, ∀ c, x ≠ .cond c) : ∃ st', FileGives fs name text st st' ∧ st'.vars = v := by
  obtain ⟨st', h1, h2, _⟩ := C42_files_exact fs ht hc hch hw hl (hv.trans (.endif (off_until_cond hp)))
  exact ⟨st', h1, h2⟩

/-- As long as no `endif` would have to turn processing on again, this is what conditionals mean. -/
theorem C42_agrees_partial {v v' : Vars} {bs bs' : List Branch} {l : List MLine} (h : CondRun NoSwitch v bs l v' bs') :
    ∀ on, (on = true ↔ AllTaken bs) → ∃ on', (on' = true ↔ AllTaken bs') ∧ SwitchRun on v bs l on' v' bs' := by
  classical
  induction h with
  | nil => intro on ho; exact ⟨on, ho, .nil⟩
  | blank _ ih =>
    intro on ho
    obtain ⟨on', h1, h2⟩ := ih on ho
    exact ⟨on', h1, .blank h2⟩
  | assign ha hv _ ih =>
    intro on ho
    cases ho.mpr ha
    obtain ⟨on', h1, h2⟩ := ih true ho
    exact ⟨on', h1, .assign hv h2⟩
  | skipAssign ha _ ih =>
    intro on ho
    cases on with
    | true => exact absurd (ho.mp rfl) ha
    | false =>
      obtain ⟨on', h1, h2⟩ := ih false ho
      exact ⟨on', h1, .skipAssign h2⟩
  | skip ha _ ih =>
    intro on ho
    cases on with
    | true => exact absurd (ho.mp rfl) ha
    | false =>
      obtain ⟨on', h1, h2⟩ := ih false ho
      exact ⟨on', h1, .skip h2⟩
  | test hx hy _ ih =>
    intro on _
    obtain ⟨on', h1, h2⟩ := ih _ decide_eq_true_iff
    exact ⟨on', h1, .test hx hy decide_eq_true_iff h2⟩
  | else_ _ ih =>
    intro on _
    obtain ⟨on', h1, h2⟩ := ih _ decide_eq_true_iff
    exact ⟨on', h1, .else_ decide_eq_true_iff h2⟩
  | @endif _ _ bs _ b _ hok _ ih =>
    intro on ho
    obtain ⟨on', h1, h2⟩ := ih on (ho.trans ⟨fun h x hx => h x (by simp [hx]), fun h => by
      rcases hok with hb | hb
      · intro x hx
        rcases List.mem_append.mp hx with hx | hx
        · exact h x hx
        · cases List.mem_singleton.mp hx; exact hb
      · exact absurd h hb⟩)
    exact ⟨on', h1, .endif h2⟩

/-- `y` is lost; the next conditional turns processing on again, and `z` is set. -/
example (fs : Fs) : ∃ st' lv, FileGives fs "Makefile".toList "ifeq (a,b)\nendif\ny=2\nifeq (a,a)\nendif\nz=3\n".toList St.init st' ∧
    st'.vars ['y'] = none ∧ st'.vars ['z'] = some (.recursive, Expr.text (locate lv ['3'])) := by
  obtain ⟨lz, f6⟩ := makeText_assign (l := .source 6 1 ⟨0⟩) (line := "z=3".toList) (name := ['z']) (value := ['3'])
    (rest := []) rfl (by decide) (by simp) (by decide) (by unfold condWords; decide) (by decide) (by decide)
    (by unfold NameChar; decide) (by simp) .nil
  have f5 := makeText_cond (l := .source 5 1 ⟨0⟩) (line := "endif".toList) (rest := "z=3\n".toList) (by decide) (by simp)
    (by decide) condText_endif f6
  obtain ⟨m1, m2, e4⟩ := condText_test (l := .source 4 1 ⟨0⟩) (kw := "ifeq".toList) (a := ['a']) (b := ['a'])
    (inverted := false) (by decide) (by decide) (by decide)
  have f4 := makeText_cond (line := "ifeq (a,a)".toList) (by decide) (by simp) (by decide) e4 f5
  obtain ⟨ly, f3⟩ := makeText_assign (l := .source 3 1 ⟨0⟩) (line := "y=2".toList) (name := ['y']) (value := ['2'])
    rfl (by decide) (by simp) (by decide) (by unfold condWords; decide) (by decide) (by decide)
    (by unfold NameChar; decide) (by simp) f4
  have f2 := makeText_cond (l := .source 2 1 ⟨0⟩) (line := "endif".toList) (by decide) (by simp)
    (by decide) condText_endif f3
  obtain ⟨l1, l2, e1⟩ := condText_test (l := .source 1 1 ⟨0⟩) (kw := "ifeq".toList) (a := ['a']) (b := ['b'])
    (inverted := false) (by decide) (by decide) (by decide)
  have f1 := makeText_cond (line := "ifeq (a,b)".toList) (by decide) (by simp) (by decide) e1 f2
  obtain ⟨st', h1, h2, _⟩ := C42_files_exact fs (text := "ifeq (a,b)\nendif\ny=2\nifeq (a,a)\nendif\nz=3\n".toList)
    (name := "Makefile".toList) (st := St.init) (by unfold AsciiS; decide) (.none (free_locate (by decide))) rfl St.init_wf f1
    (.test (on1 := false) (Expands.text _ _) (Expands.text _ _) ⟨nofun, fun h => by
        have := h _ (List.mem_append_right _ (List.mem_singleton_self _))
        simp at this
        exact absurd this (by decide)⟩
      (.endif (bs := []) (.skipAssign (.test (on1 := true) (Expands.text _ _) (Expands.text _ _) ⟨fun _ => by
          intro b hb
          simp at hb
          subst hb
          decide, fun _ => rfl⟩
        (.endif (bs := []) (.assign (.recursive (denotes_locate (by decide)) .nil) .nil))))))
  refine ⟨st', lz, h1, ?_, by rw [h2]; rfl⟩
  rw [h2]
  rfl

end Hastur
