import Verif.Spec.Does
import Verif.Proofs.Program
import Verif.Proofs.Include
import Verif.Proofs.EvalLine
import Verif.Proofs.Trailed
/-
Lemmas: what the program does with whole makefiles, those that include others among them (C42, C43, C44, C62).
-/
namespace Hastur

open Res Span

theorem MakeState.close_none {m : MakeState} (h : m.current = none) : m.close = m := by
  unfold MakeState.close; rw [h]

/-- One line. -/
theorem line_does (fs : Fs) {P : Block} {i : Span} {t : List LChar} (hP : P.content.length ≤ 1) (hm : Block.Mono P)
    {on on1 : Bool} {m m1 : MakeState} {p : PState} {st : St}
    {rest : List LChar} (hl : LineDoes st.commandChar on m t rest on1 m1) (hR : ReflectsIf (on = true) m p st) (h : i.At P t)
    (hf : Free '#' t) (hch : isAscii st.commandChar = true) :
    Steps (on1 = true) fs P i p st rest m1 ∧ rest <:+ t ∧ rest.length < t.length := by
  cases hl with
  | effective h0 hl hb => exact line_effective fs hP hm rfl hl h0 hb rfl hR h hf hch
  | blank hne hl ho =>
    refine ⟨?_, hl.suffix, hl.lt hne⟩
    obtain ⟨j, hj, e⟩ := parseLine_blank fs (recF fs 0) h hl hf hR.define hch (hR.outside ho)
    exact ⟨p, st, ⟨0, j, hj, fun n _ => (parseLine_le (recF_le fs (Nat.zero_le n)) fs p st i).ok e⟩, hR, rfl⟩
  | recipe hm' hr he => exact ⟨steps_recipe fs hP hm hR h hf hch hm' hr he, hr.suffix, hr.lt⟩
  | skip h2 h3 h4 h5 => exact ⟨steps_skip fs hP hm hR h hf hch (by simp) h2 h4 h5, h2.suffix, h2.lt (h2.ne_nil h3)⟩
  | test h1 h2 h3 h4 h5 hon =>
    exact ⟨steps_test fs hP hm hR h hf hch h1 h2 h3 h4 h5 hon, h2.suffix, h2.lt (h2.ne_nil h3.ne_nil)⟩
  | else_ h1 h2 h3 h4 hon =>
    exact ⟨steps_else fs hP hm hR h hf hch h1 h2 h3 h4 hon, h2.suffix, h2.lt (h2.ne_nil h3.ne_nil)⟩
  | endif h1 h2 h3 h4 => exact ⟨steps_endif fs hP hm hR h hf hch h1 h2 h3 h4, h2.suffix, h2.lt (h2.ne_nil h3.ne_nil)⟩

mutual

theorem proc_does (fs : Fs) {c : Char} {on : Bool} {m : MakeState} {t : List LChar} {M : Bool → MakeState → Prop}
    (ha : isAscii c = true) : Does fs c on m t M →
    ∀ (P : Block) (i : Span) (p : PState) (st : St), P.content.length ≤ 1 → Block.Mono P → ReflectsIf (on = true) m p st →
      i.At P t → Free '#' t → st.commandChar = c →
      ∃ on' m' p' q st', M on' m' ∧ Proc fs i p st p' st' ∧ ReflectsIf (on' = true) m' q st' ∧ st'.commandChar = c
  | .nil hM => fun P i p st _ _ hR h _ hc => ⟨on, m, p, p, st, hM, .done (by rw [h.length]; rfl), hR, hc⟩
  | .line hl hn => fun P i p st hP hm hR h hf hc => by
    rw [← hc] at hl
    obtain ⟨⟨p1, st1, ⟨N, j, hj, e⟩, k1, k2⟩, k3, k4⟩ := line_does fs hP hm hl hR h hf (hc ▸ ha)
    obtain ⟨on', m', p', q, st', g0, g1, g2, g3⟩ := proc_does fs ha hn _ _ _ _ hP hm k1 hj (hf.of_suffix k3) (k2.trans hc)
    exact ⟨on', m', p', q, st', g0, .trans N h hj k4 e g1, g2, g3⟩
  | .define h2 h3 h4 h5 h6 hn => fun P i p st hP hm hR h hf hc => by
    rw [← hc] at h2
    obtain ⟨j, p1, st1, k1, k2, k3, k4, k5⟩ := steps_define fs hP hm hR h hf (hc ▸ ha) rfl h2 h3 h4 h5 h6
    obtain ⟨on', m', p', q, st', g0, g1, g2, g3⟩ := proc_does fs ha hn _ _ _ _ hP hm k4 k2 (hf.of_suffix k3) (k5.trans hc)
    exact ⟨on', m', p', q, st', g0, k1.proc g1, g2, g3⟩
  | .openDefine h2 h3 h4 h5 h6 hM => fun P i p st hP hm hR h hf hc => by
    rw [← hc] at h2
    obtain ⟨d, hcol⟩ := many_openBody fs hP hm h5
    obtain ⟨j, p1, st1, x, k1, k2, _, k4, k5⟩ := steps_define_of fs hR
      (AtLine.found ⟨hP, hm, h, h3, hf, hR.define, hc ▸ ha, hR.wf⟩) rfl h2 (h3.lt (h3.ne_nil h4.dropBlanks.2.1))
      (hf.of_suffix h3.suffix) (fun hj => ⟨_, hj, id⟩) h4 hcol h6
    exact ⟨true, _, _, p1, st1, hM, k1.proc (.done (by rw [k2.length]; rfl)), k4, k5.trans hc⟩
  | .include_ h2 h3 h4 h5 h6 h7 h8 h9 hn => fun P i p st hP hm hR h hf hc => by
    rw [← hc] at h2
    rename_i vs _
    obtain ⟨j, a, e1, e2, e3, e4⟩ := parseLine_include fs ⟨hP, hm, h, h3, hf, hR.define, hc ▸ ha, hR.wf⟩ (hR.outside h2)
      (hR.active rfl) h4 h5 h6
    obtain ⟨p1, st1, cs, c1, c2, c3, c4, c5, c6, c7, c8, c9, c10, c11⟩ := hR.close
    obtain ⟨m1, st2, g0, g1, g2, g3⟩ := reads_does fs ha h9 _ _ (c2.interned vs) (c5.trans hc)
    obtain ⟨N, hN⟩ := handleInclude_files (fs := fs) e2 c2.wf (by rw [c2.env, c11, e3]; exact h7) h8 g1
    obtain ⟨on', m', p', q, st', k0, k1, k2, k3⟩ := proc_does fs ha (hn m1 g0) _ _ _ _ hP hm g2 e1 (hf.of_suffix h3.suffix) g3
    refine ⟨on', m', p', q, st', k0, .trans N h e1 (h3.lt (h3.ne_nil h4.dropBlanks.2)) (fun n hle => ?_) k1, k2, k3⟩
    rw [e4, c1]
    show (handleInclude fs (recF fs n) _ a st1).bind _ = _
    rw [hN n hle]
    rfl
  | .eval h2 h3 h5 h6 h7 h8 hM hn => fun P i p st hP hm hR h hf hc => by
    rename_i arg
    rw [← hc] at h2
    have hsuf : arg <:+: t := by
      cases h5 with
      | mk _ _ _ _ _ =>
        cases h6 with
        | @mk l l' l'' kw gap _ _ _ _ _ _ _ => exact ⟨_ ++ ('$', l) :: ('(', l') :: (kw ++ gap), (')', l'') :: _, by simp; rfl⟩
    have hfa : Free '#' arg := fun x hx => hf x (hsuf.subset hx)
    have hfs : AsciiS (textOf arg) := fun x hx => h.ascii x ((hsuf.map Prod.fst).subset hx)
    have hloc : arg ≠ [] → ∃ l s, arg = locate l s := fun h0 => by
      have hne : t ≠ [] := fun e => h0 (by rw [e] at hsuf; exact List.infix_nil.mp hsuf)
      obtain ⟨l, s, rfl⟩ := h.located hm hP hne
      exact infix_locate hsuf
    obtain ⟨a, cb, g1, g2, g3, g4, g5, g6, _⟩ := evalText fs h8 hloc hfs
    obtain ⟨w, w1, w2, w3, w4, w5, w6⟩ := evalCall_block g2
    have hat := Block.span_at w3 w4
    have hat' := hat
    rw [w2, g5] at hat'
    obtain ⟨on1, m1, p1, q1, st1, k0, k1, k2, k3⟩ := proc_does fs ha hM _ _ PState.new st w5 (w6 g3 g4)
      ⟨hR.vars, hR.rules, rfl, by simp [PState.new], rfl, .none, hR.wf, hR.known⟩ hat' hfa hc
    obtain ⟨N, j, j1, j2⟩ := parseLine_eval fs ⟨hP, hm, h, h5.logical, hf, hR.define, hc ▸ ha, hR.wf⟩ h5 (hR.outside h2) (hR.active rfl)
      (hc ▸ h3) h7 h6 g1 (fun l => evalCall_ok (g6 st) w1 hat k1 l)
    have hR' : ReflectsIf (true = true) { m with vars := m1.vars, rules := m1.rules } p st1 := by
      obtain ⟨d1, d2, d3, d4, d5, d6, d7, d8⟩ := hR
      exact ⟨k2.vars, k2.rules, d3, d4, d5, d6, k2.wf, k2.known⟩
    obtain ⟨p2, st2, cs, c1, c2, c3, c4, c5, _⟩ := hR'.close
    obtain ⟨on', m', p', q, st', q0, q1, q2, q3⟩ := proc_does fs ha (hn on1 m1 k0) _ _ _ _ hP hm c2 j1
      (hf.of_suffix h5.logical.suffix) (c5.trans k3)
    refine ⟨on', m', p', q, st', q0, .trans N h j1 (h5.lt (by cases h6; simp)) (fun n hle => ?_) q1, q2, q3⟩
    rw [j2 n hle, c1]
    rfl

theorem proc_file (fs : Fs) {c : Char} {m : MakeState} {t : List LChar} {M : Bool → MakeState → Prop}
    (ha : isAscii c = true) : DoesFile fs c m t M →
    ∀ (P : Block) (i : Span) (p : PState) (st : St), P.content.length ≤ 1 → Block.Mono P → ReflectsIf (true = true) m p st →
      AllTaken m.branches → i.At P t → st.commandChar = c →
      ∃ on' m' p' q st', M on' m' ∧ Proc fs i p st p' st' ∧ ReflectsIf (on' = true) m' q st' ∧ st'.commandChar = c
  | .plain hf hM => fun P i p st hP hm hR hA h hc => proc_does fs ha hM _ _ _ _ hP hm hR h hf hc
  | .commented hb hu hM => fun P i p st hP hm hR hA h hc => by
    obtain ⟨j, hj, hp⟩ := parseLine_swallowed hb hu h
    obtain ⟨on', m', p', q, st', g0, g1, g2, g3⟩ := proc_does fs ha hM _ _ _ _ hP hm hR hj hu.free hc
    refine ⟨on', m', p', q, st', g0, .trans 0 h hj ?_ (fun n _ => hp fs _ p st) g1, g2, g3⟩
    have := hu.suffix.2
    simp only [List.length_append]
    omega
  | .trailed hl hon hn => fun P i p st hP hm hR hA h hc => by
    rw [← hc] at hl
    have hR' : Reflects m p st := by
      unfold Reflects
      rw [eq_true hA]
      rwa [eq_self] at hR
    obtain ⟨k1, j, p1, st1, k2, k3, k4, k5⟩ := trailed_steps fs hP hm hA hl hR' h (hc ▸ ha)
    unfold Reflects at k3
    rw [← hon] at k3
    obtain ⟨on', m', p', q, st', g0, g1, g2, g3⟩ := proc_does fs ha hn _ _ _ _ hP hm k3 k2 k1 (k4.trans hc)
    exact ⟨on', m', p', q, st', g0, k5 _ _ g1, g2, g3⟩
  | .trailedOpen h2 h3 h4 h5 h6 hM => fun P i p st hP hm hR hA h hc => by
    rw [← hc] at h2
    obtain ⟨d, hcol⟩ := many_openBody fs hP hm h5
    obtain ⟨u, hF, f1, f3⟩ := h3.found h4.dropBlanks.2.1 hP hm h hR.define (hc ▸ ha) hR.wf
    obtain ⟨j, p1, st1, x, k1, k2, _, k4, k5⟩ := steps_define_of fs hR hF rfl h2 f3 f1.free (fun {j} hj => by
      obtain ⟨j', hj', e'⟩ := parseLine_swallowed (bl := []) (by intro x hx; cases hx) f1 hj
      exact ⟨j', hj', fun hp => .step 0 (by rw [hj.length, hj'.length]; exact f1.suffix.2) (fun n _ => e' fs _ _ _) hp⟩)
      h4 hcol h6
    exact ⟨true, _, _, p1, st1, hM, k1.proc (.done (by rw [k2.length]; rfl)), k4, k5.trans hc⟩
  | .trailedInclude h2 h3 h4 h5 h6 h7 h8 h9 hn => fun P i p st hP hm hR hA h hc => by
    rw [← hc] at h2
    rename_i vs _
    obtain ⟨u, hF, f1, f3⟩ := h3.found h4.dropBlanks.2 hP hm h hR.define (hc ▸ ha) hR.wf
    obtain ⟨j, a, e1, e2, e3, e4⟩ := parseLine_include_of fs hF (hR.outside h2) (hR.active rfl) h4 h5 h6
    obtain ⟨p1, st1, cs, c1, c2, c3, c4, c5, c6, c7, c8, c9, c10, c11⟩ := hR.close
    obtain ⟨m1, st2, g0, g1, g2, g3⟩ := reads_does fs ha h9 _ _ (c2.interned vs) (c5.trans hc)
    obtain ⟨N, hN⟩ := handleInclude_files (fs := fs) e2 c2.wf (by rw [c2.env, c11, e3]; exact h7) h8 g1
    obtain ⟨j', hj', e'⟩ := parseLine_swallowed (bl := []) (by intro x hx; cases hx) f1 e1
    obtain ⟨on', m', p', q, st', k0, k1, k2, k3⟩ := proc_does fs ha (hn m1 g0) _ _ _ _ hP hm g2 hj' f1.free g3
    refine ⟨on', m', p', q, st', k0, .trans N h e1 f3 (fun n hle => ?_)
      (.trans 0 e1 hj' f1.suffix.2 (fun n _ => e' fs _ _ _) k1), k2, k3⟩
    rw [e4, c1]
    show (handleInclude fs (recF fs n) _ a st1).bind _ = _
    rw [hN n hle]
    rfl

theorem reads_does (fs : Fs) {c : Char} {m : MakeState} {soft : Bool} {names : List Str} {M : MakeState → Prop}
    (ha : isAscii c = true) : DoesRead fs c soft names m M →
    ∀ (p : PState) (st : St), ReflectsIf (true = true) m p st → st.commandChar = c →
      ∃ m' st', M m' ∧ Includes fs soft names st none st' ∧ ReflectsIf (true = true) m' p st' ∧ st'.commandChar = c
  | .done hM => fun p st hR hc => ⟨m, st, hM, .done, hR, hc⟩
  | .skip hf hn => fun p st hR hc => by
    obtain ⟨m', st', g0, g1, g2, g3⟩ := reads_does fs ha hn _ _ hR hc
    exact ⟨m', st', g0, .skip rfl hf g1, g2, g3⟩
  | .file (f := f) (s := s) hf hs hM hn => fun p st hR hc => by
    obtain ⟨P, i, h1, h2, h3, h4⟩ := read_of_proc (fs := fs) (name := f) (st := st) hs
    have hcs : ({ st with names := (st.names.internFile f).2 } : St).names = st.names.after [.file f] := rfl
    have hlk : St.lookup { st with names := (st.names.internFile f).2 } = st.lookup := hR.wf.lookup_after rfl hcs
    have hR' : ReflectsIf (true = true) ⟨m.vars, m.rules, [], none⟩ PState.new { st with names := (st.names.internFile f).2 } := by
      refine ⟨by rw [vars_of_lookup hlk, hR.vars], ?_, rfl, by simp [PState.new], rfl, .none,
        hR.wf.after rfl hcs, hR.known.after [.file f]⟩
      rw [← hR.rules]
      exact hR.known.table_after [.file f]
    obtain ⟨on1, m1, p1, q1, st1, g0, g1, g2, g3⟩ := proc_file fs ha (hM _) _ _ _ _ h1 h2 hR' (by simp [AllTaken]) h3 hc
    obtain ⟨m', st', k0, k1, k2, k3⟩ := reads_does fs ha (hn _ on1 m1 g0) p st1 (by
      obtain ⟨d1, d2, d3, d4, d5, d6, d7, d8⟩ := hR
      exact ⟨g2.vars, g2.rules, d3, d4, d5, d6, g2.wf, g2.known⟩) g3
    exact ⟨m', st', k0, .file hf (h4 _ _ g1) k1, k2, k3⟩

end

/-- A whole makefile. -/
theorem file_does (fs : Fs) {text name : Str} {st : St} {M : Bool → MakeState → Prop} (ht : AsciiS text)
    (hch : isAscii st.commandChar = true) (hw : st.WF) (hk : RulesKnown st.db st.names)
    (hl : DoesFile fs st.commandChar ⟨st.vars, st.ruleTable, [], none⟩
      (locate (.source 1 1 (st.names.internFile name).1) text) M) :
    ∃ on' m' q st', M on' m' ∧ FileGives fs name text st st' ∧ ReflectsIf (on' = true) m' q st' ∧
      st'.commandChar = st.commandChar := by
  obtain ⟨P, i, h1, h2, h3, h4⟩ := read_of_proc (fs := fs) (name := name) (st := st) ht
  have hcs : ({ st with names := (st.names.internFile name).2 } : St).names = st.names.after [.file name] := rfl
  have hlk : St.lookup { st with names := (st.names.internFile name).2 } = st.lookup := hw.lookup_after rfl hcs
  have hR : ReflectsIf (true = true) ⟨st.vars, st.ruleTable, [], none⟩ PState.new { st with names := (st.names.internFile name).2 } := by
    refine ⟨vars_of_lookup hlk, ?_, rfl, by simp [PState.new], rfl, .none, hw.after rfl hcs,
      hk.after [.file name]⟩
    exact hk.table_after [.file name]
  obtain ⟨on', m', p', q, st', g0, g1, g2, g3⟩ := proc_file fs hch hl _ _ _ _ h1 h2 hR (by simp [AllTaken]) h3 rfl
  exact ⟨on', m', q, st', g0, h4 _ _ g1, g2, g3⟩

/-! ### Where the program does what makefiles mean -/

theorem LineMeans.weaken {c : Char} {ok ok' : List Branch → Branch → Prop} (hok : ∀ bs b, ok bs b → ok' bs b)
    {m m1 : MakeState} {t rest : List LChar} (h : LineMeans c ok m t rest m1) : LineMeans c ok' m t rest m1 := by
  cases h with
  | blank a b d => exact .blank a b d
  | assign h1 h2 h3 h4 h5 h6 h7 h8 h9 => exact .assign h1 h2 h3 h4 h5 h6 h7 h8 h9
  | rule h1 h2 h3 h4 h5 h6 h7 h8 h9 h10 h11 h12 h13 h14 => exact .rule h1 h2 h3 h4 h5 h6 h7 h8 h9 h10 h11 h12 h13 h14
  | escapedRule h1 h2 h3 h4 h5 h6 h7 h8 h9 h10 h11 h12 => exact .escapedRule h1 h2 h3 h4 h5 h6 h7 h8 h9 h10 h11 h12
  | continuedRule h1 h2 h3 h4 h5 h6 h7 h8 h9 h10 h11 h12 h13 h14 =>
    exact .continuedRule h1 h2 h3 h4 h5 h6 h7 h8 h9 h10 h11 h12 h13 h14
  | noTargets h1 h2 h3 h4 h5 => exact .noTargets h1 h2 h3 h4 h5
  | recipe h1 h2 h3 h4 => exact .recipe h1 h2 h3 h4
  | skip h1 h2 h3 h4 h5 => exact .skip h1 h2 h3 h4 h5
  | test h1 h2 h3 h4 h5 => exact .test h1 h2 h3 h4 h5
  | else_ h1 h2 h3 h4 => exact .else_ h1 h2 h3 h4
  | endif h1 h2 h3 h4 h5 => exact .endif h1 h2 h3 h4 (hok _ _ h5)

theorem line_agrees {c : Char} {m m1 : MakeState} {t rest : List LChar} (h : LineMeans c NoSwitch m t rest m1) {on : Bool}
    (ho : on = true ↔ AllTaken m.branches) :
    ∃ on1, (on1 = true ↔ AllTaken m1.branches) ∧ LineDoes c on m t rest on1 m1 := by
  classical
  have key : AllTaken m.branches → m1.branches = m.branches → ∃ on1, (on1 = true ↔ AllTaken m1.branches) ∧
      LineDoes c on m t rest on1 m1 := fun ha hb => by
    cases ho.mpr ha
    refine ⟨true, by rw [hb]; exact ho, ?_⟩
    have := LineDoes.effective (bs := m.branches) ha (h.weaken fun _ _ _ => trivial) hb
    rw [← hb] at this
    rw [show m = { m with branches := m1.branches } by rw [hb]]
    exact this
  cases h with
  | blank hne hl ho' => exact ⟨on, ho, .blank hne hl ho'⟩
  | assign h1 => exact key h1 m.close_branches
  | rule h1 => exact key h1 m.close_branches
  | escapedRule h1 => exact key h1 m.close_branches
  | continuedRule h1 => exact key h1 m.close_branches
  | noTargets h1 => exact key h1 m.close_branches
  | recipe _ ha => exact key ha rfl
  | skip h1 h2 h3 h4 h5 =>
    cases on with
    | true => exact absurd (ho.mp rfl) h1
    | false => exact ⟨false, ho, .skip h2 h3 h4 h5⟩
  | test h1 h2 h3 h4 h5 => exact ⟨_, decide_eq_true_iff, .test h1 h2 h3 h4 h5 decide_eq_true_iff⟩
  | else_ h1 h2 h3 h4 => exact ⟨_, decide_eq_true_iff, .else_ h1 h2 h3 h4 decide_eq_true_iff⟩
  | endif h1 h2 h3 h4 hok =>
    refine ⟨on, ho.trans ?_, .endif h1 h2 h3 h4⟩
    rw [h4]
    exact hok.allTaken

theorem Headed.doesFile {fs : Fs} {c : Char} {m : MakeState} {t body : List LChar} {M : Bool → MakeState → Prop}
    (h : Headed t body) (hm : Does fs c true m body M) : DoesFile fs c m t M := by
  cases h with
  | none hf => exact .plain hf hm
  | comments hc hf =>
    obtain ⟨bl, u, rfl, hb, hu⟩ := hc.swallowed hf
    exact .commented hb hu hm

/-- At the end of an included file no rule is open. -/
def NoOpenRule (m : MakeState) : Prop := m.current = none

mutual

theorem means_does {fs : Fs} {c : Char} {m : MakeState} {t : List LChar} {M : MakeState → Prop} :
    Means fs c NoSwitch NoOpenRule m t M → ∀ on : Bool, (on = true ↔ AllTaken m.branches) →
      Does fs c on m t (fun on' m' => (on' = true ↔ AllTaken m'.branches) ∧ M m')
  | .nil hM => fun on ho => .nil ⟨ho, hM⟩
  | .line hl hn => fun on ho => by
    obtain ⟨on1, h1, h2⟩ := line_agrees hl ho
    exact .line h2 (means_does hn on1 h1)
  | .define h1 h2 h3 h4 h5 h6 hn => fun on ho => by
    cases ho.mpr h1
    exact .define h2 h3 h4 h5 h6 (means_does hn true (by
      show _ ↔ AllTaken m.close.branches
      rw [MakeState.close_branches]; exact ho))
  | .include_ h1 h2 h3 h4 h5 h6 h7 h8 h9 hn => fun on ho => by
    cases ho.mpr h1
    exact .include_ h2 h3 h4 h5 h6 h7 h8.names (means_reads h9) (fun m1 hm1 => means_does (hn m1 hm1.2) true (by
      rw [hm1.1, MakeState.close_branches]; exact ho))
  | .eval h1 h2 h3 h4 h5 h6 h7 h8 hM he hn => fun on ho => by
    cases ho.mpr h1
    have hcn := MakeState.close_none h4
    refine .eval h2 h3 h5 h6 h7 h8 (by
      have := means_does hM true (by simp [AllTaken])
      rw [hcn] at this
      exact this) (fun on1 m1 hm1 => ?_)
    have := means_does (hn m1 hm1.2) true (by
      show _ ↔ AllTaken m.close.branches
      rw [MakeState.close_branches]; exact ho)
    rw [hcn, MakeState.close_none (he m1 hm1.2).2] at this
    rw [MakeState.close_none (by exact h4)]
    exact this

theorem means_reads {fs : Fs} {c : Char} {m : MakeState} {soft : Bool} {names : List Str} {M : MakeState → Prop} :
    Reading fs c NoSwitch NoOpenRule soft names m M →
      DoesRead fs c soft names m (fun m' => m'.branches = m.branches ∧ M m')
  | .done hM => .done ⟨rfl, hM⟩
  | .skip hf hn => .skip hf (means_reads hn)
  | .file hf hs hh hM he hn => by
    refine .file hf hs (fun h => (hh h).doesFile (means_does (hM h) true (by simp [AllTaken]))) (fun h on1 m1 hm1 => ?_)
    have := means_reads (hn h m1 hm1.2)
    rw [MakeState.close_none (he h m1 hm1.2).2] at this
    exact this

end

theorem Does.weaken {fs : Fs} {c : Char} {on : Bool} {m : MakeState} {t : List LChar} {M M' : Bool → MakeState → Prop} :
    Does fs c on m t M → (∀ on m, M on m → M' on m) → Does fs c on m t M'
  | .nil hM, h => .nil (h _ _ hM)
  | .line hl hn, h => .line hl (hn.weaken h)
  | .define h2 h3 h4 h5 h6 hn, h => .define h2 h3 h4 h5 h6 (hn.weaken h)
  | .openDefine h2 h3 h4 h5 h6 hM, h => .openDefine h2 h3 h4 h5 h6 (h _ _ hM)
  | .include_ h2 h3 h4 h5 h6 h7 h8 h9 hn, h => .include_ h2 h3 h4 h5 h6 h7 h8 h9 (fun m1 hm => (hn m1 hm).weaken h)
  | .eval h2 h3 h5 h6 h7 h8 hM hn, h => .eval h2 h3 h5 h6 h7 h8 hM (fun on1 m1 hm => (hn on1 m1 hm).weaken h)

end Hastur
