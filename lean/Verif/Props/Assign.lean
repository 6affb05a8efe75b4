import Verif.Proofs.Demo
import Verif.Proofs.Comment
/-
C36, C39, C46, C54, C56: assignments.
-/
namespace Hastur

open Res

private def noFs : Fs := fun _ => .missing

/-- Read a makefile in a fresh engine and expand one variable. -/
private def runVar (n : Nat) (s v : String) : Res (Option Str) := do
  let (_, st) ← readF noFs n (.text s.toList) "Makefile".toList St.init
  let v ← runwrap (st.names.variableName v.toList)
  let (x, _) ← expandF noFs n v st
  return x

/-! ### Assignment lines -/

/-- An assignment line outside rules: the variable that the name denotes gets its new value, and nothing else changes.
(Used for C36, C39, C54 and C56.) -/
private theorem assign_line (fs : Fs) {P : Block} {i : Span} {t line rest name value : List LChar} {p : PState} {st : St}
    {ty : AssignType} (h : Ready P i t line rest p st) (ha : AssignText line name ty value)
    (hc : ¬ CondLike (line.dropWhile lblank)) {nes ves : List Expr} (hn : Reads name (.ok nes))
    (hv : Reads value (.ok ves)) {s : Str} (hd : Denotes st.env nes s)
    (hs : ty = .simple → value ≠ [] ∧ ∃ vt vs, Expands st.env ves vt vs) :
    ∃ st' pv, LineGives fs P i p st rest p st' ∧ st'.WF ∧ Assigned st st' s pv ∧ Stores st s ty ves pv := by
  obtain ⟨nt, ns, he, rfl⟩ := hd
  obtain ⟨N, j, st', pv, hj, h1, h2, h3, h4⟩ := parseLine_assign_plain fs h.pieces h.mono h.at_ h.logical h.comment
    h.define h.active h.command h.rule ha hc hn hv h.wf he hs
  exact ⟨st', pv, ⟨N, j, hj, h4⟩, h1, h2, h3⟩

private theorem lookup_some {st : St} {s : Str} {q : VarParams} (h : st.lookup s = some q) :
    ∃ v, st.names.variableName s = some v ∧ st.db.getVariable v = some q := by
  unfold St.lookup at h
  cases hv : st.names.variableName s with
  | none => rw [hv] at h; cases h
  | some v => rw [hv] at h; exact ⟨v, rfl, h⟩

private theorem expandsTo_of {fs : Fs} {st : St} {s : Str} {q : VarParams} (hst : st.WF) (h : st.lookup s = some q)
    {t : List LChar} {vs : List Str} (he : Expands st.env q.value.flat t vs) : ExpandsTo fs st s (textOf t) := by
  obtain ⟨v, h1, h2⟩ := lookup_some h
  obtain ⟨N, hN⟩ := evals_of_expands fs (hst.values v q h2) hst he
  refine ⟨v, N, h1, fun n hn => ?_⟩
  obtain ⟨b, e1, e2, _, e4, _⟩ := (hN.mono hn).eval
  have hs : b.intoString = .ok (textOf t) := by rw [Block.intoString_eq b e4, Block.text, e2]
  refine ⟨st.interned vs, ?_⟩
  unfold expandF
  simp only [h2]
  rw [show evalF fs n q.value st = _ from e1]
  simp only [ok_bind, hs]
  rfl

/-! ### C36 -/

/-- C36, `:=`: the line stores the text its value has when the line is read.  In every later state in which the variable
has not been assigned again, it expands to this text, whatever the other variables are. -/
theorem C36_simple_frozen (fs : Fs) {P : Block} {i : Span} {t line rest name value : List LChar} {p : PState} {st : St}
    (h : Ready P i t line rest p st) (ha : AssignText line name .simple value) (hne : value ≠ [])
    (hc : ¬ CondLike (line.dropWhile lblank)) {nes ves : List Expr} (hn : Reads name (.ok nes))
    (hv : Reads value (.ok ves)) {s : Str} (hd : Denotes st.env nes s) {vt : List LChar} {vs : List Str}
    (he : Expands st.env ves vt vs) :
    ∃ st', LineGives fs P i p st rest p st' ∧ (∀ x, x ≠ s → st'.lookup x = st.lookup x) ∧
      ∀ later, later.WF → later.lookup s = st'.lookup s → ExpandsTo fs later s (textOf vt) := by
  obtain ⟨st', pv, h1, h2, h3, h4⟩ := assign_line fs h ha hc hn hv hd (fun _ => ⟨hne, vt, vs, he⟩)
  refine ⟨st', h1, h3.others, fun later hw hl => ?_⟩
  cases h4 with
  | simple e1 e2 =>
    obtain ⟨rfl, _⟩ := he.det e1
    rw [h3.now] at hl
    refine expandsTo_of (t := vt) (vs := []) hw hl ?_
    show Expands _ (Expr.text (Block.ltext _)) vt []
    rw [e2]
    exact Expands.text _ _

/-- C36, `=`: the line stores its value unexpanded.  In every later state in which the variable has not been assigned
again, it expands to what the value means there, with the values the other variables have then. -/
theorem C36_recursive_live (fs : Fs) {P : Block} {i : Span} {t line rest name value : List LChar} {p : PState} {st : St}
    (h : Ready P i t line rest p st) (ha : AssignText line name .recursive value)
    (hc : ¬ CondLike (line.dropWhile lblank)) {nes ves : List Expr} (hn : Reads name (.ok nes))
    (hv : Reads value (.ok ves)) {s : Str} (hd : Denotes st.env nes s) :
    ∃ st', LineGives fs P i p st rest p st' ∧ (∀ x, x ≠ s → st'.lookup x = st.lookup x) ∧
      ∀ later vt vs, later.WF → later.lookup s = st'.lookup s → Expands later.env ves vt vs →
        ExpandsTo fs later s (textOf vt) := by
  obtain ⟨st', pv, h1, h2, h3, h4⟩ := assign_line fs h ha hc hn hv hd (by simp)
  refine ⟨st', h1, h3.others, fun later vt vs hw hl he => ?_⟩
  rw [h3.now] at hl
  generalize hes : ves = es at h4
  cases h4
  rw [hes] at he
  exact expandsTo_of hw hl he

/-- C36 for every tree, function calls included: the value that `:=` stores evaluates to the text of the block that was
computed when the line was read, in every state, and evaluating it has no effect. -/
theorem C36_simple_any_value (fs : Fs) (n : Nat) (mods : Modifiers) (i post : Span) (st st1 : St) (v : VariableName)
    (a : Ast) (o : Origin) (h : parseVariableAssignment (recF fs n) mods i st =
      .ok (.done post ⟨v, mods, .define ⟨a, .simple, o⟩⟩, st1)) :
    ∃ (value : Ast) (st0 : St) (b : Block), evalF fs n value st0 = .ok (b, st1) ∧
      (Block.WF b → ∀ m later, 1 ≤ m → ∃ b', evalF fs m a later = .ok (b', later) ∧ Block.ltext b' = Block.ltext b) := by
  unfold parseVariableAssignment at h
  obtain ⟨x, _, h⟩ := bind_eq_ok.mp h
  cases x with
  | err e => cases h
  | done post' y =>
    obtain ⟨ty, na, vspan, va⟩ := y
    obtain ⟨⟨w, st0⟩, _, h⟩ := bind_eq_ok.mp h
    cases ty with
    | simple =>
      obtain ⟨⟨b, st2⟩, hb, h⟩ := bind_eq_ok.mp h
      obtain ⟨l, _, h⟩ := bind_eq_ok.mp h
      obtain ⟨l', _, h⟩ := bind_eq_ok.mp h
      cases h
      refine ⟨va, st0, b, hb, fun hw m later hm => ?_⟩
      obtain ⟨m, rfl⟩ : ∃ k, m = k + 1 := ⟨m - 1, by omega⟩
      obtain ⟨sens, cs⟩ := b
      obtain ⟨b', g1, g2, _⟩ := Block.new_spec (sens := []) (cs := cs) hw
      refine ⟨b', ?_, g2⟩
      show (recF fs (m + 1)).eval _ _ = _
      unfold Rec.eval
      simp only [recF, evalStep, ok_bind, g1]
      rfl
    | recursive => cases h
    | conditional => cases h
    | append => cases h
    | bang => cases h

/-- The state of a running example: `x` is `1`. -/
private def demo : St := St.init.define ['x'] (.constant .synthetic ⟨.synthetic, ['1']⟩)

private theorem demo_wf : demo.WF ∧ ∀ s, demo.env s = if s = ['x'] then some (Expr.text [('1', .synthetic)]) else none :=
  St.init_wf.define (s := ['x']) (f := .recursive) (by show AsciiS _; unfold AsciiS; decide)

private theorem demo_x {l l' : Location} : Expands demo.env [.ref l [.char ('x', l')]] [('1', .synthetic)] [['x']] := by
  have h1 : Expands demo.env [.char ('x', l')] [('x', l')] [] := .char .nil
  have h2 : Expands demo.env (Expr.text [('1', Location.synthetic)]) [('1', .synthetic)] [] := Expands.text _ _
  exact .defined (n := [('x', l')]) h1 not_isSubst_single
    (by rw [demo_wf.2]; rfl) h2 .nil

/-- `a := $x`, read while `x` is `1`: from then on `a` expands to `1` until it is assigned again. -/
example (fs : Fs) (l : Location) : ∃ (P : Block) (rest : List LChar) (st' : St),
    LineGives fs P P.span PState.new demo rest PState.new st' ∧
      ∀ later : St, later.WF → later.lookup ['a'] = st'.lookup ['a'] → ExpandsTo fs later ['a'] ['1'] := by
  have hr : Ready _ _ _ _ _ PState.new demo := ready_locate (l := l) (line := "a := $x".toList) (rest := []) (st := demo)
    (by unfold AsciiS; decide) (by decide) (by decide) (by simp) (by decide) rfl demo_wf.1
  have ha := assignText_locate (l := l) (name := ['a']) (gap := [' ']) (op := [':', '=']) (gap' := [' '])
    (value := ['$', 'x']) (ty := .simple) (by unfold NameChar; decide) (by decide) .simple (by decide) (by simp)
  obtain ⟨st', h1, _, h3⟩ := C36_simple_frozen fs hr ha (by simp [locate])
    (not_condLike_locate (by simp) (by unfold condWords; decide)) (reads_text (free_locate (by decide)))
    (reads_single (by decide) (by decide) (by decide)) (denotes_locate (by decide)) demo_x
  exact ⟨_, _, st', h1, h3⟩

/-- `a = $x`, read while `x` is `1`: `a` expands to whatever `x` is at the time. -/
example (fs : Fs) (l : Location) : ∃ (P : Block) (rest : List LChar) (st' : St),
    LineGives fs P P.span PState.new demo rest PState.new st' ∧
      ∀ (later : St) (vt : List LChar), later.WF → later.lookup ['a'] = st'.lookup ['a'] →
        later.env ['x'] = some (Expr.text vt) → ExpandsTo fs later ['a'] (textOf vt) := by
  have hr : Ready _ _ _ _ _ PState.new demo := ready_locate (l := l) (line := "a = $x".toList) (rest := []) (st := demo)
    (by unfold AsciiS; decide) (by decide) (by decide) (by simp) (by decide) rfl demo_wf.1
  have ha := assignText_locate (l := l) (name := ['a']) (gap := [' ']) (op := ['=']) (gap' := [' '])
    (value := ['$', 'x']) (ty := .recursive) (by unfold NameChar; decide) (by decide) .recursive (by decide) (by simp)
  obtain ⟨st', h1, _, h3⟩ := C36_recursive_live fs hr ha
    (not_condLike_locate (by simp) (by unfold condWords; decide)) (reads_text (free_locate (by decide)))
    (reads_single (by decide) (by decide) (by decide)) (denotes_locate (by decide))
  refine ⟨_, _, st', h1, fun later vt hw hl hx => ?_⟩
  refine h3 later vt [['x']] hw hl ?_
  have := Expands.defined (env := later.env) (l := (((l.after ['a']).after [' ']).after ['=']).after [' '])
    (es := []) (n := [('x', ((((l.after ['a']).after [' ']).after ['=']).after [' ']).after ['$'])])
    (.char .nil) not_isSubst_single hx
    (Expands.text _ vt) .nil
  simpa using this

/-- Both, on whole makefiles. -/
example : runVar 5 "x = 1\na := $(x)\nx = 2\n" "a" = .ok (some ['1']) ∧
    runVar 5 "x = 1\na = $(x)\nx = 2\n" "a" = .ok (some ['2']) := by decide +kernel

/-! ### C39 -/

/-- The full claim: a variable that is defined keeps its value on `name ?= value`. -/
def C39_full : Prop :=
  ∀ (fs : Fs) (P : Block) (i : Span) (t line rest name value : List LChar) (p p' : PState) (st st' : St) (nes ves : List Expr)
    (s : Str) (old : VarParams), Ready P i t line rest p st → AssignText line name .conditional value →
    ¬ CondLike (line.dropWhile lblank) → Reads name (.ok nes) → Reads value (.ok ves) → Denotes st.env nes s →
    st.lookup s = some old → LineGives fs P i p st rest p' st' → st'.lookup s = some old

/-- C39, as far as it holds: `name ?= value` defines a variable that is not defined, with the value unexpanded, and
changes no other variable. -/
theorem C39_defines_undefined_partial (fs : Fs) {P : Block} {i : Span} {t line rest name value : List LChar} {p : PState}
    {st : St} (h : Ready P i t line rest p st) (ha : AssignText line name .conditional value)
    (hc : ¬ CondLike (line.dropWhile lblank)) {nes ves : List Expr} (hn : Reads name (.ok nes))
    (hv : Reads value (.ok ves)) {s : Str} (hd : Denotes st.env nes s) (_hu : st.lookup s = none) :
    ∃ st', LineGives fs P i p st rest p st' ∧ (∃ a, st'.lookup s = some ⟨a, .conditional, .file⟩ ∧ a.flat = ves) ∧
      (∀ x, x ≠ s → st'.lookup x = st.lookup x) ∧ st'.db.rules = st.db.rules := by
  obtain ⟨st', pv, h1, h2, h3, h4⟩ := assign_line fs h ha hc hn hv hd (by simp)
  refine ⟨st', h1, ?_, h3.others, h3.rules⟩
  rw [h3.now]
  generalize hes : ves = es at h4 ⊢
  cases h4
  exact ⟨_, rfl, rfl⟩

/-- What happens to a variable that is defined: it is overwritten, just as with `=`. -/
theorem C39_overwrites_defined (fs : Fs) {P : Block} {i : Span} {t line rest name value : List LChar} {p : PState}
    {st : St} (h : Ready P i t line rest p st) (ha : AssignText line name .conditional value)
    (hc : ¬ CondLike (line.dropWhile lblank)) {nes ves : List Expr} (hn : Reads name (.ok nes))
    (hv : Reads value (.ok ves)) {s : Str} (hd : Denotes st.env nes s) (old : VarParams) (_ho : st.lookup s = some old) :
    ∃ st', LineGives fs P i p st rest p st' ∧ ∃ a, st'.lookup s = some ⟨a, .conditional, .file⟩ ∧ a.flat = ves := by
  obtain ⟨st', pv, h1, h2, h3, h4⟩ := assign_line fs h ha hc hn hv hd (by simp)
  refine ⟨st', h1, ?_⟩
  rw [h3.now]
  generalize hes : ves = es at h4 ⊢
  cases h4
  exact ⟨_, rfl, rfl⟩

private theorem demo_lookup : demo.lookup ['x'] = some ⟨.constant .synthetic ⟨.synthetic, ['1']⟩, .recursive, .file⟩ := rfl

private theorem demo_ready (l : Location) :
    Ready (textBlock l "x ?= 2\n".toList) (textBlock l "x ?= 2\n".toList).span (locate l "x ?= 2\n".toList)
      (locate l "x ?= 2".toList) (locate ((l.after "x ?= 2".toList).after ['\n']) []) PState.new demo :=
  ready_locate (line := "x ?= 2".toList) (rest := []) (by unfold AsciiS; decide) (by decide) (by decide) (by simp)
    (by decide) rfl demo_wf.1

private theorem demo_assign (l : Location) : AssignText (locate l "x ?= 2".toList) (locate l ['x']) .conditional
    (locate ((((l.after ['x']).after [' ']).after ['?', '=']).after [' ']) ['2']) :=
  assignText_locate (name := ['x']) (gap := [' ']) (op := ['?', '=']) (gap' := [' '])
    (value := ['2']) (by unfold NameChar; decide) (by decide) .conditional (by decide) (by simp)

theorem C39_refuted : ¬ C39_full := by
  intro h
  have hc : ¬ CondLike ((locate .synthetic "x ?= 2".toList).dropWhile lblank) :=
    not_condLike_locate (by simp) (by unfold condWords; decide)
  obtain ⟨st', h1, a, h2, _⟩ := C39_overwrites_defined noFs (demo_ready .synthetic) (demo_assign .synthetic)
    hc (reads_text (free_locate (by decide)))
    (reads_text (free_locate (by decide))) (denotes_locate (by decide)) _ demo_lookup
  have := h noFs _ _ _ _ _ _ _ _ _ _ _ _ _ _ _ (demo_ready .synthetic) (demo_assign .synthetic)
    hc (reads_text (free_locate (by decide)))
    (reads_text (free_locate (by decide))) (denotes_locate (by decide)) demo_lookup h1
  rw [h2] at this
  simp at this

/-- The same on a whole makefile. -/
example : runVar 5 "a = 1\na ?= 2\n" "a" = .ok (some ['2']) ∧ runVar 5 "b = 1\na ?= 2\n" "a" = .ok (some ['2']) := by
  decide +kernel

/-- The hypotheses of `C39_defines_undefined_partial` are met by `y ?= 2` in a state without `y`. -/
example (fs : Fs) (l : Location) : ∃ (P : Block) (rest : List LChar) (st' : St),
    LineGives fs P P.span PState.new demo rest PState.new st' ∧
      ∃ a l', st'.lookup ['y'] = some ⟨a, .conditional, .file⟩ ∧ a.flat = Expr.text (locate l' ['2']) := by
  have hr : Ready _ _ _ _ _ PState.new demo := ready_locate (l := l) (line := "y ?= 2".toList) (rest := []) (st := demo)
    (by unfold AsciiS; decide) (by decide) (by decide) (by simp) (by decide) rfl demo_wf.1
  have ha := assignText_locate (l := l) (name := ['y']) (gap := [' ']) (op := ['?', '=']) (gap' := [' '])
    (value := ['2']) (ty := .conditional) (by unfold NameChar; decide) (by decide) .conditional (by decide) (by simp)
  obtain ⟨st', h1, ⟨a, h2, h3⟩, _⟩ := C39_defines_undefined_partial fs hr ha
    (not_condLike_locate (by simp) (by unfold condWords; decide)) (reads_text (free_locate (by decide)))
    (reads_text (free_locate (by decide))) (denotes_locate (by decide)) rfl
  exact ⟨_, _, st', h1, a, _, h2, h3⟩

/-! ### C46 -/

/-- C46, for files whose comments stand at the top, in which no line looks like a conditional and no `:=` has an empty right side:
reading the file carries out the assignments in order.  What that means is the small definition `VarRun`; the rules and
the target-specific variables do not change. -/
theorem C46_assignments_partial (fs : Fs) {text name : Str} {st : St} {l : List Assignment} {v : Vars} (ht : AsciiS text)
    {body : List LChar} (hc : Headed (locate (.source 1 1 (st.names.internFile name).1) text) body) (hch : isAscii st.commandChar = true) (hw : st.WF)
    (hl : AssignFile body l) (hv : VarRun st.vars l v) :
    ∃ st', FileGives fs name text st st' ∧ st'.vars = v ∧ st'.db.rules = st.db.rules ∧
      st'.db.targetVariables = st.db.targetVariables ∧ st'.WF := by
  obtain ⟨P, i, h1, h2, h3, h4⟩ := read_of_proc (fs := fs) (name := name) (st := st) ht
  have hcs : ({ st with names := (st.names.internFile name).2 } : St).names = st.names.after [.file name] := rfl
  have hw' : St.WF { st with names := (st.names.internFile name).2 } := hw.after rfl hcs
  have hlk : St.lookup { st with names := (st.names.internFile name).2 } = st.lookup := hw.lookup_after rfl hcs
  have hvars : St.vars { st with names := (st.names.internFile name).2 } = st.vars := by
    unfold St.vars; rw [hlk]
  obtain ⟨j, hj, hp⟩ := hc.proc h3
  obtain ⟨st', g1, g2, g3, g4, g5, _⟩ := proc_assigns fs h1 h2 hl (p := PState.new)
    (st := { st with names := (st.names.internFile name).2 }) hj hc.free rfl rfl rfl hch hw'
    (by rw [hvars]; exact hv)
  exact ⟨st', h4 _ _ (hp _ _ g1), g3, g4, g5, g2⟩

/-- Variables that no assignment denotes keep their value (a consequence of the definition of `VarRun`). -/
theorem C46_others_unchanged {v v' : Vars} {l : List Assignment} (h : VarRun v l v') {x : Str}
    (hx : ∀ a ∈ l, ∀ env, ¬ Denotes env a.name x) : v' x = v x := by
  induction h with
  | nil => rfl
  | recursive hd _ ih | appendNew hd _ _ ih | conditional hd _ _ ih =>
    rw [ih fun a ha => hx a (List.mem_cons_of_mem _ ha)]
    unfold Vars.set
    rw [if_neg]
    rintro rfl
    exact hx _ List.mem_cons_self _ hd
  | simple hd _ _ ih =>
    rw [ih fun a ha => hx a (List.mem_cons_of_mem _ ha)]
    unfold Vars.set
    rw [if_neg]
    rintro rfl
    exact hx _ List.mem_cons_self _ hd
  | append hd _ _ _ ih =>
    rw [ih fun a ha => hx a (List.mem_cons_of_mem _ ha)]
    unfold Vars.set
    rw [if_neg]
    rintro rfl
    exact hx _ List.mem_cons_self _ hd

private theorem VarRun.split {v v' : Vars} {l₁ l₂ : List Assignment} (h : VarRun v (l₁ ++ l₂) v') :
    ∃ u, VarRun v l₁ u ∧ VarRun u l₂ v' := by
  induction l₁ generalizing v with
  | nil => exact ⟨v, .nil, h⟩
  | cons a l₁ ih =>
    cases h with
    | recursive h1 h =>
      obtain ⟨u, g1, g2⟩ := ih h
      exact ⟨u, .recursive h1 g1, g2⟩
    | simple h1 h2 h =>
      obtain ⟨u, g1, g2⟩ := ih h
      exact ⟨u, .simple h1 h2 g1, g2⟩
    | conditional h1 h2 h =>
      obtain ⟨u, g1, g2⟩ := ih h
      exact ⟨u, .conditional h1 h2 g1, g2⟩
    | appendNew h1 h2 h =>
      obtain ⟨u, g1, g2⟩ := ih h
      exact ⟨u, .appendNew h1 h2 g1, g2⟩
    | append h1 h2 h3 h =>
      obtain ⟨u, g1, g2⟩ := ih h
      exact ⟨u, .append h1 h2 h3 g1, g2⟩

/-- The last assignment of a variable decides: with `=` its value is the expression, with `:=` the expansion that the
expression has with the values the variables have at that point of the file. -/
theorem C46_last_assignment {v v' : Vars} {l₁ l₂ : List Assignment} {name es : List Expr} {x : Str} {ty : AssignType}
    (h : VarRun v (l₁ ++ ⟨name, ty, es⟩ :: l₂) v') (hn : ∀ env s, Denotes env name s ↔ s = x)
    (hx : ∀ a ∈ l₂, ∀ env, ¬ Denotes env a.name x) :
    (ty = .recursive → v' x = some (.recursive, es)) ∧
    (ty = .simple → ∃ u t vs, VarRun v l₁ u ∧ Expands u.env es t vs ∧ v' x = some (.simple, Expr.text t)) := by
  obtain ⟨u, h1, h2⟩ := VarRun.split h
  cases h2 with
  | recursive hd h =>
    have := (hn _ _).mp hd
    subst this
    refine ⟨fun _ => ?_, by simp⟩
    rw [C46_others_unchanged h hx]
    unfold Vars.set
    rw [if_pos rfl]
  | simple hd he h =>
    have := (hn _ _).mp hd
    subst this
    refine ⟨by simp, fun _ => ⟨u, _, _, h1, he, ?_⟩⟩
    rw [C46_others_unchanged h hx]
    unfold Vars.set
    rw [if_pos rfl]
  | conditional => exact ⟨by simp, by simp⟩
  | appendNew => exact ⟨by simp, by simp⟩
  | append => exact ⟨by simp, by simp⟩

/-- The full claim (for `=` only): every assignment line outside rules is read, whatever the name begins with. -/
def C46_full : Prop :=
  ∀ (fs : Fs) (P : Block) (i : Span) (t line rest name value : List LChar) (p : PState) (st : St) (nes ves : List Expr)
    (s : Str), Ready P i t line rest p st → AssignText line name .recursive value →
    Reads name (.ok nes) → Reads value (.ok ves) → Denotes st.env nes s → ∃ p' st', LineGives fs P i p st rest p' st'

/-- Did the line fail for good? -/
private def failed : Res LineOut → Bool
  | .ok (.err (.failure _), _, _) => true
  | _ => false

private theorem failed_iff {x : Res LineOut} (h : failed x = true) : ∃ k p st, x = .ok (.err (.failure k), p, st) := by
  unfold failed at h
  split at h
  · exact ⟨_, _, _, rfl⟩
  · cases h

private theorem elsewhere_fails (n : Nat) : ∃ k p st, parseLine noFs (recF noFs n) PState.new St.init
    (textBlock .synthetic "elsewhere = 1\n".toList).span = .ok (.err (.failure k), p, st) := by
  obtain ⟨k, p, st, h⟩ := failed_iff (x := parseLine noFs (recF noFs 0) PState.new St.init
    (textBlock .synthetic "elsewhere = 1\n".toList).span) (by decide +kernel)
  exact ⟨k, p, st, (parseLine_le (recF_le noFs (Nat.zero_le n)) noFs _ _ _).ok h⟩

theorem C46_refuted : ¬ C46_full := by
  intro h
  have hr : Ready _ _ _ _ _ PState.new St.init := ready_locate (l := .synthetic) (line := "elsewhere = 1".toList)
    (rest := []) (st := St.init) (by unfold AsciiS; decide) (by decide) (by decide) (by simp) (by decide) rfl St.init_wf
  have ha := assignText_locate (l := .synthetic) (name := "elsewhere".toList) (gap := [' ']) (op := ['=']) (gap' := [' '])
    (value := ['1']) (ty := .recursive) (by unfold NameChar; decide) (by decide) .recursive (by decide) (by simp)
  obtain ⟨p', st', N, j, _, h2⟩ := h noFs _ _ _ _ _ _ _ _ _ _ _ _ hr ha (reads_text (free_locate (by decide)))
    (reads_text (free_locate (by decide))) (denotes_locate (by decide))
  have e1 := h2 N (Nat.le_refl _)
  obtain ⟨k, p, st, e2⟩ := elsewhere_fails N
  rw [show (textBlock Location.synthetic ("elsewhere = 1".toList ++ '\n' :: [])).span =
    (textBlock .synthetic "elsewhere = 1\n".toList).span from rfl, e2] at e1
  cases e1

/-- A file with three assignments and an empty line.  The second assignment uses the first variable, the third changes
it. -/
example (fs : Fs) : ∃ st', FileGives fs "Makefile".toList "a = 1\nb := $a\n\na = 2\n".toList St.init st' ∧
    st'.vars ['b'] = some (.simple, Expr.text [('1', .source 1 5 ⟨0⟩)]) ∧
    st'.vars ['a'] = some (.recursive, Expr.text [('2', .source 4 5 ⟨0⟩)]) ∧
    (∀ x, x ≠ ['a'] → x ≠ ['b'] → st'.vars x = none) := by
  have f3 := assignFile_locate (l := .source 4 1 ⟨0⟩) (line := "a = 2".toList) (name := ['a']) (gap := [' ']) (op := ['='])
    (gap' := [' ']) (value := ['2']) (rest := []) (ty := .recursive) rfl (by decide) (by simp) (by decide)
    (by unfold condWords; decide) (by decide) (by unfold NameChar; decide) (by decide) .recursive (by decide) (by simp)
    (by simp) (reads_text (free_locate (by decide))) .nil
  have f2 := assignFile_locate (l := .source 2 1 ⟨0⟩) (line := "b := $a".toList) (name := ['b']) (gap := [' '])
    (op := [':', '=']) (gap' := [' ']) (value := ['$', 'a']) (rest := "\na = 2\n".toList) (ty := .simple) rfl (by decide)
    (by simp) (by decide) (by unfold condWords; decide) (by decide) (by unfold NameChar; decide) (by decide) .simple
    (by decide) (by simp) (by simp) (reads_single (by decide) (by decide) (by decide)) (assignFile_blank f3)
  have f1 := assignFile_locate (l := .source 1 1 ⟨0⟩) (line := "a = 1".toList) (name := ['a']) (gap := [' ']) (op := ['='])
    (gap' := [' ']) (value := ['1']) (rest := "b := $a\n\na = 2\n".toList) (ty := .recursive) rfl (by decide) (by simp)
    (by decide) (by unfold condWords; decide) (by decide) (by unfold NameChar; decide) (by decide) .recursive (by decide)
    (by simp) (by simp) (reads_text (free_locate (by decide))) f2
  have run := VarRun.recursive (v := St.init.vars) (denotes_locate (s := ['a']) (l := .source 1 1 ⟨0⟩) (by decide))
    (VarRun.simple (denotes_locate (s := ['b']) (l := .source 2 1 ⟨0⟩) (by decide))
      (Expands.defined (l := .source 2 6 ⟨0⟩) (n := [('a', .source 2 7 ⟨0⟩)]) (.char .nil) not_isSubst_single
        (by rw [Vars.env_set]; rfl) (Expands.text _ (locate (.source 1 5 ⟨0⟩) ['1'])) .nil)
      (VarRun.recursive (denotes_locate (s := ['a']) (l := .source 4 1 ⟨0⟩) (by decide))
        (.nil (v := (((St.init.vars.set ['a'] .recursive (Expr.text (locate (.source 1 5 ⟨0⟩) ['1']))).set ['b'] .simple
          (Expr.text (locate (.source 1 5 ⟨0⟩) ['1'] ++ []))).set ['a'] .recursive
            (Expr.text (locate (.source 4 5 ⟨0⟩) ['2'])))))))
  obtain ⟨st', h1, h2, _⟩ := C46_assignments_partial fs (text := "a = 1\nb := $a\n\na = 2\n".toList)
    (name := "Makefile".toList) (st := St.init) (by unfold AsciiS; decide) (.none (free_locate (by decide))) rfl St.init_wf f1 run
  refine ⟨st', h1, by rw [h2]; rfl, by rw [h2]; rfl, fun x ha hb => ?_⟩
  rw [h2]
  simp only [Vars.set, if_neg ha, if_neg hb]
  rfl

/-! ### C54 -/

/-- The full claim: `name :=` sets the variable to the empty text. -/
def C54_full : Prop :=
  ∀ (fs : Fs) (P : Block) (i : Span) (t line rest name : List LChar) (p : PState) (st : St) (nes : List Expr) (s : Str),
    Ready P i t line rest p st → AssignText line name .simple [] → ¬ CondLike (line.dropWhile lblank) →
    Reads name (.ok nes) → Denotes st.env nes s →
    ∃ st' pv, LineGives fs P i p st rest p st' ∧ st'.lookup s = some pv ∧ pv.flavor = .simple ∧ pv.value.flat = []

/-- What happens instead, for every name and in every state: the process aborts. -/
theorem C54_always_aborts (fs : Fs) {P : Block} {i : Span} {t line rest name : List LChar} {p : PState} {st : St}
    (h : Ready P i t line rest p st) (ha : AssignText line name .simple []) (hc : ¬ CondLike (line.dropWhile lblank))
    {nes : List Expr} (hn : Reads name (.ok nes)) {s : Str} (hd : Denotes st.env nes s) :
    ∃ N, ∀ n, N ≤ n → parseLine fs (recF fs n) p st i = .panic .unwrap := by
  obtain ⟨nt, ns, he, _⟩ := hd
  exact parseLine_empty_simple fs h.toAtLine h.active (.inl h.rule) ha hc hn he

private theorem empty_ready : Ready (textBlock .synthetic "x :=\n".toList) (textBlock .synthetic "x :=\n".toList).span
    (locate .synthetic "x :=\n".toList) (locate .synthetic "x :=".toList)
    (locate ((Location.synthetic.after "x :=".toList).after ['\n']) []) PState.new demo :=
  ready_locate (line := "x :=".toList) (rest := []) (by unfold AsciiS; decide) (by decide) (by decide) (by simp)
    (by decide) rfl demo_wf.1

private theorem empty_assign : AssignText (locate .synthetic "x :=".toList) (locate .synthetic ['x']) .simple
    (locate ((((Location.synthetic.after ['x']).after [' ']).after [':', '=']).after []) []) :=
  assignText_locate (name := ['x']) (gap := [' ']) (op := [':', '=']) (gap' := [])
    (value := []) (by unfold NameChar; decide) (by decide) .simple (by decide) (by simp)

theorem C54_refuted : ¬ C54_full := by
  intro h
  have hc : ¬ CondLike ((locate .synthetic "x :=".toList).dropWhile lblank) :=
    not_condLike_locate (by simp) (by unfold condWords; decide)
  obtain ⟨N, hN⟩ := C54_always_aborts noFs empty_ready empty_assign hc (reads_text (free_locate (by decide)))
    (denotes_locate (s := ['x']) (by decide))
  obtain ⟨st', pv, ⟨M, j, _, hM⟩, _⟩ := h noFs _ _ _ _ _ _ _ _ _ _ empty_ready empty_assign hc
    (reads_text (free_locate (by decide))) (denotes_locate (s := ['x']) (by decide))
  have e1 := hN (max N M) (by omega)
  rw [hM (max N M) (by omega)] at e1
  cases e1

/-- C54, as far as it holds: when something follows the operator, but expands to nothing, the variable is set to the
empty text. -/
theorem C54_expands_to_nothing_partial (fs : Fs) {P : Block} {i : Span} {t line rest name value : List LChar} {p : PState}
    {st : St} (h : Ready P i t line rest p st) (ha : AssignText line name .simple value) (hne : value ≠ [])
    (hc : ¬ CondLike (line.dropWhile lblank)) {nes ves : List Expr} (hn : Reads name (.ok nes))
    (hv : Reads value (.ok ves)) {s : Str} (hd : Denotes st.env nes s) {vs : List Str} (he : Expands st.env ves [] vs) :
    ∃ st' pv, LineGives fs P i p st rest p st' ∧ st'.lookup s = some pv ∧ pv.flavor = .simple ∧ pv.value.flat = [] := by
  obtain ⟨st', pv, h1, h2, h3, h4⟩ := assign_line fs h ha hc hn hv hd (fun _ => ⟨hne, [], vs, he⟩)
  refine ⟨st', pv, h1, h3.now, ?_⟩
  cases h4 with
  | simple e1 e2 =>
    obtain ⟨rfl, _⟩ := he.det e1
    refine ⟨rfl, ?_⟩
    show Expr.text (Block.ltext _) = []
    rw [e2]
    rfl

/-- `a := $y` where `y` is not defined. -/
example (fs : Fs) (l : Location) : ∃ (P : Block) (rest : List LChar) (st' : St) (pv : VarParams),
    LineGives fs P P.span PState.new demo rest PState.new st' ∧ st'.lookup ['a'] = some pv ∧ pv.flavor = .simple ∧
      pv.value.flat = [] := by
  have hr : Ready _ _ _ _ _ PState.new demo := ready_locate (l := l) (line := "a := $y".toList) (rest := []) (st := demo)
    (by unfold AsciiS; decide) (by decide) (by decide) (by simp) (by decide) rfl demo_wf.1
  have ha := assignText_locate (l := l) (name := ['a']) (gap := [' ']) (op := [':', '=']) (gap' := [' '])
    (value := ['$', 'y']) (ty := .simple) (by unfold NameChar; decide) (by decide) .simple (by decide) (by simp)
  obtain ⟨st', pv, h⟩ := C54_expands_to_nothing_partial fs hr ha (by simp [locate])
    (not_condLike_locate (by simp) (by unfold condWords; decide)) (reads_text (free_locate (by decide)))
    (reads_single (by decide) (by decide) (by decide)) (denotes_locate (s := ['a']) (by decide))
    (.undefined (.char .nil) not_isSubst_single
      (by rw [demo_wf.2]; rfl) .nil)
  exact ⟨_, _, st', pv, h⟩

/-! ### C56 -/

/-- The full claim: `name += value` on a simple variable stores the old text, a space and the expansion of the value. -/
def C56_full : Prop :=
  ∀ (fs : Fs) (P : Block) (i : Span) (t line rest name value : List LChar) (p p' : PState) (st st' : St)
    (nes ves : List Expr) (s : Str) (old : VarParams) (vt : List LChar) (vs : List Str), Ready P i t line rest p st →
    AssignText line name .append value → ¬ CondLike (line.dropWhile lblank) →
    Reads name (.ok nes) → Reads value (.ok ves) → Denotes st.env nes s → st.lookup s = some old → old.flavor = .simple →
    Expands st.env ves vt vs → LineGives fs P i p st rest p' st' →
    ∃ pv, st'.lookup s = some pv ∧ pv.flavor = .simple ∧
      pv.value.flat = old.value.flat ++ Expr.text ((' ', .synthetic) :: vt)

/-- What happens, in every state: the value is appended unexpanded, whatever the flavor of the variable. -/
theorem C56_appends_unexpanded (fs : Fs) {P : Block} {i : Span} {t line rest name value : List LChar} {p : PState}
    {st : St} (h : Ready P i t line rest p st) (ha : AssignText line name .append value)
    (hc : ¬ CondLike (line.dropWhile lblank)) {nes ves : List Expr} (hn : Reads name (.ok nes))
    (hv : Reads value (.ok ves)) {s : Str} (hd : Denotes st.env nes s) {old : VarParams} (ho : st.lookup s = some old) :
    ∃ st' a, LineGives fs P i p st rest p st' ∧ st'.lookup s = some ⟨a, old.flavor, old.origin⟩ ∧
      a.flat = old.value.flat ++ .char (' ', .synthetic) :: ves ∧ (∀ x, x ≠ s → st'.lookup x = st.lookup x) ∧ st'.WF := by
  obtain ⟨st', pv, h1, h2, h3, h4⟩ := assign_line fs h ha hc hn hv hd (by simp)
  generalize hes : ves = es at h4 ⊢
  cases h4 with
  | appendNew e1 => rw [ho] at e1; cases e1
  | append e1 e2 =>
    rw [ho] at e1
    cases e1
    exact ⟨st', _, h1, h3.now, e2, h3.others, h2⟩

/-- C56, as far as it holds: when the appended text contains no references, it is frozen like the old text. -/
theorem C56_plain_text_partial (fs : Fs) {P : Block} {i : Span} {t line rest name value : List LChar} {p : PState}
    {st : St} (h : Ready P i t line rest p st) (ha : AssignText line name .append value)
    (hc : ¬ CondLike (line.dropWhile lblank)) {nes : List Expr} (hn : Reads name (.ok nes))
    (hv : Free '$' value) {s : Str} (hd : Denotes st.env nes s) {old : VarParams} (ho : st.lookup s = some old)
    {ot : List LChar} (hot : old.value.flat = Expr.text ot) :
    ∃ st', LineGives fs P i p st rest p st' ∧
      ∀ later, later.WF → later.lookup s = st'.lookup s → ExpandsTo fs later s (textOf ot ++ ' ' :: textOf value) := by
  obtain ⟨st', a, h1, h2, h3, h4, _⟩ := C56_appends_unexpanded fs h ha hc hn (reads_text hv) hd ho
  refine ⟨st', h1, fun later hw hl => ?_⟩
  rw [h2] at hl
  have e : a.flat = Expr.text (ot ++ (' ', .synthetic) :: value) := by
    rw [h3, hot]
    simp [Expr.text]
  have := expandsTo_of (fs := fs) (t := ot ++ (' ', .synthetic) :: value) (vs := []) hw hl (by
    show Expands _ a.flat _ _
    rw [e]
    exact Expands.text _ _)
  rwa [textOf_append, textOf_cons] at this

/-- The same variables, but `a` is simple with the text `0`. -/
private def demo2 : St := demo.define ['a'] (.preEvaluated .synthetic (textBlock .synthetic ['0'])) .simple

private theorem demo2_wf : demo2.WF :=
  (demo_wf.1.define (s := ['a']) (f := .simple) (by show Block.WF (textBlock _ _); exact textBlock_wf (by unfold AsciiS; decide))).1

private theorem demo2_env (x : Str) : demo2.env x = if x = ['a'] then some (Expr.text [('0', .synthetic)]) else demo.env x := by
  have := (demo_wf.1.define (s := ['a']) (a := .preEvaluated .synthetic (textBlock .synthetic ['0'])) (f := .simple)
    (by show Block.WF (textBlock _ _); exact textBlock_wf (by unfold AsciiS; decide))).2 x
  exact this

private theorem demo2_x {l l' : Location} : Expands demo2.env [.ref l [.char ('x', l')]] [('1', .synthetic)] [['x']] := by
  have h2 : Expands demo2.env (Expr.text [('1', Location.synthetic)]) [('1', .synthetic)] [] := Expands.text _ _
  exact .defined (n := [('x', l')]) (.char .nil)
    not_isSubst_single
    (by rw [demo2_env, if_neg (by simp [textOf]), demo_wf.2]; rfl) h2 .nil

theorem C56_refuted : ¬ C56_full := by
  intro h
  have hr : Ready _ _ _ _ _ PState.new demo2 := ready_locate (l := .synthetic) (line := "a += $x".toList) (rest := [])
    (by unfold AsciiS; decide) (by decide) (by decide) (by simp) (by decide) rfl demo2_wf
  have ha := assignText_locate (l := .synthetic) (name := ['a']) (gap := [' ']) (op := ['+', '=']) (gap' := [' '])
    (value := ['$', 'x']) (ty := .append) (by unfold NameChar; decide) (by decide) .append (by decide) (by simp)
  have hc : ¬ CondLike ((locate .synthetic "a += $x".toList).dropWhile lblank) :=
    not_condLike_locate (by simp) (by unfold condWords; decide)
  have ho : demo2.lookup ['a'] = some ⟨.preEvaluated .synthetic (textBlock .synthetic ['0']), .simple, .file⟩ := rfl
  obtain ⟨st', a, h1, h2, h3, _⟩ := C56_appends_unexpanded noFs hr ha hc (reads_text (free_locate (by decide)))
    (reads_single (by decide) (by decide) (by decide)) (denotes_locate (by decide)) ho
  obtain ⟨pv, e1, _, e3⟩ := h noFs _ _ _ _ _ _ _ _ _ _ _ _ _ _ _ _ _ hr ha hc (reads_text (free_locate (by decide)))
    (reads_single (by decide) (by decide) (by decide)) (denotes_locate (by decide)) ho rfl demo2_x h1
  rw [h2] at e1
  cases e1
  rw [h3] at e3
  simp [Expr.text] at e3

/-- The same on a whole makefile: `a` follows the change of `x`. -/
example : runVar 6 "x = 1\na := 0\na += $(x)\nx = 2\n" "a" = .ok (some "0 2".toList) := by decide +kernel

/-- The hypotheses of `C56_plain_text_partial` are met by `a += y`. -/
example (fs : Fs) (l : Location) : ∃ (P : Block) (rest : List LChar) (st' : St),
    LineGives fs P P.span PState.new demo2 rest PState.new st' ∧
      ∀ later : St, later.WF → later.lookup ['a'] = st'.lookup ['a'] → ExpandsTo fs later ['a'] "0 y".toList := by
  have hr : Ready _ _ _ _ _ PState.new demo2 := ready_locate (l := l) (line := "a += y".toList) (rest := [])
    (by unfold AsciiS; decide) (by decide) (by decide) (by simp) (by decide) rfl demo2_wf
  have ha := assignText_locate (l := l) (name := ['a']) (gap := [' ']) (op := ['+', '=']) (gap' := [' '])
    (value := ['y']) (ty := .append) (by unfold NameChar; decide) (by decide) .append (by decide) (by simp)
  obtain ⟨st', h⟩ := C56_plain_text_partial fs hr ha (not_condLike_locate (by simp) (by unfold condWords; decide))
    (reads_text (free_locate (by decide))) (free_locate (by decide)) (denotes_locate (s := ['a']) (by decide)) rfl
    (ot := [('0', .synthetic)]) rfl
  exact ⟨_, _, st', h⟩

end Hastur
