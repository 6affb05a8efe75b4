import Verif.Proofs.Progress
import Verif.Proofs.Grow
import Verif.Proofs.EvalText
/-
Lemmas: from single lines to whole blocks and files.
-/
namespace Hastur

open Res

variable {P : Block} {t : List LChar} {i : Span}

/-- Reading the rest of a block line by line, from one parser and engine state to another. -/
inductive Proc (fs : Fs) : Span → PState → St → PState → St → Prop
  | done {i : Span} {p : PState} {st : St} : i.length = 0 → Proc fs i p st p st
  | step {i j : Span} {p p1 p' : PState} {st st1 st' : St} (N : Nat) : j.length < i.length →
      (∀ n, N ≤ n → parseLine fs (recF fs n) p st i = .ok (.done j (), p1, st1)) → Proc fs j p1 st1 p' st' →
      Proc fs i p st p' st'

theorem Proc.loop {fs : Fs} {i : Span} {p p' : PState} {st st' : St} (h : Proc fs i p st p' st') :
    ∃ N, ∀ n, N ≤ n → ∀ m, i.length < m → processLoop fs (recF fs n) m i p st = .ok (.ok (), st') := by
  induction h with
  | done h0 =>
    refine ⟨0, fun n _ m hm => ?_⟩
    obtain ⟨m, rfl⟩ : ∃ k, m = k + 1 := ⟨m - 1, by omega⟩
    unfold processLoop
    simp [h0]
  | step N hj hl _ ih =>
    obtain ⟨M, hM⟩ := ih
    refine ⟨max N M, fun n hn m hm => ?_⟩
    obtain ⟨m, rfl⟩ : ∃ k, m = k + 1 := ⟨m - 1, by omega⟩
    unfold processLoop
    rw [if_pos (by omega), hl n (by omega)]
    exact hM n (by omega) m (by omega)

theorem Proc.trans {fs : Fs} {i j : Span} {p p1 p' : PState} {st st1 st' : St} (N : Nat) (hi : i.At P t) {rest : List LChar}
    (hj : j.At P rest) (hlt : rest.length < t.length)
    (hl : ∀ n, N ≤ n → parseLine fs (recF fs n) p st i = .ok (.done j (), p1, st1)) (h : Proc fs j p1 st1 p' st') :
    Proc fs i p st p' st' := by
  refine .step N ?_ hl h
  rw [hi.length, hj.length]
  exact hlt

theorem char_bom (h : i.At P t) : Nom.char bom i = .ok (.err (.error .code)) := by
  unfold Nom.char
  rw [Nom.firstChar_at h]
  cases hh : (textOf t).head? with
  | none => rfl
  | some d =>
    have hd : d ≠ bom := by
      rintro rfl
      have := h.ascii bom (List.mem_of_mem_head? hh)
      exact absurd this (by decide)
    simp [hd, Res.codeError]

/-- Processing a block of ASCII text. -/
theorem Proc.block {fs : Fs} {b : Block} {p' : PState} {st st' : St} (hb : b.span.At b (Block.ltext b))
    (h : Proc fs b.span PState.new st p' st') :
    ∃ N, ∀ n, N ≤ n → processF fs n b st = .ok (.ok (), st') := by
  obtain ⟨N, hN⟩ := h.loop
  refine ⟨N + 1, fun n hn => ?_⟩
  obtain ⟨n, rfl⟩ : ∃ k, n = k + 1 := ⟨n - 1, by omega⟩
  show processStep fs (recF fs n) b st = _
  unfold processStep
  rw [char_bom hb, error_orElse]
  exact hN n (by omega) (b.len + 1) (by show b.len < b.len + 1; omega)

/-- The block of a file. -/
theorem fileBlock_spec {f : FileName} {s : Str} (hs : AsciiS s) :
    ∃ b, fileBlock f s = .ok b ∧ b.content.length ≤ 1 ∧ Block.Mono b ∧ b.span.At b (locate (.source 1 1 f) s) := by
  have hw : CRef.WFList [CRef.ofNode (.constant ⟨.source 1 1 f, s⟩)] := textBlock_wf (loc := .source 1 1 f) hs
  obtain ⟨b, h1, h2, _, _, h5, h6, h7⟩ := Block.new_spec (sens := []) hw
  refine ⟨b, h1, ?_, h7 ⟨trivial, trivial⟩, ?_⟩
  · exact Block.new_length h1
  · have hsp := Block.span_at h5 h6
    rw [h2] at hsp
    have : CRef.ltextList [CRef.ofNode (.constant ⟨.source 1 1 f, s⟩)] = locate (.source 1 1 f) s :=
      textBlock_ltext hs
    rwa [this] at hsp

/-- Reading a file of ASCII text. -/
theorem read_of_proc {fs : Fs} {s name : Str} {st : St} (hs : AsciiS s) :
    ∃ (P : Block) (i : Span), P.content.length ≤ 1 ∧ Block.Mono P ∧
      i.At P (locate (.source 1 1 (st.names.internFile name).1) s) ∧
      ∀ p' st', Proc fs i PState.new { st with names := (st.names.internFile name).2 } p' st' →
        ∃ N, ∀ n, N ≤ n → readF fs n (.text s) name st = .ok (.ok (), st') := by
  obtain ⟨b, h1, h2, h3, h4⟩ := fileBlock_spec (f := (st.names.internFile name).1) hs
  refine ⟨b, b.span, h2, h3, h4, fun p' st' h => ?_⟩
  have e : Block.ltext b = locate (.source 1 1 (st.names.internFile name).1) s := by
    rw [← h4.ltext, Block.span_ltext h4.wfP]
  obtain ⟨N, hN⟩ := Proc.block (by rw [e]; exact h4) h
  refine ⟨N, fun n hn => ?_⟩
  unfold readF readMakefile
  simp only [h1, ok_bind]
  exact hN n hn

/-! ### Empty lines -/

theorem Logical.suffix {line rest : List LChar} (h : Logical t line rest) : rest <:+ t := by
  obtain ⟨cs, lead, final, tail, rest, _, _, _, _, _, he⟩ := h
  have : rest <:+ tail := by
    rcases he with ⟨rfl, rfl⟩ | ⟨loc, rfl⟩
    · exact List.suffix_refl _
    · exact List.suffix_cons _ _
  exact this.trans ⟨cs.flatMap Continued.line ++ (lead ++ final), by simp⟩

theorem Logical.lt {line rest : List LChar} (h : Logical t line rest) (ht : t ≠ []) : rest.length < t.length := by
  obtain ⟨cs, lead, final, tail, rest, hcs, _, _, _, _, he⟩ := h
  rcases he with ⟨rfl, rfl⟩ | ⟨loc, rfl⟩
  · exact List.length_pos_of_ne_nil ht
  · simp; omega

theorem joinSpaces_nil {b : List LChar} {bs : List (List LChar)} (hb : ∀ x ∈ bs, x ≠ []) (h : joinSpaces (bs ++ [b]) = []) :
    bs = [] ∧ b = [] := by
  cases bs with
  | nil => exact ⟨rfl, h⟩
  | cons a bs =>
    have := hb a (by simp)
    cases bs <;> simp [joinSpaces] at h

theorem Logical.ne_nil {line rest : List LChar} (h : Logical t line rest) (hl : line ≠ []) : t ≠ [] := by
  obtain ⟨cs, lead, final, tail, rest, hcs, _, _, _, _, he⟩ := h
  intro e
  simp only [List.append_eq_nil_iff, List.flatMap_eq_nil_iff] at e
  obtain ⟨e1, e2, e3, e4⟩ := e
  apply hl
  have : cs = [] := by
    cases cs with
    | nil => rfl
    | cons c cs =>
      have := e1 c (by simp)
      simp [Continued.line] at this
  subst this
  exact e3

/-- An empty line changes nothing. -/
theorem parseLine_blank (fs : Fs) (r : Rec) {p : PState} {st : St} {rest : List LChar} (h : i.At P t)
    (hl : Logical t [] rest) (hf : Free '#' t) (hd : p.currentDefine = none) (hch : isAscii st.commandChar = true)
    (hr : p.currentRule = none ∨ (textOf t).head? ≠ some st.commandChar) :
    ∃ j, j.At P rest ∧ parseLine fs r p st i = .ok (.done j (), p, st) := by
  obtain ⟨j, b, h1, h2, h3⟩ := makefileLine_logical h hl hf
  refine ⟨j, h2, ?_⟩
  rw [parseLine_collapsed fs r h hf hd hch hr]
  have hlen : b.len = 0 := by
    have := h3.at.length
    exact this
  unfold parseCollapsed
  simp only [h1, ok_bind, if_pos hlen]
  rfl

/-! ### Empty simple assignments -/

theorem bind_panic_of {α β : Type} {x : Res α} {f : α → Res β} {c : Panic} (h : x = .panic c) : x >>= f = .panic c := by
  rw [h]; rfl

theorem parseVariableAssignment_empty (fs : Fs) (hm : Block.Mono P) {line name : List LChar}
    (h : i.At P line) (ha : AssignText line name .simple []) {nes : List Expr} (hn : Reads name (.ok nes))
    {st : St} (hst : st.WF) {nt : List LChar} {ns : List Str} (he : Expands st.env nes nt ns) (mods : Modifiers) :
    ∃ N, ∀ n, N ≤ n → parseVariableAssignment (recF fs n) mods i st = .panic .unwrap := by
  obtain ⟨post, na, vs, va, h1, h2, h3, h4, h5, h6⟩ := splitAssignment_at hm h ha hn .nil
  rw [← h4] at he
  obtain ⟨N, hN⟩ := evalName_of fs hst h3 he
  obtain ⟨M, hM⟩ := evalF_text (t := []) h5 h6
  have hloc := Span.location_mono h2.good (by rw [h2.parent]; exact hm)
  rw [h2.ltext] at hloc
  refine ⟨max N M, fun n hn => ?_⟩
  obtain ⟨b, hb, _⟩ := hM fs n ((st.interned ns).interned [trim (textOf nt)]) (by omega)
  unfold parseVariableAssignment
  simp only [h1, ok_bind, hN n (by omega), show (recF fs n).eval va _ = _ from hb, hloc]
  rfl

/-- The code aborts on an empty simple assignment. -/
theorem parseLine_empty_simple (fs : Fs) {p : PState} {st : St} {line rest name : List LChar}
    (h : AtLine P i t line rest p st) (hig : p.ignoring = false)
    (hr : p.currentRule = none ∨ (textOf t).head? ≠ some st.commandChar)
    (ha : AssignText line name .simple []) (hc : ¬ CondLike (line.dropWhile lblank))
    {nes : List Expr} (hn : Reads name (.ok nes)) {nt : List LChar} {ns : List Str} (he : Expands st.env nes nt ns) :
    ∃ N, ∀ n, N ≤ n → parseLine fs (recF fs n) p st i = .panic .unwrap := by
  have hne : line ≠ [] := by
    rintro rfl
    exact ha.dropBlanks.2 rfl
  obtain ⟨j, b, _, hb, hrun⟩ := parseCollapsed_statement fs h.at_ h.logical h.comment hne hc
  have hat := hb.at
  obtain ⟨r, q, w1, w2, _⟩ := whitespace_at hat
  obtain ⟨ha', hne'⟩ := ha.dropBlanks
  obtain ⟨N, hN⟩ := parseVariableAssignment_empty fs (hb.mono h.pieces h.mono) w2 ha' hn h.wf he Modifiers.none
  refine ⟨N, fun n hn => ?_⟩
  rw [parseLine_collapsed fs _ h.at_ h.comment h.define h.command hr, hrun, hig]
  have hlen : r.length ≠ 0 := by
    rw [w2.length]
    simpa using hne'
  simp only [Bool.false_eq_true, if_false]
  unfold parseStatement parseVariableLine
  simp only [w1, ok_bind, if_neg hlen, modifierLoop, hN n hn, panic_bind]

/-! ### Files of assignments -/

theorem Vars.env_set (v : Vars) (s : Str) (f : Flavor) (es : List Expr) (x : Str) :
    (v.set s f es).env x = if x = s then some es else v.env x := by
  unfold Vars.env Vars.set
  split <;> rfl

theorem St.vars_env (st : St) : st.vars.env = st.env := by
  funext s
  simp only [Vars.env, St.vars, St.env_eq, Option.map_map]
  rfl

theorem Assigned.vars {st st' : St} {s : Str} {pv : VarParams} (h : Assigned st st' s pv) :
    st'.vars = st.vars.set s pv.flavor pv.value.flat := by
  funext x
  unfold Vars.set
  by_cases e : x = s
  · subst e
    rw [if_pos rfl]
    simp only [St.vars, h.now, Option.map_some]
  · rw [if_neg e]
    simp only [St.vars, h.others x e]

theorem expands_det {env : Env} {es : List Expr} {t t' : List LChar} {vs vs' : List Str} (h : Expands env es t vs)
    (h' : Expands env es t' vs') : t = t' ∧ vs = vs' := h.det h'

/-- What an assignment stores according to the code is what it stores according to the specification. -/
theorem VarRun.head {st st' : St} {a : Assignment} {l : List Assignment} {v' : Vars} (h : VarRun st.vars (a :: l) v') :
    ∃ nt ns, Expands st.env a.name nt ns ∧ (a.ty = .simple → ∃ vt vs, Expands st.env a.value vt vs) ∧
      ∀ pv, Stores st (trim (textOf nt)) a.ty a.value pv → Assigned st st' (trim (textOf nt)) pv → VarRun st'.vars l v' := by
  cases h with
  | @recursive _ _ _ e0 _ _ hd h =>
    obtain ⟨nt, ns, h1, rfl⟩ := hd
    rw [St.vars_env] at h1
    refine ⟨nt, ns, h1, by simp, fun pv hs ha => ?_⟩
    rw [ha.vars]
    dsimp only at hs
    generalize hes : e0 = e at hs
    cases hs
    rw [hes] at h
    exact h
  | simple hd he h =>
    obtain ⟨nt, ns, h1, rfl⟩ := hd
    rw [St.vars_env] at h1 he
    refine ⟨nt, ns, h1, fun _ => ⟨_, _, he⟩, fun pv hs ha => ?_⟩
    rw [ha.vars]
    cases hs with
    | simple e1 e2 =>
      obtain ⟨rfl, _⟩ := he.det e1
      subst e2
      exact h
  | @conditional _ _ _ e0 _ _ hd hn h =>
    obtain ⟨nt, ns, h1, rfl⟩ := hd
    rw [St.vars_env] at h1
    refine ⟨nt, ns, h1, by simp, fun pv hs ha => ?_⟩
    rw [ha.vars]
    dsimp only at hs
    generalize hes : e0 = e at hs
    cases hs
    rw [hes] at h
    exact h
  | @appendNew _ _ _ e0 _ _ hd hn h =>
    obtain ⟨nt, ns, h1, rfl⟩ := hd
    rw [St.vars_env] at h1
    refine ⟨nt, ns, h1, by simp, fun pv hs ha => ?_⟩
    rw [ha.vars]
    dsimp only at hs
    generalize hes : e0 = e at hs
    cases hs with
    | appendNew =>
      rw [hes] at h
      exact h
    | append e1 => simp [St.vars, e1] at hn
  | @append _ _ _ e0 _ _ _ _ hd hn hf h =>
    obtain ⟨nt, ns, h1, rfl⟩ := hd
    rw [St.vars_env] at h1
    refine ⟨nt, ns, h1, by simp, fun pv hs ha => ?_⟩
    rw [ha.vars]
    dsimp only at hs
    generalize hes : e0 = e at hs
    cases hs with
    | appendNew e1 => simp [St.vars, e1] at hn
    | append e1 e2 =>
      simp only [St.vars, e1, Option.map_some, Option.some.injEq, Prod.mk.injEq] at hn
      obtain ⟨rfl, rfl⟩ := hn
      rw [hes, ← e2] at h
      exact h

theorem Free.of_suffix {c : Char} {t u : List LChar} (h : Free c t) (hs : u <:+ t) : Free c u :=
  fun x hx => h x (hs.subset hx)

/-- Lines of assignments, read one after the other. -/
theorem proc_assigns (fs : Fs) (hP : P.content.length ≤ 1) (hm : Block.Mono P) {l : List Assignment} (hl : AssignFile t l) :
    ∀ {i : Span} {p : PState} {st : St} {v' : Vars}, i.At P t → Free '#' t → p.currentDefine = none →
      p.currentRule = none → p.ignoring = false → isAscii st.commandChar = true → st.WF → VarRun st.vars l v' →
      ∃ st', Proc fs i p st p st' ∧ st'.WF ∧ st'.vars = v' ∧ st'.db.rules = st.db.rules ∧
        st'.db.targetVariables = st.db.targetVariables ∧ st'.commandChar = st.commandChar := by
  induction hl with
  | nil =>
    intro i p st v' h _ _ _ _ _ hw hv
    cases hv
    exact ⟨st, .done (by rw [h.length]; rfl), hw, rfl, rfl, rfl, rfl⟩
  | blank hne hl _ ih =>
    intro i p st v' h hf hd hr hig hch hw hv
    obtain ⟨j, hj, e⟩ := parseLine_blank fs (recF fs 0) h hl hf hd hch (.inl hr)
    obtain ⟨st', g1, g2⟩ := ih hj (hf.of_suffix hl.suffix) hd hr hig hch hw hv
    refine ⟨st', .trans 0 h hj (hl.lt hne) (fun n _ => ?_) g1, g2⟩
    exact (parseLine_le (recF_le fs (Nat.zero_le n)) fs p st i).ok e
  | assign hl ha hc hn hvv hs _ ih =>
    intro i p st v' h hf hd hr hig hch hw hv
    obtain ⟨nt, ns, h1, h2, h3⟩ := hv.head (st' := st)
    obtain ⟨N, j, st1, pv, hj, g1, g2, g3, g4⟩ := parseLine_assign_plain fs hP hm h hl hf hd hig hch hr ha hc hn hvv hw h1
      (fun e => ⟨hs e, h2 e⟩)
    obtain ⟨nt', ns', h1', _, h3'⟩ := hv.head (st' := st1)
    obtain ⟨rfl, _⟩ := h1.det h1'
    obtain ⟨st', k1, k2, k3, k4, k5, k6⟩ := ih hj (hf.of_suffix hl.suffix) hd hr hig (by rw [g2.commandChar]; exact hch) g1
      (h3' pv g3 g2)
    have hne := hl.ne_nil (fun e => ha.dropBlanks.2 (by rw [e]; rfl))
    exact ⟨st', .trans N h hj (hl.lt hne) g4 k1, k2, k3, k4.trans g2.rules, k5.trans g2.targetVariables,
      k6.trans g2.commandChar⟩

end Hastur
