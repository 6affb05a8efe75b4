import Verif.Proofs.EvalLine
import Verif.Proofs.RefRule
/-
C78: lines that consist of a call of `eval`.
-/
namespace Hastur

open Res Span

/-- The full claim: a line `$(eval arg)` has the effect that reading the expansion `u` of the argument as a makefile would
have, and no other effect. -/
def C78_full : Prop :=
  ∀ (fs : Fs) (P : Block) (i : Span) (p : PState) (st : St) (t line rest arg u : List LChar) (es : List Expr)
    (vs : List Str) (m : MakeState),
    Ready P i t line rest p st → Physical t line rest → st.commandChar ≠ '$' → RulesKnown st.db st.names →
    EvalLine line arg → ¬ VarLike line → Reads arg (.ok es) → Expands st.env es u vs → Free '#' u →
    Makes st.commandChar (fun _ _ => True) ⟨st.vars, st.ruleTable, [], none⟩ u m → m.branches = [] →
    ∃ st', LineGives fs P i p st rest p st' ∧ st'.vars = m.vars ∧ st'.ruleTable = m.close.rules

private theorem finish (fs : Fs) {P : Block} {i : Span} {p : PState} {st st1 : St} {t line rest arg u : List LChar}
    {m : MakeState} {a : Ast} {c : Block} {n : Nat} (h : Ready P i t line rest p st) (h3 : Physical t line rest)
    (h4 : st.commandChar ≠ '$') (hl : EvalLine line arg) (h6 : ¬ VarLike line)
    (hg : ∀ (Q : Block) n, Q.content.length ≤ 1 → Block.Mono Q → arg.length < n → GivesAst Q n arg a)
    (hc : Block.WF c) (hc1 : c.content.length ≤ 1) (hc2 : Block.Mono c) (hu : Block.ltext c = u) (hf : Free '#' u)
    (hev : (recF fs n).eval a st = .ok (c, st1)) (hw : st1.WF) (hk : RulesKnown st1.db st1.names) (hch : isAscii st1.commandChar = true)
    (hm : Makes st1.commandChar NoSwitch ⟨st1.vars, st1.ruleTable, [], none⟩ u m) (hend : m.current = none) :
    ∃ st', LineGives fs P i p st rest p st' ∧ st'.vars = m.vars ∧ st'.ruleTable = m.close.rules := by
  obtain ⟨w, w1, w2, w3, w4, w5, w6⟩ := evalCall_block hc
  have hat := Block.span_at w3 w4
  have hat' := hat
  rw [w2, hu] at hat'
  obtain ⟨p1, st', k1, k2, k3⟩ := proc_makes fs w5 (w6 hc1 hc2) hm (p := PState.new) (st := st1)
    ⟨rfl, rfl, rfl, by simp [PState.new, AllTaken], rfl, .none, hw, hk⟩ hat' hf rfl hch
  obtain ⟨N, j, j1, j2⟩ := parseLine_eval fs h.toAtLine h3 (.inl h.rule) h.active h4 h6 hl hg
    (fun l => evalCall_ok hev w1 hat k1 l)
  refine ⟨st', ⟨N, j, j1, fun k hk => ?_⟩, k2.vars, ?_⟩
  · rw [j2 k hk]
    simp [PState.closeRule, h.rule, Res.bind]
  · rw [k2.rules]
    unfold MakeState.close
    rw [hend]

/-- C78 for arguments that are plain text which does not end inside a rule, and in which every `endif` closes a
conditional in its taken branch or inside a branch that is not taken. -/
theorem C78_text_partial (fs : Fs) {P : Block} {i : Span} {p : PState} {st : St} {t line rest arg : List LChar}
    {m : MakeState} (h : Ready P i t line rest p st) (hp : Physical t line rest) (hc : st.commandChar ≠ '$')
    (hk : RulesKnown st.db st.names) (hl : EvalLine line arg) (hv : ¬ VarLike line) (hd : Free '$' arg)
    (hm : Makes st.commandChar NoSwitch ⟨st.vars, st.ruleTable, [], none⟩ arg m) (hend : m.current = none) :
    ∃ st', LineGives fs P i p st rest p st' ∧ st'.vars = m.vars ∧ st'.ruleTable = m.close.rules := by
  have hsub : arg <:+: t := by
    cases hp with
    | mk _ _ _ _ _ =>
      cases hl with
      | @mk l l' l'' kw gap _ _ _ _ _ _ _ => exact ⟨_ ++ ('$', l) :: ('(', l') :: (kw ++ gap), (')', l'') :: _, by simp; rfl⟩
  have hfs : AsciiS (textOf arg) := fun x hx => h.at_.ascii x ((hsub.map Prod.fst).subset hx)
  have hloc : arg ≠ [] → ∃ l s, arg = locate l s := fun h0 => by
    have hne : t ≠ [] := fun e => h0 (by rw [e] at hsub; exact List.infix_nil.mp hsub)
    obtain ⟨l, s, rfl⟩ := h.at_.located h.mono h.pieces hne
    exact infix_locate hsub
  obtain ⟨a, c, g1, g2, g3, g4, g5, g6, _⟩ := evalText fs hd hloc hfs
  exact finish fs h hp hc hl hv g1 g2 g3 g4 g5 (fun x hx => h.comment x (hsub.subset hx)) (g6 st) h.wf hk h.command hm hend

/-- C78 for arguments that are a reference `$(name)` to a variable whose value is stored in one piece, under the same
conditions on its text.  Missing are all values of several pieces, in particular definitions of several lines. -/
theorem C78_reference_partial (fs : Fs) {P : Block} {i : Span} {p : PState} {st : St} {t line rest arg name u : List LChar}
    {m : MakeState} (h : Ready P i t line rest p st) (hp : Physical t line rest) (hc : st.commandChar ≠ '$')
    (hk : RulesKnown st.db st.names) (hl : EvalLine line arg) (hv : ¬ VarLike line) (ha : RefLine arg name)
    (hd : Free '$' name) (hs : ¬ IsSubst (textOf name)) (hu : st.HoldsText (textOf name) u) (hf : Free '#' u)
    (hm : Makes st.commandChar NoSwitch ⟨st.vars, st.ruleTable, [], none⟩ u m) (hend : m.current = none) :
    ∃ st', LineGives fs P i p st rest p st' ∧ st'.vars = m.vars ∧ st'.ruleTable = m.close.rules := by
  cases ha with
  | @mk l l' l'' _ hb hcalls hch =>
  have hsub : name <:+: t := by
    cases hp with
    | mk _ _ _ _ _ =>
      cases hl with
      | @mk k k' k'' kw gap _ _ _ _ _ _ _ =>
        exact ⟨_ ++ ('$', k) :: ('(', k') :: (kw ++ (gap ++ [('$', l), ('(', l')])), (')', l'') :: (')', k'') :: _, by simp; rfl⟩
  have hfs : AsciiS (textOf name) := fun x hx => h.at_.ascii x ((hsub.map Prod.fst).subset hx)
  have hloc : name ≠ [] → ∃ l s, name = locate l s := fun h0 => by
    have hne : t ≠ [] := fun e => h0 (by rw [e] at hsub; exact List.infix_nil.mp hsub)
    obtain ⟨l, s, rfl⟩ := h.at_.located h.mono h.pieces hne
    exact infix_locate hsub
  obtain ⟨a, ca, g1, _, _, _, _, _, g7, g8⟩ := evalText fs hd hloc hfs
  obtain ⟨N, b, e1, e2, e3, e4⟩ := eval_holds fs h.wf (l := l) g7 (by rw [g8]; exact .text _ name) hs hu
  have hg : ∀ (Q : Block) n, Q.content.length ≤ 1 → Block.Mono Q →
      (('$', l) :: ('(', l') :: (name ++ [(')', l'')])).length < n →
      GivesAst Q n (('$', l) :: ('(', l') :: (name ++ [(')', l'')])) (.varRef l a) := by
    intro Q n q1 q2 q3
    obtain ⟨n, rfl⟩ : ∃ k, n = k + 1 := ⟨n - 1, by omega⟩
    exact givesAst_paren q2 n rfl fun j hj => advancedVar_ref n hb hcalls (g1 Q n q1 q2 (by simp at q3; omega)) hj
  have hnames : (st.interned ([] ++ [textOf name])).names = st.names.after ([textOf name].map .var) := rfl
  have hvars : (st.interned ([] ++ [textOf name])).vars = st.vars := vars_of_lookup (h.wf.lookup_after rfl hnames)
  have hrules : (st.interned ([] ++ [textOf name])).ruleTable = st.ruleTable := hk.table_after _
  refine finish fs h hp hc hl hv hg e1.wf e3 e2 e1.ltext hf (e4 N (Nat.le_refl N)) (h.wf.interned _) (hk.after _) h.command ?_ hend
  rw [hvars, hrules]
  exact hm

/-! ### Examples -/

private def noFs : Fs := fun _ => .missing
private def txt (s : String) : Ast := .constant .synthetic ⟨.synthetic, s.toList⟩

/-- The text `a=1`, alone or as the first line of a text. -/
private theorem line_a {ok : List Branch → Branch → Prop} {m : MakeState} {t rest : List LChar} (hb : AllTaken m.branches)
    (hc : m.current = none) (hl : Logical t (locate .synthetic "a=1".toList) rest) : LineMeans '\t' ok m t rest
      { m.close with vars := m.vars.set ['a'] .recursive (Expr.text (locate .synthetic ['1'])) } :=
  .assign hb (.inl hc) hl
    (assignText_locate (name := ['a']) (gap := []) (op := ['=']) (gap' := []) (value := ['1'])
      (by unfold NameChar; decide) (by simp) .recursive (by simp) (by simp))
    (not_condLike_locate (by simp) (by unfold condWords; decide)) (reads_text (free_locate (by decide)))
    (reads_text (free_locate (by decide))) (by simp) (.recursive (denotes_locate (by decide)) .nil)

/-- The text `b=2`. -/
private theorem line_b {ok : List Branch → Branch → Prop} {m : MakeState} {t rest : List LChar} (hb : AllTaken m.branches)
    (hc : m.current = none) (hl : Logical t (locate .synthetic "b=2".toList) rest) : LineMeans '\t' ok m t rest
      { m.close with vars := m.vars.set ['b'] .recursive (Expr.text (locate .synthetic ['2'])) } :=
  .assign hb (.inl hc) hl
    (assignText_locate (name := ['b']) (gap := []) (op := ['=']) (gap' := []) (value := ['2'])
      (by unfold NameChar; decide) (by simp) .recursive (by simp) (by simp))
    (not_condLike_locate (by simp) (by unfold condWords; decide)) (reads_text (free_locate (by decide)))
    (reads_text (free_locate (by decide))) (by simp) (.recursive (denotes_locate (by decide)) .nil)

private theorem last_line {s : Str} (h1 : '\n' ∉ s) (h2 : ∀ c ∈ s.head?, ¬ (c = ' ' ∨ c = '\t')) (h3 : trailingSlashes s % 2 = 0) :
    Logical (locate .synthetic s) (locate .synthetic s) [] := by
  have := Logical.mk [] [] (locate .synthetic s) [] [] (by simp) (by intro x hx; cases hx) (free_locate h1)
      (head_locate (q := fun c => ¬ (c = ' ' ∨ c = '\t')) h2) (by rw [textOf_locate]; exact h3) (.inl ⟨rfl, rfl⟩)
  rw [List.append_nil, List.nil_append] at this
  exact this

/-- The text `a=1`. -/
private theorem makes_a (v : Vars) (r : Rules) :
    Makes '\t' NoSwitch ⟨v, r, [], none⟩ (locate .synthetic "a=1".toList)
      ⟨v.set ['a'] .recursive (Expr.text (locate .synthetic ['1'])), r, [], none⟩ :=
  .cons (line_a (by intro b hb; cases hb) rfl (last_line (by decide) (by decide) (by decide))) .nil

/-- The text `a=1⏎b=2`. -/
private theorem makes_two (ok : List Branch → Branch → Prop) (v : Vars) (r : Rules) :
    Makes '\t' ok ⟨v, r, [], none⟩ (locate .synthetic "a=1\nb=2".toList)
      ⟨(v.set ['a'] .recursive (Expr.text (locate .synthetic ['1']))).set ['b'] .recursive
          (Expr.text (locate .synthetic ['2'])), r, [], none⟩ := by
  have hl : Logical (locate .synthetic "a=1\nb=2".toList) (locate .synthetic "a=1".toList) (locate .synthetic "b=2".toList) :=
    logical_locate (l := .synthetic) (line := "a=1".toList) (rest := "b=2".toList) (by decide) (by decide) (by decide)
  exact .cons (line_a (by intro b hb; cases hb) rfl hl)
    (.cons (line_b (by intro b hb; cases hb) rfl (last_line (by decide) (by decide) (by decide))) .nil)

/-- The line `$(eval a=1)`. -/
private theorem eval_a : EvalLine (locate .synthetic "$(eval a=1)".toList) (locate .synthetic "a=1".toList) :=
  .mk (l := .synthetic) (l' := .synthetic) (l'' := .synthetic) (kw := locate .synthetic "eval".toList)
    (gap := locate .synthetic " ".toList) (arg := locate .synthetic "a=1".toList) rfl
    (mem_locate (q := fun c => c = ' ' ∨ c = '\t') (by decide)) (by decide)
    (head_locate (q := fun c => ¬ (c = ' ' ∨ c = '\t')) (by decide))
    (.char (by decide) (by decide) (.char (by decide) (by decide) (.char (by decide) (by decide) .nil)))
    (mem_locate (q := fun c => c ∉ [';', '#', '\\']) (by decide))

/-- The line `$(eval $(y))`. -/
private theorem eval_y : EvalLine (locate .synthetic "$(eval $(y))".toList) (locate .synthetic "$(y)".toList) :=
  .mk (l := .synthetic) (l' := .synthetic) (l'' := .synthetic) (kw := locate .synthetic "eval".toList)
    (gap := locate .synthetic " ".toList) (arg := locate .synthetic "$(y)".toList) rfl
    (mem_locate (q := fun c => c = ' ' ∨ c = '\t') (by decide)) (by decide)
    (head_locate (q := fun c => ¬ (c = ' ' ∨ c = '\t')) (by decide))
    (.char (by decide) (by decide) (.nest (a := [('y', .synthetic)]) (b := []) (l := .synthetic) (l' := .synthetic) (.char (by decide) (by decide) .nil) .nil))
    (mem_locate (q := fun c => c ∉ [';', '#', '\\']) (by decide))

private theorem ref_y : RefLine (locate .synthetic "$(y)".toList) [('y', .synthetic)] :=
  .mk (l := .synthetic) (l' := .synthetic) (l'' := .synthetic) (.char (by decide) (by decide) .nil) rfl (by decide)

private theorem not_subst : ¬ IsSubst ['y'] := by
  rintro ⟨a, b, c, h, _⟩
  match a, h with
  | [_], h => cases h
  | _ :: _ :: _, h => cases h

private theorem init_known {a : Ast} : RulesKnown (St.init.define ['y'] a).db (St.init.define ['y'] a).names :=
  ⟨⟨(by decide : ([] : List Str).Nodup), (by decide : [['y']].Nodup)⟩, fun f r h => by cases h⟩

/-- `$(eval a=1)` defines `a`. -/
example (fs : Fs) : ∃ st', LineGives fs (textBlock .synthetic "$(eval a=1)\n".toList)
      (textBlock .synthetic "$(eval a=1)\n".toList).span PState.new St.init [] PState.new st' ∧
    st'.vars ['a'] = some (.recursive, Expr.text (locate .synthetic ['1'])) := by
  have hr : Ready _ _ _ _ _ PState.new St.init := ready_locate (l := .synthetic) (line := "$(eval a=1)".toList) (rest := [])
    (by unfold AsciiS; decide) (by decide) (by decide) (by simp) (by decide) rfl St.init_wf
  obtain ⟨st', h1, h2, _⟩ := C78_text_partial fs hr (physical_locate (by decide) (by simp) (by decide)) (by decide)
    ⟨⟨List.nodup_nil, by decide⟩, fun f r h => by cases h⟩ eval_a (eval_a.not_varLike (by decide)) (free_locate (by decide)) (makes_a _ _) rfl
  exact ⟨st', h1, by rw [h2]; rfl⟩

/-- The variable `y` holds `a=1⏎b=2` in one piece: `$(eval $(y))` defines `a` and `b`. -/
example (fs : Fs) : ∃ st', LineGives fs (textBlock .synthetic "$(eval $(y))\n".toList)
      (textBlock .synthetic "$(eval $(y))\n".toList).span PState.new (St.init.define ['y'] (txt "a=1\nb=2")) [] PState.new st' ∧
    st'.vars ['a'] = some (.recursive, Expr.text (locate .synthetic ['1'])) ∧
    st'.vars ['b'] = some (.recursive, Expr.text (locate .synthetic ['2'])) := by
  have hw : (St.init.define ['y'] (txt "a=1\nb=2")).WF :=
    (St.init_wf.define (by show AsciiS "a=1\nb=2".toList; unfold AsciiS; decide)).1
  have hr : Ready _ _ _ _ _ PState.new (St.init.define ['y'] (txt "a=1\nb=2")) := ready_locate (l := .synthetic)
    (line := "$(eval $(y))".toList) (rest := []) (by unfold AsciiS; decide) (by decide) (by decide) (by simp) (by decide) rfl hw
  obtain ⟨st', h1, h2, _⟩ := C78_reference_partial fs hr (physical_locate (by decide) (by simp) (by decide)) (by decide)
    init_known eval_y (eval_y.not_varLike (by decide)) ref_y (free_locate (l := .synthetic) (s := ['y']) (by decide)) not_subst
    ⟨_, rfl, .constant .synthetic ⟨.synthetic, "a=1\nb=2".toList⟩⟩ (free_locate (by decide)) (makes_two _ _ _) rfl
  exact ⟨st', h1, by rw [h2]; rfl, by rw [h2]; rfl⟩

/-- The variable `y` holds the lines `a=1` and `b=2`, as a definition of two lines does. -/
private def pieces : St := St.init.define ['y'] (.concat .synthetic [txt "a=1\n", txt "b=2"])

private theorem pieces_env : pieces.WF ∧ pieces.env ['y'] = some (Expr.text (locate .synthetic "a=1\nb=2".toList)) := by
  obtain ⟨h1, e1⟩ := St.init_wf.define (s := ['y']) (a := .concat .synthetic [txt "a=1\n", txt "b=2"]) (f := .recursive)
    (by
      refine ⟨?_, ?_, trivial⟩ <;>
      · show AsciiS _
        unfold AsciiS; decide)
  refine ⟨h1, ?_⟩
  unfold pieces
  rw [e1, if_pos rfl]
  rfl

private theorem pieces_abort : ∃ e, parseLine noFs (recF noFs 10) PState.new pieces
    (textBlock .synthetic "$(eval $(y))\n".toList).span = .panic e := by
  have h : (match parseLine noFs (recF noFs 10) PState.new pieces (textBlock .synthetic "$(eval $(y))\n".toList).span with
    | .panic _ => true
    | _ => false) = true := by decide +kernel
  split at h
  · rename_i e he
    exact ⟨e, he⟩
  · cases h

/-- The value of `y` is made of the two lines `a=1` and `b=2`: at `$(eval $(y))` the engine aborts. -/
theorem C78_refuted : ¬ C78_full := by
  intro h
  have hr : Ready _ _ _ _ _ PState.new pieces := ready_locate (l := .synthetic) (line := "$(eval $(y))".toList) (rest := [])
    (by unfold AsciiS; decide) (by decide) (by decide) (by simp) (by decide) rfl pieces_env.1
  have hread : Reads (locate .synthetic "$(y)".toList) (.ok [.ref .synthetic [.char ('y', .synthetic)]]) :=
    .paren (.ref (name := [('y', .synthetic)]) (rest := []) (by decide) (.char (by decide) .nil) .nil)
  have hexp := Expands.defined (l := .synthetic) (n := [('y', .synthetic)]) (.char .nil) not_subst pieces_env.2
    (.text _ _) .nil
  rw [List.append_nil] at hexp
  obtain ⟨st', ⟨N, j, _, h1⟩, _⟩ := h noFs _ _ _ _ _ _ _ _ _ _ _ _ hr (physical_locate (by decide) (by simp) (by decide))
    (by decide) init_known eval_y (eval_y.not_varLike (by decide)) hread hexp (free_locate (by decide)) (makes_two _ _ _) rfl
  obtain ⟨e, h2⟩ := pieces_abort
  have h3 := h1 (N + 10) (Nat.le_add_right _ _)
  rw [show (textBlock .synthetic ("$(eval $(y))".toList ++ '\n' :: [])) = textBlock .synthetic "$(eval $(y))\n".toList from rfl,
    (parseLine_le (recF_le noFs (Nat.le_add_left 10 N)) noFs _ _ _).panic h2] at h3
  cases h3

end Hastur
