import Verif.Proofs.RefRule
/-
C66: rules that come from the value of a variable.
-/
namespace Hastur

open Res Span

/-- The full claim: a line that is a reference, and whose expansion `u` is `targets : dependencies ; command`, is read as
this rule.  The dependencies are expanded once more. -/
def C66_full : Prop :=
  ∀ (fs : Fs) (P : Block) (i : Span) (p : PState) (st : St) (t line rest name u tt after ds dt : List LChar) (double : Bool)
    (command : Option (List LChar)) (vs us : List Str) (es des : List Expr) (recipe : List (List Expr)),
    Ready P i t line rest p st → Physical t line rest → st.commandChar ≠ '$' → ¬ VarLike line →
    RefLine line name → Reads line (.ok es) → Expands st.env es u vs →
    RuleText u tt double after ds command → FileNames tt → (textOf ds).head? ≠ some '/' → ¬ VarLike (after.dropWhile lblank) →
    Reads ds (.ok des) → Expands st.env des dt us → FileNames dt → CommandReads command recipe →
    ∃ r : ProtoRule, LineGives fs P i p st rest { p with currentRule := some r } (st.interned (vs ++ us)) ∧
      r.targets.map Block.ltext = wordsOf tt ∧ r.deps.map Block.ltext = wordsOf dt ∧ r.recipe.map Ast.flat = recipe ∧
      r.ruleType = (if double then .doubleColon else .standard)

/-- C66 for variables whose value is a text stored in one piece.  The name of the variable may itself contain references.
Missing are values that contain references. -/
theorem C66_rule_partial (fs : Fs) {P : Block} {i : Span} {p : PState} {st : St}
    {t line rest name n u tt after ds dt : List LChar} {double : Bool} {command : Option (List LChar)} {vs us : List Str}
    {ns des : List Expr} {recipe : List (List Expr)}
    (h : Ready P i t line rest p st) (hp : Physical t line rest) (hc : st.commandChar ≠ '$') (hnv : ¬ VarLike line)
    (hl : RefLine line name) (hname : Reads name (.ok ns)) (hn : Expands st.env ns n vs) (hs : ¬ IsSubst (textOf n))
    (hv : st.HoldsText (textOf n) u)
    (hrule : RuleText u tt double after ds command) (htt : FileNames tt) (hslash : (textOf ds).head? ≠ some '/')
    (hvar : ¬ VarLike (after.dropWhile lblank)) (hdr : Reads ds (.ok des)) (hde : Expands st.env des dt us)
    (hdt : FileNames dt) (hcr : CommandReads command recipe) :
    ∃ r : ProtoRule, LineGives fs P i p st rest { p with currentRule := some r } (st.interned (vs ++ textOf n :: us)) ∧
      r.targets.map Block.ltext = wordsOf tt ∧ r.deps.map Block.ltext = wordsOf dt ∧ r.recipe.map Ast.flat = recipe ∧
      r.ruleType = (if double then .doubleColon else .standard) :=
  parseLine_ref fs h hp hc hnv hl hname hn hs hv hrule htt hslash hvar hdr hde hdt hcr

/-- `HoldsText` says in particular that the line expands to the text. -/
theorem C66_expands {st : St} {line name n u : List LChar} {ns : List Expr} {vs : List Str} (hl : RefLine line name)
    (hname : Reads name (.ok ns)) (hn : Expands st.env ns n vs) (hs : ¬ IsSubst (textOf n)) (hv : st.HoldsText (textOf n) u) :
    ∃ es, Reads line (.ok es) ∧ Expands st.env es u (vs ++ [textOf n]) := by
  obtain ⟨p, h1, h2⟩ := hv
  have henv : st.env (textOf n) = some (Expr.text u) := by
    unfold St.env
    have : (st.names.variableName (textOf n)).bind st.db.getVariable = some p := h1
    rw [this]
    generalize hv : p.value = v at h2
    cases h2 <;> simp [hv, Ast.flat]
  cases hl with
  | @mk l0 l' l'' _ hb hcalls hch =>
    refine ⟨[.ref l0 ns], .paren ?_, ?_⟩
    · rw [closing_of_balanced hb]
      exact .ref hcalls hname .nil
    · have := Expands.defined (l := l0) hn hs henv (.text _ u) .nil
      simpa using this

private def noFs : Fs := fun _ => .missing
private def txt (s : String) : Ast := .constant .synthetic ⟨.synthetic, s.toList⟩
private def ref (s : String) : Ast := .varRef .synthetic (txt s)

/-- The line `$(y)`. -/
private theorem ref_y (l : Location) : ∃ n, RefLine (locate l "$(y)".toList) n ∧ textOf n = ['y'] ∧ Free '$' n := by
  refine ⟨locate ((l.after ['$']).after ['(']) ['y'], ?_, rfl, free_locate (by decide)⟩
  have hc : ∀ x ∈ locate ((l.after ['$']).after ['(']) ['y'], x.1 ∉ [';', '#', '\\'] :=
    mem_locate (q := fun c => c ∉ [';', '#', '\\']) (by decide)
  exact .mk (l := l) (l' := l.after ['$']) (l'' := ((l.after ['$']).after ['(']).after ['y'])
    (.char (by show 'y' ≠ '('; decide) (by show 'y' ≠ ')'; decide) .nil) rfl hc

private theorem not_var {l : Location} : ¬ VarLike (locate l "$(y)".toList) :=
  not_varLike (by rw [textOf_locate]; decide) (by rw [textOf_locate]; unfold varWords; decide)

private theorem not_subst : ¬ IsSubst ['y'] := by
  rintro ⟨a, b, c, h, _⟩
  match a, h with
  | [_], h => cases h
  | _ :: _ :: _, h => cases h

/-- The variable `x` holds `2`, and the variable `y` holds `a b: $x c; d $x`. -/
private def demo : St := (St.init.define ['x'] (txt "2")).define ['y'] (txt "a b: $x c; d $x")

private theorem demo_wf : demo.WF ∧ demo.env ['x'] = some (Expr.text (locate .synthetic ['2'])) := by
  obtain ⟨h1, e1⟩ := St.init_wf.define (s := ['x']) (a := txt "2") (f := .recursive) (by show AsciiS _; unfold AsciiS; decide)
  obtain ⟨h2, e2⟩ := h1.define (s := ['y']) (a := txt "a b: $x c; d $x") (f := .recursive)
    (by show AsciiS _; unfold AsciiS; decide)
  refine ⟨h2, ?_⟩
  unfold demo
  rw [e2, if_neg (by decide), e1, if_pos rfl]
  rfl

/-- `$(y)` is read as the rule `a b: 2 c` with the command `d $x`. -/
example : ∃ (st : St) (r : ProtoRule), LineGives noFs (textBlock .synthetic "$(y)\n".toList)
      (textBlock .synthetic "$(y)\n".toList).span PState.new demo [] { PState.new with currentRule := some r } st ∧
    r.targets.map (fun b => textOf (Block.ltext b)) = [['a'], ['b']] ∧
    r.deps.map (fun b => textOf (Block.ltext b)) = [['2'], ['c']] ∧ r.recipe.length = 1 ∧ r.ruleType = .standard := by
  obtain ⟨n, hl, hn, hf⟩ := ref_y .synthetic
  have hr : Ready _ _ _ _ _ PState.new demo := ready_locate (l := .synthetic) (line := "$(y)".toList) (rest := [])
    (by unfold AsciiS; decide) (by decide) (by decide) (by simp) (by decide) rfl demo_wf.1
  have hdeps : Reads (locate .synthetic " $x c".toList) (.ok [.char (' ', .synthetic),
      .ref .synthetic [.char ('x', .synthetic)], .char (' ', .synthetic), .char ('c', .synthetic)]) :=
    .char (by decide) (.single (by decide) (by decide) (by decide) (reads_text (t := locate .synthetic " c".toList)
      (free_locate (by decide))))
  have hcmd : Reads (locate .synthetic " d $x".toList) (.ok [.char (' ', .synthetic), .char ('d', .synthetic),
      .char (' ', .synthetic), .ref .synthetic [.char ('x', .synthetic)]]) :=
    .char (by decide) (.char (by decide) (.char (by decide) (.single (by decide) (by decide) (by decide) .nil)))
  obtain ⟨r, h1, h2, h3, h4, h5⟩ := C66_rule_partial noFs hr (physical_locate (by decide) (by simp) (by decide)) (by decide)
    not_var hl (reads_text hf) (.text _ n) (by rw [hn]; exact not_subst)
    (u := locate .synthetic "a b: $x c; d $x".toList) (by rw [hn]; exact ⟨_, rfl, .constant .synthetic ⟨.synthetic, "a b: $x c; d $x".toList⟩⟩)
    (RuleText.command (ts := locate .synthetic "a b".toList) (cs := locate .synthetic [':'])
      (ds := locate .synthetic " $x c".toList) (cmd := locate .synthetic " d $x".toList) (double := false) (l := .synthetic)
      rfl (mem_locate (q := fun c => c ∉ [':', '=', ';', '#', '\\']) (by decide)))
    (mem_locate (q := fun c => WordChar c ∨ isWhitespace c = true) (by unfold WordChar; decide)) (by decide)
    (not_varLike (by decide) (by unfold varWords; decide)) hdeps
    (.char (.defined (n := [('x', .synthetic)]) (.char .nil) (by
        rintro ⟨a, b, c, h, _⟩
        match a, h with
        | [_], h => cases h
        | _ :: _ :: _, h => cases h) demo_wf.2 (.text _ _) (.char (.char .nil))))
    (mem_locate (s := " 2 c".toList) (q := fun c => WordChar c ∨ isWhitespace c = true) (by unfold WordChar; decide))
    (.some hcmd)
  refine ⟨_, r, h1, ?_, ?_, ?_, h5⟩
  · have := congrArg (List.map textOf) h2
    rw [List.map_map] at this
    exact this
  · have := congrArg (List.map textOf) h3
    rw [List.map_map] at this
    exact this
  · have := congrArg List.length h4
    simpa using this

/-- The variable `y` holds `$x:$x b`, which is stored in four pieces. -/
private def pieces : St := (St.init.define ['x'] (txt "2")).define ['y']
  (.concat .synthetic [ref "x", txt ":", ref "x", txt " b"])

private theorem pieces_env : pieces.WF ∧ pieces.env ['x'] = some (Expr.text (locate .synthetic ['2'])) ∧
    pieces.env ['y'] = some [.ref .synthetic [.char ('x', .synthetic)], .char (':', .synthetic),
      .ref .synthetic [.char ('x', .synthetic)], .char (' ', .synthetic), .char ('b', .synthetic)] := by
  obtain ⟨h1, e1⟩ := St.init_wf.define (s := ['x']) (a := txt "2") (f := .recursive) (by show AsciiS _; unfold AsciiS; decide)
  obtain ⟨h2, e2⟩ := h1.define (s := ['y']) (a := .concat .synthetic [ref "x", txt ":", ref "x", txt " b"]) (f := .recursive)
    (by
      refine ⟨?_, ?_, ?_, ?_, trivial⟩ <;>
      · show AsciiS _
        unfold AsciiS; decide)
  refine ⟨h2, ?_, ?_⟩
  · unfold pieces
    rw [e2, if_neg (by decide), e1, if_pos rfl]
    rfl
  · unfold pieces
    rw [e2, if_pos rfl]
    rfl

private theorem pieces_abort : ∃ e, parseLine noFs (recF noFs 8) PState.new pieces
    (textBlock .synthetic "$(y)\n".toList).span = .panic e := by
  have h : (match parseLine noFs (recF noFs 8) PState.new pieces (textBlock .synthetic "$(y)\n".toList).span with
    | .panic _ => true
    | _ => false) = true := by decide +kernel
  split at h
  · rename_i e he
    exact ⟨e, he⟩
  · cases h

private theorem x_two {es : List Expr} {t : List LChar} {vs : List Str} (h : Expands pieces.env es t vs) :
    Expands pieces.env (.ref .synthetic [.char ('x', .synthetic)] :: es) (('2', .synthetic) :: t) (['x'] :: vs) := by
  have := Expands.defined (l := .synthetic) (n := [('x', .synthetic)]) (.char .nil) (by
    rintro ⟨a, b, c, h, _⟩
    match a, h with
    | [_], h => cases h
    | _ :: _ :: _, h => cases h) pieces_env.2.1 (.text _ _) h
  exact this

/-- `y=$x:$x b` and then `$(y)`: the engine aborts. -/
theorem C66_refuted : ¬ C66_full := by
  intro h
  obtain ⟨n, hl, hn, hf⟩ := ref_y .synthetic
  have hr : Ready _ _ _ _ _ PState.new pieces := ready_locate (l := .synthetic) (line := "$(y)".toList) (rest := [])
    (by unfold AsciiS; decide) (by decide) (by decide) (by simp) (by decide) rfl pieces_env.1
  have hread : Reads (locate .synthetic "$(y)".toList) (.ok [.ref .synthetic [.char ('y', .synthetic)]]) :=
    .paren (.ref (name := [('y', .synthetic)]) (rest := []) (by decide) (.char (by decide) .nil) .nil)
  have hexp : Expands pieces.env [.ref .synthetic [.char ('y', .synthetic)]] (locate .synthetic "2:2 b".toList)
      ([] ++ ['y'] :: ([['x'], ['x']] ++ [])) := by
    have := Expands.defined (l := .synthetic) (n := [('y', .synthetic)]) (.char .nil) not_subst pieces_env.2.2
      (x_two (.char (x_two (.char (.char .nil))))) .nil
    rwa [List.append_nil] at this
  obtain ⟨r, ⟨N, j, _, h1⟩, _⟩ := h noFs _ _ _ _ _ _ _ _ (locate .synthetic "2:2 b".toList) (locate .synthetic ['2'])
    (locate .synthetic "2 b".toList) (locate .synthetic "2 b".toList) (locate .synthetic "2 b".toList) false none
    _ [] _ _ [] hr (physical_locate (by decide) (by simp) (by decide)) (by decide) not_var hl hread hexp
    (.plain (ts := locate .synthetic ['2']) (cs := locate .synthetic [':']) (ds := locate .synthetic "2 b".toList) rfl
      (mem_locate (q := fun c => c ∉ [':', '=', ';', '#', '\\']) (by decide)))
    (mem_locate (q := fun c => WordChar c ∨ isWhitespace c = true) (by unfold WordChar; decide)) (by decide)
    (not_varLike (by decide) (by unfold varWords; decide)) (reads_text (free_locate (by decide))) (.text _ _)
    (mem_locate (q := fun c => WordChar c ∨ isWhitespace c = true) (by unfold WordChar; decide)) .none
  obtain ⟨e, h2⟩ := pieces_abort
  have h3 := h1 (N + 8) (Nat.le_add_right _ _)
  rw [show (textBlock .synthetic ("$(y)".toList ++ '\n' :: [])) = textBlock .synthetic "$(y)\n".toList from rfl,
    (parseLine_le (recF_le noFs (Nat.le_add_left 8 N)) noFs _ _ _).panic h2] at h3
  cases h3

end Hastur
