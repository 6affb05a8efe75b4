import Verif.Proofs.HaltsParse
import Verif.Spec.Halts
/-
Lemmas: the loops of evaluation, of target lines and of the line driver end, if the recursive calls do.
-/
namespace Hastur

open Res Nom

/-! ### Substitution references -/

theorem withIndices_pos (cs : List Char) : ∀ n : Nat, ∀ x ∈ Span.withIndices n cs, n ≤ x.1 := by
  induction cs with
  | nil => intro n x hx; cases hx
  | cons c cs ih =>
    intro n x hx
    simp only [Span.withIndices, List.mem_cons] at hx
    rcases hx with rfl | hx
    · exact Nat.le_refl _
    · have := ih _ x hx
      omega

/-- A search that succeeds at index 0 has found the first character. -/
theorem findChar_zero {i : Span} {p : Char → Bool} {c : Char} (h : i.findChar p = .ok (some (0, c))) :
    i.chars.items.head? = some c ∧ p c = true := by
  have h1 := (findChar_sat i p).2 _ h
  have h2 := List.find?_some h1
  refine ⟨?_, h2⟩
  cases hc : i.chars.items with
  | nil => rw [hc] at h1; cases h1
  | cons d ds =>
    rw [hc] at h1
    have h3 := List.mem_of_find?_eq_some h1
    simp only [Span.withIndices, List.mem_cons] at h3
    rcases h3 with h3 | h3
    · cases h3; rfl
    · have := withIndices_pos _ _ _ h3
      have := d.utf8Size_pos
      simp at *
      omega

theorem token_sat {i : Span} (hi : i.Norm) (h0 : 0 < i.length) : (token i).SatP fun r _ => r.length < i.length ∧ r.Norm := by
  refine (whitespace_sat i).andThen fun j _ _ hj => (takeWhile_sat _ j).andThen fun k t _ hk => (whitespace_sat k).andThen fun r _ _ hr =>
    SatP.done ⟨?_, hr.2.1⟩
  obtain ⟨h1, h2, _, h3⟩ := hj
  obtain ⟨h4, h5, _, h6⟩ := hk
  have := hr.1
  rcases Nat.lt_or_ge r.length i.length with h | h
  · exact h
  exfalso
  obtain ⟨rfl, c, hc⟩ := h3 hi (by omega) (by omega)
  obtain ⟨rfl, d, hd⟩ := h6 hi (by omega) (by omega)
  obtain ⟨e1, e2⟩ := findChar_zero hc
  obtain ⟨e3, e4⟩ := findChar_zero hd
  rw [e1] at e3
  cases e3
  cases hb : isBlank c <;> rw [hb] at e2 e4 <;> cases e2 <;> cases e4

theorem takeUntil_le (w : Str) (i : Span) : (takeUntil w i).SatP fun r _ => r.length ≤ i.length :=
  (takeUntil_sat w i).imp fun _ _ h => by omega

theorem takeUntilAndConsume_le (w : Str) (i : Span) : (takeUntilAndConsume w i).SatP fun r _ => r.length ≤ i.length :=
  (takeUntilAndConsume_sat w i).imp fun _ _ h => h.1

theorem matchToken_sat (pre post : Str) (t : Span) : (matchToken pre post t).SatP fun _ _ => True :=
  (tag_sat _ _).andThen fun _ _ _ _ => (recognize_sat (many1_sat (takeUntil_le post) _)).andThen fun _ _ _ _ =>
    (tag_sat _ _).andThen fun _ _ _ _ => SatP.done trivial

theorem replaceToken_sat (pre post : Str) (preR postR : Span) (out : Block) (t : Span) : (replaceToken pre post preR postR out t).Sat fun _ => True := by
  refine .ite (fun _ => pushAll_sat _ _) fun _ => Sat.bind (matchToken_sat _ _ _) fun a _ _ => ?_
  cases a with
  | err e => exact pushAll_sat _ _
  | done r c => exact .ite (fun _ => pushAll_sat _ _) fun _ => (pushAll_sat _ _).bind fun _ _ _ => (pushAll_sat _ _).bind fun _ _ _ => pushAll_sat _ _

theorem replaceLoop_sat (pre post : Str) (preR postR : Span) (n : Nat) : ∀ (first : Bool) (i : Span) (out : Block), i.Norm → i.length < n →
    (replaceLoop pre post preR postR n first i out).Sat fun _ => True := by
  induction n with
  | zero => intro _ i _ _ h; omega
  | succ n ih =>
    intro first i out hi hn
    refine .ite (fun h0 => Sat.bind (token_sat hi h0) fun a _ ha => ?_) fun _ => .ok trivial
    cases a with
    | err e => exact .panic
    | done r t =>
      have ha : r.length < i.length ∧ r.Norm := ha
      exact (replaceToken_sat _ _ _ _ _ _).bind fun _ _ _ => ih _ r _ ha.2 (by omega)

theorem doReplacement_sat {i : Span} (hi : i.Norm) (sens : Sens) (pre post : Str) (preR postR : Span) :
    (doReplacement i sens pre post preR postR).Sat fun _ => True :=
  (replaceLoop_sat _ _ _ _ _ _ i _ hi (by omega)).bind fun _ _ _ => (simplify_sat _).imp fun _ _ => trivial

theorem doSubref_sat {value : Block} (hv : value.Solid) (sens : Sens) (key repl : Block) : (doSubref sens value key repl).Sat fun _ => True := by
  refine (takeUntilUnquote_sat _ _).bind fun x _ _ => ?_
  obtain ⟨pre, o⟩ := x
  cases o with
  | none => exact (blockString_sat _).bind fun _ _ _ => doReplacement_sat (span_norm hv) _ _ _ _ _
  | some y =>
    refine (blockString_sat _).bind fun _ _ _ => (spanString_sat _).bind fun _ _ _ => (takeUntilUnquote_sat _ _).bind fun x _ _ => ?_
    obtain ⟨preR, o⟩ := x
    cases o with
    | none => exact doReplacement_sat (span_norm hv) _ _ _ _ _
    | some y => exact doReplacement_sat (span_norm hv) _ _ _ _ _

/-! ### Evaluation -/

section
variable {r : Rec} (hr : r.Ends)
include hr

theorem eval_sat (a : Ast) (st : St) : (r.eval a st).Sat fun x => x.1.Solid :=
  (Sat.of_halts (hr.eval a st)).bind fun _ _ _ => (new_sat _ _).bind fun _ _ h => .ok h.1

theorem eval_empty_sat (l : Location) (st : St) : (r.eval (.empty l) st).Sat fun x => x.1.len = 0 :=
  (Sat.of_halts (hr.eval _ st)).bind fun x hx _ => (new_sat _ _).bind fun b _ h => .ok (by
    obtain ⟨⟨s, c⟩, st'⟩ := x
    have : c = [] := hr.empty l st _ hx
    subst this
    exact h.2)

theorem evalConcat_sat (as : List Ast) : ∀ (sens : Sens) (out : List CRef) (st : St), (evalConcat r as sens out st).Sat fun _ => True := by
  induction as with
  | nil => intro _ _ _; exact .ok trivial
  | cons a as ih => intro _ _ st; exact (Sat.of_halts (hr.eval a st)).bind fun _ _ _ => ih _ _ _

theorem derefVariable_sat (name : Str) (sens : Sens) (st : St) : (derefVariable r name sens st).Sat fun x => x.1.1.Solid := by
  unfold derefVariable
  simp only
  split
  · exact (eval_sat hr _ _).bind fun _ _ h => .ok h
  · exact .ok (by intro c hc; cases hc)

theorem colonFind_sat (i : Span) : (colonFind i).SatP fun _ _ => True :=
  (recognize_sat (many1_sat (takeUntilAndConsume_le _) _)).andThen fun _ _ _ _ =>
    (recognize_sat (many1_sat (takeUntilAndConsume_le _) _)).andThen fun _ _ _ _ => SatP.done trivial

theorem evalVarRef_sat (name : Ast) (st : St) : (evalVarRef r name st).Sat fun _ => True := by
  refine (eval_sat hr _ _).bind fun x _ _ => Sat.bind (colonFind_sat hr _) fun a _ _ => ?_
  cases a with
  | err e => exact (blockString_sat _).bind fun _ _ _ => (derefVariable_sat hr _ _ _).bind fun _ _ _ => .ok trivial
  | done i x =>
    exact (usub_sat _ _).bind fun _ _ _ => (toNewBlock_sat _).bind fun _ _ _ => (usub_sat _ _).bind fun _ _ _ => (toNewBlock_sat _).bind fun _ _ _ =>
      (toNewBlock_sat _).bind fun _ _ _ => (blockString_sat _).bind fun _ _ _ => (derefVariable_sat hr _ _ _).bind fun x _ hx =>
      (doSubref_sat hx _ _ _).bind fun _ _ _ => .ok trivial

theorem evalStep_sat (a : Ast) (st : St) : (evalStep r a st).Sat fun _ => True := by
  cases a with
  | constant l s => exact .ok trivial
  | concat l cs => exact evalConcat_sat hr _ _ _ _
  | preEvaluated l b => exact .ok trivial
  | varRef l n => exact evalVarRef_sat hr _ _
  | eval l a =>
    refine (eval_sat hr _ _).bind fun x _ _ => (new_sat _ _).bind fun b _ hb => (Sat.of_halts (hr.process b _ hb.1)).bind fun y _ _ => ?_
    obtain ⟨res, st'⟩ := y
    cases res with
    | ok _ => exact .ok trivial
    | error _ => exact .panic
  | empty l => exact .ok trivial
  | strip l a => exact .panic
  | word l a b => exact .panic
  | words l a => exact .panic

/-! ### Variable lines -/

theorem evalName_sat (a : Ast) (st : St) : (evalName r a st).Sat fun _ => True :=
  (eval_sat hr _ _).bind fun _ _ _ => (blockString_sat _).bind fun _ _ _ => .ok trivial

omit hr in
theorem assignOperator_sat (i : Span) : (assignOperator i).SatP fun r _ => r.length ≤ i.length := by
  have hk : ∀ (w : Str) (t : AssignType), ((tag w i).mapP fun _ => t).SatP fun r _ => r.length ≤ i.length :=
    fun w t => (tag_sat _ _).mapP fun _ _ h => by omega
  exact SatP.orElse (hk _ _) fun _ => SatP.orElse (hk _ _) fun _ => SatP.orElse (hk _ _) fun _ => SatP.orElse (hk _ _) fun _ => SatP.orElse (hk _ _) fun _ => hk _ _

omit hr in
theorem parseAssignmentOperator_sat (i : Span) : (parseAssignmentOperator i).SatP fun _ _ => True :=
  (takeTill_sat _ _).andThen fun _ _ _ _ => (whitespace_sat _).andThen fun _ _ _ _ => (assignOperator_sat _).andThen fun _ _ _ _ =>
    (whitespace_sat _).andThen fun _ _ _ _ => SatP.done trivial

omit hr in
theorem splitAssignment_sat (i : Span) : (splitAssignment i).SatP fun _ _ => True :=
  (parseAssignmentOperator_sat _).andThen fun _ _ _ _ => (whitespace_sat _).andThen fun _ _ _ _ => (parseAst_sat _).andThen fun _ _ _ _ =>
    (parseAst_sat _).andThen fun _ _ _ _ => SatP.done trivial

theorem parseVariableAssignment_sat (mods : Modifiers) (i : Span) (st : St) : (parseVariableAssignment r mods i st).Sat fun _ => True := by
  refine Sat.bind (splitAssignment_sat i) fun a _ _ => ?_
  cases a with
  | err e => exact .ok trivial
  | done post x =>
    obtain ⟨ty, n, v, va⟩ := x
    refine (evalName_sat hr _ _).bind fun _ _ _ => ?_
    cases ty with
    | simple => exact (eval_sat hr _ _).bind fun _ _ _ => (location_sat _).bind fun _ _ _ => (runwrap_sat _).bind fun _ _ _ => .ok trivial
    | _ => exact .ok trivial

omit hr in
theorem modifierKeyword_sat (i : Span) : (modifierKeyword i).SatP fun r _ => r.length < i.length := by
  have hk : ∀ (w : Str) (t : Modifier), blen w ≠ 0 → ((tagNoCase w i).mapP fun _ => t).SatP fun r _ => r.length < i.length :=
    fun w t h => (tagNoCase_sat _ _).mapP fun _ _ h' => by omega
  refine SatP.andThen (Q := fun r _ => r.length < i.length) ?_ fun k _ _ hk => (whitespace_sat k).andThen fun _ _ _ h => SatP.done (by omega)
  exact SatP.orElse (hk _ _ (by decide)) fun _ => SatP.orElse (hk _ _ (by decide)) fun _ => SatP.orElse (hk _ _ (by decide)) fun _ =>
    SatP.orElse (hk _ _ (by decide)) fun _ => hk _ _ (by decide)

omit hr in
theorem defineWholeName_sat (mods : Modifiers) (i : Span) (st : St) : (defineWholeName mods i st).Sat fun _ => True :=
  (spanString_sat _).bind fun _ _ _ => (sliceFrom_sat _ _).bind fun _ _ _ => .ok trivial

theorem parseDefineHead_sat (mods : Modifiers) (i : Span) (st : St) : (parseDefineHead r mods i st).Sat fun _ => True := by
  refine Sat.bind ((parseAssignmentOperator_sat i).andThen (R := fun _ _ => True) fun _ _ _ _ => (whitespace_sat _).andThen fun _ _ _ _ => SatP.done trivial)
    fun a _ _ => ?_
  cases a with
  | err e => exact defineWholeName_sat _ _ _
  | done t x =>
    refine .ite (fun _ => Sat.bind (parseAst_sat _) fun a _ _ => ?_) fun _ => defineWholeName_sat _ _ _
    cases a with
    | err e => exact .ok trivial
    | done _ a => exact (evalName_sat hr _ _).bind fun _ _ _ => .ok trivial

theorem modifierLoop_sat (n : Nat) : ∀ (mods : Modifiers) (i : Span) (st : St), i.length < n → (modifierLoop r n mods i st).Sat fun _ => True := by
  induction n with
  | zero => intro _ i _ h; omega
  | succ n ih =>
    intro mods i st hn
    refine (parseVariableAssignment_sat hr mods i st).bind fun x _ _ => ?_
    obtain ⟨res, st⟩ := x
    have hnext : (do match ← modifierKeyword i with
        | .err _ => return (.err (.error (.custom (.internalFailure "not an assignment".toList))), st)
        | .done i m =>
          match m with
          | .export_ => modifierLoop r n { mods with export_ := true } i st
          | .override_ => modifierLoop r n { mods with override_ := true } i st
          | .private_ => modifierLoop r n { mods with private_ := true } i st
          | .define => parseDefineHead r { mods with define := true } i st
          | .undefine => .panic .unimplemented : Res (IRes VarAction × St)).Sat fun _ => True := by
      refine Sat.bind (modifierKeyword_sat i) fun a _ ha => ?_
      cases a with
      | err e => exact .ok trivial
      | done j m =>
        have ha : j.length < i.length := ha
        cases m with
        | undefine => exact .panic
        | define => exact parseDefineHead_sat hr _ _ _
        | _ => exact ih _ _ _ (by omega)
    simp only
    split
    · exact .ok trivial
    · exact .ok trivial
    · exact .ok trivial
    · exact hnext

theorem parseVariableLine_sat (i : Span) (st : St) : (parseVariableLine r i st).Sat fun _ => True := by
  refine Sat.bind (whitespace_sat i) fun a _ _ => ?_
  cases a with
  | err e => exact .ok trivial
  | done j _ => exact .ite (fun _ => .ok trivial) fun _ => modifierLoop_sat hr _ _ j _ (by omega)

omit hr in
theorem grabDefineLine_sat (i : Span) : (grabDefineLine i).SatP fun r q => r.Norm ∧ (i.length ≠ 0 → q.length ≠ 0 → r.length < i.length) := by
  refine SatP.orElse ((takeUntil_sat _ _).imp fun r q h => ⟨h.2.1, fun _ _ => by omega⟩) fun _ =>
    SatP.orElse ?_ fun _ => SatP.orElse ?_ fun _ => (rest_sat _).imp fun r q h => ⟨h.2.1, fun _ _ => by omega⟩
  · refine (recognize_sat (Q := fun r => r.length < i.length ∧ r.Norm) ?_).imp fun _ _ h => ⟨h.2, fun _ _ => h.1⟩
    refine (takeUntil_sat _ _).andThen fun _ _ _ h => (tag_sat _ _).imp fun _ _ h' => ⟨?_, h'.2.1⟩
    have : blen ['\n'] = 1 := rfl
    omega
  · refine (recognize_sat (Q := fun r => r.length < i.length ∧ r.Norm) ?_).imp fun _ _ h => ⟨h.2, fun _ _ => h.1⟩
    refine (takeUntil_sat _ _).andThen fun _ _ _ h => (tag_sat _ _).imp fun _ _ h' => ⟨?_, h'.2.1⟩
    have : blen ['\r', '\n'] = 2 := rfl
    omega

omit hr in
theorem parseDefineLine_sat {i : Span} (h0 : i.length ≠ 0) : (parseDefineLine i).SatP fun r _ => r.length < i.length ∧ r.Norm := by
  refine (grabDefineLine_sat i).andThen fun next line _ h => (location_sat _).bind fun o _ ho => (runwrap_sat _).bind fun loc _ hl => ?_
  have hlt : next.length < i.length := h.2 h0 fun e => by rw [ho e] at hl; cases hl
  refine (parseAst_sat _).andThen fun _ _ _ _ => (whitespace_sat _).andThen fun j _ _ _ => SatP.andThen (Q := fun _ _ => True) ?_ fun _ _ _ _ =>
    (takeWhile_sat _ _).andThen fun _ _ _ _ => .ite (fun _ => SatP.err) fun _ => SatP.done ⟨hlt, h.1⟩
  exact SatP.orElse ((tag_sat _ _).mapP fun _ _ _ => trivial) fun _ => SatP.orElse ((tag_sat _ _).mapP fun _ _ _ => trivial) fun _ =>
    (rest_sat _).mapP fun _ _ _ => trivial

/-! ### Target lines -/

omit hr in
theorem mwordScan_sat (crash : Bool) (cs : List (Nat × Char)) : ∀ (mode : MWordMode) (prev : Char) (stop : Nat) (reason : MWordEnd),
    (mwordScan crash mode prev stop reason cs).Sat fun _ => True := by
  induction cs with
  | nil => intro _ _ _ _; exact .ite (fun _ => .panic) fun _ => .ok trivial
  | cons x cs ih =>
    intro mode prev stop reason
    obtain ⟨idx, c⟩ := x
    unfold mwordScan
    cases mode with
    | normal =>
      refine .ite (fun _ => .ok trivial) fun _ => .ite (fun _ => .ite (fun _ => .panic) fun _ => .ite (fun _ => ih _ _ _ _) fun _ => .ok trivial) fun _ =>
        .ite (fun _ => ih _ _ _ _) fun _ => .ite (fun _ => ?_) fun _ => .ite (fun _ => ?_) fun _ => ih _ _ _ _
      · split
        · exact ih _ _ _ _
        · exact .ite (fun _ => ih _ _ _ _) fun _ => ih _ _ _ _
      · split
        · exact ih _ _ _ _
        · exact .ite (fun _ => .ok trivial) fun _ => ih _ _ _ _
    | escaped => exact ih _ _ _ _
    | afterDollar => exact .ite (fun _ => ih _ _ _ _) fun _ => .ite (fun _ => ih _ _ _ _) fun _ => .ite (fun _ => ih _ _ _ _) fun _ => ih _ _ _ _
    | brackets o e n => exact .ite (fun _ => ih _ _ _ _) fun _ => .ite (fun _ => .ite (fun _ => ih _ _ _ _) fun _ => ih _ _ _ _) fun _ => ih _ _ _ _

omit hr in
theorem nextMword_sat (i : Span) : (nextMword i).SatP fun r x => r.length + x.1.length ≤ i.length := by
  refine (whitespace_sat i).andThen fun j _ _ hj => ?_
  have hk : ∀ (w : Str) (t : MWordEnd), ((tag w j).mapP fun c => (c, t)).SatP fun r x => r.length + x.1.length ≤ i.length :=
    fun w t => (tag_sat _ _).mapP fun _ _ h => by simp only; omega
  refine SatP.orElse (hk _ _) fun _ => SatP.orElse (hk _ _) fun _ => SatP.orElse (hk _ _) fun _ => SatP.orElse (hk _ _) fun _ =>
    SatP.orElse (hk _ _) fun _ => SatP.orElse (hk _ _) fun _ => SatP.orElse (hk _ _) fun _ => SatP.orElse (hk _ _) fun _ =>
    SatP.orElse (hk _ _) fun _ => (mwordScan_sat _ _ _ _ _ _).bind fun x _ _ => (takeSplit_sat _ _).bind fun y _ h => SatP.done ?_
  obtain ⟨h1, h2, h3⟩ := h
  rw [h3]
  simp only [Span.sliceTo]
  omega

omit hr in
theorem isDrivespec_sat (pre : Block) (post : Span) : (isDrivespec pre post).Sat fun _ => True := by
  refine (firstChar_sat _).bind fun o _ _ => ?_
  cases o with
  | none => exact .ok trivial
  | some ch =>
    refine .ite (fun _ => .ok trivial) fun _ => .ite (fun _ => .ok trivial) fun _ => .ite (fun _ => (firstChar_sat _).bind fun _ _ _ =>
      (runwrap_sat _).bind fun _ _ _ => .ok trivial) fun _ => (usub_sat _ _).bind fun _ _ _ => (sliceFrom_sat _ _).bind fun _ _ _ =>
      (rassert_sat _).bind fun _ _ _ => ?_
    split
    · exact .ok trivial
    · exact .panic

omit hr in
theorem colonLoop_sat (n : Nat) : ∀ (i : Span) (content : Block), i.length < n → (colonLoop n i content).Sat fun _ => True := by
  induction n with
  | zero => intro i _ h; omega
  | succ n ih =>
    intro i content hn
    refine (takeUntilUnquote_sat _ _).bind fun x _ hx => ?_
    obtain ⟨pre, o⟩ := x
    cases o with
    | none => exact (pushAll_sat _ _).bind fun _ _ _ => .ok trivial
    | some y =>
      obtain ⟨colon, post⟩ := y
      obtain ⟨h1, h2, h3⟩ := hx colon post rfl
      have hlt : post.length < i.length := h2 (Nat.pos_of_ne_zero fun h => by cases h3 h)
      exact (pushAll_sat _ _).bind fun _ _ _ => (isDrivespec_sat _ _).bind fun _ _ _ =>
        .ite (fun _ => (pushAll_sat _ _).bind fun _ _ _ => ih _ _ (by omega)) fun _ => .ok trivial

omit hr in
theorem findNonDrivespecColon_sat (i : Span) : (findNonDrivespecColon i).Sat fun _ => True := colonLoop_sat _ _ _ (by omega)

theorem expandSegment_sat (seg : Span) (st : St) : (expandSegment r seg st).Sat fun x => ∀ b, x.1 = .ok b → seg.length = 0 → b.len = 0 := by
  by_cases h0 : seg.length = 0
  · refine Sat.bind (parseAst_zero h0) fun a _ ha => ?_
    cases a with
    | err e => exact .ok (by intro b hb; cases hb)
    | done _ a =>
      have ha : a = Ast.mkEmpty := ha
      subst ha
      exact (eval_empty_sat hr _ st).bind fun x _ hx => .ok (by intro b hb _; cases hb; exact hx)
  · refine Sat.bind (parseAst_sat seg) fun a _ ha => ?_
    cases a with
    | err e => exact .ok (by intro b hb; cases hb)
    | done _ a => exact (eval_sat hr _ st).bind fun x _ hx => .ok (by intro b hb h; exact absurd h h0)

theorem semicolonInWord_sat (b : Block) (lineNext : Span) (postSemi : Option Block) (st : St) :
    (semicolonInWord r b lineNext postSemi st).Sat fun x => ∀ y, x.1 = .ok y → y.2.1.length ≤ lineNext.length ∧ (b.len = 0 → y.1.len = 0) := by
  cases postSemi with
  | some p => exact .ok (by intro y hy; cases hy; exact ⟨Nat.le_refl _, id⟩)
  | none =>
    refine (takeUntilUnquote_sat _ _).bind fun x _ hx => ?_
    obtain ⟨pre, o⟩ := x
    cases o with
    | none => exact .ok (by intro y hy; cases hy; exact ⟨Nat.le_refl _, id⟩)
    | some y =>
      obtain ⟨sc, post⟩ := y
      obtain ⟨_, _, h3⟩ := hx sc post rfl
      refine (toNewBlock_sat _).bind fun _ _ _ => (expandSegment_sat hr _ _).bind fun z _ _ => ?_
      obtain ⟨res, st'⟩ := z
      cases res with
      | error e => exact .ok (by intro y hy; cases hy)
      | ok rest =>
        refine (pushAll_sat _ _).bind fun _ _ _ => (sliceFrom_sat _ _).bind fun ln _ hln => .ok ?_
        intro y hy
        cases hy
        exact ⟨by simp only; omega, fun h => by cases h3 h⟩

omit hr in
theorem pushWord_sat (a b : Block) : (pushWord a b).Sat fun _ => True := pushAll_sat _ _

theorem wordLoop_sat (n : Nat) : ∀ (lineNext mw : Span) (mwt : MWordEnd) (pre : Block) (postSemi : Option Block) (st : St),
    (lineNext.length + 2 ≤ n ∨ (1 ≤ n ∧ mw.length = 0)) → (wordLoop r n lineNext mw mwt pre postSemi st).Sat fun _ => True := by
  induction n with
  | zero => intro _ _ _ _ _ _ h; omega
  | succ n ih =>
    intro lineNext mw mwt pre postSemi st hn
    refine (expandSegment_sat hr mw st).bind fun x _ hx => ?_
    obtain ⟨res, st⟩ := x
    cases res with
    | error e => exact .ok trivial
    | ok b =>
      refine (semicolonInWord_sat hr b lineNext postSemi st).bind fun y _ hy => ?_
      obtain ⟨res, st⟩ := y
      cases res with
      | error e => exact .ok trivial
      | ok y =>
        obtain ⟨b', lineNext', postSemi'⟩ := y
        obtain ⟨h1, h2⟩ := hy _ rfl
        refine .ite (fun _ => .ok trivial) fun hne => (findNonDrivespecColon_sat _).bind fun z _ _ => ?_
        have h1 : lineNext'.length ≤ lineNext.length := h1
        have hmw : mw.length ≠ 0 := fun h => hne (h2 (hx b rfl h))
        obtain ⟨p, o⟩ := z
        cases o with
        | some post => exact (toNewBlock_sat _).bind fun _ _ _ => (pushWord_sat _ _).bind fun _ _ _ => .ok trivial
        | none =>
          refine Sat.bind (nextMword_sat lineNext') fun a _ ha => ?_
          cases a with
          | err e => exact .ok trivial
          | done r' x =>
            obtain ⟨mw', mwt'⟩ := x
            have ha : r'.length + mw'.length ≤ lineNext'.length := ha
            refine .ite (fun _ => .ok trivial) fun _ => (pushWord_sat _ _).bind fun _ _ _ => ih _ _ _ _ _ _ ?_
            rcases hn with hn | ⟨_, h⟩
            · by_cases h0 : mw'.length = 0
              · right; exact ⟨by omega, h0⟩
              · left; omega
            · exact absurd h hmw

theorem finishRule_sat (rest : Span) (pre after : Block) (lineNext : Span) (postSemi : Option Block) (st : St) :
    (finishRule r rest pre after lineNext postSemi st).Sat fun _ => True := by
  refine (parseFileSeq_sat _ _).bind fun targets _ _ => (pushAll_sat _ _).bind fun _ _ _ => (pushAll_sat _ _).bind fun block _ _ => ?_
  simp only
  refine Sat.bind (Q := fun _ => True) ?_ fun block' _ _ => Sat.bind (Q := fun _ => True) ?_ fun x _ _ => ?_
  · cases postSemi with
    | none => exact .ok trivial
    | some b => exact pushAll_sat _ _
  · refine Sat.bind (tag_sat _ _) fun a _ _ => ?_
    cases a with
    | err e => exact .ok trivial
    | done i _ => exact (usub_sat _ _).bind fun _ _ _ => .ok trivial
  obtain ⟨slice, dc, n⟩ := x
  refine (parseVariableLine_sat hr _ _).bind fun y _ _ => ?_
  obtain ⟨var, st⟩ := y
  cases var with
  | done _ a => exact .ok trivial
  | err e =>
    refine Sat.bind (Q := fun _ => True) (.ite (fun _ => (sliceFrom_sat _ _).bind fun _ _ _ => .ok trivial) fun _ => .ok trivial) fun postSemi _ _ =>
      (expandSegment_sat hr _ _).bind fun z _ _ => ?_
    obtain ⟨res, st⟩ := z
    cases res with
    | error e => exact .ok trivial
    | ok buffer =>
      refine Sat.bind (Q := fun _ => True) ?_ fun w _ _ => ?_
      · cases postSemi with
        | some s => exact (toNewBlock_sat _).bind fun _ _ _ => .ok trivial
        | none =>
          refine (takeUntilUnquote_sat _ _).bind fun x _ _ => ?_
          obtain ⟨p, o⟩ := x
          cases o with
          | none => exact .ok trivial
          | some y => exact (toNewBlock_sat _).bind fun _ _ _ => .ok trivial
      obtain ⟨preB, postB⟩ := w
      refine Sat.bind (Q := fun _ => True) ?_ fun cmd _ _ => ?_
      · cases postB with
        | none => exact .ok trivial
        | some b => exact Sat.imp (SatP.mapP (R := fun _ _ => True) (parseAst_sat _) fun _ _ _ => trivial) fun _ _ => trivial
      cases cmd with
      | err e => exact .ok trivial
      | done _ c => exact (all_sat _).bind fun _ _ _ => .ite (fun _ => .panic) fun _ => (parseFileSeq_sat _ _).bind fun _ _ _ => .ok trivial

theorem parseTargetLine_sat (i : Span) (st : St) : (parseTargetLine r i st).Sat fun _ => True := by
  refine Sat.bind (makefileLine_sat i .gnu false) fun a _ _ => ?_
  cases a with
  | err e => exact .ok trivial
  | done rest line =>
    refine Sat.bind (Q := fun _ => True) ?_ fun x _ _ => ?_
    · refine (takeUntilUnquote_sat _ _).bind fun x _ _ => ?_
      obtain ⟨p, o⟩ := x
      cases o with
      | none => exact .ok trivial
      | some y => exact (firstChar_sat _).bind fun _ _ _ => .ite (fun _ => .ok trivial) fun _ => (toNewBlock_sat _).bind fun _ _ _ => .ok trivial
    obtain ⟨line, postSemi⟩ := x
    refine Sat.bind (nextMword_sat line.span) fun a _ ha => ?_
    cases a with
    | err e => exact .ok trivial
    | done lineNext x =>
      obtain ⟨mw, mwt⟩ := x
      have ha : lineNext.length + mw.length ≤ line.len := ha
      have hw : (do
        let (res, st) ← wordLoop r (line.len + 2) lineNext mw mwt Block.empty postSemi st
        match res with
        | .err e => return (.err e, st)
        | .noAction => return (.done rest .noAction, st)
        | .finished preColon afterColon lineNext postSemi mwt =>
          if mwt = .eol then do
            match ← whitespace preColon.span with
            | .err _ => .panic .unwrap
            | .done afterSpace _ =>
              if afterSpace.length = 0 then return (.done rest .noAction, st)
              else return (.err (.failure (.custom .missingSeparator)), st)
          else do
            let afterColon ← runwrap afterColon
            finishRule r rest preColon afterColon lineNext postSemi st : Res (IRes TargetAction × St)).Sat fun _ => True := by
        refine (wordLoop_sat hr _ _ _ _ _ _ _ (.inl (by omega))).bind fun x _ _ => ?_
        obtain ⟨res, st⟩ := x
        cases res with
        | err e => exact .ok trivial
        | noAction => exact .ok trivial
        | finished a b c d e =>
          refine .ite (fun _ => Sat.bind (whitespace_sat _) fun a _ _ => ?_) fun _ => (runwrap_sat _).bind fun _ _ _ => finishRule_sat hr _ _ _ _ _ _
          cases a with
          | err e => exact .panic
          | done _ _ => exact .ite (fun _ => .ok trivial) fun _ => .ok trivial
      cases mwt with
      | eol => exact .ite (fun _ => .ok trivial) fun _ => .ok trivial
      | colon => exact .ok trivial
      | dcolon => exact .ok trivial
      | static => exact hw
      | «variable» => exact hw
      | semicolon => exact hw
      | varAssign => exact hw

/-! ### The driver -/

omit hr in
theorem parseDirectiveLine_sat (i : Span) : (parseDirectiveLine i).SatP fun _ _ => True := by
  have hk : ∀ (w : Str) (f : Ast → Directive), ((tagNoCase w i).andThen fun i _ => (parseAst i).mapP f).SatP fun _ _ => True :=
    fun w f => (tagNoCase_sat _ _).andThen fun _ _ _ _ => (parseAst_sat _).mapP fun _ _ _ => trivial
  exact SatP.orElse (hk _ _) fun _ => SatP.orElse (hk _ _) fun _ => SatP.orElse (hk _ _) fun _ => SatP.orElse (hk _ _) fun _ =>
    SatP.orElse (hk _ _) fun _ => SatP.orElse (hk _ _) fun _ => SatP.orElse (hk _ _) fun _ => hk _ _

theorem readMakefile_sat (e : FsEntry) (name : Str) (st : St) : (readMakefile r e name st).Sat fun _ => True := by
  cases e with
  | text s => exact (new_sat _ _).bind fun b _ hb => Sat.of_halts (hr.process b _ hb.1)
  | _ => exact .ok trivial

theorem includeLoop_sat (fs : Fs) (soft : Bool) (files : List Block) : ∀ st : St, (includeLoop fs r soft files st).Sat fun _ => True := by
  induction files with
  | nil => intro st; exact .ok trivial
  | cons f files ih =>
    intro st
    refine (blockString_sat _).bind fun name _ _ => ?_
    have hread : ∀ e, (do
        let (res, st) ← readMakefile r e name st
        match res with
        | .ok () => includeLoop fs r soft files st
        | .error .ioError => return (.error (.includeFailure name), st)
        | .error (.parseError k) => return (.error k, st) : Res (Except ParseErrorKind Unit × St)).Sat fun _ => True := by
      intro e
      refine (readMakefile_sat hr e name st).bind fun x _ _ => ?_
      obtain ⟨res, st⟩ := x
      cases res with
      | ok _ => exact ih _
      | error k => cases k <;> exact .ok trivial
    cases fs name with
    | missing => exact .ite (fun _ => ih _) fun _ => .ok trivial
    | unreadable => exact hread _
    | text s => exact hread _

theorem handleDirective_sat (fs : Fs) (d : Directive) (st : St) : (handleDirective fs r d st).Sat fun _ => True := by
  have hi : ∀ soft a, (handleInclude fs r soft a st).Sat fun _ => True := fun soft a =>
    (eval_sat hr _ _).bind fun _ _ _ => (parseFileSeq_sat _ _).bind fun _ _ _ => includeLoop_sat hr _ _ _ _
  cases d with
  | include_ a => exact hi _ _
  | softInclude a => exact hi _ _
  | _ => exact .panic

omit hr in
theorem internBlocks_sat (bs : List Block) : ∀ names : NameCache, (Database.internBlocks names bs).Sat fun _ => True := by
  induction bs with
  | nil => intro _; exact .ok trivial
  | cons b bs ih => intro names; exact (blockString_sat _).bind fun _ _ _ => (ih _).bind fun _ _ _ => .ok trivial

omit hr in
theorem protoTargets_sat (deps : List Block) (dn : List FileName) (recipe : List Ast) (ty : RuleType) (ts : List Block) :
    ∀ (db : Database) (names : NameCache), (Database.protoTargets deps dn recipe ty ts db names).Sat fun _ => True := by
  induction ts with
  | nil => intro _ _; exact .ok trivial
  | cons t ts ih => intro db names; exact (blockString_sat _).bind fun _ _ _ => ih _ _

omit hr in
theorem closeRule_sat (p : PState) (st : St) : (p.closeRule st).Sat fun _ => True := by
  unfold PState.closeRule
  split
  · exact Sat.bind ((internBlocks_sat _ _).bind fun _ _ _ => protoTargets_sat _ _ _ _ _ _ _) fun _ _ _ => .ok trivial
  · exact .ok trivial

omit hr in
theorem handleVariableAction_sat (p : PState) (st : St) (a : VarAction) : (handleVariableAction p st a).Sat fun _ => True := by
  refine .ite (fun _ => .panic) fun _ => Sat.bind (Q := fun _ => True) (.ite (fun _ => (rassert_sat _).bind fun _ _ _ => .ok trivial) fun _ => .ok trivial)
    fun _ _ _ => ?_
  cases a.action <;> exact .ok trivial

omit hr in
theorem pushCommandLine_sat (p : PState) (a : Ast) : (p.pushCommandLine a).Sat fun _ => True := (runwrap_sat _).bind fun _ _ _ => .ok trivial

omit hr in
theorem handleTargetAction_sat (p : PState) (a : TargetAction) : (handleTargetAction p a).Sat fun _ => True := by
  cases a with
  | noAction => exact .ok trivial
  | newRule t d dc c => cases c with
    | none => exact .ok trivial
    | some c => exact pushCommandLine_sat _ _
  | targetVariable t a => exact .panic

omit hr in
theorem handleDefineLine_sat (p : PState) (st : St) (l : DefineLine) : (handleDefineLine p st l).Sat fun _ => True := by
  refine (runwrap_sat _).bind fun d _ _ => ?_
  simp only
  cases l.action with
  | append => exact .ok trivial
  | increaseNesting => exact .ok trivial
  | decreaseNesting => exact (usub_sat _ _).bind fun _ _ _ => .ite (fun _ => .ok trivial) fun _ => .ok trivial

theorem handleConditional_sat (p : PState) (st : St) (c : Conditional) : (handleConditional r p st c).Sat fun _ => True := by
  have hi : ∀ a b inv, (handleIfeq r p st a b inv).Sat fun _ => True := fun a b inv =>
    (eval_sat hr _ _).bind fun _ _ _ => (eval_sat hr _ _).bind fun _ _ _ => (blockString_sat _).bind fun _ _ _ => (blockString_sat _).bind fun _ _ _ => .ok trivial
  cases c with
  | ifEq a b => exact hi _ _ _
  | ifNEq a b => exact hi _ _ _
  | else_ f => cases f with
    | none =>
      simp only [handleConditional]
      split
      · exact .ok trivial
      · exact .ite (fun _ => .ok trivial) fun _ => .ok trivial
    | some c => exact .panic
  | endIf => exact .ite (fun _ => .ok trivial) fun _ => .ok trivial
  | ifDef a => exact .panic
  | ifNDef a => exact .panic

/-- The line ends with a shorter text or an error. -/
def LineOut.Shrinks (n : Nat) (x : LineOut) : Prop := x.1.On fun r _ => r.length < n ∧ r.Norm

omit hr in
theorem lineResult_shrinks {i : Span} {n : Nat} (h : i.length < n ∧ i.Norm) (x : Handled) : (lineResult i x).Shrinks n := by
  obtain ⟨e, p, st⟩ := x
  cases e with
  | error k => exact trivial
  | ok _ => exact h

theorem parseStatement_sat (fs : Fs) (p : PState) (st : St) {i : Span} (line : Block) {n : Nat} (h : i.length < n ∧ i.Norm) :
    (parseStatement fs r p st i line).Sat (LineOut.Shrinks n) := by
  refine (parseVariableLine_sat hr _ _).bind fun x _ _ => ?_
  obtain ⟨var, st⟩ := x
  rcases var with ⟨_, a⟩ | (k | k)
  · exact (closeRule_sat _ _).bind fun _ _ _ => (handleVariableAction_sat _ _ _).bind fun _ _ _ => .ok h
  · refine Sat.bind (parseDirectiveLine_sat _) fun d _ _ => ?_
    rcases d with ⟨_, d⟩ | (k | k)
    · exact (closeRule_sat _ _).bind fun _ _ _ => (handleDirective_sat hr _ _ _).bind fun _ _ _ => .ok (lineResult_shrinks h _)
    · refine (firstChar_sat _).bind fun c _ _ => .ite (fun _ => .ok trivial) fun _ => (parseTargetLine_sat hr _ _).bind fun y _ _ => ?_
      obtain ⟨t, st⟩ := y
      rcases t with ⟨_, t⟩ | (k | k)
      · exact (closeRule_sat _ _).bind fun _ _ _ => (handleTargetAction_sat _ _).bind fun _ _ _ => .ok h
      · exact .ok h
      · exact .ok trivial
    · exact .ok trivial
  · exact .ok trivial

theorem parseCollapsed_sat (fs : Fs) (p : PState) (st : St) {i : Span} (hi : i.Norm) (h0 : 0 < i.length) {k : NErr}
    (hc : parseCommentFollowingWhitespace i = .ok (.err k)) : (parseCollapsed fs r p st i).Sat (LineOut.Shrinks i.length) := by
  refine Sat.bind (makefileLine_lt hi h0 hc .gnu) fun a _ ha => ?_
  rcases a with ⟨j, line⟩ | e
  · have ha : j.length < i.length ∧ j.Norm := ha
    refine .ite (fun _ => .ok ha) fun _ => Sat.bind (parseConditionalLine_sat _) fun c _ _ => ?_
    rcases c with ⟨_, c⟩ | (k | k)
    · exact (handleConditional_sat hr _ _ _).bind fun _ _ _ => .ok (lineResult_shrinks ha _)
    · exact .ite (fun _ => .ok ha) fun _ => parseStatement_sat hr _ _ _ _ ha
    · exact .ok trivial
  · exact .ok trivial

theorem parseLine_sat (fs : Fs) (p : PState) (st : St) {i : Span} (hi : i.Norm) (h0 : 0 < i.length) :
    (parseLine fs r p st i).Sat (LineOut.Shrinks i.length) := by
  refine Sat.bind (commentLine_sat i) fun a hc ha => ?_
  rcases a with ⟨j, _⟩ | (k | k)
  · exact .ok ha
  · refine .ite (fun _ => Sat.bind (recipeLine_sat _ i) fun b _ hb => ?_) fun _ => .ite (fun _ =>
      Sat.bind (parseDefineLine_sat (Nat.ne_of_gt h0)) fun b _ hb => ?_) fun _ => parseCollapsed_sat hr _ _ _ hi h0 hc
    · rcases b with ⟨j, _⟩ | (k | k)
      · exact (pushCommandLine_sat _ _).bind fun _ _ _ => .ok hb
      · exact parseCollapsed_sat hr _ _ _ hi h0 hc
      · exact .ok trivial
    · rcases b with ⟨j, _⟩ | (k | k)
      · exact (handleDefineLine_sat _ _ _).bind fun _ _ _ => .ok hb
      · exact .panic
      · exact .ok trivial
  · exact .ok trivial

theorem processLoop_sat (fs : Fs) (n : Nat) : ∀ (i : Span) (p : PState) (st : St), i.Norm → i.length < n →
    (processLoop fs r n i p st).Sat fun _ => True := by
  induction n with
  | zero => intro i _ _ _ h; omega
  | succ n ih =>
    intro i p st hi hn
    refine .ite (fun h0 => (parseLine_sat hr fs p st hi h0).bind fun x _ hx => ?_) fun _ => .ok trivial
    obtain ⟨res, p, st⟩ := x
    cases res with
    | err e => exact .panic
    | done j _ =>
      have hx : j.length < i.length ∧ j.Norm := hx
      exact ih j _ _ hx.2 (by omega)

theorem processStep_sat (fs : Fs) {b : Block} (hb : b.Solid) (st : St) : (processStep fs r b st).Sat fun _ => True := by
  have h : (Res.orElse (char bom b.span) (Res.done b.span ())).SatP fun r _ => r.length ≤ b.len ∧ r.Norm :=
    SatP.orElse ((char_sat _ _).imp fun r _ h => ⟨Nat.le_of_lt h.1, h.2⟩) fun _ => SatP.done ⟨Nat.le_refl _, span_norm hb⟩
  refine Sat.bind h fun a _ ha => ?_
  cases a with
  | err e => exact .panic
  | done i _ =>
    have ha : i.length ≤ b.len ∧ i.Norm := ha
    exact processLoop_sat hr _ _ _ _ _ ha.2 (by omega)

end

/-- One more level of nesting also ends. -/
theorem Rec.Ends.step {r : Rec} (hr : r.Ends) (fs : Fs) : Rec.Ends ⟨evalStep r, processStep fs r⟩ where
  eval a st := (evalStep_sat hr a st).1
  process _ st hb := (processStep_sat hr fs hb st).1
  empty l st x h := by cases h; rfl

end Hastur
