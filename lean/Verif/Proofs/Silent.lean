import Verif.Model.Engine
import Verif.Spec.ErrorKinds

/-!
The kinds of error that the parsers report.
-/

namespace Hastur
open Res

variable {α β σ : Type}

attribute [local simp] Reportable.extraTokensAfter Reportable.unattachedElse Reportable.unattachedEndIf Reportable.tooManyElses
  Reportable.recipeExpected Reportable.badIfEqSeparator Reportable.unterminatedVariable Reportable.insufficientArguments
  Reportable.extraArguments Reportable.includeFailure

/-- The error is of one of the kinds in the list, or has no kind. -/
def NErr.Known (e : NErr) : Prop := ∀ k, e.kind = some k → Reportable k

def Quiet (x : PRes α) : Prop := ∀ e, x = .ok (.err e) → e.Known

def QuietS (x : Res (IRes α × σ)) : Prop := ∀ e s, x = .ok (.err e, s) → e.Known

theorem silent_code : (NErr.error .code).Known := by intro k h; cases h

theorem silent_custom {k : ParseErrorKind} (h : Reportable k) :
    (NErr.error (.custom k)).Known ∧ (NErr.failure (.custom k)).Known :=
  ⟨by intro k' e; cases e; exact h, by intro k' e; cases e; exact h⟩

theorem quiet_done {i : Span} {a : α} : Quiet (done i a) := by intro e h; cases h
theorem quiet_ok {i : Span} {a : α} : Quiet (.ok (.done i a)) := by intro e h; cases h
theorem quiet_panic {p} : Quiet (.panic p : PRes α) := by intro e h; cases h
theorem quiet_fuel : Quiet (.fuel : PRes α) := by intro e h; cases h
theorem quiet_err {e : NErr} (h : e.Known) : Quiet (.ok (.err e) : PRes α) := by intro e' h'; cases h'; exact h
theorem quiet_code : Quiet (codeError : PRes α) := quiet_err silent_code
theorem quiet_fail {k : ParseErrorKind} (h : Reportable k) : Quiet (failOut k : PRes α) :=
  quiet_err (silent_custom h).2
theorem quiet_error {k : ParseErrorKind} (h : Reportable k) : Quiet (errorOut k : PRes α) :=
  quiet_err (silent_custom h).1

theorem quiet_bind {x : Res β} {f : β → PRes α} (h : ∀ b, Quiet (f b)) : Quiet (x >>= f) := by
  intro e he
  obtain ⟨b, _, hb⟩ := Res.bind_eq_ok.mp he
  exact h b e hb

theorem quiet_bindP {x : PRes β} {f : IRes β → PRes α} (hx : Quiet x) (h1 : ∀ i b, Quiet (f (.done i b)))
    (h2 : ∀ e, e.Known → Quiet (f (.err e))) : Quiet (x >>= f) := by
  intro e he
  obtain ⟨b, hb, hf⟩ := Res.bind_eq_ok.mp he
  cases b with
  | done i b => exact h1 i b e hf
  | err k => exact h2 k (hx k hb) e hf

theorem quiet_andThen {x : PRes β} {f : Span → β → PRes α} (hx : Quiet x) (h : ∀ i b, Quiet (f i b)) :
    Quiet (x.andThen f) := quiet_bindP hx h fun _ he => quiet_err he

theorem quiet_mapP {x : PRes β} {f : β → α} (hx : Quiet x) : Quiet (x.mapP f) := quiet_andThen hx fun _ _ => quiet_done

theorem quiet_orElse {x y : PRes α} (hx : Quiet x) (hy : Quiet y) : Quiet (orElse x y) := by
  refine quiet_bindP hx (fun _ _ => quiet_ok) fun e he => ?_
  cases e with
  | error k => exact hy
  | failure k => exact quiet_err he

theorem quiet_returnError {x : PRes α} (hx : Quiet x) : Quiet (returnError x) := by
  refine quiet_bindP hx (fun _ _ => quiet_ok) fun e he => ?_
  cases e with
  | error k =>
    refine quiet_err ?_
    cases k with
    | code => intro k h; cases h
    | custom k => exact fun k' h => he k' h
  | failure k => exact quiet_err he

/-- Take the definition of a parser apart. -/
macro "quiet" : tactic => `(tactic| repeat' first
  | assumption
  | exact quiet_done | exact quiet_ok | exact quiet_code | exact quiet_panic | exact quiet_fuel
  | (refine quiet_fail ?_; simp; done) | (refine quiet_error ?_; simp; done)
  | exact quiet_err (by assumption)
  | refine quiet_mapP ?_ | refine quiet_orElse ?_ ?_ | refine quiet_andThen ?_ fun _ _ => ?_
  | refine quiet_returnError ?_
  | refine quiet_bind fun _ => ?_
  | split)

theorem quiet_tag (t : Str) (i : Span) : Quiet (Nom.tag t i) := by unfold Nom.tag; quiet
theorem quiet_tagNoCase (t : Str) (i : Span) : Quiet (Nom.tagNoCase t i) := by unfold Nom.tagNoCase; quiet
theorem quiet_char (c : Char) (i : Span) : Quiet (Nom.char c i) := by unfold Nom.char; quiet
theorem quiet_take (n : Nat) (i : Span) : Quiet (Nom.take n i) := by unfold Nom.take; quiet
theorem quiet_takeUntil (t : Str) (i : Span) : Quiet (Nom.takeUntil t i) := by unfold Nom.takeUntil; quiet
theorem quiet_eof (i : Span) : Quiet (Nom.eof i) := by unfold Nom.eof; quiet
theorem quiet_rest (i : Span) : Quiet (Nom.rest i) := by unfold Nom.rest; quiet
theorem quiet_takeTill (p : Char → Bool) (i : Span) : Quiet (Nom.takeTill p i) := by unfold Nom.takeTill; quiet
theorem quiet_takeWhile (p : Char → Bool) (i : Span) : Quiet (Nom.takeWhile p i) := quiet_takeTill _ _
theorem quiet_whitespace (i : Span) : Quiet (whitespace i) := quiet_takeTill _ _

theorem quiet_recognize {p : Span → PRes α} (hp : ∀ i, Quiet (p i)) (i : Span) : Quiet (Nom.recognize p i) := by
  have := hp i
  unfold Nom.recognize; quiet

theorem quiet_many1Loop {p : Span → PRes α} (hp : ∀ i, Quiet (p i)) : ∀ n i, Quiet (Nom.many1Loop p n i)
  | 0, _ => quiet_fuel
  | n + 1, i => by
    rw [Nom.many1Loop]
    refine quiet_bindP (hp i) (fun j _ => ?_) fun e he => ?_
    · dsimp only
      split
      · exact quiet_done
      · exact quiet_many1Loop hp n j
    · cases e with
      | error k => exact quiet_done
      | failure k => exact quiet_err he

theorem quiet_many0Loop {p : Span → PRes α} (hp : ∀ i, Quiet (p i)) : ∀ n i, Quiet (Nom.many0Loop p n i)
  | 0, _ => quiet_fuel
  | n + 1, i => by
    rw [Nom.many0Loop]
    refine quiet_bindP (hp i) (fun j _ => ?_) fun e he => ?_
    · dsimp only
      split
      · exact quiet_done
      · exact quiet_many0Loop hp n j
    · cases e with
      | error k => exact quiet_done
      | failure k => exact quiet_err he

theorem quiet_many1 {p : Span → PRes α} (hp : ∀ i, Quiet (p i)) (i : Span) : Quiet (Nom.many1 p i) := by
  unfold Nom.many1
  refine quiet_bindP (hp i) (fun j _ => quiet_many1Loop hp _ _) fun e he => ?_
  cases e with
  | error k => exact quiet_code
  | failure k => exact quiet_err (by intro k h; cases h)

theorem quiet_blanks0 (i : Span) : Quiet (Nom.many0 whitespace i) := quiet_many0Loop quiet_whitespace _ _
theorem quiet_blanks1 (i : Span) : Quiet (Nom.many1 whitespace i) := quiet_many1 quiet_whitespace _

/-- As `quiet`, with the basic parsers. -/
macro "quieter" : tactic => `(tactic| repeat' first
  | assumption
  | exact quiet_done | exact quiet_ok | exact quiet_code | exact quiet_panic | exact quiet_fuel
  | (refine quiet_fail ?_; simp; done) | (refine quiet_error ?_; simp; done)
  | exact quiet_err (by assumption)
  | exact quiet_tag _ _ | exact quiet_tagNoCase _ _ | exact quiet_char _ _ | exact quiet_take _ _
  | exact quiet_takeUntil _ _ | exact quiet_eof _ | exact quiet_rest _ | exact quiet_whitespace _
  | exact quiet_takeTill _ _ | exact quiet_takeWhile _ _ | exact quiet_blanks0 _ | exact quiet_blanks1 _
  | refine quiet_recognize (fun _ => ?_) _
  | refine quiet_mapP ?_ | refine quiet_orElse ?_ ?_ | refine quiet_andThen ?_ fun _ _ => ?_
  | refine quiet_returnError ?_
  | refine quiet_bindP ?_ (fun _ _ => ?_) (fun e he => ?_)
  | refine quiet_bind fun _ => ?_
  | split)

theorem quiet_grabLine (i : Span) : Quiet (grabLine i) := by unfold grabLine; quieter

theorem quiet_lineLoop (m : Compliance) : ∀ n i ls s a r, Quiet (lineLoop m n i ls s a r)
  | 0, _, _, _, _, _ => quiet_fuel
  | n + 1, i, ls, s, a, r => by
    rw [lineLoop]
    refine quiet_bindP (quiet_andThen (quiet_whitespace _) fun _ _ => quiet_grabLine _) (fun j _ => ?_) fun e he => ?_
    · have h := quiet_lineLoop m n
      refine quiet_bind fun _ => ?_
      split
      · quieter
      · refine quiet_bind fun _ => ?_
        split
        · exact quiet_bind fun _ => h _ _ _ _ _
        · exact h _ _ _ _ _
    · cases e with
      | error k => exact quiet_bind fun _ => quiet_done
      | failure k => exact quiet_err he

theorem quiet_makefileLine (i : Span) (m : Compliance) (s : Bool) : Quiet (makefileLine i m s) := by
  unfold makefileLine
  refine quiet_andThen ?_ fun j _ => ?_
  · split
    · exact quiet_andThen (quiet_whitespace _) fun _ _ => quiet_grabLine _
    · exact quiet_grabLine _
  · refine quiet_bind fun _ => ?_
    split
    · quieter
    · refine quiet_bind fun _ => ?_
      split
      · exact quiet_bind fun _ => quiet_lineLoop _ _ _ _ _ _ _
      · exact quiet_lineLoop _ _ _ _ _ _ _

theorem quiet_commentLoop : ∀ n i l r, Quiet (commentLoop n i l r)
  | 0, _, _, _ => quiet_fuel
  | n + 1, i, l, r => by
    rw [commentLoop]
    refine quiet_bind fun _ => ?_
    split
    · exact quiet_andThen (by quieter) fun _ _ => quiet_andThen (quiet_grabLine _) fun _ _ => quiet_commentLoop n _ _ _
    · exact quiet_done

theorem quiet_comment (i : Span) : Quiet (parseCommentFollowingWhitespace i) :=
  quiet_andThen (quiet_whitespace _) fun _ _ => quiet_andThen (quiet_char _ _) fun _ _ =>
    quiet_andThen (quiet_grabLine _) fun _ _ => quiet_commentLoop _ _ _ _

/-! ### Expressions -/

theorem quiet_functionArgument (i : Span) : Quiet (functionArgument i) := by unfold functionArgument; quieter

section
variable {parse : AstParser} (hp : ∀ i, Quiet (parse i))
include hp

theorem quiet_funcEntry {name : Str} {f : Span → PRes Ast} (hf : ∀ i, Quiet (f i)) (i : Span) : Quiet (funcEntry name f i) :=
  quiet_andThen (quiet_tag _ _) fun _ _ => quiet_andThen (quiet_blanks1 _) fun _ _ => hf _

theorem quiet_fnEval (loc : Location) (i : Span) : Quiet (fnEval parse loc i) := quiet_andThen (hp _) fun _ _ => quiet_done

theorem quiet_fnStrip (loc : Location) (i : Span) : Quiet (fnStrip parse loc i) := by
  refine quiet_andThen (quiet_functionArgument _) fun _ _ => ?_
  split
  · exact quiet_fail (by simp)
  · exact quiet_andThen (hp _) fun _ _ => quiet_done

theorem quiet_fnWords (loc : Location) (i : Span) : Quiet (fnWords parse loc i) := by
  refine quiet_andThen (quiet_functionArgument _) fun _ _ => ?_
  split
  · exact quiet_fail (by simp)
  · exact quiet_andThen (hp _) fun _ _ => quiet_done

theorem quiet_fnWord (loc : Location) (i : Span) : Quiet (fnWord parse loc i) := by
  refine quiet_andThen (quiet_functionArgument _) fun _ _ => ?_
  refine quiet_bindP (quiet_char _ _) (fun _ _ => ?_) fun _ _ => quiet_fail .insufficientArguments
  refine quiet_andThen (hp _) fun _ _ => quiet_andThen (quiet_functionArgument _) fun _ _ => ?_
  split
  · exact quiet_fail (by simp)
  · exact quiet_andThen (hp _) fun _ _ => quiet_done

omit hp in
theorem loose_orElse {x y : PRes Ast} (hx : Quiet x)
    (hy : ∀ e, y = .ok (.err e) → e.Known ∨ e = .failure (.custom notAFunctionCall)) :
    ∀ e, orElse x y = .ok (.err e) → e.Known ∨ e = .failure (.custom notAFunctionCall) := by
  intro e h
  obtain ⟨z, hz, h⟩ := Res.bind_eq_ok.mp h
  cases z with
  | done _ _ => cases h
  | err k =>
    cases k with
    | error k => exact hy e h
    | failure k => cases h; exact .inl (hx _ hz)

/-- The only other error of a function call says that it is none. -/
theorem functionCall_known (loc : Location) (i : Span) :
    ∀ e, functionCall parse loc i = .ok (.err e) → e.Known ∨ e = .failure (.custom notAFunctionCall) :=
  loose_orElse (quiet_funcEntry hp (quiet_fnEval hp loc) _) <| loose_orElse (quiet_funcEntry hp (quiet_fnStrip hp loc) _) <|
    loose_orElse (quiet_funcEntry hp (quiet_fnWords hp loc) _) <| loose_orElse (quiet_funcEntry hp (quiet_fnWord hp loc) _)
    fun e h => by cases h; exact .inr rfl

theorem quiet_advancedVar (loc : Location) (o c : Char) (i : Span) : Quiet (advancedVar parse loc o c i) := by
  unfold advancedVar
  split
  · split
    · exact quiet_panic
    · exact quiet_fail (by simp)
  · refine quiet_bind fun _ => quiet_bind fun _ => ?_
    intro e h
    obtain ⟨z, hz, h⟩ := Res.bind_eq_ok.mp h
    cases z with
    | done _ _ => cases h
    | err k =>
      have hk := functionCall_known hp _ _ _ hz
      cases k with
      | error k => cases h; exact hk.resolve_right (by simp)
      | failure k =>
        dsimp only at h
        split at h
        · exact (quiet_andThen (hp _) fun _ _ => quiet_done : Quiet _) e h
        · rename_i hne
          cases h
          exact hk.resolve_right fun h => hne (by cases h; rfl)

theorem quiet_parseVarRef (loc : Location) (i : Span) : Quiet (parseVarRef parse loc i) := by
  have := quiet_advancedVar hp
  refine quiet_orElse (quiet_mapP (quiet_eof _)) <| quiet_orElse ?_ <| quiet_orElse ?_ <| quiet_orElse ?_ ?_
  · quieter
  · exact quiet_andThen (quiet_char _ _) fun _ _ => this _ _ _ _
  · exact quiet_andThen (quiet_char _ _) fun _ _ => this _ _ _ _
  · quieter

theorem quiet_parseAstLoop : ∀ n i acc, Quiet (parseAstLoop parse n i acc)
  | 0, _, _ => quiet_fuel
  | n + 1, i, acc => by
    rw [parseAstLoop]
    split
    · refine quiet_andThen (by quieter) fun j x => ?_
      refine quiet_bind fun _ => ?_
      dsimp only
      split
      · exact quiet_done
      · exact quiet_andThen (quiet_parseVarRef hp _ _) fun _ _ => quiet_parseAstLoop n _ _
    · exact quiet_done

end

theorem quiet_parseAstF : ∀ n i, Quiet (parseAstF n i)
  | 0, _ => quiet_fuel
  | n + 1, i => by
    rw [parseAstF]
    refine quiet_bind fun x => ?_
    cases x with
    | none => exact quiet_done
    | some l => exact quiet_mapP (quiet_parseAstLoop (quiet_parseAstF n) _ _ _)

theorem quiet_parseAst (i : Span) : Quiet (parseAst i) := quiet_parseAstF _ _

/-! ### Conditionals, definitions and directives -/

theorem quiet_takeTillTerminator (c : Char) (i : Span) : Quiet (takeTillTerminator c i) := by unfold takeTillTerminator; quieter

theorem quiet_parseIfeq (i : Span) : Quiet (parseIfeq i) := by
  unfold parseIfeq
  refine quiet_andThen (by quieter) fun _ _ => quiet_andThen (quiet_takeTillTerminator _ _) fun _ _ =>
    quiet_andThen (quiet_parseAst _) fun _ _ => quiet_andThen (quiet_whitespace _) fun _ _ =>
    quiet_andThen (by quieter) fun _ _ => quiet_andThen (quiet_takeTillTerminator _ _) fun _ _ =>
    quiet_andThen (quiet_parseAst _) fun _ _ => quiet_done

theorem quiet_condKeyword (i : Span) : Quiet (condKeyword i) := by unfold condKeyword; quieter

theorem quiet_parseCondF : ∀ n i, Quiet (parseCondF n i)
  | 0, _ => quiet_fuel
  | n + 1, i => by
    rw [parseCondF]
    refine quiet_andThen (quiet_condKeyword _) fun j t => ?_
    have ha := quiet_parseAst j
    have hi := quiet_parseIfeq j
    have hr := quiet_parseCondF n
    cases t with
    | else_ =>
      refine quiet_andThen (quiet_whitespace _) fun k _ => ?_
      have hk := hr k
      split
      · refine quiet_andThen (quiet_returnError hk) fun _ c => ?_
        cases c <;> first | exact quiet_done | exact quiet_fail (by simp)
      · exact quiet_done
    | endIf =>
      dsimp only
      split
      · exact quiet_fail (by simp)
      · exact quiet_done
    | ifDef => exact quiet_mapP (quiet_returnError ha)
    | ifNDef => exact quiet_mapP (quiet_returnError ha)
    | ifEq => exact quiet_mapP hi
    | ifNEq => exact quiet_mapP hi

theorem quiet_parseConditionalLine (i : Span) : Quiet (parseConditionalLine i) := quiet_parseCondF _ _

theorem quiet_parseDirectiveLine (i : Span) : Quiet (parseDirectiveLine i) := by
  have h : ∀ (name : String) (f : Ast → Directive),
      Quiet ((Nom.tagNoCase name.toList i).andThen fun i _ => (parseAst i).mapP f) := fun name f =>
    quiet_andThen (quiet_tagNoCase _ _) fun _ _ => quiet_mapP (quiet_parseAst _)
  exact quiet_orElse (h _ _) <| quiet_orElse (h _ _) <| quiet_orElse (h _ _) <| quiet_orElse (h _ _) <|
    quiet_orElse (h _ _) <| quiet_orElse (h _ _) <| quiet_orElse (h _ _) (h _ _)

theorem quiet_grabDefineLine (i : Span) : Quiet (grabDefineLine i) := by unfold grabDefineLine; quieter

theorem quiet_parseDefineLine (i : Span) : Quiet (parseDefineLine i) := by
  unfold parseDefineLine
  refine quiet_andThen (quiet_grabDefineLine _) fun _ _ => quiet_bind fun _ => quiet_bind fun _ =>
    quiet_andThen (quiet_parseAst _) fun _ _ => quiet_andThen (quiet_whitespace _) fun _ _ => quiet_andThen
      (quiet_orElse (quiet_mapP (quiet_tag _ _)) <| quiet_orElse (quiet_mapP (quiet_tag _ _)) <| quiet_mapP (quiet_rest _))
      fun _ _ => quiet_andThen (quiet_takeWhile _ _) fun _ _ => ?_
  split
  · exact quiet_fail (by simp)
  · exact quiet_done

theorem quiet_grabCommandLine (c : Char) (i : Span) : Quiet (grabCommandLine c i) :=
  quiet_andThen (quiet_char _ _) fun _ _ => quiet_grabLine _

theorem quiet_recipeLoop (c : Char) : ∀ n i b, Quiet (recipeLoop c n i b)
  | 0, _, _ => quiet_fuel
  | n + 1, i, b => by
    have ha : ∀ j k, Quiet ((parseAst j).andThen fun _ ast => done k ast) := fun j k =>
      quiet_andThen (quiet_parseAst _) fun _ _ => quiet_done
    rw [recipeLoop]
    refine quiet_bind fun _ => ?_
    split
    · refine quiet_bindP (quiet_grabCommandLine _ _) (fun _ _ => ?_) fun _ _ => ha _ _
      refine quiet_bind fun _ => ?_
      dsimp only
      split
      · exact ha _ _
      · exact quiet_recipeLoop c n _ _
    · exact ha _ _

theorem quiet_recipeLine (c : Char) (i : Span) : Quiet (recipeLine c i) := by
  refine quiet_andThen (quiet_grabCommandLine _ _) fun _ _ => ?_
  dsimp only
  split
  · exact quiet_andThen (quiet_parseAst _) fun _ _ => quiet_done
  · exact quiet_bind fun _ => quiet_recipeLoop _ _ _ _

/-! ### Parsers with a state -/

theorem quietS_done {i : Span} {a : α} {s : σ} : QuietS (.ok (.done i a, s)) := by intro e s' h; cases h
theorem quietS_panic {p} : QuietS (.panic p : Res (IRes α × σ)) := by intro e s h; cases h
theorem quietS_fuel : QuietS (.fuel : Res (IRes α × σ)) := by intro e s h; cases h
theorem quietS_err {e : NErr} {s : σ} (h : e.Known) : QuietS (.ok (.err e, s) : Res (IRes α × σ)) := by
  intro e' s' h'; cases h'; exact h

theorem quietS_bind {x : Res β} {f : β → Res (IRes α × σ)} (h : ∀ b, QuietS (f b)) : QuietS (x >>= f) := by
  intro e s he
  obtain ⟨b, _, hb⟩ := Res.bind_eq_ok.mp he
  exact h b e s hb

theorem quietS_bindP {x : PRes β} {f : IRes β → Res (IRes α × σ)} (hx : Quiet x) (h1 : ∀ i b, QuietS (f (.done i b)))
    (h2 : ∀ e, e.Known → QuietS (f (.err e))) : QuietS (x >>= f) := by
  intro e s he
  obtain ⟨b, hb, hf⟩ := Res.bind_eq_ok.mp he
  cases b with
  | done i b => exact h1 i b e s hf
  | err k => exact h2 k (hx k hb) e s hf

theorem quietS_bindS {τ : Type} {x : Res (IRes β × τ)} {f : IRes β × τ → Res (IRes α × σ)} (hx : QuietS x)
    (h1 : ∀ i b t, QuietS (f (.done i b, t))) (h2 : ∀ e t, e.Known → QuietS (f (.err e, t))) : QuietS (x >>= f) := by
  intro e s he
  obtain ⟨⟨b, t⟩, hb, hf⟩ := Res.bind_eq_ok.mp he
  cases b with
  | done i b => exact h1 i b t e s hf
  | err k => exact h2 k t (hx k t hb) e s hf

theorem quiet_parseAssignmentOperator (i : Span) : Quiet (parseAssignmentOperator i) := by
  have h : ∀ (w : Str) (t : AssignType) j, Quiet ((Nom.tag w j).mapP fun _ => t) := fun w t j => quiet_mapP (quiet_tag _ _)
  exact quiet_andThen (quiet_takeTill _ _) fun _ _ => quiet_andThen (quiet_whitespace _) fun _ _ => quiet_andThen
    (quiet_orElse (h _ _ _) <| quiet_orElse (h _ _ _) <| quiet_orElse (h _ _ _) <| quiet_orElse (h _ _ _) <|
      quiet_orElse (h _ _ _) (h _ _ _))
    fun _ _ => quiet_andThen (quiet_whitespace _) fun _ _ => quiet_done

theorem quiet_splitAssignment (i : Span) : Quiet (splitAssignment i) :=
  quiet_andThen (quiet_parseAssignmentOperator _) fun _ _ => quiet_andThen (quiet_whitespace _) fun _ _ =>
    quiet_andThen (quiet_parseAst _) fun _ _ => quiet_andThen (quiet_parseAst _) fun _ _ => quiet_done

theorem quietS_parseVariableAssignment (r : Rec) (mods : Modifiers) (i : Span) (st : St) :
    QuietS (parseVariableAssignment r mods i st) := by
  unfold parseVariableAssignment
  refine quietS_bindP (quiet_splitAssignment _) (fun j b => ?_) fun e he => quietS_err he
  obtain ⟨ty, a, v, va⟩ := b
  refine quietS_bind fun x => ?_
  cases ty
  case simple => exact quietS_bind fun _ => quietS_bind fun _ => quietS_bind fun _ => quietS_done
  all_goals exact quietS_done

theorem quietS_defineWholeName (mods : Modifiers) (i : Span) (st : St) : QuietS (defineWholeName mods i st) :=
  quietS_bind fun _ => quietS_bind fun _ => quietS_done

theorem quietS_parseDefineHead (r : Rec) (mods : Modifiers) (i : Span) (st : St) : QuietS (parseDefineHead r mods i st) := by
  unfold parseDefineHead
  refine quietS_bindP (quiet_andThen (quiet_parseAssignmentOperator _) fun _ _ => quiet_andThen (quiet_whitespace _) fun _ _ =>
    quiet_done) (fun j b => ?_) fun e he => quietS_defineWholeName _ _ _
  dsimp only
  split
  · exact quietS_bindP (quiet_parseAst _) (fun _ _ => quietS_bind fun _ => quietS_done) fun e he => quietS_err he
  · exact quietS_defineWholeName _ _ _

theorem quiet_modifierKeyword (i : Span) : Quiet (modifierKeyword i) := by unfold modifierKeyword; quieter

/-- The same, if the error ends the search for the meaning of the line. -/
def FirmS (x : Res (IRes α × σ)) : Prop := ∀ k s, x = .ok (.err (.failure k), s) → (NErr.failure k).Known

theorem QuietS.firm {x : Res (IRes α × σ)} (h : QuietS x) : FirmS x := fun k s hk => h _ s hk

theorem firmS_error {k : NErrKind} {s : σ} : FirmS (.ok (.err (.error k), s) : Res (IRes α × σ)) := by intro k' s' h; cases h

theorem firmS_bind {x : Res β} {f : β → Res (IRes α × σ)} (h : ∀ b, x = .ok b → FirmS (f b)) : FirmS (x >>= f) := by
  intro e s he
  obtain ⟨b, hb, hf⟩ := Res.bind_eq_ok.mp he
  exact h b hb e s hf

theorem quietS_bindEq {x : Res β} {f : β → Res (IRes α × σ)} (h : ∀ b, x = .ok b → QuietS (f b)) : QuietS (x >>= f) := by
  intro e s he
  obtain ⟨b, hb, hf⟩ := Res.bind_eq_ok.mp he
  exact h b hb e s hf

theorem firmS_modifierLoop (r : Rec) : ∀ n mods i st, FirmS (modifierLoop r n mods i st)
  | 0, _, _, _ => quietS_fuel.firm
  | n + 1, mods, i, st => by
    rw [modifierLoop]
    refine firmS_bind fun x _ => ?_
    dsimp only
    split
    · exact quietS_done.firm
    · exact firmS_error
    · exact (quietS_err (silent_custom (by simp)).2).firm
    · refine firmS_bind fun y _ => ?_
      rcases y with ⟨j, m⟩ | e
      · cases m
        case define => exact (quietS_parseDefineHead _ _ _ _).firm
        case undefine => exact quietS_panic.firm
        all_goals exact firmS_modifierLoop r n _ _ _
      · exact firmS_error

theorem firmS_parseVariableLine (r : Rec) (i : Span) (st : St) : FirmS (parseVariableLine r i st) := by
  unfold parseVariableLine
  refine firmS_bind fun x hx => ?_
  rcases x with ⟨j, u⟩ | e
  · dsimp only
    split
    · exact firmS_error
    · exact firmS_modifierLoop _ _ _ _ _
  · exact (quietS_err (quiet_whitespace _ _ hx)).firm

/-! ### Rules -/

theorem mwordScan_reason {crash : Bool} : ∀ {cs : List (Nat × Char)} {mode : MWordMode} {prev : Char} {stop : Nat}
    {reason : MWordEnd} {s : Nat} {q : MWordEnd}, (reason = .static ∨ reason = .variable) →
    mwordScan crash mode prev stop reason cs = .ok (s, q) → q = .static ∨ q = .variable
  | [], mode, prev, stop, reason, s, q, hr, h => by
    rw [mwordScan] at h
    split at h
    · cases h
    · injection h with h
      injection h with _ h
      subst h
      split
      · exact .inl rfl
      · exact hr
  | (idx, c) :: rest, mode, prev, stop, reason, s, q, hr, h => by
    have ih := @mwordScan_reason crash rest
    have hv : MWordEnd.variable = .static ∨ MWordEnd.variable = .variable := .inr rfl
    have ok : ∀ {a b : Nat} {x y : MWordEnd}, (x = .static ∨ x = .variable) → (.ok (a, x) : Res (Nat × MWordEnd)) = .ok (b, y) →
        y = .static ∨ y = .variable := by
      intro a b x y hx e
      injection e with e
      injection e with _ e
      exact e ▸ hx
    rw [mwordScan.eq_def] at h
    dsimp only at h
    repeat' split at h
    all_goals first
      | exact ih hr h
      | exact ih hv h
      | exact ok hr h
      | exact ok (.inl rfl) h
      | cases h

/-- A word never ends with the end of the line: this reason is never given. -/
theorem nextMword_not_eol {i r m : Span} : nextMword i ≠ .ok (.done r (m, .eol)) := by
  have tagged : ∀ {i : Span} {w : Str} {x : MWordEnd} {p : PRes (Span × MWordEnd)}, x ≠ .eol → (∀ r m, p ≠ .ok (.done r (m, .eol))) →
      ∀ r m, orElse ((Nom.tag w i).mapP fun c => (c, x)) p ≠ .ok (.done r (m, .eol)) := by
    intro i w x p hx hp r m h
    unfold orElse at h
    obtain ⟨y, hy, h⟩ := Res.bind_eq_ok.mp h
    unfold mapP andThen at hy
    obtain ⟨z, _, hz⟩ := Res.bind_eq_ok.mp hy
    cases z with
    | done j a =>
      injection hz with hz
      subst hz
      injection h with h
      injection h with _ h
      injection h with _ h
      exact hx h
    | err e =>
      injection hz with hz
      subst hz
      cases e with
      | error k => exact hp r m h
      | failure k => cases h
  intro h
  unfold nextMword andThen at h
  obtain ⟨y, hy, h⟩ := Res.bind_eq_ok.mp h
  cases y with
  | err e => cases h
  | done j q =>
    revert h
    refine tagged (by decide) (tagged (by decide) (tagged (by decide) (tagged (by decide) (tagged (by decide) (tagged (by decide)
      (tagged (by decide) (tagged (by decide) (tagged (by decide) fun r m h => ?_)))))))) r m
    obtain ⟨⟨s, x⟩, hs, h⟩ := Res.bind_eq_ok.mp h
    obtain ⟨⟨a, b⟩, _, h⟩ := Res.bind_eq_ok.mp h
    injection h with h
    injection h with _ h
    injection h with _ h
    rcases mwordScan_reason (.inl rfl) hs with e | e <;> rw [e] at h <;> cases h

theorem quiet_nextMword (i : Span) : Quiet (nextMword i) := by
  have h : ∀ (w : Str) (t : MWordEnd) j, Quiet ((Nom.tag w j).mapP fun c => (c, t)) := fun w t j => quiet_mapP (quiet_tag _ _)
  exact quiet_andThen (quiet_whitespace _) fun _ _ => quiet_orElse (h _ _ _) <| quiet_orElse (h _ _ _) <|
    quiet_orElse (h _ _ _) <| quiet_orElse (h _ _ _) <| quiet_orElse (h _ _ _) <| quiet_orElse (h _ _ _) <|
    quiet_orElse (h _ _ _) <| quiet_orElse (h _ _ _) <| quiet_orElse (h _ _ _) <|
    quiet_bind fun _ => quiet_bind fun _ => quiet_done

theorem expandSegment_silent {r : Rec} {seg : Span} {st st' : St} {e : NErr}
    (h : expandSegment r seg st = .ok (.error e, st')) : e.Known := by
  obtain ⟨x, hx, h⟩ := Res.bind_eq_ok.mp h
  cases x with
  | err k =>
    injection h with h
    injection h with h
    injection h with h
    exact h ▸ quiet_parseAst seg k hx
  | done j a =>
    obtain ⟨y, _, h⟩ := Res.bind_eq_ok.mp h
    injection h with h
    injection h with h
    cases h

theorem semicolonInWord_silent {r : Rec} {b : Block} {l : Span} {ps : Option Block} {st st' : St} {e : NErr}
    (h : semicolonInWord r b l ps st = .ok (.error e, st')) : e.Known := by
  unfold semicolonInWord at h
  cases ps with
  | some b => cases h
  | none =>
    obtain ⟨⟨pre, x⟩, _, h⟩ := Res.bind_eq_ok.mp h
    cases x with
    | none => cases h
    | some x =>
      obtain ⟨_, _, h⟩ := Res.bind_eq_ok.mp h
      obtain ⟨⟨y, st1⟩, hy, h⟩ := Res.bind_eq_ok.mp h
      cases y with
      | error k =>
        injection h with h
        injection h with h
        injection h with h
        exact h ▸ expandSegment_silent hy
      | ok y =>
        obtain ⟨_, _, h⟩ := Res.bind_eq_ok.mp h
        obtain ⟨_, _, h⟩ := Res.bind_eq_ok.mp h
        cases h

/-- The word loop reports no such error, and does not end with the end of the line. -/
theorem wordLoop_silent (r : Rec) : ∀ {n l m q b ps st o st'}, q ≠ MWordEnd.eol →
    wordLoop r n l m q b ps st = .ok (o, st') →
    (∀ e, o = .err e → e.Known) ∧ ∀ a c d f q', o = .finished a c d f q' → q' ≠ .eol
  | 0, _, _, _, _, _, _, _, _, _, h => by cases h
  | n + 1, l, m, q, b, ps, st, o, st', hq, h => by
    rw [wordLoop] at h
    obtain ⟨⟨x, st1⟩, hx, h⟩ := Res.bind_eq_ok.mp h
    cases x with
    | error k =>
      injection h with h
      injection h with h
      subst h
      exact ⟨fun e he => by cases he; exact expandSegment_silent hx, fun _ _ _ _ _ he => by cases he⟩
    | ok x =>
      obtain ⟨⟨y, st2⟩, hy, h⟩ := Res.bind_eq_ok.mp h
      cases y with
      | error k =>
        injection h with h
        injection h with h
        subst h
        exact ⟨fun e he => by cases he; exact semicolonInWord_silent hy, fun _ _ _ _ _ he => by cases he⟩
      | ok y =>
        obtain ⟨nc, ln, ps⟩ := y
        dsimp only at h
        split at h
        · injection h with h
          injection h with h
          subst h
          exact ⟨fun e he => (by cases he), fun _ _ _ _ _ he => (by cases he)⟩
        · obtain ⟨⟨pre, z⟩, hz, h⟩ := Res.bind_eq_ok.mp h
          cases z with
          | some z =>
            obtain ⟨_, _, h⟩ := Res.bind_eq_ok.mp h
            obtain ⟨_, _, h⟩ := Res.bind_eq_ok.mp h
            injection h with h
            injection h with h
            subst h
            exact ⟨fun e he => (by cases he), fun _ _ _ _ _ he => (by cases he; exact hq)⟩
          | none =>
            obtain ⟨w, hw, h⟩ := Res.bind_eq_ok.mp h
            cases w with
            | err k =>
              injection h with h
              injection h with h
              subst h
              exact ⟨fun e he => by cases he; exact quiet_nextMword _ _ hw, fun _ _ _ _ _ he => by cases he⟩
            | done j w =>
              obtain ⟨w, q2⟩ := w
              have hq2 : q2 ≠ .eol := fun e => nextMword_not_eol (e ▸ hw)
              dsimp only at h
              rw [if_neg hq2] at h
              obtain ⟨_, _, h⟩ := Res.bind_eq_ok.mp h
              exact wordLoop_silent r hq2 h

theorem quietS_finishRule (r : Rec) (rest : Span) (pc ac : Block) (ln : Span) (ps : Option Block) (st : St) :
    QuietS (finishRule r rest pc ac ln ps st) := by
  unfold finishRule
  refine quietS_bind fun _ => quietS_bind fun _ => quietS_bind fun _ => quietS_bind fun _ => quietS_bind fun _ =>
    quietS_bind fun x => ?_
  obtain ⟨x, st1⟩ := x
  cases x with
  | done _ _ => exact quietS_done
  | err _ =>
    refine quietS_bind fun _ => ?_
    intro e s h
    obtain ⟨⟨y, st2⟩, hy, h⟩ := Res.bind_eq_ok.mp h
    cases y with
    | error k =>
      injection h with h
      injection h with h
      injection h with h
      exact h ▸ expandSegment_silent hy
    | ok y =>
      refine (quietS_bind fun z => ?_ : QuietS _) e s h
      obtain ⟨z1, z2⟩ := z
      refine quietS_bindP ?_ (fun _ _ => ?_) fun e he => quietS_err he
      · cases z2 with
        | none => exact quiet_done
        | some b => exact quiet_mapP (quiet_parseAst _)
      · refine quietS_bind fun _ => ?_
        split
        · exact quietS_panic
        · exact quietS_bind fun _ => quietS_done

theorem quietS_parseTargetLine (r : Rec) (i : Span) (st : St) : QuietS (parseTargetLine r i st) := by
  unfold parseTargetLine
  refine quietS_bindP (quiet_makefileLine _ _ _) (fun rest line => ?_) fun e he => quietS_err he
  refine quietS_bind fun x => ?_
  obtain ⟨line, ps⟩ := x
  intro e s h
  obtain ⟨w, hw, h⟩ := Res.bind_eq_ok.mp h
  cases w with
  | err k =>
    injection h with h
    injection h with h
    injection h with h
    exact h ▸ quiet_nextMword _ _ hw
  | done j w =>
    obtain ⟨w, q⟩ := w
    have hq : q ≠ .eol := fun e => nextMword_not_eol (e ▸ hw)
    have key : (do
        let (res, st) ← wordLoop r (line.len + 2) j w q Block.empty ps st
        match res with
        | .err e => return (.err e, st)
        | .noAction => return (.done rest .noAction, st)
        | .finished preColon afterColon lineNext postSemi mwt =>
          if mwt = .eol then do
            match ← whitespace preColon.span with
            | .err _ => .panic .unwrap
            | .done afterSpace _ =>
              if afterSpace.length = 0 then return (.done rest .noAction, st)
              else return (.err (.failure (.custom .missingSeparator)), st)
          else do
            let afterColon ← runwrap afterColon
            finishRule r rest preColon afterColon lineNext postSemi st : Res (IRes TargetAction × St)) = .ok (.err e, s) →
        e.Known := by
      intro h
      obtain ⟨⟨o, st1⟩, ho, h⟩ := Res.bind_eq_ok.mp h
      obtain ⟨h1, h2⟩ := wordLoop_silent r hq ho
      cases o with
      | err k =>
        injection h with h
        injection h with h
        injection h with h
        exact h ▸ h1 k rfl
      | noAction => cases h
      | finished a b c d q' =>
        dsimp only at h
        rw [if_neg (h2 _ _ _ _ _ rfl)] at h
        obtain ⟨_, _, h⟩ := Res.bind_eq_ok.mp h
        exact quietS_finishRule _ _ _ _ _ _ _ _ _ h
    cases q
    case eol => exact absurd rfl hq
    case colon => cases h
    case dcolon => cases h
    all_goals exact key h

/-! ### Lines -/

theorem processLoop_never (fs : Fs) (r : Rec) : ∀ {n i p st k st'}, processLoop fs r n i p st ≠ .ok (.error k, st')
  | 0, _, _, _, _, _, h => by cases h
  | n + 1, i, p, st, k, st', h => by
    rw [processLoop] at h
    split at h
    · obtain ⟨⟨x, p2, st2⟩, _, h⟩ := Res.bind_eq_ok.mp h
      cases x with
      | done j u => exact processLoop_never fs r h
      | err e => cases h
    · cases h

theorem processBlock_never (fs : Fs) (n : Nat) {b : Block} {k : MakefileError} {st st' : St} :
    (recF fs n).processBlock b st ≠ .ok (.error k, st') := by
  intro h
  cases n with
  | zero => cases h
  | succ n =>
    have h : processStep fs (recF fs n) b st = .ok (.error k, st') := h
    unfold processStep at h
    obtain ⟨x, _, h⟩ := Res.bind_eq_ok.mp h
    cases x with
    | done j u => exact processLoop_never fs _ h
    | err e => cases h

theorem includeLoop_silent (fs : Fs) (n : Nat) (soft : Bool) : ∀ {l : List Block} {st st' : St} {k : ParseErrorKind},
    includeLoop fs (recF fs n) soft l st = .ok (.error k, st') → Reportable k
  | [], _, _, _, h => by cases h
  | f :: rest, st, st', k, h => by
    rw [includeLoop] at h
    obtain ⟨name, _, h⟩ := Res.bind_eq_ok.mp h
    dsimp only at h
    split at h
    · split at h
      · exact includeLoop_silent fs n soft h
      · injection h with h
        injection h with h
        injection h with h
        subst h
        simp
    · obtain ⟨⟨x, st1⟩, hx, h⟩ := Res.bind_eq_ok.mp h
      cases x with
      | ok u => exact includeLoop_silent fs n soft h
      | error m =>
        cases m with
        | ioError =>
          injection h with h
          injection h with h
          injection h with h
          subst h
          simp
        | parseError k' =>
          exfalso
          unfold readMakefile at hx
          split at hx
          · obtain ⟨b, _, h2⟩ := Res.bind_eq_ok.mp hx
            exact processBlock_never fs n h2
          · cases hx

theorem quietS_lineResult {i : Span} {x : Except ParseErrorKind Unit} {p : PState} {st : St}
    (h : ∀ k, x = .error k → Reportable k) : QuietS (.ok (lineResult i (x, p, st))) := by
  cases x with
  | ok u => exact quietS_done
  | error k => exact quietS_err (silent_custom (h k rfl)).2

theorem quietS_parseStatement (fs : Fs) (n : Nat) (p : PState) (st : St) (i : Span) (line : Block) :
    QuietS (parseStatement fs (recF fs n) p st i line) := by
  unfold parseStatement
  refine quietS_bindEq fun x hx => ?_
  obtain ⟨x, st1⟩ := x
  rcases x with _ | (k | k)
  case done => exact quietS_bind fun _ => quietS_bind fun _ => quietS_done
  case err.failure => exact quietS_err (firmS_parseVariableLine _ _ _ _ _ hx)
  case err.error =>
    refine quietS_bindP (quiet_parseDirectiveLine _) (fun _ d => ?_) fun e he => ?_
    · refine quietS_bind fun x => ?_
      obtain ⟨p2, st2⟩ := x
      intro e s h
      obtain ⟨⟨y, st3⟩, hy, h⟩ := Res.bind_eq_ok.mp h
      refine quietS_lineResult (fun k hk => ?_) e s h
      subst hk
      have inc : ∀ {soft a}, handleInclude fs (recF fs n) soft a st2 = .ok (.error k, st3) →
          Reportable k := by
        intro soft a h
        obtain ⟨⟨b, st4⟩, _, h⟩ := Res.bind_eq_ok.mp h
        obtain ⟨fl, _, h⟩ := Res.bind_eq_ok.mp h
        exact includeLoop_silent fs n soft h
      cases d
      case include_ a => exact inc hy
      case softInclude a => exact inc hy
      all_goals cases hy
    · cases e with
      | failure k => exact quietS_err he
      | error k =>
        refine quietS_bind fun c => ?_
        dsimp only
        split
        · exact quietS_err (silent_custom (by simp)).2
        · refine quietS_bindS (quietS_parseTargetLine _ _ _) (fun _ _ _ => quietS_bind fun _ => quietS_bind fun _ => quietS_done)
            fun e st2 he => ?_
          cases e with
          | failure k => exact quietS_err he
          | error k => exact quietS_done

theorem handleConditional_silent {r : Rec} {p : PState} {st : St} {c : Conditional} {k : ParseErrorKind} {x : PState × St}
    (h : handleConditional r p st c = .ok (.error k, x)) : Reportable k := by
  have ifeq : ∀ {a b inv}, handleIfeq r p st a b inv ≠ .ok (.error k, x) := by
    intro a b inv h
    unfold handleIfeq at h
    obtain ⟨_, _, h⟩ := Res.bind_eq_ok.mp h
    obtain ⟨_, _, h⟩ := Res.bind_eq_ok.mp h
    obtain ⟨_, _, h⟩ := Res.bind_eq_ok.mp h
    obtain ⟨_, _, h⟩ := Res.bind_eq_ok.mp h
    cases h
  unfold handleConditional at h
  repeat' split at h
  all_goals first
    | exact absurd h ifeq
    | (cases h; done)
    | (injection h with h; injection h with h _; injection h with h; subst h; simp; done)

theorem quietS_parseCollapsed (fs : Fs) (n : Nat) (p : PState) (st : St) (i : Span) :
    QuietS (parseCollapsed fs (recF fs n) p st i) := by
  unfold parseCollapsed
  refine quietS_bindP (quiet_makefileLine _ _ _) (fun j line => ?_) fun e he => quietS_err he
  dsimp only
  split
  · exact quietS_done
  · refine quietS_bindP (quiet_parseConditionalLine _) (fun _ c => ?_) fun e he => ?_
    · intro e s h
      obtain ⟨⟨x, p2, st2⟩, hx, h⟩ := Res.bind_eq_ok.mp h
      refine quietS_lineResult (fun k hk => ?_) e s h
      subst hk
      exact handleConditional_silent hx
    · cases e with
      | failure k => exact quietS_err he
      | error k =>
        dsimp only
        split
        · exact quietS_done
        · exact quietS_parseStatement _ _ _ _ _ _

theorem quietS_parseLine (fs : Fs) (n : Nat) (p : PState) (st : St) (i : Span) :
    QuietS (parseLine fs (recF fs n) p st i) := by
  unfold parseLine
  refine quietS_bindP (quiet_comment _) (fun _ _ => quietS_done) fun e he => ?_
  cases e with
  | failure k => exact quietS_err he
  | error k =>
    dsimp only
    split
    · refine quietS_bindP (quiet_recipeLine _ _) (fun _ _ => quietS_bind fun _ => quietS_done) fun e he => ?_
      cases e with
      | failure k => exact quietS_err he
      | error k => exact quietS_parseCollapsed _ _ _ _ _
    · split
      · refine quietS_bindP (quiet_parseDefineLine _) (fun _ _ => quietS_bind fun _ => quietS_done) fun e he => ?_
        cases e with
        | failure k => exact quietS_err he
        | error k => exact quietS_panic
      · exact quietS_parseCollapsed _ _ _ _ _

end Hastur
