import Verif.Spec.Invariant
/-
Invariants under the elementary changes are invariants of the whole engine.
-/
namespace Hastur

open Res

/-- If there is a result, it satisfies `Q`. -/
def Res.Post {α : Type} (Q : α → Prop) (x : Res α) : Prop := ∀ a, x = .ok a → Q a

namespace Res.Post
variable {α β : Type}

theorem ok {Q : α → Prop} {a : α} (h : Q a) : Post Q (.ok a) := by rintro _ ⟨⟩; exact h
theorem pure {Q : α → Prop} {a : α} (h : Q a) : Post Q (Pure.pure a : Res α) := ok h
theorem panic {Q : α → Prop} (p : Panic) : Post Q (.panic p) := by rintro _ ⟨⟩
theorem fuel {Q : α → Prop} : Post Q (.fuel : Res α) := by rintro _ ⟨⟩
theorem bind {Q : α → Prop} {Q' : β → Prop} {x : Res α} {f : α → Res β} (h : Post Q x)
    (hf : ∀ a, Q a → Post Q' (f a)) : Post Q' (x >>= f) := by
  intro b hb
  obtain ⟨a, h1, h2⟩ := bind_eq_ok.mp hb
  exact hf a (h a h1) b h2
theorem bind_any {Q' : β → Prop} {x : Res α} {f : α → Res β} (hf : ∀ a, Post Q' (f a)) : Post Q' (x >>= f) :=
  bind (Q := fun _ => True) (fun _ _ => trivial) fun a _ => hf a
theorem mono {Q Q' : α → Prop} {x : Res α} (h : Post Q x) (hq : ∀ a, Q a → Q' a) : Post Q' x := fun a ha => hq a (h a ha)

end Res.Post

/-- The recursive calls keep the invariant. -/
structure Rec.Keeps (I : St → Prop) (r : Rec) : Prop where
  evalInternal : ∀ a st, I st → Post (fun o => I o.2) (r.evalInternal a st)
  processBlock : ∀ b st, I st → Post (fun o => I o.2) (r.processBlock b st)

/-- Structural steps of the proofs below. -/
macro "inv_step" : tactic =>
  `(tactic| first
    | with_reducible exact Post.panic _
    | with_reducible exact Post.fuel
    | (with_reducible refine Post.ok ?_; first | assumption | (dsimp only; assumption))
    | (with_reducible refine Post.pure ?_; first | assumption | (dsimp only; assumption))
    | split
    | dsimp only
    | (with_reducible refine Post.bind_any fun _ => ?_))

/-- A stateful step: the given lemma speaks about the head of a sequence (or about the whole). -/
macro "inv_use " h:term : tactic =>
  `(tactic| first
    | with_reducible exact $h
    | (with_reducible refine Post.bind $h ?_; rintro ⟨_, _⟩ _; dsimp only at *))

section
variable {I : St → Prop} (hI : EngineInv I) {r : Rec} (h : Rec.Keeps I r)

include h in
theorem Rec.Keeps.eval (a : Ast) (st : St) (hs : I st) : Post (fun o => I o.2) (r.eval a st) := by
  unfold Rec.eval
  repeat' first | inv_use h.evalInternal _ _ (by assumption) | inv_step

include h in
theorem evalConcat_keeps (as : List Ast) : ∀ (sens : Sens) (out : List CRef) (st : St), I st →
    Post (fun o => I o.2) (evalConcat r as sens out st) := by
  induction as with
  | nil => intro _ _ _ hs; exact Post.ok hs
  | cons a as ih =>
    intro sens out st hs
    unfold evalConcat
    repeat' first | inv_use ih _ _ _ (by assumption) | inv_use h.evalInternal _ _ (by assumption) | inv_step

include hI h

theorem derefVariable_keeps (name : Str) (sens : Sens) (st : St) (hs : I st) :
    Post (fun o => I o.2) (derefVariable r name sens st) := by
  unfold derefVariable
  have h1 := hI.var st name hs
  generalize st.names.internVar name = x at h1 ⊢
  obtain ⟨v, names⟩ := x
  dsimp only at *
  repeat' first | inv_use h.eval _ _ (by assumption) | inv_step

theorem evalVarRef_keeps (name : Ast) (st : St) (hs : I st) : Post (fun o => I o.2) (evalVarRef r name st) := by
  unfold evalVarRef
  repeat' first
    | inv_use h.eval _ _ (by assumption) | inv_use derefVariable_keeps hI h _ _ _ (by assumption) | inv_step

theorem evalStep_keeps (a : Ast) (st : St) (hs : I st) : Post (fun o => I o.2) (evalStep r a st) := by
  unfold evalStep
  repeat' first
    | inv_use h.eval _ _ (by assumption) | inv_use h.processBlock _ _ (by assumption)
    | inv_use evalVarRef_keeps hI h _ _ (by assumption)
    | inv_use evalConcat_keeps h _ _ _ _ (by assumption) | inv_step

theorem evalName_keeps (a : Ast) (st : St) (hs : I st) : Post (fun o => I o.2) (evalName r a st) := by
  unfold evalName
  refine Post.bind (h.eval _ _ hs) ?_
  rintro ⟨b, st'⟩ hs'
  refine Post.bind_any fun s => ?_
  exact Post.ok (hI.var st' (trim s) hs')

theorem parseVariableAssignment_keeps (mods : Modifiers) (i : Span) (st : St) (hs : I st) :
    Post (fun o => I o.2) (parseVariableAssignment r mods i st) := by
  unfold parseVariableAssignment
  repeat' first
    | inv_use h.eval _ _ (by assumption) | inv_use evalName_keeps hI h _ _ (by assumption) | inv_step

omit h in
theorem defineWholeName_keeps (mods : Modifiers) (i : Span) (st : St) (hs : I st) :
    Post (fun o => I o.2) (defineWholeName mods i st) := by
  unfold defineWholeName
  refine Post.bind_any fun s => ?_
  refine Post.bind_any fun rest => ?_
  exact Post.ok (hI.var st (trim s) hs)

theorem parseDefineHead_keeps (mods : Modifiers) (i : Span) (st : St) (hs : I st) :
    Post (fun o => I o.2) (parseDefineHead r mods i st) := by
  unfold parseDefineHead
  repeat' first
    | inv_use evalName_keeps hI h _ _ (by assumption) | inv_use defineWholeName_keeps hI _ _ _ (by assumption) | inv_step

theorem modifierLoop_keeps (n : Nat) : ∀ (mods : Modifiers) (i : Span) (st : St), I st →
    Post (fun o => I o.2) (modifierLoop r n mods i st) := by
  induction n with
  | zero => intros; exact Post.fuel
  | succ n ih =>
    intro mods i st hs
    unfold modifierLoop
    repeat' first
      | inv_use ih _ _ _ (by assumption) | inv_use parseVariableAssignment_keeps hI h _ _ _ (by assumption)
      | inv_use parseDefineHead_keeps hI h _ _ _ (by assumption) | inv_step

theorem parseVariableLine_keeps (i : Span) (st : St) (hs : I st) :
    Post (fun o => I o.2) (parseVariableLine r i st) := by
  unfold parseVariableLine
  repeat' first | inv_use modifierLoop_keeps hI h _ _ _ _ (by assumption) | inv_step

omit h in
theorem closeRule_keeps (p : PState) (st : St) (hs : I st) : Post (fun o => I o.2) (p.closeRule st) := by
  unfold PState.closeRule
  split
  · intro o ho
    obtain ⟨⟨db, names⟩, h1, h2⟩ := bind_eq_ok.mp ho
    cases h2
    exact hI.rule st _ db names hs h1
  · exact Post.ok hs

omit h in
theorem handleVariableAction_keeps (p : PState) (st : St) (a : VarAction) (hs : I st) :
    Post (fun o => I o.2) (handleVariableAction p st a) := by
  unfold handleVariableAction
  split
  · exact Post.panic _
  · refine Post.bind_any fun p => ?_
    split
    · exact Post.ok (hI.set st _ _ hs)
    · exact Post.ok (hI.append st _ _ _ _ hs)

omit h in
theorem handleDefineLine_keeps (p : PState) (st : St) (l : DefineLine) (hs : I st) :
    Post (fun o => I o.2) (handleDefineLine p st l) := by
  unfold handleDefineLine
  refine Post.bind_any fun d => ?_
  dsimp only
  split
  · exact Post.ok (hI.append st _ _ _ _ hs)
  · exact Post.ok (hI.append st _ _ _ _ hs)
  · refine Post.bind_any fun n => ?_
    split
    · exact Post.ok hs
    · exact Post.ok (hI.append st _ _ _ _ hs)

omit hI in
theorem handleIfeq_keeps (p : PState) (st : St) (a b : Ast) (inv : Bool) (hs : I st) :
    Post (fun o => I o.2.2) (handleIfeq r p st a b inv) := by
  unfold handleIfeq
  repeat' first | inv_use h.eval _ _ (by assumption) | inv_step

omit hI in
theorem handleConditional_keeps (p : PState) (st : St) (c : Conditional) (hs : I st) :
    Post (fun o => I o.2.2) (handleConditional r p st c) := by
  unfold handleConditional
  repeat' first | inv_use handleIfeq_keeps h _ _ _ _ _ (by assumption) | inv_step

omit hI in
theorem expandSegment_keeps (i : Span) (st : St) (hs : I st) : Post (fun o => I o.2) (expandSegment r i st) := by
  unfold expandSegment
  repeat' first | inv_use h.eval _ _ (by assumption) | inv_step

omit hI in
theorem semicolonInWord_keeps (b : Block) (l : Span) (p : Option Block) (st : St) (hs : I st) :
    Post (fun o => I o.2) (semicolonInWord r b l p st) := by
  unfold semicolonInWord
  repeat' first | inv_use expandSegment_keeps h _ _ (by assumption) | inv_step

omit hI in
theorem wordLoop_keeps (n : Nat) : ∀ (l mw : Span) (t : MWordEnd) (b : Block) (p : Option Block) (st : St), I st →
    Post (fun o => I o.2) (wordLoop r n l mw t b p st) := by
  induction n with
  | zero => intros; exact Post.fuel
  | succ n ih =>
    intro l mw t b p st hs
    unfold wordLoop
    repeat' first
      | inv_use ih _ _ _ _ _ _ (by assumption) | inv_use expandSegment_keeps h _ _ (by assumption)
      | inv_use semicolonInWord_keeps h _ _ _ _ (by assumption) | inv_step

theorem finishRule_keeps (rest : Span) (b c : Block) (l : Span) (p : Option Block) (st : St) (hs : I st) :
    Post (fun o => I o.2) (finishRule r rest b c l p st) := by
  unfold finishRule
  repeat' first
    | inv_use expandSegment_keeps h _ _ (by assumption) | inv_use parseVariableLine_keeps hI h _ _ (by assumption) | inv_step

theorem parseTargetLine_keeps (i : Span) (st : St) (hs : I st) :
    Post (fun o => I o.2) (parseTargetLine r i st) := by
  unfold parseTargetLine
  repeat' first
    | inv_use wordLoop_keeps h _ _ _ _ _ _ _ (by assumption)
    | inv_use finishRule_keeps hI h _ _ _ _ _ _ (by assumption) | inv_step

theorem readMakefile_keeps (e : FsEntry) (name : Str) (st : St) (hs : I st) :
    Post (fun o => I o.2) (readMakefile r e name st) := by
  unfold readMakefile
  split
  · refine Post.bind_any fun b => ?_
    exact h.processBlock _ _ (hI.file st name hs)
  · exact Post.ok hs

theorem includeLoop_keeps (fs : Fs) (soft : Bool) (files : List Block) : ∀ (st : St), I st →
    Post (fun o => I o.2) (includeLoop fs r soft files st) := by
  induction files with
  | nil => intro _ hs; exact Post.ok hs
  | cons f files ih =>
    intro st hs
    unfold includeLoop
    repeat' first
      | inv_use ih _ (by assumption) | inv_use readMakefile_keeps hI h _ _ _ (by assumption) | inv_step

theorem handleInclude_keeps (fs : Fs) (soft : Bool) (a : Ast) (st : St) (hs : I st) :
    Post (fun o => I o.2) (handleInclude fs r soft a st) := by
  unfold handleInclude
  repeat' first
    | inv_use h.eval _ _ (by assumption) | inv_use includeLoop_keeps hI h _ _ _ _ (by assumption) | inv_step

theorem handleDirective_keeps (fs : Fs) (d : Directive) (st : St) (hs : I st) :
    Post (fun o => I o.2) (handleDirective fs r d st) := by
  unfold handleDirective
  repeat' first | inv_use handleInclude_keeps hI h _ _ _ _ (by assumption) | inv_step

omit hI h in
theorem lineResult_keeps {i : Span} {x : Handled} (hs : I x.2.2) : I (lineResult i x).2.2 := by
  obtain ⟨e, p, st⟩ := x
  cases e <;> exact hs

theorem parseStatement_keeps (fs : Fs) (p : PState) (st : St) (i : Span) (line : Block) (hs : I st) :
    Post (fun o => I o.2.2) (parseStatement fs r p st i line) := by
  unfold parseStatement
  refine Post.bind (parseVariableLine_keeps hI h _ _ hs) ?_
  rintro ⟨var, st⟩ hs
  dsimp only at *
  split
  · exact Post.ok hs
  · refine Post.bind (closeRule_keeps hI _ _ hs) ?_
    rintro ⟨p, st⟩ hs
    refine Post.bind (handleVariableAction_keeps hI _ _ _ hs) ?_
    rintro ⟨p, st⟩ hs
    exact Post.ok hs
  · refine Post.bind_any fun d => ?_
    split
    · exact Post.ok hs
    · refine Post.bind (closeRule_keeps hI _ _ hs) ?_
      rintro ⟨p, st⟩ hs
      refine Post.bind (handleDirective_keeps hI h _ _ _ hs) ?_
      rintro ⟨res, st⟩ hs
      exact Post.ok (lineResult_keeps hs)
    · refine Post.bind_any fun c => ?_
      split
      · exact Post.ok hs
      · refine Post.bind (parseTargetLine_keeps hI h _ _ hs) ?_
        rintro ⟨target, st⟩ hs
        dsimp only at *
        split
        · exact Post.ok hs
        · refine Post.bind (closeRule_keeps hI _ _ hs) ?_
          rintro ⟨p, st⟩ hs
          refine Post.bind_any fun p => ?_
          exact Post.ok hs
        · exact Post.ok hs

theorem parseCollapsed_keeps (fs : Fs) (p : PState) (st : St) (i : Span) (hs : I st) :
    Post (fun o => I o.2.2) (parseCollapsed fs r p st i) := by
  unfold parseCollapsed
  refine Post.bind_any fun l => ?_
  split
  · exact Post.ok hs
  · split
    · exact Post.ok hs
    · refine Post.bind_any fun c => ?_
      split
      · exact Post.ok hs
      · refine Post.bind (handleConditional_keeps h _ _ _ hs) ?_
        intro o ho
        exact Post.ok (lineResult_keeps ho)
      · split
        · exact Post.ok hs
        · exact parseStatement_keeps hI h _ _ _ _ _ hs

theorem parseLine_keeps (fs : Fs) (p : PState) (st : St) (i : Span) (hs : I st) :
    Post (fun o => I o.2.2) (parseLine fs r p st i) := by
  unfold parseLine
  refine Post.bind_any fun c => ?_
  split
  · exact Post.ok hs
  · exact Post.ok hs
  · split
    · refine Post.bind_any fun l => ?_
      split
      · refine Post.bind_any fun p => ?_
        exact Post.ok hs
      · exact Post.ok hs
      · exact parseCollapsed_keeps hI h _ _ _ _ hs
    · split
      · refine Post.bind_any fun l => ?_
        split
        · refine Post.bind (handleDefineLine_keeps hI _ _ _ hs) ?_
          rintro ⟨p, st⟩ hs
          exact Post.ok hs
        · exact Post.ok hs
        · exact Post.panic _
      · exact parseCollapsed_keeps hI h _ _ _ _ hs

theorem processLoop_keeps (fs : Fs) (n : Nat) : ∀ (i : Span) (p : PState) (st : St), I st →
    Post (fun o => I o.2) (processLoop fs r n i p st) := by
  induction n with
  | zero => intros; exact Post.fuel
  | succ n ih =>
    intro i p st hs
    unfold processLoop
    split
    · refine Post.bind (parseLine_keeps hI h _ _ _ _ hs) ?_
      rintro ⟨res, p, st⟩ hs
      dsimp only at *
      split
      · exact ih _ _ _ hs
      · exact Post.panic _
    · exact Post.ok hs

theorem processStep_keeps (fs : Fs) (b : Block) (st : St) (hs : I st) :
    Post (fun o => I o.2) (processStep fs r b st) := by
  unfold processStep
  refine Post.bind_any fun c => ?_
  split
  · exact processLoop_keeps hI h _ _ _ _ _ hs
  · exact Post.panic _

end

theorem recF_keeps {I : St → Prop} (hI : EngineInv I) (fs : Fs) (n : Nat) : Rec.Keeps I (recF fs n) := by
  induction n with
  | zero => exact ⟨fun _ _ _ => Post.fuel, fun _ _ _ => Post.fuel⟩
  | succ n ih =>
    exact ⟨fun a st hs => evalStep_keeps hI ih a st hs, fun b st hs => processStep_keeps hI ih fs b st hs⟩

/-- Evaluation keeps the invariant. -/
theorem evalF_keeps {I : St → Prop} (hI : EngineInv I) {fs : Fs} {n : Nat} {a : Ast} {st : St} {x : Block × St}
    (hs : I st) (h : evalF fs n a st = .ok x) : I x.2 := (recF_keeps hI fs n).eval a st hs x h

/-- Processing a makefile keeps the invariant. -/
theorem processF_keeps {I : St → Prop} (hI : EngineInv I) {fs : Fs} {n : Nat} {b : Block} {st : St}
    {x : Except MakefileError Unit × St} (hs : I st) (h : processF fs n b st = .ok x) : I x.2 :=
  (recF_keeps hI fs n).processBlock b st hs x h

/-- Reading a makefile keeps the invariant. -/
theorem readF_keeps {I : St → Prop} (hI : EngineInv I) {fs : Fs} {n : Nat} {e : FsEntry} {name : Str} {st : St}
    {x : Except MakefileError Unit × St} (hs : I st) (h : readF fs n e name st = .ok x) : I x.2 :=
  readMakefile_keeps hI (recF_keeps hI fs n) e name st hs x h

end Hastur
