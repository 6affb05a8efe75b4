import Verif.Model.Engine
/-
A larger depth budget never changes a result: the budget of `recF` only decides whether there is one.
-/
namespace Hastur

open Res

/-- The first outcome is the second one, or the budget was too small for it. -/
def Res.Le {α : Type} (x y : Res α) : Prop := x = .fuel ∨ x = y

namespace Res.Le

theorem refl {α : Type} (x : Res α) : Res.Le x x := .inr rfl

theorem fuel {α : Type} (y : Res α) : Res.Le .fuel y := .inl rfl

theorem bind {α β : Type} {x y : Res α} {f g : α → Res β} (h : Res.Le x y) (hfg : ∀ a, Res.Le (f a) (g a)) :
    Res.Le (x >>= f) (y >>= g) := by
  rcases h with rfl | rfl
  · exact .inl rfl
  · cases x with
    | ok a => exact hfg a
    | panic p => exact .inr rfl
    | fuel => exact .inl rfl

theorem bind_same {α β : Type} (x : Res α) {f g : α → Res β} (hfg : ∀ a, Res.Le (f a) (g a)) :
    Res.Le (x >>= f) (x >>= g) := bind (refl x) hfg

theorem trans {α : Type} {x y z : Res α} (h : Res.Le x y) (h' : Res.Le y z) : Res.Le x z := by
  rcases h with rfl | rfl
  · exact .inl rfl
  · exact h'

theorem ok {α : Type} {x y : Res α} {a : α} (h : Res.Le x y) (hx : x = .ok a) : y = .ok a := by
  rcases h with rfl | rfl
  · cases hx
  · exact hx

theorem panic {α : Type} {x y : Res α} {p : Panic} (h : Res.Le x y) (hx : x = .panic p) : y = .panic p := by
  rcases h with rfl | rfl
  · cases hx
  · exact hx

end Res.Le

/-- Every call of the second engine gives what the same call of the first gives, unless the first ran out of budget. -/
structure Rec.Le (r s : Rec) : Prop where
  evalInternal : ∀ a st, Res.Le (r.evalInternal a st) (s.evalInternal a st)
  processBlock : ∀ b st, Res.Le (r.processBlock b st) (s.processBlock b st)

/-- Split a goal `Res.Le (F r) (F s)` along the structure of `F`. -/
macro "le_step" : tactic =>
  `(tactic| first
    | with_reducible exact Res.Le.refl _
    | (refine Res.Le.bind_same _ fun _ => ?_)
    | (refine Res.Le.bind ?_ fun _ => ?_)
    | split
    | dsimp only)

section
variable {r s : Rec} (h : Rec.Le r s)
include h

theorem Rec.Le.eval (a : Ast) (st : St) : Res.Le (r.eval a st) (s.eval a st) :=
  .bind (h.evalInternal a st) fun _ => .refl _

theorem evalConcat_le (as : List Ast) : ∀ (sens : Sens) (out : List CRef) (st : St),
    Res.Le (evalConcat r as sens out st) (evalConcat s as sens out st) := by
  induction as with
  | nil => intro _ _ _; exact .refl _
  | cons a as ih => intro sens out st; exact .bind (h.evalInternal a st) fun _ => ih _ _ _

theorem derefVariable_le (name : Str) (sens : Sens) (st : St) :
    Res.Le (derefVariable r name sens st) (derefVariable s name sens st) := by
  unfold derefVariable
  repeat' first | with_reducible exact h.eval _ _ | le_step

theorem evalVarRef_le (name : Ast) (st : St) : Res.Le (evalVarRef r name st) (evalVarRef s name st) := by
  unfold evalVarRef
  repeat' first | with_reducible exact h.eval _ _ | with_reducible exact derefVariable_le h _ _ _ | le_step

theorem evalStep_le (a : Ast) (st : St) : Res.Le (evalStep r a st) (evalStep s a st) := by
  unfold evalStep
  repeat' first
    | with_reducible exact h.eval _ _ | with_reducible exact h.processBlock _ _ | with_reducible exact evalVarRef_le h _ _ | with_reducible exact evalConcat_le h _ _ _ _
    | le_step

theorem evalName_le (a : Ast) (st : St) : Res.Le (evalName r a st) (evalName s a st) := by
  unfold evalName
  repeat' first | with_reducible exact h.eval _ _ | le_step

theorem parseVariableAssignment_le (mods : Modifiers) (i : Span) (st : St) :
    Res.Le (parseVariableAssignment r mods i st) (parseVariableAssignment s mods i st) := by
  unfold parseVariableAssignment
  repeat' first | with_reducible exact h.eval _ _ | with_reducible exact evalName_le h _ _ | le_step

theorem parseDefineHead_le (mods : Modifiers) (i : Span) (st : St) :
    Res.Le (parseDefineHead r mods i st) (parseDefineHead s mods i st) := by
  unfold parseDefineHead
  repeat' first | with_reducible exact h.eval _ _ | with_reducible exact evalName_le h _ _ | le_step

theorem modifierLoop_le (n : Nat) : ∀ (mods : Modifiers) (i : Span) (st : St),
    Res.Le (modifierLoop r n mods i st) (modifierLoop s n mods i st) := by
  induction n with
  | zero => intro _ _ _; exact .refl _
  | succ n ih =>
    intro mods i st
    unfold modifierLoop
    repeat' first
      | with_reducible exact ih _ _ _ | with_reducible exact parseVariableAssignment_le h _ _ _ | with_reducible exact parseDefineHead_le h _ _ _ | le_step

theorem parseVariableLine_le (i : Span) (st : St) :
    Res.Le (parseVariableLine r i st) (parseVariableLine s i st) := by
  unfold parseVariableLine
  repeat' first | with_reducible exact modifierLoop_le h _ _ _ _ | le_step

theorem handleIfeq_le (p : PState) (st : St) (a b : Ast) (inv : Bool) :
    Res.Le (handleIfeq r p st a b inv) (handleIfeq s p st a b inv) := by
  unfold handleIfeq
  repeat' first | with_reducible exact h.eval _ _ | le_step

theorem handleConditional_le (p : PState) (st : St) (c : Conditional) :
    Res.Le (handleConditional r p st c) (handleConditional s p st c) := by
  unfold handleConditional
  repeat' first | with_reducible exact handleIfeq_le h _ _ _ _ _ | le_step

theorem expandSegment_le (i : Span) (st : St) : Res.Le (expandSegment r i st) (expandSegment s i st) := by
  unfold expandSegment
  repeat' first | with_reducible exact h.eval _ _ | le_step

theorem semicolonInWord_le (b : Block) (l : Span) (p : Option Block) (st : St) :
    Res.Le (semicolonInWord r b l p st) (semicolonInWord s b l p st) := by
  unfold semicolonInWord
  repeat' first | with_reducible exact expandSegment_le h _ _ | le_step

theorem wordLoop_le (n : Nat) : ∀ (l mw : Span) (t : MWordEnd) (b : Block) (p : Option Block) (st : St),
    Res.Le (wordLoop r n l mw t b p st) (wordLoop s n l mw t b p st) := by
  induction n with
  | zero => intros; exact .refl _
  | succ n ih =>
    intro l mw t b p st
    unfold wordLoop
    repeat' first
      | with_reducible exact ih _ _ _ _ _ _ | with_reducible exact expandSegment_le h _ _ | with_reducible exact semicolonInWord_le h _ _ _ _ | le_step

theorem finishRule_le (rest : Span) (b c : Block) (l : Span) (p : Option Block) (st : St) :
    Res.Le (finishRule r rest b c l p st) (finishRule s rest b c l p st) := by
  unfold finishRule
  repeat' first | with_reducible exact expandSegment_le h _ _ | with_reducible exact parseVariableLine_le h _ _ | le_step

theorem parseTargetLine_le (i : Span) (st : St) :
    Res.Le (parseTargetLine r i st) (parseTargetLine s i st) := by
  unfold parseTargetLine
  repeat' first | with_reducible exact wordLoop_le h _ _ _ _ _ _ _ | with_reducible exact finishRule_le h _ _ _ _ _ _ | le_step

theorem readMakefile_le (e : FsEntry) (name : Str) (st : St) :
    Res.Le (readMakefile r e name st) (readMakefile s e name st) := by
  unfold readMakefile
  repeat' first | with_reducible exact h.processBlock _ _ | le_step

theorem includeLoop_le (fs : Fs) (soft : Bool) (files : List Block) : ∀ (st : St),
    Res.Le (includeLoop fs r soft files st) (includeLoop fs s soft files st) := by
  induction files with
  | nil => intro _; exact .refl _
  | cons f files ih =>
    intro st
    unfold includeLoop
    repeat' first | with_reducible exact ih _ | with_reducible exact readMakefile_le h _ _ _ | le_step

theorem handleInclude_le (fs : Fs) (soft : Bool) (a : Ast) (st : St) :
    Res.Le (handleInclude fs r soft a st) (handleInclude fs s soft a st) := by
  unfold handleInclude
  repeat' first | with_reducible exact h.eval _ _ | with_reducible exact includeLoop_le h _ _ _ _ | le_step

theorem handleDirective_le (fs : Fs) (d : Directive) (st : St) :
    Res.Le (handleDirective fs r d st) (handleDirective fs s d st) := by
  unfold handleDirective
  repeat' first | with_reducible exact handleInclude_le h _ _ _ _ | le_step

theorem parseStatement_le (fs : Fs) (p : PState) (st : St) (i : Span) (line : Block) :
    Res.Le (parseStatement fs r p st i line) (parseStatement fs s p st i line) := by
  unfold parseStatement
  repeat' first
    | with_reducible exact parseVariableLine_le h _ _ | with_reducible exact handleDirective_le h _ _ _ | with_reducible exact parseTargetLine_le h _ _ | le_step

theorem parseCollapsed_le (fs : Fs) (p : PState) (st : St) (i : Span) :
    Res.Le (parseCollapsed fs r p st i) (parseCollapsed fs s p st i) := by
  unfold parseCollapsed
  repeat' first | with_reducible exact handleConditional_le h _ _ _ | with_reducible exact parseStatement_le h _ _ _ _ _ | le_step

theorem parseLine_le (fs : Fs) (p : PState) (st : St) (i : Span) :
    Res.Le (parseLine fs r p st i) (parseLine fs s p st i) := by
  unfold parseLine
  repeat' first | with_reducible exact parseCollapsed_le h _ _ _ _ | le_step

theorem processLoop_le (fs : Fs) (n : Nat) : ∀ (i : Span) (p : PState) (st : St),
    Res.Le (processLoop fs r n i p st) (processLoop fs s n i p st) := by
  induction n with
  | zero => intros; exact .refl _
  | succ n ih =>
    intro i p st
    unfold processLoop
    repeat' first | with_reducible exact ih _ _ _ | with_reducible exact parseLine_le h _ _ _ _ | le_step

theorem processStep_le (fs : Fs) (b : Block) (st : St) :
    Res.Le (processStep fs r b st) (processStep fs s b st) := by
  unfold processStep
  repeat' first | with_reducible exact processLoop_le h _ _ _ _ _ | le_step

end

theorem recF_succ_le (fs : Fs) (n : Nat) : Rec.Le (recF fs n) (recF fs (n + 1)) := by
  induction n with
  | zero => exact ⟨fun _ _ => .fuel _, fun _ _ => .fuel _⟩
  | succ n ih => exact ⟨fun a st => evalStep_le ih a st, fun b st => processStep_le ih fs b st⟩

theorem recF_le (fs : Fs) {m n : Nat} (hmn : m ≤ n) : Rec.Le (recF fs m) (recF fs n) := by
  induction hmn with
  | refl => exact ⟨fun _ _ => .refl _, fun _ _ => .refl _⟩
  | step _ ih =>
    exact ⟨fun a st => (ih.evalInternal a st).trans ((recF_succ_le fs _).evalInternal a st),
      fun b st => (ih.processBlock b st).trans ((recF_succ_le fs _).processBlock b st)⟩

/-- A result of an evaluation stays the same with more budget. -/
theorem evalF_mono {fs : Fs} {m n : Nat} (hmn : m ≤ n) {a : Ast} {st : St} {x : Block × St}
    (h : evalF fs m a st = .ok x) : evalF fs n a st = .ok x :=
  ((recF_le fs hmn).eval a st).ok h

/-- A result of processing a block stays the same with more budget. -/
theorem processF_mono {fs : Fs} {m n : Nat} (hmn : m ≤ n) {b : Block} {st : St}
    {x : Except MakefileError Unit × St} (h : processF fs m b st = .ok x) : processF fs n b st = .ok x :=
  ((recF_le fs hmn).processBlock b st).ok h

end Hastur
