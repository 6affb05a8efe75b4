import Verif.Spec.Halts
/-
Aborting at the depth limit instead of giving no result changes nothing else.
-/
namespace Hastur

open Res

/-- The two outcomes are the same, or the first is missing and the second is an abort. -/
def Res.Lim {α : Type} (x y : Res α) : Prop := (x = .fuel ∧ y = .panic .explicit) ∨ x = y

namespace Res.Lim

theorem refl {α : Type} (x : Res α) : Res.Lim x x := .inr rfl

theorem bind {α β : Type} {x y : Res α} {f g : α → Res β} (h : Res.Lim x y) (hfg : ∀ a, Res.Lim (f a) (g a)) :
    Res.Lim (x >>= f) (y >>= g) := by
  rcases h with ⟨rfl, rfl⟩ | rfl
  · exact .inl ⟨rfl, rfl⟩
  · cases x with
    | ok a => exact hfg a
    | panic p => exact .inr rfl
    | fuel => exact .inr rfl

theorem bind_same {α β : Type} (x : Res α) {f g : α → Res β} (hfg : ∀ a, Res.Lim (f a) (g a)) :
    Res.Lim (x >>= f) (x >>= g) := bind (refl x) hfg

end Res.Lim

/-- Every call of the second engine gives what the same call of the first gives, or aborts where the first gives nothing. -/
structure Rec.Lim (r s : Rec) : Prop where
  evalInternal : ∀ a st, Res.Lim (r.evalInternal a st) (s.evalInternal a st)
  processBlock : ∀ b st, Res.Lim (r.processBlock b st) (s.processBlock b st)

/-- Split a goal `Res.Lim (F r) (F s)` along the structure of `F`. -/
macro "lim_step" : tactic =>
  `(tactic| first
    | with_reducible exact Res.Lim.refl _
    | (refine Res.Lim.bind_same _ fun _ => ?_)
    | (refine Res.Lim.bind ?_ fun _ => ?_)
    | split
    | dsimp only)

section
variable {r s : Rec} (h : Rec.Lim r s)
include h

theorem Rec.Lim.eval (a : Ast) (st : St) : Res.Lim (r.eval a st) (s.eval a st) :=
  .bind (h.evalInternal a st) fun _ => .refl _

theorem evalConcat_lim (as : List Ast) : ∀ (sens : Sens) (out : List CRef) (st : St),
    Res.Lim (evalConcat r as sens out st) (evalConcat s as sens out st) := by
  induction as with
  | nil => intro _ _ _; exact .refl _
  | cons a as ih => intro sens out st; exact .bind (h.evalInternal a st) fun _ => ih _ _ _

theorem derefVariable_lim (name : Str) (sens : Sens) (st : St) :
    Res.Lim (derefVariable r name sens st) (derefVariable s name sens st) := by
  unfold derefVariable
  repeat' first | with_reducible exact h.eval _ _ | lim_step

theorem evalVarRef_lim (name : Ast) (st : St) : Res.Lim (evalVarRef r name st) (evalVarRef s name st) := by
  unfold evalVarRef
  repeat' first | with_reducible exact h.eval _ _ | with_reducible exact derefVariable_lim h _ _ _ | lim_step

theorem evalStep_lim (a : Ast) (st : St) : Res.Lim (evalStep r a st) (evalStep s a st) := by
  unfold evalStep
  repeat' first
    | with_reducible exact h.eval _ _ | with_reducible exact h.processBlock _ _ | with_reducible exact evalVarRef_lim h _ _ | with_reducible exact evalConcat_lim h _ _ _ _
    | lim_step

theorem evalName_lim (a : Ast) (st : St) : Res.Lim (evalName r a st) (evalName s a st) := by
  unfold evalName
  repeat' first | with_reducible exact h.eval _ _ | lim_step

theorem parseVariableAssignment_lim (mods : Modifiers) (i : Span) (st : St) :
    Res.Lim (parseVariableAssignment r mods i st) (parseVariableAssignment s mods i st) := by
  unfold parseVariableAssignment
  repeat' first | with_reducible exact h.eval _ _ | with_reducible exact evalName_lim h _ _ | lim_step

theorem parseDefineHead_lim (mods : Modifiers) (i : Span) (st : St) :
    Res.Lim (parseDefineHead r mods i st) (parseDefineHead s mods i st) := by
  unfold parseDefineHead
  repeat' first | with_reducible exact h.eval _ _ | with_reducible exact evalName_lim h _ _ | lim_step

theorem modifierLoop_lim (n : Nat) : ∀ (mods : Modifiers) (i : Span) (st : St),
    Res.Lim (modifierLoop r n mods i st) (modifierLoop s n mods i st) := by
  induction n with
  | zero => intro _ _ _; exact .refl _
  | succ n ih =>
    intro mods i st
    unfold modifierLoop
    repeat' first
      | with_reducible exact ih _ _ _ | with_reducible exact parseVariableAssignment_lim h _ _ _ | with_reducible exact parseDefineHead_lim h _ _ _ | lim_step

theorem parseVariableLine_lim (i : Span) (st : St) :
    Res.Lim (parseVariableLine r i st) (parseVariableLine s i st) := by
  unfold parseVariableLine
  repeat' first | with_reducible exact modifierLoop_lim h _ _ _ _ | lim_step

theorem handleIfeq_lim (p : PState) (st : St) (a b : Ast) (inv : Bool) :
    Res.Lim (handleIfeq r p st a b inv) (handleIfeq s p st a b inv) := by
  unfold handleIfeq
  repeat' first | with_reducible exact h.eval _ _ | lim_step

theorem handleConditional_lim (p : PState) (st : St) (c : Conditional) :
    Res.Lim (handleConditional r p st c) (handleConditional s p st c) := by
  unfold handleConditional
  repeat' first | with_reducible exact handleIfeq_lim h _ _ _ _ _ | lim_step

theorem expandSegment_lim (i : Span) (st : St) : Res.Lim (expandSegment r i st) (expandSegment s i st) := by
  unfold expandSegment
  repeat' first | with_reducible exact h.eval _ _ | lim_step

theorem semicolonInWord_lim (b : Block) (l : Span) (p : Option Block) (st : St) :
    Res.Lim (semicolonInWord r b l p st) (semicolonInWord s b l p st) := by
  unfold semicolonInWord
  repeat' first | with_reducible exact expandSegment_lim h _ _ | lim_step

theorem wordLoop_lim (n : Nat) : ∀ (l mw : Span) (t : MWordEnd) (b : Block) (p : Option Block) (st : St),
    Res.Lim (wordLoop r n l mw t b p st) (wordLoop s n l mw t b p st) := by
  induction n with
  | zero => intros; exact .refl _
  | succ n ih =>
    intro l mw t b p st
    unfold wordLoop
    repeat' first
      | with_reducible exact ih _ _ _ _ _ _ | with_reducible exact expandSegment_lim h _ _ | with_reducible exact semicolonInWord_lim h _ _ _ _ | lim_step

theorem finishRule_lim (rest : Span) (b c : Block) (l : Span) (p : Option Block) (st : St) :
    Res.Lim (finishRule r rest b c l p st) (finishRule s rest b c l p st) := by
  unfold finishRule
  repeat' first | with_reducible exact expandSegment_lim h _ _ | with_reducible exact parseVariableLine_lim h _ _ | lim_step

theorem parseTargetLine_lim (i : Span) (st : St) :
    Res.Lim (parseTargetLine r i st) (parseTargetLine s i st) := by
  unfold parseTargetLine
  repeat' first | with_reducible exact wordLoop_lim h _ _ _ _ _ _ _ | with_reducible exact finishRule_lim h _ _ _ _ _ _ | lim_step

theorem readMakefile_lim (e : FsEntry) (name : Str) (st : St) :
    Res.Lim (readMakefile r e name st) (readMakefile s e name st) := by
  unfold readMakefile
  repeat' first | with_reducible exact h.processBlock _ _ | lim_step

theorem includeLoop_lim (fs : Fs) (soft : Bool) (files : List Block) : ∀ (st : St),
    Res.Lim (includeLoop fs r soft files st) (includeLoop fs s soft files st) := by
  induction files with
  | nil => intro _; exact .refl _
  | cons f files ih =>
    intro st
    unfold includeLoop
    repeat' first | with_reducible exact ih _ | with_reducible exact readMakefile_lim h _ _ _ | lim_step

theorem handleInclude_lim (fs : Fs) (soft : Bool) (a : Ast) (st : St) :
    Res.Lim (handleInclude fs r soft a st) (handleInclude fs s soft a st) := by
  unfold handleInclude
  repeat' first | with_reducible exact h.eval _ _ | with_reducible exact includeLoop_lim h _ _ _ _ | lim_step

theorem handleDirective_lim (fs : Fs) (d : Directive) (st : St) :
    Res.Lim (handleDirective fs r d st) (handleDirective fs s d st) := by
  unfold handleDirective
  repeat' first | with_reducible exact handleInclude_lim h _ _ _ _ | lim_step

theorem parseStatement_lim (fs : Fs) (p : PState) (st : St) (i : Span) (line : Block) :
    Res.Lim (parseStatement fs r p st i line) (parseStatement fs s p st i line) := by
  unfold parseStatement
  repeat' first
    | with_reducible exact parseVariableLine_lim h _ _ | with_reducible exact handleDirective_lim h _ _ _ | with_reducible exact parseTargetLine_lim h _ _ | lim_step

theorem parseCollapsed_lim (fs : Fs) (p : PState) (st : St) (i : Span) :
    Res.Lim (parseCollapsed fs r p st i) (parseCollapsed fs s p st i) := by
  unfold parseCollapsed
  repeat' first | with_reducible exact handleConditional_lim h _ _ _ | with_reducible exact parseStatement_lim h _ _ _ _ _ | lim_step

theorem parseLine_lim (fs : Fs) (p : PState) (st : St) (i : Span) :
    Res.Lim (parseLine fs r p st i) (parseLine fs s p st i) := by
  unfold parseLine
  repeat' first | with_reducible exact parseCollapsed_lim h _ _ _ _ | lim_step

theorem processLoop_lim (fs : Fs) (n : Nat) : ∀ (i : Span) (p : PState) (st : St),
    Res.Lim (processLoop fs r n i p st) (processLoop fs s n i p st) := by
  induction n with
  | zero => intros; exact .refl _
  | succ n ih =>
    intro i p st
    unfold processLoop
    repeat' first | with_reducible exact ih _ _ _ | with_reducible exact parseLine_lim h _ _ _ _ | lim_step

theorem processStep_lim (fs : Fs) (b : Block) (st : St) :
    Res.Lim (processStep fs r b st) (processStep fs s b st) := by
  unfold processStep
  repeat' first | with_reducible exact processLoop_lim h _ _ _ _ _ | lim_step

end

theorem recF_limited (fs : Fs) (n : Nat) : Rec.Lim (recF fs n) (limited fs n) := by
  induction n with
  | zero => exact ⟨fun _ _ => .inl ⟨rfl, rfl⟩, fun _ _ => .inl ⟨rfl, rfl⟩⟩
  | succ n ih => exact ⟨evalStep_lim ih, processStep_lim ih fs⟩

end Hastur
