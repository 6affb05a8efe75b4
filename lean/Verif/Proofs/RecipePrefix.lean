import Verif.Proofs.Grow
import Verif.Proofs.Dispatch
import Verif.Spec.Steps
import Verif.Spec.Stored
/-
What a line can do to the open rule, and the recipe prefix.
-/
namespace Hastur

open Res

/-- The open rule `new` after a line that is not a recipe line, if it was `old` before: it stays open, or it is closed,
or a new one is opened, with at most the command that is written on the rule line itself. -/
def OpenAfter (old new : Option ProtoRule) : Prop :=
  new = old ∨ new = none ∨ ∃ r, new = some r ∧ r.recipe.length ≤ 1

theorem closeRule_open (p : PState) (st : St) : Post (fun o => o.1.currentRule = none) (p.closeRule st) := by
  unfold PState.closeRule
  split
  · intro o ho
    obtain ⟨⟨db, names⟩, h1, h2⟩ := bind_eq_ok.mp ho
    cases h2
    rfl
  · exact Post.ok (by assumption)

theorem handleVariableAction_open (p : PState) (st : St) (a : VarAction) (h : p.currentRule = none) :
    Post (fun o => o.1.currentRule = none) (handleVariableAction p st a) := by
  unfold handleVariableAction
  split
  · exact Post.panic _
  · refine Post.bind (Q := fun q => q.currentRule = none) ?_ fun p hp => ?_
    · split
      · refine Post.bind_any fun _ => ?_
        exact Post.ok h
      · exact Post.ok h
    split
    · exact Post.ok hp
    · exact Post.ok hp

theorem handleTargetAction_open (p : PState) (a : TargetAction) (h : p.currentRule = none) (old : Option ProtoRule) :
    Post (fun q => OpenAfter old q.currentRule) (handleTargetAction p a) := by
  unfold handleTargetAction
  split
  · exact Post.ok (.inr (.inl h))
  · dsimp only
    split
    · exact Post.ok (.inr (.inr ⟨_, rfl, by simp⟩))
    · exact Post.ok (.inr (.inr ⟨_, rfl, by simp⟩))
  · exact Post.panic _

theorem handleIfeq_open (r : Rec) (p : PState) (st : St) (a b : Ast) (inv : Bool) :
    Post (fun o => o.2.1.currentRule = p.currentRule) (handleIfeq r p st a b inv) := by
  unfold handleIfeq
  refine Post.bind_any fun _ => Post.bind_any fun _ => Post.bind_any fun _ => Post.bind_any fun _ => ?_
  exact Post.ok rfl

theorem handleConditional_open (r : Rec) (p : PState) (st : St) (c : Conditional) :
    Post (fun o => o.2.1.currentRule = p.currentRule) (handleConditional r p st c) := by
  unfold handleConditional
  split
  · exact handleIfeq_open _ _ _ _ _ _
  · exact handleIfeq_open _ _ _ _ _ _
  · split
    · exact Post.ok rfl
    · split
      · exact Post.ok rfl
      · exact Post.ok rfl
  · exact Post.panic _
  · split
    · exact Post.ok rfl
    · exact Post.ok rfl
  · exact Post.panic _
  · exact Post.panic _

theorem lineResult_open {i : Span} {x : Handled} {Q : Option ProtoRule → Prop} (hs : Q x.2.1.currentRule) :
    Q (lineResult i x).2.1.currentRule := by
  obtain ⟨e, p, st⟩ := x
  cases e <;> exact hs

theorem parseStatement_open (fs : Fs) (r : Rec) (p : PState) (st : St) (i : Span) (line : Block) :
    Post (fun o => OpenAfter p.currentRule o.2.1.currentRule) (parseStatement fs r p st i line) := by
  unfold parseStatement
  have ht := fun q a (h : q.currentRule = none) => handleTargetAction_open q a h p.currentRule
  refine Post.bind_any ?_
  rintro ⟨var, st⟩
  dsimp only at *
  split
  · exact Post.ok (.inl rfl)
  · refine Post.bind (closeRule_open _ _) ?_
    rintro ⟨p, st⟩ hs
    refine Post.bind (handleVariableAction_open _ _ _ hs) ?_
    rintro ⟨p, st⟩ hs
    exact Post.ok (.inr (.inl hs))
  · refine Post.bind_any fun d => ?_
    split
    · exact Post.ok (.inl rfl)
    · refine Post.bind (closeRule_open _ _) ?_
      rintro ⟨p, st⟩ hs
      refine Post.bind_any ?_
      rintro ⟨res, st⟩
      exact Post.ok (lineResult_open (Q := OpenAfter _) (.inr (.inl hs)))
    · refine Post.bind_any fun c => ?_
      split
      · exact Post.ok (.inl rfl)
      · refine Post.bind_any ?_
        rintro ⟨target, st⟩
        dsimp only at *
        split
        · exact Post.ok (.inl rfl)
        · refine Post.bind (closeRule_open _ _) ?_
          rintro ⟨p, st⟩ hs
          refine Post.bind (ht _ _ hs) fun p hp => ?_
          exact Post.ok hp
        · exact Post.ok (.inl rfl)

theorem parseCollapsed_open (fs : Fs) (r : Rec) (p : PState) (st : St) (i : Span) :
    Post (fun o => OpenAfter p.currentRule o.2.1.currentRule) (parseCollapsed fs r p st i) := by
  unfold parseCollapsed
  refine Post.bind_any fun l => ?_
  split
  · exact Post.ok (.inl rfl)
  · split
    · exact Post.ok (.inl rfl)
    · refine Post.bind_any fun c => ?_
      split
      · exact Post.ok (.inl rfl)
      · refine Post.bind (handleConditional_open _ _ _ _) ?_
        intro o ho
        exact Post.ok (lineResult_open (Q := OpenAfter _) (.inl ho))
      · split
        · exact Post.ok (.inl rfl)
        · exact parseStatement_open _ _ _ _ _ _

/-- A line in an open rule: it adds one command and begins with the recipe prefix, or it is an ordinary line. -/
theorem parseLine_open (fs : Fs) (r : Rec) {P : Block} {t : List LChar} {p : PState} {st : St} {i : Span} {o : ProtoRule}
    (hi : i.At P t) (hc : isAscii st.commandChar = true) (hp : p.currentRule = some o) :
    Post (fun x => OpenAfter (some o) x.2.1.currentRule ∨ ((textOf t).head? = some st.commandChar ∧
      ∃ a, x.2.1.currentRule = some { o with recipe := o.recipe ++ [a] })) (parseLine fs r p st i) := by
  unfold parseLine
  refine Post.bind_any fun c => ?_
  split
  · exact Post.ok (.inl (.inl hp))
  · exact Post.ok (.inl (.inl hp))
  · rw [if_pos (by rw [hp]; rfl)]
    by_cases hh : (textOf t).head? = some st.commandChar
    · refine Post.bind_any fun l => ?_
      split
      · unfold PState.pushCommandLine
        rw [hp]
        exact Post.ok (.inr ⟨hh, _, rfl⟩)
      · exact Post.ok (.inl (.inl hp))
      · rw [← hp]
        exact (parseCollapsed_open _ _ _ _ _).mono fun _ => .inl
    · rw [recipeLine_none hc hi hh, ok_bind, ← hp]
      exact (parseCollapsed_open _ _ _ _ _).mono fun _ => .inl

theorem expandF_keeps {I : St → Prop} (hI : EngineInv I) {fs : Fs} {n : Nat} {v : VariableName} {st : St}
    {x : Option Str × St} (hs : I st) (h : expandF fs n v st = .ok x) : I x.2 := by
  unfold expandF at h
  split at h
  · cases h
    exact hs
  · obtain ⟨⟨b, st1⟩, e1, h⟩ := bind_eq_ok.mp h
    obtain ⟨t, e2, h⟩ := bind_eq_ok.mp h
    cases h
    exact evalF_keeps hI hs e1

/-- The recipe prefix is always the tab. -/
theorem Reachable.commandChar {fs : Fs} {st : St} (h : Reachable fs st) : st.commandChar = '\t' := by
  induction h with
  | init => rfl
  | read _ h ih => exact readF_keeps (commandChar_inv _) ih h
  | expand _ h ih => exact expandF_keeps (commandChar_inv _) ih h

theorem LineSteps.commandChar {fs : Fs} {n : Nat} {i j : Span} {p p' : PState} {st st' : St}
    (h : LineSteps fs (recF fs n) i p st j p' st') : st'.commandChar = st.commandChar := by
  induction h with
  | nil => rfl
  | @cons i j k p p1 p' st st1 st' h0 h1 _ ih =>
    have hk := parseLine_keeps (commandChar_inv st.commandChar) (recF_keeps (commandChar_inv st.commandChar) fs n) fs p st i rfl
    rw [h1] at hk
    exact ih.trans (hk _ rfl)

end Hastur
