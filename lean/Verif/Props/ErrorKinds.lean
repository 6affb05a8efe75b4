import Verif.Proofs.Silent
import Verif.Proofs.Conditional
import Verif.Proofs.Demo
/-
C84: the kinds of error that a line is rejected with.
-/
namespace Hastur

open Res

private def noFs : Fs := fun _ => .missing

/-- **Internal errors stay internal**: whatever the files, the state and the line, the error that `parse_line` returns is
not of the kind `InternalFailure`. -/
theorem C84_internal (fs : Fs) (n : Nat) (p p' : PState) (st st' : St) (i : Span) (e : NErr)
    (h : parseLine fs (recF fs n) p st i = .ok (.err e, p', st')) (what : Str) : e.kind ≠ some (.internalFailure what) :=
  fun he => nomatch quietS_parseLine fs n p st i e (p', st') h _ he

/-- **The complete list**: the error that `parse_line` returns is of one of the kinds in the list, or has no kind. -/
theorem C84_kinds (fs : Fs) (n : Nat) (p p' : PState) (st st' : St) (i : Span) (e : NErr)
    (h : parseLine fs (recF fs n) p st i = .ok (.err e, p', st')) (k : ParseErrorKind) (hk : e.kind = some k) : Reportable k :=
  quietS_parseLine fs n p st i e (p', st') h k hk

private def Hard {α : Type} (x : Res (IRes Unit × α)) : Prop := ∀ k s, x ≠ .ok (.err (.error k), s)

private theorem hard_done {α : Type} {i : Span} {s : α} : Hard (.ok (.done i (), s)) := by intro k s h; cases h
private theorem hard_fail {α : Type} {k : NErrKind} {s : α} : Hard (.ok (.err (.failure k), s)) := by intro k s h; cases h
private theorem hard_panic {α : Type} {k : Panic} : Hard (.panic k : Res (IRes Unit × α)) := by intro k s h; cases h
private theorem hard_bind {α β : Type} {x : Res β} {f : β → Res (IRes Unit × α)} (h : ∀ b, x = .ok b → Hard (f b)) :
    Hard (x >>= f) := by
  intro k s he
  obtain ⟨b, hb, hf⟩ := Res.bind_eq_ok.mp he
  exact h b hb k s hf

private theorem hard_lineResult {i : Span} {x : Except ParseErrorKind Unit} {p : PState} {st : St} :
    Hard (.ok (lineResult i (x, p, st))) := by
  cases x
  · exact hard_fail
  · exact hard_done

private theorem hard_parseStatement (fs : Fs) (r : Rec) (p : PState) (st : St) (i : Span) (line : Block) :
    Hard (parseStatement fs r p st i line) := by
  unfold parseStatement
  refine hard_bind fun x _ => ?_
  obtain ⟨x, st1⟩ := x
  rcases x with _ | (k | k)
  case done => exact hard_bind fun _ _ => hard_bind fun _ _ => hard_done
  case err.failure => exact hard_fail
  case err.error =>
    refine hard_bind fun y _ => ?_
    rcases y with _ | (k | k)
    case done => exact hard_bind fun _ _ => hard_bind fun _ _ => hard_lineResult
    case err.failure => exact hard_fail
    case err.error =>
      refine hard_bind fun c _ => ?_
      dsimp only
      split
      · exact hard_fail
      · refine hard_bind fun z _ => ?_
        obtain ⟨z, st2⟩ := z
        rcases z with _ | (k | k)
        · exact hard_bind fun _ _ => hard_bind fun _ _ => hard_done
        · exact hard_done
        · exact hard_fail

private def Sure {α : Type} (x : PRes α) : Prop := ∀ e, x ≠ .ok (.err e)

private theorem sure_done {α : Type} {i : Span} {a : α} : Sure (done i a) := by intro e h; cases h

private theorem sure_bind {α β : Type} {x : Res β} {f : β → PRes α} (h : ∀ b, Sure (f b)) : Sure (x >>= f) := by
  intro e he
  obtain ⟨b, _, hf⟩ := Res.bind_eq_ok.mp he
  exact h b e hf

private theorem sure_andThen {α β : Type} {x : PRes β} {f : Span → β → PRes α} (hx : Sure x) (h : ∀ i b, Sure (f i b)) :
    Sure (x.andThen f) := by
  intro e he
  obtain ⟨b, hb, hf⟩ := Res.bind_eq_ok.mp he
  cases b with
  | done i b => exact h i b e hf
  | err k => exact hx k hb

private theorem sure_orElse {α : Type} {x y : PRes α} (hx : ∀ k, x ≠ .ok (.err (.failure k))) (hy : Sure y) : Sure (orElse x y) := by
  intro e he
  obtain ⟨b, hb, hf⟩ := Res.bind_eq_ok.mp he
  cases b with
  | done i b => cases hf
  | err k =>
    cases k with
    | error k => exact hy e hf
    | failure k => exact hx k hb

private theorem sure_whitespace (i : Span) : Sure (whitespace i) := by
  unfold whitespace Nom.takeTill
  exact sure_bind fun _ => sure_done

private theorem soft_takeUntil (t : Str) (i : Span) : ∀ k, Nom.takeUntil t i ≠ .ok (.err (.failure k)) := by
  intro k h
  unfold Nom.takeUntil at h
  obtain ⟨x, _, h⟩ := Res.bind_eq_ok.mp h
  cases x with
  | none => cases h
  | some n =>
    obtain ⟨y, _, h⟩ := Res.bind_eq_ok.mp h
    cases h

private theorem soft_tag (t : Str) (i : Span) : ∀ k, Nom.tag t i ≠ .ok (.err (.failure k)) := by
  intro k h
  unfold Nom.tag at h
  obtain ⟨x, _, h⟩ := Res.bind_eq_ok.mp h
  cases x with
  | ok =>
    obtain ⟨y, _, h⟩ := Res.bind_eq_ok.mp h
    cases h
  | _ => cases h

private theorem soft_andThen {α β : Type} {x : PRes β} {f : Span → β → PRes α} (hx : ∀ k, x ≠ .ok (.err (.failure k)))
    (h : ∀ i b k, f i b ≠ .ok (.err (.failure k))) : ∀ k, x.andThen f ≠ .ok (.err (.failure k)) := by
  intro k he
  obtain ⟨b, hb, hf⟩ := Res.bind_eq_ok.mp he
  cases b with
  | done i b => exact h i b k hf
  | err e => cases hf; exact hx k hb

private theorem sure_grabLine (i : Span) : Sure (grabLine i) := by
  have hd : ∀ {α β : Type} (f : β → α) (i : Span) (b : β) (k : NErrKind), done i (f b) ≠ .ok (.err (.failure k)) := by
    intro α β f i b k h
    cases h
  refine sure_orElse (soft_andThen (soft_takeUntil _ _) (hd _)) <|
    sure_orElse (soft_andThen (soft_takeUntil _ _) fun _ _ => soft_andThen (soft_tag _ _) (hd _)) <|
    sure_orElse (soft_andThen (soft_takeUntil _ _) fun _ _ => soft_andThen (soft_tag _ _) (hd _)) <|
    sure_andThen ?_ fun _ _ => sure_done
  unfold Nom.rest
  first | exact sure_done | exact sure_bind fun _ => sure_done

private theorem sure_lineLoop (m : Compliance) : ∀ n i ls s a r, Sure (lineLoop m n i ls s a r)
  | 0, _, _, _, _, _ => by intro e h; cases h
  | n + 1, i, ls, s, a, r => by
    have ih := sure_lineLoop m n
    rw [lineLoop]
    intro e h
    obtain ⟨x, hx, h⟩ := Res.bind_eq_ok.mp h
    rcases x with ⟨j, l, q⟩ | k
    · refine (sure_bind fun b => ?_ : Sure _) e h
      split
      · exact sure_bind fun _ => sure_bind fun _ => sure_done
      · refine sure_bind fun _ => ?_
        split
        · exact sure_bind fun _ => ih _ _ _ _ _
        · exact ih _ _ _ _ _
    · exact sure_andThen (sure_whitespace _) (fun _ _ => sure_grabLine _) k hx

/-- A line can always be read. -/
private theorem sure_makefileLine (i : Span) (m : Compliance) (s : Bool) : Sure (makefileLine i m s) := by
  unfold makefileLine
  refine sure_andThen ?_ fun j x => ?_
  · split
    · exact sure_andThen (sure_whitespace _) fun _ _ => sure_grabLine _
    · exact sure_grabLine _
  · obtain ⟨l, q⟩ := x
    refine sure_bind fun _ => ?_
    split
    · exact sure_bind fun _ => sure_bind fun _ => sure_done
    · refine sure_bind fun _ => ?_
      split
      · exact sure_bind fun _ => sure_lineLoop _ _ _ _ _ _ _
      · exact sure_lineLoop _ _ _ _ _ _ _

private theorem hard_parseCollapsed (fs : Fs) (r : Rec) (p : PState) (st : St) (i : Span) : Hard (parseCollapsed fs r p st i) := by
  unfold parseCollapsed
  refine hard_bind fun x hx => ?_
  rcases x with ⟨j, b⟩ | e
  · dsimp only
    split
    · exact hard_done
    · refine hard_bind fun x _ => ?_
      rcases x with _ | (k | k)
      · exact hard_bind fun _ _ => hard_lineResult
      · dsimp only
        split
        · exact hard_done
        · exact hard_parseStatement _ _ _ _ _ _
      · exact hard_fail
  · exact absurd hx (sure_makefileLine _ _ _ e)

/-- **The error is final**: a line is not rejected with an error from which the caller is meant to recover. -/
theorem C84_final (fs : Fs) (r : Rec) (p p' : PState) (st st' : St) (i : Span) (e : NErr)
    (h : parseLine fs r p st i = .ok (.err e, p', st')) : ∃ k, e = .failure k := by
  have key : Hard (parseLine fs r p st i) := by
    unfold parseLine
    refine hard_bind fun x _ => ?_
    rcases x with _ | (k | k)
    · exact hard_done
    · dsimp only
      split
      · refine hard_bind fun y _ => ?_
        rcases y with _ | (k | k)
        · exact hard_bind fun _ _ => hard_done
        · exact hard_parseCollapsed fs r p st i
        · exact hard_fail
      · split
        · refine hard_bind fun y _ => ?_
          rcases y with _ | (k | k)
          · exact hard_bind fun _ _ => hard_done
          · exact hard_panic
          · exact hard_fail
        · exact hard_parseCollapsed fs r p st i
    · exact hard_fail
  cases e with
  | failure k => exact ⟨k, rfl⟩
  | error k => exact absurd h (key k _)

/-- Read lines until one is rejected, and return the kind of the error. -/
private def report : Nat → Span → PState → St → Option ParseErrorKind
  | 0, _, _, _ => none
  | n + 1, i, p, st =>
    match parseLine noFs (recF noFs 3) p st i with
    | .ok (.done i _, p, st) => report n i p st
    | .ok (.err (.failure (.custom k)), _, _) => some k
    | _ => none

private theorem report_sound {k : ParseErrorKind} : ∀ {n : Nat} {i : Span} {p : PState} {st : St}, report n i p st = some k →
    Reported noFs k i p st
  | 0, _, _, _, h => by cases h
  | n + 1, i, p, st, h => by
    rw [report] at h
    split at h
    · rename_i e
      exact .later e (report_sound h)
    · rename_i e
      cases h
      exact .now e
    · cases h

private def read (c : Char) (s : String) : Option ParseErrorKind :=
  report 5 (textBlock .synthetic s.toList).span PState.new { St.init with commandChar := c }

private theorem read_sound {k : ParseErrorKind} {c : Char} {s : String} (h : read c s = some k) :
    ∃ c s, Reported noFs k (textBlock .synthetic s).span PState.new { St.init with commandChar := c } :=
  ⟨c, _, report_sound h⟩

/-- **Nothing in the list is superfluous**: for every kind there is a text that is rejected with it.  (Of the errors about
included files only one is shown.  `recipeExpected` needs another command character than the tab.) -/
theorem C84_reached (k : ParseErrorKind) (h : Reportable k) (hf : ∀ f, k = .includeFailure f → f = "a".toList) :
    ∃ c s, Reported noFs k (textBlock .synthetic s).span PState.new { St.init with commandChar := c } := by
  cases h with
  | extraTokensAfter h =>
    simp only [List.mem_cons, List.not_mem_nil, or_false] at h
    rcases h with rfl | rfl | rfl
    · exact read_sound (c := '\t') (s := "else else\n") (by decide +kernel)
    · exact read_sound (c := '\t') (s := "endif x\n") (by decide +kernel)
    · exact read_sound (c := '\t') (s := "define a\nendef x\n") (by decide +kernel)
  | unattachedElse => exact read_sound (c := '\t') (s := "else\n") (by decide +kernel)
  | unattachedEndIf => exact read_sound (c := '\t') (s := "endif\n") (by decide +kernel)
  | tooManyElses => exact read_sound (c := '\t') (s := "ifeq (a,a)\nelse\nelse\n") (by decide +kernel)
  | recipeExpected => exact read_sound (c := '>') (s := ">x\n") (by decide +kernel)
  | badIfEqSeparator => exact read_sound (c := '\t') (s := "else ifeq (a\n") (by decide +kernel)
  | unterminatedVariable => exact read_sound (c := '\t') (s := "x = $(a\n") (by decide +kernel)
  | insufficientArguments => exact read_sound (c := '\t') (s := "$(word a): b\n") (by decide +kernel)
  | extraArguments h =>
    simp only [List.mem_cons, List.not_mem_nil, or_false] at h
    rcases h with rfl | rfl | rfl
    · exact read_sound (c := '\t') (s := "$(strip a,b): b\n") (by decide +kernel)
    · exact read_sound (c := '\t') (s := "$(words a,b): b\n") (by decide +kernel)
    · exact read_sound (c := '\t') (s := "$(word a,b,c): b\n") (by decide +kernel)
  | includeFailure =>
    obtain rfl := hf _ rfl
    exact read_sound (c := '\t') (s := "include a\n") (by decide +kernel)

/-- Some rejections name no reason: `else foo`. -/
theorem C84_unnamed : ∃ s p' st', parseLine noFs (recF noFs 3) PState.new St.init (textBlock .synthetic s).span =
    .ok (.err (.failure .code), p', st') := by
  refine ⟨"else foo\n".toList, ?_⟩
  have h : (match parseLine noFs (recF noFs 3) PState.new St.init (textBlock .synthetic "else foo\n".toList).span with
    | .ok (.err (.failure .code), _, _) => true
    | _ => false) = true := by decide +kernel
  split at h
  · rename_i p' st' e
    exact ⟨p', st', e⟩
  · cases h

/-- A line that is rejected, as the theorems suppose: `endif x`. -/
example : ∃ e p' st', parseLine noFs (recF noFs 3) PState.new St.init (textBlock .synthetic "endif x\n".toList).span =
    .ok (.err e, p', st') ∧ e = .failure (.custom (.extraTokensAfter "endif".toList)) := by
  have h : (match parseLine noFs (recF noFs 3) PState.new St.init (textBlock .synthetic "endif x\n".toList).span with
    | .ok (.err e, _, _) => decide (e = .failure (.custom (.extraTokensAfter "endif".toList)))
    | _ => false) = true := by decide +kernel
  split at h
  · rename_i e p' st' heq
    exact ⟨e, p', st', heq, of_decide_eq_true h⟩
  · cases h

end Hastur
