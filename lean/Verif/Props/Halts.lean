import Verif.Proofs.HaltsEngine
import Verif.Proofs.FuelLimit
/-
C60: the parsers end on every text.
-/
namespace Hastur

open Res

/-- C60: an expression is parsed in finitely many steps, whatever the text. -/
theorem C60_expression (i : Span) : parseAst i ≠ .fuel := (parseAst_sat i).1

/-- C60: if the recursive calls end, so does each line, and what is left is shorter: whatever the text, the parser state
and the files. -/
theorem C60_line {r : Rec} (hr : r.Ends) (fs : Fs) (p : PState) (st : St) {i : Span} (hi : i.Norm) (h0 : 0 < i.length) :
    parseLine fs r p st i ≠ .fuel ∧
      ∀ rest p' st', parseLine fs r p st i = .ok (.done rest (), p', st') → rest.length < i.length ∧ rest.Norm :=
  ⟨(parseLine_sat hr fs p st hi h0).1, fun _ _ _ h => (parseLine_sat hr fs p st hi h0).2 _ h⟩

/-- C60: if the recursive calls end, so does evaluating an expression and processing a text. -/
theorem C60_step {r : Rec} (hr : r.Ends) (fs : Fs) (st : St) :
    (∀ a, evalStep r a st ≠ .fuel) ∧ ∀ b : Block, b.Solid → processStep fs r b st ≠ .fuel :=
  ⟨fun a => (hr.step fs).eval a st, fun b hb => (hr.step fs).process b st hb⟩

theorem limited_ends (fs : Fs) (n : Nat) : (limited fs n).Ends := by
  induction n with
  | zero => exact ⟨fun _ _ => by simp [limited], fun _ _ _ => by simp [limited], fun _ _ _ h => by cases h⟩
  | succ n ih => exact ih.step fs

/-- C60: with a limit on the nesting of evaluations, `$(eval)` and `include`, reading any file returns.  It returns what the
program without the limit returns, or it is aborted at the limit; so the nesting is the only thing that may not end. -/
theorem C60_read (fs : Fs) (n : Nat) (e : FsEntry) (name : Str) (st : St) :
    readMakefile (limited fs n) e name st ≠ .fuel ∧
      (readF fs n e name st = readMakefile (limited fs n) e name st ∨
        readF fs n e name st = .fuel ∧ readMakefile (limited fs n) e name st = .panic .explicit) :=
  ⟨(readMakefile_sat (limited_ends fs n) e name st).1, (readMakefile_lim (recF_limited fs n) e name st).symm⟩

/-- Reading the text gives a value, aborts, or exceeds the depth. -/
private def outcome (r : Rec) (text : Str) : Nat :=
  match readMakefile r (.text text) ['f'] St.init with
  | .ok _ => 0
  | .panic .explicit => 1
  | .panic _ => 2
  | .fuel => 3

private def noFiles : Fs := fun _ => .missing

/-- An ordinary makefile is read below the limit. -/
example : outcome (limited noFiles 5) ['a', '=', 'b', '\n', 'c', ':', '=', '$', 'a', '\n'] = 0 := by decide +kernel

/-- A variable that refers to itself exceeds every limit: this reading never returns, and it is the nesting that does
not end. -/
example : outcome (limited noFiles 6) ['a', '=', '$', 'a', '\n', 'c', ':', '=', '$', 'a', '\n'] = 1 ∧
    outcome (recF noFiles 6) ['a', '=', '$', 'a', '\n', 'c', ':', '=', '$', 'a', '\n'] = 3 := by decide +kernel

/-- The recursive calls of `C60_line` can be anything that returns, and the text need not be ASCII. -/
example (fs : Fs) : parseLine fs (limited fs 3) PState.new St.init
    (Block.span ⟨[], [CRef.ofNode (.constant ⟨.synthetic, ['é', '\n']⟩)]⟩) ≠ .fuel :=
  (C60_line (limited_ends fs 3) fs _ _ (.inr ⟨_, _, rfl, by decide⟩) (by decide)).1

end Hastur
