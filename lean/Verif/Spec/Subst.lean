import Mathlib.Data.List.Forall2
import Verif.Spec.Search
import Verif.Spec.RuleLine
import Verif.Spec.Eval
/-
Specification of substitution references `$(name:key=replacement)`.
-/
namespace Hastur

/-- The parts of the key pattern and of the replacement. -/
structure SubstRule where
  /-- what a matching word begins with -/
  pre : Str
  /-- what a matching word ends with -/
  post : Str
  /-- what the stem is put after -/
  preR : List LChar
  /-- what the stem is put before -/
  postR : List LChar

/-- The rule given by a key and a replacement.  The key is cut at its first unescaped `%`, and so is the replacement; a
replacement without one is put after the stem.  A key without one is what a matching word ends with, and the
replacement, as it stands, is put in its place. -/
def substRule (key replacement : List LChar) : SubstRule :=
  match unquote (· == '%') [] key with
  | (pre, some (_, post)) =>
    match unquote (· == '%') [] replacement with
    | (preR, some (_, postR)) => ⟨textOf pre, textOf post, preR, postR⟩
    | (whole, none) => ⟨textOf pre, textOf post, [], whole⟩
  | (whole, none) => ⟨[], textOf whole, [], replacement⟩

/-- The word `w` matches with the stem `stem`. -/
def SubstRule.Matches (R : SubstRule) (w stem : List LChar) : Prop :=
  ∃ a b, w = a ++ (stem ++ b) ∧ textOf a = R.pre ∧ textOf b = R.post

/-- What becomes of a word: in a word that matches, the parts around the stem are replaced; any other word is left
alone. -/
inductive SubstRule.Word (R : SubstRule) : (w out : List LChar) → Prop
  | hit {w stem : List LChar} : R.Matches w stem → R.Word w (R.preR ++ (stem ++ R.postR))
  | miss {w : List LChar} : (∀ stem, ¬ R.Matches w stem) → R.Word w w

/-- The same for a list of words, which are then joined by single spaces. -/
def SubstRule.Gives (R : SubstRule) (ws : List (List LChar)) (t : List LChar) : Prop :=
  ∃ out, List.Forall₂ R.Word ws out ∧ t = joinSpaces out

/-- What the engine does to a word: the stem ends where the suffix occurs first after the prefix, and the word matches
only if nothing comes after that. -/
inductive SubstRule.Done (R : SubstRule) : (w out : List LChar) → Prop
  | hit {w a stem b : List LChar} : w = a ++ (stem ++ b) → textOf a = R.pre → textOf b = R.post →
      FirstAt R.post (textOf (stem ++ b)) stem.length → R.Done w (R.preR ++ (stem ++ R.postR))
  | miss {w : List LChar} : (∀ a stem b, w = a ++ (stem ++ b) → textOf a = R.pre → textOf b = R.post →
      ¬ FirstAt R.post (textOf (stem ++ b)) stem.length) → R.Done w w

/-- The words the engine looks at: they are separated by spaces and tabs, and a value of blanks only counts as one empty
word. -/
def substWords (t : List LChar) : List (List LChar) :=
  if t ≠ [] ∧ ∀ x ∈ t, x.1 = ' ' ∨ x.1 = '\t' then [[]] else fields isBlank t

/-- Where the piece begins that contains position `p`, for pieces of the given lengths. -/
def pieceStart : (lengths : List Nat) → (p : Nat) → Nat
  | [], _ => 0
  | n :: ns, p => if p < n then 0 else n + pieceStart ns (p - n)

/-- Where the piece of the block begins that contains position `p` of its text. -/
def Block.pieceStart (b : Block) (p : Nat) : Nat := Hastur.pieceStart (b.content.map fun c => (CRef.ltext c).length) p

/-- What the engine takes for the part of the block's text from position `p` up to a separator at position `e`: it is cut
right if the text after the separator begins in the piece in which the part begins, and otherwise ends one character in
front of the piece in which the text after the separator begins. -/
def Block.partTo (b : Block) (p e : Nat) : List LChar :=
  ((Block.ltext b).take (if b.pieceStart (e + 1) ≤ p then e else b.pieceStart (e + 1) - 1)).drop p

/-- What the engine does to the word at position `p`, if `start` says where pieces begin: as before, but if the suffix
begins in a later piece than the stem, the stem loses everything from the beginning of that piece. -/
inductive SubstRule.DoneAt (R : SubstRule) (start : Nat → Nat) (p : Nat) : (w out : List LChar) → Prop
  | hit {w a stem b : List LChar} : w = a ++ (stem ++ b) → textOf a = R.pre → textOf b = R.post →
      FirstAt R.post (textOf (stem ++ b)) stem.length → start (p + a.length + stem.length) ≤ p + a.length →
      R.DoneAt start p w (R.preR ++ (stem ++ R.postR))
  | cut {w a stem lost b : List LChar} : w = a ++ (stem ++ lost ++ b) → textOf a = R.pre → textOf b = R.post →
      FirstAt R.post (textOf (stem ++ lost ++ b)) (stem ++ lost).length → stem ≠ [] →
      start (p + a.length + (stem ++ lost).length) = p + a.length + stem.length →
      R.DoneAt start p w (R.preR ++ (stem ++ R.postR))
  | miss {w : List LChar} : (∀ a stem b, w = a ++ (stem ++ b) → textOf a = R.pre → textOf b = R.post →
      ¬ FirstAt R.post (textOf (stem ++ b)) stem.length) → R.DoneAt start p w w

/-- The words of a text with their positions; `p` is the position of the next character and `cur` the word being
read. -/
def wordsAtFrom : (p : Nat) → (cur : List LChar) → List LChar → List (Nat × List LChar)
  | p, cur, [] => if cur = [] then [] else [(p - cur.length, cur)]
  | p, cur, x :: t =>
    if x.1 = ' ' ∨ x.1 = '\t' then
      (if cur = [] then wordsAtFrom (p + 1) [] t else (p - cur.length, cur) :: wordsAtFrom (p + 1) [] t)
    else wordsAtFrom (p + 1) (cur ++ [x]) t

/-- The words the engine looks at, with their positions. -/
def substWordsAt (t : List LChar) : List (Nat × List LChar) :=
  if t ≠ [] ∧ ∀ x ∈ t, x.1 = ' ' ∨ x.1 = '\t' then [(0, [])] else wordsAtFrom 0 [] t

/-- If the word matches, the stem and the suffix together contain the suffix nowhere but at the end. -/
def SubstRule.Plain (R : SubstRule) (w : List LChar) : Prop :=
  ∀ stem, R.Matches w stem → ∀ p q : Str, textOf stem ++ R.post = p ++ (R.post ++ q) → q = []

/-- No word goes from one piece of the block into the next: where two pieces meet there is a space or a tab, at the end
of the one or at the beginning of the other. -/
def Block.Apart (b : Block) : Prop :=
  ∀ x c d y, b.content = x ++ c :: d :: y →
    (∃ u z, CRef.ltext c = u ++ [z] ∧ (z.1 = ' ' ∨ z.1 = '\t')) ∨ ∃ u z, CRef.ltext d = z :: u ∧ (z.1 = ' ' ∨ z.1 = '\t')

/-- Evaluating the tree gives blocks whose words stay inside the pieces. -/
def WholeWords (fs : Fs) (a : Ast) (st : St) : Prop :=
  ∀ n b st', evalF fs n a st = .ok (b, st') → b.Apart

/-- Evaluating the tree gives blocks of at most one piece. -/
def OnePiece (fs : Fs) (a : Ast) (st : St) : Prop :=
  ∀ n b st', evalF fs n a st = .ok (b, st') → b.content.length ≤ 1

end Hastur
