/-
Outcomes, strings and character classes used by the whole model.
-/
namespace Hastur

/-- Rust `String`/`&str`: a list of Unicode scalar values.  Byte lengths are recovered with
`blen`. (No code of its own; e.g. the contents of src/source_location.rs line 250.) -/
abbrev Str := List Char

/-- Reasons for a panic.  The model only distinguishes them for documentation. (No code of its own; e.g. the
assertions of src/source_location.rs lines 250-251.) -/
inductive Panic
  /-- a failed `assert!` -/
  | assertion
  /-- an index or slice out of range, or a string index inside a character -/
  | index
  /-- unsigned subtraction below zero (debug build) -/
  | underflow
  /-- `unwrap` / `expect` on `None` or `Err` -/
  | unwrap
  /-- `unimplemented!` -/
  | unimplemented
  /-- an explicit `panic!` -/
  | explicit
  deriving DecidableEq, Repr

/-- Outcome of a computation: a value, a panic, or the fuel budget was too small. (No code of its own; every
function of /repo/src that may panic.) -/
inductive Res (α : Type) where
  | ok (a : α)
  | panic (p : Panic)
  | fuel
  deriving DecidableEq, Repr

namespace Res

@[inline] def bind {α β : Type} (x : Res α) (f : α → Res β) : Res β :=
  match x with
  | ok a => f a
  | panic p => panic p
  | fuel => fuel

instance : Monad Res where
  pure := ok
  bind := bind

@[simp] theorem pure_eq {α : Type} (a : α) : (pure a : Res α) = ok a := rfl
@[simp] theorem ok_bind {α β : Type} (a : α) (f : α → Res β) : (ok a >>= f) = f a := rfl
@[simp] theorem panic_bind {α β : Type} (p : Panic) (f : α → Res β) :
    ((panic p : Res α) >>= f) = panic p := rfl
@[simp] theorem fuel_bind {α β : Type} (f : α → Res β) : ((fuel : Res α) >>= f) = fuel := rfl
@[simp] theorem map_ok {α β : Type} (a : α) (f : α → β) : f <$> (ok a) = ok (f a) := rfl
@[simp] theorem map_panic {α β : Type} (p : Panic) (f : α → β) :
    f <$> (panic p : Res α) = panic p := rfl
@[simp] theorem map_fuel {α β : Type} (f : α → β) : f <$> (fuel : Res α) = fuel := rfl

instance : LawfulMonad Res := LawfulMonad.mk'
  (id_map := by intro α x; cases x <;> rfl)
  (pure_bind := by intros; rfl)
  (bind_assoc := by intro α β γ x f g; cases x <;> rfl)

/-- The value, if there is one. (No code of its own.) -/
def toOption {α : Type} : Res α → Option α
  | ok a => some a
  | _ => none

theorem bind_eq_ok {α β : Type} {x : Res α} {f : α → Res β} {b : β} :
    (x >>= f) = ok b ↔ ∃ a, x = ok a ∧ f a = ok b := by
  cases x <;> simp

theorem map_eq_ok {α β : Type} {x : Res α} {f : α → β} {b : β} :
    f <$> x = ok b ↔ ∃ a, x = ok a ∧ f a = b := by
  cases x <;> simp

end Res

/-- `assert!(b)` (e.g. src/source_location.rs lines 250-251) -/
def rassert (b : Bool) : Res Unit := if b then .ok () else .panic .assertion

/-- `Option::unwrap` / `expect` (e.g. src/parsers/targets/mod.rs line 281) -/
def runwrap {α : Type} : Option α → Res α
  | some a => .ok a
  | none => .panic .unwrap

/-- unsigned `a - b` in a debug build (e.g. src/evaluated/nom/mod.rs line 262) -/
def usub (a b : Nat) : Res Nat := if b ≤ a then .ok (a - b) else .panic .underflow

/-- slice indexing `xs[i]` (e.g. src/evaluated/block_span.rs line 50) -/
def rindex {α : Type} (xs : List α) (i : Nat) : Res α :=
  match xs[i]? with
  | some a => .ok a
  | none => .panic .index

/-- Length in bytes (`str::len`). (E.g. src/source_location.rs line 250.) -/
def blen : Str → Nat
  | [] => 0
  | c :: cs => c.utf8Size + blen cs

/-- `&s[n..]` (byte index): panics when `n` is past the end or not on a character boundary. (The slices of
src/source_location.rs line 265.) -/
def bdrop : Nat → Str → Res Str
  | 0, s => .ok s
  | _ + 1, [] => .panic .index
  | n + 1, c :: cs => if c.utf8Size ≤ n + 1 then bdrop (n + 1 - c.utf8Size) cs else .panic .index

/-- `&s[..n]` (byte index): panics when `n` is past the end or not on a character boundary. (The slices of
src/source_location.rs lines 253 and 265.) -/
def btake : Nat → Str → Res Str
  | 0, _ => .ok []
  | _ + 1, [] => .panic .index
  | n + 1, c :: cs =>
    if c.utf8Size ≤ n + 1 then (c :: ·) <$> btake (n + 1 - c.utf8Size) cs else .panic .index

/-- The character is ASCII (one byte in UTF-8). (No code of its own.) -/
def isAscii (c : Char) : Bool := c.val < 128

/-- All characters are ASCII. (No code of its own.) -/
def AsciiS (s : Str) : Prop := ∀ c ∈ s, isAscii c = true

/-- `char::is_whitespace` (Unicode White_Space). (src/parsers/file_sequence.rs line 69, src/parsers/targets/mod.rs
line 608, src/parsers/variable/mod.rs lines 289 and 411.) -/
def isWhitespace (c : Char) : Bool :=
  let n := c.toNat
  (9 ≤ n && n ≤ 13) || n == 32 || n == 0x85 || n == 0xA0 || n == 0x1680 ||
  (0x2000 ≤ n && n ≤ 0x200A) || n == 0x2028 || n == 0x2029 || n == 0x202F || n == 0x205F ||
  n == 0x3000

/-- `char::is_alphabetic`.  Simplified: exact for ASCII, false for every other character.
(src/parsers/targets/mod.rs lines 456, 593, 608.) -/
def isAlphabetic (c : Char) : Bool :=
  let n := c.toNat
  (65 ≤ n && n ≤ 90) || (97 ≤ n && n ≤ 122)

/-- `char::to_lowercase`.  Simplified: exact for ASCII, the identity for every other character.
(src/evaluated/nom/mod.rs lines 173-174.) -/
def lower (c : Char) : Char :=
  if 65 ≤ c.toNat && c.toNat ≤ 90 then Char.ofNat (c.toNat + 32) else c

/-- `str::trim` (Unicode White_Space at both ends). (src/parsers/variable/mod.rs lines 233, 260, 338,
src/parsers/conditional/mod.rs lines 51-52.) -/
def trim (s : Str) : Str :=
  ((s.dropWhile isWhitespace).reverse.dropWhile isWhitespace).reverse

end Hastur
