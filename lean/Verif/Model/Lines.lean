import Verif.Model.Nom
/-
Model of the line-level parsers: src/parsers/mod.rs lines 300-641, src/parsers/comment.rs and
src/parsers/file_sequence.rs.
-/
namespace Hastur

open Res

/-- `LineEndReason` (src/parsers/mod.rs lines 300-306). -/
inductive LineEnd
  | comment
  | lineBreak
  | eof
  deriving DecidableEq, Repr

/-- `makefile_grab_line` (src/parsers/mod.rs lines 309-337). -/
def grabLine (i : Span) : PRes (Span × LineEnd) :=
  orElse ((Nom.takeUntil ['#'] i).mapP fun l => (l, LineEnd.comment)) <|
  orElse ((Nom.takeUntil ['\n'] i).andThen fun r l =>
      (Nom.tag ['\n'] r).mapP fun _ => (l, LineEnd.lineBreak)) <|
  orElse ((Nom.takeUntil ['\r', '\n'] i).andThen fun r l =>
      (Nom.tag ['\r', '\n'] r).mapP fun _ => (l, LineEnd.lineBreak)) <|
  (Nom.rest i).mapP fun l => (l, LineEnd.eof)

/-- Space or tab. (src/parsers/mod.rs line 349.) -/
def isBlank (c : Char) : Bool := c == ' ' || c == '\t'

/-- `makefile_whitespace` (src/parsers/mod.rs lines 344-350). -/
def whitespace (i : Span) : PRes Span := Nom.takeTill (fun c => !isBlank c) i

/-- `makefile_token` (src/parsers/mod.rs lines 352-366). -/
def token (i : Span) : PRes Span :=
  (whitespace i).andThen fun i _ =>
  (Nom.takeWhile (fun c => !isBlank c) i).andThen fun i t =>
  (whitespace i).andThen fun i _ => done i t

/-! ### `makefile_take_until_unquote` -/

/-- Loop state of `makefile_take_until_unquote` (src/parsers/mod.rs lines 386-392).  The field
`nonslash` is the code's `last_nonslash_idx` plus one, so that it is never negative. -/
structure UnquoteState where
  tr : Block
  stopChar : Option Span
  nonslash : Nat
  nextPush : Nat
  seen : Bool

/-- The loop of `makefile_take_until_unquote` (src/parsers/mod.rs lines 393-428).  Returns the state
and the index of the unescaped stop character, if the loop found one. -/
def unquoteLoop (i : Span) (stop : Char → Bool) (crash : Bool) :
    List (Nat × Char) → UnquoteState → Res (UnquoteState × Option Nat)
  | [], st => if crash then .panic .underflow else .ok (st, none)
  | (idx, ch) :: rest, st =>
    if stop ch then do
      let stopChar ← i.slice idx (idx + 1)
      let slashes := idx - st.nonslash
      let endIdx := idx - slashes / 2
      if slashes % 2 = 1 then do
        let e ← usub endIdx 1
        let piece ← i.slice st.nextPush e
        let tr ← st.tr.pushAll piece
        unquoteLoop i stop crash rest
          { tr := tr, stopChar := some stopChar, seen := true, nextPush := idx,
            nonslash := if ch = '\\' then st.nonslash else idx + 1 }
      else do
        let piece ← i.slice st.nextPush endIdx
        let tr ← st.tr.pushAll piece
        return ({ st with tr := tr, stopChar := some stopChar, seen := true }, some idx)
    else unquoteLoop i stop crash rest { st with nonslash := if ch = '\\' then st.nonslash else idx + 1 }

/-- `makefile_take_until_unquote` (src/parsers/mod.rs lines 378-467): the text before the stop
character, and (stop character, text after it) when there is one. -/
def takeUntilUnquote (i : Span) (stop : Char → Bool) : Res (Block × Option (Span × Span)) := do
  let (st, found) ← unquoteLoop i stop i.chars.crash (Span.withIndices 0 i.chars.items)
    { tr := ⟨i.parent.sens, []⟩, stopChar := none, nonslash := 0, nextPush := 0, seen := false }
  -- lines 432-447: a NUL at the end of the input
  let (st, found) ← (match found with
    | some idx => .ok (st, some idx)
    | none =>
      if stop (Char.ofNat 0) then do
        let idx := i.length
        let slashes := idx - st.nonslash
        let endIdx := idx - slashes / 2
        let piece ← i.slice st.nextPush endIdx
        let tr ← st.tr.pushAll piece
        if slashes % 2 = 1 then return ({ st with tr := tr, nextPush := idx }, none)
        else do
          let k ← usub idx 1
          return ({ st with tr := tr }, some k)
      else .ok (st, none) : Res (UnquoteState × Option Nat))
  -- lines 449-466
  match found with
  | some idx => do
    let stopChar ← (match st.stopChar with
      | some s => .ok s
      | none => i.sliceFrom i.length : Res Span)
    let tr ← st.tr.simplify
    let post ← i.sliceFrom (if idx < i.length then idx + 1 else idx)
    return (tr, some (stopChar, post))
  | none =>
    if !st.seen then do
      let b ← i.toNewBlock
      return (b, none)
    else do
      let piece ← i.sliceFrom st.nextPush
      let tr ← st.tr.pushAll piece
      let tr ← tr.simplify
      return (tr, none)

/-! ### `makefile_line` -/

/-- `ParserCompliance` (src/parsers/mod.rs lines 469-477). -/
inductive Compliance
  | gnu
  | posix
  deriving DecidableEq, Repr

/-- The counting loop of `ends_with_backslash` (src/parsers/mod.rs lines 632-640). -/
def countSlashes (cs : List Char) : Nat :=
  cs.foldl (fun n c => if c = '\\' then n + 1 else 0) 0

/-- `ends_with_backslash` (src/parsers/mod.rs lines 630-641). -/
def endsWithBackslash (s : Span) : Res Nat := do
  let cs ← s.chars.all
  return countSlashes cs

/-- The scan for the last character that is neither blank nor a backslash
(src/parsers/mod.rs lines 518-524). -/
def lastSolid (cs : List (Nat × Char)) : Nat :=
  cs.foldl (fun l ic => if isBlank ic.2 || ic.2 = '\\' then l else ic.1) 0

/-- `clean_line_end` (src/parsers/mod.rs lines 492-534). -/
def cleanLineEnd (mode : Compliance) (s : Span) (backslashes : Nat) : Res Span :=
  if backslashes = 1 then
    match mode with
    | .posix => do
      let n ← usub s.length 1
      return s.sliceTo n
    | .gnu =>
      if s.length < 2 then s.slice 0 0
      else do
        let cs ← s.chars.all
        return s.sliceTo (lastSolid (Span.withIndices 0 cs) + 1)
  else do
    let n ← usub s.length backslashes
    return s.sliceTo (n + backslashes / 2)

/-- The loop of `makefile_line` (src/parsers/mod.rs lines 560-605).  The first argument bounds the
number of lines; `makefileLine` passes the length of the input. -/
def lineLoop (mode : Compliance) :
    Nat → (i : Span) → (lines : List CRef) → (strip addSpace : Bool) → (reason : LineEnd) → PRes Block
  | 0, _, _, _, _, _ => .fuel
  | n + 1, i, lines, strip, addSpace, reason =>
    -- lines 561-570
    let (lines, addSpace) :=
      if reason ≠ .comment then
        if addSpace && !strip then (lines ++ [CRef.space], addSpace) else (lines, true)
      else (lines ++ [CRef.space], addSpace)
    ((whitespace i).andThen fun i _ => grabLine i) >>= fun
    | .err (.error _) => do
      let b ← Block.new [] lines
      done i b
    | .err (.failure k) => .ok (.err (.failure k))
    | .done i (line, reason) => do
      let backslashes ← endsWithBackslash line
      if backslashes % 2 = 0 then do
        let c ← line.toContentReference
        let b ← Block.new [] (lines ++ [c])
        done i b
      else do
        let line ← cleanLineEnd mode line backslashes
        if line.length > 0 then do
          let c ← line.toContentReference
          lineLoop mode n i (lines ++ [c]) false addSpace reason
        else lineLoop mode n i lines strip false reason

/-- `makefile_line` (src/parsers/mod.rs lines 479-606). -/
def makefileLine (i : Span) (mode : Compliance) (strip : Bool) : PRes Block :=
  (if strip then (whitespace i).andThen fun i _ => grabLine i else grabLine i).andThen
    fun i (line, reason) => do
      let backslashes ← endsWithBackslash line
      if backslashes % 2 = 0 then do
        let c ← line.toContentReference
        let b ← Block.new [] [c]
        done i b
      else do
        let line ← cleanLineEnd mode line backslashes
        if line.length > 0 then do
          let c ← line.toContentReference
          lineLoop mode (i.length + 2) i [c] false true reason
        else lineLoop mode (i.length + 2) i [] strip true reason

/-! ### Comments -/

/-- The loop of `parse_comment` (src/parsers/comment.rs lines 20-34).  The first argument bounds the
number of rounds; `parseComment` passes the length of the input. -/
def commentLoop : Nat → (i : Span) → (line : Span) → (reason : LineEnd) → PRes Unit
  | 0, _, _, _ => .fuel
  | n + 1, i, line, reason => do
    let backslashes ← (if reason = .comment then .ok 1 else endsWithBackslash line : Res Nat)
    if backslashes % 2 = 1 then
      (orElse ((Nom.char '#' i).mapP fun _ => ()) (done i ())).andThen fun i _ =>
      (grabLine i).andThen fun i (line, reason) => commentLoop n i line reason
    else done i ()

/-- `parse_comment` (src/parsers/comment.rs lines 7-35). -/
def parseComment (i : Span) : PRes Unit :=
  (Nom.char '#' i).andThen fun i _ =>
  (grabLine i).andThen fun i (line, reason) => commentLoop (i.length + 2) i line reason

/-- `parse_comment_following_whitespace` (src/parsers/comment.rs lines 37-43). -/
def parseCommentFollowingWhitespace (i : Span) : PRes Unit :=
  (whitespace i).andThen fun i _ => parseComment i

/-! ### File sequences -/

/-- The loop of `parse_file_seq` (src/parsers/file_sequence.rs lines 67-86).  `clean_match` (lines
89-99) only copies the name, since no caller sets `strip_leading_dotslash`.  The first argument
bounds the number of rounds; `parseFileSeq` passes the length of the input. -/
def fileSeqLoop (extraStop : Str) : Nat → Span → List Block → Res (List Block)
  | 0, _, _ => .fuel
  | n + 1, i, out =>
    if i.length > 0 then do
      match ← takeUntilUnquote i
          (fun c => isWhitespace c || c == Char.ofNat 0 || extraStop.contains c) with
      | (pre, some (_, post)) =>
        if pre.len > 0 then do
          let b ← pre.span.toNewBlock
          fileSeqLoop extraStop n post (out ++ [b])
        else fileSeqLoop extraStop n post out
      | (pre, none) => do
        let rest ← i.sliceFrom i.length
        if pre.len > 0 then do
          let b ← pre.span.toNewBlock
          fileSeqLoop extraStop n rest (out ++ [b])
        else fileSeqLoop extraStop n rest out
    else .ok out

/-- `parse_file_seq` (src/parsers/file_sequence.rs lines 45-87).  Simplified: the options that every
caller leaves at their defaults (globbing, archives, existence, `./` stripping) are left out; the function with
all options is `parseFileSeqOpts` in Model/FileSeq.lean, and `C75_defaults` relates the two. -/
def parseFileSeq (extraStop : Str) (i : Span) : Res (List Block) :=
  whitespace i >>= fun
    | .done i _ => fileSeqLoop extraStop (i.length + 1) i []
    | .err _ => .panic .unwrap

end Hastur
