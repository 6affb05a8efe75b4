import Verif.Model.Variable
/-
Model of target lines (src/parsers/targets/mod.rs).
-/
namespace Hastur

open Res

/-- `MWordEnd` (src/parsers/targets/mod.rs lines 77-94). -/
inductive MWordEnd
  | eol
  | static
  | variable
  | colon
  | dcolon
  | semicolon
  | varAssign
  deriving DecidableEq, Repr

/-- Where the scan of `next_mword` is: between constructs, before a character escaped by a backslash,
just after a `$`, or inside the brackets of a variable reference with the given nesting count
(src/parsers/targets/mod.rs lines 445-517). -/
inductive MWordMode
  | normal
  | escaped
  | afterDollar
  | brackets (open_ close : Char) (count : Nat)
  deriving DecidableEq, Repr

/-- The scan of `next_mword` (src/parsers/targets/mod.rs lines 440-532): the index at which the word
ends, and why.  `rest.head?` is the `peek` of the code. -/
def mwordScan (crash : Bool) :
    MWordMode → (prev : Char) → (stop : Nat) → (reason : MWordEnd) → List (Nat × Char) →
    Res (Nat × MWordEnd)
  | mode, _, stop, reason, [] =>
    if crash then .panic .underflow
    else .ok (stop, if mode = .afterDollar then .static else reason)
  | mode, prev, stop, reason, (idx, c) :: rest =>
    match mode with
    | .normal =>
      if c = ' ' ∨ c = '\t' ∨ c = '=' then .ok (idx, .static)
      else if c = ':' then
        if rest.isEmpty && crash then .panic .underflow
        else if rest.head? = some (idx + 1, '\\') ∧ isAlphabetic prev then
          mwordScan crash .normal prev (idx + 1) reason rest
        else .ok (idx + 1, reason)
      else if c = '$' then mwordScan crash .afterDollar prev (idx + 1) reason rest
      else if c = '\\' then
        match rest.head? with
        | none => mwordScan crash .normal c (idx + 1) reason rest
        | some (_, d) =>
          if d = ':' ∨ d = ';' ∨ d = '=' ∨ d = '\\' then
            mwordScan crash .escaped d (idx + 1) reason rest
          else mwordScan crash .normal c (idx + 1) reason rest
      else if c = '?' ∨ c = '+' then
        match rest.head? with
        | none => mwordScan crash .normal c (idx + 1) reason rest
        | some (_, d) =>
          if d = '=' then .ok (idx, reason) else mwordScan crash .normal c idx reason rest
      else mwordScan crash .normal c (idx + 1) reason rest
    | .escaped => mwordScan crash .normal prev stop reason rest
    | .afterDollar =>
      if c = '$' then mwordScan crash .normal c (idx + 1) reason rest
      else if c = '(' then mwordScan crash (.brackets '(' ')' 1) c (idx + 1) .variable rest
      else if c = '{' then mwordScan crash (.brackets '{' '}' 1) c (idx + 1) .variable rest
      else mwordScan crash .normal c (idx + 1) .variable rest
    | .brackets o e n =>
      if c = o then mwordScan crash (.brackets o e (n + 1)) prev (idx + 1) reason rest
      else if c = e then
        if n = 1 then mwordScan crash .normal e (idx + 1) reason rest
        else mwordScan crash (.brackets o e (n - 1)) prev (idx + 1) reason rest
      else mwordScan crash (.brackets o e n) prev (idx + 1) reason rest

/-- `next_mword` (src/parsers/targets/mod.rs lines 414-538). -/
def nextMword (i : Span) : PRes (Span × MWordEnd) :=
  (whitespace i).andThen fun i _ =>
  orElse ((Nom.tag ";".toList i).mapP fun c => (c, MWordEnd.semicolon)) <|
  orElse ((Nom.tag "=".toList i).mapP fun c => (c, MWordEnd.varAssign)) <|
  orElse ((Nom.tag ":=".toList i).mapP fun c => (c, MWordEnd.varAssign)) <|
  orElse ((Nom.tag "::=".toList i).mapP fun c => (c, MWordEnd.varAssign)) <|
  orElse ((Nom.tag "::".toList i).mapP fun c => (c, MWordEnd.dcolon)) <|
  orElse ((Nom.tag ":".toList i).mapP fun c => (c, MWordEnd.colon)) <|
  orElse ((Nom.tag "+=".toList i).mapP fun c => (c, MWordEnd.varAssign)) <|
  orElse ((Nom.tag "?=".toList i).mapP fun c => (c, MWordEnd.varAssign)) <|
  orElse ((Nom.tag "!=".toList i).mapP fun c => (c, MWordEnd.varAssign)) <| do
    let (stop, reason) ← mwordScan i.chars.crash .normal (Char.ofNat 0) 0 .static
      (Span.withIndices 0 i.chars.items)
    let (rest, cap) ← i.takeSplit stop
    done rest (cap, reason)

/-- Is the colon after `pre` and before `post` part of a drive specification?
(src/parsers/targets/mod.rs lines 567-615.)  As in the code, `ch1` is the second-to-last character. -/
def isDrivespec (pre : Block) (post : Span) : Res Bool := do
  match ← Nom.firstChar post with
  | none => return false
  | some ch =>
    if ch ≠ '/' ∧ ch ≠ '\\' then return false
    else if pre.len = 0 then return false
    else if pre.len = 1 then do
      let ch ← Nom.firstChar pre.span
      let ch ← runwrap ch
      return isAlphabetic ch
    else do
      let n ← usub pre.len 2
      let s ← pre.span.sliceFrom n
      rassert (s.length == 2)
      match s.chars.items with
      | ch1 :: ch2 :: _ => return isAlphabetic ch1 && (isWhitespace ch2 || ch2 == '(')
      | _ => .panic .unwrap

/-- The loop of `find_non_drivespec_colon` (src/parsers/targets/mod.rs lines 557-630): the text
before the colon, and the text after it when there is a colon.  The first argument bounds the number
of rounds; `findNonDrivespecColon` passes the length of the input. -/
def colonLoop : Nat → Span → Block → Res (Block × Option Span)
  | 0, _, _ => .fuel
  | n + 1, i, content => do
    match ← takeUntilUnquote i (· == ':') with
    | (pre, some (colon, post)) => do
      let content ← content.pushAll pre.span
      let drive ← isDrivespec pre post
      if drive then do
        let content ← content.pushAll colon
        colonLoop n post content
      else return (content, some post)
    | (pre, none) => do
      let content ← content.pushAll pre.span
      return (content, none)

/-- `find_non_drivespec_colon` (src/parsers/targets/mod.rs lines 548-630). -/
def findNonDrivespecColon (i : Span) : Res (Block × Option Span) := colonLoop (i.length + 1) i Block.empty

/-- `Action` of a target line (src/parsers/targets/mod.rs lines 18-37). -/
inductive TargetAction
  | noAction
  | newRule (targets deps : List Block) (doubleColon : Bool) (initialCommand : Option Ast)
  | targetVariable (targets : List Block) (action : VarAction)

/-- `expand_segment!` (src/parsers/targets/mod.rs lines 136-142). -/
def expandSegment (r : Rec) (seg : Span) (st : St) : Res (Except NErr Block × St) := do
  match ← parseAst seg with
  | .err e => return (.error e, st)
  | .done _ ast => do
    let (b, st) ← r.eval ast st
    return (.ok b, st)

/-- What the word loop of `targets::parse_line` ends with. (src/parsers/targets/mod.rs lines 209-244.) -/
inductive WordLoop
  /-- an error to propagate -/
  | err (e : NErr)
  /-- `return Ok((rest, Action::NoAction))` on line 209 -/
  | noAction
  /-- the loop was left by the `break` of line 229 (with the text after the colon) or of line 244 -/
  | finished (preColon : Block) (afterColon : Option Block) (lineNext : Span) (postSemi : Option Block)
      (mwt : MWordEnd)

/-- Push a word to the buffer, with a space when the buffer is not empty
(src/parsers/targets/mod.rs lines 224-227, 249-252). -/
def pushWord (buffer word : Block) : Res Block :=
  (if buffer.len > 0 then buffer.push CRef.space else buffer).pushAll word.span

/-- The search for a semicolon in an expanded word (src/parsers/targets/mod.rs lines 177-202):
new content, rest of the line, post-semicolon content. -/
def semicolonInWord (r : Rec) (newContent : Block) (lineNext : Span) (postSemi : Option Block) (st : St) :
    Res (Except NErr (Block × Span × Option Block) × St) :=
  match postSemi with
  | some b => .ok (.ok (newContent, lineNext, some b), st)
  | none => do
    match ← takeUntilUnquote newContent.span (· == ';') with
    | (pre, some (_, post)) => do
      let postContent ← post.toNewBlock
      let (rest, st) ← expandSegment r lineNext st
      match rest with
      | .error e => return (.error e, st)
      | .ok rest => do
        let postContent ← postContent.pushAll rest.span
        let lineNext ← lineNext.sliceFrom lineNext.length
        return (.ok (pre, lineNext, some postContent), st)
    | (_, none) => return (.ok (newContent, lineNext, none), st)

/-- The word loop of `targets::parse_line` (src/parsers/targets/mod.rs lines 167-253).  The first
argument bounds the number of words; the caller passes the length of the line. -/
def wordLoop (r : Rec) : Nat → (lineNext mw : Span) → MWordEnd → (preColon : Block) →
    (postSemi : Option Block) → St → Res (WordLoop × St)
  | 0, _, _, _, _, _, _ => .fuel
  | n + 1, lineNext, mw, mwt, preColon, postSemi, st => do
    let (newContent, st) ← expandSegment r mw st
    match newContent with
    | .error e => return (.err e, st)
    | .ok newContent => do
      let (res, st) ← semicolonInWord r newContent lineNext postSemi st
      match res with
      | .error e => return (.err e, st)
      | .ok (newContent, lineNext, postSemi) =>
        if newContent.len = 0 then return (.noAction, st)
        else do
          match ← findNonDrivespecColon newContent.span with
          | (pre, some post) => do
            let after ← post.toNewBlock
            let preColon ← pushWord preColon pre
            return (.finished preColon (some after) lineNext postSemi mwt, st)
          | (pre, none) => do
            match ← nextMword lineNext with
            | .err e => return (.err e, st)
            | .done lineNext (mw, mwt) =>
              if mwt = .eol then return (.finished preColon none lineNext postSemi mwt, st)
              else do
                let preColon ← pushWord preColon pre
                wordLoop r n lineNext mw mwt preColon postSemi st

/-- The scan for a second unescaped colon (src/parsers/targets/mod.rs lines 365-387). -/
def hasSecondColon : (backslashes : Nat) → List Char → Bool
  | _, [] => false
  | n, c :: cs =>
    if c = '\\' then hasSecondColon (n + 1) cs
    else if c = ':' then if n % 2 = 0 then true else hasSecondColon 0 cs
    else hasSecondColon 0 cs

/-- Everything after the word loop (src/parsers/targets/mod.rs lines 270-411). -/
def finishRule (r : Rec) (rest : Span) (preColon afterColon : Block) (lineNext : Span)
    (postSemi : Option Block) (st : St) : Res (IRes TargetAction × St) := do
  let targets ← parseFileSeq [] preColon.span
  -- lines 277-298
  let block ← Block.empty.pushAll afterColon.span
  let block ← block.pushAll lineNext
  let preSemiLen := block.len
  let block ← (match postSemi with
    | some content => (block.push CRef.semicolon).pushAll content.span
    | none => .ok block : Res Block)
  -- lines 299-305
  let (slice, doubleColon, preSemiLen) ← (Nom.tag [':'] block.span >>= fun
    | .done i _ => do
      let n ← usub preSemiLen 1
      return (i, true, n)
    | .err _ => .ok (block.span, false, preSemiLen) : Res (Span × Bool × Nat))
  -- lines 307-319
  let (var, st) ← parseVariableLine r slice st
  match var with
  | .done _ action => return (.done rest (.targetVariable targets action), st)
  | .err _ => do
    -- lines 321-342
    let preSemi := slice.sliceTo preSemiLen
    let postSemi ← (if slice.length > preSemiLen then do
        let s ← slice.sliceFrom (preSemiLen + 1)
        return some s
      else .ok none : Res (Option Span))
    let (buffer, st) ← expandSegment r preSemi st
    match buffer with
    | .error e => return (.err e, st)
    | .ok buffer => do
      let (preBuffer, postBuffer) ← (match postSemi with
        | none => do
          match ← takeUntilUnquote buffer.span (· == ';') with
          | (pre, some (_, post)) => do
            let b ← post.toNewBlock
            return (pre, some b)
          | (pre, none) => return (pre, none)
        | some s => do
          let b ← s.toNewBlock
          return (buffer, some b) : Res (Block × Option Block))
      -- lines 349-357
      let command ← (match postBuffer with
        | some b => (parseAst b.span).mapP some
        | none => done Span.empty none : PRes (Option Ast))
      match command with
      | .err e => return (.err e, st)
      | .done _ command => do
        -- lines 359-401
        let cs ← preBuffer.span.chars.all
        if hasSecondColon 0 cs then .panic .unimplemented
        else do
          let deps ← parseFileSeq [':'] preBuffer.span
          return (.done rest (.newRule targets deps doubleColon command), st)

/-- `targets::parse_line` (src/parsers/targets/mod.rs lines 96-412). -/
def parseTargetLine (r : Rec) (i : Span) (st : St) : Res (IRes TargetAction × St) := do
  match ← makefileLine i .gnu false with
  | .err e => return (.err e, st)
  | .done rest line => do
    -- lines 116-130
    let (line, postSemi) ← (do
      match ← takeUntilUnquote line.span (fun c => c == ';' || c == '#') with
      | (pre, some (stopChar, post)) => do
        let c ← Nom.firstChar stopChar
        if c = some '#' then return (pre, none)
        else do
          let b ← post.toNewBlock
          return (pre, some b)
      | (pre, none) => return (pre, none) : Res (Block × Option Block))
    -- lines 144-160
    match ← nextMword line.span with
    | .err e => return (.err e, st)
    | .done lineNext (mw, mwt) =>
      match mwt with
      | .eol =>
        if postSemi.isSome then return (.err (.failure (.custom .noRuleRecipe)), st)
        else return (.done rest .noAction, st)
      | .colon => return (.done rest .noAction, st)
      | .dcolon => return (.done rest .noAction, st)
      | mwt => do
        let (res, st) ← wordLoop r (line.len + 2) lineNext mw mwt Block.empty postSemi st
        match res with
        | .err e => return (.err e, st)
        | .noAction => return (.done rest .noAction, st)
        | .finished preColon afterColon lineNext postSemi mwt =>
          -- lines 259-268
          if mwt = .eol then do
            match ← whitespace preColon.span with
            | .err _ => .panic .unwrap
            | .done afterSpace _ =>
              if afterSpace.length = 0 then return (.done rest .noAction, st)
              else return (.err (.failure (.custom .missingSeparator)), st)
          else do
            let afterColon ← runwrap afterColon
            finishRule r rest preColon afterColon lineNext postSemi st

/-- `handle_target_action` (src/parsers/targets/mod.rs lines 39-75). -/
def handleTargetAction (p : PState) : TargetAction → Res PState
  | .noAction => .ok p
  | .newRule targets deps doubleColon initialCommand => do
    let rule : ProtoRule := ⟨targets, deps, [], if doubleColon then .doubleColon else .standard⟩
    let p := { p with currentRule := some rule }
    match initialCommand with
    | some command => p.pushCommandLine command
    | none => return p
  | .targetVariable _ _ => .panic .unimplemented

end Hastur
