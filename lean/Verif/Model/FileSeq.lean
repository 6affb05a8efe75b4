import Verif.Model.Lines
/-
`parse_file_seq` with all its options (src/parsers/file_sequence.rs).
-/
namespace Hastur

/-- `FileSeqParseOptions` (src/parsers/file_sequence.rs lines 9-23), with the defaults of `new` (lines 32-43).  The
directory `cwd` is left out: `parse_file_seq` does not read it. -/
structure FileSeqOptions where
  stripLeadingDotslash : Bool := false
  checkAr : Bool := false
  doGlob : Bool := false
  existOnly : Bool := false
  extraStopchars : Str := []

/-- `clean_match` (src/parsers/file_sequence.rs lines 89-99). -/
def cleanMatch (o : FileSeqOptions) (i : Span) : Res Block := do
  let i ← (if o.stripLeadingDotslash then do
      match ← Nom.tag "./".toList i with
      | .done r _ => return r
      | .err _ => return i
    else return i)
  i.toNewBlock

/-- The loop of `parse_file_seq` (src/parsers/file_sequence.rs lines 67-86).  The first number bounds the rounds;
`parseFileSeqOpts` passes the length of the input. -/
def fileSeqLoopOpts (o : FileSeqOptions) : Nat → Span → List Block → Res (List Block)
  | 0, _, _ => .fuel
  | n + 1, i, out =>
    if i.length > 0 then do
      match ← takeUntilUnquote i
          (fun c => isWhitespace c || c == Char.ofNat 0 || o.extraStopchars.contains c) with
      | (pre, some (_, post)) =>
        if pre.len > 0 then do
          let b ← cleanMatch o pre.span
          fileSeqLoopOpts o n post (out ++ [b])
        else fileSeqLoopOpts o n post out
      | (pre, none) => do
        let rest ← i.sliceFrom i.length
        if pre.len > 0 then do
          let b ← cleanMatch o pre.span
          fileSeqLoopOpts o n rest (out ++ [b])
        else fileSeqLoopOpts o n rest out
    else .ok out

/-- `parse_file_seq` (src/parsers/file_sequence.rs lines 45-87), with the three assertions of lines 51-53. -/
def parseFileSeqOpts (o : FileSeqOptions) (i : Span) : Res (List Block) :=
  if o.checkAr then .panic .assertion
  else if o.doGlob then .panic .assertion
  else if o.existOnly then .panic .assertion
  else whitespace i >>= fun
    | .done i _ => fileSeqLoopOpts o (i.length + 1) i []
    | .err _ => .panic .unwrap

end Hastur
