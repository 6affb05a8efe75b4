import Verif.Model.Ast
/-
Model of the text functions (src/ast/text_functions.rs).
-/
namespace Hastur

open Res

/-- The match of one token against the key, `delimited!(tag!(pre), recognize!(many1!(take_until!(post))),
tag!(post))` (src/ast/text_functions.rs lines 82-87): (rest, captured). -/
def matchToken (pre post : Str) (token : Span) : PRes Span :=
  (Nom.tag pre token).andThen fun i _ =>
  (Nom.recognize (Nom.many1 (Nom.takeUntil post)) i).andThen fun i captured =>
  (Nom.tag post i).andThen fun i _ => done i captured

/-- What is pushed for one token (src/ast/text_functions.rs lines 75-110). -/
def replaceToken (pre post : Str) (preR postR : Span) (output : Block) (token : Span) : Res Block :=
  if token.length < blen pre + blen post then output.pushAll token
  else matchToken pre post token >>= fun
    | .err _ => output.pushAll token
    | .done rest captured =>
      if rest.length ≠ 0 then output.pushAll token
      else do
        let output ← output.pushAll preR
        let output ← output.pushAll captured
        output.pushAll postR

/-- The loop of `do_replacement` (src/ast/text_functions.rs lines 62-111).  The first argument bounds
the number of tokens; `doReplacement` passes the length of the input. -/
def replaceLoop (pre post : Str) (preR postR : Span) : Nat → (first : Bool) → Span → Block → Res Block
  | 0, _, _, _ => .fuel
  | n + 1, first, tokens, output =>
    if tokens.length > 0 then
      token tokens >>= fun
      | .err _ => .panic .unwrap
      | .done tokens tok => do
        let output := if first then output else output.push CRef.space
        let output ← replaceToken pre post preR postR output tok
        replaceLoop pre post preR postR n false tokens output
    else .ok output

/-- `do_replacement` (src/ast/text_functions.rs lines 50-117). -/
def doReplacement (tokens : Span) (sens : Sens) (pre post : Str) (preR postR : Span) : Res Block := do
  let output ← replaceLoop pre post preR postR (tokens.length + 1) true tokens ⟨sens, []⟩
  output.simplify

/-- `do_subref` (src/ast/text_functions.rs lines 9-48). -/
def doSubref (sens : Sens) (value key replacement : Block) : Res Block := do
  match ← takeUntilUnquote key.span (· == '%') with
  | (preKey, some (_, postKey)) => do
    let pre ← preKey.intoString
    let post ← postKey.intoString
    match ← takeUntilUnquote replacement.span (· == '%') with
    | (preR, some (_, postR)) => doReplacement value.span sens pre post preR.span postR
    | (repl, none) => doReplacement value.span sens pre post Span.empty repl.span
  | (key, none) => do
    let post ← key.intoString
    doReplacement value.span sens [] post Span.empty replacement.span

end Hastur
