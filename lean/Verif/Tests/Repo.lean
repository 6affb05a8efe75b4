import Verif.Model.Engine
/-
The unit tests of the repository, run on the model by the kernel.

These are tests of the model, not proofs of any property: each `example` below repeats one test
function of the repository and checks that the model answers what the test function expects of the
code.  No theorem depends on this file.  A `TestLocation` of the code (src/source_location.rs line
78, compiled in test builds only) is a source location in file 0 here.
-/
namespace Hastur.Tests

open Res Span

/-! ### Helpers -/

/-- `Location::test_location` (src/source_location.rs lines 150-152). -/
def at_ (line character : Nat) : Location := .source line character ⟨0⟩

/-- `LocatedString::test_new`. -/
def lstr (line character : Nat) (s : String) : LStr := ⟨at_ line character, s.toList⟩

/-- `evaluated::constant`. -/
def const (line character : Nat) (s : String) : CRef := CRef.ofNode (.constant (lstr line character s))

/-- `create_span` (src/parsers/test/mod.rs lines 13-15). -/
def block (s : String) : Block := ⟨[], [const 1 1 s]⟩

/-- `single_block` (src/evaluated/test.rs lines 23-25). -/
def single (s : String) : Block := ⟨[], [CRef.ofNode (.concat (block s))]⟩

/-- A node or a block written out, to compare two of them. -/
inductive Tok
  | ref (offset length : Nat)
  | sens (s : Sens)
  | str (s : LStr)
  | concat | var | sub | evaluated | close
  | loc (l : Location)
  | empty | pre | concatAst | varAst | eval | strip | word | words
  deriving DecidableEq

mutual
def node : Node → List Tok
  | .constant s => [.str s]
  | .concat b => .concat :: blk b ++ [.close]
  | .varRef n v => .var :: blk n ++ blk v ++ [.close]
  | .subRef n k r v => .sub :: blk n ++ blk k ++ blk r ++ blk v ++ [.close]
  | .evaluated v => .evaluated :: blk v ++ [.close]
def blk : BlockOf Node → List Tok
  | ⟨s, c⟩ => .sens s :: refs c ++ [.close]
def refs : List (CRefOf Node) → List Tok
  | [] => []
  | c :: cs => ref c ++ refs cs
def ref : CRefOf Node → List Tok
  | ⟨o, l, n⟩ => .ref o l :: node n
end

mutual
def ast : Ast → List Tok
  | .empty l => [.loc l, .empty]
  | .constant l s => [.loc l, .str s]
  | .preEvaluated l b => .loc l :: .pre :: blk b
  | .concat l cs => .loc l :: .concatAst :: asts cs ++ [.close]
  | .varRef l n => .loc l :: .varAst :: ast n
  | .eval l a => .loc l :: .eval :: ast a
  | .strip l a => .loc l :: .strip :: ast a
  | .word l a b => .loc l :: .word :: ast a ++ ast b
  | .words l a => .loc l :: .words :: ast a
def asts : List Ast → List Tok
  | [] => []
  | a :: as => ast a ++ asts as
end

/-- What a parser left over, as located segments, and what it returned; `none` for an error or a
panic. -/
def run {α β : Type} (p : PRes α) (f : α → Res β) : Option (List LStr × β) :=
  match p with
  | .ok (.done i a) =>
    match i.allSegments, f a with
    | .ok s, .ok b => some (s, b)
    | _, _ => none
  | _ => none

/-- The error a parser returned. -/
def error? {α : Type} (p : PRes α) : Option NErrKind :=
  match p with
  | .ok (.err (.error k)) => some k
  | .ok (.err (.failure k)) => some k
  | _ => none

/-- A parser returned an error. -/
def failed {α : Type} : PRes α → Bool
  | .ok (.err _) => true
  | _ => false

/-- The value of a computation that ends. -/
def value {α β : Type} (r : Res α) (f : α → β) : Option β :=
  match r with
  | .ok a => some (f a)
  | _ => none

/-! ### src/parsers/test/mod.rs lines 92-102 -/

example : endsWithBackslash (block "").span = .ok 0 := by decide +kernel
example : endsWithBackslash (block "\\").span = .ok 1 := by decide +kernel
example : endsWithBackslash (block "\\\\").span = .ok 2 := by decide +kernel
example : endsWithBackslash (block "\\\\\\").span = .ok 3 := by decide +kernel
example : endsWithBackslash (block "asdf\\\\\\").span = .ok 3 := by decide +kernel
example : endsWithBackslash (block "asdf\\\\").span = .ok 2 := by decide +kernel

/-! ### `mod makefile_line` (src/parsers/test/mod.rs lines 104-249) -/

/-- `makefile_line` on a fresh block: the segments left over and the segments of the line. -/
def line (s : String) (mode : Compliance) (strip : Bool) : Option (List LStr × List LStr) :=
  run (makefileLine (block s).span mode strip) fun b => b.span.allSegments

/-- `Location::Synthetic` space between the lines of a collapsed line. -/
def space : LStr := .synthetic [' ']

-- `simple`
example : ∀ mode ∈ [Compliance.gnu, .posix], ∀ strip ∈ [true, false],
    line "just a line" mode strip = some ([], [lstr 1 1 "just a line"]) := by decide +kernel
-- `simple_comment`
example : line "line 1#" .gnu false = some ([lstr 1 7 "#"], [lstr 1 1 "line 1"]) := by decide +kernel
-- `simple_line_break`
example : line "line 1\n" .gnu false = some ([], [lstr 1 1 "line 1"]) := by decide +kernel
-- `line_break_stops`
example : line "line 1\nline 2" .gnu false = some ([lstr 2 1 "line 2"], [lstr 1 1 "line 1"]) := by
  decide +kernel
-- `simple_collapse`
example : line "line 1\\\nline 2" .posix false =
    some ([], [lstr 1 1 "line 1", space, lstr 2 1 "line 2"]) := by decide +kernel
-- `collapse_preserves`
example : line "line 1\t\\\nline 2" .gnu false =
    some ([], [lstr 1 1 "line 1", space, lstr 2 1 "line 2"]) := by decide +kernel
-- `strip_initial_works`
example : line " line 1\\\n\tline 2" .gnu true =
    some ([], [lstr 1 2 "line 1", space, lstr 2 2 "line 2"]) := by decide +kernel
-- `strip_initial_works_multiple`
example : line "line 1\\\n\t\\\nline 2" .gnu true =
    some ([], [lstr 1 1 "line 1", space, lstr 3 1 "line 2"]) := by decide +kernel
-- `test_simple_end`
example : line "\\\\" .posix true = some ([], [lstr 1 1 "\\\\"]) := by decide +kernel
-- `strip_initial_line_break`
example : line " \t\\\n\t a" .posix true = some ([], [lstr 2 3 "a"]) := by decide +kernel

/-! ### `mod makefile_whitespace` (src/parsers/test/mod.rs lines 251-303) -/

/-- What `makefile_whitespace` leaves. -/
def white (s : String) : Option (List LStr) :=
  (run (whitespace (block s).span) fun _ => .ok ()).map (·.1)

example : ∀ s ∈ [" ", "\t", "  ", " \t"], white s = some [] := by decide +kernel
-- `conservative`, `conservative_mixed`
example : white " a" = some [lstr 1 2 "a"] := by decide +kernel
example : white " \t a" = some [lstr 1 4 "a"] := by decide +kernel

/-! ### `mod tokens` (src/parsers/test/mod.rs lines 305-339) -/

/-- `makefile_token`: the text left over and the token. -/
def tok (s : String) : Option (List Char × List Char) :=
  (run (token (block s).span) Span.intoString).map fun r => ((r.1.map (·.contents)).flatten, r.2)

example : tok "" = some ([], []) := by decide +kernel
example : tok " \ta" = some ([], ['a']) := by decide +kernel
example : tok "a \t" = some ([], ['a']) := by decide +kernel
example : tok "a b" = some (['b'], ['a']) := by decide +kernel

/-! ### `mod unquote` (src/parsers/test/mod.rs lines 341-451) -/

/-- `makefile_take_until_unquote` up to a `%`: the segments before it, the segment of the stop
character and the segments after it. -/
def unquote (s : String) : Option (List LStr × Option (List LStr × List LStr)) :=
  match takeUntilUnquote (single s).span (· == '%') with
  | .ok (b, none) => value b.span.allSegments fun l => (l, none)
  | .ok (b, some (c, d)) =>
    match b.span.allSegments, c.allSegments, d.allSegments with
    | .ok l, .ok m, .ok n => some (l, some (m, n))
    | _, _, _ => none
  | _ => none

example : unquote "%a" = some ([], some ([lstr 1 1 "%"], [lstr 1 2 "a"])) := by decide +kernel
example : unquote "ab%" = some ([lstr 1 1 "ab"], some ([lstr 1 3 "%"], [])) := by decide +kernel
example : unquote "\\\\\\%%" =
    some ([lstr 1 1 "\\", lstr 1 4 "%"], some ([lstr 1 5 "%"], [])) := by decide +kernel
example : unquote "\\\\\\%" = some ([lstr 1 1 "\\", lstr 1 4 "%"], none) := by decide +kernel
example : unquote "\\\\\\\\%" = some ([lstr 1 1 "\\\\"], some ([lstr 1 5 "%"], [])) := by decide +kernel
example : unquote "ab\\\\\\%%" =
    some ([lstr 1 1 "ab\\", lstr 1 6 "%"], some ([lstr 1 7 "%"], [])) := by decide +kernel
example : unquote "ab\\\\\\\\%" = some ([lstr 1 1 "ab\\\\"], some ([lstr 1 7 "%"], [])) := by
  decide +kernel
example : unquote "ab%\\\\\\\\" =
    some ([lstr 1 1 "ab"], some ([lstr 1 3 "%"], [lstr 1 4 "\\\\\\\\"])) := by decide +kernel
example : unquote "abc" = some ([lstr 1 1 "abc"], none) := by decide +kernel

/-! ### src/parsers/ast/test/mod.rs, arguments.rs, strip.rs, word.rs, words.rs -/

/-- `parse_ast` on a fresh block: what is left and the tree. -/
def tree (s : String) : Option (List LStr × List Tok) :=
  run (parseAst (block s).span) fun a => .ok (ast a)

/-- `ast::constant`. -/
def cst (line character : Nat) (s : String) : Ast := Ast.mkConstant (lstr line character s)

example : tree "ab" = some ([], ast (cst 1 1 "ab")) := by decide +kernel
example : tree "$a" = some ([], ast (.varRef (at_ 1 1) (cst 1 2 "a"))) := by decide +kernel
example : tree "$" = some ([], ast (cst 1 1 "$")) := by decide +kernel
example : tree "$$" = some ([], ast (cst 1 2 "$")) := by decide +kernel
example : tree "$(foo)" = some ([], ast (.varRef (at_ 1 1) (cst 1 3 "foo"))) := by decide +kernel
example : tree "$($(foo))" =
    some ([], ast (.varRef (at_ 1 1) (.varRef (at_ 1 3) (cst 1 5 "foo")))) := by decide +kernel
example : error? (parseAst (block "$(foo").span) = some (.custom .unterminatedVariable) := by
  decide +kernel

/-- `function_argument`. -/
def argument (s : String) : Option (List LStr × List LStr) :=
  run (functionArgument (block s).span) Span.allSegments

example : argument "foo," = some ([lstr 1 4 ","], [lstr 1 1 "foo"]) := by decide +kernel
example : argument "foo" = some ([], [lstr 1 1 "foo"]) := by decide +kernel
example : argument "$(some_func a,b)" = some ([], [lstr 1 1 "$(some_func a,b)"]) := by decide +kernel
example : argument "${some_func a,b}" = some ([], [lstr 1 1 "${some_func a,b}"]) := by decide +kernel

example : tree "$(strip foo)" = some ([], ast (.strip (at_ 1 1) (cst 1 9 "foo"))) := by decide +kernel
example : error? (parseAst (block "$(strip foo,extra)").span) =
    some (.custom (.extraArguments "strip".toList)) := by decide +kernel
example : tree "$(word 1,foo)" =
    some ([], ast (.word (at_ 1 1) (cst 1 8 "1") (cst 1 10 "foo"))) := by decide +kernel
example : error? (parseAst (block "$(word 1)").span) =
    some (.custom (.insufficientArguments "word".toList)) := by decide +kernel
example : error? (parseAst (block "$(word 1,foo,extra)").span) =
    some (.custom (.extraArguments "word".toList)) := by decide +kernel
example : tree "$(words foo bar)" = some ([], ast (.words (at_ 1 1) (cst 1 9 "foo bar"))) := by
  decide +kernel

/-! ### src/parsers/conditional/test -/

/-- A conditional written out. -/
def condView : Conditional → List (List Tok)
  | .ifDef a => [[.word], ast a]
  | .ifNDef a => [[.words], ast a]
  | .ifEq a b => [[.eval], ast a, ast b]
  | .ifNEq a b => [[.strip], ast a, ast b]
  | .else_ none => [[.concat]]
  | .else_ (some c) => [.sub] :: condView c
  | .endIf => [[.close]]

/-- `conditional::parse_line`. -/
def cond (b : Block) : Option (List LStr × List (List Tok)) :=
  run (parseConditionalLine b.span) fun c => .ok (condView c)

/-- The block of the first collapsed line of a text (`simple_line` when nothing is stripped). -/
def lineBlock (s : String) (strip : Bool) : Block :=
  match makefileLine (block s).span .gnu strip with
  | .ok (.done _ b) => b
  | _ => Block.empty

-- mod.rs
-- (the code expected there is not the first of its context, which is all the model keeps)
example : (match parseConditionalLine (block "this is not a conditional").span with
    | .ok (.err (.error _)) => true
    | _ => false) = true := by decide +kernel
-- endif.rs
example : cond (lineBlock "endif" true) = some ([], condView .endIf) := by decide +kernel
example : error? (parseConditionalLine (lineBlock "endif fdsa" true).span) =
    some (.custom (.extraTokensAfter "endif".toList)) := by decide +kernel
-- ifdef.rs
example : cond (block "ifdef a") = some ([], condView (.ifDef (cst 1 7 "a"))) := by decide +kernel
example : cond (block "ifndef a") = some ([], condView (.ifNDef (cst 1 8 "a"))) := by decide +kernel
example : cond (lineBlock "ifndef \t\\\n\t a" true) = some ([], condView (.ifNDef (cst 2 3 "a"))) := by
  decide +kernel
-- mf_else.rs
example : cond (block "else") = some ([], condView (.else_ none)) := by decide +kernel
example : cond (block "else ifdef a") =
    some ([], condView (.else_ (some (.ifDef (cst 1 12 "a"))))) := by decide +kernel
example : failed (parseConditionalLine (block "else asdf").span) = true := by decide +kernel

/-- `parse_ifeq` on a line. -/
def ifeq (s : String) : Option (List LStr × List Tok × List Tok) :=
  run (parseIfeq (lineBlock s false).span) fun ab => .ok (ast ab.1, ast ab.2)

-- ifeq.rs
example : ifeq "(a, b)" = some ([], ast (cst 1 2 "a"), ast (cst 1 5 "b")) := by decide +kernel
example : ifeq "($(foo_$(bar)), $(baz)_$(qux_$(big)))" =
    some ([],
      ast (.varRef (at_ 1 2) (Ast.collapsingConcat (at_ 1 4)
        [cst 1 4 "foo_", .varRef (at_ 1 8) (cst 1 10 "bar")])),
      ast (Ast.collapsingConcat (at_ 1 17)
        [.varRef (at_ 1 17) (cst 1 19 "baz"), cst 1 23 "_",
          .varRef (at_ 1 24) (Ast.collapsingConcat (at_ 1 26)
            [cst 1 26 "qux_", .varRef (at_ 1 30) (cst 1 32 "big")])])) := by decide +kernel
example : ∀ s ∈ ["\"a\" \"b\"", "'a' 'b'", "'a' \"b\"", "\"a\" 'b'"],
    ifeq s = some ([], ast (cst 1 2 "a"), ast (cst 1 6 "b")) := by decide +kernel
example : failed (parseIfeq (lineBlock "asdf" false).span) = true := by decide +kernel

/-! ### src/parsers/variable/test -/

/-- Enough depth for every test here. -/
def deep : Rec := recF (fun _ => .missing) 8

/-- `variable::parse_line` from an empty state: what is left over, whether the line exports, the
flavor of a definition, and the name of the variable. -/
def var (s : String) : Option (List LStr × Bool × Option Flavor × Option Str) :=
  match parseVariableLine deep (block s).span St.init with
  | .ok (.done i a, st) =>
    value i.allSegments fun l =>
      (l, a.modifiers.export_,
        (match a.action with | .define p => some p.flavor | .append _ => none),
        st.names.resolveVar a.name)
  | _ => none

example : var "a := b" = some ([], false, some .simple, some ['a']) := by decide +kernel
example : var "a ::= b" = some ([], false, some .simple, some ['a']) := by decide +kernel
example : var "a:= b" = some ([], false, some .simple, some ['a']) := by decide +kernel
example : var "a::= b" = some ([], false, some .simple, some ['a']) := by decide +kernel
example : var "a = b" = some ([], false, some .recursive, some ['a']) := by decide +kernel
example : var "a= b" = some ([], false, some .recursive, some ['a']) := by decide +kernel
example : var "export a = b" = some ([], true, some .recursive, some ['a']) := by decide +kernel
example : (match parseVariableLine deep (block "export private").span St.init with
    | .ok (.err (.error k), _) => some k
    | .ok (.err (.failure k), _) => some k
    | _ => none) = some (.custom (.internalFailure "not an assignment".toList)) := by decide +kernel
-- define_keyword.rs
example : var "define foo =" = some ([], false, some .recursive, some "foo".toList) := by decide +kernel
example : var "define foo bar" = some ([], false, some .recursive, some "foo bar".toList) := by
  decide +kernel
example : var "define foo ::=" = some ([], false, some .simple, some "foo".toList) := by decide +kernel
example : var "define foo bar :=" = some ([], false, some .recursive, some "foo bar :=".toList) := by
  decide +kernel

/-! ### src/parsers/targets/test/mod.rs -/

/-- A rule written out: targets, prerequisites, double colon, command. -/
structure RuleOut where
  targets : List (List Tok)
  deps : List (List Tok)
  doubleColon : Bool
  command : Option (List Tok)
  deriving DecidableEq

/-- `targets::parse_line` from an empty state. -/
def rule (s : String) : Option RuleOut :=
  match parseTargetLine deep (block s).span St.init with
  | .ok (.done _ (.newRule t d dc c), _) => some ⟨t.map blk, d.map blk, dc, c.map ast⟩
  | _ => none

/-- `leftover_span` and `separated_spans` on line 1 (src/parsers/test/mod.rs lines 17-52). -/
def parts (l : List (Nat × String)) : List Tok := blk ⟨[], l.map fun p => const 1 p.1 p.2⟩

-- `tricky_colon_escapes`
example : rule "\\\\:\\:" = some ⟨[parts [(1, "\\")]], [parts [(5, ":")]], false, none⟩ := by
  decide +kernel
-- `backslash_in_target`
example : rule "\\\\ : \\\\\\;" = some ⟨[parts [(1, "\\")]], [parts [(9, ";")]], false, none⟩ := by
  decide +kernel
-- `backslash_at_end_of_input`
example : rule "\\\\ : \\\\" = some ⟨[parts [(1, "\\")]], [parts [(6, "\\")]], false, none⟩ := by
  decide +kernel
-- `two_backslash_targets`
example : rule "\\\\ \\\\ : \\\\\\;" =
    some ⟨[parts [(1, "\\")], parts [(4, "\\")]], [parts [(12, ";")]], false, none⟩ := by decide +kernel
-- `semicolon_as_target_with_command`
example : rule "\\\\\\; : a;b" =
    some ⟨[parts [(1, "\\"), (4, ";")]], [parts [(8, "a")]], false, some (ast (cst 1 10 "b"))⟩ := by
  decide +kernel
-- `colon_as_target_with_command`
example : rule "\\: : \\\\\\;;b" =
    some ⟨[parts [(2, ":")]], [parts [(6, "\\"), (9, ";")]], false, some (ast (cst 1 11 "b"))⟩ := by
  decide +kernel
-- `mixed_semicolon_target`
example : rule "\\\\\\; a :: a" =
    some ⟨[parts [(1, "\\"), (4, ";")], parts [(6, "a")]], [parts [(11, "a")]], true, none⟩ := by
  decide +kernel
-- `command_simple`, `command_dcolon`
example : rule "a : a;b" =
    some ⟨[parts [(1, "a")]], [parts [(5, "a")]], false, some (ast (cst 1 7 "b"))⟩ := by decide +kernel
example : rule "a :: a;b" =
    some ⟨[parts [(1, "a")]], [parts [(6, "a")]], true, some (ast (cst 1 8 "b"))⟩ := by decide +kernel
-- `escaped_colon_target`, `escaped_semicolon_target`
example : rule "\\: :: a" = some ⟨[parts [(2, ":")]], [parts [(7, "a")]], true, none⟩ := by
  decide +kernel
example : rule "\\\\\\; : a" =
    some ⟨[parts [(1, "\\"), (4, ";")]], [parts [(8, "a")]], false, none⟩ := by decide +kernel

/-- `next_mword`: what is left and how the word ended. -/
def mword (s : String) : Option (List LStr × MWordEnd) :=
  run (nextMword (block s).span) fun w => .ok w.2

-- `test_mword_early_outs`
example : mword ":" = some ([], .colon) ∧ mword "::" = some ([], .dcolon) := by decide +kernel
example : ∀ s ∈ ["=", ":=", "::=", "+=", "?=", "!="], mword s = some ([], .varAssign) := by
  decide +kernel
-- `test_simple_var_expansions`
example : ∀ s ∈ ["$$", "$$a"], mword s = some ([], .static) := by decide +kernel
example : ∀ s ∈ ["$a", "$(a)", "${a}"], mword s = some ([], .variable) := by decide +kernel
-- `leaves_assign`
example : mword "a=" = some ([lstr 1 2 "="], .static) := by decide +kernel
example : mword "$$=" = some ([lstr 1 3 "="], .static) := by decide +kernel
example : mword "a?=" = some ([lstr 1 2 "?="], .static) := by decide +kernel
example : mword "$(a)?=" = some ([lstr 1 5 "?="], .variable) := by decide +kernel
example : mword "a+=" = some ([lstr 1 2 "+="], .static) := by decide +kernel
example : mword "$(a)+=" = some ([lstr 1 5 "+="], .variable) := by decide +kernel

/-! ### src/evaluated/test.rs -/

/-- `test_constant_node`. -/
def cnode (s : String) : Node := .constant (lstr 1 1 s)

/-- `test_concat_node`. -/
def knode (l : List Node) : Node := .concat ⟨[], l.map CRef.ofNode⟩

/-- A slice of a node, as the only content of a new block. -/
def slice1 (n : Node) (offset length : Nat) : Option Block :=
  match CRef.ofNodeSlice n offset length with
  | .ok c => value (Block.new [] [c]) id
  | _ => none

-- `simple_block_iter`, `content_offset`
example : ((slice1 (cnode "asdf") 0 4).map fun b => b.span.intoString) = some (.ok "asdf".toList) := by
  decide +kernel
example : ((slice1 (cnode "asdf") 2 2).map fun b => b.span.intoString) = some (.ok "df".toList) := by
  decide +kernel
-- `slice_compound_offset`
example :
    (let b : Block := ⟨[], [CRef.ofNode (cnode "abcd"), CRef.ofNode (cnode "efgh")]⟩
     { b.span with offset := 2, length := b.span.length - 4 }.intoString) = .ok "cdef".toList := by
  decide +kernel
-- `simplify_drop_end`, `simplify_shorten_end`, `simplify_shorten_start`, `simplify_drop_start`
example : (slice1 (knode [cnode "abcd", cnode "efgh"]) 0 4).map blk =
    some (blk ⟨[], [CRef.ofNode (knode [cnode "abcd"])]⟩) := by decide +kernel
example : (slice1 (knode [cnode "abcd", cnode "efgh"]) 0 6).map blk =
    some (blk ⟨[], [CRef.ofNode (knode [cnode "abcd", cnode "ef"])]⟩) := by decide +kernel
example : (slice1 (knode [cnode "abcd", cnode "efgh"]) 2 2).map blk =
    some (blk ⟨[], [CRef.ofNode (knode [.constant (lstr 1 3 "cd")])]⟩) := by decide +kernel
example : (slice1 (knode [cnode "abcd", cnode "efgh"]) 4 4).map blk =
    some (blk ⟨[], [CRef.ofNode (knode [cnode "efgh"])]⟩) := by decide +kernel
-- `iterate_indices`, `iterate_indices_simplified`
example : withIndices 0 (single "a你好").span.chars.items = [(0, 'a'), (1, '你'), (4, '好')] ∧
    (single "a你好").span.chars.crash = false := by decide +kernel
example : withIndices 0 (block "\"a\" \"b\"").span.chars.items =
    [(0, '"'), (1, 'a'), (2, '"'), (3, ' '), (4, '"'), (5, 'b'), (6, '"')] := by decide +kernel

/-! ### src/evaluated/nom/test.rs -/

/-- The block `makefile_line` makes of a text. -/
def folded (s : String) : Span :=
  match makefileLine (single s).span .gnu false with
  | .ok (.done _ b) => b.span
  | _ => Span.empty

-- `mod slice`
example : ((folded "a\\\nbc\\\nd").slice 0 1).bind Span.intoString = .ok "a".toList := by decide +kernel
example : ((folded "a\\\nbc\\\nd").slice 2 4).bind Span.intoString = .ok "bc".toList := by decide +kernel
example : ((folded "a\\\nbc\\\nd").slice 2 5).bind Span.intoString = .ok "bc ".toList := by decide +kernel
example : ((folded "a\\\nbc\\\nd").sliceFrom 3).bind Span.intoString = .ok "c d".toList := by
  decide +kernel
-- `skip_then_rest_offset`
example : (({ folded "ab\\\nbc\\\nd" with offset := 1 } : Span).revalidate.bind fun s =>
    (s.sliceFrom 3).bind Span.intoString) = .ok "c d".toList := by decide +kernel
-- `range_to_simple`
example : ((folded "a\\\nbcdefg").sliceTo 1).intoString = .ok "a".toList := by decide +kernel
example : ((folded "a\\\nbcdefg").sliceTo 3).intoString = .ok "a b".toList := by decide +kernel
-- `mod split_at`
example : ((folded "a\\\n1\\\nc").splitAtPosition (· == '1')).bind (fun p => p.1.intoString) =
    .ok "1 c".toList := by decide +kernel
example : ((folded "a\\\n1\\\nc").splitAtPosition (· == '1')).bind (fun p => p.2.intoString) =
    .ok "a ".toList := by decide +kernel
-- `mod compare`
example : (single "asdf").span.compare "as".toList = .ok .ok := by decide +kernel
example : (single "asdf").span.compare "asdf".toList = .ok .ok := by decide +kernel
example : ((single "abcd").span.sliceFrom 2).bind (fun s => s.compare "cd".toList) = .ok .ok := by
  decide +kernel
example : (single "asdf").span.compare "asdfjkl".toList = .ok .incomplete := by decide +kernel
example : (single "asdf").span.compare "asdq".toList = .ok .error := by decide +kernel
example : (single "asdf").span.compareNoCase "aS".toList = .ok .ok := by decide +kernel
example : (single "asdf").span.compareNoCase "aSdf".toList = .ok .ok := by decide +kernel
example : (single "asdf").span.compareNoCase "asDfjkl".toList = .ok .incomplete := by decide +kernel
example : (single "asdf").span.compareNoCase "asDq".toList = .ok .error := by decide +kernel
-- `mod input_iter`
example : (folded "a\\\nbc\\\nd").chars.items = "a bc d".toList := by decide +kernel
example : (({ folded "ab\\\nb" with offset := 1 } : Span).revalidate.bind fun s => .ok s.chars.items) =
    .ok "b b".toList := by decide +kernel

/-! ### src/ast/test.rs -/

/-- `insert_variable_from_line`. -/
def insertLine (st : St) (line character : Nat) (s : String) : Option St :=
  match parseVariableLine deep (Block.span ⟨[], [const line character s]⟩) st with
  | .ok (.done _ ⟨n, _, .define p⟩, st) => some { st with db := st.db.setVariable n p }
  | _ => none

/-- The tree of a text, evaluated after some variable lines. -/
def evaluate (s : String) (lines : List (Nat × String)) : Option (List Tok) :=
  match parseAst (single s).span, lines.foldlM (fun st l => insertLine st l.1 1 l.2) St.init with
  | .ok (.done _ a), some st => value (deep.eval a st) fun r => blk r.1
  | _, _ => none

/-- `block_from_reference(evaluated::constant(..))`. -/
def cblock (line character : Nat) (s : String) : Block := ⟨[], [const line character s]⟩

/-- A block that depends on the first variable named. -/
def sens0 (c : List CRef) : Block := ⟨[⟨0⟩], c⟩

example : evaluate "foo" [] = some (blk (cblock 1 1 "foo")) := by decide +kernel
-- `var_ref_simple`
example : evaluate "$(foo)" [(2, "foo := bar")] =
    some (blk (sens0 [CRef.ofNode (.varRef (cblock 1 3 "foo") (cblock 2 8 "bar"))])) := by decide +kernel
-- `var_ref_substitution`
example : evaluate "$(foo:.c=.o)" [(2, "foo := a.c")] =
    some (blk (sens0 [CRef.ofNode (.subRef (cblock 1 3 "foo") (cblock 1 7 ".c") (cblock 1 10 ".o")
      (sens0 [const 2 8 "a", const 1 10 ".o"]))])) := by decide +kernel
-- `var_ref_substitution_extra_equals`
example : evaluate "$(foo:.c==.o)" [(2, "foo := a.c=")] =
    some (blk (sens0 [CRef.ofNode (.subRef (cblock 1 3 "foo") (cblock 1 7 ".c=") (cblock 1 11 ".o")
      (sens0 [const 2 8 "a", const 1 11 ".o"]))])) := by decide +kernel
-- `var_ref_substitution_pre_key`
example : evaluate "$(foo:a%c=%)" [(2, "foo := abc")] =
    some (blk (sens0 [CRef.ofNode (.subRef (cblock 1 3 "foo") (cblock 1 7 "a%c") (cblock 1 11 "%")
      (sens0 [const 2 9 "b"]))])) := by decide +kernel
-- `var_ref_substitution_pre_both`
example : evaluate "$(foo:a%c=d%f)" [(2, "foo := abc")] =
    some (blk (sens0 [CRef.ofNode (.subRef (cblock 1 3 "foo") (cblock 1 7 "a%c") (cblock 1 11 "d%f")
      (sens0 [const 1 11 "d", const 2 9 "b", const 1 13 "f"]))])) := by decide +kernel
-- `var_ref_substitution_multiple`
example : evaluate "$(foo:.c=.o)" [(2, "foo := 1.c 2.c")] =
    some (blk (sens0 [CRef.ofNode (.subRef (cblock 1 3 "foo") (cblock 1 7 ".c") (cblock 1 10 ".o")
      (sens0 [const 2 8 "1", const 1 10 ".o", CRef.space, const 2 12 "2", const 1 10 ".o"]))])) := by
  decide +kernel
-- `var_ref_recursive`
example : evaluate "$($(foo))" [(2, "foo := bar"), (3, "bar := baz")] =
    some (blk ⟨[⟨0⟩, ⟨1⟩], [CRef.ofNode (.varRef
      (sens0 [CRef.ofNode (.varRef (cblock 1 5 "foo") (cblock 2 8 "bar"))])
      (cblock 3 8 "baz"))]⟩) := by decide +kernel

/-! ### src/parsers/test/end_to_end.rs, src/parsers/test/rule.rs -/

/-- `parse_line` a number of times; every call must succeed. -/
def lines (r : Rec) : Nat → Span → PState → St → Option (Span × PState × St)
  | 0, i, p, st => some (i, p, st)
  | n + 1, i, p, st =>
    match parseLine (fun _ => .missing) r p st i with
    | .ok (.done i _, p, st) => lines r n i p st
    | _ => none

/-- The state after a number of lines of a text. -/
def after (s : String) (n : Nat) (st : St := St.init) : Option (Span × PState × St) :=
  lines deep n (block s).span PState.new st

/-- `variable_set_to!`: the expansion of a variable. -/
def expansion (st : St) (v : String) : Option Str :=
  match st.names.variableName v.toList with
  | some n =>
    match expandF (fun _ => .missing) 8 n st with
    | .ok (s, _) => s
    | _ => none
  | none => none

/-- The makefile of `simple_conditional`. -/
def simpleConditional : String :=
  "\nfoo := bar\nifeq ($(foo),bar)\n    baz := correct\nelse\n    baz := incorrect\nendif\n"

example : ((after simpleConditional 2).bind fun r => expansion r.2.2 "foo") = some "bar".toList := by
  decide +kernel
example : ((after simpleConditional 3).map fun r => r.2.1.conditionals) = some [⟨true, false⟩] := by
  decide +kernel
example : ((after simpleConditional 5).map fun r => r.2.1.conditionals) = some [⟨false, true⟩] := by
  decide +kernel
example : ((after simpleConditional 7).bind fun r => expansion r.2.2 "baz") =
    some "correct".toList := by decide +kernel

-- `simple_append`
example : ((after "\nfoo := bar\nfoo += baz\n" 2).bind fun r => expansion r.2.2 "foo") =
    some "bar".toList := by decide +kernel
example : ((after "\nfoo := bar\nfoo += baz\n" 3).bind fun r => expansion r.2.2 "foo") =
    some "bar baz".toList := by decide +kernel

-- `simple_multiline_define`
example : ((after "\ndefine foo\n  bar \\\\\n  baz\nendef\n" 5).bind fun r => expansion r.2.2 "foo") =
    some "  bar \\\\\n  baz\n".toList := by decide +kernel

-- `ignored_define`
example :
    ((after ("\nifeq \"a\" \"a\"\n bar := qux\nelse\n define bar\n  ifeq \"c\" \"d\"\n   foo : baz\n" ++
      " endef\nendif\n") 12).bind fun r => expansion r.2.2 "bar") = some "qux".toList := by
  decide +kernel

/-- The prerequisites of the rule of a target: how many blocks, and the names. -/
def rulePrereqs (st : St) (t : String) : Option (Nat × List (Option Str)) :=
  match st.names.fileName t.toList with
  | some f => (st.db.getRule f).map fun r => (r.deps.length, r.depNames.map st.names.resolveFile)
  | none => none

-- `simple_rule`
example :
    ((after "\na: b\n\techo bar\n" 4).bind fun r =>
      match r.1.allSegments, r.2.1.closeRule r.2.2 with
      | .ok [], .ok (_, st) => rulePrereqs st "a"
      | _, _ => none) = some (1, [some ['b']]) := by decide +kernel

/-- The makefile of `add_targets`. -/
def addTargets : String := "\na: b\n\t@echo bar\n\na: c\n"

/-- The names interned before `add_targets` runs. -/
def addTargetsState : St :=
  let n := (NameCache.empty.internFile ['a']).2
  let n := (n.internFile ['b']).2
  { St.init with names := (n.internFile ['c']).2 }

example : ((after addTargets 5 addTargetsState).bind fun r => rulePrereqs r.2.2 "a") =
    some (1, [some ['b']]) := by decide +kernel
example :
    ((after addTargets 6 addTargetsState).bind fun r =>
      match r.1.allSegments, r.2.1.closeRule r.2.2 with
      | .ok [], .ok (_, st) => rulePrereqs st "a"
      | _, _ => none) = some (2, [some ['b'], some ['c']]) := by decide +kernel

/-! ### tests/eval.rs, tests/include.rs -/

/-- Reads a makefile as `Engine::read_makefile` does and expands a variable. -/
def readThen (fs : Fs) (text v : String) : Option Str :=
  match readF fs 20 (.text text.toList) "Makefile".toList St.init with
  | .ok (.ok (), st) => expansion st v
  | _ => none

-- tests/eval/eval0.mk
example : readThen (fun _ => .missing)
    ("define fragment\n foo := bar\nendef\n\nfoo := baz\n\n$(eval $(fragment))\n\ndefault:\n" ++
      "\t@echo $(foo)\n\n.PHONY: default\n") "foo" = some "bar".toList := by decide +kernel

-- tests/include/include0.mk
example : readThen
    (fun f => if f = "include1.mk".toList then .text "foo := baz\n".toList else .missing)
    "foo := bar\n\ninclude include1.mk\n" "foo" = some "baz".toList := by decide +kernel

end Hastur.Tests
