# Formal model of hastur: design

This directory holds a Lean 4 model of the makefile reader in `/repo` (crate `hastur`)
and machine-checked proofs about it. `properties.jsonl` lists the properties in English,
`MANIFEST.json` maps each property to theorem names, `lean/` is the Lake project,
`seeded/LOG.jsonl` records attempts to fool the theorems with wrong programs.

## Approach

The model is a function-by-function transcription of the Rust code into total, computable
Lean functions. It keeps the data structures of the code: blocks are trees of content
references with byte offsets, spans are windows into a block, parsers work on spans, and the
engine is a state (database, name cache, command character) threaded through every call.

* **Panics** (failed assertion, index out of range, `unwrap` on nothing, integer underflow,
  `unimplemented!`) are an explicit outcome `Res.panic`. Integer subtraction that would
  underflow panics, which is the behaviour of a debug build. Addition never overflows in the model.
* **Non-termination**: evaluation and line processing take a fuel argument; `Res.fuel` means
  "not finished within this budget". Theorems either hold for every budget or say that some
  budget suffices. Fuel is shown to be monotone (`Proofs/Fuel`), so a finished result does not depend on it.
  Loops inside one call are bounded by the length of their input; C60 proves that these bounds are never reached,
  so they are not a simplification. Only the nesting depth remains as a source of `Res.fuel`.
* **nom 4.2**: the combinators used (`tag!`, `tag_no_case!`, `char!`, `take!`, `take_until!`,
  `take_until_and_consume!`, `take_till!`, `alt!`, `alt_complete!`, `many0!`, `many1!`,
  `opt!`, `preceded!`, `terminated!`, `delimited!`, `pair!`, `recognize!`, `eof!`, `rest`,
  `return_error!`, `add_return_error!`, `fix_error!`) are transcribed by hand. The source of nom
  is not available in the sandbox, so this transcription is part of the trusted base.
  `AtEof::at_eof` returns true for spans, hence `Incomplete` can never arise and is not modelled.
* **Strings** are lists of Unicode scalar values. Byte lengths use the UTF-8 size of each character, so
  code that mixes byte and character counts behaves in the model as it does in the code.
* **Specification layer**: the text of a block with the source location of each character
  (`ltext`) is defined independently of the iterators of the code. The block, span and nom-trait layer is
  shown to refine plain list operations on `ltext` for well-formed ASCII content. Parser properties are
  then stated on texts.
* **Fidelity**: `Tests/Repo.lean` translates the unit tests of the repository (about 140 of them) into
  kernel-checked examples about the model. All agree. These are tests of the transcription, not proofs of properties.

Where the code does not have a property, the development contains a theorem that refutes it on a concrete
input (a `decide`-checked run of the model) and a `_partial` theorem for the part that does hold. Often there is
a third theorem, without suffix, that says what the code does instead, for all inputs.

## Layers and files (lean/Verif)

| File | Contents |
|---|---|
| `Model/Basic` | outcomes, byte-indexed strings, character classes |
| `Model/Names` | `lib.rs` NameCache |
| `Model/Location` | `source_location.rs` |
| `Model/Evaluated` | `evaluated/{mod,nodes,content_reference}.rs`: blocks, content references, simplify |
| `Model/Span` | `evaluated/block_span.rs` and the nom traits of `evaluated/nom/mod.rs` |
| `Model/Access` | accessors of spans and references the parsers do not use, `parsers/error_utils.rs` |
| `Model/Nom` | the nom 4.2 macros |
| `Model/Lines` | `parsers/mod.rs` line functions, `parsers/comment.rs`, `parsers/file_sequence.rs` |
| `Model/FileSeq` | `parsers/file_sequence.rs` with all options |
| `Model/Ast` | `ast/mod.rs` trees, `parsers/ast/mod.rs`, `parsers/recipe_line.rs` |
| `Model/Visit` | `ast/visit.rs`, the printing walker of `ast/proptest.rs` |
| `Model/Db` | `lib.rs` Database and Rule, `eval/mod.rs` |
| `Model/TextFunctions` | `ast/text_functions.rs` |
| `Model/Eval` | `ast/mod.rs` evaluation (without `$(eval)`, which calls back into the engine) |
| `Model/Conditional`, `Model/Variable`, `Model/Targets` | `parsers/conditional`, `parsers/variable`, `parsers/targets` |
| `Model/Engine` | `parsers/directives`, `parsers/mod.rs` parse_line, `lib.rs` Engine: the mutually recursive core |
| `Spec/*` | small independent specifications on plain texts |
| `Proofs/*` | lemmas |
| `Props/*` | the property theorems, with concrete instances beside them |
| `Tests/Repo` | the unit tests of the repository |

## Per property

"Proved" means the English statement in full. The theorem names are in `MANIFEST.json`.

| Id | How it is proved; what is missing |
|---|---|
| C01, C02 | Proved. NameCache as two append-only interners; induction over call histories. |
| C03, C05 | Proved. Database maps; map laws and induction over write sequences. |
| C04 | Proved. append_to_variable plus evaluation of concatenations, function calls included. |
| C06, C07 | Proved. from_protorule as a fold over targets; invariant over insertion histories and over whole engine runs, lookup characterisation. |
| C08 | Proved. partial_cmp; case analysis. `EvalLocation` nodes are compared through an opaque identity. |
| C09 | Proved, for all of Unicode. LocatedString::slice; induction on the text; exact panic condition. |
| C10–C16 | Proved for ASCII content, except that C12 is refuted for the sensitivity of empty spans (which is what the statements say; C13_indices for all of Unicode). Span operations refine list operations; induction over content references. C14: ring-buffer search by a loop invariant. |
| C17 | Partial. Refuted at segment boundaries (panic). Partial correctness in general; total for single-segment nodes; the exact condition for completion (C17_exact, C17_location_exact). |
| C18 | Partial. Refuted for tails in later content references; exact value in general; the offset of the empty end of a span is its length. |
| C19 | Partial. Refuted by a two-byte character; exactly what happens in a block of one text: right when and only when the skipped text is ASCII or nothing follows. |
| C20 | Proved. |
| C21, C22, C23 | Partial. Refuted (`#` on a later line, CR LF, backslash before blanks); exact characterisation of the line read in general. |
| C24 | Partial. Refuted when NUL is a stop character; holds for all other stop sets (loop invariant against a recursive unquoting specification). |
| C25 | Proved. |
| C26 | Proved. |
| C27 | Partial. Refuted after a function call (`$(strip a)$$`), proved elsewhere. |
| C28, C29, C30, C31 | Partial. Braces do not work; what follows a function call is dropped; names that begin with a function name are calls. Proved for everything else. |
| C32, C33 | Proved. Induction on fuel against an inductive expansion relation. |
| C34, C35 | Partial. Refuted for `$(eval)`; proved without. |
| C36 | Proved. |
| C37 | Partial. Divergence by induction on fuel; termination from well-foundedness of the reference graph. Refuted with function calls and for cycles through computed substitution references; cycles through written-out substitution references are covered (`Uses`), and termination with all substitution references (`MayUse`, an over-approximation for computed names). |
| C38 | Partial. Refuted for a suffix that occurs twice in a word, and for words made of several pieces of the value. Proved for values whose words stay inside the pieces and contain the suffix only at the end when they match. |
| C39 | Partial. `?=` overwrites; holds for undefined variables. |
| C40 | Proved. |
| C41, C42, C43 | Partial. `endif` pops but does not turn processing on again; recipe lines of an open rule are added even in a branch not taken. Whole makefiles are proved up to that; for files of assignments and conditionals `C42_files_exact` states what happens in all cases, and `C42_rest_lost` that everything up to the next conditional is lost. `C43_exact` says exactly which lines of a branch not taken have an effect. For whole projects with rules, commands and definitions see `C62_exact`. |
| C44 | Partial. The rule that is open at the end of a file is lost; all others are stored. |
| C45 | Partial. Every error aborts the process (`unimplemented!`); well-formed files do not abort. |
| C46, C47 | Partial. Refuted through the keyword bugs; end-to-end theorems by induction over the lines. |
| C48 | Partial. The byte order mark makes the reader skip three characters instead of three bytes. |
| C49 | Proved. File system as a function from names to contents; fold over files. |
| C50 | Partial. Body lines that begin with the letters `define`/`endef` are taken for keyword lines. |
| C51 | Partial. Several pieces may abort. |
| C52 | Proved. Visitor as open recursion over hooks; induction on the expression. |
| C53 | Partial. Keywords are recognised without a word boundary. |
| C54 | Partial. An empty right side of `:=` aborts. |
| C55 | Partial. Words without separator are silently ignored. |
| C56 | Partial. The text appended to a simple variable stays unexpanded. |
| C57 | Partial. Invariant of all engine functions, for a family of predicates on stored data that grows with the name cache. Refuted after a non-ASCII character (references are misread and misplaced); proved exactly for ASCII makefiles, and for all makefiles up to the location of dollar signs. |
| C58, C59 | Proved. The same invariant. C59 shows that the well-formedness hypotheses of the other theorems hold in every state reached from ASCII makefiles. |
| C60 | Proved, for all texts. Lengths of spans: every round of every loop consumes something, or is the last. The recursive calls are abstract, and the engine with a nesting limit is an instance. |
| C61 | Partial. Lines: proved, for all budgets and states; files by induction over the lines before. Functions: `strip`, `word`, `words` proved, also through variables; calls of unknown functions are references to variables with odd names and expand to nothing. |
| C64 | Partial. Refuted for tests without parentheses or quotes (the error is recoverable, the line is then tried as a rule and ignored); proved for text after `else` and `endif` and for malformed arguments; tests that lack an argument are ignored, or skipped in a branch that is not taken (exact). |
| C65 | Partial. Refuted twice (see below); proved for texts where at most the first colon can belong to a drive, by a case analysis on the first two colons. |
| C62 | Partial. Mutual induction over the specification of texts and lists of files; which handle a file gets is left open, so the specification leads to a set of outcomes. `C62_exact` states what the program does in all cases: `Does` (Spec/Does.lean) is the specification with the bugs in it (comments anywhere but at the top, the switch that `endif` does not turn on, commands in branches not taken, lost last rules, late completion before `eval`). `C62_agrees`: elsewhere it is the specification, and C62_project_partial follows. |
| C66 | Partial. Refuted for values of several pieces; proved for values of one piece by following the word loop: the word is expanded, cut at the semicolon and at the colon. |
| C67 | From the equation for the characters of a well-formed span, and the equation for the first character that satisfies a predicate. |
| C68 | By cases on the error. |
| C69 | Partial. Refuted by `#`, `x=1`, `#`; proved for headers: what counts is the text after the last comment character; exact for files in which an assignment, a rule, a test or an empty line precedes the first comment (`C69_first_line_exact`): all before the comment is one line, all up to the last comment is lost. |
| C63 | Partial. Refuted by a line broken after the colon. `C63_exact`: such a line works exactly when its first physical line contains the beginning of the dependencies, and aborts otherwise. |
| C70 | Proved, for all texts, names, states reached, and sequences of reading and expanding. |
| C71 | Refuted. Partial: complete description for ASCII strings; consequences for makefiles. |
| C72 | Proved: the split of names, the slices and the word loop succeed for every division of the text into pieces, also where offsets are wrong (C17, C38). |
| C73 | False for `$(evaluate)` (disagreement with the test); it holds of exactly the trees in which no plain-text name begins with a function's name. |
| C74 | False for backslashes at the end of the list; exact behaviour and round trip of written names proved. |
| C75 | False: only one `./` is stripped and `./` becomes the empty name; exact behaviour proved, and that the model of the callers is an instance. |
| C76 | False for semicolons; proved for colons, blanks and backslashes in names. |
| C77 | Proved for all histories. |
| C78 | False: `$(eval $(x))` aborts when `x` was defined with two lines. Proved for plain arguments and values of one piece. |
| C79 | False for commands that look like assignments. Proved: a line that begins with a colon is ignored; commands of plain words after it too |
| C80 | False: the end of a file is never checked. Proved: every makefile that ends inside a conditional or a definition is accepted |
| C81 | False for function calls with a wrong number of arguments in assignments: `x = a; $(words b,c)` is dropped silently. Proved for unclosed references, include lines, rule lines, first and further lines of a definition, and assignments with `:=` or with the malformed call in front of any semicolon |
| C82 | False: `$($(n):c=d)` with `n = xy` looks up `x`. Exact description for every text (`Block.partTo`); the claim where the pieces of the text do not get in the way |
| C83 | False: such lines are ignored. Proved: exactly that, and that no line in any state is ever reported as lacking a separator or as a recipe without a rule |
| C84 | Proved: the list of error kinds that a line can be rejected with is exact, and `InternalFailure` is not in it |
| C85 | Proved: no ASCII text of a file makes a parser abort, except a line of a definition that is empty or a comment |
| C86 | Partial. A rule with commands loses the dependencies given before. Proved: variables, names, rules and commands are never lost, nor are dependencies while a target has no commands. |
| C87 | Proved. No depth of nesting suffices. |

The specifications share with the model only vocabulary of the standard library: `isWhitespace`, `isAlphabetic`,
`lower`, `trim`, `blen` and `isAscii`. `Props/Chars` says what each of them means without using the model
(`C65_letters`, `C65_whitespace`, `C41_keyword_case`, `C41_trimmed`, `C13_byte_length`).

## Disagreements between the code and the properties

Each is reproduced by a run of the model inside a `…_refuted` theorem, or described by a theorem for all inputs.

1. `endif` removes the conditional but does not recompute whether lines are ignored (C42).
2. `process_block` never completes the last open rule (C44).
3. Every parse error ends in `unimplemented!()`, also inside `$(eval …)` (C45).
4. `grab_line` looks for `#` first, in the whole remaining input; everything before a later comment becomes one line. CR LF is not recognised, because the line feed is looked for before it (C21, C22, C23).
5. `${x}` is not recognised (C28).
6. Text after a function call is dropped (C29, C30).
7. Names that begin with `eval`, `strip`, `words`, `word` are parsed as calls (C30, C31).
8. Blocks of already evaluated text lose their sensitivity (C34, C35).
9. `?=` overwrites (C39). `+=` on a simple variable appends unexpanded text (C56).
10. `a :=` with nothing after it panics (C54).
11. Target-specific variables, `ifdef`, `ifndef`, `undefine`, `export`, `vpath`, `load`, `strip`, `word`, `words`, static pattern rules are `unimplemented!()` (C61). Other functions are taken for variables: `$(wildcard *.c)` expands to nothing (C61).
12. Keywords need no word boundary and ignore case (C53, C47).
13. A line that is neither rule nor assignment is silently ignored; a target word that expands to nothing makes the rule line disappear (C55).
14. Recipe lines under an open rule are added even in a branch not taken (C43); the arguments of a conditional are evaluated even in a branch not taken.
15. `Offset` drops the inner offset when the tail starts in a later content reference (C18).
16. `chars().skip/take` with byte offsets (C19): after `aé:=`, the reference `$b` is read as `$($)b` and located at the equals sign (C57); the byte order mark is skipped as three characters (C48).
17. `SegmentsIter` panics at the boundary between segments, so `$(eval …)` of a value of several pieces may panic (C17, C51).
18. Substitution references look at the first occurrence of the suffix only; an empty suffix matches only words equal to the prefix, so `$(x:%=%.o)` changes nothing; because of item 15, with `d=s/` and `x=$(d)a.c`, `$(x:.c=.o)` is `s/.o` (C38).
19. `take_until_unquote` with NUL as stop character takes the end of the text for a stop (C24).
20. A body line of `define` that begins with `defined` counts as a nested definition; `endefx` aborts (C50). The name in `define $(x)` is not expanded, and `define x :=` stores the body unexpanded.
21. `a: ;x=1` is taken for a target-specific variable and aborts; so is `a: defined.h` for a definition.
22. A recipe line outside a rule is treated like any other line (C55).
23. `ifeq a b`, `ifeq (a b`, `ifeq 'a' b` are accepted and ignored; text after the closing parenthesis of `ifeq (a,b)` is ignored (C64).
24. `find_non_drivespec_colon` takes the second-to-last character for the letter and the last one for the blank: `x c:/d:e` is cut after `c`; a rule line `c:/d: e` aborts, because the words of a line are cut at every colon before (C65).
25. A line that is a reference to a variable whose value contains references, like `y=$x:$x b` and then `$(y)`, aborts: the parser of expressions cannot cut texts out of a node made of several pieces (C66).
26. Everything between two comments is dropped, also over any number of lines (C69; the reason is the disagreement of C22). Everything before the first comment is one line: `x=1`, `y=2`, `# c` sets only `x`, to a value of two lines. A rule before it loses its commands, a file that starts with an empty line loses all lines before it, a conditional there stays open and loses its body, and a `define` block there becomes, with its body and its `endef`, the name of a variable whose value is what follows the comment up to the next `endef`.
27. A rule line that is continued directly after the colon (`a: \⏎ c`), or within the targets, aborts the process (C63); this is how the segment bug of C17 shows in ordinary makefiles.
28. `find_substring` (src/evaluated/nom/mod.rs lines 190-248) writes whole characters into a buffer of as many bytes as the string has: when no whole number of characters has that many bytes it indexes out of bounds. The line parser looks for a one-byte string first, so a makefile whose first line (or first comment) begins with a non-ASCII character aborts the process (C71). For strings that end in a multi-byte character the returned index is wrong, since line 243 assumes a last character of one byte.
29. The property test `ast_parse_roundtrip` (src/parsers/ast/test/proptest/mod.rs) states a property that does not hold: the generator can pick a variable name like `evaluate`, and `$(evaluate)` is read as a call of `eval` (C73_refuted). It is item 7 seen from the test; the test passes because random names rarely begin with `eval`, `strip` or `word`.
30. Backslashes at the end of a list of file names are halved (C74_refuted): `a\\` is read as the name `a\`, because NUL is among the stop characters and the end of the text counts as one. make keeps them. With an odd number of them the result also depends on whether an escaped blank is elsewhere in the name (C74_names_exact).
31. `strip_leading_dotslash` strips one `./` only and can leave an empty name, where make strips all and keeps `./` (C75). No caller sets it yet.
32. Escaped semicolons in rule lines do not work (C76_refuted): `a : b\;c d` is read as `a: b` with the command `c d`, and `a\;b: c` gives no rule and no error. make reads the names `b;c` and `a;b`. At the end of a line an escaped colon counts as the separator, and the target gets a space at its end: `a\:` is a rule for `a ` (C76_escaped_colon_at_end).
33. `.RECIPEPREFIX` has no effect (C77_prefix): after `.RECIPEPREFIX = >` recipe lines still begin with a tab, and a line `>echo` aborts the process. make takes the first character of the variable as the prefix.
34. `$(eval $(x))` aborts when `x` was defined by `define` with two or more lines (C78_refuted): the second line begins at the boundary between two pieces, where `SegmentsIter` panics (item 17). This is the usual way of using `eval` with `define`. `$(eval a=$(x))` aborts for the same reason.
35. A line `$(eval …)` below an open rule runs the argument first and files the open rule afterwards; make completes the rule first. The text after the call on the same line is dropped.
36. The commands after a rule without targets are read as ordinary lines: after `: c`, the line `<tab>x=1` defines `x` (C79_refuted). make ignores the commands together with the rule.
37. `to_new_block` and `push_all_contents` drop the sensitivity of an empty span (src/evaluated/block_span.rs lines 105-107, src/evaluated/mod.rs lines 103-105; C12_refuted): a part that is empty because a variable is empty is not recorded as depending on it.
38. The end of a file is never checked (src/lib.rs lines 580-592; C80): a makefile that ends inside a conditional or a `define` block is accepted, and the lines up to its end are skipped or become the value of the variable. GNU make reports a missing `endif` or `endef`.
39. An assignment whose value is malformed, other than by an unclosed reference, is tried as a directive and as a rule next (src/parsers/variable/mod.rs; C81): `x = a; $(words b,c)` is then dropped without complaint, and x is not set. In GNU make this sets x.
40. The name and the key of a substitution reference are cut out with offsets that go wrong when the text consists of several pieces (src/ast/mod.rs lines 127-131; C82): `$($(n):c=d)` with `n = xy` looks up `x`. As a consequence `xy = $($(n):c=d)` refers to itself but can be expanded (C37_computed_refuted).
41. The errors `NoRuleRecipe` and `MissingSeparator` can never be reported: `next_mword` never returns `MWordEnd::EOL` (src/parsers/targets/mod.rs lines 147-153, 243-268, 414-538; C83). A line `; a` or `foo bar; a` is ignored without a message.
42. A rule with commands drops the dependencies that earlier rules gave the same target (src/lib.rs lines 283-308; C86_refuted): after `a: b` and `a: e` with a command, `a` does not depend on `b`. make merges the dependencies of all rules of a target.
43. Nothing stops a makefile from including itself (src/parsers/directives/mod.rs lines 63-92; C87_self): the reading recurses until the stack overflows. There is no error for it.

## Not modelled

* `pattern.rs` and `vpath` matching (only `unimplemented!()` in the code), `Engine::get_path_for_filename`.
* Logging, `Display` and `Debug` output, the examples, `test_macros.rs`.
* The error positions carried in nom errors and all but the first error kind inside the parsers (the engine discards them);
  the functions that lift and extend errors are modelled on their own (`Model/Access`).
* Changes of the file system while makefiles are read; the kinds of input/output errors.
* Visitors that override a method and do not call the default one, except those of C52.
* Sharing of `Arc`s, memory use, stack overflow (a deep recursion is `Res.fuel`), integer overflow of additions.

## Trusted base

* Lean's kernel and the axioms listed below.
* The hand transcription of `/repo` into the model (each definition cites file and lines).
* The transcription of nom 4.2 and of the `im`, `string-interner` and `std` functions used.
* The specifications in `Spec/*`, as far as they occur in the statements of theorems.

No axiom is added, and there is no `sorry`, `admit`, `native_decide` or `bv_decide`.

### Axioms of the property theorems

Output of `#print axioms`, grouped.

* **none** (5): `C46_others_unchanged`, `C68_lift`, `C68_add`, `C68_as_failure`, `C74_names_unique`
* **`propext`** (9): `NameCache.C02_handles_stay_valid`, `NameCache.C02_namespaces_independent`, `Location.C08_incomparable`, `C11_out_of_bounds_panics`, `C13_indices_are_byte_offsets`, `C15_lower_is_ascii_case`, `C20_trailing_meaning`, `C65_letters`, `C82_part`
* **`Quot.sound`, `propext`** (31): `Database.C03_set_variable`, `Database.C03_last_write_wins`, `C04_append_to_variable`, `Database.C05_set_variable_for_target`, `Database.C07_add_rule`, `Database.C07_insertion_succeeds`, `LStr.C09_slice_exact`, `LStr.C09_slice_panics_otherwise`, `C11_span_is_text`, `C11_node_slice`, `C13_views_agree`, `C13_span_views_agree`, `C15_compare`, `C15_compare_no_case`, `C18_offset_to_end_partial`, `C19_exact`, `C19_holds_iff`, `C19_ascii_prefix_partial`, `C22_leaves_exists`, `C24_refuted`, `C38_repeated_suffix`, `C38_positions`, `C38_pieces_unique`, `C41_keyword_case`, `C41_trimmed`, `C46_last_assignment`, `C52_only_constants`, `C52_change`, `C67_take`, `C67_char_indices`, `C68_nested`
* **`Classical.choice`, `Quot.sound`, `propext`** (290): `NameCache.C01_file_names_faithful`, `NameCache.C01_variable_names_faithful`, `NameCache.C02_lookups`, `C04_evaluation`, `Database.C06_rules_filed_under_their_target`, `C06_reached_states`, `Database.C07_other_targets_untouched`, `Database.C07_rule_without_commands`, `Database.C07_rule_with_commands`, `Location.C08_partial_order`, `Location.C08_lexicographic`, `LStr.C09_slice_succeeds_iff`, `C10_simplify_keeps_text`, `C10_new_keeps_text`, `C11_slices_are_substrings`, `C12_copy_partial`, `C12_push_partial`, `C12_panics`, `C12_refuted`, `C13_byte_length`, `C14_find_first`, `C16_split_at`, `C16_split_at_predicate`, `C17_segments_tile_partial`, `C17_segments_complete_partial`, `C17_refuted`, `C17_exact`, `C17_location_exact`, `C18_offset_exact_partial`, `C18_offset_single_partial`, `C18_refuted`, `C19_refuted`, `C20_counts_trailing_backslashes`, `C20_continued_iff_odd`, `C21_exact_partial`, `C21_line_partial`, `C21_refuted_comment`, `C21_refuted_carriage_return`, `C22_last_comment_partial`, `C22_swallows_partial`, `C22_refuted`, `C23_joined_partial`, `C23_refuted_comment`, `C23_refuted_backslash`, `C24_unquote_partial`, `C24_nul_exact`, `C25_fields`, `C25_fields_meaning`, `C26_text`, `C27_double_dollar_partial`, `C27_final_dollar_partial`, `C27_escaped_text_partial`, `C27_refuted`, `C28_refuted`, `C28_references_partial`, `C28_plain_name_partial`, `C29_refuted`, `C29_unterminated_partial`, `C29_nested_partial`, `C30_refuted`, `C30_full_refuted`, `C30_rest_dropped`, `C30_partial`, `C31_refuted`, `C31_roundtrip_partial`, `C31_exact`, `C32_expansion`, `C32_reference_semantics`, `C33_no_effects`, `C33_names_only_added`, `C34_refuted`, `C34_sound_partial`, `C35_refuted`, `C35_exact_partial`, `C35_trace_partial`, `C36_simple_frozen`, `C36_recursive_live`, `C36_simple_any_value`, `C37_acyclic_with_substitutions_partial`, `C37_computed_refuted`, `C37_cycle_with_substitutions_partial`, `C37_refuted`, `C37_cycle_never_returns_partial`, `C37_acyclic_returns_partial`, `C37_self_reference_overflows`, `C38_words_exact`, `C38_words_partial`, `C38_reference_exact`, `C38_reference_partial`, `C38_refuted`, `C38_pieces_refuted`, `C38_pieces_exact`, `C39_defines_undefined_partial`, `C39_overwrites_defined`, `C39_refuted`, `C40_progress`, `C40_terminates`, `C40_in_order`, `C41_selects_lines_partial`, `C41_if`, `C41_else`, `C41_second_else`, `C41_unattached_else`, `C41_unattached_endif`, `C41_refuted`, `C41_makefile_partial`, `C42_taken_partial`, `C42_stays_ignoring`, `C42_refuted`, `C42_file_refuted`, `C42_files_exact`, `C42_rest_lost`, `C42_agrees_partial`, `C43_no_effect_partial`, `C43_nested_partial`, `C43_refuted`, `C43_exact`, `C44_completed_rules_partial`, `C44_refuted`, `C45_refuted`, `C45_never_an_error`, `C45_line_error_aborts`, `C45_well_formed_partial`, `C45_unreadable_partial`, `C46_assignments_partial`, `C46_refuted`, `C47_rule_line_partial`, `C47_references_partial`, `C47_recipe_line`, `C47_refuted`, `C48_skips_three_characters`, `C48_alone_partial`, `C48_no_mark`, `C48_refuted`, `C49_include`, `C49_missing`, `C49_after_rule`, `C50_define_partial`, `C50_text_partial`, `C50_refuted`, `C51_argument`, `C51_call`, `C51_makefile_partial`, `C51_refuted`, `C52_walk`, `C52_visits_all`, `C52_calls`, `C52_all_constants`, `C53_variables_partial`, `C53_conditional_keywords_fail`, `C53_targets_partial`, `C53_refuted`, `C54_always_aborts`, `C54_refuted`, `C54_expands_to_nothing_partial`, `C55_words_ignored`, `C55_references_ignored`, `C55_recipe_expected_partial`, `C55_refuted`, `C56_appends_unexpanded`, `C56_plain_text_partial`, `C56_refuted`, `C57_refuted`, `C57_ascii_partial`, `C57_any_partial`, `C57_values_partial`, `C57_expansions_partial`, `C57_any_expansions_partial`, `C58_handles_resolve`, `C59_references_inside`, `C59_states_wellformed`, `C60_expression`, `C60_line`, `C60_step`, `C60_read`, `C61_unknown_function`, `C61_refuted`, `C61_function_partial`, `C61_through_variables_partial`, `C61_through_substitutions_partial`, `C61_conditional`, `C61_line`, `C61_target`, `C61_file`, `C64_refuted`, `C64_rejected_partial`, `C64_ignored`, `C64_skipped`, `C65_whitespace`, `C65_colon_partial`, `C65_refuted`, `C65_rule_refuted`, `C62_project_partial`, `C62_exact`, `C62_agrees`, `C62_refuted`, `C66_rule_partial`, `C66_expands`, `C66_refuted`, `C67_position`, `C67_position_splits`, `C67_split1`, `C69_header_partial`, `C69_last_comments_partial`, `C69_points`, `C69_first_line_exact`, `C69_refuted`, `C63_continued_rule_partial`, `C63_refuted`, `C63_aborts`, `C63_exact`, `C70_reachable_known`, `C70_name_irrelevant`, `C70_names_irrelevant`, `C70_locations_irrelevant`, `C70_text_anywhere`, `C70_expansion`, `C71_refuted`, `C71_wrong_index`, `C71_ascii_partial`, `C71_ascii_start_partial`, `C71_line_start`, `C71_comment_start`, `C72_expansion_never_aborts`, `C72_variables_never_abort`, `C72_substitution_total`, `C73_refuted`, `C73_roundtrip_partial`, `C73_alphanum_partial`, `C73_exact`, `C73_unambiguous_partial`, `C74_names_exact`, `C74_names_partial`, `C74_written_names_read_back`, `C74_refuted`, `C75_unsupported`, `C75_defaults`, `C75_strip_exact`, `C75_strip_partial`, `C75_refuted`, `C76_written_rule_partial`, `C76_escapes_partial`, `C76_refuted`, `C76_escaped_semicolon_lost`, `C76_escaped_colon_at_end`, `C77_tab_line`, `C77_tab_line_total`, `C77_other_lines`, `C77_prefix`, `C78_text_partial`, `C78_reference_partial`, `C78_refuted`, `C79_line`, `C79_rule_partial`, `C79_refuted`, `C80_never_reported`, `C80_end_unchecked`, `C80_refuted`, `C81_reported_partial`, `C81_define`, `C81_definition`, `C81_rules`, `C81_assignments`, `C81_dropped`, `C81_refuted`, `C82_exact`, `C82_named_partial`, `C82_refuted`, `C83_ignored`, `C83_never_reported`, `C83_refuted`, `C84_internal`, `C84_kinds`, `C84_final`, `C84_reached`, `C84_unnamed`, `C85_places`, `C85_physical_lines`, `C85_define_lines`, `C85_define_comment`, `C85_logical_lines`, `C86_variables`, `C86_names`, `C86_untouched`, `C86_rules`, `C86_dependencies_partial`, `C86_refuted`, `C87_cycle`, `C87_first_lines`, `C87_self`
