{
 "claims": [
  {
   "property": "C01",
   "status": "proved",
   "theorems": [
    "Hastur.NameCache.C01_file_names_faithful",
    "Hastur.NameCache.C01_variable_names_faithful"
   ],
   "note": ""
  },
  {
   "property": "C02",
   "status": "proved",
   "theorems": [
    "Hastur.NameCache.C02_handles_stay_valid",
    "Hastur.NameCache.C02_lookups",
    "Hastur.NameCache.C02_namespaces_independent"
   ],
   "note": ""
  },
  {
   "property": "C03",
   "status": "proved",
   "theorems": [
    "Hastur.Database.C03_set_variable",
    "Hastur.Database.C03_last_write_wins"
   ],
   "note": ""
  },
  {
   "property": "C04",
   "status": "proved",
   "theorems": [
    "Hastur.C04_append_to_variable",
    "Hastur.C04_evaluation"
   ],
   "note": ""
  },
  {
   "property": "C05",
   "status": "proved",
   "theorems": [
    "Hastur.Database.C05_set_variable_for_target"
   ],
   "note": ""
  },
  {
   "property": "C06",
   "status": "proved",
   "theorems": [
    "Hastur.Database.C06_rules_filed_under_their_target",
    "Hastur.C06_reached_states"
   ],
   "note": ""
  },
  {
   "property": "C07",
   "status": "proved",
   "theorems": [
    "Hastur.Database.C07_add_rule",
    "Hastur.Database.C07_insertion_succeeds",
    "Hastur.Database.C07_other_targets_untouched",
    "Hastur.Database.C07_rule_without_commands",
    "Hastur.Database.C07_rule_with_commands"
   ],
   "note": ""
  },
  {
   "property": "C08",
   "status": "proved",
   "theorems": [
    "Hastur.Location.C08_partial_order",
    "Hastur.Location.C08_lexicographic",
    "Hastur.Location.C08_incomparable"
   ],
   "note": ""
  },
  {
   "property": "C09",
   "status": "proved",
   "theorems": [
    "Hastur.LStr.C09_slice_exact",
    "Hastur.LStr.C09_slice_panics_otherwise",
    "Hastur.LStr.C09_slice_succeeds_iff"
   ],
   "note": ""
  },
  {
   "property": "C10",
   "status": "proved",
   "theorems": [
    "Hastur.C10_simplify_keeps_text",
    "Hastur.C10_new_keeps_text"
   ],
   "note": ""
  },
  {
   "property": "C11",
   "status": "proved",
   "theorems": [
    "Hastur.C11_slices_are_substrings",
    "Hastur.C11_span_is_text",
    "Hastur.C11_out_of_bounds_panics",
    "Hastur.C11_node_slice"
   ],
   "note": "C11_node_slice says the same of references to a part of a node (ContentReference::new_from_node_slice)."
  },
  {
   "property": "C12",
   "status": "partial",
   "theorems": [
    "Hastur.C12_copy_partial",
    "Hastur.C12_push_partial",
    "Hastur.C12_panics",
    "Hastur.C12_refuted"
   ],
   "note": "Refuted: the copy of an empty part of a block has no sensitivity at all (and pushing it adds none). Proved for all other spans; the copying panics exactly for spans that start with an empty reference, which slicing and Block::new do not produce (C12_panics)."
  },
  {
   "property": "C13",
   "status": "proved",
   "theorems": [
    "Hastur.C13_views_agree",
    "Hastur.C13_span_views_agree",
    "Hastur.C13_indices_are_byte_offsets",
    "Hastur.C13_byte_length"
   ],
   "note": ""
  },
  {
   "property": "C14",
   "status": "proved",
   "theorems": [
    "Hastur.C14_find_first"
   ],
   "note": ""
  },
  {
   "property": "C15",
   "status": "proved",
   "theorems": [
    "Hastur.C15_compare",
    "Hastur.C15_compare_no_case",
    "Hastur.C15_lower_is_ascii_case"
   ],
   "note": ""
  },
  {
   "property": "C16",
   "status": "proved",
   "theorems": [
    "Hastur.C16_split_at",
    "Hastur.C16_split_at_predicate"
   ],
   "note": ""
  },
  {
   "property": "C17",
   "status": "partial",
   "theorems": [
    "Hastur.C17_segments_tile_partial",
    "Hastur.C17_segments_complete_partial",
    "Hastur.C17_refuted",
    "Hastur.C17_exact",
    "Hastur.C17_location_exact"
   ],
   "note": "Refuted: the iteration panics at the boundary between segments of one node. Proved: whenever it completes, the segments tile the text; it completes when no node wraps more than one reference; and the exact condition (C17_exact, C17_location_exact): it completes exactly when neither the span nor any reference read on the way starts where a piece of the text it looks into ends."
  },
  {
   "property": "C18",
   "status": "partial",
   "theorems": [
    "Hastur.C18_offset_exact_partial",
    "Hastur.C18_offset_single_partial",
    "Hastur.C18_offset_to_end_partial",
    "Hastur.C18_refuted"
   ],
   "note": "Refuted for a tail that starts inside a later content reference. Proved: the exact value in general, and the property for blocks with a single reference."
  },
  {
   "property": "C19",
   "status": "partial",
   "theorems": [
    "Hastur.C19_exact",
    "Hastur.C19_holds_iff",
    "Hastur.C19_ascii_prefix_partial",
    "Hastur.C19_refuted"
   ],
   "note": "Refuted by a two-byte character (see also C57, C71). Proved for a block of one text: exactly what a slice shows (C19_exact: one character too many is dropped per extra byte skipped), so it is right exactly when the skipped text is ASCII or nothing follows (C19_holds_iff)."
  },
  {
   "property": "C20",
   "status": "proved",
   "theorems": [
    "Hastur.C20_counts_trailing_backslashes",
    "Hastur.C20_trailing_meaning",
    "Hastur.C20_continued_iff_odd"
   ],
   "note": ""
  },
  {
   "property": "C21",
   "status": "partial",
   "theorems": [
    "Hastur.C21_exact_partial",
    "Hastur.C21_line_partial",
    "Hastur.C21_refuted_comment",
    "Hastur.C21_refuted_carriage_return"
   ],
   "note": "Refuted (comment on a later line, carriage return). Proved: what line is read for every input, and the property for inputs without # and carriage return."
  },
  {
   "property": "C22",
   "status": "partial",
   "theorems": [
    "Hastur.C22_last_comment_partial",
    "Hastur.C22_swallows_partial",
    "Hastur.C22_leaves_exists",
    "Hastur.C22_refuted"
   ],
   "note": "Refuted when further comments follow. Proved when none follows, and what is swallowed otherwise."
  },
  {
   "property": "C23",
   "status": "partial",
   "theorems": [
    "Hastur.C23_joined_partial",
    "Hastur.C23_refuted_comment",
    "Hastur.C23_refuted_backslash"
   ],
   "note": "Refuted (comment on a later line, backslash before the blanks). Proved without these."
  },
  {
   "property": "C24",
   "status": "partial",
   "theorems": [
    "Hastur.C24_unquote_partial",
    "Hastur.C24_refuted",
    "Hastur.C24_nul_exact"
   ],
   "note": "Refuted when NUL is a stop character. Proved for all other sets of stop characters, and `C24_nul_exact` says what happens when NUL is one."
  },
  {
   "property": "C25",
   "status": "proved",
   "theorems": [
    "Hastur.C25_fields",
    "Hastur.C25_fields_meaning"
   ],
   "note": "A NUL character counts as a separator of names, as in the code."
  },
  {
   "property": "C26",
   "status": "proved",
   "theorems": [
    "Hastur.C26_text"
   ],
   "note": "Texts are spans of blocks whose nodes have one segment each, such as the text of a file (C17 says what goes wrong in others)."
  },
  {
   "property": "C27",
   "status": "partial",
   "theorems": [
    "Hastur.C27_double_dollar_partial",
    "Hastur.C27_final_dollar_partial",
    "Hastur.C27_escaped_text_partial",
    "Hastur.C27_refuted"
   ],
   "note": "Refuted after a function call, where nothing is read any more (C30). Proved everywhere else. Texts are spans of blocks whose nodes have one segment each, such as the text of a file (C17 says what goes wrong in others)."
  },
  {
   "property": "C28",
   "status": "partial",
   "theorems": [
    "Hastur.C28_refuted",
    "Hastur.C28_references_partial",
    "Hastur.C28_plain_name_partial"
   ],
   "note": "Refuted: braces. Proved for the other forms."
  },
  {
   "property": "C29",
   "status": "partial",
   "theorems": [
    "Hastur.C29_refuted",
    "Hastur.C29_unterminated_partial",
    "Hastur.C29_nested_partial"
   ],
   "note": "Refuted after a function call. Proved when no function call comes before the reference."
  },
  {
   "property": "C30",
   "status": "partial",
   "theorems": [
    "Hastur.C30_refuted",
    "Hastur.C30_full_refuted",
    "Hastur.C30_rest_dropped",
    "Hastur.C30_partial"
   ],
   "note": "Refuted: what follows a call is dropped, names that begin with a function name are calls. Proved for the rest."
  },
  {
   "property": "C31",
   "status": "partial",
   "theorems": [
    "Hastur.C31_refuted",
    "Hastur.C31_roundtrip_partial",
    "Hastur.C31_exact"
   ],
   "note": "Refuted for names that begin with a function name, and exactly for those (C31_exact). Proved for all other expressions."
  },
  {
   "property": "C32",
   "status": "proved",
   "theorems": [
    "Hastur.C32_expansion",
    "Hastur.C32_reference_semantics"
   ],
   "note": "Values made of text, variable references and substitution references; function calls are the subject of C38 and C51."
  },
  {
   "property": "C33",
   "status": "proved",
   "theorems": [
    "Hastur.C33_no_effects",
    "Hastur.C33_names_only_added"
   ],
   "note": ""
  },
  {
   "property": "C34",
   "status": "partial",
   "theorems": [
    "Hastur.C34_refuted",
    "Hastur.C34_sound_partial"
   ],
   "note": "Refuted for $(eval ...). Proved without it."
  },
  {
   "property": "C35",
   "status": "partial",
   "theorems": [
    "Hastur.C35_refuted",
    "Hastur.C35_exact_partial",
    "Hastur.C35_trace_partial"
   ],
   "note": "Refuted for $(eval ...). Proved without it."
  },
  {
   "property": "C36",
   "status": "proved",
   "theorems": [
    "Hastur.C36_simple_frozen",
    "Hastur.C36_recursive_live",
    "Hastur.C36_simple_any_value"
   ],
   "note": "An empty value of := aborts (C54), so it is excluded."
  },
  {
   "property": "C37",
   "status": "partial",
   "theorems": [
    "Hastur.C37_acyclic_with_substitutions_partial",
    "Hastur.C37_computed_refuted",
    "Hastur.C37_cycle_with_substitutions_partial",
    "Hastur.C37_refuted",
    "Hastur.C37_cycle_never_returns_partial",
    "Hastur.C37_acyclic_returns_partial",
    "Hastur.C37_self_reference_overflows"
   ],
   "note": "Refuted with function calls, and without them for cycles through substitution references with computed names (C37_computed_refuted). Proved without calls: cycles through references and written-out substitution references never return; acyclic graphs return, all substitution references included (one with a computed name counts as a reference to every variable whose name begins the text before the colon)."
  },
  {
   "property": "C38",
   "status": "partial",
   "theorems": [
    "Hastur.C38_words_exact",
    "Hastur.C38_repeated_suffix",
    "Hastur.C38_words_partial",
    "Hastur.C38_reference_exact",
    "Hastur.C38_reference_partial",
    "Hastur.C38_refuted",
    "Hastur.C38_pieces_refuted",
    "Hastur.C38_pieces_exact",
    "Hastur.C38_positions",
    "Hastur.C38_pieces_unique"
   ],
   "note": "Refuted for words that contain the suffix more than once and for words made of several pieces. Proved for values whose words stay inside the pieces: exactly what is done to every word (C38_words_exact, C38_reference_exact), and the property where the suffix occurs only at the end. For any value, words of several pieces included, the result is exactly described (C38_pieces_exact) and determined (C38_pieces_unique); for references the exact theorem covers values whose words stay inside pieces. References whose text is computed are the subject of C82."
  },
  {
   "property": "C39",
   "status": "partial",
   "theorems": [
    "Hastur.C39_defines_undefined_partial",
    "Hastur.C39_overwrites_defined",
    "Hastur.C39_refuted"
   ],
   "note": "Refuted: ?= overwrites. Proved for undefined variables."
  },
  {
   "property": "C40",
   "status": "proved",
   "theorems": [
    "Hastur.C40_progress",
    "Hastur.C40_terminates",
    "Hastur.C40_in_order"
   ],
   "note": ""
  },
  {
   "property": "C41",
   "status": "partial",
   "theorems": [
    "Hastur.C41_keyword_case",
    "Hastur.C41_trimmed",
    "Hastur.C41_selects_lines_partial",
    "Hastur.C41_if",
    "Hastur.C41_else",
    "Hastur.C41_second_else",
    "Hastur.C41_unattached_else",
    "Hastur.C41_unattached_endif",
    "Hastur.C41_refuted",
    "Hastur.C41_makefile_partial"
   ],
   "note": "The single lines are proved in full. Whole files: up to the bug of endif (C42), comments only at the top (C69). Rule lines may have references in their targets, escaped characters (C76) and continuations (C63)."
  },
  {
   "property": "C42",
   "status": "partial",
   "theorems": [
    "Hastur.C42_taken_partial",
    "Hastur.C42_stays_ignoring",
    "Hastur.C42_refuted",
    "Hastur.C42_file_refuted",
    "Hastur.C42_files_exact",
    "Hastur.C42_rest_lost",
    "Hastur.C42_agrees_partial"
   ],
   "note": "Refuted if the conditional is closed in its branch not taken; proved if it is closed in its taken branch. For whole files of assignments and conditionals `C42_files_exact` says what happens in all cases, and `C42_rest_lost` that everything up to the next conditional is lost. For makefiles with rules and included files: `C62_exact`."
  },
  {
   "property": "C43",
   "status": "partial",
   "theorems": [
    "Hastur.C43_no_effect_partial",
    "Hastur.C43_nested_partial",
    "Hastur.C43_refuted",
    "Hastur.C43_exact"
   ],
   "note": "Fails for recipe lines of an open rule; proved for all other lines. `C43_exact`: exactly these commands have an effect."
  },
  {
   "property": "C44",
   "status": "partial",
   "theorems": [
    "Hastur.C44_completed_rules_partial",
    "Hastur.C44_refuted"
   ],
   "note": "Refuted: the rule that is open at the end is lost. Proved for all others; comments only at the top (C69). Rule lines may have references in their targets, escaped characters (C76) and continuations (C63). What happens to the last rules of all files in all cases: C62_exact."
  },
  {
   "property": "C45",
   "status": "partial",
   "theorems": [
    "Hastur.C45_refuted",
    "Hastur.C45_never_an_error",
    "Hastur.C45_line_error_aborts",
    "Hastur.C45_well_formed_partial",
    "Hastur.C45_unreadable_partial"
   ],
   "note": "Refuted: every error aborts. Proved for input that is not text and for well-formed makefiles."
  },
  {
   "property": "C46",
   "status": "partial",
   "theorems": [
    "Hastur.C46_assignments_partial",
    "Hastur.C46_others_unchanged",
    "Hastur.C46_last_assignment",
    "Hastur.C46_refuted"
   ],
   "note": "Refuted through the keyword bugs. Proved for files whose comments stand at the top (C69), in which no line looks like a conditional and no := has an empty right side."
  },
  {
   "property": "C47",
   "status": "partial",
   "theorems": [
    "Hastur.C47_rule_line_partial",
    "Hastur.C47_references_partial",
    "Hastur.C47_recipe_line",
    "Hastur.C47_refuted"
   ],
   "note": "Refuted for targets that begin with a keyword. Proved for the others."
  },
  {
   "property": "C48",
   "status": "partial",
   "theorems": [
    "Hastur.C48_skips_three_characters",
    "Hastur.C48_alone_partial",
    "Hastur.C48_no_mark",
    "Hastur.C48_refuted"
   ],
   "note": "Refuted: two characters after the mark are lost. Proved for the mark alone."
  },
  {
   "property": "C49",
   "status": "proved",
   "theorems": [
    "Hastur.C49_include",
    "Hastur.C49_missing",
    "Hastur.C49_after_rule"
   ],
   "note": "The names may contain escaped separators; how backslashes at the end of the list are read is said by lastName (C76). The line has no comment and is not an assignment (such as include = x), and the makefile is one block. A missing file yields an error value, which the driver then turns into an abort (C45). The last rule of an included file is lost (C44)."
  },
  {
   "property": "C50",
   "status": "partial",
   "theorems": [
    "Hastur.C50_define_partial",
    "Hastur.C50_text_partial",
    "Hastur.C50_refuted"
   ],
   "note": "Refuted for body lines that begin with the letters define or endef without being these keywords. Proved where such lines count as keyword lines. Each body line is a complete expression, and no comment character follows in the file; definitions with a comment behind them: C69_first_line_exact. Whole makefiles with definitions: C41_makefile_partial."
  },
  {
   "property": "C51",
   "status": "partial",
   "theorems": [
    "Hastur.C51_argument",
    "Hastur.C51_call",
    "Hastur.C51_makefile_partial",
    "Hastur.C51_refuted"
   ],
   "note": "Refuted for values of several pieces (abort). Proved for values of one piece; the evaluator equation is proved for all."
  },
  {
   "property": "C52",
   "status": "proved",
   "theorems": [
    "Hastur.C52_walk",
    "Hastur.C52_visits_all",
    "Hastur.C52_calls",
    "Hastur.C52_only_constants",
    "Hastur.C52_all_constants",
    "Hastur.C52_change"
   ],
   "note": ""
  },
  {
   "property": "C53",
   "status": "partial",
   "theorems": [
    "Hastur.C53_variables_partial",
    "Hastur.C53_conditional_keywords_fail",
    "Hastur.C53_targets_partial",
    "Hastur.C53_refuted"
   ],
   "note": "Refuted. Proved for names that do not begin with one of the listed keywords."
  },
  {
   "property": "C54",
   "status": "partial",
   "theorems": [
    "Hastur.C54_always_aborts",
    "Hastur.C54_refuted",
    "Hastur.C54_expands_to_nothing_partial"
   ],
   "note": "Refuted: an empty right side aborts. Proved when it expands to nothing."
  },
  {
   "property": "C55",
   "status": "partial",
   "theorems": [
    "Hastur.C55_words_ignored",
    "Hastur.C55_references_ignored",
    "Hastur.C55_recipe_expected_partial",
    "Hastur.C55_refuted"
   ],
   "note": "Refuted: such lines are ignored. Proved for recipe lines when their marker is not a blank. By C83_never_reported the missing-separator error is never reported, for any line."
  },
  {
   "property": "C56",
   "status": "partial",
   "theorems": [
    "Hastur.C56_appends_unexpanded",
    "Hastur.C56_plain_text_partial",
    "Hastur.C56_refuted"
   ],
   "note": "Refuted: the text is appended unexpanded. Proved for text without references."
  },
  {
   "property": "C57",
   "status": "partial",
   "theorems": [
    "Hastur.C57_refuted",
    "Hastur.C57_ascii_partial",
    "Hastur.C57_any_partial",
    "Hastur.C57_values_partial",
    "Hastur.C57_expansions_partial",
    "Hastur.C57_any_expansions_partial"
   ],
   "note": "C57_full is refuted by the makefile 'aé:=$bdefine x'. Proved exactly for ASCII makefiles (C57_ascii_partial, C57_values_partial, C57_expansions_partial) and for all makefiles up to the location of dollar signs (C57_any_partial, C57_any_expansions_partial)."
  },
  {
   "property": "C58",
   "status": "proved",
   "theorems": [
    "Hastur.C58_handles_resolve"
   ],
   "note": "For every state reached by reading makefiles and expanding variables, without restriction on their text."
  },
  {
   "property": "C59",
   "status": "proved",
   "theorems": [
    "Hastur.C59_references_inside",
    "Hastur.C59_states_wellformed"
   ],
   "note": "C59_references_inside holds for all texts, C59_states_wellformed for ASCII makefiles."
  },
  {
   "property": "C60",
   "status": "proved",
   "theorems": [
    "Hastur.C60_expression",
    "Hastur.C60_line",
    "Hastur.C60_step",
    "Hastur.C60_read"
   ],
   "note": "No hypothesis on the text. C60_line and C60_step are about arbitrary recursive calls that return; C60_read instantiates them with a limit on the nesting depth."
  },
  {
   "property": "C61",
   "status": "partial",
   "theorems": [
    "Hastur.C61_unknown_function",
    "Hastur.C61_refuted",
    "Hastur.C61_function_partial",
    "Hastur.C61_through_variables_partial",
    "Hastur.C61_through_substitutions_partial",
    "Hastur.C61_conditional",
    "Hastur.C61_line",
    "Hastur.C61_target",
    "Hastur.C61_file"
   ],
   "note": "Lines: proved. Functions: refuted for those the parser does not know ($(wildcard *.c) expands to nothing; C61_unknown_function says so for all of them); proved for strip, word and words, also when they are reached through any chain of variables (C61_through_variables_partial) and through substitution references (C61_through_substitutions_partial)."
  },
  {
   "property": "C64",
   "status": "partial",
   "theorems": [
    "Hastur.C64_refuted",
    "Hastur.C64_rejected_partial",
    "Hastur.C64_ignored",
    "Hastur.C64_skipped"
   ],
   "note": "Refuted: 'ifeq a b' (arguments neither in parentheses nor in quotes) is accepted and ignored. Proved for text after else and endif and for tests whose arguments are not well-formed expressions. C64_ignored and C64_skipped are exact for tests that lack one of the two arguments (no comma, no closing parenthesis, no closing quote, no second argument): if the line is made of plain words it is ignored, and in a branch that is not taken it is skipped without being counted as a conditional."
  },
  {
   "property": "C65",
   "status": "partial",
   "theorems": [
    "Hastur.C65_letters",
    "Hastur.C65_whitespace",
    "Hastur.C65_colon_partial",
    "Hastur.C65_refuted",
    "Hastur.C65_rule_refuted"
   ],
   "note": "Refuted: the code compares the two characters before the colon in the wrong order ('x c:/d:e' is cut at the first colon), and a rule line 'c:/d: e' aborts. Proved for texts where neither whitespace nor a parenthesis is among the two characters before a colon that a slash follows."
  },
  {
   "property": "C62",
   "status": "partial",
   "theorems": [
    "Hastur.C62_project_partial",
    "Hastur.C62_exact",
    "Hastur.C62_agrees",
    "Hastur.C62_refuted"
   ],
   "note": "Refuted: the last rule of an included file is lost ('-include g f' where f is 'a: b'). Proved for projects in which no file ends inside a rule and no endif closes an untaken branch (C42); comments only at the top of files (C69; `C62_exact` has them anywhere). Lines that call eval with a plain argument are included (C78). Rule lines may have references in their targets, escaped characters (C76) and continuations (C63). `C62_exact` says what a project does in all cases, the bugs included (the four above and what comments do), and `C62_agrees` that this is the specification where they do not matter."
  },
  {
   "property": "C66",
   "status": "partial",
   "theorems": [
    "Hastur.C66_rule_partial",
    "Hastur.C66_expands",
    "Hastur.C66_refuted"
   ],
   "note": "Refuted: y=$x:$x b and then $(y) aborts, because the value consists of several pieces. Proved for variables whose value is a text stored in one piece (set with = from plain text or with :=); the name of the variable may contain references."
  },
  {
   "property": "C67",
   "status": "proved",
   "theorems": [
    "Hastur.C67_position",
    "Hastur.C67_position_splits",
    "Hastur.C67_take",
    "Hastur.C67_split1",
    "Hastur.C67_char_indices"
   ],
   "note": "Well-formed blocks are ASCII, as everywhere."
  },
  {
   "property": "C68",
   "status": "proved",
   "theorems": [
    "Hastur.C68_lift",
    "Hastur.C68_add",
    "Hastur.C68_as_failure",
    "Hastur.C68_nested"
   ],
   "note": "Positions and kinds are arbitrary types. The engine itself discards the positions, so the rest of the model keeps only the first kind."
  },
  {
   "property": "C69",
   "status": "partial",
   "theorems": [
    "Hastur.C69_header_partial",
    "Hastur.C69_last_comments_partial",
    "Hastur.C69_points",
    "Hastur.C69_first_line_exact",
    "Hastur.C69_refuted"
   ],
   "note": "Refuted: an assignment between two comments is lost. Proved when all comment lines stand at the top of the file, possibly with empty lines among them; for the last comment lines of a text at any point, in every state of the parser; and exactly what happens if an assignment, a rule, a definition, a test or an empty line precedes the first comment: a comment behind it on the first line has no effect, a comment on a later line makes all before it one value or loses it, and all between the first and the last comment is lost. A definition before the first comment becomes the name of a variable, and what follows the comments its value. C69_points: after its first line, a reading is only ever at texts without comment characters or right at one."
  },
  {
   "property": "C63",
   "status": "partial",
   "theorems": [
    "Hastur.C63_continued_rule_partial",
    "Hastur.C63_refuted",
    "Hastur.C63_aborts",
    "Hastur.C63_exact"
   ],
   "note": "Refuted: the parser aborts when the line is broken right after the colon (`a: \\⏎ c`) or among the targets, since the word after the break then starts exactly where a piece of the line ends (the bug of C17). `C63_exact`: the line starts the rule it denotes exactly when the first physical line contains the beginning of the dependencies, however the rest is broken; otherwise it aborts (`C63_aborts`). Such lines may occur in the whole makefiles of C41, C44 and C62."
  },
  {
   "property": "C70",
   "status": "proved",
   "theorems": [
    "Hastur.C70_reachable_known",
    "Hastur.C70_name_irrelevant",
    "Hastur.C70_names_irrelevant",
    "Hastur.C70_locations_irrelevant",
    "Hastur.C70_text_anywhere",
    "Hastur.C70_expansion"
   ],
   "note": "Proved by a simulation between two runs of the whole engine: every function of the model sends arguments that agree up to locations, in states that mean the same, to results that agree up to locations."
  },
  {
   "property": "C71",
   "status": "partial",
   "theorems": [
    "Hastur.C71_refuted",
    "Hastur.C71_wrong_index",
    "Hastur.C71_ascii_partial",
    "Hastur.C71_ascii_start_partial",
    "Hastur.C71_line_start",
    "Hastur.C71_comment_start"
   ],
   "note": "Refuted: the buffer is filled with whole characters, so the search aborts when as many bytes as the string has are not a whole number of characters, and for strings ending in a multi-byte character the index is wrong. Proved: exactly what happens for ASCII strings in any text, and that a makefile whose first line or first comment begins with a non-ASCII character always aborts."
  },
  {
   "property": "C72",
   "status": "proved",
   "theorems": [
    "Hastur.C72_expansion_never_aborts",
    "Hastur.C72_variables_never_abort",
    "Hastur.C72_substitution_total"
   ],
   "note": "Function calls are excluded: strip, word and words are not implemented and abort (C37_refuted), eval can run any makefile text."
  },
  {
   "property": "C73",
   "status": "partial",
   "theorems": [
    "Hastur.C73_refuted",
    "Hastur.C73_roundtrip_partial",
    "Hastur.C73_alphanum_partial",
    "Hastur.C73_exact",
    "Hastur.C73_unambiguous_partial"
   ],
   "note": "Refuted for variable names that begin with a function's name, and exactly for those trees (C73_exact). Proved for all other trees, with more general leaves; nothing is left over, and the text determines the tree."
  },
  {
   "property": "C74",
   "status": "partial",
   "theorems": [
    "Hastur.C74_names_exact",
    "Hastur.C74_names_unique",
    "Hastur.C74_names_partial",
    "Hastur.C74_written_names_read_back",
    "Hastur.C74_refuted"
   ],
   "note": "Refuted: half of the backslashes at the end of the list are dropped. Proved for lists that do not end in a backslash; `C74_names_exact` says what is read in all cases, and written names are always read back."
  },
  {
   "property": "C75",
   "status": "partial",
   "theorems": [
    "Hastur.C75_unsupported",
    "Hastur.C75_defaults",
    "Hastur.C75_strip_exact",
    "Hastur.C75_strip_partial",
    "Hastur.C75_refuted"
   ],
   "note": "Refuted: one `./` is stripped, so `././a` becomes `./a` and the name `./` becomes empty. `C75_strip_exact` says what is returned for every list."
  },
  {
   "property": "C76",
   "status": "partial",
   "theorems": [
    "Hastur.C76_written_rule_partial",
    "Hastur.C76_escapes_partial",
    "Hastur.C76_refuted",
    "Hastur.C76_escaped_semicolon_lost",
    "Hastur.C76_escaped_colon_at_end"
   ],
   "note": "Refuted: an escaped semicolon loses its backslash in the first scan of the line and then counts as a separator in the second, so `a : b\\;c d` is the rule `a: b` with a command, and `a\\;b: c` is dropped without an error. Proved for names without semicolons, and for all lines without references and escaped semicolons, with escaped blanks, other backslashes and a command. Such lines may occur in the whole makefiles of C41, C44 and C62."
  },
  {
   "property": "C77",
   "status": "proved",
   "theorems": [
    "Hastur.C77_tab_line",
    "Hastur.C77_tab_line_total",
    "Hastur.C77_other_lines",
    "Hastur.C77_prefix"
   ],
   "note": "Proved, wherever the makefile has comments (no comment character can follow where a recipe line is read: C69_points). C77_tab_line_total: a line that begins with a tab is added, or reported because it is not a well-formed expression. A rule line may carry one command itself, which is counted separately. The field is public: a program that uses the library could set it, which is not modelled."
  },
  {
   "property": "C78",
   "status": "partial",
   "theorems": [
    "Hastur.C78_text_partial",
    "Hastur.C78_reference_partial",
    "Hastur.C78_refuted"
   ],
   "note": "Refuted (C78_refuted): when the value is made of two lines, as after `define`, the engine aborts. Proved for arguments that are plain text and for references to variables whose value is stored in one piece (set with `=`, with `:=` from plain text, or by a definition of one line). Missing: values of several pieces, and texts that end inside a rule."
  },
  {
   "property": "C79",
   "status": "partial",
   "theorems": [
    "Hastur.C79_line",
    "Hastur.C79_rule_partial",
    "Hastur.C79_refuted"
   ],
   "note": "Refuted: after `: c` the command `x=1` is an assignment, because no rule is open. Proved for the line itself, with any text after the colon, and for commands of plain words. Such lines may occur in the whole makefiles of C41, C44 and C62."
  },
  {
   "property": "C80",
   "status": "partial",
   "theorems": [
    "Hastur.C80_never_reported",
    "Hastur.C80_end_unchecked",
    "Hastur.C80_refuted"
   ],
   "note": "Refuted: the end of a file is never checked. C80_never_reported: each such makefile is read to its end without complaint (where no endif would have to turn processing on again, C42, and lines that begin with the letters define or endef count as keyword lines, C50). C80_end_unchecked: any file whose lines can be read is accepted, whatever is open at its end. What an unfinished definition stores is said by Does.openDefine (C62_exact)."
  },
  {
   "property": "C81",
   "status": "partial",
   "theorems": [
    "Hastur.C81_reported_partial",
    "Hastur.C81_define",
    "Hastur.C81_definition",
    "Hastur.C81_rules",
    "Hastur.C81_assignments",
    "Hastur.C81_dropped",
    "Hastur.C81_refuted"
   ],
   "note": "Refuted: an assignment whose value has a function call with too many arguments is tried as a rule next, and 'x = a; $(words b,c)' is dropped without complaint (C81_dropped, for all such lines). Proved for references that are not closed, for include lines, for rule lines (C81_rules: targets, dependencies and command, also when the semicolon comes from the value of a target), for the lines of a definition and, with a blank in front of the operator, for assignments (C81_assignments): after ':=' and '::=' any malformed value is rejected, after the other operators if the malformed call stands in front of any semicolon and no word in front of it expands to nothing. Recipe lines are in C77, conditionals in C64. C81_define: the first line of a definition, with an operator behind a malformed name, is reported."
  },
  {
   "property": "C82",
   "status": "partial",
   "theorems": [
    "Hastur.C82_exact",
    "Hastur.C82_part",
    "Hastur.C82_named_partial",
    "Hastur.C82_refuted"
   ],
   "note": "Refuted: with n = xy the reference $($(n):c=d) looks up x. Proved exactly what is looked up and which key is used, for every text (C82_exact), and the claim for texts in which what follows the colon and the equals sign is in the piece in which the part begins or begins a piece (C82_named_partial)."
  },
  {
   "property": "C83",
   "status": "partial",
   "theorems": [
    "Hastur.C83_ignored",
    "Hastur.C83_never_reported",
    "Hastur.C83_refuted"
   ],
   "note": "Refuted: such lines are ignored, whatever the command (C83_ignored), and neither error is ever reported, by any line in any state (C83_never_reported): the end of a line is never recognised as such by `next_mword`."
  },
  {
   "property": "C84",
   "status": "proved",
   "theorems": [
    "Hastur.C84_internal",
    "Hastur.C84_kinds",
    "Hastur.C84_final",
    "Hastur.C84_reached",
    "Hastur.C84_unnamed"
   ],
   "note": "C84_internal, C84_kinds and C84_final (the error is a failure) hold for arbitrary places in arbitrary blocks; C84_reached gives for each kind a text that is rejected with it. As found, the kinds CommentExpected, NoRuleRecipe, MissingSeparator, ConditionalExpected, MalformedIfDef and MalformedIfEq are never the first kind of an error. The model keeps only the first kind of an error, which is the one that into_error_kind returns. C84_unnamed: some rejections have no kind at all, for example that of 'else foo'."
  },
  {
   "property": "C85",
   "status": "proved",
   "theorems": [
    "Hastur.C85_places",
    "Hastur.C85_physical_lines",
    "Hastur.C85_define_lines",
    "Hastur.C85_define_comment",
    "Hastur.C85_logical_lines"
   ],
   "note": "C85_physical_lines, C85_define_lines, C85_logical_lines; C85_define_comment shows that the restriction on lines of definitions is needed, C85_places that every place of a file is covered. The claim is about the parsers that do not evaluate anything. Carrying out a line can abort (unimplemented!() and the cases of C54 and C78), and so can parsing in blocks whose references are themselves made of several pieces (C78) or in texts that are not ASCII."
  },
  {
   "property": "C86",
   "status": "partial",
   "theorems": [
    "Hastur.C86_variables",
    "Hastur.C86_names",
    "Hastur.C86_untouched",
    "Hastur.C86_rules",
    "Hastur.C86_dependencies_partial",
    "Hastur.C86_refuted"
   ],
   "note": "C86_variables, C86_names, C86_untouched, C86_rules are proved in full. Dependencies: C86_refuted (a: b, and later a: e with a command: a no longer depends on b); proved for targets that have no commands in the later state (C86_dependencies_partial). What a single rule does to the stored one is C07."
  },
  {
   "property": "C87",
   "status": "proved",
   "theorems": [
    "Hastur.C87_cycle",
    "Hastur.C87_first_lines",
    "Hastur.C87_self"
   ],
   "note": "C87_cycle is the general statement (lines before the include line, which may follow a rule, and files named before the next one), C87_first_lines and C87_self are for files that begin with an include line, from every well-formed state. The depth bound of the model stands for the stack of the program."
  }
 ]
}
