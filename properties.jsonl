{"id": "C01", "title": "Interned names are faithful", "statement": "For every history of interning calls on a NameCache: interning a string returns a handle that resolves back to exactly that string, interning the same string again returns the same handle, and two different strings never share a handle.", "quantifier": "every sequence of intern_file_name / intern_variable_name calls and every pair of strings", "why_tests_cant": "Injectivity has to hold over all strings and all earlier interning histories; a test only samples a few.", "anchors": ["src/lib.rs:NameCache", "src/lib.rs:NameCache::intern_variable_name", "src/lib.rs:NameCache::intern_file_name", "src/lib.rs:NameCache::variable_name", "src/lib.rs:NameCache::file_name"]}
{"id": "C02", "title": "Handles stay valid forever", "statement": "A handle obtained from a NameCache keeps resolving to the same string after any later sequence of interning calls, lookups never intern anything, and file names and variable names live in independent namespaces.", "quantifier": "every handle and every later history of calls", "why_tests_cant": "Stability is a property of all future histories.", "anchors": ["src/lib.rs:NameCache"]}
{"id": "C03", "title": "The variable table is a persistent last-write-wins map", "statement": "After set_variable(name, v), get_variable(name) returns v and get_variable of every other name, every target-specific variable and every rule is what it was before; the database the call was made on is not changed.", "quantifier": "every database, every pair of names, every value, every sequence of writes", "why_tests_cant": "Frame conditions quantify over all other keys and all histories.", "anchors": ["src/lib.rs:Database::set_variable", "src/lib.rs:Database::get_variable"]}
{"id": "C04", "title": "Appending extends the expansion and nothing else", "statement": "append_to_variable on a defined variable makes its expansion equal to the old expansion, one space when asked for, then the expansion of the appended value, and keeps flavor and origin; on an undefined variable it defines it with exactly the given value; all other variables are untouched.", "quantifier": "every database, variable, appended value, and add-space flag", "why_tests_cant": "The expansion equation must hold for every pair of values, including values that reference other variables.", "anchors": ["src/lib.rs:Database::append_to_variable", "src/ast/mod.rs:collapsing_concat"]}
{"id": "C05", "title": "Target-specific variables do not leak", "statement": "set_variable_for_target(t, n, v) changes the lookup for exactly the pair (t, n): other targets, other names and the global variable of the same name are unaffected.", "quantifier": "every database, target, name and value", "why_tests_cant": "A frame condition over all other (target, name) pairs.", "anchors": ["src/lib.rs:Database::set_variable_for_target", "src/lib.rs:Database::get_variable_for_target"]}
{"id": "C06", "title": "Stored rules are filed under their own target and their dependency set matches their dependency list", "statement": "After any sequence of rule insertions, the rule returned by get_rule(t) names t as its target, and the set of interned dependency names is exactly the set of names of the dependencies in its list.", "quantifier": "every sequence of parsed rules inserted into a database", "why_tests_cant": "An invariant of all insertion histories.", "anchors": ["src/lib.rs:Database::from_protorule", "src/lib.rs:Database::add_rule", "src/lib.rs:Database::get_rule"]}
{"id": "C07", "title": "Rule merging", "statement": "A rule without commands adds its dependencies, in order, after those of the rule already stored for each of its targets and leaves recipe and kind alone; a rule with commands replaces the stored rule; rules for other targets are untouched.", "quantifier": "every database and every parsed rule (any number of targets, dependencies, commands)", "why_tests_cant": "Quantifies over all histories and target lists, including repeated targets.", "anchors": ["src/lib.rs:Database::from_protorule"]}
{"id": "C08", "title": "Source locations form a lawful partial order", "statement": "Comparison of locations is irreflexive-antisymmetric-transitive and says Equal exactly when the locations are equal; in one file it is the total lexicographic order on (line, column); locations in different files and synthetic locations are incomparable.", "quantifier": "every pair and triple of locations", "why_tests_cant": "Order laws quantify over all triples.", "anchors": ["src/source_location.rs:Location::partial_cmp"]}
{"id": "C09", "title": "Slicing located text keeps locations exact", "statement": "Slicing a located string at byte b for n bytes returns exactly those bytes, located at the original line plus the number of newlines skipped and at the column counted from the last skipped newline; it panics exactly when b is not inside the text, b+n runs past its end, or an end falls inside a multi-byte character.", "quantifier": "every located string, start and length", "why_tests_cant": "Line/column arithmetic must be right for all texts and offsets.", "anchors": ["src/source_location.rs:Located<String>::slice", "src/source_location.rs:Location::advance_line", "src/source_location.rs:Location::advance_character"]}
{"id": "C10", "title": "Building and simplifying a block never changes its text", "statement": "Block::new and Block::simplify keep the text, the length and the source location of every character, for every tree of content references over ASCII text, and they do not panic on well-formed trees.", "quantifier": "every well-formed tree of content references, of any depth", "why_tests_cant": "Trees are unbounded and offsets arbitrary.", "anchors": ["src/evaluated/mod.rs:Block::simplify", "src/evaluated/content_reference.rs:ContentReference::simplify"]}
{"id": "C11", "title": "Slicing a span is substring", "statement": "Slicing a span (from, to, or range; any nesting of slices) yields the span whose characters, with their source locations, are exactly the corresponding characters of the original, and never panics in bounds (ASCII text).", "quantifier": "every well-formed span and all in-range bounds", "why_tests_cant": "Spans can start inside any of arbitrarily many content references.", "anchors": ["src/evaluated/content_reference.rs:26-36", "src/evaluated/nom/mod.rs:Slice", "src/evaluated/block_span.rs:BlockSpan::revalidate_offset"]}
{"id": "C12", "title": "Copying and concatenating spans", "statement": "to_new_block copies exactly the characters of the span with their locations, and pushing a span onto a block appends exactly its characters; the sensitivity of the result is that of the source block (copy) or the union of both (push).", "quantifier": "every well-formed span and block", "why_tests_cant": "Holds for every way a span can straddle content references.", "anchors": ["src/evaluated/block_span.rs:BlockSpan::to_new_block", "src/evaluated/mod.rs:Block::push_all_contents", "src/evaluated/mod.rs:Block::push"]}
{"id": "C13", "title": "Length, string conversion and character iteration agree", "statement": "For well-formed ASCII blocks, into_string, iterating characters and iterating (index, character) pairs describe the same text; the indices are byte offsets and len is the length of the text.", "quantifier": "every well-formed block and span", "why_tests_cant": "Trees are unbounded.", "anchors": ["src/evaluated/block_span.rs:Iter", "src/evaluated/block_span.rs:IndexIter", "src/evaluated/mod.rs:Block::into_string", "src/evaluated/mod.rs:Block::len"]}
{"id": "C14", "title": "Substring search finds the first occurrence", "statement": "Searching a span for a non-empty ASCII string returns the byte index of its first occurrence, and nothing exactly when it does not occur.", "quantifier": "every well-formed ASCII span and every ASCII needle", "why_tests_cant": "The rolling ring-buffer must be right for every alignment and needle length.", "anchors": ["src/evaluated/nom/mod.rs:FindSubstring"]}
{"id": "C15", "title": "Prefix matching", "statement": "Comparing a span with a string succeeds exactly when the string is a prefix of the span's text; the case-insensitive comparison does so up to ASCII case.", "quantifier": "every well-formed ASCII span and every ASCII string", "why_tests_cant": "Quantifies over all texts and needles.", "anchors": ["src/evaluated/nom/mod.rs:Compare"]}
{"id": "C16", "title": "Splitting loses nothing", "statement": "Splitting a span at a position or at the first character that satisfies a predicate yields two spans whose texts concatenate to the original, and the first part has no such character.", "quantifier": "every well-formed span and every predicate", "why_tests_cant": "Quantifies over predicates.", "anchors": ["src/evaluated/nom/mod.rs:InputTakeAtPosition", "src/evaluated/nom/mod.rs:InputTake"]}
{"id": "C17", "title": "Segments tile the text", "statement": "Iterating the segments of a span yields located strings whose concatenation is the text of the span and whose locations are the locations of the characters.", "quantifier": "every well-formed span", "why_tests_cant": "Must hold for every offset; only special offsets go wrong.", "anchors": ["src/evaluated/block_span.rs:SegmentsIter", "src/evaluated/content_reference.rs:SegmentsIter", "src/evaluated/block_span.rs:BlockSpan::location"]}
{"id": "C18", "title": "Distance between a span and its tail", "statement": "The offset computed between a span and a tail of it is the number of bytes skipped, so 'recognise' returns exactly the consumed text.", "quantifier": "every well-formed span and every tail of it", "why_tests_cant": "Depends on where content references begin and end.", "anchors": ["src/evaluated/nom/mod.rs:Offset", "src/ast/mod.rs:AstNode::eval_internal"]}
{"id": "C19", "title": "Non-ASCII text is handled like any other text", "statement": "Slicing a span at a character boundary yields the characters after that boundary also when the text contains multi-byte characters; in particular a non-ASCII character in one line of a makefile does not change how later lines are read.", "quantifier": "every UTF-8 text", "why_tests_cant": "Quantifies over all Unicode texts; the suite only uses ASCII.", "anchors": ["src/evaluated/content_reference.rs:ContentReference::chars", "src/evaluated/block_span.rs:Iter"]}
{"id": "C20", "title": "Trailing backslashes are counted exactly", "statement": "A line is continued exactly when it ends in an odd number of backslashes.", "quantifier": "every line", "why_tests_cant": "Quantifies over all lines.", "anchors": ["src/parsers/mod.rs:ends_with_backslash"]}
{"id": "C21", "title": "Physical lines end at the line feed", "statement": "Reading one physical line takes the text up to the next line feed (or the end of the input) and leaves exactly what follows it; a carriage return before the line feed belongs to the line ending; a comment character on a later line has no influence.", "quantifier": "every input text", "why_tests_cant": "The context (later lines) is unbounded.", "anchors": ["src/parsers/mod.rs:makefile_grab_line"]}
{"id": "C22", "title": "A comment ends with its line", "statement": "A comment extends to the end of its (continued) line and never swallows the lines after it.", "quantifier": "every input text beginning with a comment", "why_tests_cant": "The remaining input is unbounded.", "anchors": ["src/parsers/comment.rs:parse_comment"]}
{"id": "C23", "title": "Continuation lines are joined by one space", "statement": "A logical line made of k physical lines that each end in a single backslash is the physical lines with the backslash and surrounding blanks removed, joined by single spaces; the next logical line starts after the last of them.", "quantifier": "every number of physical lines and every content", "why_tests_cant": "Unbounded number of lines.", "anchors": ["src/parsers/mod.rs:makefile_line"]}
{"id": "C24", "title": "Backslash unquoting", "statement": "Cutting a text at the first unescaped stop character removes exactly the quoting backslashes in front of stop characters (2n+1 backslashes leave n and hide the stop character, 2n leave n and stop), keeps every other character, and returns what follows the stop character unchanged.", "quantifier": "every text and every set of stop characters not containing the backslash", "why_tests_cant": "All run lengths and positions of backslashes.", "anchors": ["src/parsers/mod.rs:makefile_take_until_unquote"]}
{"id": "C25", "title": "File lists are split at blanks", "statement": "A file sequence yields exactly the maximal runs of non-blank characters of the text, in order.", "quantifier": "every text without backslashes", "why_tests_cant": "Unbounded texts.", "anchors": ["src/parsers/file_sequence.rs:parse_file_seq"]}
{"id": "C26", "title": "Dollar-free text means itself", "statement": "Parsing a text without '$' always succeeds, and evaluating the result yields the same text, depends on no variable and changes neither database nor names.", "quantifier": "every dollar-free ASCII text, in every engine state", "why_tests_cant": "Quantifies over texts and states.", "anchors": ["src/parsers/ast/mod.rs:parse_ast", "src/ast/mod.rs:AstNode::eval"]}
{"id": "C27", "title": "Escaped dollars", "statement": "'$$' stands for one '$' and a '$' at the end of the text stands for itself; the rest of the text is unaffected.", "quantifier": "every text around the escape", "why_tests_cant": "Quantifies over surrounding texts.", "anchors": ["src/parsers/ast/mod.rs:parse_var_ref"]}
{"id": "C28", "title": "Both reference syntaxes mean the same", "statement": "'$(name)' and '${name}' refer to the variable called name, '$c' refers to the variable named by the single character c, and text around the reference is kept.", "quantifier": "every plain variable name and every surrounding text", "why_tests_cant": "Quantifies over names and contexts.", "anchors": ["src/parsers/ast/mod.rs:parse_var_ref", "src/parsers/ast/mod.rs:advanced_var"]}
{"id": "C29", "title": "Unbalanced references are rejected", "statement": "A '$(' that is never closed makes parsing fail with the unterminated-variable error; it is never read as something else.", "quantifier": "every text whose reference is unbalanced", "why_tests_cant": "All ways of being unbalanced.", "anchors": ["src/parsers/ast/mod.rs:advanced_var", "src/lib.rs:ParseErrorKind::UnternimatedVariable"]}
{"id": "C30", "title": "Text after a function call is kept", "statement": "The text that follows '$(eval ...)', '$(strip ...)', '$(word ...)' or '$(words ...)' is part of the parsed expression, and a variable whose name merely begins with a function name is a variable reference.", "quantifier": "every argument and every following text; every variable name", "why_tests_cant": "Quantifies over contexts and names.", "anchors": ["src/parsers/ast/mod.rs:function_call", "src/parsers/ast/mod.rs:advanced_var"]}
{"id": "C31", "title": "Parsing inverts printing", "statement": "Printing an expression built from text and (nested) variable references in make syntax and parsing it back gives the same expression.", "quantifier": "every expression of that form, of any depth and width", "why_tests_cant": "The property test samples small trees only.", "anchors": ["src/parsers/ast/mod.rs:parse_ast", "src/ast/proptest.rs:arb_flat_ast"]}
{"id": "C32", "title": "Expansion follows the reference semantics", "statement": "The text of an evaluated expression without substitution references is given by: text stands for itself, concatenation concatenates, a reference is replaced by the expansion of the variable's value (nothing if undefined).", "quantifier": "every expression and every database on which evaluation terminates", "why_tests_cant": "Quantifies over all expressions, databases and reference graphs.", "anchors": ["src/ast/mod.rs:AstNode::eval_internal"]}
{"id": "C33", "title": "Evaluation without $(eval) has no effects", "statement": "Evaluating an expression does not change any variable or rule unless it (or a variable it expands) contains $(eval ...); interned names are only ever added.", "quantifier": "every expression, database and name cache", "why_tests_cant": "Quantifies over all reachable expressions.", "anchors": ["src/ast/mod.rs:AstNode::eval_internal"]}
{"id": "C34", "title": "Sensitivity is sound", "statement": "If two databases agree on every variable in the sensitivity reported for an evaluated expression, evaluating the expression in either gives the same text: nothing outside the reported set can influence the result.", "quantifier": "every expression and every pair of databases that agree on the reported set", "why_tests_cant": "Noninterference quantifies over pairs of databases.", "anchors": ["src/ast/mod.rs:AstNode::eval_internal", "src/evaluated/mod.rs:Block::sensitivity"]}
{"id": "C35", "title": "Sensitivity contains every variable that is looked up", "statement": "Every variable whose value (or absence) was consulted while evaluating is in the reported sensitivity, including those consulted while evaluating names and nested values; nothing else is in it.", "quantifier": "every expression and database", "why_tests_cant": "Quantifies over expression shapes and reference graphs.", "anchors": ["src/ast/mod.rs:AstNode::eval_internal"]}
{"id": "C36", "title": "Simple variables are frozen, recursive ones are live", "statement": "The expansion of a variable assigned with ':=' is not affected by later changes of the variables its value mentioned; the expansion of one assigned with '=' uses the values at expansion time.", "quantifier": "every value and every later change of other variables", "why_tests_cant": "Quantifies over all later histories.", "anchors": ["src/parsers/variable/mod.rs:parse_variable_assignment", "src/parsers/variable/mod.rs:handle_global_variable_action"]}
{"id": "C37", "title": "Self-reference never yields a value, acyclic references always do", "statement": "Expanding a variable whose value mentions itself never returns, whatever resources are available, while expansion always returns when the reference graph has no cycle.", "quantifier": "every stack budget; every acyclic database", "why_tests_cant": "Non-termination and termination cannot be established by running.", "anchors": ["src/ast/mod.rs:AstNode::eval_internal"]}
{"id": "C38", "title": "Substitution references", "statement": "$(name:key=replacement) rewrites exactly the words of the value that match the key pattern (the stem between prefix and suffix of the pattern is kept), and leaves the other words alone; words are joined by single spaces.", "quantifier": "every value, key and replacement", "why_tests_cant": "Quantifies over all values and patterns.", "anchors": ["src/ast/text_functions.rs:do_subref", "src/ast/text_functions.rs:do_replacement"]}
{"id": "C39", "title": "'?=' only defines undefined variables", "statement": "'name ?= value' leaves an already defined variable alone and defines an undefined one.", "quantifier": "every engine state, name and value", "why_tests_cant": "Quantifies over states.", "anchors": ["src/parsers/variable/mod.rs:handle_global_variable_action", "src/parsers/variable/mod.rs:parse_variable_assignment"]}
{"id": "C40", "title": "Every line makes progress", "statement": "Each parsed line consumes at least one character, so reading a makefile terminates whenever the evaluations it triggers do, and evaluation order is the line order.", "quantifier": "every parser state and every non-empty ASCII input", "why_tests_cant": "Quantifies over all parser states and inputs.", "anchors": ["src/parsers/mod.rs:ParserState::parse_line", "src/lib.rs:Engine::process_block"]}
{"id": "C41", "title": "Conditionals select lines", "statement": "The innermost open conditionals decide which lines are processed: a line takes effect exactly when every open conditional is in its taken branch; 'else' flips the innermost one once, a second 'else', or an 'else'/'endif' without an open conditional, is an error.", "quantifier": "every nesting depth and every sequence of conditional lines", "why_tests_cant": "Unbounded nesting and sequences.", "anchors": ["src/parsers/conditional/mod.rs:handle_conditional", "src/parsers/mod.rs:ParserState::update_ignoring"]}
{"id": "C42", "title": "'endif' re-enables processing", "statement": "After the endif that closes the outermost conditional, lines are processed again, whether or not the branch was taken.", "quantifier": "every parser state and every following input", "why_tests_cant": "Quantifies over parser states.", "anchors": ["src/parsers/conditional/mod.rs:handle_conditional"]}
{"id": "C43", "title": "Lines in a branch not taken have no effect", "statement": "While a conditional is in its branch not taken, assignment, rule, recipe and directive lines change neither the database nor the rule being collected.", "quantifier": "every parser state that is ignoring and every line that is not a conditional", "why_tests_cant": "Quantifies over all lines.", "anchors": ["src/parsers/mod.rs:ParserState::parse_line"]}
{"id": "C44", "title": "Every rule of a makefile ends up in the database", "statement": "After processing a makefile, each rule it contains, including the last one, can be retrieved with get_rule.", "quantifier": "every makefile", "why_tests_cant": "Quantifies over makefiles.", "anchors": ["src/lib.rs:Engine::process_block", "src/parsers/mod.rs:ParserState::close_rule"]}
{"id": "C45", "title": "Malformed makefiles are reported as errors", "statement": "Processing a malformed makefile returns an error value; it does not abort the process.", "quantifier": "every makefile", "why_tests_cant": "Quantifies over all inputs.", "anchors": ["src/lib.rs:Engine::process_block", "src/lib.rs:Engine::read_makefile"]}
{"id": "C46", "title": "Files of assignments", "statement": "Reading a file that consists of any number of 'name = value' and 'name := value' lines leaves each variable with the value of its last assignment, and changes no variable that is not assigned.", "quantifier": "every sequence of well-formed assignment lines of any length and content, in every engine state", "why_tests_cant": "Unbounded number of lines and arbitrary contents.", "anchors": ["src/lib.rs:Engine::read_makefile", "src/parsers/mod.rs:ParserState::parse_line", "src/parsers/variable/mod.rs:parse_line"]}
{"id": "C47", "title": "Rule lines are read faithfully", "statement": "A line 'targets : dependencies' (or '::') without variables starts a rule with exactly the listed targets and dependencies; the recipe lines that follow are collected in order.", "quantifier": "every list of target and dependency words", "why_tests_cant": "Unbounded lists and contents.", "anchors": ["src/parsers/targets/mod.rs:parse_line", "src/parsers/targets/mod.rs:handle_target_action", "src/parsers/recipe_line.rs:recipe_line"]}
{"id": "C48", "title": "A byte order mark is skipped", "statement": "A makefile that begins with a byte order mark is processed like the same makefile without it.", "quantifier": "every makefile", "why_tests_cant": "Quantifies over makefiles.", "anchors": ["src/lib.rs:Engine::process_block"]}
{"id": "C49", "title": "Includes", "statement": "'include' reads the listed files left to right as makefiles in the same database; a missing file is an error for include and is skipped for -include/sinclude; conditionals opened in an included file do not affect the including one.", "quantifier": "every file list and every file system content", "why_tests_cant": "Quantifies over file systems and lists.", "anchors": ["src/parsers/directives/mod.rs:handle_include"]}
{"id": "C50", "title": "define keeps its body", "statement": "A define ... endef block assigns the text of the lines in between (each with its line feed) to the variable; nested define/endef pairs belong to the body.", "quantifier": "every sequence of body lines and every nesting depth", "why_tests_cant": "Unbounded bodies and nesting.", "anchors": ["src/parsers/variable/mod.rs:handle_define_line", "src/parsers/variable/mod.rs:parse_define_line"]}
{"id": "C51", "title": "$(eval) processes its text as a makefile and expands to nothing", "statement": "Evaluating $(eval text) contributes no text, reports the sensitivity of its argument, and has exactly the effect of processing the expanded argument as a makefile.", "quantifier": "every argument and engine state", "why_tests_cant": "Quantifies over arguments and states.", "anchors": ["src/ast/mod.rs:AstNode::eval_internal"]}
{"id": "C52", "title": "Visitors see everything once", "statement": "The default visitor visits every node of an expression exactly once, parents before children and children left to right; a mutating visitor that only overrides the constant hook changes exactly the constants.", "quantifier": "every expression", "why_tests_cant": "Expressions are unbounded.", "anchors": ["src/ast/visit.rs:Visitor", "src/ast/visit.rs:MutVisitor"]}
{"id": "C53", "title": "Keywords are whole words", "statement": "A variable or target whose name merely begins with a keyword (else, endif, ifdef, define, include, export, load, ...) is treated like any other name.", "quantifier": "every name with a keyword as a proper prefix", "why_tests_cant": "Quantifies over names.", "anchors": ["src/parsers/conditional/mod.rs:parse_line_internal", "src/parsers/directives/mod.rs:parse_line", "src/parsers/variable/mod.rs:parse_line"]}
{"id": "C54", "title": "Empty simple assignment", "statement": "'name :=' with nothing after it sets the variable to the empty text.", "quantifier": "every name and engine state", "why_tests_cant": "Quantifies over names and states.", "anchors": ["src/parsers/variable/mod.rs:parse_variable_assignment"]}
{"id": "C55", "title": "Lines that are neither assignment, directive nor rule are rejected", "statement": "A line of plain words without separator is reported with the missing-separator error, and a recipe line outside a rule is an error.", "quantifier": "every such line", "why_tests_cant": "Quantifies over lines.", "anchors": ["src/parsers/targets/mod.rs:parse_line", "src/parsers/targets/mod.rs:next_mword", "src/lib.rs:ParseErrorKind::MissingSeparator"]}
{"id": "C56", "title": "'+=' on a simple variable expands the new text at once", "statement": "Appending to a variable that was assigned with ':=' expands the appended text immediately, so later changes of the variables it mentions do not show.", "quantifier": "every engine state and appended text", "why_tests_cant": "Quantifies over later histories.", "anchors": ["src/lib.rs:Database::append_to_variable", "src/parsers/variable/mod.rs:handle_global_variable_action"]}
{"id": "C57", "title": "Stored text comes from the makefiles", "statement": "Every character that is stored in the database (values of variables, names, targets, dependencies, recipes), and every character a variable expands to, stands at its recorded line and column in the makefile its location names, or is one of the separators (space, line feed, semicolon) that are inserted; every reference is located at its dollar sign.", "quantifier": "every file system, every sequence of makefiles read and variables expanded, every depth of includes and evals", "why_tests_cant": "Quantifies over unbounded histories of the engine and over all characters stored.", "anchors": ["src/lib.rs:Engine::read_makefile", "src/parsers/ast/mod.rs:parse_ast", "src/ast/mod.rs:AstNode::eval", "src/source_location.rs:LocatedString::slice", "src/evaluated/block_span.rs:BlockSpan::location"]}
{"id": "C58", "title": "No dangling handles", "statement": "In every state the engine reaches, no name has been interned twice and every handle in the database resolves to a name: handles of variables and files, those reported as sensitivity, and those in source locations.", "quantifier": "every file system, every sequence of makefiles read and variables expanded", "why_tests_cant": "Quantifies over unbounded histories of the engine.", "anchors": ["src/lib.rs:Engine", "src/lib.rs:NameCache", "src/lib.rs:Database", "src/evaluated/mod.rs:Block"]}
{"id": "C59", "title": "Reached states are well-formed", "statement": "In every state the engine reaches, every content reference lies inside its node; when the makefiles are ASCII, every reached state is well-formed in the sense the other theorems ask for.", "quantifier": "every file system, every sequence of makefiles read and variables expanded", "why_tests_cant": "Quantifies over unbounded histories of the engine.", "anchors": ["src/evaluated/content_reference.rs:ContentReference", "src/evaluated/mod.rs:Block::push", "src/lib.rs:Database"]}
{"id": "C60", "title": "Every loop of the parsers ends", "statement": "Whatever the text, parsing an expression, a line or a whole makefile never loops: each line leaves strictly less text, and if the nesting of evaluations, $(eval) and include is limited, reading a makefile always returns, with the result of the unlimited program or with the abort at the limit.", "quantifier": "every text (any characters, any pieces), every parser state, every file system, every nesting limit", "why_tests_cant": "A loop that makes no progress shows only on the texts that trigger it; no finite set of texts excludes it.", "anchors": ["src/parsers/mod.rs:makefile_line", "src/parsers/comment.rs:parse_comment", "src/parsers/file_sequence.rs:parse_file_seq", "src/parsers/targets/mod.rs:parse_line", "src/parsers/ast/mod.rs:parse_ast", "src/ast/text_functions.rs:do_replacement", "src/lib.rs:Engine::process_block"]}
{"id": "C61", "title": "Constructs that are not implemented are never silently accepted", "statement": "A makefile in which a construct is reached that the program does not implement is never read successfully: 'ifdef', 'ifndef', 'else' with another conditional; 'override', 'export', 'private' and 'undefine' on variables; 'export', 'unexport', 'vpath', 'load'; target-specific variables; static pattern rules. An expression that calls one of make's functions other than eval never gets a value, be it directly or through variables.", "quantifier": "every such line or expression, every parser state and database, every budget, any number of lines before it", "why_tests_cant": "Quantifies over lines with arbitrary names and expressions, and over all states in which they may be met.", "anchors": ["src/parsers/conditional/mod.rs:handle_conditional", "src/parsers/variable/mod.rs:Action", "src/parsers/variable/mod.rs:parse_line", "src/parsers/directives/mod.rs:handle_directive_action", "src/parsers/targets/mod.rs:handle_target_action", "src/parsers/targets/mod.rs:parse_line", "src/ast/mod.rs:AstNode::eval"]}
{"id": "C64", "title": "Malformed conditional lines are never accepted", "statement": "A line that begins with the keyword 'ifeq', 'ifneq', 'else' or 'endif' and is not well-formed (text after 'else' or 'endif', a test without two arguments, an argument that is no well-formed expression) is never accepted: it is neither ignored nor taken for a line of another kind.", "quantifier": "every such line, every parser state and database, taken or untaken branches, every budget", "why_tests_cant": "Quantifies over all malformed lines and over all states in which they may be met.", "anchors": ["src/parsers/conditional/mod.rs:parse_line", "src/parsers/conditional/mod.rs:parse_ifeq", "src/parsers/mod.rs:parse_line"]}
{"id": "C65", "title": "The colon of a drive specification does not end the targets", "statement": "The colon that ends the targets is the first one that belongs to no drive specification. A colon belongs to a drive specification when a letter stands before it, which is at the beginning or follows whitespace or an opening parenthesis, and a slash or backslash follows. Without such a colon the text is not cut. So a rule for a file such as c:/d is read as a rule for that file.", "quantifier": "every text with any number of colons, slashes and blanks", "why_tests_cant": "Depends on the characters around every colon of a text of any length.", "anchors": ["src/parsers/targets/mod.rs:find_non_drivespec_colon", "src/parsers/targets/mod.rs:parse_line"]}
{"id": "C62", "title": "Projects: makefiles that include others", "statement": "After reading a makefile, its variables and rules and those of all files it includes, directly or through other files, are what the lines say one after the other: each file starts with the variables and rules defined so far and outside all conditionals and rules, the file names of an include line are expanded with the variables of that moment, missing files are skipped by -include and sinclude, and every rule is complete at the end of its file.", "quantifier": "every file system, every tree of includes, every makefile of assignments, definitions, conditionals, rules, recipes and include lines, every initial state", "why_tests_cant": "Quantifies over trees of files of any depth and over all states.", "anchors": ["src/parsers/directives/mod.rs:handle_include", "src/lib.rs:Engine::read_makefile", "src/lib.rs:Engine::process_block", "src/parsers/mod.rs:parse_line"]}
{"id": "C66", "title": "A variable can hold a whole rule", "statement": "When a line is a single reference such as $(y), and the reference expands to `targets : dependencies` or `targets :: dependencies`, possibly followed by a semicolon and a command, then the line opens exactly this rule: the targets are the words before the colon, the dependencies are the words of the text between the colon and the semicolon after it has been expanded once more, and the text after the semicolon is the first line of the recipe. Nothing else changes, and the line is consumed.", "quantifier": "For all lines that are one reference in parentheses (the name may itself contain references), for all states of the engine and all values of the variables that expand to such a rule.", "why_tests_cant": "Tests could only show a few values; where the colon and the semicolon are found depends on how the value is cut into pieces, and the number of values is unbounded.", "anchors": ["src/parsers/targets/mod.rs:167-253", "src/parsers/targets/mod.rs:270-411", "src/evaluated/mod.rs"]}
{"id": "C67", "title": "Positions, takes and non-empty splits of spans agree with their text", "statement": "The position of a predicate in a span is the number of characters before the first one that satisfies it, and nothing exactly when none does; a split at the predicate cuts exactly there. Taking n characters gives the first n located characters, and asserts that there are that many. A split whose first part must not be empty fails exactly when the text is empty or its first character satisfies the predicate, and otherwise agrees with the ordinary split. The indices of the characters of a reference are their byte offsets.", "quantifier": "For all well-formed spans and references (however nested their parents are), all predicates and all counts.", "why_tests_cant": "The tests of the repository exercise these accessors on two or three flat blocks; the parents can be nested without bound and the predicate is an arbitrary function.", "anchors": ["src/evaluated/nom/mod.rs:30-36", "src/evaluated/nom/mod.rs:105-126", "src/evaluated/nom/mod.rs:130-134", "src/evaluated/content_reference.rs:78-85"]}
{"id": "C68", "title": "Lifting and extending errors keeps what they report", "statement": "An error that is lifted to the line it came from keeps its severity and all its kinds in order, and every position becomes the line. Adding a report puts it last and keeps the severity, except that an incomplete error becomes a failure. Turning an error into a failure keeps its reports; it panics exactly on incomplete errors. Lifting twice is lifting to the outer line, and adding and lifting commute.", "quantifier": "For all errors (however many reports), positions and kinds.", "why_tests_cant": "There is no test of these functions; the number of reports in an error is unbounded.", "anchors": ["src/parsers/error_utils.rs:4-30", "src/parsers/error_utils.rs:43-70"]}
{"id": "C69", "title": "Comment lines have no effect", "statement": "A makefile means what it means without its comment lines: the variables and rules after reading it are those of the text that remains, with the locations this text has in the file. A comment line begins with a comment character, possibly after blanks, and is continued by a backslash at its end.", "quantifier": "For all makefiles of assignments, definitions, conditionals, rules and recipes, of any length, with any number of comment lines, in every engine state.", "why_tests_cant": "The number and position of comment lines is unbounded; how far a line reaches depends on all the text that follows it.", "anchors": ["src/parsers/comment.rs:7-43", "src/parsers/mod.rs:116-254", "src/parsers/mod.rs:300-340"]}
{"id": "C63", "title": "Rule lines may be continued", "statement": "A rule line may be broken with backslashes into any number of physical lines: wherever it is broken, it starts a rule with the targets and dependencies of the joined line.", "quantifier": "For all lines of plain words, one or two colons and plain words (not beginning with a keyword of another kind of line), all ways to break them, all texts that follow, and all states of the parser outside a rule.", "why_tests_cant": "Lines, breaks and words are unbounded in number; whether reading works depends on where the breaks are relative to the words, which a handful of examples does not show.", "anchors": ["src/parsers/mod.rs:makefile_line", "src/parsers/targets/mod.rs:parse_line", "src/evaluated/block_span.rs:segments"]}
{"id": "C70", "title": "Where text stands does not change what it means", "statement": "Reading the same text under another file name gives the same result, the same variables and the same rules, with the same lines and columns in them, although files and targets share one table of handles; and text at other locations means the same up to locations. All later expansions give the same text.", "quantifier": "For all file systems, texts, names and known states; for all sequences of reading and expanding; also for runs that panic or do not finish.", "why_tests_cant": "Relates two runs of the whole engine on unboundedly many texts, names and states; a name may coincide with a target or a dependency, which changes the handles of all rules.", "anchors": ["src/lib.rs:524-593", "src/source_location.rs:1-120", "src/lib.rs:243-313", "src/ast/mod.rs:44-191"]}
{"id": "C71", "title": "Substring search works on all text", "statement": "Searching a span for a non-empty string gives the byte index of its first occurrence, or nothing when there is none, and never aborts, also when the text is not ASCII.", "quantifier": "For all spans, all texts and all non-empty strings.", "why_tests_cant": "Needs every alignment of multi-byte characters with the search buffer; the repository has no direct test of the search.", "anchors": ["src/evaluated/nom/mod.rs:190-248", "src/parsers/mod.rs:309-337", "src/parsers/comment.rs:7-43"]}
{"id": "C72", "title": "Expansion does not abort", "statement": "Expanding an expression made of text, references and substitution references does not abort the process, when no value of a variable contains a function call: with a given recursion budget it either returns a value or runs out of budget.", "quantifier": "For all well-formed (ASCII) expressions and states, all reachable states, all budgets.", "why_tests_cant": "Substitution slices names, keys, replacements and words at positions that depend on how the text is split into pieces; tests exercise a handful of splits.", "anchors": ["src/ast/mod.rs:54-191", "src/ast/text_functions.rs:9-117", "src/evaluated/block_span.rs:60-200"]}
{"id": "C73", "title": "The round-trip property test", "statement": "The text that the repository's property test prints for a tree of texts, references and calls of eval, strip, word and words is read back as that tree, with the location of every node.", "quantifier": "For all trees (of any depth and size; the test picks depth at most 3 and at most 32 nodes) whose leaves are letters and digits.", "why_tests_cant": "The test picks random names, so that it practically never meets a name that begins with eval, strip or word, and it does not nest deeper than 3.", "anchors": ["src/parsers/ast/test/proptest/mod.rs:1-24", "src/ast/proptest.rs:8-147", "src/parsers/ast/mod.rs:1-330"]}
{"id": "C74", "title": "Escaped separators in lists of file names", "statement": "In a list of file names a separator after 2n+1 backslashes belongs to the name and the backslashes stand for n; after 2n backslashes, which stand for n, it ends the name; all other backslashes, also those at the end of the list, stand for themselves. Every list of non-empty names can be written that way and is read back.", "quantifier": "For all ASCII texts, all blocks and windows that show them, and all sets of extra separators without the backslash.", "why_tests_cant": "The tests of file sequences use a few lists with at most one escape; the last name of the list goes through different code, and what happens depends on the parity of the backslashes and on whether the text contains an escaped separator.", "anchors": ["src/parsers/file_sequence.rs:45-99", "src/parsers/mod.rs:378-467"]}
{"id": "C75", "title": "Options for lists of file names", "statement": "With the option to strip a leading `./`, the names read from a list of file names neither begin with `./` nor are empty. Without options the names are those of C74, and each option that is not implemented aborts.", "quantifier": "For all ASCII texts, all blocks and windows that show them, all options, and all sets of extra separators without the backslash.", "why_tests_cant": "No test sets any option but the extra separators, and no caller does; the code is there for callers to come.", "anchors": ["src/parsers/file_sequence.rs:9-43", "src/parsers/file_sequence.rs:45-99"]}
{"id": "C76", "title": "Rule lines with backslashes", "statement": "A rule whose targets and dependencies are any names of file name characters, colons and semicolons can be written down with a backslash in front of each colon and semicolon, and the line is read back as exactly this rule. A blank with a backslash in front is part of a name.", "quantifier": "For all lists of names of any length, all locations, file systems and parser states that are between rules, and all texts that follow.", "why_tests_cant": "The author's round-trip property test for this is disabled because its generator does not escape correctly, and such a test only samples short names over three characters.", "anchors": ["src/parsers/targets/mod.rs:96-412", "src/parsers/targets/mod.rs:414-560", "src/parsers/targets/test/proptest.rs:10-130"]}
{"id": "C77", "title": "Recipe lines are the lines that begin with a tab", "statement": "At any point of the reading of any makefile, a line is added to the recipe of the open rule only if it begins with a tab; a line that begins with a tab, and is a well-formed expression, is added to it; and nothing a makefile contains changes that.", "quantifier": "For all file systems, all sequences of makefiles read and variables expanded before, all lines read before, all texts and all open rules.", "why_tests_cant": "The tests read one recipe at a time from a fresh engine; that no assignment, include, eval or expansion anywhere changes the recipe prefix is a statement about all histories.", "anchors": ["src/lib.rs:466-500", "src/parsers/mod.rs:116-254", "src/parsers/recipe_line.rs:1-95"]}
{"id": "C78", "title": "A line that calls eval does what its argument says", "statement": "A line that consists of a call `$(eval argument)` has the effect that reading the expansion of the argument as a makefile would have, and no other: afterwards the variables and the rules are those of that makefile, read in the state at this line.", "quantifier": "For all file systems, all states, all arguments without `;`, `#` and backslash, and all texts after the line.", "why_tests_cant": "The tests evaluate three fixed calls; that the effect is that of the text, for every text and every state, quantifies over makefiles.", "anchors": ["src/ast/mod.rs:165-182", "src/parsers/mod.rs:116-254", "src/parsers/targets/mod.rs:96-412", "src/lib.rs:558-595"]}
{"id": "C79", "title": "Rules without targets are ignored", "statement": "A line that begins with a colon or a double colon (and not with an assignment operator) is accepted and ignored, whatever follows the colon, as in make; the commands after it are ignored too.", "quantifier": "every such line, every file, every state", "why_tests_cant": "Quantifies over all texts after the colon, including references, escapes and commands.", "anchors": ["src/parsers/targets/mod.rs:parse_line", "src/parsers/targets/mod.rs:next_mword", "src/parsers/targets/mod.rs:handle_target_action"]}
{"id": "C80", "title": "Makefiles that end too early are rejected", "statement": "A makefile that ends while a conditional or a define block is open is not accepted: its endif or endef is missing.", "quantifier": "every makefile of assignments, rules, recipes, definitions and conditionals, in every state of the engine", "why_tests_cant": "Tests can show single unfinished files; the claim is about the end of every possible sequence of lines and every nesting of conditionals and definitions.", "anchors": ["src/lib.rs:558-593", "src/parsers/mod.rs:116-254", "src/parsers/variable/mod.rs"]}
{"id": "C81", "title": "Lines with a malformed expression are never accepted", "statement": "An assignment, an include line or a rule line of which an expression (the name, the value, the list of files, the targets, the dependencies, the command) is malformed - a reference that is not closed, a function call with too few or too many arguments - is never accepted; the same holds for the lines of a define block.", "quantifier": "every such line, every parser state and database, every budget", "why_tests_cant": "Tests can show single malformed lines; the claim is about every malformed expression in every such line, whatever other kinds of line the text could be taken for.", "anchors": ["src/parsers/variable/mod.rs", "src/parsers/directives/mod.rs", "src/parsers/mod.rs:116-254", "src/parsers/targets/mod.rs"]}
{"id": "C82", "title": "Substitution references with a computed text", "statement": "A substitution reference uses the variable and the key that its text names, wherever the text comes from: if the text of a reference expands to name:key=replacement, the variable looked up is the one called name, and exactly the variables consulted are reported.", "quantifier": "every expression as the text of the reference, every database", "why_tests_cant": "The name and the key are cut out by byte offsets inside a tree of shared blocks. Whether the cut is right depends on where the text was assembled from other variables, and the tests only use references that are written out.", "anchors": ["src/ast/mod.rs", "src/parsers/mod.rs", "src/evaluated/mod.rs", "src/evaluated/nom/mod.rs"]}
{"id": "C83", "title": "A command without a rule is reported", "statement": "A line with a semicolon in front of which there is no target, or only words without a colon, is reported: with the error meant for recipes without a rule in the first case, with the one meant for missing separators in the second.", "quantifier": "every such line, every command after the semicolon, every parser state and database; every line for the claim about the two errors", "why_tests_cant": "Both errors exist in the code and look reachable. Whether any line can ever lead to them is a question about every line in every state, which no test decides.", "anchors": ["src/parsers/targets/mod.rs:77-160", "src/parsers/targets/mod.rs:240-268", "src/parsers/targets/mod.rs:414-538"]}
{"id": "C84", "title": "Internal errors are never returned, and which errors are", "statement": "An error that parse_line returns for a line is a failure and never of the kind InternalFailure, which is documented as internal. If it has one of the program's own kinds, the kind is one of: ExtraTokensAfter (else, endif or endef), UnattachedElse, UnattachedEndIf, TooManyElses, RecipeExpected, BadIfEqSeparator, UnternimatedVariable, InsufficientArguments (of word), ExtraArguments (of strip, words or word), IncludeFailure; and each of these does occur.", "quantifier": "every line, every parser state, every database, every file system, every depth of nesting", "why_tests_cant": "That an error variant is never returned is a statement about every line in every state: the parsers produce InternalFailure all the time, and every caller has to catch it.", "anchors": ["src/lib.rs:58-126", "src/parsers/mod.rs:116-254", "src/parsers/ast/mod.rs:95-180", "src/parsers/variable/mod.rs:154-281", "src/parsers/conditional/mod.rs"]}
{"id": "C85", "title": "The parsers do not abort on ASCII files", "statement": "At every place of a file of ASCII text, the parsers of comments, recipe lines and logical lines return a value or an error, and so does the parser of lines of definitions unless the place is the end of the file or a comment character; there it aborts (its caller excludes both). In every logical line of such a file, from every character on, the parsers of expressions, conditionals, directives, words of target lines and lists of file names return a value or an error.", "quantifier": "every ASCII text, every place in it, every ASCII command character, both ways to join lines, every set of separators of file names without the backslash", "why_tests_cant": "A panic in a parser needs a particular text: an unclosed bracket, a trailing backslash, an empty piece. Tests try a few texts; this is about all of them, well-formed or not.", "anchors": ["src/parsers/mod.rs:302-606", "src/parsers/ast/mod.rs:13-58", "src/parsers/recipe_line.rs:11-68", "src/parsers/conditional/mod.rs:105-326", "src/parsers/directives/mod.rs:96-110", "src/parsers/targets/mod.rs:414-538", "src/parsers/variable/mod.rs:376-425"]}
{"id": "C86", "title": "Reading more makefiles loses nothing", "statement": "Whatever makefiles are read and variables expanded in whatever order, with or without errors: a variable that is defined stays defined, every name handle keeps its meaning, a target that has a rule keeps having one, a target that has commands keeps having some, no dependency of a target is lost, and neither the variables of single targets nor the command character change.", "quantifier": "every state, every sequence of makefiles and expansions, every file system, every depth of nesting", "why_tests_cant": "A loss needs a particular history of several makefiles; this is about all histories, including those that end in an error.", "anchors": ["src/lib.rs:243-313", "src/lib.rs:315-356", "src/lib.rs:524-555", "src/parsers/mod.rs:116-300", "src/eval/mod.rs:88-99"]}
{"id": "C87", "title": "Makefiles that include each other in a circle are never finished", "statement": "When reading a makefile comes, after lines that can be read, to an include line whose next file is the makefile itself or one that leads back to it in the same way, reading never ends: whatever depth of nesting is allowed, it is exceeded, and neither a result nor an error nor an abort comes before. No state in which the reading begins and no later line helps.", "quantifier": "every set of files that lead to each other, every state, every depth of nesting", "why_tests_cant": "That something never ends for any depth cannot be observed by running it; a test that includes itself overflows the stack of the test process.", "anchors": ["src/parsers/directives/mod.rs:43-93", "src/lib.rs:524-592", "src/parsers/mod.rs:116-300"]}
