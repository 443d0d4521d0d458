{"id": "C01", "title": "Byte/line-column conversion round trips", "statement": "For every source text and every byte offset that starts a character of it (or its end), converting the offset to a zero-based line and a column in UTF-8 bytes, UTF-16 code units or code points and converting that pair back yields the same byte offset.", "quantifier": "all texts (with any mix of \\n, \\r\\n, \\r and non-ASCII characters), all character-boundary offsets, all three column encodings", "why_tests_cant": "unbounded texts and offsets; errors only show up at particular interactions of newline style, character width and position", "anchors": ["crates/zuban_python/src/lines.rs: NewlineIndices::position_infos, line_column_to_byte, utf16_to_utf8_byte_offset, PositionInfos"]}
{"id": "C02", "title": "Every in-range client position is accepted", "statement": "Every position a client can legally point at (line exists, column is a code-unit boundary not beyond the end of the line) is accepted by the position conversion that guards edits, and every column beyond the end of the line is rejected.", "quantifier": "all texts, lines, columns and column encodings", "why_tests_cant": "depends on the whole content of the line before the column", "anchors": ["crates/zuban_python/src/lines.rs: NewlineIndices::line_column_to_safe_byte, utf16_to_utf8_byte_offset"]}
{"id": "C03", "title": "Incremental document sync equals sequential application", "statement": "Applying a batch of didChange events gives exactly the text obtained by applying the events one after another, each ranged event replacing the range it designates in the text produced by the preceding events (line table of that text), whatever the order of the ranges.", "quantifier": "all old texts, all finite lists of change events (full or ranged), all column encodings", "why_tests_cant": "the implementation keeps a cached line table across edits; validity of the cache is a property of the whole edit history", "anchors": ["crates/zuban_python/src/lsp_utils.rs: apply_document_changes", "crates/zuban_python/src/lib.rs: Project::store_file_with_lsp_changes", "crates/zuban_python/src/lines.rs: NewlineIndices"]}
{"id": "C04", "title": "Full replacement followed by ranged edits", "statement": "A batch that contains a full-document replacement followed by ranged edits resolves the ranged edits against the replacement text, not against the document that was stored before.", "quantifier": "all stored documents, replacement texts and following ranged edits", "why_tests_cant": "the failing condition depends on whether a line table had already been computed earlier in the session", "anchors": ["crates/zuban_python/src/lsp_utils.rs: apply_document_changes"]}
{"id": "C05", "title": "The server's copy of an open document never drifts from the client's", "statement": "After any history of open and incremental edits of a document, the text the server analyses is the client's text followed only by newline characters.", "quantifier": "all finite histories of didOpen and ranged didChange on one document", "why_tests_cant": "the stored text differs from the client's text by parser-appended newlines, and every later edit is applied on top of that difference", "anchors": ["crates/parsa_python/src/lib.rs: parse", "crates/zuban_python/src/lib.rs: Project::store_file_with_lsp_changes", "crates/zuban_python/src/lsp_utils.rs: apply_document_changes"]}
{"id": "C06", "title": "Syntax tree navigation is coherent", "statement": "Parent, children, next/previous sibling, next/previous leaf and last leaf of a subtree, as computed on the stored pre-order array of nodes, are exactly the relations of the ordered tree that was parsed.", "quantifier": "all parse trees, all nodes of each", "why_tests_cant": "the array encoding uses relative offsets with a sentinel; mistakes appear only for particular shapes and positions", "anchors": ["crates/parsa/src/lib.rs: iter_children, next_sibling, previous_sibling, parent, previous_leaf, next_leaf, last_leaf_in_subtree"]}
{"id": "C07", "title": "Cursor position to leaf lookup", "statement": "Looking up the leaf at a text position returns the leaf whose span (including its preceding whitespace) contains the position.", "quantifier": "all parse trees with contiguous leaves and all positions inside the text", "why_tests_cant": "binary search over a flattened tree, off-by-one at every boundary", "anchors": ["crates/parsa/src/lib.rs: leaf_by_position"]}
{"id": "C08", "title": "Compiled grammar rules accept exactly the written rules", "statement": "The finite automaton compiled from a grammar rule accepts a sequence of symbols if and only if the sequence is derivable from the rule as written.", "quantifier": "all grammar rules built from sequence, alternative, optional, repetition, and all symbol sequences", "why_tests_cant": "infinitely many rules and inputs; the compiled automaton has cycles", "anchors": ["crates/parsa/src/automaton.rs: RuleAutomaton::build, group_nfas, nfa_to_dfa, construct_powerset_for_dfa", "crates/parsa/src/lib.rs: __parse_rules"]}
{"id": "C09", "title": "Backtracking replays the same tokens", "statement": "While the parser backtracks, the token stream it reads is the same stream the tokenizer produced: after any sequence of next/start/reset/stop operations, the token returned at a given logical position is the tokenizer's token at that position.", "quantifier": "all interleavings of token reads and (nested) backtracking points", "why_tests_cant": "property of all operation schedules", "anchors": ["crates/parsa/src/backtracking.rs: BacktrackingTokenizer"]}
{"id": "C10", "title": "Indentation tokens are balanced", "statement": "Every Python source text, well-formed or not, is tokenized so that the stack of open indentations is strictly increasing and starts at column 0, dedent tokens never outnumber indent tokens in a prefix, and at the end marker every indent has been closed.", "quantifier": "all sequences of logical lines with arbitrary indentation, parentheses and keywords", "why_tests_cant": "error-tolerant lexing must hold for all malformed inputs", "anchors": ["crates/parsa_python/src/tokenizer.rs: PythonTokenizer::next, dedent_if_necessary"]}
{"id": "C11", "title": "String literal values", "statement": "The value zuban attributes to a non-raw string literal is the value Python gives it: every recognised escape sequence is replaced by its character, unknown escapes are kept, a backslash-newline disappears.", "quantifier": "all string literal bodies", "why_tests_cant": "unbounded strings, dozens of escape forms with look-ahead", "anchors": ["crates/parsa_python_cst/src/strings.rs: PythonString::from_literal, parse_hex, parse_python_octal"]}
{"id": "C12", "title": "No string or bytes literal crashes the analyzer", "statement": "Decoding the body of any tokenizable string or bytes literal terminates without panicking.", "quantifier": "all literal bodies the tokenizer can produce, including ones Python rejects", "why_tests_cant": "panics require particular byte sequences (multi-byte characters or backslashes right after a truncated hex escape)", "anchors": ["crates/parsa_python_cst/src/strings.rs: PythonString::from_literal", "crates/parsa_python_cst/src/bytes.rs"]}
{"id": "C13", "title": "Literal quotes are stripped exactly", "statement": "For every prefix, quote style and body, the content extracted from a string literal token is exactly the body.", "quantifier": "all prefixes, all four quote styles, all bodies", "why_tests_cant": "interaction of empty bodies, bodies of quote characters and triple quotes", "anchors": ["crates/parsa_python_cst/src/strings.rs: unpack_string_or_bytes_content"]}
{"id": "C14", "title": "Printed literal types denote the literal", "statement": "The text zuban prints for the value of a string or bytes literal type is a Python literal that evaluates to that value.", "quantifier": "all string and bytes values", "why_tests_cant": "all values, escapes interact with quoting", "anchors": ["crates/zuban_python/src/utils.rs: str_repr, bytes_repr"]}
{"id": "C15", "title": "Edits invalidate every transitive dependent", "statement": "When a file changes, every file that (transitively) recorded a dependency on it is invalidated, no other file is, and the propagation terminates even when dependencies are cyclic.", "quantifier": "all dependency graphs, all edited files", "why_tests_cant": "graphs of any size and shape, including cycles", "anchors": ["crates/vfs/src/vfs.rs: invalidate_files, invalidate_file_by_index, invalidate_and_unload_file", "crates/vfs/src/tree.rs: Invalidations"]}
{"id": "C16", "title": "Unsaved editor content overrides the disk", "statement": "At every point of any history of opening, editing, saving, closing documents and file-system notifications, the text of a file used for analysis is the open document's text if the document is open, and the disk content otherwise.", "quantifier": "all finite histories of open/edit/close/disk-change/notification on any number of files", "why_tests_cant": "property of all histories", "anchors": ["crates/vfs/src/vfs.rs: store_in_memory_file, close_in_memory_file, invalidate_path"]}
{"id": "C17", "title": "Creating a module re-resolves the imports it affects", "statement": "When a file or package directory is created or deleted and this changes what some import statement resolves to, the importing file is invalidated.", "quantifier": "all directory contents, module names, and creation/deletion events", "why_tests_cant": "needs all combinations of present and absent candidates in all search directories", "anchors": ["crates/zuban_python/src/imports.rs: python_import_with_needs_exact_case, load_init_file_from_entries", "crates/vfs/src/tree.rs: Entries::add_missing_entry_callback", "crates/vfs/src/vfs.rs: invalidate_path"]}
{"id": "C18", "title": "Import resolution priority", "statement": "An import resolves in the first search directory that contains a regular package, stub or module of that name, in that priority inside a directory, and to a namespace package only if no search directory contains any of these.", "quantifier": "all search paths, directory contents and module names", "why_tests_cant": "all combinations of candidates over arbitrarily many directories", "anchors": ["crates/zuban_python/src/imports.rs: python_import_with_needs_exact_case, load_init_file_from_entries"]}
{"id": "C19", "title": "Path normalisation", "statement": "Normalising an absolute path removes every `.` and `..` component, is idempotent, and yields the path reached by following the components one at a time.", "quantifier": "all sequences of path components", "why_tests_cant": "unbounded component sequences", "anchors": ["crates/vfs/src/normalized_path.rs"]}
{"id": "C20", "title": "Files belong to the innermost workspace", "statement": "A file below several workspace roots belongs to the longest root that contains it component-wise; directories that merely share a name prefix never match.", "quantifier": "all sets of roots and all paths", "why_tests_cant": "all nestings of roots", "anchors": ["crates/vfs/src/workspaces.rs: strip_short_path_in_workspace, strip_path_prefix"]}
{"id": "C21", "title": "Module override patterns", "statement": "A per-module configuration section applies to exactly the modules its pattern denotes in mypy's pattern language (a leading `*` stands for one or more components, any other `*` for zero or more).", "quantifier": "all patterns and all module names", "why_tests_cant": "backtracking matcher over unbounded inputs", "anchors": ["crates/config/src/lib.rs: OverridePath::from, OverridePath::matches_file_path"]}
{"id": "C22", "title": "More specific override sections win", "statement": "When several sections apply to a module, a concrete module section overrides patterns with inner wildcards, which override `pkg.*` sections; among equals the later one in the file wins; and among `pkg.*` sections the longer prefix wins.", "quantifier": "all sequences of sections and all modules", "why_tests_cant": "all orders and combinations of sections", "anchors": ["crates/config/src/lib.rs: order_overrides_for_priority, OverrideConfig::apply_to_flags"]}
{"id": "C23", "title": "`strict` is accepted in per-module sections or rejected cleanly", "statement": "A per-module section with `strict = true` is either applied completely or rejected; it is not rejected after being half applied.", "quantifier": "all flag states and all sections containing the key", "why_tests_cant": "needs to hold for every flag state and key order", "anchors": ["crates/config/src/lib.rs: OverrideConfig::apply_to_flags, set_flag"]}
{"id": "C24", "title": "Negated option names", "statement": "Writing an option under its own name with a `no_` prefix, or exchanging `allow_` and `disallow_` in it, sets the same flag to the opposite value and changes nothing else; a value that is not a boolean is rejected and changes nothing.", "quantifier": "all option names and values", "why_tests_cant": "all names, including ones that begin with the prefixes by accident", "anchors": ["crates/config/src/lib.rs: maybe_invert, as_bool, set_flag"]}
{"id": "C25", "title": "Configuration file discovery", "statement": "The configuration used is the one of the nearest ancestor directory that has a relevant configuration, with pyproject.toml before mypy.ini before .mypy.ini before setup.cfg; files without a relevant section have no influence.", "quantifier": "all directory chains and all combinations of present files and sections", "why_tests_cant": "exponentially many combinations over unbounded depth", "anchors": ["crates/config/src/searcher.rs: find_config, find_mypy_config_file_in_dir"]}
{"id": "C26", "title": "Python version gates are monotone", "statement": "If a feature is enabled for a target Python version then it is enabled for every later version.", "quantifier": "all pairs of versions, all gates", "why_tests_cant": "unbounded version numbers", "anchors": ["crates/config/src/lib.rs: PythonVersion::at_least_3_dot, FromStr"]}
{"id": "C27", "title": "Exactly one response per request", "statement": "The server answers every request it receives with exactly one response carrying the request's id, whether the handler succeeds, fails, panics, the parameters are malformed, the method is unknown, or a shutdown was already requested.", "quantifier": "all message sequences and all handler outcomes", "why_tests_cant": "all histories and all failure points", "anchors": ["crates/zubanls/src/server.rs: on_request, on_lsp_message, RequestDispatcher"]}
{"id": "C28", "title": "Crash recovery keeps open documents", "statement": "After a request or notification handler panics, or after the configuration changes, every document that was open is still open with the client's latest content.", "quantifier": "all histories of document notifications, panics and file-system events", "why_tests_cant": "crash points are arbitrary positions in the history", "anchors": ["crates/zubanls/src/server.rs: recover_from_panic, project, on_notify_event", "crates/vfs/src/vfs.rs: into_panic_recovery, load_panic_recovery"]}
{"id": "C29", "title": "Every panic is reported to the client", "statement": "Each panic of a request handler is shown to the user with window/showMessage.", "quantifier": "all sequences of panics", "why_tests_cant": "history dependent", "anchors": ["crates/zubanls/src/panic_hooks.rs"]}
{"id": "C30", "title": "Position encoding negotiation", "statement": "The encoding announced to the client is one the client offered, or UTF-16 if it offered none that the server can use, and positions sent and received use the announced encoding.", "quantifier": "all client capability lists", "why_tests_cant": "all lists of encodings including unknown ones", "anchors": ["crates/zubanls/src/capabilities.rs: negotiate_encoding, input_position", "crates/zubanls/src/request_handlers.rs: to_position"]}
{"id": "C31", "title": "Semantic tokens decode to what was computed", "statement": "Decoding the delta-encoded semantic token array as the protocol prescribes gives back exactly the computed tokens, in order.", "quantifier": "all token lists sorted by position", "why_tests_cant": "unbounded lists with deltas relative to the previous token", "anchors": ["crates/zubanls/src/semantic_tokens.rs: SemanticTokensBuilder::push"]}
{"id": "C32", "title": "Completion order is preserved by the client", "statement": "Sorting completion items by their sort text, as clients do, keeps the order in which zuban ranked them.", "quantifier": "all lists of completions", "why_tests_cant": "order of unboundedly many items", "anchors": ["crates/zubanls/src/request_handlers.rs: sort_text"]}
{"id": "C33", "title": "Notebook cells see the previous cells", "statement": "After any history of notebook changes, each code cell's predecessor is the code cell directly before it in the notebook's current order.", "quantifier": "all finite histories of cell insertions and removals", "why_tests_cant": "history dependent", "anchors": ["crates/zubanls/src/notification_handlers.rs: handle_did_change_notebook, new_cells", "crates/zubanls/src/notebooks.rs"]}
{"id": "C34", "title": "Link support is honoured", "statement": "Goto results are sent as location links only to clients that announced support for them.", "quantifier": "all clients and results", "why_tests_cant": "combination of capabilities and requests", "anchors": ["crates/zubanls/src/request_handlers.rs: run_goto_like"]}
{"id": "C35", "title": "Workspace symbol search is complete", "statement": "A workspace symbol query returns every class, function and variable symbol whose name contains the query, at any nesting depth.", "quantifier": "all symbol forests and queries", "why_tests_cant": "unbounded nesting", "anchors": ["crates/zubanls/src/request_handlers.rs: nested_workspace_doc_symbols"]}
{"id": "C36", "title": "Renaming a module moves its file", "statement": "Renaming a module or package to a new name yields the path of the same file with only the module's own path component replaced.", "quantifier": "all directories, module names, and new names, for modules and packages", "why_tests_cant": "path shapes are unbounded", "anchors": ["crates/zuban_python/src/lib.rs: FileRename::to_uri"]}
{"id": "C37", "title": "The summary line agrees with the result", "statement": "The number of errors in the summary is the number of error diagnostics, the noun agrees with that number, and the exit code is 1 exactly if there is an error.", "quantifier": "all lists of diagnostics", "why_tests_cant": "all mixtures of errors and notes", "anchors": ["crates/zuban_python/src/lib.rs: Diagnostics::summary, error_count", "crates/zmypy/src/lib.rs: with_exit_code"]}
{"id": "C38", "title": "Tuple indexing is sound", "statement": "If indexing a value of a tuple type with an integer literal succeeds at run time then the type zuban infers for the expression contains the element; for fixed-length tuples an error is reported exactly if the index is out of range.", "quantifier": "all fixed-length and variadic tuple types, all integers, all run-time values of the type", "why_tests_cant": "unbounded tuple lengths and arbitrary precision indexes", "anchors": ["crates/zuban_python/src/type_/tuple.rs: Tuple::get_item"]}
{"id": "C39", "title": "Slicing a fixed-length tuple type follows Python", "statement": "The type inferred for slicing a fixed-length tuple with constant bounds is the tuple of exactly the elements Python selects, in Python's order.", "quantifier": "all tuples, all start/stop/step integers (or omitted), step non-zero", "why_tests_cant": "infinite parameter space with clamping and sign cases", "anchors": ["crates/zuban_python/src/type_/tuple.rs: Tuple::get_item (as_fixed_len_tuple)"]}
{"id": "C40", "title": "Slicing a variadic tuple type is sound", "statement": "For every run-time tuple of a type with one variadic part and every constant slice, the sliced value has the type zuban infers, unless zuban reports the slice as ambiguous.", "quantifier": "all variadic tuple types, all slices, all run-time lengths of the variadic part", "why_tests_cant": "the run-time length is unbounded and unknown to the analysis", "anchors": ["crates/zuban_python/src/type_/tuple.rs: Tuple::get_item (WithUnpack slices)"]}
{"id": "C41", "title": "Tuple concatenation and repetition", "statement": "The type inferred for adding two tuples or repeating a tuple contains every run-time result.", "quantifier": "all tuple types and run-time values", "why_tests_cant": "unbounded lengths", "anchors": ["crates/zuban_python/src/type_/tuple.rs: tuple_add_internal, tuple_mul_internal, TupleArgs::add_before_and_after, MaybeUnpackGatherer"]}
{"id": "C42", "title": "Method resolution order is Python's", "statement": "For every class whose bases Python accepts, the method resolution order used for attribute lookup is Python's C3 linearization; classes Python rejects are reported.", "quantifier": "all class hierarchies", "why_tests_cant": "infinitely many hierarchies; the merge is a search", "anchors": ["crates/zuban_python/src/file/type_computation/class.rs: linearize_mro_and_return_linearizable"]}
{"id": "C43", "title": "Method resolution order contains every base", "statement": "The computed method resolution order contains every ancestor exactly once, each after all its subclasses in the list, and the computation terminates.", "quantifier": "all lists of bases with linearized ancestors", "why_tests_cant": "infinitely many hierarchies", "anchors": ["crates/zuban_python/src/file/type_computation/class.rs: linearize_mro_and_return_linearizable"]}
{"id": "C44", "title": "Union simplification loses nothing and adds nothing", "statement": "Every member of a union is a subtype of some member of the simplified union, every member of the simplified union stems from the inputs, and no member of it is a subtype of another.", "quantifier": "all lists of member types and all subtype preorders", "why_tests_cant": "depends on the order of members and on the whole subtype relation", "anchors": ["crates/zuban_python/src/type_/union.rs: merge_simplified_union_type, contract_bool_literals, try_contracting_enum_members"]}
{"id": "C45", "title": "Match results combine like truth values", "statement": "Combining match results is conjunction/disjunction on their truth value, conjunction is associative, and remembers Any involvement.", "quantifier": "all lists of match results", "why_tests_cant": "all lists", "anchors": ["crates/zuban_python/src/match_.rs: Match::{all, any, or, bitand}"]}
{"id": "C46", "title": "`# type: ignore` suppresses exactly what it names", "statement": "An error is suppressed by ignore comments in its lines if and only if one of the comments is bare or lists the error's code (or its parent code); text inside string literals is not a comment.", "quantifier": "all source lines, all error codes", "why_tests_cant": "unbounded texts and comment spellings", "anchors": ["crates/parsa_python_cst/src/lib.rs: type_ignore_comment_for_region, maybe_type_ignore", "crates/zuban_python/src/diagnostics.rs: is_ignored_and_return_non_covered_error_code"]}
{"id": "C47", "title": "Cached analysis results read back as written", "statement": "A result stored in the per-node cache is read back with exactly the kind, location, scope and flags it was stored with.", "quantifier": "all combinations of field values in their ranges", "why_tests_cant": "bit packing over the full range of values", "anchors": ["crates/zuban_python/src/database.rs: Point"]}
{"id": "C48", "title": "Selection ranges nest", "statement": "The ranges offered for expanding the selection around a position each strictly contain the previous one.", "quantifier": "all parse trees and positions", "why_tests_cant": "all trees", "anchors": ["crates/parsa_python_cst/src/ranges.rs", "crates/zuban_python/src/selection_ranges.rs"]}
{"id": "C49", "title": "Comma separated option lists", "statement": "A list-valued option in an ini file is split into its trimmed entries; a single trailing separator is ignored.", "quantifier": "all option values and separator sets", "why_tests_cant": "unbounded strings", "anchors": ["crates/config/src/lib.rs: split_and_trim"]}
{"id": "C50", "title": "Implicit string concatenation", "statement": "Concatenating adjacent string literals is associative, has the empty literal as neutral element, and is unknown as soon as one part is an f-string.", "quantifier": "all sequences of literals", "why_tests_cant": "all sequences", "anchors": ["crates/parsa_python_cst/src/strings.rs: PythonString::union"]}
{"id": "C51", "title": "A rejected batch of edits leaves the document as it was", "statement": "If a batch of document changes is rejected, the stored document still has its old text, and later conversions between offsets and positions of that document use the lines of that text.", "quantifier": "all stored documents, line tables computed or not, and all batches", "why_tests_cant": "a borrowed cache is filled in the middle of a batch; only particular batches on documents whose lines were never needed show it", "anchors": ["crates/zuban_python/src/lsp_utils.rs: apply_document_changes", "crates/zuban_python/src/lib.rs: Project::store_file_with_lsp_changes"]}
{"id": "C52", "title": "Inline configuration comments never crash", "statement": "Every `# mypy: ` comment is split into its name/value entries or reported; entries written as names, name=value or name=\"quoted value\" come back as they were written.", "quantifier": "all comment texts", "why_tests_cant": "unbounded text with quotes, commas, equal signs and multi-byte characters in any order", "anchors": ["crates/zuban_python/src/file/python_file.rs: DirectiveSplitter, split_name_value"]}
{"id": "C53", "title": "ignore_missing_imports per module follows section priority", "statement": "A missing top-level import is silenced by per-module sections iff the section that wins for this module says so.", "quantifier": "all sequences of sections and all module names", "why_tests_cant": "all combinations and orders of sections", "anchors": ["crates/zuban_python/src/database.rs: PythonProject ignored imports", "crates/zuban_python/src/imports.rs", "crates/config/src/lib.rs: affects_global_import"]}
{"id": "C54", "title": "A bad entry in a per-module section is reported, not a crash", "statement": "An entry of a per-module section with an unacceptable value makes reading the configuration fail; it never crashes the analysis of a file.", "quantifier": "all sections, entries and files", "why_tests_cant": "every key, value and file combination", "anchors": ["crates/config/src/lib.rs: OverrideConfig::apply_to_flags", "crates/zuban_python/src/file/python_file.rs: flags of a file"]}
{"id": "C55", "title": "Naming the configuration file that would be found changes nothing", "statement": "Passing `--config-file` with the configuration file that discovery selects in the project directory gives the same options as discovery.", "quantifier": "all directories, files, sections and requested modes", "why_tests_cant": "all combinations of files and sections", "anchors": ["crates/config/src/searcher.rs: find_config"]}
{"id": "C56", "title": "Ranges are expanded to whole lines", "statement": "For every text and every range, expanding the range to full lines gives the text from the beginning of the line of the start to the end of the line of the end, without the line ending.", "quantifier": "all texts, all pairs of character boundaries", "why_tests_cant": "line endings, empty lines and the end of the file combine with every position", "anchors": ["crates/zuban_python/src/lines.rs: NewlineIndices::expand_range_to_full_lines", "crates/zuban_python/src/code_actions.rs"]}
{"id": "C57", "title": "Classes keep their ancestors in order throughout a program", "statement": "In a program whose classes can all be linearized, the resolution order of a class contains the resolution orders of all its ancestors as subsequences, and no class is repeated.", "quantifier": "all programs of class statements", "why_tests_cant": "an invariant over programs of unbounded length", "anchors": ["crates/zuban_python/src/file/type_computation/class.rs: linearize_mro_and_return_linearizable"]}
{"id": "C58", "title": "Bytes literal values", "statement": "The value zuban attributes to a bytes literal is the value Python gives it: escape sequences are replaced by their byte, octal escapes are taken modulo 256, unknown escapes are kept, a backslash-newline disappears, and every line ending in the source is a newline.", "quantifier": "all bytes literal bodies", "why_tests_cant": "unbounded bodies, offsets into the body are updated by every escape form, line endings depend on the file", "anchors": ["crates/parsa_python_cst/src/bytes.rs: parse_python_bytes_literal"]}
{"id": "C59", "title": "Searching a subtree finds exactly the nodes asked for", "statement": "Searching below a node for some kinds of nodes yields, in the order of the text, exactly the nodes of its subtree that have one of these kinds and begin before its end; with the option to avoid found subtrees, exactly the outermost of them. In a file that ends with an empty end marker the search of the whole file never runs off the end.", "quantifier": "all trees, all nodes, all sets of kinds", "why_tests_cant": "trees of any shape; the iterator jumps through a flat array using stored distances", "anchors": ["crates/parsa/src/lib.rs: search, SearchIterator::next", "crates/parsa_python_cst/src/lib.rs: search_interesting_nodes"]}
{"id": "C60", "title": "The parser stores the tree it derived", "statement": "For every derivation, including rules that may be omitted when they have one child and left-recursive rules, the moves of the parser's stack leave an array that stores exactly the nodes of the tree in pre-order, with right sibling distances, starts and lengths, and an empty stack.", "quantifier": "all derivations", "why_tests_cant": "derivations of any shape and size; nodes are inserted before children that are already stored", "anchors": ["crates/parsa/src/grammar.rs: Stack::push, Stack::pop_normal, calculate_previous_next_node, apply_plan, update_tree_node_position"]}
{"id": "C61", "title": "Speculative evaluation can be undone", "statement": "After the cache entries of a range of nodes are backed up, anything stored while an alternative is tried out is undone by resetting: the entries of the range are as before, all others stay as they were stored.", "quantifier": "all caches, ranges and sequences of writes in between", "why_tests_cant": "arbitrary writes in between, over arbitrary ranges", "anchors": ["crates/zuban_python/src/database.rs: Points::backup", "crates/zuban_python/src/database.rs: Points::reset_from_backup"]}
{"id": "C62", "title": "Invalidation drops exactly the entries that can depend on other files", "statement": "When a file it depends on changes, a file forgets every cached entry that can depend on other files and every direct link to the changed file, and keeps what its own text determines.", "quantifier": "all caches, entries and changed files", "why_tests_cant": "every locality, kind and position of cached entries", "anchors": ["crates/zuban_python/src/database.rs: Points::invalidate_references_to", "crates/zuban_python/src/database.rs: Points::invalidate_full_db"]}
{"id": "C63", "title": "The quick fix \"Add # type: ignore[code]\" makes the error disappear", "statement": "Applying the quick fix that adds an ignore comment, or adds the error code to an existing ignore comment, results in text in which the error is suppressed; every code that was listed before the edit is still listed after it.", "quantifier": "all source texts, error positions, error codes, both comment kinds, token positions and later ends of the error", "why_tests_cant": "Whether the edited comment is recognised depends on what surrounds the insertion point in the text (spaces, tabs, other comments, several ignore comments); tests contain a handful of lines.", "anchors": ["crates/parsa_python_cst/src/code_actions.rs insertion_point_for_type_ignore, format_for_kind", "crates/zuban_python/src/code_actions.rs", "crates/parsa_python_cst/src/lib.rs type_ignore_comment_for"]}
{"id": "C64", "title": "Inline configuration and file wide ignores", "statement": "The inline configuration of a file is the text after `# mypy: ` on exactly the lines that begin with it, at the right index; a file is ignored exactly when the text before its first statement has an ignore comment without codes.", "quantifier": "all source texts", "why_tests_cant": "Ranges over all texts: line breaks, several directives and comments in any order.", "anchors": ["crates/parsa_python_cst/src/lib.rs mypy_inline_config_directives, has_type_ignore_at_start"]}
{"id": "C65", "title": "A panic does not stop the language server", "statement": "Whatever panics while an event of the client or of the file watcher is handled, the server keeps reading and answering messages until exit.", "quantifier": "all servers, states and finite sequences of events", "why_tests_cant": "history dependent and ranges over every handler", "anchors": ["crates/zubanls/src/server.rs event_loop, on_lsp_message_and_return_on_shutdown"]}
{"id": "C66", "title": "Token lengths use the negotiated encoding", "statement": "The length of each semantic token is the number of code units of its name in the position encoding announced to the client.", "quantifier": "all names and encodings", "why_tests_cant": "all texts outside ASCII", "anchors": ["crates/zuban_python/src/semantic_tokens.rs", "crates/zubanls/src/semantic_tokens.rs push"]}
{"id": "C67", "title": "The document outline is complete and the same for all clients", "statement": "Clients with and without hierarchical symbols get the same outline, and it has exactly the symbols of the file and of class and enum bodies at any depth, with their container.", "quantifier": "all symbol trees of any depth", "why_tests_cant": "nesting of any depth", "anchors": ["crates/zubanls/src/request_handlers.rs nested_doc_symbols, flat_doc_symbols"]}
{"id": "C68", "title": "Relative paths in diagnostics lead back to the file", "statement": "For absolute paths without `..`, following the path shown in a diagnostic from the directory it is relative to leads to the file; for files inside that directory it is the rest of the path.", "quantifier": "all absolute paths of files and directories", "why_tests_cant": "all pairs of component sequences with any common prefix", "anchors": ["crates/vfs/src/lib.rs: path_relative_to"]}
{"id": "C69", "title": "The tokenizer always comes to an end", "statement": "For any code, however malformed, the tokenizer gives one finite sequence of tokens, with exactly one end marker, last and at the end of the code; it does not panic and does not leave the boundaries of characters.", "quantifier": "all texts", "why_tests_cant": "A test shows it for single texts; unfinished strings, brackets, blocks and continued lines combine without bound.", "anchors": ["crates/parsa_python/src/tokenizer.rs PythonTokenizer::next", "crates/parsa_python/src/tokenizer.rs skip_whitespace", "crates/parsa_python/src/tokenizer.rs handle_fstring_stack"]}
{"id": "C70", "title": "Tokens cover the code in order", "statement": "The tokens are in the code one after the other, each with its exact text; between two tokens there are only blanks, comments and continued lines, and ends of lines only at the beginning of a line or inside of brackets. Comments never become tokens.", "quantifier": "all texts and their token sequences", "why_tests_cant": "No finite set of files shows that nothing is skipped, given twice or reordered in other files.", "anchors": ["crates/parsa_python/src/tokenizer.rs PythonTokenizer::next", "crates/parsa_python/src/tokenizer.rs skip_whitespace", "crates/parsa_python/src/tokenizer.rs handle_fstring_stack"]}
{"id": "C71", "title": "Blocks follow the columns of the lines", "statement": "A block is opened exactly by a line farther to the right, closed by a line that is not to the right of the block around it, and every logical line is in the block of its column; a line between two columns gets an error token.", "quantifier": "all texts, all depths of blocks", "why_tests_cant": "Depths and columns are unbounded, and interact with brackets, f-strings and continued lines.", "anchors": ["crates/parsa_python/src/tokenizer.rs PythonTokenizer::next", "crates/parsa_python/src/tokenizer.rs skip_whitespace", "crates/parsa_python/src/tokenizer.rs handle_fstring_stack"]}
{"id": "C72", "title": "The longest operator is taken", "statement": "An operator token is the longest of Python's operators at that place, and an operator at that place is always recognised.", "quantifier": "all texts", "why_tests_cant": "The regular expression prefers by order of alternatives; tests cover single operators, not all continuations.", "anchors": ["crates/parsa_python/src/tokenizer.rs OPERATOR"]}
{"id": "C73", "title": "String and bytes literals end where Python ends them", "statement": "A text is recognised as a string or bytes literal exactly if it begins with a literal of Python's lexical grammar (prefix, short or long quotes, escapes, continued lines), and the token is exactly that literal; three quotes without an end are an error token.", "quantifier": "all texts, all literals of any length", "why_tests_cant": "Backtracking and preference in the regular expression for unbounded repetitions cannot be enumerated.", "anchors": ["crates/parsa_python/src/tokenizer.rs all_string_regexes", "crates/parsa_python/src/tokenizer.rs STRING", "crates/parsa_python/src/tokenizer.rs BYTES"]}
{"id": "C74", "title": "The text of f-strings is split like Python splits it", "statement": "In an f-string, the literal text between fields is one token: from the last field to the next brace that is not doubled, the end of the f-string or the end of the line, with escapes, names of characters and continued lines as in Python.", "quantifier": "all f-strings, nested or not, raw or not", "why_tests_cant": "Texts, escapes and nesting are unbounded.", "anchors": ["crates/parsa_python/src/tokenizer.rs handle_fstring_stack", "crates/parsa_python/src/tokenizer.rs UNICODE_CHARACTER_NAME"]}
{"id": "C75", "title": "Format specifications of f-strings are text", "statement": "A colon in a field outside of brackets begins a format specification, which is text up to a brace; nested fields in it are code again.", "quantifier": "all f-strings with format specifications", "why_tests_cant": "Nesting of fields and specifications is unbounded.", "anchors": ["crates/parsa_python/src/tokenizer.rs handle_fstring_stack", "crates/parsa_python/src/tokenizer.rs FStringNode"]}
{"id": "C76", "title": "Arguments are bound to parameters like Python does it", "statement": "For a call whose positional and named arguments are known: it is accepted if and only if Python does not raise a TypeError for the number and the names of the arguments, and then each value is compared with the annotation of the parameter that gets it, and with no other one.", "quantifier": "all signatures (positional-only, normal, *args, keyword-only, **kwargs, defaults) and all calls with positional, named and unpacked arguments of known length", "why_tests_cant": "Signatures, calls and the order of named arguments are unbounded.", "anchors": ["crates/zuban_python/src/params.rs InferrableParamIterator", "crates/zuban_python/src/matching/matcher/utils.rs match_arguments_against_params", "crates/zuban_python/src/arguments.rs ArgIteratorBase::next"]}
{"id": "C77", "title": "Every value that reaches a parameter is checked", "statement": "In an accepted call with unpacked iterables or mappings of unknown size, each value that reaches a parameter in some run in which Python accepts the call was compared with the annotation of that parameter.", "quantifier": "all signatures, all calls, all run-time lengths and names of the unpacked arguments", "why_tests_cant": "The lengths and names at run time are unbounded, and only known when the program runs.", "anchors": ["crates/zuban_python/src/params.rs InferrableParamIterator", "crates/zuban_python/src/matching/matcher/utils.rs match_arguments_against_params", "crates/zuban_python/src/arguments.rs ArgIteratorBase::next"]}
{"id": "C78", "title": "An accepted call can succeed", "statement": "For an accepted call there are lengths and names of the unpacked arguments with which Python does not raise a TypeError.", "quantifier": "all signatures, all calls", "why_tests_cant": "Needs an example for every accepted call.", "anchors": ["crates/zuban_python/src/params.rs InferrableParamIterator", "crates/zuban_python/src/matching/matcher/utils.rs match_arguments_against_params", "crates/zuban_python/src/arguments.rs ArgIteratorBase::next"]}
{"id": "C79", "title": "A call that can succeed is not refused", "statement": "If Python accepts a call for some lengths and names of the unpacked arguments, then no error about the number or names of arguments is reported.", "quantifier": "all signatures, all calls, all run-time lengths and names", "why_tests_cant": "The lengths and names at run time are unbounded.", "anchors": ["crates/zuban_python/src/params.rs InferrableParamIterator", "crates/zuban_python/src/matching/matcher/utils.rs match_arguments_against_params", "crates/zuban_python/src/arguments.rs ArgIteratorBase::next"]}
{"id": "C80", "title": "Refused calls have a true message", "statement": "A call is refused if and only if an error is reported; the internal unreachable!() in this code is never reached; and each message about a call with known arguments (too many, missing, unexpected or repeated arguments) is true.", "quantifier": "all signatures and calls", "why_tests_cant": "Combinations of wrong arguments are unbounded.", "anchors": ["crates/zuban_python/src/params.rs InferrableParamIterator", "crates/zuban_python/src/matching/matcher/utils.rs match_arguments_against_params", "crates/zuban_python/src/arguments.rs ArgIteratorBase::next", "crates/zuban_python/src/callable.rs has_keyword_param_with_name"]}
{"id": "C81", "title": "A function accepted in place of another can be called like it", "statement": "If a function with parameters P2 is accepted where parameters P1 are expected (assignment, argument, override, protocol), then every call that P1 allows is allowed by P2 at run time, and each value reaches a parameter whose type was compared with the type the value had to have.", "quantifier": "all pairs of signatures, all calls by position and by name", "why_tests_cant": "Pairs of signatures and calls are unbounded; the failures need a particular order of keyword-only parameters, defaults and **kwargs.", "anchors": ["crates/zuban_python/src/params.rs matches_simple_params", "crates/zuban_python/src/params.rs matches_simple_params_part2", "crates/zuban_python/src/params.rs match_star_star", "crates/zuban_python/src/params.rs is_trivial_suffix"]}
{"id": "C82", "title": "A function is accepted in place of itself", "statement": "Every signature is accepted where the same signature is expected.", "quantifier": "all signatures", "why_tests_cant": "Signatures are unbounded.", "anchors": ["crates/zuban_python/src/params.rs matches_simple_params", "crates/zuban_python/src/params.rs matches_simple_params_part2", "crates/zuban_python/src/params.rs match_star_star", "crates/zuban_python/src/params.rs is_trivial_suffix"]}
{"id": "C83", "title": "The order of keyword-only parameters does not matter", "statement": "A function that differs only in the order of its keyword-only parameters is accepted.", "quantifier": "all signatures and permutations of their keyword-only parameters", "why_tests_cant": "Permutations of unbounded lists of parameters.", "anchors": ["crates/zuban_python/src/params.rs matches_simple_params", "crates/zuban_python/src/params.rs matches_simple_params_part2", "crates/zuban_python/src/params.rs match_star_star", "crates/zuban_python/src/params.rs is_trivial_suffix"]}
{"id": "C84", "title": "Functions for Callable[[A, B], R] are accepted exactly if they can be called that way", "statement": "Where only positional parameters without names are expected (with or without defaults at the end), a function is accepted if and only if every call with these arguments is allowed and reaches parameters of fitting types.", "quantifier": "all lists of positional-only parameters, all signatures, all calls", "why_tests_cant": "Both directions range over all calls of all signatures.", "anchors": ["crates/zuban_python/src/params.rs matches_simple_params", "crates/zuban_python/src/params.rs matches_simple_params_part2", "crates/zuban_python/src/params.rs match_star_star", "crates/zuban_python/src/params.rs is_trivial_suffix"]}
{"id": "C85", "title": "A narrowed type holds of every value at the place it is reported for", "statement": "In a function made of assignments, assert, if/elif/else with and/or/not, return, raise and del of names it bound at its start, the type reported for a name or attribute where it is read contains every value it can have there in any run, and a read that can succeed is never reported as a read of a deleted name.", "quantifier": "all such programs, all type systems whose union, intersection and tests are sound, all runs from any environment that respects the declarations", "why_tests_cant": "the branches, tests and assignments combine without bound, and a test only sees the paths its author thought of", "anchors": ["crates/zuban_python/src/file/flow_analysis.rs: FlowAnalysis, Frame, Entry", "crates/zuban_python/src/file/diagnostics.rs: handle_stmt_like", "crates/zuban_python/src/file/flow_analysis.rs: merge_conditional, overwrite_entry, merge_or, merge_and, find_guards_in_named_expr"]}
{"id": "C86", "title": "Narrowed types hold in and after loops", "statement": "The same is true of functions with while and for loops, break, continue and loop else blocks: what is reported in the body holds in every round, and what is reported after the loop holds however the loop was left.", "quantifier": "all programs with loops, all numbers of rounds", "why_tests_cant": "the number of rounds is not bounded, and the wrong report shows up only in a later round", "anchors": ["crates/zuban_python/src/file/flow_analysis.rs: FlowAnalysis, Frame, Entry", "crates/zuban_python/src/file/diagnostics.rs: handle_stmt_like", "crates/zuban_python/src/file/flow_analysis.rs: process_loop, flow_analysis_for_break_stmt, merge_frames_for_index"]}
{"id": "C87", "title": "Narrowed types hold in except, else and finally blocks", "statement": "The same is true of functions with try and with statements: a handler can be entered after any part of the try block, and what is reported in the handler, in else and finally and after the statement holds in all these cases.", "quantifier": "all programs with try and with statements, all points at which an exception can be raised", "why_tests_cant": "an exception can be raised at any point of the block, and the handlers see what was done until then", "anchors": ["crates/zuban_python/src/file/flow_analysis.rs: FlowAnalysis, Frame, Entry", "crates/zuban_python/src/file/diagnostics.rs: handle_stmt_like", "crates/zuban_python/src/file/flow_analysis.rs: flow_analysis_for_try_stmt, with_new_try_frame, tryframes in overwrite_entry"]}
{"id": "C88", "title": "Assigning a name invalidates what is known of its attributes", "statement": "After an assignment to a name in any branch, what was known of the attributes and items of the old object is no longer reported for the new one.", "quantifier": "all programs with keys below other keys", "why_tests_cant": "the interaction depends on which of the two is assigned in which branch and in which frame the old knowledge is", "anchors": ["crates/zuban_python/src/file/flow_analysis.rs: invalidate_child_entries, merge_key_with_ancestor_assignment, maybe_has_primary_entry"]}
{"id": "C89", "title": "A name bound by := in a condition has its new type in both branches", "statement": "After a condition with := the name is reported with the type of the value it was bound to, in the branch where the condition holds, in the branch where it fails, and after both.", "quantifier": "all conditions with :=, and, or and not, in all surroundings", "why_tests_cant": "the binding happens in the middle of a condition that can be cut short", "anchors": ["crates/zuban_python/src/file/flow_analysis.rs: find_guards_in_named_expr, merge_conjunction, check_conjunction"]}
{"id": "C90", "title": "Deleted names and values of type Any", "statement": "A name is reported as deleted only where no run has it bound, and after assigning a value of type Any nothing that was found out before is reported for the name.", "quantifier": "all programs with del and assignments of Any", "why_tests_cant": "it depends on what was known in which frame before the statement", "anchors": ["crates/zuban_python/src/file/flow_analysis.rs: with_declaration, remove_key_if_modifies_ancestors, flow_analysis_for_del_stmt"]}
{"id": "C91", "title": "The end of a function is taken to be unreachable only if no run reaches it", "statement": "When zuban treats the end of a function as unreachable, and so does not ask for a return statement there, no run of the function reaches its end.", "quantifier": "all programs, all runs", "why_tests_cant": "that no run exists cannot be observed by running", "anchors": ["crates/zuban_python/src/file/flow_analysis.rs: with_new_func_frame_and_return_unreachable", "crates/zuban_python/src/file/diagnostics.rs: FunctionEndIsUnreachable"]}
{"id": "C92", "title": "The stacks of the flow analysis are balanced", "statement": "Analysing any statement takes away exactly the frames, try entries and loop details it has added: only the frame at the top can differ afterwards. No pop of these stacks fails, and what is known in the enclosing blocks is what it was before the nested block.", "quantifier": "all programs of assignments, asserts, conditions, loops, with, try, break, continue, return, and all states of the analysis", "why_tests_cant": "A test sees the nesting it was written with; an unbalanced push for one combination of a loop exit, an unreachable branch and a try block shows up only for that nesting.", "anchors": ["crates/zuban_python/src/file/flow_analysis.rs: with_frame, with_frame_and_result, with_new_try_frame, with_new_loop_frame, process_loop, flow_analysis_for_try_stmt"]}
{"id": "C93", "title": "Reported types are not wider than what occurs", "statement": "In a function, every value of a type that is reported where a key is read is the value of the key there in some run; and when the end of the function is taken to be reachable, there is a run that reaches it.", "quantifier": "all programs, all reads of names and attributes in them, all values of the reported types, over all runs", "why_tests_cant": "That a value can occur is a statement about all runs together; a test shows a type for one program and cannot show for all programs that merging branches does not widen types without need.", "anchors": ["crates/zuban_python/src/file/flow_analysis.rs: merge_conditional, merge_assignments_for_first_frame, merge_key_with_ancestor_assignment, overwrite_entries, from_type_without_entry, merge_or, merge_and"]}
{"id": "C94", "title": "A type that can be assigned to another has only values of the other", "statement": "If the comparison of two types without Any says that a value of type S can be assigned to T, then every value of S is a value of T. If it says that two types are the same, both have the same values. The meaning of types is any that follows the rules of Python: instances of a class are instances of its bases, the declared variances of type parameters are true, tuples consist of their items, unions of their members.", "quantifier": "all pairs of types built from classes with type arguments, literals, unions, tuples with and without *tuple[..], type[..], NewTypes and dataclasses, all sets of classes, all meanings of types that follow the rules", "why_tests_cant": "The types are nested without bound and every pair of kinds takes its own path; a test compares one pair of types and cannot speak about the values of all of them.", "anchors": ["crates/zuban_python/src/type_/matching.rs: is_super_type_of, is_same_type, matches, matches_internal, check_other_side, union_is_super_type_of, matches_class, matches_class_against_type, match_tuple_type_arguments_internal, match_unpack_internal, check_promotion"]}
{"id": "C95", "title": "Comparing two types ends, with one answer", "statement": "The comparison of any two types ends, and it cannot both accept and reject the same pair.", "quantifier": "all pairs of types, all sets of classes", "why_tests_cant": "A test can only show that a comparison ends for the types it was written with; a class that is a type argument of its own base may send the comparison around for ever.", "anchors": ["crates/zuban_python/src/type_/matching.rs: is_super_type_of, is_same_type, matches_class, check_class_promotion, check_other_side"]}
{"id": "C96", "title": "Every type can be assigned to itself", "statement": "A type is accepted where the same type is expected, and is the same as itself.", "quantifier": "all types, all sets of classes", "why_tests_cant": "Types are nested without bound, so the paths through the comparison that a type takes against itself cannot be listed.", "anchors": ["crates/zuban_python/src/type_/matching.rs: is_super_type_of, is_same_type, matches_internal"]}
{"id": "C97", "title": "Any, Never and object are compatible with every type", "statement": "Any and Never can be assigned to every type, everything can be assigned to Any and to object, and Any is the same as every type as far as invariance is concerned.", "quantifier": "all types, all sets of classes", "why_tests_cant": "The other type is arbitrary and decides which path is taken; tests only use a handful.", "anchors": ["crates/zuban_python/src/type_/matching.rs: matches_internal, check_other_side, is_super_type_of", "crates/zuban_python/src/type_helpers/class.rs: MroIterator"]}
{"id": "C98", "title": "Unions accept their members, and unions of what they accept", "statement": "What can be assigned to a member of a union can be assigned to the union, and if every member of one union can be assigned to another then the union can.", "quantifier": "all unions, all types, all sets of classes", "why_tests_cant": "Members of unions are arbitrary types, and a fast path for one kind of member can be missing for the union although it exists for the member alone.", "anchors": ["crates/zuban_python/src/type_/matching.rs: union_is_super_type_of, check_other_side, is_super_type_of", "crates/zuban_python/src/type_/union.rs: bool_literal_count"]}
{"id": "C99", "title": "The common base type has room for both types", "statement": "The type that is inferred for a list display, a conditional expression or a type variable with several arguments is the common base type of several types. Every value of each of these types is a value of it.", "quantifier": "all pairs and lists of types, all class hierarchies, variances and promotions, all ways to form unions that have room for both parts", "why_tests_cant": "It is a statement about all values of all types in all class hierarchies; tests look at the names of a few results.", "anchors": ["crates/zuban_python/src/type_/common_base_type.rs: common_base_type, common_base_type_internal, common_base_class, common_base_type_from_iterator, TupleArgs::common_base_type"]}
{"id": "C100", "title": "The common subtype has only values of both types", "statement": "When two narrowed types are known to hold at once, the common subtype replaces them. It has only values that both have, and if there is said to be none then no value is in both.", "quantifier": "all pairs of types, all class hierarchies and variances", "why_tests_cant": "It is a statement about all values of all types; a test can only compare printed types.", "anchors": ["crates/zuban_python/src/type_/common_sub_type.rs: common_sub_type, common_sub_type_for_union, TupleArgs::common_sub_type", "crates/zuban_python/src/type_/mod.rs: union"]}
{"id": "C101", "title": "isinstance loses no values", "statement": "After `if isinstance(x, T)`, the value of x is in the type that x has in the branch that runs: in the narrowed type where the test is true, and in the other type where it is false. The same holds for issubclass, TypeIs and class patterns.", "quantifier": "all types, all class tuples, all class hierarchies and all values, whatever subtyping, unions and intersections answer as long as they are right", "why_tests_cant": "A lost value shows only for a value that no test constructs, for example an object of a class with multiple inheritance or an int in a float variable.", "anchors": ["crates/zuban_python/src/file/flow_analysis.rs: split_and_intersect, replace_promoted, intersect"]}
{"id": "C102", "title": "isinstance invents no values", "statement": "The type of x after a true isinstance test has only values of the tested classes, and the type after a false test has only values of the type x had before.", "quantifier": "all types, all class tuples, all class hierarchies and all values", "why_tests_cant": "It is a statement about all values of the results for all types.", "anchors": ["crates/zuban_python/src/file/flow_analysis.rs: split_and_intersect, replace_promoted"]}
{"id": "C103", "title": "Assignable types overlap", "statement": "If a value of type A can be assigned to a variable of type B, or the other way round, then comparing the two with ==, is or in under strict equality is not refused by the overlap test, and isinstance with them does not make code unreachable: overlaps(A, B) is true.", "quantifier": "all pairs of types, in both orders, all class hierarchies with generic classes of any variance, all lists of classes that are allowed to overlap", "why_tests_cant": "The overlap test is a second implementation beside the comparison of types, with cases of its own for unions, literals, tuples, generic classes and metaclasses; that it never contradicts the comparison is a statement about all pairs of types.", "anchors": ["crates/zuban_python/src/type_/overlaps.rs: Type::overlaps, overlaps_type_of_type_against_other, TupleArgs::overlaps, Class::overlaps", "crates/zuban_python/src/type_/matching.rs: is_super_type_of, is_sub_type_of"]}
{"id": "C104", "title": "A solved type argument fits every argument of the call", "statement": "When a call of a generic function is accepted, the type that was inferred for a type variable is a supertype of every type that was matched with it as an argument, a subtype of every type that was matched contravariantly, and equivalent to every type that was matched invariantly. Solving never panics.", "quantifier": "all sequences of types with any variances matched with a type variable, with or without an expected type, with a bound, constraints or neither, all class hierarchies", "why_tests_cant": "The state of a type variable is updated by a table of cases over five kinds of bounds and three variances, and every order of every number of arguments leads to another path through it; that the result fits all earlier arguments is an invariant over all sequences.", "anchors": ["crates/zuban_python/src/matching/matcher/type_var_matcher.rs: CalculatingTypeArg::merge, merge_or_mismatch, update_upper_bound, update_lower_bound, match_or_add_type_var", "crates/zuban_python/src/matching/matcher/bound.rs: Bound, BoundKind"]}
{"id": "C105", "title": "A generic call is accepted exactly if it can be solved", "statement": "A call of a generic function is accepted exactly if there is some type for the type variable that fits all arguments; the type chosen is the least of them, or the greatest if all arguments only set upper bounds; and the order of the arguments matters neither for whether the call is accepted nor for the type.", "quantifier": "all sequences of types with any variances, all orders of them, all type orders with least upper and greatest lower bounds", "why_tests_cant": "Completeness says that no solvable call is refused; it quantifies over all types that could have been a solution and over all permutations of the arguments.", "anchors": ["crates/zuban_python/src/matching/matcher/type_var_matcher.rs: CalculatingTypeArg::merge, merge_or_mismatch, update_upper_bound, update_lower_bound, match_or_add_type_var", "crates/zuban_python/src/matching/matcher/bound.rs: Bound, BoundKind"]}
{"id": "C106", "title": "Solutions stay within the bound and the constraints", "statement": "The type inferred for a type variable with a bound is within the bound, and the type inferred for a type variable with constraints is one of the constraints (or Any, or another type variable with constraints that are all covered).", "quantifier": "all bounds, all constraint lists, all sequences of matched types", "why_tests_cant": "Every matched type is compared with the bound alone, but the result is a type made from several of them; whether that is still within the bound depends on all combinations.", "anchors": ["crates/zuban_python/src/matching/matcher/type_var_matcher.rs: match_or_add_type_var, check_constraints"]}
{"id": "C107", "title": "Constraints between type variables are kept when they are solved", "statement": "When type variables of a call depend on each other, the type that is chosen for those of a cycle fits all types matched with each of them and all constraints to other type variables, after replacing those with their solutions, in the direction the constraint was found.", "quantifier": "all cycles of type variables, all bounds of them and all lists of transitive constraints", "why_tests_cant": "The solution is put together from several variables and substituted constraints of both directions; the combinations are unbounded.", "anchors": ["crates/zuban_python/src/matching/matcher/mod.rs: resolve_cycle", "crates/zuban_python/src/matching/matcher/bound.rs: replace_type_var_likes"]}
{"id": "C108", "title": "Every name is connected with the variable of Python's scope rules", "statement": "In every file, each name that is used is connected with a definition of exactly the variable that Python would use: the one of the nearest scope that binds the name anywhere, where classes do not count for the functions, lambdas and comprehensions in them, every `for` of a comprehension is a scope of its own and `:=` binds outside of comprehensions. Names that no scope binds, and only those, are left for the builtins.", "quantifier": "all files: all nestings of functions, classes, lambdas, comprehensions, loops and blocks, with any names bound and used anywhere", "why_tests_cant": "The result for one name depends on everything that is bound anywhere in all scopes around it, and scopes are walked over in another order than they are written in; tests have a few nestings.", "anchors": ["crates/zuban_python/src/file/name_binder.rs: NameBinder, index_stmts, index_non_block_node_full, index_comprehension_clause, maybe_add_reference, index_unordered_references, close, with_nested", "crates/zuban_python/src/utils.rs: SymbolTable"]}
{"id": "C109", "title": "global and nonlocal find their variable", "statement": "A `global` statement is connected with the variable of the module and a `nonlocal` statement with the one of the nearest function around it that binds the name, wherever that is; a `nonlocal` statement is reported exactly if there is no such function.", "quantifier": "all files with any nesting of scopes and any positions of the statements and the bindings", "why_tests_cant": "The variable may be bound after the function that declares it, at any distance in the nesting.", "anchors": ["crates/zuban_python/src/file/name_binder.rs: lookup_in_global_scope, lookup_nonlocal_in_parents, NameDefParent::GlobalStmt, NameDefParent::NonlocalStmt"]}
{"id": "C110", "title": "Names that are bound before they are used are not reported", "statement": "If every name is bound above its use, or anywhere in the loop around its use, no use before the definition is reported in the file.", "quantifier": "all files in which names are bound before they are used", "why_tests_cant": "A false report needs a combination of loops, nested scopes and postponed work; the absence of all of them is a claim about every file.", "anchors": ["crates/zuban_python/src/file/name_binder.rs: index_unordered_references, maybe_add_reference, index_for_stmt, index_while_stmt"]}
{"id": "C111", "title": "Binding names ends for every file", "statement": "The name binder finishes every file, however functions, classes, lambdas and comprehensions are nested in it, although the list of postponed work grows while it is worked off.", "quantifier": "all files", "why_tests_cant": "Termination of a work list that grows is not something that can be observed by running examples.", "anchors": ["crates/zuban_python/src/file/name_binder.rs: NameBinder::close, index_stmts"]}
{"id": "C112", "title": "Conditions that are decided statically have that value in Python", "statement": "If the type checker decides a condition about `sys.version_info`, `sys.platform`, `TYPE_CHECKING` or a configured name, then the condition has this value in every run with the configured version, platform and names, for the rules of Python for comparing tuples.", "quantifier": "all settings, all conditions built with `and`, `or`, `not`, parentheses and comparisons, all runs that fit the settings", "why_tests_cant": "conditions and version numbers are unbounded, and tests try a handful of idioms; reversed comparisons and tuples that are a prefix of the version are not among them", "anchors": ["crates/zuban_python/src/file/name_binder.rs: is_expr_part_reachable_for_name_binder, check_comparison_reachability, python_version_matches_tuple, python_version_matches_slice, Truthiness", "crates/config/src/lib.rs: Settings::python_version_or_default, computed_platform"]}
{"id": "C113", "title": "The branch that Python executes is bound and checked", "statement": "Of every `if` chain, the names of the branch that Python executes are bound and its statements are checked, and members of typed dicts and named tuples in it are found; branches that are known to be dead are skipped.", "quantifier": "all chains of `if`, `elif` and `else`, all settings and runs that fit them", "why_tests_cant": "the marks of one branch depend on all branches before it, and three parts of the code read them in different ways", "anchors": ["crates/zuban_python/src/file/name_binder.rs: is_expr_part_reachable_for_name_binder, check_comparison_reachability, python_version_matches_tuple, python_version_matches_slice, Truthiness", "crates/config/src/lib.rs: Settings::python_version_or_default, computed_platform", "crates/zuban_python/src/file/name_binder.rs: index_if_stmt", "crates/zuban_python/src/file/flow_analysis.rs: process_ifs", "crates/zuban_python/src/file/utils.rs: for_each_reachable_if_stmt_block_and_return_reachability_always_known"]}
{"id": "C114", "title": "The usual conditions are always decided", "statement": "Comparisons of `sys.version_info` with one or two numbers, of its first number, of `sys.platform`, and their combinations are decided for every setting, so exactly one branch of `if` and `else` is checked.", "quantifier": "all numbers below 2^64, all platforms, all combinations", "why_tests_cant": "numbers and combinations are unbounded", "anchors": ["crates/zuban_python/src/file/name_binder.rs: is_expr_part_reachable_for_name_binder, check_comparison_reachability, python_version_matches_tuple, python_version_matches_slice, Truthiness", "crates/config/src/lib.rs: Settings::python_version_or_default, computed_platform", "crates/zuban_python/src/file/name_binder.rs: index_if_stmt", "crates/zuban_python/src/file/flow_analysis.rs: process_ifs", "crates/zuban_python/src/file/utils.rs: for_each_reachable_if_stmt_block_and_return_reachability_always_known"]}
{"id": "C115", "title": "Conditions never make the type checker panic", "statement": "Whatever numbers and tuples are compared with `sys.version_info`, the name binder does not panic.", "quantifier": "all conditions and chains", "why_tests_cant": "panics come from numbers at the end of the range of machine integers, which tests do not use", "anchors": ["crates/zuban_python/src/file/name_binder.rs: is_expr_part_reachable_for_name_binder, check_comparison_reachability, python_version_matches_tuple, python_version_matches_slice, Truthiness", "crates/config/src/lib.rs: Settings::python_version_or_default, computed_platform"]}
{"id": "C116", "title": "Blocks for the type checker only are those that do not run", "statement": "A block that is taken for one that only the type checker sees does not run if `TYPE_CHECKING` is false, and blocks behind `TYPE_CHECKING` with other known conditions are taken for such blocks.", "quantifier": "all conditions, all runs in which `TYPE_CHECKING` is false", "why_tests_cant": "the flag is combined over conditions of any size", "anchors": ["crates/zuban_python/src/file/name_binder.rs: is_expr_part_reachable_for_name_binder, check_comparison_reachability, python_version_matches_tuple, python_version_matches_slice, Truthiness", "crates/config/src/lib.rs: Settings::python_version_or_default, computed_platform", "crates/zuban_python/src/file/flow_analysis.rs: with_in_type_checking_only_block"]}
{"id": "C117", "title": "The `__init__` of a dataclass is the one that Python generates", "statement": "For every dataclass of a program, the parameters of `__init__` are those that `dataclasses` generates: the same names in the same order, the same keyword-only ones, the same defaults and types, through any inheritance.", "quantifier": "all programs of dataclasses, all MROs, all fields with `init`, `kw_only`, defaults, `InitVar`, `ClassVar` and `KW_ONLY`", "why_tests_cant": "inheritance chains and overrides are unbounded, and the place of a parameter depends on all classes before", "anchors": ["crates/zuban_python/src/type_/dataclass.rs: calculate_init_of_dataclass, add_param, calculate_field_arg, FieldOptions, DataclassOptions"]}
{"id": "C118", "title": "Errors of dataclasses are those of Python", "statement": "An error is reported for a dataclass exactly if the decorator raises a `TypeError` for mixed frozen classes, a second `KW_ONLY` or a field without default after one with default; the field is the one that Python names; afterwards the signature is valid.", "quantifier": "all programs of dataclasses", "why_tests_cant": "which field is the first bad one depends on all bases", "anchors": ["crates/zuban_python/src/type_/dataclass.rs: calculate_init_of_dataclass, add_param, calculate_field_arg, FieldOptions, DataclassOptions"]}
{"id": "C119", "title": "Dataclasses never make the type checker panic", "statement": "Whatever fields, defaults and aliases dataclasses have, the calculation of `__init__` ends without a panic.", "quantifier": "all programs of dataclasses", "why_tests_cant": "the panic needs an alias with an escape after a default", "anchors": ["crates/zuban_python/src/type_/dataclass.rs: calculate_init_of_dataclass, add_param, calculate_field_arg, FieldOptions, DataclassOptions"]}
{"id": "C120", "title": "`__post_init__` gets the parameters that Python passes", "statement": "For every dataclass, the parameters of `__post_init__` are the `InitVar`s in the order of the fields of Python.", "quantifier": "all programs of dataclasses with `InitVar`s", "why_tests_cant": "the order depends on all bases and their keyword-only fields", "anchors": ["crates/zuban_python/src/type_/dataclass.rs: calculate_init_of_dataclass, add_param, calculate_field_arg, FieldOptions, DataclassOptions"]}
{"id": "C121", "title": "`__match_args__` are those of Python", "statement": "For every dataclass, `__match_args__` has the names of the fields that are parameters of `__init__` and not keyword-only, in the order of the fields.", "quantifier": "all programs of dataclasses", "why_tests_cant": "inheritance chains are unbounded", "anchors": ["crates/zuban_python/src/type_/dataclass.rs: calculate_init_of_dataclass, add_param, calculate_field_arg, FieldOptions, DataclassOptions", "crates/zuban_python/src/type_/dataclass.rs: dunder_match_args_tuple"]}
{"id": "C122", "title": "`dataclasses.replace` wants exactly the arguments that Python wants", "statement": "A call of `dataclasses.replace` takes the parameters of `__init__` as keyword arguments and must have exactly the `InitVar`s without default.", "quantifier": "all programs of dataclasses, all classes in them", "why_tests_cant": "frozen and other dataclasses look up fields in different ways", "anchors": ["crates/zuban_python/src/type_/dataclass.rs: calculate_init_of_dataclass, add_param, calculate_field_arg, FieldOptions, DataclassOptions", "crates/zuban_python/src/type_/dataclass.rs: dataclasses_replace, lookup_on_dataclass"]}
{"id": "C123", "title": "Typed dicts stay right whatever a program does with them", "statement": "If a program without issues uses a dictionary through several types that are accepted for it (typed dicts, `dict`, `Mapping`) and sets, deletes, pops and updates keys through any of them, the dictionary always has the required keys and the types of values that all of these types declare.", "quantifier": "all typed dicts with all combinations of required, read-only and extra items, all chains of assignments between types, all sequences of operations, all dictionaries", "why_tests_cant": "an unsound assignment is only visible after a write through another alias, and the combinations are unbounded", "anchors": ["crates/zuban_python/src/type_/typed_dict.rs: is_super_type_of, find_entry, can_be_emptied, can_be_overwritten_with", "crates/zuban_python/src/type_/typed_dict.rs: typed_dict_setitem_internal, typed_dict_get_or_pop_internal, typed_dict_setdefault_internal, typed_dict_update_internal", "crates/zuban_python/src/type_/matching.rs: TypedDict arms"]}
{"id": "C124", "title": "Values that are read from a typed dict have the inferred types", "statement": "For every dictionary that fits a typed dict, `d[k]`, `d.get(k, x)`, `d.pop(k, x)`, `d.setdefault(k, x)`, `d.values()` and `d.popitem()` give a value of the type that is inferred, whether the key is there or not; `d[k]` is accepted for exactly the keys that can be there.", "quantifier": "all typed dicts, keys that are one or several literals or any string, all defaults, all dictionaries", "why_tests_cant": "whether the default is part of the type depends on all keys of a union of literals", "anchors": ["crates/zuban_python/src/type_/typed_dict.rs: typed_dict_get_or_pop_internal, typed_dict_setdefault_internal, union_of_all_types, lookup"]}
{"id": "C125", "title": "Calls of typed dicts make dictionaries that fit", "statement": "A call of a typed dict is accepted if, and only if, all keyword arguments are members or extra items with types that fit and all required members are given; the dictionary that is made then fits the typed dict, and a call for which missing keys are reported makes none that fits.", "quantifier": "all typed dicts, all lists of arguments, all values", "why_tests_cant": "number of members and arguments is unbounded", "anchors": ["crates/zuban_python/src/type_/typed_dict.rs: check_typed_dict_call, infer_typed_dict_arg"]}
{"id": "C126", "title": "Subclasses of typed dicts can be used as their bases", "statement": "If the definition of a typed dict class has no issues, its values fit every base class, can be changed through it and stay right, and the class is accepted for the base class; its members have different names.", "quantifier": "all lists of base classes, members, `closed` and `extra_items`", "why_tests_cant": "combinations of bases, overriding members and extra items are unbounded", "anchors": ["crates/zuban_python/src/file/type_computation/class.rs: initialize_typed_dict_members", "crates/zuban_python/src/file/type_computation/typed_dict.rs: TypedDictMemberGatherer, calc_extra_items_type"]}
{"id": "C127", "title": "Joins and meets of typed dicts are supertypes and subtypes", "statement": "Values of two typed dicts can be used as their common base type and stay right, values of their common subtype can be used as both typed dicts, the common base type keeps all members that both have, and it is not accepted for a typed dict with more members.", "quantifier": "all pairs of typed dicts, all dictionaries and operations", "why_tests_cant": "joins appear implicitly in conditional expressions and lists", "anchors": ["crates/zuban_python/src/type_/typed_dict.rs: union, intersection", "crates/zuban_python/src/type_/matching.rs: TypedDict shortcut for the same definition"]}
{"id": "C128", "title": "`key in d` does not remove the typed dict in the branch that is executed", "statement": "For every typed dict, `if key in d` with literal keys keeps the typed dict in the true branch if the dictionary can have the key, and in the false branch if it can be missing.", "quantifier": "all typed dicts, all unions of literal keys, all dictionaries", "why_tests_cant": "depends on final classes, extra items and unions of keys", "anchors": ["crates/zuban_python/src/file/flow_analysis.rs: narrowing of `in` for typed dicts"]}
{"id": "C129", "title": "Assignability of typed dicts is reflexive and transitive", "statement": "Every typed dict is accepted for itself, and if one is accepted for a second and the second for a third, the first is accepted for the third.", "quantifier": "all typed dicts with all combinations of required, read-only and extra items", "why_tests_cant": "triples of typed dicts are unbounded, pairs in tests do not show a missing third", "anchors": ["crates/zuban_python/src/type_/typed_dict.rs: is_super_type_of"]}
{"id": "C130", "title": "Operations on typed dicts that are safe are accepted", "statement": "Setting, deleting and `setdefault` are accepted for members and extra items that are not read-only (and not required when deleted) with values that fit; `clear` is accepted exactly if all keys can be removed, and typed dicts whose keys all behave like those of `dict[str, t]` are accepted for it.", "quantifier": "all typed dicts, keys and types", "why_tests_cant": "the conditions range over all members", "anchors": ["crates/zuban_python/src/type_/typed_dict.rs: typed_dict_setitem_internal, typed_dict_get_or_pop_internal, can_be_emptied, can_be_overwritten_with"]}
{"id": "C131", "title": "Calls of overloaded functions have right types", "statement": "If a call of an overloaded function is accepted without an issue, everything the function can return for values of the types of the arguments has the type of the call, provided that each overload tells the truth about the values it accepts.", "quantifier": "all overloads, all arguments (with unions, enums, bool and tuples), all functions that satisfy the overloads, with and without a context", "why_tests_cant": "functions, values and combinations of unions are unbounded", "anchors": ["crates/zuban_python/src/type_helpers/overload.rs: execute_internal, find_matching_function, check_union_math"]}
{"id": "C132", "title": "The first overload that accepts the arguments is chosen", "statement": "A call has the return type of the first overload that accepts its arguments if the overloads before it reject them, and is reported if the overloads reject the arguments and all of them reject one combination of entries of the unions.", "quantifier": "all lists of overloads and arguments", "why_tests_cant": "overloads can stand at any position between any others", "anchors": ["crates/zuban_python/src/type_helpers/overload.rs: find_matching_function"]}
{"id": "C133", "title": "Unions in arguments are split exactly", "statement": "The types into which an argument is split for union math have all its values and no others, and tuples are split into at most 20 types.", "quantifier": "all types, with nested tuples", "why_tests_cant": "types are nested without bound, and the numbers of entries interact", "anchors": ["crates/zuban_python/src/type_/mod.rs: maybe_union_like_with_materializations"]}
{"id": "C134", "title": "Union math is exact", "statement": "Union math succeeds exactly if fewer than five arguments are split and each combination of entries is accepted by an overload; its type has exactly the values of the return types of the overloads chosen for the combinations, and it never crashes.", "quantifier": "all arguments and overloads", "why_tests_cant": "the combinations are a product of unbounded unions", "anchors": ["crates/zuban_python/src/type_helpers/overload.rs: check_union_math"]}
{"id": "C135", "title": "A call is accepted if each combination has an overload", "statement": "A call is accepted without an issue if each combination of entries of its arguments is accepted by an overload and fewer than five arguments are split.", "quantifier": "all arguments and overloads", "why_tests_cant": "the combinations are a product of unbounded unions", "anchors": ["crates/zuban_python/src/type_helpers/overload.rs: find_matching_function", "crates/zuban_python/src/arguments.rs: should_do_union_math_for_overloads"]}
{"id": "C136", "title": "The type of a call without an overload has room for all overloads", "statement": "If no overload can be chosen, the type of the call has the values of the return types of all overloads, and is their common return type if there is one.", "quantifier": "all lists of overloads with all return types", "why_tests_cant": "return types are nested without bound", "anchors": ["crates/zuban_python/src/type_helpers/overload.rs: execute_internal", "crates/zuban_python/src/type_/mod.rs: merge_matching_parts"]}
{"id": "C137", "title": "Arguments of type Any do not lead to a wrong overload", "statement": "If arguments with Any stand for other arguments, the type of the call has all values of the type of the call with those.", "quantifier": "all arguments with Any, all arguments they stand for, all overloads", "why_tests_cant": "Any stands for all types", "anchors": ["crates/zuban_python/src/type_helpers/overload.rs: find_matching_function, are_any_arguments_ambiguous_in_overload"]}
{"id": "C138", "title": "Tests of lengths narrow to types the value has", "statement": "In the branch of `if len(x) op n` (or `n op len(x)`) that Python executes, the value has the type that the checker gives `x` there, and neither branch gets a type that adds values.", "quantifier": "all unions of tuples and other types, all operators, all numbers, all values", "why_tests_cant": "tuples of arbitrary length and unions of any size", "anchors": ["crates/zuban_python/src/file/flow_analysis.rs: narrow_len, narrow_len_for_tuples, find_guards_in_comparisons"]}
{"id": "C139", "title": "Tests of lengths are exact for short tuples", "statement": "For numbers below 8 the branch of `if len(x) op n` in which the test holds has only values for which it holds, for all operators but `!=`; the other branch has only values for which it does not hold, for all operators but `==` (no type says that a length is not a given one). The checker draws no conclusion exactly from negative numbers.", "quantifier": "all unions of tuples, all operators, all numbers below 8", "why_tests_cant": "tuples of arbitrary length", "anchors": ["crates/zuban_python/src/file/flow_analysis.rs: narrow_len, narrow_len_for_tuples"]}
{"id": "C140", "title": "Tests of lengths do not crash the checker", "statement": "The narrowing by a test of a length never crashes.", "quantifier": "all unions of tuples, all operators, all numbers", "why_tests_cant": "the crash depends on the relation of a number in the program to the shape of a type", "anchors": ["crates/zuban_python/src/file/flow_analysis.rs: narrow_len_for_tuples"]}
{"id": "C141", "title": "Comparisons narrow to types the value has", "statement": "In the branch of `if x == y` or `if x is y` that Python executes if the test holds, the value of `x` has the type that the checker gives it there.", "quantifier": "all types of both operands (unions of classes, literals, enums, members, None, sentinels, type variables), all values", "why_tests_cant": "equality can relate values of different types; values are unbounded", "anchors": ["crates/zuban_python/src/file/flow_analysis.rs: narrow_is_or_eq, split_off_enum_member, split_off_singleton"]}
{"id": "C142", "title": "Failed comparisons narrow to types the value has", "statement": "In the branch of `if x == y` or `if x is y` that Python executes if the test does not hold, the value of `x` has the type that the checker gives it there.", "quantifier": "all types of both operands, all values", "why_tests_cant": "values and unions are unbounded", "anchors": ["crates/zuban_python/src/file/flow_analysis.rs: narrow_is_or_eq, split_off_enum_member, split_off_singleton"]}
{"id": "C143", "title": "Chains of `is` tests are known to be exhaustive", "statement": "After a chain of `is` tests nothing is left of a finite type exactly if each of its values was tested.", "quantifier": "all unions of enums, members, literals, bool, None and sentinels, all lists of tests in all orders", "why_tests_cant": "enums and chains of any length", "anchors": ["crates/zuban_python/src/file/flow_analysis.rs: narrow_is_or_eq, split_off_enum_member, split_off_singleton"]}
{"id": "C144", "title": "Tests with `in` and chains of comparisons narrow to types the value has", "statement": "In both branches of `if x in (a, b)`, `if x in container` and `if x is a is b` the value of `x` has the type that the checker gives it there.", "quantifier": "all types of the operands, all values, tuples and chains of any length", "why_tests_cant": "tuples and chains of any length", "anchors": ["crates/zuban_python/src/file/flow_analysis.rs: guard_of_in_operator, find_comparison_chain_guards"]}
{"id": "C145", "title": "Tests of `type(x)` narrow to types the value has", "statement": "In both branches of `if type(x) == y` the value of `x` has the type that the checker gives it there.", "quantifier": "all types, all classes, all values", "why_tests_cant": "class hierarchies are unbounded", "anchors": ["crates/zuban_python/src/file/flow_analysis.rs: check_for_comparison_guard"]}
{"id": "C146", "title": "Tests of truth narrow to types the value has", "statement": "In both branches of `if x` the value of `x` has the type that the checker gives it there.", "quantifier": "all types, all classes with and without `__bool__` and `__len__`, all values", "why_tests_cant": "class hierarchies and values are unbounded", "anchors": ["crates/zuban_python/src/file/flow_analysis.rs: split_truthy_and_falsey_t"]}
{"id": "C147", "title": "Names in an enum are reserved as in Python", "statement": "A name in the body of an enum class is left out of the members because of its form exactly if Python reserves names of that form in that class (`_x_`, `__x__` and, after the compiler has mangled the name, private names).", "quantifier": "all class names and all names", "why_tests_cant": "infinitely many names; mangling and three tests interact", "anchors": ["crates/zuban_python/src/file/type_computation/class.rs: enum_members"]}
{"id": "C148", "title": "The members of an enum are those of Python", "statement": "The members of an enum class are those that Python makes when it executes the body, in the same order, and looking up a name finds exactly the member that Python finds (aliases included).", "quantifier": "all bodies of enum classes (assignments, functions and classes with decorators, other definitions), all versions of Python", "why_tests_cant": "bodies of any length, with all orders of definitions and references between them", "anchors": ["crates/zuban_python/src/file/type_computation/class.rs: enum_members, maybe_valid_enum_member_assignment", "crates/zuban_python/src/type_/enum_.rs: Enum::lookup, lookup_members_or_aliases_on_enum"]}
{"id": "C149", "title": "The members of an enum come in the order of the text", "statement": "The members of an enum do not depend on the order in which the hash map of the class yields its names, and come in the order of the text.", "quantifier": "all symbol tables, all orders of their entries", "why_tests_cant": "the order of a hash map is not under the control of a test", "anchors": ["crates/zuban_python/src/file/type_computation/class.rs: enum_members"]}
{"id": "C150", "title": "The names of an enum that is made by a call are those of Python", "statement": "For `Enum(\"E\", \"A B\")` the names of the members are those into which Python splits the text, each is saved as the right part of the file, and names that are used twice are reported.", "quantifier": "all texts", "why_tests_cant": "all texts with all characters, some of which have more than one byte", "anchors": ["crates/zuban_python/src/file/type_computation/enum_.rs: split_enum_members, EnumMembers::add_member"]}
{"id": "C151", "title": "The body of a case sees the right subject", "statement": "If the subject of a match statement has a value of its type and the value matches the pattern of a case, then the value has the type that the subject has in the body of the case. A body for which the subject is Never is not executed.", "quantifier": "all patterns (names, values, classes with arguments, sequences with a star, alternatives, nested in any way), all types, all values", "why_tests_cant": "patterns and types nest without a bound, and each kind of pattern meets each kind of type", "anchors": ["crates/zuban_python/src/file/flow_analysis.rs: find_guards_in_pattern_kind, find_guards_in_or_pattern, find_guards_in_class_pattern, find_guards_in_sequence_pattern, assign_tup_for_sequence_patterns", "crates/zuban_python/src/matching/mod.rs: unpack_next_with_customized_after"]}
{"id": "C152", "title": "The names of a pattern have the right types", "statement": "If a value matches a pattern, then each name that Python binds has a value of the type that the type checker infers for the name.", "quantifier": "all patterns, all types, all values", "why_tests_cant": "the types of names come from entries, items, attributes and rest lists in any nesting", "anchors": ["crates/zuban_python/src/file/flow_analysis.rs: find_guards_in_pattern_kind, assign_sequence_patterns, assign_tup_for_sequence_patterns, find_guards_in_class_pattern_part2"]}
{"id": "C153", "title": "What a case leaves is right", "statement": "If a value of the type of the subject does not match a pattern, then it has the type that the subject has after the case; neither branch adds values; a pattern that always matches leaves nothing.", "quantifier": "all patterns, all types, all values", "why_tests_cant": "a wrong remainder shows only with values that fail deep inside of a pattern", "anchors": ["crates/zuban_python/src/file/flow_analysis.rs: find_guards_in_pattern_kind, find_guards_in_or_pattern, find_guards_in_class_pattern_part2, assign_tup_for_sequence_patterns"]}
{"id": "C154", "title": "A match statement that is exhaustive executes a case", "statement": "If the type checker finds that nothing is left after the cases of a match statement, then one of them is executed; a value that falls through has the type that is left; in the body of the case that is executed the subject and the names have the inferred types.", "quantifier": "all lists of cases with and without guards, all types and values of the subject", "why_tests_cant": "statements have any number of cases, guards may hold or not", "anchors": ["crates/zuban_python/src/file/flow_analysis.rs: process_match_cases_and_return_rest", "crates/parsa_python_cst/src/match_stmt.rs: maybe_simple_name_assignments"]}
{"id": "C155", "title": "A mapping pattern says the truth about the subject in the body of its case", "statement": "If a value of the type of the subject matches a mapping pattern, then it has the type that the checker gives to the subject in the body of the case; in particular, a case whose body is reported as unreachable is never executed. A typed dict is excluded if a key of the pattern is not a string, or if the typed dict is closed and has no such member. The subject gets no new members of its union, neither in the body nor after the case.", "quantifier": "all mapping patterns with nested patterns, all unions with typed dicts and other types, all values", "why_tests_cant": "A test tries a few typed dicts and patterns; the statement is about all combinations of required, optional, unknown and extra keys with literal and dotted keys and about all nested patterns.", "anchors": ["crates/zuban_python/src/file/flow_analysis.rs: find_guards_in_typed_dict_for_mapping_pattern, assign_key_value_to_mapping_pattern, find_guards_in_pattern_kind", "crates/zuban_python/src/type_/typed_dict.rs: find_member, is_closed", "crates/zuban_python/src/type_/mod.rs: might_be_string"]}
{"id": "C156", "title": "A typed dict is gone after a case only if its mapping pattern always matches", "statement": "If a value of the type of the subject does not match a mapping pattern, then it has the type that the subject has after the case. So if nothing is left, all values of the type match and the statement is exhaustive. Typed dicts in which all keys of the pattern are required are gone after the case if the patterns of the values match everything. With the settings of Mypy, and for subjects that are not typed dicts, a mapping pattern changes nothing for the cases that follow.", "quantifier": "all mapping patterns with nested patterns, all unions with typed dicts and other types, all values", "why_tests_cant": "A reported exhaustive match is a claim about all values of the subject; tests only look at a few types.", "anchors": ["crates/zuban_python/src/file/flow_analysis.rs: find_guards_in_typed_dict_for_mapping_pattern, find_guards_in_pattern_kind, PatternResult::is_falsey_unreachable"]}
{"id": "C157", "title": "The names of a mapping pattern have the types that are inferred for them", "statement": "If a value of the type of the subject matches a mapping pattern, then each name that Python binds, including the name of `**rest`, has a value of the type that the checker infers for it. A name for the value of a member of a typed dict has exactly the type of the member.", "quantifier": "all mapping patterns with nested patterns and `**rest`, all unions with typed dicts and other mappings, all values", "why_tests_cant": "The names depend on the keys, on extra items and on nested patterns, which can be combined without limit.", "anchors": ["crates/zuban_python/src/file/flow_analysis.rs: find_guards_in_typed_dict_for_mapping_pattern, assign_key_value_to_mapping_pattern, infer_mapping_key", "crates/zuban_python/src/type_/typed_dict.rs: union_of_all_types, has_extra_items"]}
{"id": "C158", "title": "Literal arithmetic computes what Python computes", "statement": "If the checker infers a literal type for an operator that is applied to two literals (`int`, `bool`, `str`, `bytes`), then the operator exists in Python, it raises no error except for a lack of memory, and its value is exactly that literal. If it infers `int`, `float`, `bytes` or `LiteralString`, then the value has that type. If the operands and the value are integers of 64 bits, then the literal is inferred, with the exception of shifts by 64 or more, powers with an exponent of 2**32 or more and `-2**63 % -1`.", "quantifier": "all operators, all pairs of literals, with integers of any size and texts of any length", "why_tests_cant": "A wrong rounding or sign shows only for some of the 2**128 pairs of numbers, e.g. at the borders of 64 bits or for negative divisors.", "anchors": ["crates/zuban_python/src/type_/operations.rs: LiteralValue::operation, int_operations, bool_operations, py_div_floor, py_mod"]}
{"id": "C159", "title": "A division by zero and a negative shift count are reported if and only if Python raises", "statement": "If the checker reports a division by zero or a negative shift count for two literals, then each evaluation raises `ZeroDivisionError` or `ValueError`. If an evaluation of two literals of at most 64 bits raises one of these errors, then it is reported.", "quantifier": "all operators, all pairs of literals", "why_tests_cant": "The condition has to be right for all pairs of numbers and for all operators, booleans included.", "anchors": ["crates/zuban_python/src/type_/operations.rs: int_operations, bool_operations, LiteralValue::operation"]}
{"id": "C160", "title": "Literal arithmetic ends after a bounded number of steps, without a crash and with a small literal", "statement": "A literal text that the checker computes by a multiplication has at most 16 KB. The computation takes at most 16384 steps for each pair of literals, and it neither overflows nor reaches an assertion.", "quantifier": "all operators, all pairs of literals, with integers of any size and texts of any length", "why_tests_cant": "Only very large factors and special texts such as the empty one cause an overflow or a long loop.", "anchors": ["crates/zuban_python/src/type_/operations.rs: LiteralValue::operation, int_operations, MAX_STR_BYTES_SIZE_FOR_MULTIPLICATION"]}
{"id": "C161", "title": "The type of an operator is the type of what Python calls", "statement": "If the methods of the classes do what they declare and return `NotImplemented` for other arguments, then the value of `x op y` has the type that the checker infers, for arithmetic and for comparisons and for all members of the unions of both operands. If both operands have the same class, then only the normal method of arithmetic counts.", "quantifier": "all class hierarchies, all sets of normal and reflected methods with all declared types, all unions of operands", "why_tests_cant": "The choice depends on the class that defines each of the two methods and on the relation of the operands; tests look at a few hierarchies.", "anchors": ["crates/zuban_python/src/file/inference.rs: infer_detailed_operation, get_strategy", "crates/parsa_python_cst/src/lib.rs: OpInfos::shortcut_when_same_type"]}
{"id": "C162", "title": "Unsupported operands are reported if and only if Python raises a TypeError", "statement": "If the checker reports unsupported operands, then there are members of the two unions for which Python raises a `TypeError`; if it names only the left operand, then this class has no such method. If Python raises a `TypeError` for members of the unions, then it is reported.", "quantifier": "all class hierarchies, all sets of methods, all unions of operands", "why_tests_cant": "It is a statement about all pairs of members of unions and all ways in which methods are inherited.", "anchors": ["crates/zuban_python/src/file/inference.rs: infer_detailed_operation"]}
{"id": "C163", "title": "Operators that overlap unsafely are reported", "statement": "If the reflected method of a class is not reported as unsafely overlapping, then the value of an operator has the type that the normal method declares, although Python asks the instance of a subclass first, and it has the type that the reflected method declares, although the normal method accepts some of the subclasses. What is reported is a pair of methods with results that do not fit.", "quantifier": "all class hierarchies, all pairs of normal and reflected methods", "why_tests_cant": "The check compares signatures instead of executions; that this is enough is a statement about all programs with such signatures.", "anchors": ["crates/zuban_python/src/file/diagnostics.rs: check_overlapping_op_methods"]}
{"id": "C164", "title": "An augmented assignment has the type of what Python calls", "statement": "If nothing is reported for `x op= y`, then Python raises no `TypeError` and the new value of `x` has the type that is inferred. If Python accepts the assignment, then nothing is reported.", "quantifier": "all class hierarchies, all sets of normal, reflected and in-place methods, all unions of operands", "why_tests_cant": "In-place methods, normal methods and reflected methods are tried one after the other for each member of a union.", "anchors": ["crates/zuban_python/src/file/inference.rs: cache_aug_assign, infer_detailed_operation"]}
{"id": "C165", "title": "The type of an attribute of an instance is that of its value", "statement": "The type of `o.x` is that of the first class in the method resolution order that declares `x` in its body or on `self`, bound like Python does it; only for names that nobody declares it is that of `__getattr__`. After any sequence of accepted assignments to attributes of `o` the value of `o.x`, as Python's rules for data descriptors, instance dictionaries, slots and class dictionaries give it, has this type.", "quantifier": "all class hierarchies with methods, properties, descriptors, annotations, slots and hooks, all sequences of assignments, all attributes", "why_tests_cant": "It is a statement about all interleavings of assignments with descriptors, and about two different search orders that must agree.", "anchors": ["crates/zuban_python/src/type_helpers/instance.rs: lookup, check_set_descriptor_and_return_should_narrow, bind_dunder_get", "crates/zuban_python/src/inferred.rs: bind_instance_descriptors_internal, bind_instance_descriptors_for_type", "crates/zuban_python/src/type_helpers/class.rs: lookup, check_slots"]}
{"id": "C166", "title": "A missing attribute is missing", "statement": "If the checker reports that an attribute does not exist, then reading it raises `AttributeError`, whatever accepted assignments came before.", "quantifier": "all class hierarchies, all sequences of accepted assignments, all names", "why_tests_cant": "The absence of a value is a statement about all states of the object.", "anchors": ["crates/zuban_python/src/type_helpers/instance.rs: lookup, check_set_descriptor_and_return_should_narrow, bind_dunder_get", "crates/zuban_python/src/inferred.rs: bind_instance_descriptors_internal, bind_instance_descriptors_for_type", "crates/zuban_python/src/type_helpers/class.rs: lookup, check_slots"]}
{"id": "C167", "title": "Assignments to attributes are refused for a reason, and those that are accepted have a place", "statement": "Each issue for `o.x = v` has its reason: the property has no setter, the name is declared nowhere, it is a class variable, it is final, it is a method, no slot has the name, or the value does not have the type that the setter, `__set__`, `__setattr__` or the annotation asks for. If there is no issue, then Python executes the assignment without `AttributeError`.", "quantifier": "all class hierarchies, all names, all types of values", "why_tests_cant": "Refusals depend on the kind of the attribute, on where it is declared and on the slots of all classes in the order.", "anchors": ["crates/zuban_python/src/type_helpers/instance.rs: lookup, check_set_descriptor_and_return_should_narrow, bind_dunder_get", "crates/zuban_python/src/inferred.rs: bind_instance_descriptors_internal, bind_instance_descriptors_for_type", "crates/zuban_python/src/type_helpers/class.rs: lookup, check_slots"]}
{"id": "C168", "title": "Assignments narrow an attribute only if the value comes back", "statement": "If the type of `o.x` is narrowed to the type of the assigned value, then reading `o.x` immediately after the assignment gives this value: no property, no descriptor and no slot of another class is in between.", "quantifier": "all class hierarchies, all names, all states of the object", "why_tests_cant": "Whether the value comes back depends on what the class has under the name at runtime.", "anchors": ["crates/zuban_python/src/type_helpers/instance.rs: lookup, check_set_descriptor_and_return_should_narrow, bind_dunder_get", "crates/zuban_python/src/inferred.rs: bind_instance_descriptors_internal, bind_instance_descriptors_for_type", "crates/zuban_python/src/type_helpers/class.rs: lookup, check_slots"]}
{"id": "C169", "title": "The type of an attribute of a class is that of its value", "statement": "The value of `C.x`, as Python's rules for data descriptors of the metaclass, dictionaries of the classes and attributes of the metaclass give it, has the type that is inferred. If the attribute is reported as missing, then there is no value.", "quantifier": "all class hierarchies with metaclasses, all names", "why_tests_cant": "The metaclass and the class are searched in an order that depends on what is found in both.", "anchors": ["crates/zuban_python/src/type_helpers/class.rs: lookup", "crates/zuban_python/src/inferred.rs: bind_class_descriptors, bind_class_descriptors_for_type"]}
{"id": "C170", "title": "What is asked of an override and of a name of two base classes", "statement": "The check of an override reports nothing if and only if all of these hold: the type fits the one of the base class; if one of them is a property with its own setter type, the setter of the subclass takes what the one of the base class takes; what can be assigned is not replaced by a property without setter (up to frozen dataclasses and, in mypy mode, cached properties) or by something final; a class method or static method is not replaced by a method; annotated class variables and instance variables are not mixed. For a name that two base classes have nothing is reported if and only if the type of the first fits the second, the second is not final, and a writable name is not replaced by one that is final or not writable.", "quantifier": "all pairs of names with their kinds, types and setters, all relations of types", "why_tests_cant": "the kinds, setters and types are independent, so tests only see some of the combinations", "anchors": ["crates/zuban_python/src/file/diagnostics.rs::check_override", "crates/zuban_python/src/file/diagnostics.rs::check_property_setter_override", "crates/zuban_python/src/file/diagnostics.rs::check_multiple_inheritance", "crates/zuban_python/src/inferred.rs::AttributeKind"]}
{"id": "C171", "title": "A name of an instance has the type that its base classes declare", "statement": "If nothing is reported for the classes of a hierarchy, then the value of a name on an instance of a class has the type that each class of its method resolution order gives to the name. The code only ensures this if names that two base classes have are declared by these base classes themselves and not assigned in the class.", "quantifier": "all class hierarchies with linear method resolution orders, all names, all relations of types that are right", "why_tests_cant": "the check of a class only sees its own names and pairs of base classes; that this is enough for all ancestors is an induction over hierarchies", "anchors": ["crates/zuban_python/src/file/diagnostics.rs::find_and_check_override", "crates/zuban_python/src/file/diagnostics.rs::check_multiple_inheritance", "crates/zuban_python/src/file/inference.rs::assign_and_override_in_subclass", "crates/zuban_python/src/type_helpers/instance.rs::run_on_symbols"]}
{"id": "C172", "title": "What may be assigned through a base class may be assigned to the subclass", "statement": "If nothing is reported for the classes of a hierarchy, then a value that may be assigned to a name of an instance of a base class may be assigned to this name of an instance of the subclass. The code does not ensure this for attributes whose type is narrowed, for methods and class variables that override attributes, for setters of two base classes and for cached properties in mypy mode.", "quantifier": "all class hierarchies with linear method resolution orders, all names, all values", "why_tests_cant": "it is a statement about all values and about all chains of overrides with properties, setters and attributes mixed", "anchors": ["crates/zuban_python/src/file/diagnostics.rs::check_override", "crates/zuban_python/src/file/diagnostics.rs::check_property_setter_override"]}
{"id": "C173", "title": "Final names are not overridden and @override needs a base class", "statement": "If nothing is reported for the classes of a hierarchy, then a name that is final in some class is the one that instances of all its subclasses have. The code does not ensure it for a second base class. A function with @override is reported for a missing base if and only if no class in the method resolution order has the name, and with explicit-override a function without it is reported if and only if one has it.", "quantifier": "all class hierarchies with linear method resolution orders, all names", "why_tests_cant": "only the next class with the name is looked at, so that the property holds for a whole hierarchy is an induction", "anchors": ["crates/zuban_python/src/file/diagnostics.rs::add_error_if_final", "crates/zuban_python/src/file/diagnostics.rs::find_and_check_override", "crates/zuban_python/src/file/diagnostics.rs::check_function_override"]}
{"id": "C174", "title": "The check of a type against object finds where the type variable occurs", "statement": "Replacing a type variable by object and comparing the result with the type says that the type can be covariant exactly if the type variable only occurs at covariant places, and contravariant exactly if it only occurs at contravariant places, where the sign of a place follows from the variances of the classes and the parameters of callables around it. There is no answer exactly if the type variable does not occur.", "quantifier": "all types, all type variables, all declarations of variances, all relations between different classes", "why_tests_cant": "Types nest without bound, and each level can turn the sign around; a table of examples only reaches small depths.", "anchors": ["crates/zuban_python/src/type_helpers/class.rs: check_type_var_variance_validity_for_type", "crates/zuban_python/src/type_/matching.rs: is_simple_sub_type_of"]}
{"id": "C175", "title": "What is judged covariant grows with its type variable", "statement": "If a type is judged covariant in a type variable, then for every meaning of classes that respects the declared variances, the set of its values grows with the set of values of the type variable; if it is judged contravariant, the set shrinks.", "quantifier": "all types, all meanings of classes as functions on sets of values, all sets for the type variables", "why_tests_cant": "The claim ranges over all meanings of classes, not over programs; no finite set of programs settles it.", "anchors": ["crates/zuban_python/src/type_helpers/class.rs: check_type_var_variance_validity_for_type", "crates/zuban_python/src/type_/matching.rs: is_simple_sub_type_of"]}
{"id": "C176", "title": "A type parameter inferred as covariant is safe", "statement": "If the type parameter of a class is inferred as covariant, then all base classes and all names of its instances grow with it, and the names that can be assigned from outside also do not get smaller, so they do not depend on it; constructors and names with an underscore are excepted as specified.", "quantifier": "all classes with any number of bases and names, all type parameters, all meanings of classes", "why_tests_cant": "Soundness of inferred variance is about every later assignment between instances of the class.", "anchors": ["crates/zuban_python/src/type_helpers/class.rs: check_type_var_variance_validity_for_type", "crates/zuban_python/src/type_/matching.rs: is_simple_sub_type_of", "crates/zuban_python/src/type_helpers/class.rs: Class::infer_variance_for_index"]}
{"id": "C177", "title": "A type parameter inferred as contravariant is safe", "statement": "If the type parameter of a class is inferred as contravariant, then, with this variance, the values of all base classes and all names of its instances shrink if it grows.", "quantifier": "all classes, all type parameters, all meanings of classes", "why_tests_cant": "The variance is inferred while the class itself still counts as covariant; whether that is right can only be settled for all classes at once.", "anchors": ["crates/zuban_python/src/type_helpers/class.rs: check_type_var_variance_validity_for_type", "crates/zuban_python/src/type_/matching.rs: is_simple_sub_type_of", "crates/zuban_python/src/type_helpers/class.rs: Class::infer_variance_for_index", "crates/zuban_python/src/type_/type_var_likes.rs: TypeVar::inferred_variance"]}
{"id": "C178", "title": "Inference of variances gives a reason and never panics", "statement": "The inference reaches a result for every class, the branch marked unreachable is not reached; and if the result is contravariant or invariant, then there is a base class or a name that forbids the better results.", "quantifier": "all classes, all orders of bases and names", "why_tests_cant": "The loops return early, and the marked branch depends on that in every order of names.", "anchors": ["crates/zuban_python/src/type_helpers/class.rs: check_type_var_variance_validity_for_type", "crates/zuban_python/src/type_/matching.rs: is_simple_sub_type_of", "crates/zuban_python/src/type_helpers/class.rs: Class::infer_variance_for_index"]}
{"id": "C179", "title": "Declared variances are checked against base classes", "statement": "For a base class with a type variable that is declared covariant or contravariant, an error is reported exactly if the type variable occurs at a place that does not fit to its variance; without an error the base class keeps the declared variance.", "quantifier": "all base classes, all declared variances", "why_tests_cant": "A base class can nest type arguments without bound.", "anchors": ["crates/zuban_python/src/file/diagnostics.rs: check_type_var_variance_for_base", "crates/zuban_python/src/type_helpers/class.rs: check_type_var_variance_validity_for_type"]}
{"id": "C180", "title": "An import finds what Python finds", "statement": "If there are no stubs, the import of a dotted name finds exactly the module, package or namespace that Python's own search finds: the directories of the search path in order, in each a package before a module, and a namespace of all remaining directories if none has either.", "quantifier": "all trees of files, all search paths, all dotted names, all importing files", "why_tests_cant": "Which file wins depends on the contents of all directories of the search path at once; tests only have a few fixed trees.", "anchors": ["crates/zuban_python/src/imports.rs: global_import, python_import_with_needs_exact_case, namespace_import_with_unloaded_file", "crates/zuban_python/src/file/imports.rs: cache_import_dotted_name"]}
{"id": "C181", "title": "The file of an import has its name", "statement": "Whatever stubs, stub packages and namespaces there are, the file that an import finds is named like the import: its path ends with the parts of the dotted name, where a part may carry the suffix of stub packages and the last may be an __init__ file.", "quantifier": "all trees of files, all search paths, all dotted names", "why_tests_cant": "Stub packages redirect searches to other directories and back, and the redirections nest with the depth of the name.", "anchors": ["crates/zuban_python/src/imports.rs: global_import, python_import_with_needs_exact_case, namespace_import_with_unloaded_file", "crates/zuban_python/src/file/imports.rs: cache_import_dotted_name"]}
{"id": "C182", "title": "Installed packages are only used if they are typed", "statement": "An import in a program only uses a file of the installed packages if untyped imports are to be followed, or a directory on its path has a py.typed file, or it belongs to a stub package.", "quantifier": "all trees of files, all search paths, all dotted names, all importing files", "why_tests_cant": "The marker may be in any directory on the way, and namespaces have many; the claim is about every layout.", "anchors": ["crates/zuban_python/src/imports.rs: global_import, python_import_with_needs_exact_case, namespace_import_with_unloaded_file", "crates/zuban_python/src/file/imports.rs: cache_import_dotted_name"]}
{"id": "C183", "title": "Relative imports count directories", "statement": "A relative import with n dots starts in the n-th directory above the file; there is an error exactly if there is no such directory; and below it, it finds what Python finds for the absolute name.", "quantifier": "all trees of files, all importing files, all numbers of dots, all dotted names", "why_tests_cant": "Both the depth of the file and the number of dots are unbounded, and the last directory before the root is special.", "anchors": ["crates/zuban_python/src/imports.rs: find_import_ancestor", "crates/zuban_python/src/file/imports.rs: import_from_first_part_calculation_without_loading_file"]}
{"id": "C184", "title": "No import panics", "statement": "No import statement and no import of a string reaches the branch that is marked unreachable, for any tree of files.", "quantifier": "all trees of files, all search paths, all dotted names", "why_tests_cant": "The branch is only reached for combinations of files and markers that nobody thought of, otherwise it would not be marked.", "anchors": ["crates/zuban_python/src/imports.rs: ImportResult::import, import_module_by_strings", "crates/zuban_python/src/pytest.rs: pytest_plugins"]}
{"id": "C185", "title": "Stubs come before modules", "statement": "No import finds a module if there is a stub of the same name beside it; and if a directory of the search path has a stub package for a name, the packages and modules of the first such stub package are found, wherever the package itself is in the search path.", "quantifier": "all trees of files, all search paths, all dotted names, all importing files", "why_tests_cant": "The order of stub packages, stubs and modules matters in each directory and for each part of a name; a wrong order only shows for particular layouts.", "anchors": ["crates/zuban_python/src/imports.rs: global_import, python_import_with_needs_exact_case, load_init_file, ImportResult::import_non_stub_for_stub_package"]}
{"id": "C186", "title": "Narrowing to an impossible intersection", "statement": "If no intersection is made for two unrelated types, for example after isinstance, so that the code that follows is not checked, then no value of a valid program has both types.", "quantifier": "all pairs of types (classes, None, callables, type variables, unions, intersections, type[...]), all programs, all values", "why_tests_cant": "An intersection is refused because of final classes, resolution orders, layouts and incompatible members, and a wrong refusal silently turns off all checks for the code; that no class could have both types is a statement about all programs.", "anchors": ["crates/zuban_python/src/type_/intersection.rs: Intersection::new_instance_intersection, Intersection::from_types", "crates/zuban_python/src/file/type_computation/class.rs: linearize_mro", "crates/zuban_python/src/type_/mod.rs: is_subclassable, is_intersectable", "crates/zuban_python/src/file/flow_analysis.rs: intersect"]}
{"id": "C187", "title": "Values of an intersection", "statement": "The values of an intersection are exactly the values that have both types, also for unions, of which the impossible members are dropped.", "quantifier": "all pairs of types, all programs, all values", "why_tests_cant": "Members of unions are dropped, entries are flattened and reordered; that no value is lost or added concerns all programs.", "anchors": ["crates/zuban_python/src/type_/intersection.rs: Intersection::new_instance_intersection, Intersection::from_types", "crates/zuban_python/src/file/type_computation/class.rs: linearize_mro", "crates/zuban_python/src/type_/mod.rs: is_subclassable, is_intersectable", "crates/zuban_python/src/file/flow_analysis.rs: intersect"]}
{"id": "C188", "title": "Disjoint bases", "statement": "Bases are reported as disjoint iff Python refuses them because of their layouts, and otherwise the disjoint base of the class is the one from which Python takes the layout.", "quantifier": "all hierarchies of classes, all sets of classes with a layout of their own, all lists of bases", "why_tests_cant": "The loop compares each base only with one candidate and replaces it on the way; that this suffices for any order of any number of bases needs an invariant.", "anchors": ["crates/zuban_python/src/file/type_computation/class.rs: linearize_mro, class_link_in_mro"]}
{"id": "C189", "title": "Operations on intersections", "statement": "An operation on a value of an intersection is reported iff it fails for all entries; the first entry that does not fail gives the result, and there is no panic.", "quantifier": "all lists of entries, all results and issues of the operation on the entries", "why_tests_cant": "Which entry answers depends on the order and on the issues of all earlier entries; the absence of a panic depends on an issue being recorded on every path.", "anchors": ["crates/zuban_python/src/type_/intersection.rs: wrap_first_non_failing, get_item, execute, iter"]}
{"id": "C190", "title": "Overlap is symmetric", "statement": "Whether two types overlap, as asked for comparisons, containment and isinstance, does not depend on the order of the two types.", "quantifier": "all pairs of types built from classes, None, literals, Any, unions and intersections; all hierarchies", "why_tests_cant": "Both sides are taken apart in different places of the code, one after the other; that this makes no difference for nested types needs an induction.", "anchors": ["crates/zuban_python/src/type_/overlaps.rs: Type::overlaps_internal, overlaps_class"]}
{"id": "C191", "title": "Types that do not overlap", "statement": "Two types that do not overlap have no common value, so that a comparison that is reported can never be true by identity.", "quantifier": "all pairs of types, all hierarchies, all values", "why_tests_cant": "It is a statement about all values of the types, and about unions and intersections of any depth.", "anchors": ["crates/zuban_python/src/type_/overlaps.rs: Type::overlaps_internal, overlaps_class"]}
{"id": "C192", "title": "Types that overlap", "statement": "Two types that overlap have a common value, so that comparisons that cannot be true are reported.", "quantifier": "all pairs of types, all hierarchies", "why_tests_cant": "It is a statement about all types and hierarchies.", "anchors": ["crates/zuban_python/src/type_/overlaps.rs: Type::overlaps_internal, overlaps_class"]}
{"id": "C193", "title": "Overlapping tuples", "statement": "Two tuple types overlap iff there is a tuple that has both types.", "quantifier": "all pairs of tuple types of fixed and arbitrary length and with unpacked parts, all relations of their elements, all tuples", "why_tests_cant": "Elements have to be paired in all the ways in which unpacked parts can be filled; lengths are unbounded.", "anchors": ["crates/zuban_python/src/type_/overlaps.rs: TupleArgs::overlaps"]}
{"id": "C194", "title": "Files that are checked without arguments", "statement": "Without arguments exactly the Python files of the type-checked workspaces are checked that are not excluded, not ignored by a .gitignore in a directory above them, not below such a directory, not in a nested workspace and not beside a stub of the same name; if there is no such file, there is an error.", "quantifier": "all directory trees, exclude patterns, .gitignore contents, workspaces", "why_tests_cant": "The walk keeps a stack of .gitignore files; that it is right after any subtree needs an induction over trees.", "anchors": ["crates/zuban_python/src/select_files.rs: FileSelector::handle_entry, handle_entries, search_all_typechecked_files"]}
{"id": "C195", "title": "Directories that are named", "statement": "Naming a directory checks the files that are checked in it when everything is checked.", "quantifier": "all directory trees, directories in them, exclude patterns, .gitignore contents", "why_tests_cant": "It compares two walks over arbitrary trees that start at different places.", "anchors": ["crates/zuban_python/src/select_files.rs: FileSelector::search_in_workspaces, handle_dir"]}
{"id": "C196", "title": "Ignored paths", "statement": "A path counts as ignored iff Git ignores it because of the .gitignore files in the directories above: the closest file with a matching pattern decides.", "quantifier": "all stacks of .gitignore files, all answers they give for a path", "why_tests_cant": "Any number of .gitignore files may be above a path, with any patterns.", "anchors": ["crates/zuban_python/src/select_files.rs: FileSelector::ignored_by_gitignore", "crates/vfs/src/tree.rs: GitignoreFile::is_path_ignored"]}
{"id": "C197", "title": "Files that are checked with arguments", "statement": "With arguments exactly the files are checked that the paths and the patterns stand for; a file that is named is always checked; there is an error iff a path stands for no file or the patterns for none.", "quantifier": "all lists of paths and patterns, all workspaces and directory trees", "why_tests_cant": "The arguments share a state and have three fallbacks; lists and trees are unbounded.", "anchors": ["crates/zuban_python/src/select_files.rs: FileSelector::search_in_workspaces, add_file"]}
{"id": "C198", "title": "Patterns with wildcards", "statement": "A pattern with wildcards stands only for files that are checked without arguments.", "quantifier": "all patterns as predicates of paths, all directory trees, exclude patterns, .gitignore contents", "why_tests_cant": "Patterns are applied by a different walk than the one for everything; both run over arbitrary trees.", "anchors": ["crates/zuban_python/src/select_files.rs: FileSelector::search_in_workspaces", "crates/vfs/src/tree.rs: Entries::walk_entries"]}
{"id": "C199", "title": "Semantic tokens can be decoded", "statement": "A client that decodes the semantic tokens as the protocol says, with the legend that was sent, gets each name at its position in the negotiated encoding, with its type and exactly the modifiers it has; encoding never underflows.", "quantifier": "all texts, leaves, encodings, types and properties of names, ranges", "why_tests_cant": "Tokens are relative to the token before; that no error accumulates is an induction over files of any length.", "anchors": ["crates/zubanls/src/semantic_tokens.rs: SemanticTokensBuilder::push", "crates/zubanls/src/request_handlers.rs: semantic_tokens_internal, to_position"]}
{"id": "C200", "title": "Lengths of semantic tokens", "statement": "The length of a semantic token is the length of the name in the negotiated encoding.", "quantifier": "all texts, names and encodings", "why_tests_cant": "It ranges over all texts, also those with characters of several bytes.", "anchors": ["crates/zubanls/src/semantic_tokens.rs: SemanticTokensBuilder::push", "crates/zubanls/src/request_handlers.rs: semantic_tokens_internal, to_position", "crates/zuban_python/src/semantic_tokens.rs: SemanticToken::length"]}
{"id": "C201", "title": "Semantic tokens of a range", "statement": "For a range all names that are in it are sent, and only those that touch it; without a range all names are sent.", "quantifier": "all lists of leaves, ranges, types of names", "why_tests_cant": "The names are found by a search in the leaves that skips those before the range; it has to be right for all lists.", "anchors": ["crates/zuban_python/src/semantic_tokens.rs: Document::semantic_tokens", "crates/parsa_python_cst/src/lib.rs: filter_all_names", "crates/parsa/src/lib.rs: leaf_by_position"]}
{"id": "C202", "title": "`key in typed_dict` keeps every possible dictionary", "statement": "If a key has the type of the left side and a dictionary has the type of the right side, then the dictionary has the narrowed type of the branch that is executed; and a typed dict stays in a branch only if some dictionary and some key lead there.", "quantifier": "all unions on both sides, all typed dicts (open or final, with required and optional keys), all values", "why_tests_cant": "A test has one typed dict and one key; the claim is about every union of literals and typed dicts and every dictionary that fits.", "anchors": ["crates/zuban_python/src/file/flow_analysis.rs: guard_of_in_operator, stdlib_container_item, removed_optional"]}
{"id": "C203", "title": "`x in container` removes `None` only if it cannot be `None`", "statement": "If `x` is in a container, then `x` has the narrowed type of the branch where `x in container` is true.", "quantifier": "all unions on the left, all containers and their items, all values of type variables", "why_tests_cant": "A test cannot try all type arguments of a generic function; the claim must hold for every value of a type variable.", "anchors": ["crates/zuban_python/src/file/flow_analysis.rs: guard_of_in_operator, stdlib_container_item, removed_optional"]}
{"id": "C204", "title": "`in` and `not in` narrow both sides soundly", "statement": "In both branches of a condition with `in` or `not in` both sides have their narrowed types.", "quantifier": "both operators, all combinations of sides that can be narrowed, all values", "why_tests_cant": "Tests check some combinations of operators and sides; the claim is about all.", "anchors": ["crates/zuban_python/src/file/flow_analysis.rs: guard_of_in_operator, stdlib_container_item, removed_optional"]}
{"id": "C205", "title": "`x in (a, b, c)` is as good as a chain of `==`", "statement": "A value that is equal to an item of a tuple of fixed length has the type of the first branch, a value that is equal to no item has the type of the second branch; with an empty tuple the first branch is unreachable.", "quantifier": "tuples of every length, every sound narrowing by `==`", "why_tests_cant": "Tests have tuples of one or two items; the claim is by induction on the length.", "anchors": ["crates/zuban_python/src/file/flow_analysis.rs: guard_of_in_operator, stdlib_container_item, removed_optional"]}
{"id": "C206", "title": "A name is added to an existing import correctly", "statement": "If a code action adds a name to an existing `from x import`, then the edited import is valid and imports the old names and the new one.", "quantifier": "all imports with and without parentheses, aliases, trailing commas, comments and whitespace", "why_tests_cant": "The edit is made on text; the claim is about every tree of an import and every whitespace between its leaves.", "anchors": ["crates/parsa_python_cst/src/lib.rs: insertion_point_for_new_name", "crates/zuban_python/src/auto_imports.rs: create_import_code_action, position_for_import, ImportKind"]}
{"id": "C207", "title": "The import that gets a name is executed before the name is used", "statement": "The import to which a code action adds a name is executed before the name is used, in all executions, and it is an import from the right file.", "quantifier": "all programs, all values of their conditions, all orders of calls", "why_tests_cant": "Tests look at the edited text, not at all executions of the program.", "anchors": ["crates/zuban_python/src/auto_imports.rs: create_import_code_action, position_for_import, ImportKind"]}
{"id": "C208", "title": "A new import is a statement of its own before all code", "statement": "A code action that adds an import adds it as a statement of its own at the beginning of a line, changes nothing else but newlines, and only imports and the docstring are before it.", "quantifier": "all files: comments, docstrings, imports, newlines and all other statements", "why_tests_cant": "Tests have some layouts of files; the claim is about every layout.", "anchors": ["crates/zuban_python/src/auto_imports.rs: create_import_code_action, position_for_import, ImportKind", "crates/parsa_python_cst/src/ranges.rs: initial_imports_end_code_index"]}
{"id": "C209", "title": "New imports keep the order of the imports", "statement": "If the imports are ordered by standard library, third party and project, then they are still ordered with the new import; imports from `__future__` stay first.", "quantifier": "all files with imports at the beginning, all kinds of the new import", "why_tests_cant": "Tests have some orders of imports; the claim is by induction over the statements.", "anchors": ["crates/zuban_python/src/auto_imports.rs: create_import_code_action, position_for_import, ImportKind"]}
{"id": "C210", "title": "Listed references refer to the symbol", "statement": "Every result of a search for references is a declaration of the symbol under the cursor, or a place in a searched file where the searched name is written and that leads to one of the declarations, possibly through imports.", "quantifier": "all programs (any function from names to what they lead to), goals, cursor positions and results", "why_tests_cant": "whether a wrong place is listed depends on coincidences of positions in several files", "anchors": ["crates/zuban_python/src/goto.rs: ReferencesResolver::references, find_references_in_file, find_references_in_workspace_entries, to_unique_position, follow_goto_if_necessary", "crates/zuban_python/src/name.rs: Name::name_range"]}
{"id": "C211", "title": "No reference is missed", "statement": "Every place in the searched files where the searched name is written and that leads to a declaration of the symbol, directly or through imports that keep the name, is a result of the search, and so are all declarations if they are asked for.", "quantifier": "all programs, goals, cursor positions and places in searched files", "why_tests_cant": "a test compares with an expected list for one program; import chains can have any length", "anchors": ["crates/zuban_python/src/goto.rs: ReferencesResolver::references, find_references_in_file, find_references_in_workspace_entries, to_unique_position, follow_goto_if_necessary", "crates/zuban_python/src/name.rs: Name::name_range"]}
{"id": "C212", "title": "References are listed once", "statement": "No place is listed twice by a search for references, so that the edits of a rename do not overlap.", "quantifier": "all well-formed programs, goals and cursor positions", "why_tests_cant": "a repetition needs several definitions, stubs and imports to meet", "anchors": ["crates/zuban_python/src/goto.rs: ReferencesResolver::references, find_references_in_file, find_references_in_workspace_entries, to_unique_position, follow_goto_if_necessary", "crates/zuban_python/src/name.rs: Name::name_range"]}
{"id": "C213", "title": "Declarations are only listed if asked for", "statement": "A search for references without declarations has no declaration of the symbol among its results, and otherwise the same results as the search with declarations.", "quantifier": "all programs, goals and cursor positions", "why_tests_cant": "the two searches have to be compared for all programs", "anchors": ["crates/zuban_python/src/goto.rs: ReferencesResolver::references, find_references_in_file, find_references_in_workspace_entries, to_unique_position, follow_goto_if_necessary", "crates/zuban_python/src/name.rs: Name::name_range"]}
{"id": "C214", "title": "A rename keeps uses and definitions together", "statement": "After a rename, a use of the old name and what it leads to are either both renamed or both unchanged, so that no use loses its definition.", "quantifier": "all programs, cursor positions and uses in the type checked files", "why_tests_cant": "the places that are not renamed are everywhere in the workspace", "anchors": ["crates/zuban_python/src/goto.rs: ReferencesResolver::references, find_references_in_file, find_references_in_workspace_entries, to_unique_position, follow_goto_if_necessary", "crates/zuban_python/src/name.rs: Name::name_range", "crates/zuban_python/src/lib.rs: Document::references_for_rename"]}
{"id": "C215", "title": "A rename changes exactly the references", "statement": "A rename to a different name has an edit for exactly the names among the references and a file rename for exactly the modules, every file and place once; it fails if and only if there are no references; a rename to the same name changes nothing.", "quantifier": "all programs, cursor positions and new names", "why_tests_cant": "ranges over all sets of references and their distribution over files", "anchors": ["crates/zuban_python/src/goto.rs: ReferencesResolver::references, find_references_in_file, find_references_in_workspace_entries, to_unique_position, follow_goto_if_necessary", "crates/zuban_python/src/name.rs: Name::name_range", "crates/zuban_python/src/lib.rs: Document::references_for_rename"]}
{"id": "C216", "title": "What is accepted in raise can be raised", "statement": "If the type of the expression after raise (or from) has no error, then every value of the type is an exception or a class of exceptions (or None after from), so that Python raises it and not a TypeError.", "quantifier": "all types, all class hierarchies and all values of the type", "why_tests_cant": "values of a type are unbounded: unions, intersections, type variables and class objects nest", "anchors": ["crates/zuban_python/src/file/diagnostics.rs: check_valid_raise_type, valid_raise_type", "crates/zuban_python/src/type_/mod.rs: Type::for_all_in_union"]}
{"id": "C217", "title": "What is accepted after except can be there", "statement": "If there is no error for the expressions after except, then their value is a class of exceptions or a tuple of such classes, which is what Python requires.", "quantifier": "all types of the expressions, including all kinds of tuples and unions, and all their values", "why_tests_cant": "tuples have any length and nest with unions", "anchors": ["crates/zuban_python/src/file/flow_analysis.rs: ExceptType::from_types, except_type"]}
{"id": "C218", "title": "The name of a caught exception has the right type", "statement": "An exception that is caught by except has the type that the name after as gets.", "quantifier": "all types of the expression after except, all its values and all exceptions that it catches", "why_tests_cant": "needs all combinations of tuples, unions and subclasses", "anchors": ["crates/zuban_python/src/file/inference.rs: instantiate_except"]}
{"id": "C219", "title": "The name of a group caught by except* has the right type", "statement": "Every exception in the group has the type argument of the group, the group is only taken for an ExceptionGroup if all of them are Exceptions, no group is accepted after except*, and the internal error for other types does not occur.", "quantifier": "all types of the expression after except*, its values and the exceptions in the group", "why_tests_cant": "the cases where the base class of the group matters need unusual exceptions", "anchors": ["crates/zuban_python/src/file/inference.rs: instantiate_except_star, gather_except_star, has_base_exception", "crates/zuban_python/src/file/flow_analysis.rs: except_type"]}
{"id": "C220", "title": "What can be raised can be caught", "statement": "If there is no error for raising an object of a class, then there is none for the class after except; a class that is known not to be an exception is an error in both.", "quantifier": "all classes and class hierarchies", "why_tests_cant": "two checks in different files have to agree for all classes", "anchors": ["crates/zuban_python/src/file/diagnostics.rs: valid_raise_type", "crates/zuban_python/src/file/flow_analysis.rs: except_type"]}
{"id": "C221", "title": "The parameter marked for a keyword argument is the one that gets it", "statement": "In signature help, if the cursor is in an argument name=..., the marked parameter is the one Python gives the argument to; if there is none, no parameter is marked and the signature counts as invalid.", "quantifier": "all parameter lists of Python functions and all arguments before the cursor", "why_tests_cant": "lists of parameters and arguments are unbounded; the tests try four signatures", "anchors": ["crates/zuban_python/src/signatures.rs: CallSignatures::into_iterator"]}
{"id": "C222", "title": "The parameter marked for other arguments can get them", "statement": "In signature help, the marked parameter is that of the position, or one that has no argument yet and can be given by name; a keyword-only parameter is marked only if its name begins with what is written.", "quantifier": "all parameter lists of Python functions and all calls without stars", "why_tests_cant": "lists of parameters and arguments are unbounded", "anchors": ["crates/zuban_python/src/signatures.rs: CallSignatures::into_iterator"]}
{"id": "C223", "title": "The marked signature is the first one that can take the arguments", "statement": "Among the signatures of an overloaded function, the first one is marked for which Python can accept the arguments so far and one more; a signature counts as invalid only if no parameter can get another argument.", "quantifier": "all lists of signatures and all calls", "why_tests_cant": "the tests never look at the marked signature, and there are infinitely many combinations", "anchors": ["crates/zuban_python/src/signatures.rs: CallSignatures::into_iterator", "crates/zubanls/src/request_handlers.rs: handle_signature_help"]}
{"id": "C224", "title": "The ranges in a signature label are the names of the parameters", "statement": "Each parameter has a range in the label, the text of the range is the name of the parameter (or its type if it has no name), also in UTF-16 code units, and the computation never cuts a character in two.", "quantifier": "all parameter lists, names and types with any characters", "why_tests_cant": "names may contain any characters of one to four bytes", "anchors": ["crates/zuban_python/src/signatures.rs: CallSignatures::into_iterator", "crates/zuban_python/src/signatures.rs: SignatureParam"]}
{"id": "C225", "title": "Signature help sees the arguments up to the cursor", "statement": "The arguments seen are those of the text up to the one at the cursor: one more than there are commas before the cursor, wherever the parser puts the keyword arguments.", "quantifier": "all lists of arguments and cursor positions", "why_tests_cant": "lists and positions are unbounded", "anchors": ["crates/parsa_python_cst/src/signatures.rs: SignatureArgsIterator::next"]}
{"id": "C226", "title": "The field names in a text are the words of the text", "statement": "If the second argument of `namedtuple` is a string, the fields are the words that Python finds in it, and an error about a name points to that name in the source.", "quantifier": "All texts and all positions of the text in the file, characters of any length.", "why_tests_cant": "A test has one text; the ranges go wrong only for certain combinations of separators and wide characters.", "anchors": ["crates/zuban_python/src/file/type_computation/named_tuple.rs:new_collections_named_tuple"]}
{"id": "C227", "title": "A field name is refused exactly if Python raises an error", "statement": "`namedtuple` reports an error for the field names if and only if Python raises a `ValueError` for them; otherwise the fields have the names of the program.", "quantifier": "All lists of names.", "why_tests_cant": "The set of names is infinite, and whether a name is a duplicate depends on all the names before it.", "anchors": ["crates/zuban_python/src/file/type_computation/named_tuple.rs:add_named_tuple_param", "crates/zuban_python/src/file/type_computation/named_tuple.rs:is_identifier", "crates/parsa/src/automaton.rs:Keywords"]}
{"id": "C228", "title": "With rename the fields have the names that Python gives them", "statement": "With `rename=True` there is no error about a name, a name that cannot be used becomes `_i` for its index `i`, all other names stay, and the fields always have different names.", "quantifier": "All lists of names, with and without `rename`.", "why_tests_cant": "A name and a placeholder can only clash in long or unusual lists.", "anchors": ["crates/zuban_python/src/file/type_computation/named_tuple.rs:add_named_tuple_param"]}
{"id": "C229", "title": "Defaults belong to the last fields", "statement": "`defaults` with `k` elements gives defaults to exactly the last `k` fields and is an error if and only if there are more defaults than fields; if there is no error about the other arguments, Python accepts them.", "quantifier": "All lists of fields, all numbers of defaults and all lists of arguments.", "why_tests_cant": "The index arithmetic is only right for all numbers if it is right at every boundary.", "anchors": ["crates/zuban_python/src/file/type_computation/named_tuple.rs:new_collections_named_tuple"]}
{"id": "C230", "title": "The fields of a NamedTuple class are its annotations", "statement": "A class with the base `NamedTuple` has an error about its fields if and only if Python cannot make the class; otherwise its fields are its annotated names in order with their defaults.", "quantifier": "All class bodies of annotated names with and without defaults.", "why_tests_cant": "The check looks only at the last field that was accepted; that this suffices needs an induction.", "anchors": ["crates/zuban_python/src/file/type_computation/class.rs:find_stmt_named_tuple_types"]}
{"id": "C231", "title": "Inlay hints are computed for the functions and assignments of the range", "statement": "A request for inlay hints looks at every function and assignment that has a place in the requested range, at each one once, and at none that does not overlap the range.", "quantifier": "All files and all ranges.", "why_tests_cant": "Whether a node is skipped depends on the leaf at the start of the range and on the order of the stored nodes; tests ask for whole files.", "anchors": ["crates/parsa_python_cst/src/lib.rs:potential_inlay_hints", "crates/zuban_python/src/inlay_hints.rs"]}
{"id": "C232", "title": "Folding ranges follow the blocks", "statement": "Every block over several lines and every `match` statement is folded up to its last line, nothing else is folded, and folds inside of a statement are inside of the fold of the statement.", "quantifier": "All files, all nestings of blocks.", "why_tests_cant": "Nesting is unbounded, and the dedents at the end of several blocks are shared.", "anchors": ["crates/parsa_python_cst/src/lib.rs:folding_blocks", "crates/zuban_python/src/lib.rs:folding_ranges"]}
{"id": "C233", "title": "super with two arguments looks after the first class", "statement": "`super(C, x)` looks attributes up in exactly the classes that come after C in the MRO of x, and is an error if and only if C is not in that MRO.", "quantifier": "all classes and MROs, all instances and class objects as second argument", "why_tests_cant": "A test fixes one hierarchy; an index that is one off or that takes another MRO shows only for particular hierarchies.", "anchors": ["crates/zuban_python/src/type_helpers/instance.rs: execute_super_internal, super_instance, get_relevant_type_for_super"]}
{"id": "C234", "title": "super without arguments works exactly in methods", "statement": "`super()` is an error if and only if the call is not in a non-static method with a first parameter; in a method it is bound to the first parameter and looks attributes up in the classes after the class of the method.", "quantifier": "all places of a call, kinds of methods, and classes", "why_tests_cant": "The places where a call can be are not enumerable by tests.", "anchors": ["crates/zuban_python/src/type_helpers/instance.rs: execute_super_internal, super_instance, get_relevant_type_for_super"]}
{"id": "C235", "title": "super accepts nothing or two positional arguments", "statement": "A call of `super` that is accepted has no arguments or exactly two positional arguments, the first of which may be a class.", "quantifier": "all lists of arguments and environments", "why_tests_cant": "Lists of arguments are unbounded.", "anchors": ["crates/zuban_python/src/type_helpers/instance.rs: execute_super_internal, super_instance, get_relevant_type_for_super"]}
{"id": "C236", "title": "isinstance accepts only arguments that Python accepts", "statement": "If the second argument of isinstance or issubclass is accepted without an error, evaluating the call does not fail in Python because of it: it is a class without type arguments, a runtime checkable protocol, a tuple of such, or a union of classes and None.", "quantifier": "all expressions for the second argument, with nested tuples, unions and aliases of any depth", "why_tests_cant": "Nested tuples and unions are unbounded, and a missing rule shows only for a particular nesting.", "anchors": ["crates/zuban_python/src/file/isinstance.rs: check_isinstance_or_issubclass_type, isinstance_or_issubclass_type_for_expr_part, process_isinstance_type, process_tuple_types"]}
{"id": "C237", "title": "isinstance refuses no argument that Python accepts", "statement": "An argument that Python accepts is accepted without any error.", "quantifier": "all expressions for the second argument", "why_tests_cant": "The set of correct arguments is infinite.", "anchors": ["crates/zuban_python/src/file/isinstance.rs: check_isinstance_or_issubclass_type, isinstance_or_issubclass_type_for_expr_part, process_isinstance_type, process_tuple_types"]}
{"id": "C238", "title": "isinstance narrows to exactly the classes that are tested", "statement": "The members of the type that an accepted second argument stands for are exactly the classes Python tests for.", "quantifier": "all accepted expressions for the second argument, and all types", "why_tests_cant": "A member that is lost or invented shows only for particular nestings.", "anchors": ["crates/zuban_python/src/file/isinstance.rs: check_isinstance_or_issubclass_type, isinstance_or_issubclass_type_for_expr_part, process_isinstance_type, process_tuple_types"]}
{"id": "C239", "title": "Modules are searched for fixtures in a fixed order", "statement": "Fixtures are searched in the file itself, then in the conftest.py files from its directory upwards, each followed by its plugins, then in the modules of pytest; the search ends, and no module is left out or visited in another order.", "quantifier": "all directory trees, conftest files, plugin lists and files", "why_tests_cant": "The depth of directories and the number of plugins are unbounded; a state that is lost between two calls shows only for particular trees.", "anchors": ["crates/zuban_python/src/pytest.rs: FixtureModuleIterator, find_pytest_fixture_for_param, find_all_possible_pytest_fixtures"]}
{"id": "C240", "title": "A parameter stands for the nearest fixture", "statement": "A parameter of a test or fixture stands for the fixture of the first module in the order that defines it; a fixture that overrides another of the same name does not stand for itself.", "quantifier": "all trees, functions and names", "why_tests_cant": "Overrides at any depth cannot be enumerated.", "anchors": ["crates/zuban_python/src/pytest.rs: FixtureModuleIterator, find_pytest_fixture_for_param, find_all_possible_pytest_fixtures"]}
{"id": "C241", "title": "Completions of fixtures are those that resolve", "statement": "The names offered as parameters of a test or fixture are exactly the names that stand for a fixture there.", "quantifier": "all trees, functions and names", "why_tests_cant": "Two separate searches have to agree on all trees.", "anchors": ["crates/zuban_python/src/pytest.rs: FixtureModuleIterator, find_pytest_fixture_for_param, find_all_possible_pytest_fixtures"]}
{"id": "C242", "title": "The virtual environment is found by fixed priorities", "statement": "A configured environment is kept; otherwise the best one of the first directory with one is used (the base directory, then mypy_path in order; venv before .venv before names with venv, with virtualenv, others); otherwise VIRTUAL_ENV, then CONDA_PREFIX.", "quantifier": "all file systems, settings and environment variables", "why_tests_cant": "Directories, their contents and paths are unbounded.", "anchors": ["crates/config/src/venv.rs: Settings::try_to_apply_environment_variables, try_to_find_environment_if_not_defined, try_to_find_env_in_dir"]}
{"id": "C243", "title": "The choice of the environment is deterministic", "statement": "Which environment of a directory is used depends on what is in the directory, not on the order in which the operating system lists it.", "quantifier": "all directories and all orders of their entries", "why_tests_cant": "A test sees the one order that its file system gives.", "anchors": ["crates/config/src/venv.rs: Settings::try_to_apply_environment_variables, try_to_find_environment_if_not_defined, try_to_find_env_in_dir"]}
{"id": "C244", "title": "A configured version of Python is kept", "statement": "A configured version is never changed by the search for environments, and otherwise a version is only taken from the environment that is used.", "quantifier": "all file systems, settings and environment variables", "why_tests_cant": "The version of a skipped environment could leak only in particular directories.", "anchors": ["crates/config/src/venv.rs: Settings::try_to_apply_environment_variables, try_to_find_environment_if_not_defined, try_to_find_env_in_dir"]}
{"id": "C245", "title": "PYTHONPATH and MYPYPATH are added in order", "statement": "The directories of PYTHONPATH and then of MYPYPATH are added after the configured ones, in their order and nothing else.", "quantifier": "all lists of directories in both variables", "why_tests_cant": "Lists and names are unbounded.", "anchors": ["crates/config/src/venv.rs: Settings::try_to_apply_environment_variables, try_to_find_environment_if_not_defined, try_to_find_env_in_dir"]}
{"id": "C246", "title": "The packages of the system are used like Python does", "statement": "For a virtual environment, the site-packages of the system are searched exactly if Python itself would do so because of include-system-site-packages in pyvenv.cfg.", "quantifier": "all contents of pyvenv.cfg", "why_tests_cant": "Contents of files are unbounded; white space, letters and repetitions vary.", "anchors": ["crates/zuban_python/src/sys_path.rs: include_system_site_packages_in_pyvenv_cfg"]}
{"id": "C247", "title": "The newest library of Python nearest to the executable is used", "statement": "The library is that of the configured version if there is one, and otherwise the newest in the nearest directory above the executable that has one; only directories that are a library of Python (with os.py) are used.", "quantifier": "all file systems and configured versions", "why_tests_cant": "Directories and versions are unbounded, and the result depends on their order.", "anchors": ["crates/zuban_python/src/sys_path.rs: lib_path"]}
{"id": "C248", "title": "Site-packages of another version are only a fallback", "statement": "The site-packages of the version are used if they exist; otherwise those of a directory that exists and has the right start, if there is any.", "quantifier": "all names, versions and listings", "why_tests_cant": "Listings are unbounded.", "anchors": ["crates/zuban_python/src/sys_path.rs: lookup_site_packages_with_version_detailed"]}
{"id": "C249", "title": "A cast has the type that was asked for", "statement": "A call of cast without a reported issue passes exactly two expressions by position, and its result is the type that the first one stands for; redundant casts are reported exactly if asked for.", "quantifier": "all lists of arguments, all types and expressions", "why_tests_cant": "Calls are unbounded, with empty and unknown unpacked arguments in between.", "anchors": ["crates/zuban_python/src/type_helpers/typing.rs: execute_cast", "crates/zuban_python/src/arguments.rs: ArgIterator::next"]}
{"id": "C250", "title": "reveal_type says the type and does not change it", "statement": "For one positional expression the type is said once and is also the result; every other call reports exactly one error.", "quantifier": "all lists of arguments", "why_tests_cant": "Lists of arguments are unbounded.", "anchors": ["crates/zuban_python/src/type_helpers/typing.rs: execute_reveal_type"]}
{"id": "C251", "title": "assert_type is silent exactly if the types are equal", "statement": "Nothing is reported only if two expressions are passed by position, the second is a type and equal to that of the first; the result is the type of the first.", "quantifier": "all lists of arguments, all types and any equality of them", "why_tests_cant": "Lists of arguments and types are unbounded.", "anchors": ["crates/zuban_python/src/type_helpers/typing.rs: execute_assert_type"]}
