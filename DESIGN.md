# Formal model of zuban: design

The code under study is `/repo` (zubanls/zuban, Rust). Nothing is executed: the
model is written by reading the source. All proofs are Lean 4 (4.33.0) with
Mathlib, under `/verif/lean/Verif`.

## Trusted base

* Lean's kernel and the three standard axioms `propext`, `Classical.choice`,
  `Quot.sound`. No other axiom, no `sorry`, no `native_decide`, no `bv_decide`.
* The transcription from Rust into Lean definitions. Each definition cites the
  file and lines it models and says where it simplifies.
* The independent specifications (namespaces called `Spec` or definitions
  introduced as "specification"), which state what a user relies on.

## Conventions

* One Lean module per area. The model comes first, then the specification, then
  helper lemmas, then the property theorems, then `example`s that show the
  hypotheses of each theorem are met by a concrete non-trivial case.
* Rust panics (slicing off a character boundary, index out of range, `unwrap`
  on `None`, arithmetic underflow) are explicit error values in the model.
* Where the code does not have the property, the module proves the negation with
  a concrete witness (theorem name ends in `_violation`) and proves the property
  under the condition that excludes the defect (name ends in `_partial`).
* Strings are lists of characters or lists of bytes, whichever the code indexes.

## Plan per property

| id | what is modelled | how it is proved |
|----|------------------|------------------|
| C01 | line table, `position_infos`, `line_column_to_byte` on lists of characters with UTF-8 offsets | induction over the text; round trip |
| C02 | `line_column_to_safe_byte` | decision logic; violation for UTF-16 at the end of a line with an astral character, partial without |
| C03 | `apply_document_changes` with its cached line table | refinement to sequential application with a fresh table; invariant "cached table agrees below the first changed line" |
| C04 | same function, stored line table already computed | violation witness plus partial (table not yet computed) |
| C05 | `parse`'s newline padding and the edit function | invariant by induction over histories |
| C06 | pre-order array with `next_node_offset`, navigation functions | inductive tree, flatten function, navigation agrees with tree |
| C07 | `leaf_by_position` | binary search invariant |
| C08 | rule syntax, the macros that desugar it, NFA construction, closure, powerset with its table of states, and 135 of the 149 rules of the Python grammar | denotational language; completeness for all rules, exactness for well-shaped rules and for the transcribed grammar, violations for optional parts that begin or end with a repetition |
| C09 | `BacktrackingTokenizer` | invariant by induction over operations |
| C10 | the whole tokenizer `PythonTokenizer::next`, with regular expressions as parameters and also concretely | invariant over all sequences of steps |
| C11 | `from_literal` on bytes | refinement to a denotational escape semantics |
| C12 | same, with explicit panics | violation witnesses plus partial |
| C13 | `unpack_string_or_bytes_content` | round trip |
| C14 | `str_repr`, `bytes_repr` | round trip through a reference Python literal evaluator, violation for quotes |
| C15 | invalidation sets and recursion with `take` | fuel-free termination measure, equality with reachability closure |
| C16 | in-memory overlay and loaded files | refinement to a map overlay by induction over events |
| C17 | import lookup with recorded missing entries, histories with imports (Vfs/Import*.lean) | recorded entries stay or invalidate (Guards), induction over directories and histories; violation witnesses for shadowed modules, `py.typed`, replaced files |
| C18 | `python_import_with_needs_exact_case`, `load_init_file` over a list of directories (Vfs/Import.lean) | refinement to a declarative priority (Resolves), for the disk and the open documents after any history |
| C19 | `normalize` | fold over components; idempotence |
| C20 | `strip_short_path_in_workspace` | maximality proof |
| C21 | `OverridePath::matches_file_path` | refinement to a declarative glob |
| C22 | stable sort of sections and in-order application | last applicable section wins; violation for specificity |
| C23 | `apply_to_flags` | violation |
| C24 | `maybe_invert`, `as_bool` | decision logic |
| C25 | `find_config`, `find_mypy_config_file_in_dir` | refinement to a declarative choice, violation for setup.cfg |
| C26 | `PythonVersion` | violation (4.0) plus partial |
| C27 | server message handling as a state machine | trace induction |
| C28 | panics between operations and inside the parser, `into_panic_recovery`, `load_panic_recovery`, configuration changes, errors of the watcher, over the model of C16 | invariant over all histories of incidents; violations for panics of the parser, watcher errors, unread reports, a directory replaced by a file |
| C29 | panic hook | violation plus partial |
| C30 | `negotiate_encoding` | decision logic |
| C31 | `SemanticTokensBuilder` | round trip |
| C32 | `sort_text` | order embedding below 16^5, violation above |
| C33 | notebook cells | trace induction, violation of parent |
| C34 | `run_goto_like` | violation |
| C35 | symbol tree search | violation plus partial |
| C36 | `FileRename::to_uri` | violation for packages plus partial for modules |
| C37 | `summary`, exit code | violation plus partial |
| C38 | tuple `get_item` with int | soundness against run-time values |
| C39 | `as_fixed_len_tuple` | refinement to Python's slice semantics |
| C40 | slices of variadic tuples | violation plus partial |
| C41 | tuple add/mul | soundness, violation for `add_before_and_after` |
| C42 | MRO merge | violation for three bases plus partial: equality with C3 for at most two bases |
| C43 | MRO merge | invariants of the merge loop |
| C44 | union merge over an abstract subtype preorder | invariants of the fold |
| C45 | `Match` | decision logic and induction over lists |
| C46 | ignore comment scanner | refinement to a declarative scanner, violation for strings |
| C47 | `Point` bit packing | bit-vector arithmetic on naturals, violation for sticky bit |
| C48 | selection range iterator on trees | induction on ancestors |
| C49 | `split_and_trim` | decision logic |
| C50 | `union` of literals | algebra |
| C51 | the error paths of `apply_document_changes` | violation witness plus partial (nothing left behind in the stored table) |
| C52 | `DirectiveSplitter` | refinement to a declarative grammar of inline directives |
| C53 | `ignored_global_imports` | characterisation, violation for overridden sections |
| C54 | `apply_to_flags` with errors | exact condition of the panic |
| C55 | `find_config` with an explicit file | comparison with discovery, violation |
| C56 | `expand_range_to_full_lines` | from the line table lemmas |
| C57 | MRO over a program of class statements | induction over the statements |
| C58 | `parse_python_bytes_literal` with offsets | refinement to a denotational escape semantics; violation for `\r\n` in the source |
| C59 | `SearchIterator` on the stored array | induction over the tree, continuation style |
| C60 | the parser's stack | induction over derivations with omitted and left-recursive rules |
| C61 | `Points` backup and reset | induction over the restored range |
| C62 | `Points` invalidation | case analysis on the packed locality |
| C63 | insertion point, edit and the scanner of C46 | the edited text decomposed around the insertion, violations for tabs |
| C64 | directive lines, `has_type_ignore_at_start` | refinement to decompositions of the text |
| C65 | the message loop with arbitrary handlers | invariant over all sequences of events, violation for panics while publishing |
| C66 | the length given to a token | counting of code units, violation outside ASCII |
| C67 | `nested_doc_symbols`, `flat_doc_symbols` | mutual induction over symbol trees |
| C68 | `path_relative_to` | refinement to walking a path piece by piece |
| C69 | the same | measure of what is left, recursion of `next` as steps; violation for an index inside of a character |
| C70 | the same | inductive layout of tokens and gaps; violation after blank continued lines |
| C71 | the same, `skip_whitespace`, `dedent_if_necessary`, `encountered_break_token` | inductive blocks by columns; violations for keywords in brackets and form feeds |
| C72 | regular expression `OPERATOR` with leftmost-first preference | exact: longest word of a list |
| C73 | regular expressions `STRING`, `BYTES` | exact: Python's lexical grammar as an inductive predicate |
| C74 | `handle_fstring_stack` | inductive text of f-strings; violations for character names, CRLF, nested quotes |
| C75 | the same and `FStringNode` | two steps; violations for blanks and second specifications |
| C76 | `InferrableParamIterator`, `match_arguments_against_params` without types, `ArgIteratorBase` (order) | an abstract state of the iterator, refinement by induction over the parameters; description by number of the parameter; violation for names swallowed by `**kwargs` |
| C77 | the same with unknown `*` and `**` | the same description, values at run time as a relation; partial for orderly calls; four violations |
| C78 | the same | the missing lengths and names are constructed; partial |
| C79 | the same | partial without unknown `*`; violations |
| C80 | `has_unused_arguments`, the end of `match_arguments_against_params` | invariant of the kept arguments for all inputs; truth of the messages through the description |
| C81 | `matches_simple_params` with `match_star_star` and `is_trivial_suffix` (Callable/), over the rules for calls of C76 | induction over the parameters: the call loses its first argument, or the arguments of one name, on both sides; six violations |
| C82 | the same | induction over the signature |
| C83 | the same | the parameters passed over and the rest are a permutation of what is expected; violations |
| C84 | the same | both directions by induction; fresh values pin down where an argument goes |
| C85 | flow_analysis.rs as a state machine over frames (Flow/), against a description of runs that knows nothing of frames | induction over the run; invariant: what the frames say holds of the environment |
| C86 | the same with `process_loop`, `break`, `continue` | the same induction, the loop by its rounds; partial where nothing assigned in the loop is narrowed before it; three violations |
| C87 | the same with `try`, `with` | what is noted for the handlers covers everything assigned so far; partial; three violations |
| C88 | keys below keys | two violations; proved for assignments of any keys in the body of the function, next to statements with flat keys (`body_types_true_partial`) |
| C89 | `:=` in conditions | two violations; proved for `if (n := e):` in the body of the function, with a name not used before |
| C90 | `del`, assignments of `Any` | two violations; C85 and C87 cover `del` of names bound at the start |
| C91 | `with_new_func_frame_and_return_unreachable` | the same induction; partial; a violation |
| C92 | The flow analysis of C85 for all programs. | By induction over the program every construct leaves all frames but the top one, the number of open tries and the open loop as they were. |
| C93 | The other direction of C85 for programs without loops, `try` and `del`, with conditions about values that have no name. | Invariant: every value of the type of a key is attained by an environment of some run so far; merging is described key by key. With tests of names a counterexample is proved. |
| C94 | The comparison of types in matching.rs, with fuel, over an arbitrary set of classes; a meaning of types is anything that follows the rules of Python, and one is built. | Induction over the fuel for all mutually recursive functions at once: acceptance gives inclusion, sameness gives both. Partial; seven violations. |
| C95 | The same model. | More fuel does not change an answer. With heights of classes that bound the type arguments of their bases, a measure of pairs of types decreases in every call. Partial; a violation. |
| C96 | The same model. | Induction over the type. Partial; a violation. |
| C97 | The same model. | Cases of the other type; every mro ends with `object`. |
| C98 | The same model. | The loops over members, with C95. Partial; a violation. |
| C99 | Common base types over the types of C94. An upper bound for both types by induction on the fuel, all functions together; the union operation is a parameter with its specification. | `common_base_upper_partial`; false below invariant parameters where the comparison is wrong (`common_base_violation`). |
| C100 | Common subtypes. A lower bound for both types by induction on the fuel. | `common_sub_lower_partial`; not the greatest one (`common_sub_violation`). |
| C101 | `split_and_intersect` over abstract types with their answers as parameters; values, `isinstance` at run time and numbers with promotions in a separate specification. Invariants of the loops. | `isinstance_true_partial`, `isinstance_false_partial`; five violations in a concrete world. |
| C102 | The same model; the values of the results are traced back through the loops. | `isinstance_true_narrow_partial`, `isinstance_false_narrow_partial`; `promotion_wide_violation`. |
| C103 | `overlaps` and what it calls on top of the comparison of types; `Calm` are the laws of class hierarchies and of protocols, `Fine` the types covered. Strong induction over the fuel of the overlap test: where it says no, neither comparison can say yes. | `assignable_overlaps_partial`, `self_overlaps_partial`, `member_overlaps_partial`; `overlap_type_violation`, `overlap_never_violation`, `overlap_unpack_violation`, `overlap_empty_violation`. |
| C104 | `merge`, `merge_or_mismatch`, the updates of bounds and `match_or_add_type_var`, over any comparison of types (`Lang`); `Right` and `Tight` are laws of comparison and common types, proved for the types of Python. Invariant over all sequences: a type within the bounds solves all that was matched. | `solving_never_panics`, `solved_fits_partial`, `solved_fits_context_partial`, `python_solved_partial`; `join_violation`. |
| C105 | The same model for ordered types with least upper and greatest lower bounds; the bounds are exactly the solutions. | `accepted_iff_solvable_partial`, `solved_least_partial`, `solved_greatest_partial`, `order_independent_partial`; `order_violation`, `bound_contra_violation`. |
| C106 | The same model; invariant over the types inside the bounds. | `solved_within_bound_partial`, `solved_is_constraint`, `python_bound_partial`; `bound_join_violation`. |
| C107 | `resolve_cycle` and `replace_type_var_likes` of bounds on top; induction over variables and constraints. | `resolved_fits_partial`; `transitive_violation`. |
| C108 | The name binder as a function with fuel over expressions, comprehensions and statements (`Verif/Scope/Model.lean`), scope rules as a separate specification (`Spec.lean`): each use has the nearest visible scope that binds it. Invariant of a scope: its table holds what is bound above; every use is dealt with, waits in one of three lists, or is still to come; induction over the fuel for all six functions. | `names_mean_their_scope_partial`; `name_before_loop_violation`, `walrus_in_generator_violation`, `generator_in_class_violation`, `unreachable_assignment_violation`. |
| C109 | The same run; when a function is indexed, the tables of all functions around it are complete. | `declarations_find_their_scope_partial`; `nonlocal_in_classes_violation`, `nonlocal_before_assignment_violation`. |
| C110 | The same invariant, stronger for references that are in order. | `bound_names_are_not_reported_partial`; `used_after_walrus_violation`, `list_in_loop_violation`. |
| C111 | Measure: the size of the bodies in the list of postponed work, then its length; more fuel changes nothing. | `every_file_is_bound`. |
| C112 | Static conditions over the syntax that the name binder looks at; the specification evaluates a condition in a run with the tuple order of Python. Induction over the condition. | `decided_is_right_partial`; four violations. |
| C113 | The marks of the branches and the three readers of the marks against the branch that a run executes. Induction over the chain. | `executed_branch_is_seen_partial`, `dead_branches_are_skipped`, `executed_members_are_found_partial`, `members_after_false_branch_violation`. |
| C114 | Inductive predicate for the usual conditions; induction over it. | `idioms_are_decided`, `idiom_keeps_one_branch`. |
| C115 | Panics are `none`; the sum of a slice start and a tuple length overflows. | `conditions_do_not_panic_partial`, `branches_do_not_panic_partial`, `slice_start_violation`. |
| C116 | The flag of a decided condition against runs where `TYPE_CHECKING` is false. | `checking_blocks_do_not_run_partial`, `checking_blocks_are_known`, `checking_or_violation`. |
| C117 | A program is a list of dataclasses; by induction over it, the parameters are those of the dictionary of fields that `dataclasses._process_class` builds. | `init_is_pythons_partial`, `override_without_init_violation`, `override_with_keyword_violation`, `override_with_init_violation`, `inherited_value_violation`. |
| C118 | The errors of the next class against an inductive predicate of what raises a `TypeError`; the signature after the reset of defaults. | `errors_are_pythons_partial`, `signature_is_valid`, `class_signature_is_valid_partial`, `class_signature_violation`. |
| C119 | The `unreachable!` is an error value; invariant that all names are slices. | `dataclasses_do_not_panic_partial`, `alias_violation`. |
| C120 | The list of `InitVar`s in the dictionary of Python, by induction over the program. | `post_init_is_pythons_partial`, `post_init_order_violation`, `post_init_twice_violation`. |
| C121 | Corollary of C117 for the parameters in front of the star. | `match_args_are_pythons_partial`, `match_args_violation`. |
| C122 | The lookup of fields on the class and the flags of the parameters. | `replace_wants_init_vars_partial`, `replace_frozen_violation`. |
| C123 | A dictionary with several types is a state; casts and operations that the checker accepts are steps. Every type gives each key a slot (required, read-only, values); the slots of all types stay above those of the first type. | `views_stay_right_partial`, `required_keys_stay_partial`, five violations. |
| C124 | The types of the results of the methods over an abstract union of types. | `getItem_has_type`, `getItem_accepted_iff`, `get_has_type`, `pop_has_type`, `setDefault_has_type`, `values_have_type`. |
| C125 | The check of the arguments of a call. | `call_accepted_iff`, `call_makes_fitting`, `missing_keys_do_not_fit`. |
| C126 | The gatherer of members with merging, overriding and extra items; every step without issue keeps the slots below those of the base. | `class_members_distinct`, `subclass_usable_as_base_partial`, `subclass_accepted_for_base_partial`, three violations. |
| C127 | `union` and `intersection` with the shortcut for the same definition. | `join_usable_partial`, `join_keeps_common`, `meet_usable_partial`, three violations. |
| C128 | The narrowing of typed dicts by `in`. | `in_narrowing_keeps_partial`, `in_narrowing_extra_items_violation`. |
| C129 | `is_super_type_of` over comparisons of member types that are reflexive and transitive. | `accepted_refl`, `accepted_trans_partial`, `accepted_trans_violation`. |
| C130 | The checks of the operations, in the other direction than C123. | `member_operations_accepted`, `extra_operations_accepted`, `clear_accepted_iff`, `dict_accepted`. |
| C131 | The loop over the overloads, union math, the second run without a context and the execution of the overload that was found are modelled; the comparison with one signature is a parameter, with the contract that accepted values are accepted. | `call_right_partial`, `tuple_of_unions_violation`. |
| C132 | The loop, by induction over the overloads before the chosen one. | `first_overload`, `first_overload_of_arbitrary_length`, `rejected_reported`. |
| C133 | The loops that push entries to copies of tuples are modelled with their indices; the pushes reach all pairs exactly if the lengths have no common divisor (Chinese remainder theorem). | `split_inside`, `split_covers_partial`, `split_nonempty`, `split_bounded`, `tuple_split`, `tuple_of_unions_violation`. |
| C134 | The recursion over the arguments and entries, compared with the product of the entries. | `union_math_iff`, `union_math_type`, `union_math_too_many`, `call_no_panic`. |
| C135 | The conditions for union math and the recursion. | `combinations_accepted_partial`, `tuple_of_bool_violation`. |
| C136 | The merge of return types, by induction over types. | `fallback_covers`, `fallback_mypy_covers_partial`, `fallback_same`, `fallback_mypy_violation`. |
| C137 | The loop with matches because of Any, compared with the loop for static types that the arguments stand for. | `any_right_partial`, `any_mixed_violation`, `any_union_math_violation`. |
| C138 | The loop over the union and the cases for fixed tuples, tuples of arbitrary length and tuples with an unpacked part; values are lists of items. By cases over the shapes, with the exact lengths of each. | `then_branch`, `else_branch`, `branches_inside`. |
| C139 | The same functions; the types that a branch gets are compared with the test of Python. | `then_exact`, `else_exact`, `else_of_equals_is_not_exact`, `no_conclusion_iff`. |
| C140 | Subtractions of `usize` are explicit and can fail. | `panics_iff`, `no_panic_partial`, `no_panic_violation`. |
| C141 | `narrow_is_or_eq` with both loops over unions; equality of Python is specified with user defined `__eq__` and numbers that are equal across types. | `compare_then_partial`, `equal_text`, `equal_member` and the violations. |
| C142 | The same functions, the other branch. | `compare_else_partial`, `is_else`, `equal_self`, `equal_custom_enum_violation`. |
| C143 | Repeated narrowing by `is` of a finite type, by induction over the tests. | `is_exhaustive`, `is_not_exhaustive`. |
| C144 | The fold over the items of a tuple with `merge_or` and `merge_and` (the intersection is a parameter), the case of containers and the search in a chain. | `in_then_partial`, `in_else`, `in_container_partial`, `chain_then_partial` and the violations. |
| C145 | The case `type(x) == y`; the class of a value is part of the specification. | `type_of_then_partial`, `type_of_else` and the violations. |
| C146 | `split_truthy_and_falsey_t` without tuples and typed dicts; truth as Python defines it by `__bool__` and `__len__`. | `truth_partial`, `truth_of_int_violation`. |
| C147 | the test of names in `enum_members`; the tests of `Lib/enum.py` and the mangling of the compiler. | `reserved_partial`, `odd_differs`, `underscore_violation`, `private_violation`. |
| C148 | `enum_members`, `maybe_valid_enum_member_assignment`, lookups; the executions of a class body with the rules of `EnumDict.__setitem__` and of `EnumType.__new__`; invariant by induction over the executed definitions. | `members_partial`, `memberNames_unique`, eight violations. |
| C149 | the sorting in `enum_members`; sorted permutations are equal. | `order_irrelevant`, `members_in_order`. |
| C150 | `split_enum_members`, `add_member`; `str.split` of Python as a relation. | `names_partial`, `reused_names`, `names_are_slices`, `white_space_violation`, `reserved_name_violation`. |
| C151 | `guards` and the functions for alternatives, classes, sequences and tuples, mutually recursive over patterns; `Matches` of PEP 634 as specification, types as sets of values. Induction over the pattern. | `then_partial`, `never_matches_partial`, `star_then_violation`, `star_item_violation`, `star_only_violation`. |
| C152 | The same induction, with the names that Python binds. | `names_partial`, `star_name_violation`, `subclass_args_violation`, `refutable_alternative_violation`. |
| C153 | Induction over the pattern; the entries of a tuple with a list of patterns that cannot fail. | `else_partial`, `inside_partial`, `total_rest`, `class_names`, `class_impossible`, `tuple_names`, `refutable_argument_violation`, `self_match_violation`, `star_rest_violation`, `named_tuple_violation`, `sequence_of_class_violation`. |
| C154 | `restOfCases` and the execution of the statement as an inductive relation. | `rest_partial`, `exhaustive_partial`, `body_partial`, `guard_violation`. |
| C155 | `Verif.Mapping`: `guards` for a mapping pattern over typed dicts (`Dict.entry`, `dictEntries`), `Any` and other types; values are objects with an optional map from keys to values. Induction over the entries; a typed dict promises what PEP 589, 655 and 728 say. | `then_partial`, `never_matches_partial`, `inside`, `impossible_key`, `Sample.dotted_key_violation`. |
| C156 | The same model; mutual induction over nested mapping patterns, the other patterns by C153. | `else_partial`, `exhaustive_partial`, `required_rest`, `unchanged_rest`, `Sample.refutable_value_violation`. |
| C157 | The same model; names with their types are collected by the loops, mutual induction over nested mapping patterns, the other patterns by C152. | `names_partial`, `member_type`, `Sample.rest_violation`. |
| C158 | Model of literal arithmetic on unbounded integers with explicit 64-bit checks, and an inductive relation for Python's operators (floor by inequalities, bits by division); case analysis with uniqueness lemmas. | `type_right`, `literal_right`, `precise_partial`, `precise_other`, `precise_violation`. |
| C159 | The same model; the errors of the relation are compared with the reported issues. | `issue_real`, `issue_reported_partial`, `issue_reported_violation`. |
| C160 | The same model with a count of the loop; overflow and assertion are explicit results. | `size_bounded`, `steps_partial`, `steps_violation`, `total_partial`, `total_violation`. |
| C161 | Model of the dispatch with strategies over an arbitrary class hierarchy, Python's rules as inductive relations; the strategy is shown to be the order of Python under `SameOrder`, then case analysis over evaluations. | `result_partial`, `same_class`, `inherited_reflected_violation`, `promotion_violation`, `comparison_violation`, `comparison_same_violation`. |
| C162 | The same model; induction over the members of unions. | `issue_real`, `issue_reported_partial`, `any_violation`. |
| C163 | The check as a function on signatures, its absence of reports is used to bound the results of Python's evaluation. | `overlap_subclass`, `overlap_other`, `overlap_real`, `overlap_object_violation`, `overlap_union_violation`. |
| C164 | In-place methods followed by the model of C161. | `aug_result_partial`, `aug_safe_partial`, `aug_union_violation`, `aug_fallback_violation`. |
| C165 | Lookup and binding as functions on tables of classes; an independent semantics of attribute access with descriptors, slots and hooks; an invariant over sequences of accepted assignments. | `type_iff`, `reads_partial`, and one violation for each assumption. |
| C166 | The same invariant: stores contain only declared names. | `missing`. |
| C167 | The check of an assignment as a function to issues; reasons are stated on the tables; progress in the semantics of C165. | `issue_reason`, `refused`, `progress_partial`, `classVar_violation`, `slots_callable_violation`, `slots_get_violation`. |
| C168 | The narrowing flag of the check against a write followed by a read. | `narrow_partial`, `setattr_violation`. |
| C169 | Lookup on a class and its metaclass against `type.__getattribute__`. | `class_reads_partial`, `class_missing`, `meta_getattr_violation`, `meta_plain_violation`, `meta_property_violation`. |
| C170 | Kinds, setters and types of two names as data, the relation of types is any one. `Overrides` and `Agrees` list what is asked without the order of the code; equivalence by cases. | `override_iff`, `pair_iff`. |
| C171 | A class has a method resolution order, base classes and a table of names. `Linear` says what a linearization is. Induction over the order: each class is checked for its own names and for pairs of base classes, the relation is carried to all ancestors. | `read_partial`, `assigned_name_violation`, `inherited_name_violation`. |
| C172 | The same induction for the values that may be assigned (`Accepts`), with attributes of one type, final names and properties. | `write_partial`, `narrowed_attribute_violation`, `method_for_attribute_violation`, `class_variable_violation`, `class_variable_for_setter_violation`, `cached_property_violation`, `setters_of_bases_violation`. |
| C173 | The same induction for final names; `@override` and `explicit-override` are equivalences with the names of the order. | `final_partial`, `override_decorator`, `override_explicit`, `final_of_second_base_violation`. |
| C174 | The comparison with the type where the type variable is replaced by `object`, modelled with fuel, against an inductive definition of the signs of places; mutual induction over types for both directions and for equality. | `check_partial`, `check_complete`, `check_none`, `union_violation`, `union_contra_violation`. |
| C175 | Types as sets of values with classes as arbitrary functions that respect the variances; from the signs of places by induction. | `covariant_grows_partial`, `contravariant_shrinks_partial`. |
| C176 | The loops over bases and names as folds; the flags at the end are conjunctions over all of them. | `covariant_class_partial`, `covariant_union_violation`, `covariant_return_violation`, `covariant_writable_violation`. |
| C177 | As C176, with the variances after the result is stored. | `contravariant_class_partial`, `contravariant_writable_violation`, `contravariant_recursive_violation`. |
| C178 | The same folds: the early return is taken exactly if both flags are false. | `infer_total`, `invariant_reason`, `contravariant_reason`. |
| C179 | The diagnostic for base classes against the signs of places. | `declared_partial`, `declared_keeps_partial`. |
| C180 | Trees of files as functions from paths to kinds; Python's search as an inductive definition that does not mention stubs; both directions by induction over the dotted name from its end. | `python_found_partial`, `python_only_partial`, `python_partial`, `stub_file_violation`. |
| C181 | Induction over the dotted name, with an invariant about the directories that are searched next. | `named_partial`, `named_violation`. |
| C182 | The marker as an existence claim about the path of the file, independent of the loop that looks for it. | `typed_partial`, `typed_stub_file_violation`, `typed_neighbour_violation`, `typed_strings_violation`. |
| C183 | The climb as a recursion over the reversed path; the spec splits the path at a length. | `relative`, `relative_error`, `relative_python_partial`, `relative_namespace_violation`. |
| C184 | `unreachable!` as an own result. | `no_panic`, `lookup_no_panic`, `strings_no_panic_partial`, `strings_panic_violation`. |
| C185 | All ways to a result end in the search of a list of directories, where the stub is looked for first; stub packages as an inductive definition. | `stub_beside`, `stub_package`, `stub_module`. |
| C186 | Programs are class statements that Python executes (as for C42), values are instances, classes and `None`; the intersection as a recursive function. A common subclass of unrelated classes gives a common order (completeness of C3), a chain of layouts and no final class; induction over the pairs of types. | `unreachable_partial`, `callable_violation`, `metaclass_violation`. |
| C187 | Same model; induction over the sizes of the types, and the covering lemma of C186. | `intersection_within`, `intersection_partial`. |
| C188 | The loop as a fold; invariant: the candidate is above one of the bases and below the layouts of all earlier ones; layouts above one class form a chain. | `disjoint_bases`. |
| C189 | The closures as functions from entries to results and issues; induction over the entries. | `lookup_in_intersection`, `execute_partial`, `execute_violation`. |
| C190 | Both recursions reach the same pairs of parts, by induction over the types; on parts the relation is symmetric. | `symmetric`. |
| C191 | Values are instances, literals and `None`; with single inheritance the classes above a class form a chain. | `disjoint_partial`, `disjoint_violation`. |
| C192 | Same model, a value for each pair of parts that overlap. | `common_value_partial`. |
| C193 | Tuples with an arbitrary relation of their elements that is right; splitting of lists at the unpacked part. | `tuples_partial`, `tuples_sound_partial`, `empty_violation`, `alignment_violation`, `lengths_violation`. |
| C194 | Walk with a state and a stack of `.gitignore` files; shown equal to a function without state, then to a specification with paths and the directories above them. | `walk_directory`, `search_all`. |
| C195 | Same model, started in the directory; directories on a path can be split and joined. | `named_directory_partial`, `named_directory_violation`. |
| C196 | Each `.gitignore` gives one of three answers for a path; Git's rule is an inductive predicate. | `git_partial`, `git_violation`. |
| C197 | Arguments are handled one after the other with the shared state. | `search_arguments`, `search_arguments_error`, `named_file`. |
| C198 | The walk for patterns as its own recursion. | `patterns_partial`, `patterns_violation`. |
| C199 | The builder with its previous position; the client as a function of the protocol; positions by the model of lines. | `response`, `push_ok`, `push_none`. |
| C200 | Same model; widths in the three encodings. | `lengths_partial`, `lengths_violation`. |
| C201 | Leaves as a sorted list, search as in the tree. | `range_tokens`, `all_tokens`. |
| C202 | Unions of atoms; dictionaries as sets of keys that fit a typed dict. | `narrow_right_partial`, `narrow_right_violation`, `narrow_right_precise`. |
| C203 | Containers with items; `None` removed from the left side. | `narrow_left_partial`, two violations. |
| C204 | Both sides, `maybe_invert`. | `guard_partial`. |
| C205 | Fold over the items with any sound narrowing by `==`. | `tuple_sound`, `tuple_empty`. |
| C206 | Leaves with whitespace, grammar of targets as a separate relation. | `merged`, `merged_violation`. |
| C207 | Nodes with conditions, executions by values of the conditions. | `choose_file`, `choose_none`, `choose_bound_partial`, two violations. |
| C208 | Statements with text, loop over the imports, edit of the text. | `added_partial`, two violations; `endOfImports_file`, `boundary`. |
| C209 | Same model. | `ordered`, `future`. |
| C210 | The search over an abstract program: goto results, imports that are followed, names of files, other definitions, stubs | Exact description of membership, by cases of what is reported; violation by a module and a variable at the start of its file |
| C211 | The same, with reachability through any number of imports as the spec | One import is enough if there are no chains; violations for a chain of two imports from both ends and for a class in a function of another file |
| C212 | The same | Nodup of each part, disjoint because results that are declarations are skipped |
| C213 | The same with include_declarations = false | From the description of membership; violation for imports that are not resolved |
| C214 | `references_for_rename` on top of the search | Equivalence for a use and the only thing it leads to; violation by an attribute of a union |
| C215 | The grouping of the edits by files | Induction over the recorded references |
| C216 | `valid_raise_type` on a type language with unions, intersections, tuples, class objects and bounds | Mutual induction over types and lists of types; violation by class objects of a union |
| C217 | `except_type`, `from_types` | Mutual induction; violation by a tuple in `except a, b` |
| C218 | `instantiate_except` | Mutual induction, for all types |
| C219 | `instantiate_except_star`, `gather_except_star`, `has_base_exception` | Mutual induction; violations by data classes and by groups in a variable |
| C220 | `valid_raise_type` and `except_type` on classes | Cases; violation by classes with unknown bases |
| C221 | `byKeyword` as in the Rust loop; spec `KwSlot` says by kinds and names which parameter gets a keyword | induction over the parameters, equivalence with the spec for well formed parameter lists; violation: a parameter that was already given by position is marked |
| C222 | `byPosition`, a loop with a counter; spec `PosSlot`, `Free`, `CanBe` speak of indices only | the loop stops at the first hit, counted by an invariant; violation: after `**kw` a parameter is marked that has an argument |
| C223 | the flag `is_valid_with_arguments` and the choice in the handler | none of the parameters is hit, with `Fits` as the spec of Python's binding; violations: no parameters, positional only parameters with keywords, too many positions |
| C224 | labels as lists of characters, ranges in bytes | induction over the parameters, spec `render` and `join`; slicing by bytes proved to cut at characters |
| C225 | children of `arguments` and `kwargs` with the ends of commas | induction over the written arguments, spec: take as many as commas before the cursor plus one |
| C226 | `Words` says which words a text has; the parts of `splitParts` and their offsets | induction over the length of the text; the theorem is about blanks and commas, other white space is a violation |
| C227 | `Bad` says which names Python refuses; the loop over the names | invariant of the loop by induction from the right; soft keywords are a violation |
| C228 | the same loop with `rename` | the same invariant; distinct names by injectivity of the placeholders |
| C229 | `applyDefaults`, `readOpts` | induction over the fields and over the arguments; `module` and `defaults=None` are violations |
| C230 | `ClassOk` and `annotated` say what Python does; the loop over the statements | invariant: what is accepted so far is correct; a name annotated twice is a violation |
| C231 | `hintNodes` over the stored nodes; the leaf at the start of the range comes from C07 | the leaves of a subtree are consecutive; starts are sorted; a function that begins before the range is a violation |
| C232 | `foldOf`: the last leaf of the block and the way back over dedents | induction over the dedents at the end; subtrees have consecutive leaves |
| C233 | `super`: reading the two arguments, the class of the second one, the loop over its MRO; MROs are lists of classes, dataclasses and other types | Induction over the MRO shows that the loop splits it at the first entry for the class; uniqueness of the split gives the part that is looked up. Partial: tuples in MROs and constrained type variables panic, bounds of type variables and dataclass instances give wrong errors (witnesses proved) |
| C234 | `fallback` of `super()` | Case analysis on the function around the call against a spec of being in a method |
| C235 | The order of the checks of arguments | Case analysis on the list of arguments; induction over bounds of type variables |
| C236 | `check_isinstance_or_issubclass_type` over expressions of unions, aliases and values, and types with nested tuples | Mutual induction over types and lists of types: the result has no issues iff the spec (rules of Python plus three named deviations) accepts. Partial: the deviations are violations (None in tuples, aliases for unions, tuples as operands), each with a proof |
| C237 | same | The rules without deviations imply the rules with them, then C236 |
| C238 | same | Mutual induction; membership in the result against an inductive relation of what is tested |
| C239 | `FixtureModuleIterator` as a state machine with the directories, plugins and modules that are left | Invariant: every call of `next` takes the first element of what is pending; induction over the number of calls gives termination and the exact list |
| C240 | `find_pytest_fixture_for_param` over the files of the iterator | From C239 and the first match in a list. Partial: a fixture in a plugin stands for itself, and plugins of a conftest are not searched from that conftest (witnesses proved) |
| C241 | `find_all_possible_pytest_fixtures` | From C239 by comparing both searches. Partial: not for the name of the function itself in a file that is also a plugin (witness proved) |
| C242 | The search in directories and variables; the stable sort by rank is the concatenation of the filtered lists | The first match of the sorted list is the best entry by an inductive spec of ranks and of containment; induction over the paths |
| C243 | same | The best entry is unique if ranks are. Partial: with equal ranks (`venv1`, `venv2`) the order of the listing decides (witness proved) |
| C244 | same | Case analysis of the result of the search, induction over the paths |
| C245 | `add_to_mypy_path`, `split(':')` | Round trip with joining by induction. Partial: an empty variable adds the base directory, and paths on Windows are split at the drive (witnesses proved) |
| C246 | Lines of `pyvenv.cfg`: `split_once`, `trim`, `to_lowercase` | Specs of splitting and stripping by induction, then the first line that counts. Partial: the value is not trimmed, so the line that Python writes is read as false (witness proved) |
| C247 | `lib_path` on Linux: existence of directories, sort by version, parents | Sortedness of insertion and induction over the parents. Partial: the directory is tested instead of its `os.py` (witness proved) |
| C248 | `lookup_site_packages_with_version_detailed` | Case analysis, first match in a list |
| C249 | Arguments with their positions, the loop of `execute_cast` | Induction over the arguments. Partial: after an unpacked empty tuple the type is not recognised and the result is silently `Any` (witness proved) |
| C250 | `execute_reveal_type` | Case analysis and induction over the arguments |
| C251 | `execute_assert_type` with any equality of types | Case analysis and induction over the arguments |

## What is modelled and what is not

| directory | code that is modelled | left out or simplified |
|-----------|-----------------------|------------------------|
| Automaton | parsa/src/automaton.rs: NFA, closure, powerset, plans; the macros of parsa/src/lib.rs; 135 of 149 rules of parsa_python/src/lib.rs | soft keywords, the rules with error recovery hooks; bit sets are lists |
| Tree | parsa/src/lib.rs: the stored tree and its navigation; parsa/src/grammar.rs: the stack that writes it; parsa_python_cst/src/ranges.rs | error recovery of the parser, the typed wrappers of parsa_python_cst |
| Backtrack | parsa/src/backtracking.rs | - |
| Tokenizer | parsa_python/src/tokenizer.rs, all of it | the regular expression engine: expressions are modelled as leftmost-first matchers; Unicode classes of names are parameters |
| Strings | parsa_python_cst/src/strings.rs, bytes.rs; repr in zuban_python/src/utils.rs | names of characters (`\N{..}`) are not looked up, as in the code |
| Lines | zuban_python/src/lines.rs, lsp_utils.rs, the padding of `parse` | - |
| Ignore | the scanner of `# type: ignore`, directives, and the code action that adds one | which diagnostics exist |
| Config | config/src/lib.rs, searcher.rs: sections, flags, directives, discovery | the INI and TOML parsers, individual flags beyond the ones cited |
| Paths | vfs/src/normalized_path.rs, workspaces.rs: paths as lists of pieces | Windows prefixes, symbolic links |
| Vfs | vfs/src/vfs.rs, tree.rs, local_fs.rs, the imports of zuban_python/src/imports.rs that look into directories | the watcher itself, threads, globs of `exclude` |
| Server | zubanls/src/server.rs, handlers, capabilities, semantic tokens, notebooks, panic hook | the contents of most answers: handlers are arbitrary functions that may panic |
| Point | zuban_python/src/database.rs: `Point`, `Points` | what the points mean to inference |
| Mro | zuban_python/src/file/type_computation/class.rs: linearisation | generic arguments of bases, metaclasses |
| Tuple | zuban_python/src/type_/tuple.rs: slices, `+`, `*`, unpacking | the types of the elements are arbitrary |
| Union | zuban_python/src/type_/union.rs | subtyping is an arbitrary preorder |
| Match | zuban_python/src/match_.rs | the reasons of mismatches beyond their combination |
| Call | zuban_python/src/params.rs, arguments.rs, matching/matcher/utils.rs: which argument goes to which parameter | types are not compared here; `ParamSpec`, `TypeVarTuple` |
| Callable | zuban_python/src/params.rs: comparison of two lists of parameters | `ParamSpec`, `TypeVarTuple`, unpacked tuples and `TypedDict`s; comparing two types is a parameter |
| Flow | zuban_python/src/file/flow_analysis.rs: frames, entries, merging, loops, `try`, conditions; the statements of file/diagnostics.rs | types and tests are parameters; redefinitions and widening, `match`, comparisons of two keys, narrowing of parents by their members, partial types |
| Sub | zuban_python/src/type_/matching.rs: `is_super_type_of`, `is_same_type` and what they call, for classes, dataclasses, literals, unions, tuples, `type[..]`, `NewType`, `None`, `Any`, `Never` | type variables, callables, recursive types, `TypedDict`, named tuples, enums, modules, intersections, `Self`; protocols are a parameter; the recursion is given fuel and running out of it is an explicit result; `check_promotion` takes every type as subclassable |
| Sub (Join) | type_/common_base_type.rs and type_/common_sub_type.rs for the types of `Sub`, `union` in type_/mod.rs 1066-1130 | `simplified_union` is a parameter; no callables, parameters, typed dicts, enums, implicit literals |
| Split | file/flow_analysis.rs 5753-5990: `split_and_intersect`, `replace_promoted` | subtyping, unions, overlaps and intersections are parameters with a specification; a type is the list of its members; the order of `Any` in unions is left out |
| Sub/Overlap | type_/overlaps.rs 45-322: `overlaps_internal`, `overlaps_type_of_type_against_other`, `TupleArgs::overlaps`, `overlaps_class` | no intersections, typed dicts, type variables, `Self`, callables |
| Solve | matching/matcher/type_var_matcher.rs 20-445, bound.rs 19-235 and 258-400, mod.rs 1345-1493 and 1645-1659: bounds of type variables, merging, constraints, expected types, cycles | kinds of types are one parameter with laws; type var tuples and param specs only as far as the laws hold; the search for cycles and secondary constraints |
| Scope | file/name_binder.rs 35-95, 120-192, 271-329, 404-568, 738-981, 1115-1494, 1557-1621, 1679-1766: scopes, references, global and nonlocal, comprehensions, loops, postponed work | expressions are reduced to their names; branches that are never taken are left out; annotations, type parameters, star imports and match statements; flags for the flow analysis |
| Reach | file/name_binder.rs 833-885, 1903-2237; file/flow_analysis.rs 2251-2305; file/utils.rs 942-976: conditions about version, platform and `TYPE_CHECKING`, the branches of `if` statements | expressions that are not looked at are numbered; parsing of numbers; the frames of the flow analysis |
| Dataclass | type_/dataclass.rs 199-552, 578-627, 823-853, 1176-1193, 1208-1270: the `__init__`, `__post_init__`, `__match_args__` and `replace` of dataclasses | types are numbers without type variables; converters, descriptors and `order`; classes of the MRO that are not dataclasses; evaluation of the arguments of `field` |
| TypedDict | type_/typed_dict.rs 269-380, 466-481, 526-638, 715-912, 985-1043, 1090-1150, 1237-1262, 1290-1388, file/type_computation/class.rs 1737-1843, file/type_computation/typed_dict.rs 237-268 and 432-530, type_/matching.rs 202-225 and 847-884, file/flow_analysis.rs 4694-4719: typed dicts, their classes, operations and comparisons | types of members are a parameter, so no nested typed dicts and no type variables; the functional syntax; dict displays; `|` and `|=`; key lookups by unions of types |
| Overload | type_helpers/overload.rs 32-645, 663-679, type_/mod.rs 554-653 and 1836-1893, arguments.rs 52-76: the choice of an overload, union math, materializations and the type without an overload | the comparison with one signature, generic overloads, the overloads of operators, definitions of overloads |
| Len | file/flow_analysis.rs 65, 4172-4276, 5537-5753: narrowing by `len(x) op n` | types of items and type variable tuples are parameters; comparisons with more than two operands |
| Equality | file/flow_analysis.rs 1182-1237, 1239-1533, 1570-1676, 4644-4683, 5439-5465, 5489-5525, type_/matching.rs 299-301: narrowing by `==`, `is`, `in`, `type(x) ==` and truth | class hierarchy is a parameter, no type arguments, the order of unions, narrowing of parents (`x.y == z`), tuples and typed dicts in tests of truth, the intersection of types is a parameter |
| Enums | file/type_computation/class.rs 1322-1520: which names are members or aliases; type_/enum_.rs 148-220, 443-470: lookups; file/type_computation/enum_.rs 307-331: names in a text. | the inference of values, enums made of lists and dicts, `_missing_`, conditional definitions. |
| Pattern | file/flow_analysis.rs 2796-2888, 3137-3554, 3556-3608, 3744-3883, 5085-5155; matching/mod.rs 434-467; parsa_python_cst/src/match_stmt.rs 70-84: the types of the subject and of names in match statements. | mapping patterns, `TypeVarTuple`, two starred patterns, the splits by class and by value (parameters with their promises), the simplification of unions. |
| Mapping | file/flow_analysis.rs 3248-3287, 3610-3742; type_/typed_dict.rs 276-281, 616-636; type_/mod.rs 1970-1977: mapping patterns | mapping patterns inside of sequences, classes and alternatives; how `__getitem__` is called and dotted names are inferred (parameters) |
| Arith | type_/operations.rs 873-1133: operators applied to two literals | the conversion of literals of the source to numbers; what the declarations in typeshed say if there is no literal result |
| Operator | file/inference.rs 515-545, 3127-3360; file/diagnostics.rs 2318-2440: the methods of operators and augmented assignments, the check for overlapping operators | literals, `%` of texts, `|` of types, overloads, generic classes, types other than classes, the type after an error |
| Attribute | type_helpers/instance.rs 46-257, 335-556; inferred.rs 896-1790, 3235-3323; type_helpers/class.rs 836-965, 2040-2085: reading attributes of instances and classes, assigning to attributes of instances | generic classes, `Self`, overloads, annotated first parameters, named tuples, frozen dataclasses, assignments to class attributes, `object` |
| Override | diagnostics.rs 1293-1390, 2661-2876, 3147-3175, 3317-3456, inference.rs 975-1160, inferred.rs 3235-3352: which names of a class may replace those of its base classes | names assigned on `self`, generic classes, `Any`, overloads of operators, `__post_init__`, named tuples, enums, protocols, Django, which message a mismatch gets |
| Variance | type_helpers/class.rs 1763-1977 and 2238-2259, type_/type_var_likes.rs 1043-1071, file/diagnostics.rs 3458-3494, parts of type_/matching.rs: inference of variances and their check against base classes | bounds and constraints, protocols, tuples, overloads, parameter specifications, frozen dataclasses, names that need the analysis of the flow; the comparison of different classes is a parameter |
| Import | imports.rs 17-680 and file/imports.rs 40-310: resolution of import statements and of names in strings | the special cases of typing and django-stubs, partial stub packages, file systems that ignore case, unreadable files, `__getattr__` in stubs; files do not change during the search |
| Intersect | type_/intersection.rs 34-244, 286-344: intersections and operations on them; file/type_computation/class.rs 222-233, 2038-2076: disjoint bases | `Self`, generics, the issues of failed intersections, the check of members (an arbitrary predicate) |
| Overlap | type_/overlaps.rs 34-130, 173-322: overlapping types and tuples | generics, callables, `type[...]`, typed dicts, type variables, protocols |
| Select | select_files.rs 48-65, 124-318; vfs/src/tree.rs 192-201, 516-526, 669-671: which files are checked | loading of files, flags in files, normalisation of paths, what `search_path` finds, regular expressions and globs (arbitrary predicates) |
| Tokens | zubanls/src/semantic_tokens.rs 44-231; request_handlers.rs 94-101, 674-697; semantic_tokens.rs 19-60; parsa/src/lib.rs 817-845; parsa_python_cst/src/lib.rs 397-415: semantic tokens | which type and properties a name has; nodes that are no leaves; u32 |
| Contains | file/flow_analysis.rs 4619-4734, 5373-5422; type_/typed_dict.rs 276-281: narrowing by `in` | the overlap test (a parameter); which expressions can be narrowed; the narrowing by `==` itself |
| AutoImport | auto_imports.rs 246-417; parsa_python_cst/src/lib.rs 3238-3277; parsa_python_cst/src/ranges.rs 54-104: code actions that add imports | which names can be imported (the search in the workspaces and the cache); positions in bytes; imports within compound statements |
| References | goto.rs 765-1041, name.rs 188-208, lib.rs 326-385: the search for references and the changes of a rename | `goto_name`, scopes, the file walk, the regex and stub lookup are parameters; the order of the files of a rename; the LSP conversion of the edits |
| Raise | diagnostics.rs 2514-2549, flow_analysis.rs 2557-2621, 6009-6079, inference.rs 4507-4525, 4873-4975: raise, except and except* | simplification of unions other than Never, recursive types, the call of the class in raise, `raise NotImplemented`, errors for missing typeshed support |
| Signature | zuban_python/src/signatures.rs 110-334, parsa_python_cst/src/signatures.rs 97-179, zubanls/src/request_handlers.rs 210-256: marked parameter, validity, label and ranges, arguments up to the cursor, marked signature | the search for the call around the cursor, arguments read from statements after a syntax error, formatting of types, `CallableParams::Any` |
| NamedTuple | named_tuple.rs 290-413, 429-489, class.rs 1931-2000: field names, rename, defaults, class bodies | name of the type, types of fields, elements that are no string literals, letters outside of ASCII |
| Tree/Walk | parsa_python_cst/src/lib.rs 417-459: nodes for inlay hints, folding of blocks | types and labels of hints, folding of imports |
| Super | `type_helpers/instance.rs` 774-994, 1031-1042: `execute_super_internal`, `super_instance`, `get_relevant_type_for_super` | generics of classes, lookup of attributes on the result, inference of arguments |
| ClassInfo | `file/isinstance.rs` 17-237: the check of the second argument of `isinstance` and `issubclass` | inference of the expressions, simplification of the union, unpacked `TypeVarTuple`s, the check against typeshed if there is no result |
| Fixtures | `pytest.rs` 49-83, 136-283: the search for fixtures | resolution of imports, reading of `pytest_plugins`, which functions are tests or fixtures, types of fixtures |
| Venv | `crates/config/src/venv.rs` 9-154 | normalization of paths, parsing of `pyvenv.cfg`, errors in the middle of a listing |
| SysPath | `sys_path.rs` 99-127, 147-289, 411-430 on Linux | Windows and macOS, `which`, typeshed, editable, user and global packages, Unicode white space |
| TypingCalls | `type_helpers/typing.rs` 19-146, 200-266, order of arguments | Inference of the expressions, equality of types, formatting, literals in `reveal_type`, untyped type variables |

Not modelled at all: inference of expressions, protocols,
completions and the other answers of the language server, the reading of
configuration files, typeshed.

## Disagreements between the code and the properties

Each line is a theorem with a concrete witness: the code as modelled does not
have the property. `_partial` theorems exclude these cases.

* C158 `precise_violation` (Arith/Props.lean): Four values that fit are not inferred: `-2**63 % -1`, `1 >> 64` are just `int`, and `0 << 64` as well as `0 << 100` are left to the declaration of `int.__lshift__`.
* C159 `issue_reported_violation` (Arith/Props.lean): `0 ** -1` raises a `ZeroDivisionError` that is not reported, and the type is `float`; and `10**20 // 0` and `1 << -10**20` are not reported, because one of the numbers needs more than 64 bits.
* C160 `steps_violation` (Arith/Props.lean): `b"" * 10**18` is computed in a loop of 10^18 steps: the empty text is treated separately, but the empty `bytes` is not. Type checking this expression never ends.
* C160 `total_violation` (Arith/Props.lean): `"aa" * 2**63` overflows when the size is computed, and `1 @ 1` reaches an assertion that no other operator is left.
* C165/C174/C175/C179/C214 `union_violation` (Attribute/Props.lean): `u: Get | S = Get()` has the type `Get | S` for an instance, but `__get__` is called.
* C165 `property_violation` (Attribute/Props.lean): `self.p: S` in a subclass of a class with a property `p` gives the type `S`, but the property is called.
* C165 `self_violation` (Attribute/Props.lean): `self.x: B` in a subclass of a class with `x: A`: an `A` may be assigned, because all classes are searched for the name before the attributes of `self`, but the type of the attribute is `B`.
* C165 `descriptor_violation` (Attribute/Props.lean): `self.k = GetSet()`: descriptors on an instance are not called, but what is assigned is checked as if they were.
* C165/C186 `callable_violation` (Attribute/Props.lean): `f: Callable[[C], A]`: what is assigned is checked against the type with the parameter, but reading takes the parameter away also for a function on the instance.
* C165 `mypy_callable_violation` (Attribute/Props.lean): `h: Callable[[C], A] = function` with `mypy_compatible`: reading does not take the parameter away, but the function is bound.
* C165 `annotation_violation` (Attribute/Props.lean): `y: B` in a subclass of a class with `y = A()` has the type `B`, but the value is the `A`.
* C165 `slot_violation` (Attribute/Props.lean): A slot in a subclass of a class with a property of this name: the setter says what may be assigned, but the value is in the slot.
* C165 `getattr_violation` (Attribute/Props.lean): An attribute that is declared and has no value is what `__getattr__` gives, which is not part of its type.
* C165 `getattribute_violation` (Attribute/Props.lean): `__getattribute__` is called for all attributes, but the declared ones have their own type.
* C167 `classVar_violation` (Attribute/Props.lean): `ClassVar[Callable[[C], A]]` may be assigned on an instance without an issue.
* C167 `slots_callable_violation` (Attribute/Props.lean): With `__slots__ = ()` the assignment to an attribute with a callable type gets no issue, but it always fails.
* C167 `slots_get_violation` (Attribute/Props.lean): With `__slots__ = ()` the assignment to a descriptor without `__set__` gets no issue, but it always fails.
* C168 `setattr_violation` (Attribute/Props.lean): An assignment that calls `__setattr__` narrows the attribute to the assigned type, but reading it calls `__getattr__`.
* C169 `meta_getattr_violation` (Attribute/Props.lean): `__getattr__` of the metaclass gives the type of an attribute of the class, but it is called only if there is none.
* C169 `meta_plain_violation` (Attribute/Props.lean): An attribute of the metaclass gives the type of the attribute of the class with this name, but that of the class is found first.
* C169 `meta_property_violation` (Attribute/Props.lean): A method of a class gives the type although the metaclass has a property with this name, but the property is called.
* C206 `merged_violation` (AutoImport/Props.lean): If the file has `from x import *` and `_b` is private in `x`, then the code action results in `from x import *, _b`, which is a syntax error.
* C207 `choose_bound_violation` (AutoImport/Props.lean): `if TYPE_CHECKING: from x import a` also gets a name that is used at run time.
* C207 `choose_function_violation` (AutoImport/Props.lean): A name in a function is added to an import after the function, even if the function is called before the import.
* C208 `added_violation` (AutoImport/Props.lean): In `"doc"; foo` the statement counts as a docstring, the import of `foo` is added after it.
* C208 `added_inside_violation` (AutoImport/Props.lean): In `import os; from x import (⏎a)` the new import is added within the parentheses.
* C08 `optional_tail_loop_violation` (Automaton/Props.lean): The full statement fails: `["a" "b"*]` accepts a lone `"b"`.
* C08 `optional_head_loop_violation` (Automaton/Props.lean): The full statement fails: `["a"* "b"]` accepts a lone `"a"`.
* C08 `param_patterns_violation` (Automaton/Props.lean): In the Python grammar the difference is visible: the automaton of `param_patterns` accepts `pattern , keyword_pattern`, which the rule does not derive.
* C76/C78 `repeated_argument_violation` (Call/Violations.lean): `f(1, a=2)` raises a `TypeError`: "got multiple values for argument 'a'". It is accepted, because the named argument is swallowed by `**kw`.
* C77 `star_and_double_violation` (Call/Violations.lean): `f(*args, **kwargs)` for `def f(a)`: `args` may be empty, and the values of `kwargs` are not compared with `a`.
* C77 `second_double_violation` (Call/Violations.lean): `f(**k, **l)` for `def f(**kw)`: the values of `l` are not compared with anything.
* C77 `second_star_violation` (Call/Violations.lean): `f(*x, *y)` for `def f(a, *r)`: if `x` is empty, the first value of `y` goes to `a`, but is not compared with it.
* C77 `named_after_star_violation` (Call/Violations.lean): `f(*args, b=2)` for `def f(a, b, **kw)`: with one element in `args` the call succeeds, but `b=2` was only compared with `**kw`.
* C79 `double_before_named_violation` (Call/Violations.lean): `f(**k, a=1)` for `def f(*args, a, b)`: "Missing named argument b", although `k` can hold it. Without `*args` the call is accepted.
* C79 `named_after_star_refused_violation` (Call/Violations.lean): `f(*args, b=2)` for `def f(a, b)` is refused: `*args` is expected to fill all positional parameters.
* C81 `default_not_kept_violation` (Callable/Violations.lean): Expected `def f(*, b: int = 1)`, accepted `def g(*, c: int = 1, b: int)`: `f()` is fine, `g()` raises. The default is looked for in the parameter that comes next, and not in the one with the same name.
* C81 `passed_over_violation` (Callable/Violations.lean): Expected `def f(*, a: int, b: int)`, accepted `def g(*, b: str = "", a: int, **kw: int)`: `f(a=1, b=2)` gives an `int` to a `str`. `b` was passed over while looking for `a`, and is then compared with `**kw`.
* C81 `passed_over_by_double_violation` (Callable/Violations.lean): Expected `def f(*, b: int, **kw: int)`, accepted `def g(*, a: str = "", b: int, **kw: int)`: `f(b=1, a=2)` gives an `int` to a `str`.
* C81 `positional_name_violation` (Callable/Violations.lean): Expected `def f(x: int, /, *, b: int)`, accepted `def g(b: int, **kw: int)`: `g(1, b=2)` raises "got multiple values for argument 'b'".
* C81 `only_star_compared_violation` (Callable/Violations.lean): Expected `def f(a: int)`, accepted `def g(*args: Any, **kwargs: str)`: `f(a=1)` gives an `int` to `**kwargs: str`. The type of `a` is only compared with the type of `*args`.
* C81 `star_not_any_violation` (Callable/Violations.lean): Expected `def f(*args: int, **kwargs: Any)`, accepted `def g(a: str)`: the leniency is meant for functions that end with `*args: Any, **kwargs: Any`, but the type of `*args` is not looked at: `f(1)` gives an `int` to a `str`.
* C83 `default_order_violation` (Callable/Violations.lean): `def f(*, a: int = 1, b: int)` and `def g(*, b: int, a: int = 1)`
* C83 `double_order_violation` (Callable/Violations.lean): `def f(*, a: int, b: int, **kw: str)` and `def g(*, b: int, a: int, **kw: str)`: `b` is compared with `**kw`.
* C83 `double_used_up_violation` (Callable/Violations.lean): `def f(*, a: int, **kw: int)` and `def g(*, c: int = 1, **kw: int)`: refused, because looking for `a` uses `**kw` up.
* C236 `none_in_tuple_violation` (ClassInfo/Props.lean): `isinstance(x, (A, None) )` fails in Python with a `TypeError`, but is accepted.
* C119/C236 `alias_violation` (ClassInfo/Props.lean): `isinstance(x, U)` with `U: TypeAlias = int | list[int]` fails in Python with a `TypeError`, but is accepted. The same argument without the alias is reported.
* C236 `tuple_operand_violation` (ClassInfo/Props.lean): `isinstance(x, A | (B, C))` fails in Python, because there is no `|` for classes and tuples, but the check accepts it.
* C21 `section_applies_violation` (Config/Props.lean): `[mypy-foo.*]` does not apply to `foo-stubs/bar.pyi`, whose module is `foo.bar`.
* C22 `section_specificity_violation` (Config/Props.lean): `[mypy-foo.bar.*]` followed by `[mypy-foo.*]`: for the module `foo.bar.x` the shorter prefix wins.
* C23 `strict_section_violation` (Config/Props.lean): a section with the key `strict` crashes the analysis of every file it applies to; with `strict = true` after the strict flags have been enabled.
* C54 `bad_entry_violation` (Config/Props.lean): a misspelt boolean in a section crashes.
* C53 `ignore_missing_violation` (Config/Props.lean): the winning section says `ignore_missing_imports = false` for the module `foo`, but the missing import is silenced by the section `foo.*`.
* C25 `discovery_violation` (Config/Props.lean): a setup.cfg without any mypy section switches the project to mypy mode.
* C55 `explicit_violation` (Config/Props.lean): `--config-file setup.cfg` gives the default mode, discovery the mypy mode.
* C26 `gate_monotone_violation` (Config/Props.lean): 4.0 is later than 3.13 but does not pass the gate for 3.13.
* C52 `directives_violation` (Config/Props.lean): three comments that crash the analysis of the file.
* C202 `narrow_right_violation` (Contains/Props.lean): If `key: Literal["a"] | int` and `d` is a typed dict with the required key `a`, then `d` is `Never` where `key in d` is false. But `key` can be an `int`.
* C203 `narrow_left_violation` (Contains/Props.lean): `def f(x: int | None, xs: list[T])`: `x` is an `int` if `x in xs`. But `T` can be `None`, as in `f(None, [None])`.
* C203 `narrow_left_any_violation` (Contains/Props.lean): `list[int | Any]` may also have `None`; only for `Any` alone nothing is narrowed.
* C117 `override_without_init_violation` (Dataclass/Props.lean): `class A: x: int`, `class B(A): x: int = field(init=False)`: Python's `B()` has no parameter, the type checker wants `x`.
* C117 `override_with_keyword_violation` (Dataclass/Props.lean): `class A: x: int; y: int`, `class B(A): x: int = field(kw_only=True)`: in Python `x` moves behind the star, for the type checker the keyword-only parameter stays in front of `y`.
* C117 `override_with_init_violation` (Dataclass/Props.lean): `class A: x: int = field(init=False); y: int`, `class B(A): x: int`: the field keeps its place in Python, so `B(1, 2)` sets `x` to 1, but for the type checker `y` is the first parameter.
* C117 `inherited_value_violation` (Dataclass/Props.lean): `class A: x: int = 3`, `class B(A): x: int`: in Python the field finds the value of the base class, so `x` may be left out of `B()`; the type checker wants it.
* C118 `class_signature_violation` (Dataclass/Props.lean): A keyword-only field that overrides a positional one leads to a signature that is not valid: for `class A: x, y, z: int = field(default_factory=int)` and `class B(A): y: int = field(kw_only=True); z: int`, Python raises a `TypeError` about `z` that the type checker misses.
* C119/C236 `alias_violation` (Dataclass/Props.lean): A field with an alias that is written with an escape, after one with a default, makes the type checker panic.
* C120 `post_init_order_violation` (Dataclass/Props.lean): `class A: a: InitVar[int] = field(kw_only=True); b: InitVar[int]`, `class B(A)`: Python passes `a` and `b` in this order to the `__post_init__` of both classes; for the type checker the parameters of `B` are exchanged.
* C120 `post_init_twice_violation` (Dataclass/Props.lean): `class A: a: InitVar[int]`, `class B(A): a: InitVar[int]`: the type checker wants `a` twice.
* C121 `match_args_violation` (Dataclass/Props.lean): `class A: x: int; y: int`, `class B(A): x: int = field(kw_only=True)`: `B.__match_args__` is `("y",)`, but empty for the type checker.
* C122 `replace_frozen_violation` (Dataclass/Props.lean): For a frozen dataclass with an `InitVar` without default, `dataclasses.replace` fails without a value for it, but the type checker does not want one.
* C147 `underscore_violation` (Enums/Props.lean): `class E(Enum): _ = 1`: Python has the member `E._`, the checker has none. The same for names like `_a__` and `__a___`.
* C147 `private_violation` (Enums/Props.lean): `class _E(Enum): __x = 1`: the compiler makes `_E__x` of the name, which `enum` does not take for private in the class `_E`. Python has a member, the checker has none.
* C150 `white_space_violation` (Enums/Props.lean): `Enum("E", "A\nB")`: Python makes two members, the checker makes one with a line break in its name.
* C150 `reserved_name_violation` (Enums/Props.lean): `Enum("E", "__a__ b")`: the checker takes `__a__` for a member, which Python does not.
* C148 `alias_of_alias_violation` (Enums/Props.lean): `class E(Enum): A = 1; B = A; C = B`: `E.C` is `E.A`, but the checker does not find it.
* C148 `equal_values_violation` (Enums/Props.lean): `class E(Enum): A = 1; B = 1`: `E.B` is `E.A`, but the checker takes them for two members.
* C148 `nested_class_violation` (Enums/Props.lean): `class E(Enum): class N: ...`: since Python 3.13 `E.N` is the class, but the checker takes it for a member.
* C148 `function_value_violation` (Enums/Props.lean): `def g(): ...` and `class E(Enum): F = g`: `E.F` is the function, but the checker takes it for a member.
* C148 `value_of_nonmember_violation` (Enums/Props.lean): `class E(Enum): X = nonmember(3); Y = X`: `E.Y` is a member, but the checker takes it for an alias of something that is not a member and does not find it.
* C148 `alias_of_function_violation` (Enums/Props.lean): `class E(Enum): @member def F(self): ...; G = F`: `E.G` is a function, but the checker takes it for an alias of the member `E.F`.
* C148 `ignore_violation` (Enums/Props.lean): `class E(Enum): _ignore_ = ["X"]; X = 1`: `X` is removed from the class, but the checker takes it for a member.
* C148 `static_method_violation` (Enums/Props.lean): `class E(Enum): F = staticmethod(g)` for Python 3.10: `E.F` is the function, but the checker takes it for a member.
* C141 `both_optional_violation` (Equality/Props.lean): `def f(x: int | None, y: int | None): if x is y` (or `x == y`): the checker removes `None` from the type of `x`, although both can be `None`.
* C141 `none_of_protocol_violation` (Equality/Props.lean): `def f(x: Hashable): if x is None`: the branch is taken as unreachable, although `None` is hashable.
* C141 `member_of_base_violation` (Equality/Props.lean): `class Base: ...`, `class E(Base, Enum)`, `def f(x: Base): if x is E.A`: the branch is taken as unreachable.
* C141 `member_of_type_var_violation` (Equality/Props.lean): `def f(x: T): if x is E.A` with a type variable: the branch is taken as unreachable.
* C141 `equal_float_violation` (Equality/Props.lean): `def f(x: float): if x == 1`: the checker takes `x` for the `int` 1, although 1.0 is equal to it.
* C141 `equal_true_violation` (Equality/Props.lean): `def f(x: Literal[0, 1]): if x == True`: the branch is taken as unreachable, although 1 is equal to `True`.
* C142 `equal_custom_enum_violation` (Equality/Props.lean): An enum that defines `__eq__` so that nothing is equal: `if x == E.A` removes the member from the other branch, which is the one that Python executes.
* C141 `mixin_violation` (Equality/Props.lean): `class E(int, Enum): A = 1`, `def f(x: E): if x == 1`: the checker takes the branch for unreachable, although `E.A == 1`. Only `IntEnum` and `StrEnum` are handled.
* C141 `flag_with_one_member_violation` (Equality/Props.lean): `class F(Flag): A = 1`, `def f(x: F, y: F): if x is y`: `y` is taken for `F.A`, although it can be `F(0)`.
* C144 `chain_else_violation` (Equality/Props.lean): `def f(x: int | None): if x is g() is None: ... else: ...` where `g` returns `str | None`: in the other branch `None` is removed from the type of `x`. If `g` returns a text, Python gets there with `None`.
* C145 `type_of_variable_violation` (Equality/Props.lean): `def f(x: Derived, y: type[Base]): if type(x) == y`: the branch is taken as unreachable, although `y` can be `Derived`.
* C145 `type_of_literal_violation` (Equality/Props.lean): `def f(x: Literal[1]): if type(x) == int`: the branch is taken as unreachable, although the test always holds.
* C146 `truth_of_int_violation` (Equality/Props.lean): `def f(x: int): if not x`: `x` is taken for 0, although it can be `False`.
* C144 `in_container_violation` (Equality/Props.lean): `def f(x: int | None, c: list[Hashable]): if x in c`: `None` is removed, although the list can have it.
* C240 `itself_violation` (Fixtures/Props.lean): A fixture of a plugin that overrides a fixture of pytest, like `def tmp_path(tmp_path)`, in a file that a `conftest` names in `pytest_plugins`: the parameter stands for the function itself, because the file comes again as a plugin.
* C240 `own_plugins_violation` (Fixtures/Props.lean): The plugins of a `conftest` are not searched for functions of that `conftest`, although pytest knows them there.
* C241 `offered_violation` (Fixtures/Props.lean): In a fixture of a plugin, the name of the fixture itself is not offered, but as a parameter it stands for a fixture (the function itself).
* C93 `copied_name_violation` (Flow/ExactProps.lean): C93. A test of one name says nothing about a copy of it: `y` is reported with values it does not have there.
* C86 `loop_round_violation` (Flow/Violations.lean): C86. The body of a loop is analysed once, with what was known when the loop was entered: what a later round of the loop finds is not considered.
* C86 `loop_break_violation` (Flow/Violations.lean): C86. After `while True:` only what was known at the `break` counts, and that is as of the first round.
* C86 `masked_break_violation` (Flow/Violations.lean): C86. The test of `x` around the `break` hides that `x` was assigned in the loop, so the assignment is forgotten after the `if`.
* C87 `try_else_violation` (Flow/Violations.lean): C87. With an `else` block what the `try` block assigned is forgotten.
* C87 `try_finally_violation` (Flow/Violations.lean): C87. The `finally` block is not analysed for the exceptions that pass through it.
* C87 `try_handler_violation` (Flow/Violations.lean): C87. What a handler is told about `x` comes from the assignments in the `try` block only, made under the test that surrounds them.
* C88 `child_branches_violation` (Flow/Violations.lean): C88. When one branch assigns `x` and the other `x.b`, what was known of `x.b` before is kept for the first branch.
* C88 `child_walrus_violation` (Flow/Violations.lean): C88. The test of `x.b` is kept although `x` is bound anew.
* C89 `walrus_and_violation` (Flow/Violations.lean): C89. When the rest of an `and` fails, `x` is said to have its old type.
* C89 `walrus_if_violation` (Flow/Violations.lean): C89. That `x` was bound by a condition that failed is forgotten.
* C90 `deleted_name_violation` (Flow/Violations.lean): C90. A name that is deleted in one branch, and of which nothing was known before, is reported as deleted although the other branch leaves it bound.
* C90 `untyped_violation` (Flow/Violations.lean): C90. Assigning a value of type `Any` leaves what a test has found in place.
* C91 `end_of_loop_violation` (Flow/Violations.lean): C91. The `break` is taken to be unreachable because of the first round, and with it the end of the function.
* C46 `string_literal_violation` (Ignore/Props.lean): Text in a string literal is taken for a comment: the whole statement below is a string, it has no comment, and yet the error is suppressed.
* C63 `fix_existing_violation` (Ignore/Props.lean): With a tab at the end of the brackets the code is added in front of the tab, and the error is still reported.
* C63 `fix_new_violation` (Ignore/Props.lean): A tab between the code and an existing comment: the fix inserts `# type: ignore[b]` in front of the tab, and the error is still reported.
* C180 `stub_file_violation` (Import/Props.lean): Next to `foo.py` there is a script `foo-stubs.py`: it is imported instead of `foo`, although it is neither a directory nor a stub.
* C182 `typed_stub_file_violation` (Import/Props.lean): The same in the installed packages: the script is used as if it was typed.
* C182 `typed_neighbour_violation` (Import/Props.lean): An installed module without a marker imports its neighbour: the neighbour is used as if it was typed, because the directory without an `__init__` file counts as a part of the search path.
* C182 `typed_strings_violation` (Import/Props.lean): A plugin of pytest in a namespace of the installed packages has no marker. An import statement knows that it is untyped, but the import of the string does not.
* C184 `strings_panic_violation` (Import/Props.lean): `pytest_plugins = ["foo.plugin"]` in a `conftest.py`, for an installed package `foo` without a marker, is a panic.
* C11/C181 `named_violation` (Import/Props.lean): `import p.__init__.a` finds `p/a.py`; in Python `p.__init__` is not a package.
* C183 `relative_namespace_violation` (Import/Props.lean): A namespace is spread over two workspaces and both have a module `b`. `from .b import x` in the second finds the `b` beside it, although `import ns.b` and Python find the first.
* C189 `execute_violation` (Intersect/Props.lean): Calling a value of which it is known that it is an `A`, without `__call__`, and a `B`, with `__call__`, is reported, because `execute` does not look at the issues; `x[...]` would find the second entry.
* C165/C186 `callable_violation` (Intersect/Props.lean): Callable[[], None]` with `isinstance(x, A)`: a subclass of `A` may have `__call__`, but the code is unreachable for the checker.
* C186 `metaclass_violation` (Intersect/Props.lean): type[A]` with `isinstance(x, M)` for a metaclass `M`: the class `C(A, metaclass=M)` has both types.
* C140 `no_panic_violation` (Len/Props.lean): `x: tuple[int, int, *tuple[str, ...]]` and `if len(x) > 0`: the code subtracts the two items that are always there from one. A debug build panics and a release build asks for 2^64 - 1 items.
* C02 `position_accepted_violation` (Lines/Props.lean): with UTF-16 columns the end of a line with an emoji is rejected.
* C02 `position_rejected_violation` (Lines/Props.lean): in a file with `\r\n` the column after the end of the line is accepted.
* C04 `full_then_ranged_violation` (Lines/Props.lean): the stored document is `"aaaa\nb\n"` and its line table is known. Replacing it by `"c\nd\n"` and then changing `d` to `e` (line 1) is applied against the old lines.
* C04 `full_then_ranged_panic_violation` (Lines/Props.lean): the same situation can panic.
* C51 `rejected_batch_violation` (Lines/Props.lean): a batch with a full replacement followed by a change that is out of range is rejected, but the line table of the (unchanged) document is from now on that of the replacement.
* C05 `server_copy_cr_violation` (Lines/Props.lean): after `open "a\r"` and inserting `x` at the end, the client has `"a\rx"` but the server `"a\r\nx\n"`.
* C05 `server_copy_astral_violation` (Lines/Props.lean): appending after an emoji at the end of a line is dropped by the server.
* C155 `dotted_key_violation` (Mapping/Props.lean): A key that is a dotted name of type `Any`, or of type `str | int`, makes the pattern impossible for a typed dict: the body of `case {key: n}` is reported as unreachable although it is executed if the key is a member of the typed dict.
* C156 `refutable_value_violation` (Mapping/Props.lean): Nothing is left after `case {"0": int(6)}` if the member is an `int`, although `{"0": 5}` does not match: the code after the case is reported as unreachable.
* C157 `rest_violation` (Mapping/Props.lean): If `__getitem__` has overloads for keys, then `**rest` gets the type of the values of the keys in the pattern: for `case {"0": _, **rest}` the rest has the type `dict[str, int]` although it is `{"1": "a"}`.
* C162/C233/C45 `any_violation` (Match/Props.lean): it succeeds.
* C105/C42 `order_violation` (Mro/Props.lean): Python's order of `X(C, B, A)` is `C, B, A`, the computed one is `C, A, B`: an attribute that both `A` and `B` define is taken from the wrong class.
* C42 `accepted_violation` (Mro/Props.lean): `class A; class B(A); class P; class X(P, A, B)` is rejected by Python and accepted here.
* C43 `missing_violation` (Mro/Props.lean): after `class X(A, B)` with `class B(A)`, which is reported, the order of `X` is empty: neither `A` nor `B` is an ancestor of `X`.
* C226 `names_tab_violation` (NamedTuple/Props.lean): `namedtuple("P", "x\ty")` has the fields `x` and `y`, but the whole text is taken for one name, and an error is reported for it. The same is true of a text with several lines.
* C227 `soft_keyword_violation` (NamedTuple/Props.lean): `namedtuple("Token", "type value")` is correct in Python, because `type` is only a soft keyword. An error is reported for it, and the field gets the name `_0`, so that `token.type` does not exist. The same is true of `match` and `case`.
* C228 `rename_soft_violation` (NamedTuple/Props.lean): With `rename=True`, Python keeps the field `type`, but here it becomes `_0`.
* C229 `module_violation` (NamedTuple/Props.lean): `namedtuple("P", "x", module="m")` is correct in Python, but `module` is reported as an unexpected keyword argument; for `defaults=None`, which is the default in Python, an error is reported as well and there is no named tuple at all.
* C230 `class_twice_violation` (NamedTuple/Props.lean): A class that annotates the field `x` twice has one field `x` in Python, but two here, so that calls with one argument are refused.
* C161 `inherited_reflected_violation` (Operator/Props.lean): `A() + B()`, where the subclass `B` of `A` defines nothing: Python calls `A.__add__`, because both classes have the same `__radd__`, and the value is an `int`. But the checker compares the class that defines `__add__` with the class that defines `__radd__`, so that it infers `str`, the type of `Base.__radd__`.
* C161 `promotion_violation` (Operator/Props.lean): `1.0 + I()`, where `I` is a subclass of `int`: Python calls `float.__add__`, because `I` is no subclass of `float`, and the value is a `float`. The checker counts `int` as a subtype of `float`, asks `I.__radd__` first and infers `str`.
* C161 `comparison_violation` (Operator/Props.lean): `A() < B()` with a subclass `B` of `A`: for comparisons Python always asks the instance of the subclass first, so the value is the `str` of `__gt__`. The checker infers `int`, the type of `__lt__`, because the two methods are defined in one class.
* C161 `comparison_same_violation` (Operator/Props.lean): `D() < D()`, where `__lt__` is inherited and `__gt__` is defined in `D`: Python asks `__lt__` first, so the value is an `int`. The checker infers `str`, the type of `__gt__`.
* C162/C233/C45 `any_violation` (Operator/Props.lean): `A() + x` is reported for `x: int | Any` but not for `x: Any | int`: the members of the right operand after `Any` are ignored.
* C163 `overlap_object_violation` (Operator/Props.lean): `class A` with `__add__(self, o: A) -> int` and `class B(A)` with `__radd__(self, o: object) -> str`: nothing is reported, because `object` has no `__add__`. But for `x: A` and `y: A` the checker infers `int` for `x + y`, and if `y` is an instance of `B`, then the value is a `str`.
* C163 `overlap_union_violation` (Operator/Props.lean): `class C` with `__radd__(self, o: F) -> str`, a subclass `Q` of `C` and `class F` with `__add__(self, o: Q | int) -> int`: nothing is reported, because `Q | int` is not comparable with `C`. But for `x: F` and `y: C` the checker infers `str` for `x + y`, and if `y` is an instance of `Q`, then the value is an `int`. With `__add__(self, o: Q) -> int` it is reported.
* C164 `aug_union_violation` (Operator/Props.lean): `x += 1` with `x: A | B`, where `A` has an `__iadd__` that returns `str` and `B` has none: the checker uses `__add__` for both and infers `int`, although the value is a `str` if `x` is an instance of `A`.
* C164 `aug_fallback_violation` (Operator/Props.lean): `x += 1` with `x: C`, where `__iadd__` accepts only `str` and `__add__` accepts `int`: an error is reported, although Python falls back to `__add__` and the value is a `C`.
* C191 `disjoint_violation` (Overlap/Props.lean): `A` and `D` do not overlap for the checker, although `E` inherits from both: comparing them with `==` is reported.
* C193/C245 `empty_violation` (Overlap/Props.lean): `tuple[int, ...]` and `tuple[str, ...]` do not overlap for the checker; both have the empty tuple.
* C193 `alignment_violation` (Overlap/Props.lean): `tuple[*tuple[object, ...], int]` and `tuple[*tuple[object, ...], str, int]` do not overlap for the checker, which compares `int` with `str` because it counts the elements after the unpacked part from the left; both have `("", 1)`.
* C193/C200 `lengths_violation` (Overlap/Props.lean): `tuple[int, *tuple[str, ...]]` and `tuple[*tuple[str, ...], str]` overlap for the checker, although the first element would have to be an `int` and a `str`.
* C131/C133 `tuple_of_unions_violation` (Overload/Props.lean): , **C133**, violation: for `f(x: tuple[A, A])` and `f(x: tuple[B, B])` a call with a `tuple[A | B, A | B]` is accepted without an issue, since such a tuple is only split into `tuple[A, A]` and `tuple[B, B]` (twice): the loops push the entries of the second union in the same order as those of the first one. The value `(A(), B())` has the type of the argument, but fits no overload.
* C135 `tuple_of_bool_violation` (Overload/Props.lean): , violation: a `tuple[bool]` is split into `tuple[Literal[True]]` and `tuple[Literal[False]]`, but the check for union math only looks for unions in tuples, and not for `bool` or enums. So a call is reported although each combination has an overload; with one more argument that is a `bool` it is accepted.
* C136 `fallback_mypy_violation` (Overload/Props.lean): , violation: in the mode of mypy the merge of `A | B` and `A | B | C` is `A | B`, so the type of a call without a matching overload misses `C`.
* C137 `any_mixed_violation` (Overload/Props.lean): , violation: for `f(x: A, y: object) -> C` and `f(x: object, y: B) -> D` a call with two arguments of type `Any` has the type `C`: both overloads match because of `Any`, but for different arguments, so the matches do not count as ambiguous and the first one is taken. With the types `B, B`, for which the arguments can stand, the second overload is chosen and the call returns `D`.
* C137 `any_union_math_violation` (Overload/Props.lean): , violation: union math takes the first overload that accepts a combination, also if it only accepts it because of `Any`. For `f(A, A) -> C`, `f(B, A) -> D` and `f(A, B) -> E` a call with `Any` and `A` is ambiguous and has the type `Any`, but a call with `Any` and `A | B` has the type `C | E`, although it returns `D` for values of type `B` and `A`.
* C172 `narrowed_attribute_violation` (Override/Props.lean): The type of an attribute can be narrowed in a subclass: `x: object` in a class and `x: One` in its subclass. What can be assigned to the attribute of the base class cannot be assigned to the one of the subclass.
* C172 `method_for_attribute_violation` (Override/Props.lean): A method can override an attribute with a callable type, although nothing can be assigned to a method.
* C172 `class_variable_violation` (Override/Props.lean): A class variable can override an attribute without annotation, although it cannot be assigned on an instance.
* C172 `class_variable_for_setter_violation` (Override/Props.lean): A class variable can override a property with a setter.
* C172 `cached_property_violation` (Override/Props.lean): In the mypy mode a cached property can be overridden by a property without setter.
* C172 `setters_of_bases_violation` (Override/Props.lean): The types of setters of properties of two base classes are not compared.
* C171 `assigned_name_violation` (Override/Props.lean): A name that is assigned in the body of a class is only compared with the first class that has it: `x = One()` in the first base class, `x = Two()` in the second one and `x = One()` in the class itself.
* C171 `inherited_name_violation` (Override/Props.lean): Names that the first base class inherits are not compared with those of the second one: the method of `A` and the one of `C` in `class B(A): ...` and `class D(B, C): ...`.
* C173 `final_of_second_base_violation` (Override/Props.lean): A final method of the second base class can be overridden if the first base class has a method with this name that is not final.
* C20 `root_violation` (Paths/Props.lean): C20 fails for a root that ends in a separator, which is what normalising `/foo/..` gives: no file is found in it, although files like `/a.py` are in that directory.
* C153 `refutable_argument_violation` (Pattern/Props.lean): `case Point(x=0)` leaves nothing of `Point`, although points with another `x` do not match: the result of the arguments is not used for what is left (flow_analysis.rs 3543-3553).
* C153 `self_match_violation` (Pattern/Props.lean): `case int(0)` leaves nothing of `int`, although other numbers do not match.
* C152 `refutable_alternative_violation` (Pattern/Props.lean): `case Point(x=0, y=a) | Point(x=a)`: the second alternative is checked with what the first one leaves, which is `Never`, so the name has only the type of `y` although Python binds `x`, too.
* C153 `star_rest_violation` (Pattern/Props.lean): `case (a, b, *c)` leaves nothing of `tuple[int, *tuple[str, ...]]`, although tuples with one item do not match (flow_analysis.rs 3872-3882).
* C151 `star_then_violation` (Pattern/Props.lean): `case (a, *b, c)` narrows `tuple[int, *tuple[str, ...], str]` to a tuple with four and more items: the entries of the tuple are there twice (flow_analysis.rs 3854-3871).
* C152 `star_name_violation` (Pattern/Props.lean): `case (a, *b)` with `tuple[*tuple[int, ...], str]`: the name has the type `int`, although it may be the last item (matching/mod.rs 434-467).
* C151 `star_item_violation` (Pattern/Props.lean): `case [int(), *_]` narrows `Sequence[int | str]` to `Sequence[int]`, although only the first item is a number: the starred pattern does not count (flow_analysis.rs 3744-3776).
* C151 `star_only_violation` (Pattern/Props.lean): `case [*_]` narrows `Sequence[int]` to `Sequence[Never]`.
* C152 `subclass_args_violation` (Pattern/Props.lean): `case Point(a)` with a subclass of `Point` that has another `__match_args__`: the checker uses the one of the subclass (flow_analysis.rs 3452-3470), Python the one of `Point`.
* C154 `guard_violation` (Pattern/Props.lean): `case int() as x if f(x)` with `int | str`, where `f` says that `x` is not a number if it returns false, or whatever it says: what is left is only what the guard leaves of `x`, the members of the union that the pattern does not match are lost (flow_analysis.rs 2826-2851).
* C153 `named_tuple_violation` (Pattern/Props.lean): `case (a, b)` with a named tuple: the subject becomes a plain tuple, the class is lost.
* C153 `sequence_of_class_violation` (Pattern/Props.lean): `case [a]` with `int`: the subject becomes a `Sequence[object]` instead of nothing or an intersection, so that all lists seem possible (flow_analysis.rs 3600-3605).
* C47 `partial_flags_violation` (Point/Props.lean): a partially known type marked as finished stays so when it is stored as not finished.
* C47 `redirect_violation` (Point/Props.lean): the file index spills over into the kind (only a debug build notices).
* C216 `raise_type_violation` (Raise/Props.lean): C216 is false: `def f(x: type[int | str]): raise x` is accepted, but raises a `TypeError`. Only the class objects of a class are checked.
* C217 `except_nested_violation` (Raise/Props.lean): C217 is false: `except (ValueError, KeyboardInterrupt), Exception:` is accepted, but Python raises a `TypeError` for it, because of the tuple in the tuple.
* C219 `star_dataclass_violation` (Raise/Props.lean): C219 is false: for `except* E as e`, where `E` is a data class with the base `BaseException`, the type of `e` is an `ExceptionGroup`, but the group has an exception that is no `Exception`, so that it is a `BaseExceptionGroup`. The class of data classes is not looked at, and `Any` counts as an `Exception`.
* C219 `star_group_violation` (Raise/Props.lean): C219: no group of exceptions may be after `except*`. It is false that this is excluded: with `x: type[Exception]`, `except* x` is accepted, but `x` can be `ExceptionGroup`.
* C220 `catch_violation` (Raise/Props.lean): C220 is false: an object of a class with an unknown base can be raised, but the class in `except` is an error.
* C112 `reversed_comparison_violation` (Reach/Props.lean): `(3, 8) <= sys.version_info` is false for the type checker although it is true in Python 3.12: the operator is not turned around when the version is on the right.
* C112 `reversed_number_violation` (Reach/Props.lean): `2 > sys.version_info[0]` is true for the type checker although it is false in Python 3, for the same reason.
* C112 `equal_prefix_violation` (Reach/Props.lean): `sys.version_info > (3, 12)` is false for the type checker although it is true in Python 3.12, where `sys.version_info` is longer than the tuple.
* C112 `ignored_end_violation` (Reach/Props.lean): `sys.version_info[:1] >= (3, 9)` is true for the type checker, but `(3,) >= (3, 9)` is false: the end of the slice is ignored.
* C113 `members_after_false_branch_violation` (Reach/Props.lean): With `if sys.version_info < (3, 8): .. else: ..` in the body of a `TypedDict` or `NamedTuple`, the members of the `else` branch are lost, although that is the branch that Python executes: the search stops at the first branch that is statically false.
* C115 `slice_start_violation` (Reach/Props.lean): `sys.version_info[18446744073709551615:] >= (3,)` makes the type checker panic: the length of the tuple is added to the number without a check.
* C116 `checking_or_violation` (Reach/Props.lean): `if TYPE_CHECKING or debug:` is taken for a block that the type checker only sees, but it runs if `debug` is true.
* C210 `clash_violation` (References/Props.lean): C210 is false: `foo.py` is `foo = 1`, and another file is `import foo` and `foo.foo`. Renaming the module also changes the attribute in `foo.foo`, which is the variable and not the module: a module has the position of the first byte of its file, which is also the position of the variable.
* C211 `chain_violation` (References/Props.lean): C211 is false: `a.py` imports `foo` from `b.py`, which imports it from `c.py`. The use of `foo` in `a.py` is not a reference of the definition in `c.py`, although the import in `a.py` is: names are followed through one import only. Renaming `foo` breaks `a.py`.
* C211 `origin_violation` (References/Props.lean): C211 is false from the other end as well: for the use of `foo` in `a.py`, the definition in `c.py` is not found.
* C211 `local_violation` (References/Props.lean): C211 is false: a function in `b.py` (1) defines a class with the attribute `foo`, uses it and returns an instance, and `a.py` (0) uses `foo` of the result. For the use in `a.py` the definition is found in `b.py`, but the use in `b.py` is not searched for, because the attribute is taken for a local name of `a.py`.
* C213 `undeclared_violation` (References/Props.lean): C213 is false: for the name of an import that cannot be resolved, the import itself is listed although declarations are not asked for.
* C165/C174/C175/C179/C214 `union_violation` (References/Props.lean): C214 is false: `x` is of the type `A | B`, and both classes have the attribute `foo`. Renaming `foo` of `A` also renames it in `x.foo`, but not `foo` of `B`, which `x.foo` leads to as well. The same happens for a rename on `x.foo`.
* C108 `name_before_loop_violation` (Scope/Props.lean): C108 is false for names used before a loop and assigned after it: references are resolved at the end of a loop, and the name is taken for a global variable.
* C108 `walrus_in_generator_violation` (Scope/Props.lean): C108 is false for `:=` in generator expressions, which are only looked at when the function is complete.
* C108 `generator_in_class_violation` (Scope/Props.lean): C108 is false for generator expressions in classes, which are postponed like functions.
* C108 `unreachable_assignment_violation` (Scope/Props.lean): C108 is false for assignments in unreachable code, which Python counts as well.
* C109 `nonlocal_in_classes_violation` (Scope/Props.lean): C109 is false in nested classes: the search ends at the outer class.
* C109 `nonlocal_before_assignment_violation` (Scope/Props.lean): C109 is false in classes above the assignment: unlike functions, classes are not postponed.
* C110 `used_after_walrus_violation` (Scope/Props.lean): C110 is false after `:=` in a generator expression.
* C110 `list_in_loop_violation` (Scope/Props.lean): C110 is false for list comprehensions in loops.
* C195 `named_directory_violation` (Select/Props.lean): In a project whose `.gitignore` has the pattern `0.py`, the file `src/0.py` is not checked. But it is checked by `zuban check src`: only `.gitignore` files below the directory that is named are used.
* C196 `git_violation` (Select/Props.lean): A `.gitignore` has the pattern `0.py`; the one in the directory `src` has `!0.py`. Git does not ignore `src/0.py`, but the file is not checked.
* C198 `patterns_violation` (Select/Props.lean): `.gitignore` has the pattern `0.py`, and `src/0.py` is not checked. But it is checked by `zuban check '**/*.py'`: no `.gitignore` above a match is used.
* C29 `panic_reported_violation` (Server/DispatchProps.lean): two requests whose handlers panic, one message to the user.
* C65 `survives_violation` (Server/DispatchProps.lean): a panic while publishing diagnostics ends the server, the next request is never read.
* C33 `linked_violation` (Server/NotebookProps.lean): after the cells 1 and 2 were opened and cell 3 is inserted between them, cell 2 is its own predecessor. Following the predecessors, as the lookup of flags and names does, never ends.
* C33 `remove_violation` (Server/NotebookProps.lean): C33 fails also when a cell before another one is removed.
* C33 `move_violation` (Server/NotebookProps.lean): the client removes it and inserts it elsewhere without closing and opening its document; the change is refused and the order of the server stays as it was.
* C33 `recover_violation` (Server/NotebookProps.lean): the cells no longer have predecessors.
* C66 `token_length_violation` (Server/ProtocolProps.lean): to the default client the name `é` is announced as two characters long.
* C32 `completion_order_violation` (Server/ProtocolProps.lean): for longer lists: completion number 16^5 is sorted before completion number 16^5 - 1.
* C34 `links_violation` (Server/ProtocolProps.lean): links are sent exactly to the clients that did not announce support for them.
* C35 `workspace_symbols_violation` (Server/ProtocolProps.lean): the query `bar` does not find the method `bar` of the class `Foo`, and `RED` does not find the member of an enum whose name matches.
* C36 `rename_package_violation` (Server/ProtocolProps.lean): renaming the package `dir/pkg` whose file is `dir/pkg/__init__.ext` yields `dir/new__init__/.ext`, never `dir/new/__init__.ext`.
* C37 `summary_violation` (Server/ProtocolProps.lean): one error with a note is summarised as `Found 1 errors`.
* C37 `summary_files_violation` (Server/ProtocolProps.lean): a file with only a note counts as a file with errors.
* C221 `keyword_taken_violation` (Signature/Props.lean): `def f(a)` and the call `f(1, a=`: parameter `a` has already got the first argument, so Python raises a `TypeError` whatever comes next. Still the signature is called valid and `a` is marked.
* C222 `double_star_taken_violation` (Signature/Props.lean): `def f(a)` and the call `f(1, **kw`: `a` is marked although it has already got the first argument.
* C223 `no_parameters_violation` (Signature/Props.lean): The call `f()` of an overloaded function whose first signature has no parameters: it accepts the call, but it is called invalid and the second one is marked, which wants an argument.
* C223 `positional_only_violation` (Signature/Props.lean): `def f(a, /, b, c=1)` and the call `f(1, c=3, `: `a` got the first argument and `b` can get the next one as `b=`, but the signature is called invalid and no parameter is marked.
* C223 `too_many_violation` (Signature/Props.lean): `def f(a, *, b)` and the call `f(1, 2, `: the second argument has no parameter, Python raises a `TypeError`, but the signature is called valid, so that later overloads with two positions are not marked.
* C104 `join_violation` (Solve/Props.lean): C104 is false with `use_joins`: if a type variable has to be below `int`, and then `UserId` and `int` are matched with it, where `UserId = NewType("UserId", int)`, it becomes `object`.
* C105/C42 `order_violation` (Solve/Props.lean): C105 is false with `use_joins`: `f(1, "", x)` is an error where `x` has the type `list[int | str]`, but not if `x` comes first.
* C105 `bound_contra_violation` (Solve/Props.lean): C105 is false for type variables with a bound: a callback that takes `object` is an error for a type variable with the bound `int`, but `int` would do.
* C106 `bound_join_violation` (Solve/Props.lean): C106 is false with `use_joins`: a type variable with the bound `int | str` becomes `object` if it has to give room for `int` and `str`.
* C107 `transitive_violation` (Solve/Props.lean): C107 is false for the other direction, because a lower bound becomes an upper bound when its type variables are replaced: a type variable that must be above `bool` and above `int` becomes `bool`.
* C101 `promotion_true_violation` (Split/Instance.lean): C101 is false for promotions and a subclass of `int`: for `x: float | bool` and `isinstance(x, int)` the type is `bool`, but `x` can be 5.
* C101 `promotion_tuple_violation` (Split/Instance.lean): C101 is false for promotions and several classes: for `x: float` and `isinstance(x, (float, str))` the other type is `Never`, but `x` can be 5.
* C101 `promotion_complex_violation` (Split/Instance.lean): C101 is false for `complex` and another type: for `x: complex | str` and `isinstance(x, complex)` the other type is `str`, but `x` can be 1.5.
* C101 `inheritance_violation` (Split/Instance.lean): C101 is false for multiple inheritance: for `x: A | B` and `isinstance(x, S)` the type is `A`, but `x` can be an object of `class D(B, S)`.
* C101 `type_var_violation` (Split/Instance.lean): C101 is false for a type variable after another type: for `x: int | T` and `isinstance(x, int)` the type is the intersection of `T` and `int`, but `x` can be 5 while `T` is `str`.
* C102 `promotion_wide_violation` (Split/Instance.lean): C102 is false for `float`: for `x: str` and `isinstance(x, float)` the other type is `str | int`, but `x` cannot be 5.
* C11/C181 `named_violation` (Strings/Props.lean): `"\N{DASH}"` has one character, zuban keeps the text.
* C11 `surrogate_violation` (Strings/Props.lean): `"\ud800"` has one code point, zuban gives the empty string.
* C12 `string_panic_violation` (Strings/Props.lean): `'\xé'` crashes.
* C12 `bytes_panic_violation` (Strings/Props.lean): `b'\x'`, `b'\x4'` and `b'\x\\'` crash.
* C58 `bytes_value_violation` (Strings/Props.lean): in a file with Windows line endings the line endings of a bytes literal are kept.
* C14 `str_repr_violation` (Strings/Props.lean): the type of `"'"` is printed as `'''`, which is no literal.
* C14 `bytes_repr_violation` (Strings/Props.lean): the type of `b"'"` is printed as `b'''`.
* C99 `common_base_violation` (Sub/JoinProps.lean): C99 is false for lists of dataclasses with a covariant parameter: the common base type of `list[Box[float]]` and `list[Box[int]]` is the first.
* C100 `common_sub_violation` (Sub/JoinProps.lean): C100 is false the other way round: `tuple[int, ...]` and `tuple[str, ...]` are said to have no common subtype, but both have the empty tuple.
* C103 `overlap_type_violation` (Sub/OverlapProps.lean): C103 is false for the class `type`: `type[int]` can be assigned to it, but they are found not to overlap. In the other order they do.
* C103 `overlap_never_violation` (Sub/OverlapProps.lean): C103 is false for `Never` and `type[..]`.
* C103 `overlap_unpack_violation` (Sub/OverlapProps.lean): C103 is false for tuples with `*tuple[..]`: `tuple[*tuple[int, ...], int, str]` can be assigned to `tuple[*tuple[int, ...], str]`, but the items after the `*` are compared from the first one, `str` with `int`.
* C103 `overlap_empty_violation` (Sub/OverlapProps.lean): Types that are found not to overlap may have a value in common: the empty tuple.
* C94 `unpack_length_violation` (Sub/Violations.lean): C94 is false for tuples with `*tuple[..]` and different numbers of items around it: `tuple[int, *tuple[str, ...]]` can be assigned to `tuple[int, str, *tuple[str, ...]]`, but `(1,)` is only a value of the first.
* C94 `invariant_unpack_violation` (Sub/Violations.lean): C94 is false for lists of such tuples: `list[tuple[int, *tuple[int, ...]]]` can be assigned to `list[tuple[int, ...]]`, through which an empty tuple can be appended.
* C94 `invariant_fixed_violation` (Sub/Violations.lean): The same with a tuple of fixed length: `list[tuple[int, int]]` can be assigned to `list[tuple[int, *tuple[int, ...]]]`.
* C94 `invariant_dataclass_violation` (Sub/Violations.lean): C94 is false for lists of dataclasses with a covariant parameter: `list[Box[int]]` can be assigned to `list[Box[float]]`.
* C94 `invariant_type_violation` (Sub/Violations.lean): C94 is false for lists of classes: `list[type[A]]` can be assigned to `list[type]`.
* C94 `invariant_metaclass_violation` (Sub/Violations.lean): And to the list of a metaclass: `list[type[B]]` can be assigned to `list[Meta]`.
* C94 `no_strict_optional_violation` (Sub/Violations.lean): C94 is false without strict optional, even if `None` belongs to no other type: `list[int]` can be assigned to `list[None]`, but not the other way round.
* C96 `newtype_type_violation` (Sub/Violations.lean): C96 is false for the `type[..]` of a `NewType`: it cannot be assigned to itself.
* C95 `endless_violation` (Sub/Violations.lean): C95 is false: asking whether `C` can be assigned to `N[C]` asks the same again, whatever the fuel.
* C98 `union_of_members_violation` (Sub/Violations.lean): C98 is false for unions with a `NewType` of `bool`: both `Flag` and `None` can be assigned to `Literal[True, False] | None`, but `Flag | None` cannot.
* C233 `tuple_violation` (Super/Props.lean): `super(A, T())` for `class T(tuple[int], A)` is correct in Python, but the loop over the MRO meets the tuple and the program panics. The same happens for any class that is not in the MRO, where an error should be reported.
* C233 `constraints_violation` (Super/Props.lean): `super(A, x)` in a class, where the type of `x` is a type variable with constraints, reaches `unimplemented!()`.
* C233 `bound_violation` (Super/Props.lean): `super(A, x)` in a method of the class `E`, where the type of `x` is a type variable with the bound `B`: in Python all values of this type are instances of `A`, but the MRO of `E` is searched and an error is reported.
* C233 `dataclass_violation` (Super/Props.lean): An instance of a dataclass as second argument is refused, although its class is in the MRO.
* C162/C233/C45 `any_violation` (Super/Props.lean): `super(B, x)` in a method of the class `E`, where the type of `x` is `Any`: the first argument is ignored, the result is `super()` of the method, so that attributes of `A` are looked up in `object` only.
* C246 `include_violation` (SysPath/Props.lean): The line that Python itself writes if the system's packages are to be used; they are not used, because of the blank before `true`.
* C247 `library_violation` (SysPath/Props.lean): A directory like `/usr/lib/python3.13` without `os.py`, which is left over from an installation, is taken as the library, although a complete one of another version is there: the code computes the path of `os.py`, but tests for the directory.
* C70 `comment_tokens_violation` (Tokenizer/Violations.lean): After a blank line that is continued, the tokenizer goes back into a comment: the tokens are not in order, and a word of the comment is a token.
* C69 `character_boundary_violation` (Tokenizer/Violations.lean): With other characters in the comment, the tokenizer goes back into the middle of a character (undefined behaviour, since the text from there is taken as UTF-8).
* C71 `break_keyword_violation` (Tokenizer/Violations.lean): A keyword after an open bracket closes only one block: this class is at column 0, but still in a block.
* C71 `form_feed_violation` (Tokenizer/Violations.lean): A form feed at the beginning of a line, which Python ignores, is taken as indentation: the last line is not in the outer block.
* C74 `crlf_continuation_violation` (Tokenizer/Violations.lean): The text of this f-string goes on after the continued line, but it ends there.
* C74 `raw_name_violation` (Tokenizer/Violations.lean): In a raw f-string this is a field, but it is taken as the name of a character.
* C74 `character_name_violation` (Tokenizer/Violations.lean): The end of the f-string is missed, because a brace comes somewhere after it.
* C74 `nested_quote_violation` (Tokenizer/Violations.lean): A quote in the text of the inner f-string ends the outer one.
* C75 `blank_before_colon_violation` (Tokenizer/Violations.lean): After a blank, a colon does not begin a format specification.
* C75 `second_specification_violation` (Tokenizer/Violations.lean): After a format specification inside of a format specification, the next field is taken as text: the name `z` is no token.
* C193/C200 `lengths_violation` (Tokens/Props.lean): In `é = 1` the name has one unit in UTF-16, but the length that is sent is 2: it is the number of bytes.
* C48 `selection_nested_violation` (Tree/Ranges.lean): the range of the nested statement begins before the range around it.
* C231 `hints_violation` (Tree/WalkProps.lean): A range that begins in the second line of the parameters: the hint for the type that is returned belongs to the end of the parameters, which is in the range, but the function is not found.
* C40 `slice_variadic_start_violation` (Tuple/Props.lean): `t: tuple[int, *tuple[str, ...]]`, `t[1::-1]` is inferred as `tuple[int]`, but for `t = (0, "a")` the value is `("a", 0)`.
* C40 `slice_variadic_stop_violation` (Tuple/Props.lean): `t: tuple[int, *tuple[str, ...]]`, `t[:0:-1]` is inferred as `tuple[*tuple[str, ...], int]`, but the first element is never selected.
* C40 `slice_variadic_reverse_violation` (Tuple/Props.lean): `t: tuple[*tuple[int, ...], str]`, `t[-1::-1]` is inferred without the last element although it is the first one selected.
* C41 `add_before_and_after_violation` (Tuple/Props.lean): `tuple[*tuple[*Ts, str], int]` is normalised to `tuple[*Ts, int, str]`.
* C123 `closed_accepts_more_keys_violation` (TypedDict/Props.lean): A closed typed dict accepts a closed typed dict with more keys: the names of the other one are looked up with `find_entry`, which has no entry for the extra items of a closed typed dict, and then nothing is checked.
* C123 `extra_items_written_violation` (TypedDict/Props.lean): Extra items that are read-only are accepted for extra items that can be written, so a typed dict gets values that do not fit.
* C123 `read_only_member_written_violation` (TypedDict/Props.lean): A read-only member is accepted for extra items that can be written.
* C123 `setdefault_read_only_violation` (TypedDict/Props.lean): `setdefault` is accepted for read-only members, so that a member gets a value that does not fit the type of another view of the dictionary.
* C123 `update_types_violation` (TypedDict/Props.lean): `update` with another typed dict does not check the types of the members.
* C126 `two_bases_extra_items_violation` (TypedDict/Props.lean): With two bases, the extra items of one of them are lost without an issue, and members of one base are not compared with the extra items of the other one: values of the class do not fit the base.
* C126 `two_bases_closed_violation` (TypedDict/Props.lean): The same for a closed base: a class inherits a closed typed dict and has the members of the other base.
* C126 `required_member_not_accepted_violation` (TypedDict/Props.lean): A required member that is added to a base with read-only extra items is accepted in the class, but then the class is not accepted for its base.
* C127 `join_extra_items_violation` (TypedDict/Props.lean): The join of typed dicts with extra items keeps the extra items but not the members with other types, so that values of the typed dicts do not fit the join.
* C127 `join_accepted_violation` (TypedDict/Props.lean): The join has the definition of the first typed dict, and typed dicts with the same definition are not compared: the join is accepted for the first typed dict, which has more members.
* C127 `meet_extra_items_violation` (TypedDict/Props.lean): The meet loses the extra items, so that its values do not fit the typed dicts.
* C128 `in_narrowing_extra_items_violation` (TypedDict/Props.lean): A final typed dict with extra items is removed in the branch in which it has a key that is not a member.
* C129 `accepted_trans_violation` (TypedDict/Props.lean): With extra items, a typed dict is accepted for one that is accepted for a third one, but not for that: a member that is not required can be used for read-only extra items, but a required one not.
* C249 `cast_result_violation` (TypingCalls/Props.lean): violated: the type is recognised by its position in the source code, so `cast(*(), int, x)`, which is `cast(int, x)`, has the result `Any` and nothing is reported.
* C44 `simplify_literal_violation` (Union/Props.lean): they are only compared with their own class, so `Literal['a'] | Sequence[str]` stays although every `Literal['a']` is a `Sequence[str]`.
* C44 `simplify_unknown_violation` (Union/Props.lean): when they become known, the entry is not compared with the later ones.
* C165/C174/C175/C179/C214 `union_violation` (Variance/Props.lean): `T | list[T]` is judged to be covariant, because everything is an `object`; but a list of one type is not a list of a wider one, and it need not have that wider type itself.
* C174/C175/C179 `union_contra_violation` (Variance/Props.lean): `list[T] | list[object]` is judged to be contravariant, because `list[object]` is one of its members; but the other member is not.
* C176 `covariant_union_violation` (Variance/Props.lean): A class with `def get(self) -> T | list[T]` is inferred as covariant.
* C176 `covariant_return_violation` (Variance/Props.lean): A class with `def copy(self) -> C[list[T]]` is inferred as covariant, because the return type is replaced by `Any` whatever its arguments are.
* C176 `covariant_writable_violation` (Variance/Props.lean): A class with an attribute `make: Callable[[], C[T]]` is inferred as covariant although the attribute can be assigned.
* C177 `contravariant_writable_violation` (Variance/Props.lean): A class with an attribute `put: Callable[[T], None]` is inferred as contravariant although the attribute can be assigned: whether it can is only asked of types that cannot be contravariant.
* C177 `contravariant_recursive_violation` (Variance/Props.lean): A class `Sink` with `def put(self, x: T)` and `def pipe(self, other: Sink[T])` is inferred as contravariant, because it counts as covariant while it is inferred; with the result, the parameter of `pipe` makes it invariant.
* C243 `listing_order_violation` (Venv/Props.lean): With two environments like `venv1` and `venv2`, the one that the operating system lists first is used, together with its version of Python; that order is not specified.
* C193/C245 `empty_violation` (Venv/Props.lean): An empty `PYTHONPATH`, which Python treats like one that is not set, adds the base directory.
* C245 `windows_violation` (Venv/Props.lean): On Windows, where paths have colons after the letter of the drive, one directory becomes two.
* C17 `shadowed_module_violation` (Vfs/ImportViolations.lean): A module `foo.py` was found. A stub `foo.pyi` or a package `foo` that appears later is more important, but the importer is not told.
* C17 `untyped_module_violation` (Vfs/ImportViolations.lean): A module was found without `py.typed` in a directory that needs it. It is removed later, but the importer is not told.
* C17 `replaced_file_violation` (Vfs/ImportViolations.lean): A file is named like the package. It is replaced by a package later, but the importer is not told.
* C17 `typed_marker_violation` (Vfs/ImportViolations.lean): A package was found without `py.typed`, in a directory that needs it, and is not used. The `py.typed` is added later; an import would use the package now, but the importer is not told.
* C16 `overlay_preload_violation` (Vfs/OverlayViolations.lean): when a removed directory contains a file that everything depends on, `invalidate_path` returns early (vfs.rs 740-745) and does not put the open documents back into the tree. When the directory comes back, the open document is read from disk.
* C16 `overlay_crash_violation` (Vfs/OverlayViolations.lean): when the directory of an open document is replaced by a file, the document cannot be put back and the program crashes (`unimplemented!`, workspaces.rs 589).
* C15 `stale_entry_violation` (Vfs/OverlayViolations.lean): after the directory of an open document was removed, the document has a new entry in the tree, which collects the dependents, but its file still has the old one. The next edit changes the text and invalidates nobody, although file 0 is recorded as dependent.
* C17 `returned_directory_violation` (Vfs/OverlayViolations.lean): the directory of an open document is removed; it stays in the tree for the sake of the document. When a directory is moved to its place, that is ignored (`is_unnecessary_invalidation`, local_fs.rs 176-199), and the files in it are not found.
* C28 `parse_panic_violation` (Vfs/RecoveryViolations.lean): when parsing the new text of an open document panics, the file has been unloaded and has no text yet, so `into_panic_recovery` drops it (vfs.rs 174). The server then uses the text on disk, although the editor has the document open.
* C28 `watch_error_violation` (Vfs/RecoveryViolations.lean): after an error of the watcher the project is dropped without carrying anything over (server.rs 612-618).
* C28 `unread_report_violation` (Vfs/RecoveryViolations.lean): a change of the disk whose report was not read before the panic is never noticed, because the text is carried over (server.rs 584-588, vfs.rs 170-176).
* C28 `recovery_panic_violation` (Vfs/RecoveryViolations.lean): when the directory of an open document was replaced by a file, the recovery panics itself (workspaces.rs 589), outside of `catch_unwind` (server.rs 267).
