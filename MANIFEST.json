{
 "claims": [
  {
   "property": "C01",
   "status": "proved",
   "theorems": [
    "Verif.Lines.offset_round_trip"
   ],
   "note": "All texts, all character boundaries, all three encodings. The back conversion is the unchecked one (lineColumnToByte); the safe one is C02."
  },
  {
   "property": "C02",
   "status": "partial",
   "theorems": [
    "Verif.Lines.position_accepted_partial",
    "Verif.Lines.position_accepted_violation",
    "Verif.Lines.position_rejected_partial",
    "Verif.Lines.position_rejected_violation"
   ],
   "note": "The code violates both halves: UTF-16 end of line after a non-BMP character is rejected; the column between \\r and \\n is accepted. The partial theorems exclude exactly these."
  },
  {
   "property": "C03",
   "status": "partial",
   "theorems": [
    "Verif.Lines.batch_sound",
    "Verif.Lines.batch_complete_partial",
    "Verif.Lines.batch_no_panic"
   ],
   "note": "For every batch whose stored line table is usable (not computed, or computed and no ranged change after a full replacement, which is C04). Completeness in UTF-16 needs BMP text (C02 defect)."
  },
  {
   "property": "C04",
   "status": "partial",
   "theorems": [
    "Verif.Lines.full_then_ranged_violation",
    "Verif.Lines.full_then_ranged_panic_violation",
    "Verif.Lines.full_then_ranged_partial"
   ],
   "note": "The code violates the property when the line table of the stored document was computed before; proved when it was not."
  },
  {
   "property": "C05",
   "status": "partial",
   "theorems": [
    "Verif.Lines.server_copy_partial",
    "Verif.Lines.server_copy_cr_violation",
    "Verif.Lines.server_copy_astral_violation"
   ],
   "note": "Violated for documents ending in a bare \\r and for UTF-16 with non-BMP characters; proved by induction over histories without these and without the C04 situation."
  },
  {
   "property": "C06",
   "status": "proved",
   "theorems": [
    "Verif.Tree.children_eq",
    "Verif.Tree.parent_eq",
    "Verif.Tree.siblings_eq",
    "Verif.Tree.no_sibling",
    "Verif.Tree.leaves_eq",
    "Verif.Tree.no_leaf",
    "Verif.Tree.lastLeaf_eq",
    "Verif.Tree.first_leaf",
    "Verif.Tree.every_entry"
   ],
   "note": "Navigation on the stored array equals navigation on the tree it stores."
  },
  {
   "property": "C07",
   "status": "proved",
   "theorems": [
    "Verif.Tree.leaf_by_position",
    "Verif.Tree.starts_sorted"
   ],
   "note": "For trees whose leaves are in text order; binary search is modelled by the prefix it computes on the sorted starts."
  },
  {
   "property": "C08",
   "status": "partial",
   "theorems": [
    "Verif.Automaton.compile_total",
    "Verif.Automaton.derived_is_accepted",
    "Verif.Automaton.accepted_iff_derived_partial",
    "Verif.Automaton.python_rules_exact",
    "Verif.Automaton.optional_tail_loop_violation",
    "Verif.Automaton.optional_head_loop_violation",
    "Verif.Automaton.param_patterns_violation",
    "Verif.Automaton.compiled_deterministic"
   ],
   "note": "Completeness holds for every rule; exactness holds for well-shaped rules and for all 135 lookahead-free rules of the Python grammar; for other rules the code accepts more than the rule derives, which is proved with witnesses, one of them a rule of the Python grammar. Lookaheads and cuts are not modelled."
  },
  {
   "property": "C09",
   "status": "proved",
   "theorems": [
    "Verif.Backtrack.replay"
   ],
   "note": "the backtracking tokenizer refines a cursor over the file's tokens, for all schedules of next/start/reset/stop"
  },
  {
   "property": "C10",
   "status": "proved",
   "theorems": [
    "Verif.Tokenizer.indentation_balanced",
    "Verif.Tokenizer.python_sound"
   ],
   "note": "For every sequence of steps of the tokenizer: depth never negative, equals the stack, zero at the end."
  },
  {
   "property": "C100",
   "status": "partial",
   "theorems": [
    "Verif.Sub.common_sub_lower_partial",
    "Verif.Sub.plain_union_values",
    "Verif.Sub.Instance.common_sub_violation"
   ],
   "note": "The result is proved to have only values of both types, for types without Any (Good). That there is none only if no value is in both is false: tuple[int, ...] and tuple[str, ...] share the empty tuple."
  },
  {
   "property": "C101",
   "status": "partial",
   "theorems": [
    "Verif.Split.isinstance_true_partial",
    "Verif.Split.isinstance_false_partial",
    "Verif.Split.Instance.sound",
    "Verif.Split.Instance.promotion_true_violation",
    "Verif.Split.Instance.promotion_tuple_violation",
    "Verif.Split.Instance.promotion_complex_violation",
    "Verif.Split.Instance.inheritance_violation",
    "Verif.Split.Instance.type_var_violation"
   ],
   "note": "Proved where inheritance is visible in the types, type variables are alone, and promotions are simple. False otherwise: five violations with promotions, multiple inheritance and type variables."
  },
  {
   "property": "C102",
   "status": "partial",
   "theorems": [
    "Verif.Split.isinstance_true_narrow_partial",
    "Verif.Split.isinstance_false_narrow_partial",
    "Verif.Split.Instance.promotion_wide_violation"
   ],
   "note": "Proved for tests that are not float or complex alone and without protocols. False for isinstance(x, float), which adds int to the other type."
  },
  {
   "property": "C103",
   "status": "partial",
   "theorems": [
    "Verif.Sub.assignable_overlaps_partial",
    "Verif.Sub.self_overlaps_partial",
    "Verif.Sub.member_overlaps_partial",
    "Verif.Sub.overlap_type_violation",
    "Verif.Sub.overlap_never_violation",
    "Verif.Sub.overlap_unpack_violation",
    "Verif.Sub.overlap_empty_violation"
   ],
   "note": "Proved for types without *tuple[..], without type[..] of unions and NewTypes, and without type[..] together with Never or the plain class type. False for these: type[int] and type, type[int] and Never, and tuples with * and different numbers of items after it."
  },
  {
   "property": "C104",
   "status": "partial",
   "theorems": [
    "Verif.Solve.solving_never_panics",
    "Verif.Solve.solved_fits_partial",
    "Verif.Solve.solved_fits_context_partial",
    "Verif.Solve.python_solved_partial",
    "Verif.Solve.Instance.join_violation"
   ],
   "note": "Proved for types without Any when common base types are not wider than necessary; false with use_joins: join_violation."
  },
  {
   "property": "C105",
   "status": "partial",
   "theorems": [
    "Verif.Solve.accepted_iff_solvable_partial",
    "Verif.Solve.solved_least_partial",
    "Verif.Solve.solved_greatest_partial",
    "Verif.Solve.order_independent_partial",
    "Verif.Solve.Instance.order_violation",
    "Verif.Solve.Instance.bound_contra_violation"
   ],
   "note": "Proved for every order of types with least upper and greatest lower bounds; false for type[int], object and for variables with a bound: the violations."
  },
  {
   "property": "C106",
   "status": "partial",
   "theorems": [
    "Verif.Solve.solved_within_bound_partial",
    "Verif.Solve.solved_is_constraint",
    "Verif.Solve.python_bound_partial",
    "Verif.Solve.Instance.bound_join_violation"
   ],
   "note": "The part about constraints is proved in full; the part about bounds for least common base types, false with use_joins: bound_join_violation."
  },
  {
   "property": "C107",
   "status": "partial",
   "theorems": [
    "Verif.Solve.resolved_fits_partial",
    "Verif.Solve.Instance.transitive_violation"
   ],
   "note": "Proved for constraints that are upper bounds or invariant; lower bounds become upper bounds in the code: transitive_violation."
  },
  {
   "property": "C108",
   "status": "partial",
   "theorems": [
    "Verif.Scope.names_mean_their_scope_partial",
    "Verif.Scope.name_before_loop_violation",
    "Verif.Scope.walrus_in_generator_violation",
    "Verif.Scope.generator_in_class_violation",
    "Verif.Scope.unreachable_assignment_violation"
   ],
   "note": "Proved for files in which names of classes and of scopes with loops are bound before use, without := in generator expressions, without code after return and so on (FileTame). Violated otherwise: names used before a loop and assigned after it, := in generator expressions, iterables of generator expressions in classes and assignments in unreachable code are connected with variables that Python would not use."
  },
  {
   "property": "C109",
   "status": "partial",
   "theorems": [
    "Verif.Scope.declarations_find_their_scope_partial",
    "Verif.Scope.nonlocal_in_classes_violation",
    "Verif.Scope.nonlocal_before_assignment_violation"
   ],
   "note": "Proved for statements in functions, before the name is used. Violated in classes: nonlocal in a class in a class, or in a class above the assignment, is reported although Python finds the variable."
  },
  {
   "property": "C11",
   "status": "partial",
   "theorems": [
    "Verif.Strings.string_value_partial",
    "Verif.Strings.raw_value",
    "Verif.Strings.named_violation",
    "Verif.Strings.surrogate_violation"
   ],
   "note": "holds for all literals without named escapes and surrogates; both exceptions are shown"
  },
  {
   "property": "C110",
   "status": "partial",
   "theorems": [
    "Verif.Scope.bound_names_are_not_reported_partial",
    "Verif.Scope.used_after_walrus_violation",
    "Verif.Scope.list_in_loop_violation"
   ],
   "note": "Proved for FileTame files. Violated by := in generator expressions and by list comprehensions in loops."
  },
  {
   "property": "C111",
   "status": "proved",
   "theorems": [
    "Verif.Scope.every_file_is_bound"
   ],
   "note": "For all files of the model."
  },
  {
   "property": "C112",
   "status": "partial",
   "theorems": [
    "Verif.Reach.decided_is_right_partial",
    "Verif.Reach.reversed_comparison_violation",
    "Verif.Reach.reversed_number_violation",
    "Verif.Reach.equal_prefix_violation",
    "Verif.Reach.ignored_end_violation"
   ],
   "note": "Violated: the operator is not turned around if the version is on the right, tuples that begin the version count as equal, and the end of a slice is ignored. Proved for all conditions without those."
  },
  {
   "property": "C113",
   "status": "partial",
   "theorems": [
    "Verif.Reach.executed_branch_is_seen_partial",
    "Verif.Reach.dead_branches_are_skipped",
    "Verif.Reach.executed_members_are_found_partial",
    "Verif.Reach.members_after_false_branch_violation"
   ],
   "note": "Binding and checking are right for the conditions of C112; the search for members stops at the first branch that is statically false."
  },
  {
   "property": "C114",
   "status": "proved",
   "theorems": [
    "Verif.Reach.idioms_are_decided",
    "Verif.Reach.idiom_keeps_one_branch"
   ],
   "note": "For all combinations of the usual conditions with numbers below 2^64."
  },
  {
   "property": "C115",
   "status": "partial",
   "theorems": [
    "Verif.Reach.conditions_do_not_panic_partial",
    "Verif.Reach.branches_do_not_panic_partial",
    "Verif.Reach.slice_start_violation"
   ],
   "note": "Violated by a slice that begins at 2^64 - 1; proved for slices that begin below 2^63."
  },
  {
   "property": "C116",
   "status": "partial",
   "theorems": [
    "Verif.Reach.checking_blocks_do_not_run_partial",
    "Verif.Reach.checking_blocks_are_known",
    "Verif.Reach.checking_or_violation"
   ],
   "note": "Violated by TYPE_CHECKING or something else; proved without or."
  },
  {
   "property": "C117",
   "status": "partial",
   "theorems": [
    "Verif.Dataclass.init_is_pythons_partial",
    "Verif.Dataclass.override_without_init_violation",
    "Verif.Dataclass.override_with_keyword_violation",
    "Verif.Dataclass.override_with_init_violation",
    "Verif.Dataclass.inherited_value_violation"
   ],
   "note": "Proved for programs where overriding fields agree with the overridden ones about being a positional or keyword-only parameter; the code violates the property otherwise."
  },
  {
   "property": "C118",
   "status": "partial",
   "theorems": [
    "Verif.Dataclass.errors_are_pythons_partial",
    "Verif.Dataclass.signature_is_valid",
    "Verif.Dataclass.class_signature_is_valid_partial",
    "Verif.Dataclass.class_signature_violation"
   ],
   "note": "Same condition on overriding fields; a keyword-only override hides an error."
  },
  {
   "property": "C119",
   "status": "partial",
   "theorems": [
    "Verif.Dataclass.dataclasses_do_not_panic_partial",
    "Verif.Dataclass.alias_violation"
   ],
   "note": "Proved for all programs whose aliases are written without escapes; the code panics otherwise."
  },
  {
   "property": "C12",
   "status": "partial",
   "theorems": [
    "Verif.Strings.string_no_panic_partial",
    "Verif.Strings.bytes_no_panic_partial",
    "Verif.Strings.string_panic_violation",
    "Verif.Strings.bytes_panic_violation"
   ],
   "note": "no panic for ASCII bodies and for bodies with complete hexadecimal escapes; truncated hexadecimal escapes crash"
  },
  {
   "property": "C120",
   "status": "partial",
   "theorems": [
    "Verif.Dataclass.post_init_is_pythons_partial",
    "Verif.Dataclass.post_init_order_violation",
    "Verif.Dataclass.post_init_twice_violation"
   ],
   "note": "Proved where InitVars are positional and not overridden; the code violates the property otherwise."
  },
  {
   "property": "C121",
   "status": "partial",
   "theorems": [
    "Verif.Dataclass.match_args_are_pythons_partial",
    "Verif.Dataclass.match_args_violation"
   ],
   "note": "Same condition as C117."
  },
  {
   "property": "C122",
   "status": "partial",
   "theorems": [
    "Verif.Dataclass.replace_wants_init_vars_partial",
    "Verif.Dataclass.replace_frozen_violation"
   ],
   "note": "Proved for classes that are not frozen; violated for frozen ones."
  },
  {
   "property": "C123",
   "status": "partial",
   "theorems": [
    "Verif.TypedDict.views_stay_right_partial",
    "Verif.TypedDict.required_keys_stay_partial",
    "Verif.TypedDict.closed_accepts_more_keys_violation",
    "Verif.TypedDict.extra_items_written_violation",
    "Verif.TypedDict.read_only_member_written_violation",
    "Verif.TypedDict.setdefault_read_only_violation",
    "Verif.TypedDict.update_types_violation"
   ],
   "note": "Proved for runs without the five kinds of casts and actions for which the code violates the property; each has a witness."
  },
  {
   "property": "C124",
   "status": "proved",
   "theorems": [
    "Verif.TypedDict.getItem_has_type",
    "Verif.TypedDict.getItem_accepted_iff",
    "Verif.TypedDict.get_has_type",
    "Verif.TypedDict.pop_has_type",
    "Verif.TypedDict.setDefault_has_type",
    "Verif.TypedDict.values_have_type"
   ],
   "note": "For any theory of member types whose unions contain their parts."
  },
  {
   "property": "C125",
   "status": "proved",
   "theorems": [
    "Verif.TypedDict.call_accepted_iff",
    "Verif.TypedDict.call_makes_fitting",
    "Verif.TypedDict.missing_keys_do_not_fit"
   ],
   "note": "Keyword arguments; the values have the types that are inferred."
  },
  {
   "property": "C126",
   "status": "partial",
   "theorems": [
    "Verif.TypedDict.class_members_distinct",
    "Verif.TypedDict.subclass_usable_as_base_partial",
    "Verif.TypedDict.subclass_accepted_for_base_partial",
    "Verif.TypedDict.two_bases_extra_items_violation",
    "Verif.TypedDict.two_bases_closed_violation",
    "Verif.TypedDict.required_member_not_accepted_violation"
   ],
   "note": "Proved for a single base and for bases without extra items; the code violates the rest. Acceptance is proved for bases without extra items."
  },
  {
   "property": "C127",
   "status": "partial",
   "theorems": [
    "Verif.TypedDict.join_usable_partial",
    "Verif.TypedDict.join_keeps_common",
    "Verif.TypedDict.meet_usable_partial",
    "Verif.TypedDict.join_extra_items_violation",
    "Verif.TypedDict.join_accepted_violation",
    "Verif.TypedDict.meet_extra_items_violation"
   ],
   "note": "Proved for typed dicts without extra items (for joins: one of them); the code violates the rest."
  },
  {
   "property": "C128",
   "status": "partial",
   "theorems": [
    "Verif.TypedDict.in_narrowing_keeps_partial",
    "Verif.TypedDict.in_narrowing_extra_items_violation"
   ],
   "note": "Proved unless a final typed dict has extra items, for which the code violates the property."
  },
  {
   "property": "C129",
   "status": "partial",
   "theorems": [
    "Verif.TypedDict.accepted_refl",
    "Verif.TypedDict.accepted_trans_partial",
    "Verif.TypedDict.accepted_trans_violation"
   ],
   "note": "Reflexivity in full; transitivity if the first two typed dicts have no extra items, with them the code violates it."
  },
  {
   "property": "C13",
   "status": "proved",
   "theorems": [
    "Verif.Strings.unpack_exact"
   ],
   "note": "all prefixes, both quotes, both styles"
  },
  {
   "property": "C130",
   "status": "proved",
   "theorems": [
    "Verif.TypedDict.member_operations_accepted",
    "Verif.TypedDict.extra_operations_accepted",
    "Verif.TypedDict.clear_accepted_iff",
    "Verif.TypedDict.dict_accepted"
   ],
   "note": "Literal keys for single operations."
  },
  {
   "property": "C131",
   "status": "partial",
   "theorems": [
    "Verif.Overload.call_right_partial",
    "Verif.Overload.tuple_of_unions_violation"
   ],
   "note": "The code violates the property: a tuple of two unions of the same length is not split into all combinations. Proved for tuples that are split in the right way and comparisons without Any (see C137)."
  },
  {
   "property": "C132",
   "status": "proved",
   "theorems": [
    "Verif.Overload.first_overload",
    "Verif.Overload.first_overload_of_arbitrary_length",
    "Verif.Overload.rejected_reported"
   ],
   "note": "All lists of overloads and arguments."
  },
  {
   "property": "C133",
   "status": "partial",
   "theorems": [
    "Verif.Overload.split_inside",
    "Verif.Overload.split_covers_partial",
    "Verif.Overload.split_nonempty",
    "Verif.Overload.split_bounded",
    "Verif.Overload.tuple_split",
    "Verif.Overload.tuple_of_unions_violation"
   ],
   "note": "No values are added, in full. The code loses values if the numbers of entries of two items of a tuple have a common divisor; proved for the others."
  },
  {
   "property": "C134",
   "status": "proved",
   "theorems": [
    "Verif.Overload.union_math_iff",
    "Verif.Overload.union_math_type",
    "Verif.Overload.union_math_too_many",
    "Verif.Overload.call_no_panic"
   ],
   "note": "For unions with entries, which all unions have."
  },
  {
   "property": "C135",
   "status": "partial",
   "theorems": [
    "Verif.Overload.combinations_accepted_partial",
    "Verif.Overload.tuple_of_bool_violation"
   ],
   "note": "The code does not try union math for a tuple with a bool or an enum; proved if a union is visible and, in the mode of mypy, no overload is similar."
  },
  {
   "property": "C136",
   "status": "partial",
   "theorems": [
    "Verif.Overload.fallback_covers",
    "Verif.Overload.fallback_mypy_covers_partial",
    "Verif.Overload.fallback_same",
    "Verif.Overload.fallback_mypy_violation"
   ],
   "note": "In full outside of the mode of mypy; in the mode of mypy the code loses types of unions."
  },
  {
   "property": "C137",
   "status": "partial",
   "theorems": [
    "Verif.Overload.any_right_partial",
    "Verif.Overload.any_mixed_violation",
    "Verif.Overload.any_union_math_violation"
   ],
   "note": "The code violates the property if different arguments of the overloads are Any, and in union math. Proved if overloads that match because of Any are ambiguous or have the same return type."
  },
  {
   "property": "C138",
   "status": "proved",
   "theorems": [
    "Verif.Len.then_branch",
    "Verif.Len.else_branch",
    "Verif.Len.branches_inside"
   ],
   "note": ""
  },
  {
   "property": "C139",
   "status": "proved",
   "theorems": [
    "Verif.Len.then_exact",
    "Verif.Len.else_exact",
    "Verif.Len.else_of_equals_is_not_exact",
    "Verif.Len.no_conclusion_iff"
   ],
   "note": "else_of_equals_is_not_exact shows why the operators are restricted."
  },
  {
   "property": "C14",
   "status": "partial",
   "theorems": [
    "Verif.Strings.str_repr_partial",
    "Verif.Strings.bytes_repr_partial",
    "Verif.Strings.repr_round_trip",
    "Verif.Strings.str_repr_printable",
    "Verif.Strings.bytes_repr_printable",
    "Verif.Strings.str_repr_violation",
    "Verif.Strings.bytes_repr_violation"
   ],
   "note": "holds for values without the quote character; quotes are not escaped"
  },
  {
   "property": "C140",
   "status": "partial",
   "theorems": [
    "Verif.Len.panics_iff",
    "Verif.Len.no_panic_partial",
    "Verif.Len.no_panic_violation"
   ],
   "note": "panics_iff says exactly when the code crashes: an order with fewer items than a tuple with an unpacked part always has."
  },
  {
   "property": "C141",
   "status": "partial",
   "theorems": [
    "Verif.Equality.compare_then_partial",
    "Verif.Equality.equal_text",
    "Verif.Equality.equal_member",
    "Verif.Equality.both_optional_violation",
    "Verif.Equality.none_of_protocol_violation",
    "Verif.Equality.member_of_base_violation",
    "Verif.Equality.member_of_type_var_violation",
    "Verif.Equality.equal_float_violation",
    "Verif.Equality.equal_true_violation",
    "Verif.Equality.flag_with_one_member_violation",
    "Verif.Equality.mixin_violation"
   ],
   "note": "The code violates the property in the cases that the violations show; proved for the others."
  },
  {
   "property": "C142",
   "status": "partial",
   "theorems": [
    "Verif.Equality.compare_else_partial",
    "Verif.Equality.is_else",
    "Verif.Equality.equal_self",
    "Verif.Equality.equal_custom_enum_violation"
   ],
   "note": "The code violates the property for enums that define __eq__; proved if the second operand is equal to itself and is not a flag with one member."
  },
  {
   "property": "C143",
   "status": "proved",
   "theorems": [
    "Verif.Equality.is_exhaustive",
    "Verif.Equality.is_not_exhaustive"
   ],
   "note": ""
  },
  {
   "property": "C144",
   "status": "partial",
   "theorems": [
    "Verif.Equality.in_then_partial",
    "Verif.Equality.in_else",
    "Verif.Equality.in_container_partial",
    "Verif.Equality.chain_then_partial",
    "Verif.Equality.chain_else_violation",
    "Verif.Equality.in_container_violation"
   ],
   "note": "The code violates the property for chains with an operand that is not always the last one and for containers whose items can be None; the branch in which x is not in a tuple is proved in full except for flags."
  },
  {
   "property": "C145",
   "status": "partial",
   "theorems": [
    "Verif.Equality.type_of_then_partial",
    "Verif.Equality.type_of_else",
    "Verif.Equality.type_of_variable_violation",
    "Verif.Equality.type_of_literal_violation"
   ],
   "note": "The code violates the property if y can be a subclass and for literals; proved if y is a class and x consists of classes."
  },
  {
   "property": "C146",
   "status": "partial",
   "theorems": [
    "Verif.Equality.truth_partial",
    "Verif.Equality.truth_of_int_violation"
   ],
   "note": "The code violates the property for instances of subclasses (False is an int); proved for direct instances."
  },
  {
   "property": "C147",
   "status": "partial",
   "theorems": [
    "Verif.Enums.reserved_partial",
    "Verif.Enums.odd_differs",
    "Verif.Enums.not_reserved",
    "Verif.Enums.underscore_violation",
    "Verif.Enums.private_violation"
   ],
   "note": "The code differs from Python exactly for the names of Odd (for classes that do not begin with an underscore): _ and names like _a__ or __a___ are left out although Python makes them members, and names written like mangled ones are kept."
  },
  {
   "property": "C148",
   "status": "partial",
   "theorems": [
    "Verif.Enums.members_partial",
    "Verif.Enums.memberNames_unique",
    "Verif.Enums.alias_of_alias_violation",
    "Verif.Enums.equal_values_violation",
    "Verif.Enums.nested_class_violation",
    "Verif.Enums.function_value_violation",
    "Verif.Enums.value_of_nonmember_violation",
    "Verif.Enums.alias_of_function_violation",
    "Verif.Enums.ignore_violation",
    "Verif.Enums.static_method_violation"
   ],
   "note": "The code violates the property in the cases that the violations show; proved for all other bodies since Python 3.11."
  },
  {
   "property": "C149",
   "status": "proved",
   "theorems": [
    "Verif.Enums.order_irrelevant",
    "Verif.Enums.members_in_order"
   ],
   "note": "Nodes have distinct indexes."
  },
  {
   "property": "C15",
   "status": "partial",
   "theorems": [
    "Verif.Vfs.edit_invalidates_dependents",
    "Verif.Vfs.propagation_needs_no_bound",
    "Verif.Vfs.kept_results_are_current",
    "Verif.Vfs.reader_is_told",
    "Verif.Vfs.stale_entry_violation"
   ],
   "note": "Propagation reaches exactly the recorded transitive dependents and terminates on every graph; histories of analyses and edits keep only current results. reader_is_told: in all histories in which open documents are in directories of the disk, a file whose recorded reading no longer holds has been invalidated. Fails after the directory of an open document was removed: its file keeps an old entry, so the next edit invalidates nobody (stale_entry_violation)."
  },
  {
   "property": "C150",
   "status": "partial",
   "theorems": [
    "Verif.Enums.names_partial",
    "Verif.Enums.reused_names",
    "Verif.Enums.names_are_slices",
    "Verif.Enums.white_space_violation",
    "Verif.Enums.reserved_name_violation"
   ],
   "note": "Violated for white space other than spaces and for reserved names; proved for all other texts."
  },
  {
   "property": "C151",
   "status": "partial",
   "theorems": [
    "Verif.Pattern.then_partial",
    "Verif.Pattern.never_matches_partial",
    "Verif.Pattern.Sample.star_then_violation",
    "Verif.Pattern.Sample.star_item_violation",
    "Verif.Pattern.Sample.star_only_violation"
   ],
   "note": "Proved for all patterns without stars, and for starred patterns with types without unpacked parts, Sequence and classes that may be sequences. Starred patterns are wrong for those."
  },
  {
   "property": "C152",
   "status": "partial",
   "theorems": [
    "Verif.Pattern.names_partial",
    "Verif.Pattern.Sample.star_name_violation",
    "Verif.Pattern.Sample.subclass_args_violation",
    "Verif.Pattern.Sample.refutable_alternative_violation"
   ],
   "note": "Proved like C151, if subclasses have the same __match_args__ and arguments in alternatives always match. Wrong otherwise."
  },
  {
   "property": "C153",
   "status": "partial",
   "theorems": [
    "Verif.Pattern.else_partial",
    "Verif.Pattern.inside_partial",
    "Verif.Pattern.total_rest",
    "Verif.Pattern.class_names",
    "Verif.Pattern.class_impossible",
    "Verif.Pattern.tuple_names",
    "Verif.Pattern.Sample.refutable_argument_violation",
    "Verif.Pattern.Sample.self_match_violation",
    "Verif.Pattern.Sample.star_rest_violation",
    "Verif.Pattern.Sample.named_tuple_violation",
    "Verif.Pattern.Sample.sequence_of_class_violation"
   ],
   "note": "Proved if the arguments of class patterns always match. Class patterns with arguments that can fail leave too little."
  },
  {
   "property": "C154",
   "status": "partial",
   "theorems": [
    "Verif.Pattern.rest_partial",
    "Verif.Pattern.exhaustive_partial",
    "Verif.Pattern.body_partial",
    "Verif.Pattern.Sample.guard_violation"
   ],
   "note": "Proved for cases like in C153; a guard after P as name loses what P does not match."
  },
  {
   "property": "C155",
   "status": "partial",
   "theorems": [
    "Verif.Mapping.then_partial",
    "Verif.Mapping.never_matches_partial",
    "Verif.Mapping.inside",
    "Verif.Mapping.impossible_key",
    "Verif.Mapping.Sample.dotted_key_violation"
   ],
   "note": "Violated for keys that are dotted names of type Any or of a union of str with something else (the body is reported as unreachable); proved for all other keys."
  },
  {
   "property": "C156",
   "status": "partial",
   "theorems": [
    "Verif.Mapping.else_partial",
    "Verif.Mapping.exhaustive_partial",
    "Verif.Mapping.required_rest",
    "Verif.Mapping.unchanged_rest",
    "Verif.Mapping.Sample.refutable_value_violation"
   ],
   "note": "Violated if the pattern of a value is a class pattern with arguments that can fail; proved for all values without those and without starred patterns."
  },
  {
   "property": "C157",
   "status": "partial",
   "theorems": [
    "Verif.Mapping.names_partial",
    "Verif.Mapping.member_type",
    "Verif.Mapping.Sample.rest_violation"
   ],
   "note": "Violated for the rest of a class with overloads of __getitem__; otherwise proved, with the exceptions of C152 for the patterns of the values."
  },
  {
   "property": "C158",
   "status": "partial",
   "theorems": [
    "Verif.Arith.type_right",
    "Verif.Arith.literal_right",
    "Verif.Arith.precise_partial",
    "Verif.Arith.precise_other",
    "Verif.Arith.precise_violation"
   ],
   "note": "Literals and types are right for all pairs. The precision is proved except for -2**63 % -1, shifts by 64 or more and exponents of 2**32 or more, where it is false."
  },
  {
   "property": "C159",
   "status": "partial",
   "theorems": [
    "Verif.Arith.issue_real",
    "Verif.Arith.issue_reported_partial",
    "Verif.Arith.issue_reported_violation"
   ],
   "note": "Reports are real for all pairs. Completeness is proved for integers of 64 bits without 0 ** -1; false for 0 ** -1 and for larger integers."
  },
  {
   "property": "C16",
   "status": "partial",
   "theorems": [
    "Verif.Vfs.overlay_partial",
    "Verif.Vfs.overlay_runs",
    "Verif.Vfs.overlay_complete",
    "Verif.Vfs.overlay_preload_violation",
    "Verif.Vfs.overlay_crash_violation"
   ],
   "note": "For all histories of openings, edits, closings, notified disk changes, reads and recorded dependencies: texts in use are those of the open documents, else of the disk. overlay_complete: if open documents stay in directories of the disk, a file is found exactly if it is open or on disk. Fails when a preloaded file of the workspace is removed together with an open document, and crashes when the directory of an open document is replaced by a file."
  },
  {
   "property": "C160",
   "status": "partial",
   "theorems": [
    "Verif.Arith.size_bounded",
    "Verif.Arith.steps_partial",
    "Verif.Arith.steps_violation",
    "Verif.Arith.total_partial",
    "Verif.Arith.total_violation"
   ],
   "note": "The size is bounded for all pairs. The steps are bounded if no operand is the empty bytes; b'' * 10**18 takes 10**18 steps. No overflow if the text of Python has less than 2**64 bytes; '@' reaches an assertion."
  },
  {
   "property": "C161",
   "status": "partial",
   "theorems": [
    "Verif.Operator.result_partial",
    "Verif.Operator.same_class",
    "Verif.Operator.Sample.inherited_reflected_violation",
    "Verif.Operator.Sample.promotion_violation",
    "Verif.Operator.Sample.comparison_violation",
    "Verif.Operator.Sample.comparison_same_violation",
    "Verif.Operator.any_operand"
   ],
   "note": "Proved for all hierarchies in which the operands are asked in the same order as in Python (SameOrder). False if the reflected method is inherited from another class than the normal one, for promoted numbers and for comparisons with subclasses."
  },
  {
   "property": "C162",
   "status": "partial",
   "theorems": [
    "Verif.Operator.issue_real",
    "Verif.Operator.issue_reported_partial",
    "Verif.Operator.Sample.any_violation"
   ],
   "note": "Reports are real for all unions. Completeness is proved for right operands without Any; members after Any are ignored."
  },
  {
   "property": "C163",
   "status": "partial",
   "theorems": [
    "Verif.Operator.overlap_subclass",
    "Verif.Operator.overlap_other",
    "Verif.Operator.overlap_real",
    "Verif.Operator.Sample.overlap_object_violation",
    "Verif.Operator.Sample.overlap_union_violation"
   ],
   "note": "Proved for the classes that are named in the parameter of the reflected method. Superclasses without the operator and unions that are only partly comparable are not checked, and then values have other types."
  },
  {
   "property": "C164",
   "status": "partial",
   "theorems": [
    "Verif.Operator.aug_result_partial",
    "Verif.Operator.aug_safe_partial",
    "Verif.Operator.Sample.aug_union_violation",
    "Verif.Operator.Sample.aug_fallback_violation",
    "Verif.Operator.aug_any"
   ],
   "note": "Types are proved if all members of the union have the in-place method or the member in question has none. False for other unions; and an in-place method that does not accept the operand is reported although Python goes on with the normal method."
  },
  {
   "property": "C165",
   "status": "partial",
   "theorems": [
    "Verif.Attribute.type_iff",
    "Verif.Attribute.reads_partial",
    "Verif.Attribute.union_violation",
    "Verif.Attribute.property_violation",
    "Verif.Attribute.self_violation",
    "Verif.Attribute.descriptor_violation",
    "Verif.Attribute.callable_violation",
    "Verif.Attribute.mypy_callable_violation",
    "Verif.Attribute.annotation_violation",
    "Verif.Attribute.slot_violation",
    "Verif.Attribute.getattr_violation",
    "Verif.Attribute.getattribute_violation"
   ],
   "note": "The type is proved for all programs. That values have it is proved for regular names; what Regular excludes is shown to be unsound by the violations."
  },
  {
   "property": "C166",
   "status": "proved",
   "theorems": [
    "Verif.Attribute.missing"
   ],
   "note": "For all class hierarchies and all sequences of accepted assignments."
  },
  {
   "property": "C167",
   "status": "partial",
   "theorems": [
    "Verif.Attribute.issue_reason",
    "Verif.Attribute.refused",
    "Verif.Attribute.progress_partial",
    "Verif.Attribute.classVar_violation",
    "Verif.Attribute.slots_callable_violation",
    "Verif.Attribute.slots_get_violation"
   ],
   "note": "The reasons, and what is refused in any case, are proved for all programs. That accepted assignments have a place is proved for regular names with a dictionary or with attributes that are checked against the slots."
  },
  {
   "property": "C168",
   "status": "partial",
   "theorems": [
    "Verif.Attribute.narrow_partial",
    "Verif.Attribute.setattr_violation"
   ],
   "note": "Proved for regular declared names without __setattr__; with it the narrowing is wrong."
  },
  {
   "property": "C169",
   "status": "partial",
   "theorems": [
    "Verif.Attribute.class_reads_partial",
    "Verif.Attribute.class_missing",
    "Verif.Attribute.meta_getattr_violation",
    "Verif.Attribute.meta_plain_violation",
    "Verif.Attribute.meta_property_violation",
    "Verif.Attribute.class_unknown"
   ],
   "note": "Missing attributes are proved for all programs. That values have the type is proved where metaclass and class do not share names."
  },
  {
   "property": "C17",
   "status": "partial",
   "theorems": [
    "Verif.Vfs.imports_are_told_partial",
    "Verif.Vfs.absence_is_told",
    "Verif.Vfs.shadowed_module_violation",
    "Verif.Vfs.untyped_module_violation",
    "Verif.Vfs.replaced_file_violation",
    "Verif.Vfs.typed_marker_violation",
    "Verif.Vfs.returned_directory_violation"
   ],
   "note": "For all histories with imports: the resolution of an import stays the same, or the importer is invalidated, or a more important file appeared beside a module file. Fails in that last case, for py.typed, for untyped modules, when a plain file is replaced by a package, and when the directory of an open document comes back."
  },
  {
   "property": "C170",
   "status": "proved",
   "theorems": [
    "Verif.Override.override_iff",
    "Verif.Override.pair_iff"
   ],
   "note": "Which kinds of names override each other without a report, for any relation of types."
  },
  {
   "property": "C171",
   "status": "partial",
   "theorems": [
    "Verif.Override.read_partial",
    "Verif.Override.assigned_name_violation",
    "Verif.Override.inherited_name_violation"
   ],
   "note": "Proved by induction over linear method resolution orders, for names that base classes declare themselves. Names that a base class inherits, and names assigned in a class with two base classes, are not compared with all ancestors: two violations."
  },
  {
   "property": "C172",
   "status": "partial",
   "theorems": [
    "Verif.Override.write_partial",
    "Verif.Override.narrowed_attribute_violation",
    "Verif.Override.method_for_attribute_violation",
    "Verif.Override.class_variable_violation",
    "Verif.Override.class_variable_for_setter_violation",
    "Verif.Override.cached_property_violation",
    "Verif.Override.setters_of_bases_violation"
   ],
   "note": "Proved for attributes with one type, final names and properties with any setters, where at most one base class has the name. Six violations show what is missing."
  },
  {
   "property": "C173",
   "status": "partial",
   "theorems": [
    "Verif.Override.final_partial",
    "Verif.Override.override_decorator",
    "Verif.Override.override_explicit",
    "Verif.Override.final_of_second_base_violation"
   ],
   "note": "The decorator parts hold without restrictions. Final names are proved for classes that do not themselves declare a name that two base classes have; the violation is such a class."
  },
  {
   "property": "C174",
   "status": "partial",
   "theorems": [
    "Verif.Variance.check_partial",
    "Verif.Variance.check_complete",
    "Verif.Variance.check_none",
    "Verif.Variance.union_violation",
    "Verif.Variance.union_contra_violation"
   ],
   "note": "Violated for unions: the members of the replaced type absorb others (T | list[T] is judged covariant). Proved in both directions for unions whose members with the type variable have nothing to do with the others; the direction that right places pass needs no such condition."
  },
  {
   "property": "C175",
   "status": "partial",
   "theorems": [
    "Verif.Variance.covariant_grows_partial",
    "Verif.Variance.contravariant_shrinks_partial",
    "Verif.Variance.union_violation",
    "Verif.Variance.union_contra_violation"
   ],
   "note": "Violated for unions (T | list[T] does not grow, list[T] | list[object] does not shrink); proved for all other types and for unions of unrelated members."
  },
  {
   "property": "C176",
   "status": "partial",
   "theorems": [
    "Verif.Variance.covariant_class_partial",
    "Verif.Variance.covariant_union_violation",
    "Verif.Variance.covariant_return_violation",
    "Verif.Variance.covariant_writable_violation"
   ],
   "note": "Violated by unions, by functions that return the own class with other arguments, and by assignable callables that return the own class; proved without these."
  },
  {
   "property": "C177",
   "status": "partial",
   "theorems": [
    "Verif.Variance.contravariant_class_partial",
    "Verif.Variance.contravariant_writable_violation",
    "Verif.Variance.contravariant_recursive_violation"
   ],
   "note": "Violated by classes that take instances of themselves as parameters; names that can be assigned are not excluded. Proved for classes whose names mention the class only as a return type."
  },
  {
   "property": "C178",
   "status": "proved",
   "theorems": [
    "Verif.Variance.infer_total",
    "Verif.Variance.invariant_reason",
    "Verif.Variance.contravariant_reason"
   ],
   "note": "For types whose unions are flat, as all unions of the code are."
  },
  {
   "property": "C179",
   "status": "partial",
   "theorems": [
    "Verif.Variance.declared_partial",
    "Verif.Variance.declared_keeps_partial",
    "Verif.Variance.union_violation",
    "Verif.Variance.union_contra_violation"
   ],
   "note": "With the conditions for unions of C174."
  },
  {
   "property": "C18",
   "status": "proved",
   "theorems": [
    "Verif.Vfs.import_priority"
   ],
   "note": "After every history in which open documents are in directories of the disk, and over all lists of search directories of the tree. The case-insensitive variant and django-stubs are not modelled; whether a py.typed is there is not part of the claim."
  },
  {
   "property": "C180",
   "status": "partial",
   "theorems": [
    "Verif.Import.python_found_partial",
    "Verif.Import.python_only_partial",
    "Verif.Import.python_partial",
    "Verif.Import.stub_file_violation"
   ],
   "note": "Exactly Python's search without entries named like stubs, with explicit package bases; a script named foo-stubs.py is imported instead of foo.py."
  },
  {
   "property": "C181",
   "status": "partial",
   "theorems": [
    "Verif.Import.named_partial",
    "Verif.Import.named_violation"
   ],
   "note": "For all layouts, for names other than __init__; import p.__init__.a finds p/a.py."
  },
  {
   "property": "C182",
   "status": "partial",
   "theorems": [
    "Verif.Import.typed_partial",
    "Verif.Import.typed_stub_file_violation",
    "Verif.Import.typed_neighbour_violation",
    "Verif.Import.typed_strings_violation"
   ],
   "note": "Proved for importing files outside of the installed packages and without single files named like stub packages; three ways around the marker are shown."
  },
  {
   "property": "C183",
   "status": "partial",
   "theorems": [
    "Verif.Import.relative",
    "Verif.Import.relative_error",
    "Verif.Import.relative_python_partial",
    "Verif.Import.relative_namespace_violation"
   ],
   "note": "The directory and the error are settled for all files; agreement with Python below regular packages; a namespace over several directories of the search path is searched in a different order."
  },
  {
   "property": "C184",
   "status": "partial",
   "theorems": [
    "Verif.Import.no_panic",
    "Verif.Import.lookup_no_panic",
    "Verif.Import.strings_no_panic_partial",
    "Verif.Import.strings_panic_violation"
   ],
   "note": "No import statement panics; pytest_plugins with an installed package without py.typed does."
  },
  {
   "property": "C185",
   "status": "proved",
   "theorems": [
    "Verif.Import.stub_beside",
    "Verif.Import.stub_package",
    "Verif.Import.stub_module"
   ],
   "note": "For all trees of files; stub packages with an __init__.pyi in each directory."
  },
  {
   "property": "C186",
   "status": "partial",
   "theorems": [
    "Verif.Intersect.unreachable_partial",
    "Verif.Intersect.callable_violation",
    "Verif.Intersect.metaclass_violation"
   ],
   "note": "The code violates it for callables with classes and for type[A] with metaclasses. Proved for classes, intersections, None, type variables, unions and type[...] of these. Assumed: the checker knows the orders and layouts, the program obeys @final, and no class has bases with incompatible members."
  },
  {
   "property": "C187",
   "status": "partial",
   "theorems": [
    "Verif.Intersect.intersection_within",
    "Verif.Intersect.intersection_partial"
   ],
   "note": "Every value of the result has both types for all types; the other direction for the types for which C186 holds."
  },
  {
   "property": "C188",
   "status": "proved",
   "theorems": [
    "Verif.Intersect.disjoint_bases"
   ],
   "note": "For programs that obey Python's rule for layouts so far; the stored disjoint bases of the bases are assumed to be right."
  },
  {
   "property": "C189",
   "status": "partial",
   "theorems": [
    "Verif.Intersect.lookup_in_intersection",
    "Verif.Intersect.execute_partial",
    "Verif.Intersect.execute_violation"
   ],
   "note": "Holds for subscripts and iteration. Calls violate it: execute does not pass on the function for issues, so only the first entry counts."
  },
  {
   "property": "C19",
   "status": "proved",
   "theorems": [
    "Verif.Paths.normalize_place",
    "Verif.Paths.normalize_idem",
    "Verif.Paths.normalize_eq_iff"
   ],
   "note": "Systems whose separator is /."
  },
  {
   "property": "C190",
   "status": "proved",
   "theorems": [
    "Verif.Overlap.symmetric"
   ],
   "note": "Without generics, callables, type[...], typed dicts and protocols."
  },
  {
   "property": "C191",
   "status": "partial",
   "theorems": [
    "Verif.Overlap.disjoint_partial",
    "Verif.Overlap.disjoint_violation"
   ],
   "note": "Holds if no class has two bases; with a class that inherits from both, the code violates it."
  },
  {
   "property": "C192",
   "status": "partial",
   "theorems": [
    "Verif.Overlap.common_value_partial"
   ],
   "note": "Without intersections, the list of exceptions, and literals of classes with subclasses."
  },
  {
   "property": "C193",
   "status": "partial",
   "theorems": [
    "Verif.Overlap.tuples_partial",
    "Verif.Overlap.tuples_sound_partial",
    "Verif.Overlap.empty_violation",
    "Verif.Overlap.alignment_violation",
    "Verif.Overlap.lengths_violation"
   ],
   "note": "Exact unless both are tuple[A, ...] or both have an unpacked part, where the code violates it."
  },
  {
   "property": "C194",
   "status": "proved",
   "theorems": [
    "Verif.Select.walk_directory",
    "Verif.Select.search_all"
   ],
   "note": "Patterns and .gitignore files are arbitrary predicates."
  },
  {
   "property": "C195",
   "status": "partial",
   "theorems": [
    "Verif.Select.named_directory_partial",
    "Verif.Select.named_directory_violation"
   ],
   "note": "The code does not apply the .gitignore files above a directory that is named; without .gitignore files it is proved."
  },
  {
   "property": "C196",
   "status": "partial",
   "theorems": [
    "Verif.Select.git_partial",
    "Verif.Select.git_violation"
   ],
   "note": "A pattern with ! in a closer .gitignore cannot include a path again; without such patterns it is proved."
  },
  {
   "property": "C197",
   "status": "proved",
   "theorems": [
    "Verif.Select.search_arguments",
    "Verif.Select.search_arguments_error",
    "Verif.Select.named_file"
   ],
   "note": "What search_path and ensure_fallback find is an arbitrary input."
  },
  {
   "property": "C198",
   "status": "partial",
   "theorems": [
    "Verif.Select.patterns_partial",
    "Verif.Select.patterns_violation"
   ],
   "note": "The code applies no .gitignore above a match; proved without .gitignore files, for exclude patterns that hold for all that is below, without nested workspaces."
  },
  {
   "property": "C199",
   "status": "proved",
   "theorems": [
    "Verif.Tokens.response",
    "Verif.Tokens.push_ok",
    "Verif.Tokens.push_none"
   ],
   "note": "Which type and properties a name has is an arbitrary function."
  },
  {
   "property": "C20",
   "status": "partial",
   "theorems": [
    "Verif.Paths.strip_iff",
    "Verif.Paths.innermost_partial",
    "Verif.Paths.roots_nodup",
    "Verif.Paths.root_violation"
   ],
   "note": "A root that is normalised to / contains no file."
  },
  {
   "property": "C200",
   "status": "partial",
   "theorems": [
    "Verif.Tokens.lengths_partial",
    "Verif.Tokens.lengths_violation"
   ],
   "note": "The code sends the length in bytes; proved for UTF-8 and for ASCII names."
  },
  {
   "property": "C201",
   "status": "proved",
   "theorems": [
    "Verif.Tokens.range_tokens",
    "Verif.Tokens.all_tokens"
   ],
   "note": "Ranges are in bytes here; the conversion is C01."
  },
  {
   "property": "C202",
   "status": "partial",
   "theorems": [
    "Verif.Contains.narrow_right_partial",
    "Verif.Contains.narrow_right_violation",
    "Verif.Contains.narrow_right_precise"
   ],
   "note": "If all members of the left side are string literals. Otherwise false: members of the left side that are no literals are ignored."
  },
  {
   "property": "C203",
   "status": "partial",
   "theorems": [
    "Verif.Contains.narrow_left_partial",
    "Verif.Contains.narrow_left_violation",
    "Verif.Contains.narrow_left_any_violation"
   ],
   "note": "If no item type other than None has the value None. Type variables and unions with Any may be None: disproved."
  },
  {
   "property": "C204",
   "status": "partial",
   "theorems": [
    "Verif.Contains.guard_partial"
   ],
   "note": "With the conditions of C202 and C203."
  },
  {
   "property": "C205",
   "status": "proved",
   "theorems": [
    "Verif.Contains.tuple_sound",
    "Verif.Contains.tuple_exact",
    "Verif.Contains.tuple_empty"
   ],
   "note": "For every sound or exact narrowing by ==."
  },
  {
   "property": "C206",
   "status": "partial",
   "theorems": [
    "Verif.AutoImport.merged",
    "Verif.AutoImport.merged_violation"
   ],
   "note": "For imports without a star. With a star the result is a syntax error: disproved."
  },
  {
   "property": "C207",
   "status": "partial",
   "theorems": [
    "Verif.AutoImport.choose_file",
    "Verif.AutoImport.choose_none",
    "Verif.AutoImport.choose_bound_partial",
    "Verif.AutoImport.choose_bound_violation",
    "Verif.AutoImport.choose_function_violation"
   ],
   "note": "If the name is not in a function and the import has no further conditions; otherwise disproved."
  },
  {
   "property": "C208",
   "status": "partial",
   "theorems": [
    "Verif.AutoImport.added_partial",
    "Verif.AutoImport.boundary",
    "Verif.AutoImport.endOfImports_file",
    "Verif.AutoImport.added_violation",
    "Verif.AutoImport.added_inside_violation"
   ],
   "note": "If the imports at the beginning are one per line. With several statements on a line disproved."
  },
  {
   "property": "C209",
   "status": "partial",
   "theorems": [
    "Verif.AutoImport.ordered",
    "Verif.AutoImport.future"
   ],
   "note": "Under the condition of C208."
  },
  {
   "property": "C21",
   "status": "partial",
   "theorems": [
    "Verif.Config.pattern_matches",
    "Verif.Config.section_applies_partial",
    "Verif.Config.section_applies_violation",
    "Verif.Config.pattern_components"
   ],
   "note": "The matcher is proved equivalent to the pattern language on the names it is given; the module name of files in stub packages differs from those names."
  },
  {
   "property": "C210",
   "status": "partial",
   "theorems": [
    "Verif.References.listed_refer_partial",
    "Verif.References.mem_references",
    "Verif.References.clash_violation"
   ],
   "note": "false if a module and a name at the first byte of its file are confused; proved if different things are at different places; mem_references says exactly what is listed"
  },
  {
   "property": "C211",
   "status": "partial",
   "theorems": [
    "Verif.References.nothing_missed_partial",
    "Verif.References.declarations_listed",
    "Verif.References.chain_violation",
    "Verif.References.origin_violation",
    "Verif.References.local_violation"
   ],
   "note": "false for names imported from a file that imports them and for definitions in functions of other files; proved without import chains for the searched files"
  },
  {
   "property": "C212",
   "status": "proved",
   "theorems": [
    "Verif.References.references_nodup"
   ],
   "note": "for programs whose names, files and definitions are listed once"
  },
  {
   "property": "C213",
   "status": "partial",
   "theorems": [
    "Verif.References.no_declarations_partial",
    "Verif.References.without_declarations",
    "Verif.References.undeclared_violation"
   ],
   "note": "false for imports that cannot be resolved; proved for names that lead somewhere"
  },
  {
   "property": "C214",
   "status": "partial",
   "theorems": [
    "Verif.References.rename_links_partial",
    "Verif.References.union_violation"
   ],
   "note": "false for attributes of unions and for import chains; proved for uses that lead to one thing"
  },
  {
   "property": "C215",
   "status": "proved",
   "theorems": [
    "Verif.References.rename_records",
    "Verif.References.rename_same"
   ],
   "note": "the order of the files in the edit is not modelled"
  },
  {
   "property": "C216",
   "status": "partial",
   "theorems": [
    "Verif.Raise.raise_partial",
    "Verif.Raise.raise_type_violation"
   ],
   "note": "false for class objects of unions and the like; proved for types without Any, unknown bases and such class objects"
  },
  {
   "property": "C217",
   "status": "partial",
   "theorems": [
    "Verif.Raise.except_one",
    "Verif.Raise.except_several_partial",
    "Verif.Raise.several_without_tuples",
    "Verif.Raise.except_nested_violation"
   ],
   "note": "proved for one expression without Any; false for several expressions of which one is a tuple"
  },
  {
   "property": "C218",
   "status": "proved",
   "theorems": [
    "Verif.Raise.caught_has_type",
    "Verif.Raise.caught_exact"
   ],
   "note": "the simplification of unions is not modelled, except for Never"
  },
  {
   "property": "C219",
   "status": "partial",
   "theorems": [
    "Verif.Raise.star_partial",
    "Verif.Raise.star_defined",
    "Verif.Raise.star_no_group",
    "Verif.Raise.star_dataclass_violation",
    "Verif.Raise.star_group_violation"
   ],
   "note": "false for data classes that are not Exceptions and for groups in variables; proved if the item type has no Any, and for the classes that are named"
  },
  {
   "property": "C22",
   "status": "partial",
   "theorems": [
    "Verif.Config.section_priority_partial",
    "Verif.Config.kind_of_pattern",
    "Verif.Config.section_specificity_violation",
    "Verif.Config.ini_sections",
    "Verif.Config.rank_level"
   ],
   "note": "Priority by kind and position is proved; longer prefixes do not win over shorter ones."
  },
  {
   "property": "C220",
   "status": "partial",
   "theorems": [
    "Verif.Raise.catch_raised_partial",
    "Verif.Raise.reject",
    "Verif.Raise.catch_violation"
   ],
   "note": "false for classes with unknown bases"
  },
  {
   "property": "C221",
   "status": "partial",
   "theorems": [
    "Verif.Signature.keyword_active_partial",
    "Verif.Signature.keyword_taken_violation"
   ],
   "note": "The code does not look at arguments given by position before the keyword, see the violation."
  },
  {
   "property": "C222",
   "status": "partial",
   "theorems": [
    "Verif.Signature.positional_active",
    "Verif.Signature.star_active",
    "Verif.Signature.first_active",
    "Verif.Signature.active_free",
    "Verif.Signature.active_after_keyword",
    "Verif.Signature.double_star_taken_violation"
   ],
   "note": "That the marked parameter has no argument yet is proved for calls without stars; with ** the code marks parameters that have an argument, see the violation."
  },
  {
   "property": "C223",
   "status": "partial",
   "theorems": [
    "Verif.Signature.valid_partial",
    "Verif.Signature.active_signature",
    "Verif.Signature.no_parameters_violation",
    "Verif.Signature.positional_only_violation",
    "Verif.Signature.too_many_violation"
   ],
   "note": "The code violates the claim in three ways, see the violations; proved where they are excluded."
  },
  {
   "property": "C224",
   "status": "proved",
   "theorems": [
    "Verif.Signature.label_ranges"
   ],
   "note": "Types are formatted as non-empty texts."
  },
  {
   "property": "C225",
   "status": "partial",
   "theorems": [
    "Verif.Signature.arguments_partial"
   ],
   "note": "Arguments that are read from statements after a syntax error are not modelled."
  },
  {
   "property": "C226",
   "status": "partial",
   "theorems": [
    "Verif.NamedTuple.names_partial",
    "Verif.NamedTuple.names_tab_violation"
   ],
   "note": "Words and ranges for texts whose white space is blanks; tabs and line breaks are not separators here"
  },
  {
   "property": "C227",
   "status": "partial",
   "theorems": [
    "Verif.NamedTuple.refused_partial",
    "Verif.NamedTuple.soft_keyword_violation"
   ],
   "note": "ASCII names that are no soft keywords; soft keywords are refused although Python takes them"
  },
  {
   "property": "C228",
   "status": "partial",
   "theorems": [
    "Verif.NamedTuple.rename_partial",
    "Verif.NamedTuple.fields_distinct",
    "Verif.NamedTuple.rename_soft_violation"
   ],
   "note": "Distinct names for all lists; the names of Python for ASCII names that are no soft keywords"
  },
  {
   "property": "C229",
   "status": "partial",
   "theorems": [
    "Verif.NamedTuple.defaults_right",
    "Verif.NamedTuple.options_partial",
    "Verif.NamedTuple.module_violation"
   ],
   "note": "Defaults for all numbers; no error about an argument means that Python accepts it, not the other way round"
  },
  {
   "property": "C23",
   "status": "partial",
   "theorems": [
    "Verif.Config.strict_section_violation",
    "Verif.Config.good_sections_partial"
   ],
   "note": "Every section with a strict key panics, after the strict flags were set."
  },
  {
   "property": "C230",
   "status": "partial",
   "theorems": [
    "Verif.NamedTuple.class_partial",
    "Verif.NamedTuple.class_twice_violation"
   ],
   "note": "Classes whose fields have different names; a name annotated twice gives two fields"
  },
  {
   "property": "C231",
   "status": "partial",
   "theorems": [
    "Verif.Tree.hints_complete_partial",
    "Verif.Tree.hints_sound",
    "Verif.Tree.hints_violation"
   ],
   "note": "Every node that begins in the range is found and every node found overlaps the range; nodes that begin before the range are missed"
  },
  {
   "property": "C232",
   "status": "proved",
   "theorems": [
    "Verif.Tree.fold_block",
    "Verif.Tree.fold_match",
    "Verif.Tree.fold_only",
    "Verif.Tree.fold_nested"
   ],
   "note": "Blocks and match statements that have a leaf that is no dedent, which the grammar guarantees (a block that is folded begins with a line end)"
  },
  {
   "property": "C233",
   "status": "partial",
   "theorems": [
    "Verif.Super.two_arguments_partial",
    "Verif.Super.tuple_violation",
    "Verif.Super.constraints_violation",
    "Verif.Super.bound_violation",
    "Verif.Super.dataclass_violation",
    "Verif.Super.any_violation"
   ],
   "note": "Proved for instances and class objects of ordinary classes, literals and self. Missing: MROs with tuples and constrained type variables panic, bounds of type variables and dataclass instances give wrong errors, and with Any as second argument the first one is ignored."
  },
  {
   "property": "C234",
   "status": "proved",
   "theorems": [
    "Verif.Super.no_arguments"
   ],
   "note": ""
  },
  {
   "property": "C235",
   "status": "proved",
   "theorems": [
    "Verif.Super.arguments_shape"
   ],
   "note": ""
  },
  {
   "property": "C236",
   "status": "partial",
   "theorems": [
    "Verif.ClassInfo.accepted_iff_partial",
    "Verif.ClassInfo.none_in_tuple_violation",
    "Verif.ClassInfo.alias_violation",
    "Verif.ClassInfo.tuple_operand_violation"
   ],
   "note": "Accepted exactly if Python accepts or one of three named deviations is used: None in a tuple, a tuple as operand of |, an alias for a union whose members cannot be tested for."
  },
  {
   "property": "C237",
   "status": "proved",
   "theorems": [
    "Verif.ClassInfo.correct_accepted"
   ],
   "note": ""
  },
  {
   "property": "C238",
   "status": "proved",
   "theorems": [
    "Verif.ClassInfo.narrowed_iff"
   ],
   "note": "Members of unions are not simplified in the model."
  },
  {
   "property": "C239",
   "status": "proved",
   "theorems": [
    "Verif.Fixtures.modules_in_order"
   ],
   "note": ""
  },
  {
   "property": "C24",
   "status": "proved",
   "theorems": [
    "Verif.Config.set_flag_key",
    "Verif.Config.allow_disallow",
    "Verif.Config.set_flag_other"
   ],
   "note": ""
  },
  {
   "property": "C240",
   "status": "partial",
   "theorems": [
    "Verif.Fixtures.fixture_first",
    "Verif.Fixtures.not_itself_partial",
    "Verif.Fixtures.itself_violation",
    "Verif.Fixtures.own_plugins_violation"
   ],
   "note": "The first fixture in the order is taken. A fixture does not stand for itself unless its file is a plugin or a module of pytest; for plugins this is violated. The plugins of a conftest are not searched from the conftest itself."
  },
  {
   "property": "C241",
   "status": "partial",
   "theorems": [
    "Verif.Fixtures.offered_iff_partial",
    "Verif.Fixtures.offered_violation"
   ],
   "note": "Proved except for the name of the function itself in files that are also plugins, where it is violated."
  },
  {
   "property": "C242",
   "status": "proved",
   "theorems": [
    "Verif.Venv.environment_priority"
   ],
   "note": ""
  },
  {
   "property": "C243",
   "status": "partial",
   "theorems": [
    "Verif.Venv.listing_order_partial",
    "Verif.Venv.listing_order_violation"
   ],
   "note": "Proved if no two environments of a directory have the same rank; otherwise violated."
  },
  {
   "property": "C244",
   "status": "proved",
   "theorems": [
    "Verif.Venv.version_kept"
   ],
   "note": ""
  },
  {
   "property": "C245",
   "status": "partial",
   "theorems": [
    "Verif.Venv.path_variables_partial",
    "Verif.Venv.empty_violation",
    "Verif.Venv.windows_violation"
   ],
   "note": "Missing: an empty variable adds the base directory, and on Windows paths are split after the drive."
  },
  {
   "property": "C246",
   "status": "partial",
   "theorems": [
    "Verif.SysPath.include_partial",
    "Verif.SysPath.include_violation"
   ],
   "note": "Proved for one line with the usual name and no white space around the value. With a blank before the value, as Python writes it, the code is wrong."
  },
  {
   "property": "C247",
   "status": "partial",
   "theorems": [
    "Verif.SysPath.library_partial",
    "Verif.SysPath.library_violation"
   ],
   "note": "The priorities are proved; that the directory is a library is violated, because os.py is not looked for."
  },
  {
   "property": "C248",
   "status": "proved",
   "theorems": [
    "Verif.SysPath.site_packages"
   ],
   "note": ""
  },
  {
   "property": "C249",
   "status": "partial",
   "theorems": [
    "Verif.TypingCalls.cast_accepted_iff",
    "Verif.TypingCalls.cast_result_partial",
    "Verif.TypingCalls.cast_result_violation"
   ],
   "note": "cast(*(), int, x) silently has the type Any (witness proved); otherwise the result is the given type"
  },
  {
   "property": "C25",
   "status": "partial",
   "theorems": [
    "Verif.Config.discovery_partial",
    "Verif.Config.discovery_violation"
   ],
   "note": "A setup.cfg without a mypy section beside a pyproject.toml changes the mode."
  },
  {
   "property": "C250",
   "status": "proved",
   "theorems": [
    "Verif.TypingCalls.reveal_one",
    "Verif.TypingCalls.reveal_comprehension",
    "Verif.TypingCalls.reveal_only",
    "Verif.TypingCalls.reveal_reports_once"
   ],
   "note": "inference of expressions is a parameter"
  },
  {
   "property": "C251",
   "status": "proved",
   "theorems": [
    "Verif.TypingCalls.assertType_two",
    "Verif.TypingCalls.assertType_silent"
   ],
   "note": "equality of types is a parameter"
  },
  {
   "property": "C26",
   "status": "partial",
   "theorems": [
    "Verif.Config.gate_monotone_partial",
    "Verif.Config.gate_monotone_violation",
    "Verif.Config.version_patch",
    "Verif.Config.version_of_string"
   ],
   "note": "Fails for major version 4."
  },
  {
   "property": "C27",
   "status": "proved",
   "theorems": [
    "Verif.Server.request_reply",
    "Verif.Server.expected_unique",
    "Verif.Server.shutdown_refuses",
    "Verif.Server.other_message",
    "Verif.Server.one_response_each"
   ],
   "note": "Handlers are arbitrary functions that may fail or panic."
  },
  {
   "property": "C28",
   "status": "partial",
   "theorems": [
    "Verif.Vfs.recovery_partial",
    "Verif.Vfs.recovery_announces",
    "Verif.Vfs.recovery_runs",
    "Verif.Vfs.parse_panic_violation",
    "Verif.Vfs.watch_error_violation",
    "Verif.Vfs.unread_report_violation",
    "Verif.Vfs.recovery_panic_violation"
   ],
   "note": "All histories with panics and configuration changes keep every open document, unless parsing its latest text panicked; the code loses documents when parsing panics, on errors of the watcher, keeps stale texts whose report was not read, and panics again when the directory of an open document became a file."
  },
  {
   "property": "C29",
   "status": "partial",
   "theorems": [
    "Verif.Server.panic_reported_partial",
    "Verif.Server.not_shown_without_panic",
    "Verif.Server.panic_reported_violation"
   ],
   "note": "Only the first panic of the server is shown: the hook is taken out of its cell and never put back."
  },
  {
   "property": "C30",
   "status": "proved",
   "theorems": [
    "Verif.Server.negotiation",
    "Verif.Server.announced_positions",
    "Verif.Server.width_units"
   ],
   "note": ""
  },
  {
   "property": "C31",
   "status": "proved",
   "theorems": [
    "Verif.Server.tokens_decode"
   ],
   "note": ""
  },
  {
   "property": "C32",
   "status": "partial",
   "theorems": [
    "Verif.Server.completion_order_partial",
    "Verif.Server.completion_order_violation"
   ],
   "note": "Up to 1048576 completions; beyond that the five digit sort text is too short."
  },
  {
   "property": "C33",
   "status": "partial",
   "theorems": [
    "Verif.Server.Notebook.linked_partial",
    "Verif.Server.Notebook.linked_violation",
    "Verif.Server.Notebook.remove_violation",
    "Verif.Server.Notebook.move_violation",
    "Verif.Server.Notebook.recover_violation"
   ],
   "note": "Holds for changes at the end of a notebook; a cell after an inserted or removed one becomes its own predecessor."
  },
  {
   "property": "C34",
   "status": "partial",
   "theorems": [
    "Verif.Server.goto_places_partial",
    "Verif.Server.links_violation"
   ],
   "note": "The places are right; the kind of answer is exactly the wrong one for the client's capability."
  },
  {
   "property": "C35",
   "status": "partial",
   "theorems": [
    "Verif.Server.workspace_symbols_partial",
    "Verif.Server.workspace_symbols_violation"
   ],
   "note": "Members of classes whose own name does not match and of enums are missing."
  },
  {
   "property": "C36",
   "status": "partial",
   "theorems": [
    "Verif.Server.rename_module_partial",
    "Verif.Server.rename_package_violation"
   ],
   "note": "Modules are renamed correctly, packages are not."
  },
  {
   "property": "C37",
   "status": "partial",
   "theorems": [
    "Verif.Server.summary_partial",
    "Verif.Server.summary_violation",
    "Verif.Server.summary_files_violation"
   ],
   "note": "False for reports with notes."
  },
  {
   "property": "C38",
   "status": "proved",
   "theorems": [
    "Verif.Tuple.index_fixed",
    "Verif.Tuple.index_sound",
    "Verif.Tuple.index_error_variadic"
   ],
   "note": "All tuple types, all integer indices, all run-time values; type lengths at most usize::MAX."
  },
  {
   "property": "C39",
   "status": "proved",
   "theorems": [
    "Verif.Tuple.slice_fixed"
   ],
   "note": "All bounds and steps; element types at most usize::MAX."
  },
  {
   "property": "C40",
   "status": "partial",
   "theorems": [
    "Verif.Tuple.slice_sound_partial",
    "Verif.Tuple.slice_variadic_start_violation",
    "Verif.Tuple.slice_variadic_stop_violation",
    "Verif.Tuple.slice_variadic_reverse_violation"
   ],
   "note": "The code violates the property for some backward slices; proved for all others (SliceFine)."
  },
  {
   "property": "C41",
   "status": "partial",
   "theorems": [
    "Verif.Tuple.add_sound",
    "Verif.Tuple.mul_sound",
    "Verif.Tuple.gather_sound",
    "Verif.Tuple.add_before_and_after_sound_partial",
    "Verif.Tuple.add_before_and_after_violation"
   ],
   "note": "Concatenation, repetition and displays are sound; nested unpacking with two suffixes swaps them (violation)."
  },
  {
   "property": "C42",
   "status": "partial",
   "theorems": [
    "Verif.Mro.python_accepts",
    "Verif.Mro.order_partial",
    "Verif.Mro.two_bases_partial",
    "Verif.Mro.program_partial",
    "Verif.Mro.order_violation",
    "Verif.Mro.accepted_violation"
   ],
   "note": "Everything Python accepts is accepted; with at most two bases per class whole programs get exactly Python's orders and errors. With three bases the property is false of the code: the order may differ (order_violation) and wrong classes are accepted (accepted_violation)."
  },
  {
   "property": "C43",
   "status": "partial",
   "theorems": [
    "Verif.Mro.complete_order_partial",
    "Verif.Mro.no_repetition",
    "Verif.Mro.missing_violation"
   ],
   "note": "No repetitions for any bases; complete and order preserving when linearizable. When not linearizable ancestors are lost (missing_violation)."
  },
  {
   "property": "C44",
   "status": "partial",
   "theorems": [
    "Verif.Union.simplify_sem",
    "Verif.Union.simplify_stems",
    "Verif.Union.simplify_antichain_partial",
    "Verif.Union.simplify_fixed",
    "Verif.Union.simplify_sorted",
    "Verif.Union.formatIndex_lt",
    "Verif.Union.simplify_literal_violation",
    "Verif.Union.simplify_unknown_violation"
   ],
   "note": "nothing lost or added for all meanings of types; irredundancy fails for literals and for unknown type parameters and is proved without them"
  },
  {
   "property": "C45",
   "status": "partial",
   "theorems": [
    "Verif.Match.and_bool",
    "Verif.Match.and_monoid",
    "Verif.Match.and_reason",
    "Verif.Match.and_similar",
    "Verif.Match.all_eq",
    "Verif.Match.any_partial",
    "Verif.Match.any_failure",
    "Verif.Match.any_violation",
    "Verif.Match.or_bool",
    "Verif.Match.similarIfFalse_bool"
   ],
   "note": "disjunction of no results succeeds; everything else holds"
  },
  {
   "property": "C46",
   "status": "partial",
   "theorems": [
    "Verif.Ignore.region_exact",
    "Verif.Ignore.suppressed_iff_partial",
    "Verif.Ignore.not_covered_note",
    "Verif.Ignore.string_literal_violation"
   ],
   "note": "Exact characterisation of suppression in terms of comments of the lines; the code takes # inside string literals for a comment, proved as a violation."
  },
  {
   "property": "C47",
   "status": "partial",
   "theorems": [
    "Verif.Point.stored",
    "Verif.Point.with_global",
    "Verif.Point.with_flow",
    "Verif.Point.with_node",
    "Verif.Point.checked",
    "Verif.Point.complex_fits",
    "Verif.Point.not_stored",
    "Verif.Point.partial_flags_partial",
    "Verif.Point.partial_flags_violation",
    "Verif.Point.redirect_violation",
    "Verif.Point.get_set"
   ],
   "note": "the finished flag of partial types cannot be cleared; file indices must be below 2^23"
  },
  {
   "property": "C48",
   "status": "partial",
   "theorems": [
    "Verif.Tree.selection_nested_partial",
    "Verif.Tree.selection_nested_violation"
   ],
   "note": "Fails for files that mix line feeds and lone carriage returns; proved when every nested statement is on a line of its own."
  },
  {
   "property": "C49",
   "status": "proved",
   "theorems": [
    "Verif.Config.split_list",
    "Verif.Config.set_flag_list",
    "Verif.Config.set_flag_exclude"
   ],
   "note": ""
  },
  {
   "property": "C50",
   "status": "proved",
   "theorems": [
    "Verif.Strings.concatenation_value",
    "Verif.Strings.union_algebra"
   ],
   "note": ""
  },
  {
   "property": "C51",
   "status": "partial",
   "theorems": [
    "Verif.Lines.rejected_batch_violation",
    "Verif.Lines.rejected_batch_partial"
   ],
   "note": "Violated by a full replacement followed by an invalid ranged change when the line table was not computed; proved for batches without that mix."
  },
  {
   "property": "C52",
   "status": "partial",
   "theorems": [
    "Verif.Config.directives_partial",
    "Verif.Config.directive_no_panic_partial",
    "Verif.Config.directives_violation"
   ],
   "note": "Three comments crash; well-formed comments are split correctly."
  },
  {
   "property": "C53",
   "status": "partial",
   "theorems": [
    "Verif.Config.ignore_missing_partial",
    "Verif.Config.ignore_missing_violation"
   ],
   "note": "Any applicable section that says so silences, regardless of priority."
  },
  {
   "property": "C54",
   "status": "partial",
   "theorems": [
    "Verif.Config.bad_entry_panics",
    "Verif.Config.good_sections_partial",
    "Verif.Config.bad_entry_violation"
   ],
   "note": "Exactly the bad entries panic."
  },
  {
   "property": "C55",
   "status": "partial",
   "theorems": [
    "Verif.Config.explicit_partial",
    "Verif.Config.explicit_violation"
   ],
   "note": "Fails for setup.cfg."
  },
  {
   "property": "C56",
   "status": "proved",
   "theorems": [
    "Verif.Lines.expand_full_lines"
   ],
   "note": "For every pair of places in a text."
  },
  {
   "property": "C57",
   "status": "proved",
   "theorems": [
    "Verif.Mro.ancestors_ordered",
    "Verif.Mro.no_repetition"
   ],
   "note": "By induction over the class statements."
  },
  {
   "property": "C58",
   "status": "partial",
   "theorems": [
    "Verif.Strings.bytes_value_partial",
    "Verif.Strings.bytes_value_violation"
   ],
   "note": "bodies without carriage returns; line endings of the source are not converted"
  },
  {
   "property": "C59",
   "status": "proved",
   "theorems": [
    "Verif.Tree.search_all",
    "Verif.Tree.search_outermost",
    "Verif.Tree.search_file"
   ],
   "note": "search_panic shows that the hypothesis about the end of the file is needed."
  },
  {
   "property": "C60",
   "status": "proved",
   "theorems": [
    "Verif.Tree.build"
   ],
   "note": "Without lookaheads, alternatives and error recovery."
  },
  {
   "property": "C61",
   "status": "proved",
   "theorems": [
    "Verif.Point.reset_backup",
    "Verif.Point.backup_some"
   ],
   "note": ""
  },
  {
   "property": "C62",
   "status": "proved",
   "theorems": [
    "Verif.Point.invalidated",
    "Verif.Point.invalidated_uncalculated",
    "Verif.Point.invalidated_full"
   ],
   "note": "the cache of one file; which files are invalidated is C15"
  },
  {
   "property": "C63",
   "status": "partial",
   "theorems": [
    "Verif.Ignore.fix_existing_partial",
    "Verif.Ignore.fix_existing_violation",
    "Verif.Ignore.fix_new_partial",
    "Verif.Ignore.fix_new_violation"
   ],
   "note": "Holds when only spaces surround the insertion; false with tabs."
  },
  {
   "property": "C64",
   "status": "proved",
   "theorems": [
    "Verif.Ignore.ignore_file",
    "Verif.Ignore.inline_directives"
   ],
   "note": "Exact characterisation by decompositions of the text."
  },
  {
   "property": "C65",
   "status": "partial",
   "theorems": [
    "Verif.Server.survives_partial",
    "Verif.Server.panic_recovers",
    "Verif.Server.notification_recovers",
    "Verif.Server.survives_violation"
   ],
   "note": "False for panics while publishing diagnostics or handling file watcher events."
  },
  {
   "property": "C66",
   "status": "partial",
   "theorems": [
    "Verif.Server.token_length_partial",
    "Verif.Server.token_length_violation"
   ],
   "note": "Holds for ASCII names."
  },
  {
   "property": "C67",
   "status": "proved",
   "theorems": [
    "Verif.Server.outline_same",
    "Verif.Server.outline_complete"
   ],
   "note": ""
  },
  {
   "property": "C68",
   "status": "proved",
   "theorems": [
    "Verif.Paths.relative_leads",
    "Verif.Paths.relative_inside"
   ],
   "note": ""
  },
  {
   "property": "C69",
   "status": "partial",
   "theorems": [
    "Verif.Tokenizer.tokenizer_ends_partial",
    "Verif.Tokenizer.ordinary_code_tokenized",
    "Verif.Tokenizer.character_boundary_violation"
   ],
   "note": "No panic, termination, uniqueness and the end marker for all texts. False for some texts with a blank continued line before a comment with non-ASCII characters (index inside of a character)."
  },
  {
   "property": "C70",
   "status": "partial",
   "theorems": [
    "Verif.Tokenizer.tokens_in_order_partial",
    "Verif.Tokenizer.comment_tokens_violation"
   ],
   "note": "For all texts without a blank line that is continued, with the number of open brackets on lines without f-strings; false with blank continued lines (comments are tokenized)."
  },
  {
   "property": "C71",
   "status": "partial",
   "theorems": [
    "Verif.Tokenizer.blocks_follow_columns_partial",
    "Verif.Tokenizer.break_keyword_violation",
    "Verif.Tokenizer.form_feed_violation"
   ],
   "note": "For all texts without a blank line that is continued. A keyword that ends an open bracket closes at most one block; a form feed counts as a column."
  },
  {
   "property": "C72",
   "status": "proved",
   "theorems": [
    "Verif.Tokenizer.operators_longest"
   ],
   "note": "The regular expression is modelled with the preferences of the regex crate."
  },
  {
   "property": "C73",
   "status": "proved",
   "theorems": [
    "Verif.Tokenizer.literals_exact",
    "Verif.Tokenizer.string_literals",
    "Verif.Tokenizer.bytes_literals"
   ],
   "note": "Exact characterisation by the lexical grammar, for all texts."
  },
  {
   "property": "C74",
   "status": "partial",
   "theorems": [
    "Verif.Tokenizer.fstring_text_partial",
    "Verif.Tokenizer.crlf_continuation_violation",
    "Verif.Tokenizer.raw_name_violation",
    "Verif.Tokenizer.character_name_violation",
    "Verif.Tokenizer.nested_quote_violation"
   ],
   "note": "For f-strings that are not inside of another f-string, without names of characters and without CRLF continuations; false in these cases."
  },
  {
   "property": "C75",
   "status": "partial",
   "theorems": [
    "Verif.Tokenizer.format_specification_partial",
    "Verif.Tokenizer.colon_in_brackets",
    "Verif.Tokenizer.blank_before_colon_violation",
    "Verif.Tokenizer.second_specification_violation"
   ],
   "note": "If the colon follows directly and no other specification came before at that depth; false otherwise."
  },
  {
   "property": "C76",
   "status": "partial",
   "theorems": [
    "Verif.Call.accepted_call_binds",
    "Verif.Call.accepted_call_fills_partial",
    "Verif.Call.call_accepted_iff",
    "Verif.Call.repeated_argument_violation"
   ],
   "note": "One direction, and both without **kwargs. With **kwargs an argument that is given twice is accepted, which Python refuses."
  },
  {
   "property": "C77",
   "status": "partial",
   "theorems": [
    "Verif.Call.every_value_compared_partial",
    "Verif.Call.star_and_double_violation",
    "Verif.Call.second_double_violation",
    "Verif.Call.second_star_violation",
    "Verif.Call.named_after_star_violation"
   ],
   "note": "Proved for orderly calls that do not mix an unknown * with names it could cover; false for the others, with four examples."
  },
  {
   "property": "C78",
   "status": "partial",
   "theorems": [
    "Verif.Call.accepted_call_can_succeed_partial",
    "Verif.Call.accepted_call_succeeds_partial",
    "Verif.Call.repeated_argument_violation"
   ],
   "note": "Proved for orderly calls, except for arguments given twice that are swallowed by **kwargs, which is a violation."
  },
  {
   "property": "C79",
   "status": "partial",
   "theorems": [
    "Verif.Call.possible_call_accepted_partial",
    "Verif.Call.double_before_named_violation",
    "Verif.Call.named_after_star_refused_violation"
   ],
   "note": "Proved for orderly calls without a * of unknown length; false for the others."
  },
  {
   "property": "C80",
   "status": "proved",
   "theorems": [
    "Verif.Call.refused_iff_reported",
    "Verif.Call.unused_arguments_have_names",
    "Verif.Call.reports_are_true"
   ],
   "note": "The first two for all lists of arguments, the last one for grammatical calls with known arguments."
  },
  {
   "property": "C81",
   "status": "partial",
   "theorems": [
    "Verif.Callable.accepted_function_usable_partial",
    "Verif.Callable.accepted_positional_function_usable",
    "Verif.Callable.default_not_kept_violation",
    "Verif.Callable.passed_over_violation",
    "Verif.Callable.passed_over_by_double_violation",
    "Verif.Callable.positional_name_violation",
    "Verif.Callable.only_star_compared_violation",
    "Verif.Callable.star_not_any_violation"
   ],
   "note": "False in general: six violations. Holds without conditions for positional parameters; otherwise if defaults of keyword-only parameters are kept, keyword-only parameters come in the same order when there is **kwargs, and no positional-only parameter stands against a name that is taken. ParamSpec, TypeVarTuple and Unpack are not modelled."
  },
  {
   "property": "C82",
   "status": "proved",
   "theorems": [
    "Verif.Callable.function_accepted_for_itself"
   ],
   "note": "For every signature whose types are accepted in place of themselves."
  },
  {
   "property": "C83",
   "status": "partial",
   "theorems": [
    "Verif.Callable.keyword_order_irrelevant_partial",
    "Verif.Callable.default_order_violation",
    "Verif.Callable.double_order_violation",
    "Verif.Callable.double_used_up_violation"
   ],
   "note": "False with defaults on some of the parameters, and with **kwargs; proved otherwise."
  },
  {
   "property": "C84",
   "status": "proved",
   "theorems": [
    "Verif.Callable.callable_type_exact"
   ],
   "note": "Exact, for an arbitrary comparison of types."
  },
  {
   "property": "C85",
   "status": "proved",
   "theorems": [
    "Verif.Flow.straight_types_true"
   ],
   "note": "For all programs of that form whose keys are not below one another, over any sound operations on types."
  },
  {
   "property": "C86",
   "status": "partial",
   "theorems": [
    "Verif.Flow.loop_types_true_partial",
    "Verif.Flow.Instance.loop_round_violation",
    "Verif.Flow.Instance.loop_break_violation",
    "Verif.Flow.Instance.masked_break_violation"
   ],
   "note": "The code violates the property: a loop body is analysed once with what was known at its start. Proved when the keys assigned in a loop are not narrowed at its start and no test of them surrounds a break."
  },
  {
   "property": "C87",
   "status": "partial",
   "theorems": [
    "Verif.Flow.types_true_partial",
    "Verif.Flow.Instance.try_else_violation",
    "Verif.Flow.Instance.try_finally_violation",
    "Verif.Flow.Instance.try_handler_violation"
   ],
   "note": "The code violates the property for else and finally blocks and for tests in the try block. Proved for try with handlers and with statements when what is noted for the handlers has room for what was known before."
  },
  {
   "property": "C88",
   "status": "partial",
   "theorems": [
    "Verif.Flow.body_types_true_partial",
    "Verif.Flow.straight_body_types_true_partial",
    "Verif.Flow.straight_types_true",
    "Verif.Flow.Instance.child_branches_violation",
    "Verif.Flow.Instance.child_walrus_violation"
   ],
   "note": "The code violates the property for assignments in branches and for :=. Proved for assignments at the level of the function body to any keys, and for statements that assign keys without others below them."
  },
  {
   "property": "C89",
   "status": "partial",
   "theorems": [
    "Verif.Flow.body_types_true_partial",
    "Verif.Flow.straight_body_types_true_partial",
    "Verif.Flow.Instance.walrus_and_violation",
    "Verif.Flow.Instance.walrus_if_violation"
   ],
   "note": "The code violates the property for names bound before and below and/or. Proved for if (n := e) in the body of a function, for names not used before."
  },
  {
   "property": "C90",
   "status": "partial",
   "theorems": [
    "Verif.Flow.straight_types_true",
    "Verif.Flow.types_true_partial",
    "Verif.Flow.Instance.deleted_name_violation",
    "Verif.Flow.Instance.untyped_violation"
   ],
   "note": "The code violates the property. Proved for names that were assigned at the start of the function."
  },
  {
   "property": "C91",
   "status": "partial",
   "theorems": [
    "Verif.Flow.end_true_partial",
    "Verif.Flow.straight_end_true_partial",
    "Verif.Flow.Instance.end_of_loop_violation",
    "Verif.Flow.body_end_true_partial"
   ],
   "note": "The code violates the property for loops. Proved for programs without loops, try and with, and for others under the conditions of C86 and C87."
  },
  {
   "property": "C92",
   "status": "proved",
   "theorems": [
    "Verif.Flow.stacks_balanced",
    "Verif.Flow.nested_block_reads_same"
   ],
   "note": "For all programs and states of the model."
  },
  {
   "property": "C93",
   "status": "partial",
   "theorems": [
    "Verif.Flow.only_what_occurs_partial",
    "Verif.Flow.Instance.copied_name_violation"
   ],
   "note": "Proved for programs without loops, try, with and del, with conditions about values that have no name. With tests of names it is false: a test says nothing about a copy of the name."
  },
  {
   "property": "C94",
   "status": "partial",
   "theorems": [
    "Verif.Sub.accepted_within_partial",
    "Verif.Sub.same_values_partial",
    "Verif.Sub.unpack_length_violation",
    "Verif.Sub.invariant_unpack_violation",
    "Verif.Sub.invariant_fixed_violation",
    "Verif.Sub.invariant_dataclass_violation",
    "Verif.Sub.invariant_type_violation",
    "Verif.Sub.invariant_metaclass_violation",
    "Verif.Sub.no_strict_optional_violation",
    "Verif.Sub.Instance.lawful",
    "Verif.Sub.Instance.tame"
   ],
   "note": "Proved for strict optional, known base classes, tuples with *tuple[..] of one shape, and no type[..], such tuples or variant dataclasses below invariant parameters; the excluded cases are violations. Type variables, callables and protocols are not covered: protocol comparison is a parameter that is assumed right."
  },
  {
   "property": "C95",
   "status": "partial",
   "theorems": [
    "Verif.Sub.ends_partial",
    "Verif.Sub.answer_unique",
    "Verif.Sub.not_accepted_and_rejected",
    "Verif.Sub.endless_violation"
   ],
   "note": "Ends when no type argument of a base class is higher than the class itself plus one, which allows class str(Sequence[str]); a class with base N[N[C]] for a contravariant N is compared for ever. The answer is unique for all types."
  },
  {
   "property": "C96",
   "status": "partial",
   "theorems": [
    "Verif.Sub.reflexive_partial",
    "Verif.Sub.newtype_type_violation"
   ],
   "note": "Proved for all types without type variables and without type[NewType]; type[NewType] cannot be assigned to itself."
  },
  {
   "property": "C97",
   "status": "proved",
   "theorems": [
    "Verif.Sub.any_never_accepted",
    "Verif.Sub.object_accepts_all"
   ],
   "note": "For the types of the model."
  },
  {
   "property": "C98",
   "status": "partial",
   "theorems": [
    "Verif.Sub.union_member_partial",
    "Verif.Sub.union_of_members_partial",
    "Verif.Sub.union_of_members_violation"
   ],
   "note": "Where the comparison ends. The second part is for members other than Any, Never and NewTypes with strict optional; it is wrong for a NewType of bool and a union with both boolean literals."
  },
  {
   "property": "C99",
   "status": "partial",
   "theorems": [
    "Verif.Sub.common_base_upper_partial",
    "Verif.Sub.common_base_items_partial",
    "Verif.Sub.joins_plainUnion",
    "Verif.Sub.Instance.common_base_violation"
   ],
   "note": "Proved for types without Any whose invariant parameters are compared rightly (Good), for every way to form unions that has room for both parts. False for list[Box[float]] and list[Box[int]] with a dataclass Box that is covariant."
  }
 ]
}
