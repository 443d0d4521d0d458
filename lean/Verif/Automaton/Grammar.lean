import Verif.Automaton.Props

/-
The rules of the Python grammar that use no lookahead, transcribed from
`crates/parsa_python/src/lib.rs` lines 23-437 (135 of 149 rules; the comment at each rule is its
first line).  Left out, because they use `!` or `&`:
`param_no_default`, `except_expression`, `subject_expr`, `case_block`, `or_pattern`,
`pattern_capture_target`, `param_patterns`, `named_expression`, `slices`,
`lambda_param_no_default`, `arguments`, `star_target`, `single_target`, `t_primary`.
-/

namespace Verif.Automaton

/-- The terminals of the tokenizer (parsa_python/src/tokenizer.rs 83-88) and the rules of the
grammar. -/
def pythonNames : Names where
  terminals := ["Name", "Operator", "String", "Bytes", "Number", "Endmarker", "Newline",
    "ErrorToken", "Indent", "Dedent", "ErrorDedent", "FStringStart", "FStringString",
    "FStringEnd", "NeverMatch"]
  nonterminals := [
    "file", "stmt", "simple_stmts", "simple_stmt", "async_stmt", "broken_scope", "assignment",
    "augassign", "return_stmt", "raise_stmt", "global_stmt", "nonlocal_stmt", "del_stmt",
    "assert_stmt", "pass_stmt", "break_stmt", "continue_stmt", "import_name", "import_from",
    "import_from_targets", "import_from_as_name", "dotted_as_names", "dotted_as_name",
    "dotted_import_name", "block", "decorators", "decorator", "decorated", "class_def",
    "async_function_def", "function_def", "return_annotation", "function_def_parameters",
    "parameters", "star_etc", "param_no_default", "param_with_default", "param_maybe_default",
    "starred_param", "double_starred_param", "annotation", "star_annotation", "if_stmt",
    "else_block", "while_stmt", "for_stmt", "with_stmt", "with_items", "with_item", "try_stmt",
    "except_block", "except_star_block", "except_expression", "finally_block", "match_stmt",
    "subject_expr", "case_block", "guard", "pattern", "or_pattern", "literal_pattern",
    "complex_number", "signed_number", "pattern_capture_target", "wildcard_pattern",
    "group_pattern", "sequence_pattern", "open_sequence_pattern", "star_pattern",
    "mapping_pattern", "key_value_pattern", "double_star_pattern", "class_pattern",
    "param_patterns", "keyword_pattern", "dotted_pattern_name", "type_alias", "type_params",
    "type_param", "type_param_bound", "type_param_default", "type_param_starred_default",
    "expressions", "expression", "ternary", "yield_expr", "yield_from", "star_expressions",
    "star_expression", "star_named_expressions", "star_named_expression", "named_expression",
    "walrus", "disjunction", "conjunction", "inversion", "comparison", "comp_op", "bitwise_or",
    "bitwise_xor", "bitwise_and", "shift_expr", "sum", "term", "factor", "power",
    "await_primary", "primary", "slices", "slice", "atom", "lambda", "lambda_parameters",
    "lambda_star_etc", "lambda_param_no_default", "lambda_param_with_default",
    "lambda_param_maybe_default", "lambda_starred_param", "lambda_double_starred_param",
    "fstring", "fstring_content", "fstring_conversion", "fstring_expr", "fstring_format_spec",
    "strings", "bytes", "tuple_content", "dict_content", "dict_starred", "dict_key_value",
    "comprehension", "for_if_clauses", "async_for_if_clause", "sync_for_if_clause", "comp_if",
    "dict_comprehension", "arguments", "kwargs", "starred_expression",
    "double_starred_expression", "kwarg", "star_targets", "star_target", "star_target_brackets",
    "single_target", "t_primary", "name_def", "del_targets", "del_t_atom"]

/-- Rules 1 to 15 (parsa_python/src/lib.rs 23-59). -/
def pythonRules0 : List (String × Expr) := [
  -- line 23
  ("file",
    .seq (.star (.name "stmt")) (.name "Endmarker")),
  -- line 27
  ("stmt",
    .alt (.name "simple_stmts") (.alt (.name "Newline") (.alt (.name "if_stmt") (.alt (.name
    "while_stmt") (.alt (.name "for_stmt") (.alt (.name "try_stmt") (.alt (.name "with_stmt")
    (.alt (.name "function_def") (.alt (.name "class_def") (.alt (.name "decorated") (.alt
    (.name "async_stmt") (.alt (.name "match_stmt") (.name "broken_scope"))))))))))))),
  -- line 32
  ("simple_stmts",
    .seq (.name "simple_stmt") (.seq (.star (.seq (.literal ";") (.name "simple_stmt"))) (.seq
    (.opt (.literal ";")) (.name "Newline")))),
  -- line 35
  ("simple_stmt",
    .alt (.name "assignment") (.alt (.name "type_alias") (.alt (.name "star_expressions") (.alt
    (.name "del_stmt") (.alt (.name "pass_stmt") (.alt (.name "import_name") (.alt (.name
    "import_from") (.alt (.name "global_stmt") (.alt (.name "nonlocal_stmt") (.alt (.name
    "assert_stmt") (.alt (.name "break_stmt") (.alt (.name "continue_stmt") (.alt (.name
    "return_stmt") (.alt (.name "raise_stmt") (.name "yield_expr"))))))))))))))),
  -- line 39
  ("async_stmt",
    .seq (.literal "async") (.alt (.name "function_def") (.alt (.name "with_stmt") (.name
    "for_stmt")))),
  -- line 42
  ("broken_scope",
    .seq (.name "Indent") (.seq (.plus (.name "stmt")) (.name "Dedent"))),
  -- line 46
  ("assignment",
    .alt (.seq (.plus (.seq (.name "star_targets") (.literal "="))) (.alt (.name "yield_expr")
    (.name "star_expressions"))) (.alt (.seq (.name "single_target") (.seq (.name "annotation")
    (.opt (.seq (.literal "=") (.alt (.name "yield_expr") (.name "star_expressions")))))) (.seq
    (.name "single_target") (.seq (.name "augassign") (.alt (.name "yield_expr") (.name
    "star_expressions")))))),
  -- line 51
  ("augassign",
    .alt (.literal "+=") (.alt (.literal "-=") (.alt (.literal "*=") (.alt (.literal "@=") (.alt
    (.literal "/=") (.alt (.literal "%=") (.alt (.literal "&=") (.alt (.literal "|=") (.alt
    (.literal "^=") (.alt (.literal "<<=") (.alt (.literal ">>=") (.alt (.literal "**=")
    (.literal "//="))))))))))))),
  -- line 53
  ("return_stmt",
    .seq (.literal "return") (.opt (.name "star_expressions"))),
  -- line 54
  ("raise_stmt",
    .seq (.literal "raise") (.opt (.seq (.name "expression") (.opt (.seq (.literal "from")
    (.name "expression")))))),
  -- line 55
  ("global_stmt",
    .seq (.literal "global") (.sepPlus (.literal ",") (.name "name_def"))),
  -- line 56
  ("nonlocal_stmt",
    .seq (.literal "nonlocal") (.sepPlus (.literal ",") (.name "name_def"))),
  -- line 57
  ("del_stmt",
    .seq (.literal "del") (.name "del_targets")),
  -- line 58
  ("assert_stmt",
    .seq (.literal "assert") (.seq (.name "expression") (.opt (.seq (.literal ",") (.name
    "expression"))))),
  -- line 59
  ("pass_stmt",
    .literal "pass")]

/-- Rules 16 to 30 (parsa_python/src/lib.rs 60-95). -/
def pythonRules1 : List (String × Expr) := [
  -- line 60
  ("break_stmt",
    .literal "break"),
  -- line 61
  ("continue_stmt",
    .literal "continue"),
  -- line 65
  ("import_name",
    .seq (.literal "import") (.name "dotted_as_names")),
  -- line 67
  ("import_from",
    .alt (.seq (.literal "from") (.seq (.star (.alt (.literal ".") (.literal "..."))) (.seq
    (.name "dotted_import_name") (.seq (.literal "import") (.name "import_from_targets")))))
    (.seq (.literal "from") (.seq (.plus (.alt (.literal ".") (.literal "..."))) (.seq (.literal
    "import") (.name "import_from_targets"))))),
  -- line 70
  ("import_from_targets",
    .alt (.literal "*") (.alt (.seq (.literal "(") (.seq (.sepPlus (.literal ",") (.name
    "import_from_as_name")) (.seq (.opt (.literal ",")) (.literal ")")))) (.sepPlus (.literal
    ",") (.name "import_from_as_name")))),
  -- line 71
  ("import_from_as_name",
    .alt (.seq (.name "Name") (.seq (.literal "as") (.name "name_def"))) (.name "name_def")),
  -- line 72
  ("dotted_as_names",
    .sepPlus (.literal ",") (.name "dotted_as_name")),
  -- line 73
  ("dotted_as_name",
    .alt (.seq (.name "dotted_import_name") (.seq (.literal "as") (.name "name_def"))) (.seq
    (.name "name_def") (.opt (.seq (.literal ".") (.name "dotted_import_name"))))),
  -- line 74
  ("dotted_import_name",
    .seq (.opt (.seq (.name "dotted_import_name") (.literal "."))) (.name "Name")),
  -- line 82
  ("block",
    .alt (.name "simple_stmts") (.seq (.name "Newline") (.seq (.name "Indent") (.seq (.plus
    (.name "stmt")) (.name "Dedent"))))),
  -- line 83
  ("decorators",
    .plus (.name "decorator")),
  -- line 84
  ("decorator",
    .seq (.literal "@") (.seq (.name "named_expression") (.name "Newline"))),
  -- line 85
  ("decorated",
    .seq (.name "decorators") (.alt (.name "class_def") (.alt (.name "function_def") (.name
    "async_function_def")))),
  -- line 90
  ("class_def",
    .seq (.literal "class") (.seq (.name "name_def") (.seq (.opt (.name "type_params")) (.seq
    (.opt (.seq (.literal "(") (.seq (.opt (.name "arguments")) (.literal ")")))) (.seq
    (.literal ":") (.name "block")))))),
  -- line 95
  ("async_function_def",
    .seq (.literal "async") (.name "function_def"))]

/-- Rules 31 to 45 (parsa_python/src/lib.rs 96-165). -/
def pythonRules2 : List (String × Expr) := [
  -- line 96
  ("function_def",
    .seq (.literal "def") (.seq (.name "name_def") (.seq (.opt (.name "type_params")) (.seq
    (.name "function_def_parameters") (.seq (.opt (.name "return_annotation")) (.seq (.literal
    ":") (.name "block"))))))),
  -- line 97
  ("return_annotation",
    .seq (.literal "->") (.name "expression")),
  -- line 102
  ("function_def_parameters",
    .seq (.literal "(") (.seq (.opt (.name "parameters")) (.literal ")"))),
  -- line 104
  ("parameters",
    .alt (.seq (.sepPlus (.literal ",") (.name "param_no_default")) (.opt (.seq (.literal ",")
    (.opt (.name "star_etc"))))) (.alt (.seq (.sepPlus (.literal ",") (.name
    "param_no_default")) (.seq (.literal ",") (.seq (.literal "/") (.opt (.seq (.literal ",")
    (.opt (.alt (.seq (.sepPlus (.literal ",") (.name "param_no_default")) (.opt (.seq (.literal
    ",") (.opt (.alt (.seq (.sepPlus (.literal ",") (.name "param_with_default")) (.opt (.seq
    (.literal ",") (.opt (.name "star_etc"))))) (.opt (.name "star_etc"))))))) (.name
    "star_etc")))))))) (.alt (.seq (.sepPlus (.literal ",") (.name "param_no_default")) (.seq
    (.literal ",") (.seq (.literal "/") (.opt (.seq (.literal ",") (.opt (.alt (.seq (.sepPlus
    (.literal ",") (.name "param_with_default")) (.opt (.seq (.literal ",") (.opt (.name
    "star_etc"))))) (.name "star_etc")))))))) (.alt (.seq (.sepPlus (.literal ",") (.name
    "param_no_default")) (.seq (.literal ",") (.seq (.sepPlus (.literal ",") (.name
    "param_with_default")) (.alt (.opt (.seq (.literal ",") (.opt (.name "star_etc")))) (.seq
    (.literal ",") (.seq (.literal "/") (.opt (.seq (.literal ",") (.opt (.alt (.seq (.sepPlus
    (.literal ",") (.name "param_with_default")) (.opt (.seq (.literal ",") (.opt (.name
    "star_etc"))))) (.name "star_etc"))))))))))) (.alt (.seq (.sepPlus (.literal ",") (.name
    "param_with_default")) (.seq (.literal ",") (.seq (.literal "/") (.opt (.seq (.literal ",")
    (.opt (.alt (.seq (.sepPlus (.literal ",") (.name "param_with_default")) (.opt (.seq
    (.literal ",") (.opt (.name "star_etc"))))) (.name "star_etc")))))))) (.alt (.seq (.sepPlus
    (.literal ",") (.name "param_with_default")) (.opt (.seq (.literal ",") (.opt (.name
    "star_etc"))))) (.name "star_etc"))))))),
  -- line 139
  ("star_etc",
    .alt (.seq (.name "starred_param") (.seq (.opt (.seq (.literal ",") (.sepPlus (.literal ",")
    (.name "param_maybe_default")))) (.opt (.seq (.literal ",") (.opt (.seq (.name
    "double_starred_param") (.opt (.literal ",")))))))) (.alt (.seq (.literal "*") (.seq
    (.literal ",") (.seq (.sepPlus (.literal ",") (.name "param_maybe_default")) (.opt (.seq
    (.literal ",") (.opt (.seq (.name "double_starred_param") (.opt (.literal ","))))))))) (.seq
    (.name "double_starred_param") (.opt (.literal ","))))),
  -- line 144
  ("param_with_default",
    .seq (.name "name_def") (.seq (.opt (.name "annotation")) (.seq (.literal "=") (.name
    "expression")))),
  -- line 145
  ("param_maybe_default",
    .seq (.name "name_def") (.seq (.opt (.name "annotation")) (.opt (.seq (.literal "=") (.name
    "expression"))))),
  -- line 146
  ("starred_param",
    .seq (.literal "*") (.seq (.name "name_def") (.opt (.name "star_annotation")))),
  -- line 147
  ("double_starred_param",
    .seq (.literal "**") (.seq (.name "name_def") (.opt (.name "annotation")))),
  -- line 148
  ("annotation",
    .seq (.literal ":") (.name "expression")),
  -- line 149
  ("star_annotation",
    .seq (.literal ":") (.alt (.name "star_expression") (.name "expression"))),
  -- line 154
  ("if_stmt",
    .seq (.literal "if") (.seq (.name "named_expression") (.seq (.literal ":") (.seq (.name
    "block") (.seq (.star (.seq (.literal "elif") (.seq (.name "named_expression") (.seq
    (.literal ":") (.name "block"))))) (.opt (.name "else_block"))))))),
  -- line 155
  ("else_block",
    .seq (.literal "else") (.seq (.literal ":") (.name "block"))),
  -- line 160
  ("while_stmt",
    .seq (.literal "while") (.seq (.name "named_expression") (.seq (.literal ":") (.seq (.name
    "block") (.opt (.name "else_block")))))),
  -- line 165
  ("for_stmt",
    .seq (.literal "for") (.seq (.name "star_targets") (.seq (.literal "in") (.seq (.name
    "star_expressions") (.seq (.literal ":") (.seq (.name "block") (.opt (.name
    "else_block"))))))))]

/-- Rules 46 to 60 (parsa_python/src/lib.rs 170-213). -/
def pythonRules3 : List (String × Expr) := [
  -- line 170
  ("with_stmt",
    .seq (.literal "with") (.seq (.name "with_items") (.name "block"))),
  -- line 171
  ("with_items",
    .alt (.seq (.literal "(") (.seq (.sepPlus (.literal ",") (.name "with_item")) (.seq (.opt
    (.literal ",")) (.seq (.literal ")") (.literal ":"))))) (.seq (.sepPlus (.literal ",")
    (.name "with_item")) (.literal ":"))),
  -- line 172
  ("with_item",
    .seq (.name "expression") (.opt (.seq (.literal "as") (.name "star_target")))),
  -- line 177
  ("try_stmt",
    .seq (.literal "try") (.seq (.literal ":") (.seq (.name "block") (.alt (.seq (.alt (.plus
    (.name "except_block")) (.plus (.name "except_star_block"))) (.seq (.opt (.name
    "else_block")) (.opt (.name "finally_block")))) (.name "finally_block"))))),
  -- line 182
  ("except_block",
    .seq (.literal "except") (.seq (.opt (.name "except_expression")) (.seq (.literal ":")
    (.name "block")))),
  -- line 183
  ("except_star_block",
    .seq (.literal "except") (.seq (.literal "*") (.seq (.name "except_expression") (.seq
    (.literal ":") (.name "block"))))),
  -- line 185
  ("finally_block",
    .seq (.literal "finally") (.seq (.literal ":") (.name "block"))),
  -- line 190
  ("match_stmt",
    .seq (.literal "match") (.seq (.name "subject_expr") (.seq (.literal ":") (.seq (.name
    "Newline") (.seq (.name "Indent") (.seq (.plus (.name "case_block")) (.name "Dedent"))))))),
  -- line 195
  ("guard",
    .seq (.literal "if") (.name "named_expression")),
  -- line 197
  ("pattern",
    .seq (.name "or_pattern") (.opt (.seq (.literal "as") (.name "pattern_capture_target")))),
  -- line 204
  ("literal_pattern",
    .alt (.name "complex_number") (.alt (.name "signed_number") (.alt (.name "strings") (.alt
    (.name "bytes") (.alt (.literal "None") (.alt (.literal "True") (.literal "False"))))))),
  -- line 207
  ("complex_number",
    .seq (.name "signed_number") (.seq (.alt (.literal "+") (.literal "-")) (.name "Number"))),
  -- line 208
  ("signed_number",
    .seq (.opt (.literal "-")) (.name "Number")),
  -- line 211
  ("wildcard_pattern",
    .literal "_"),
  -- line 213
  ("group_pattern",
    .seq (.literal "(") (.seq (.name "pattern") (.literal ")")))]

/-- Rules 61 to 75 (parsa_python/src/lib.rs 214-251). -/
def pythonRules4 : List (String × Expr) := [
  -- line 214
  ("sequence_pattern",
    .alt (.seq (.literal "[") (.seq (.opt (.name "open_sequence_pattern")) (.literal "]")))
    (.seq (.literal "(") (.seq (.opt (.name "open_sequence_pattern")) (.literal ")")))),
  -- line 217
  ("open_sequence_pattern",
    .seq (.sepPlus (.literal ",") (.alt (.name "star_pattern") (.name "pattern"))) (.opt
    (.literal ","))),
  -- line 218
  ("star_pattern",
    .seq (.literal "*") (.alt (.name "pattern_capture_target") (.name "wildcard_pattern"))),
  -- line 220
  ("mapping_pattern",
    .alt (.seq (.literal "{") (.seq (.opt (.name "double_star_pattern")) (.literal "}"))) (.seq
    (.literal "{") (.seq (.sepPlus (.literal ",") (.name "key_value_pattern")) (.seq (.opt (.seq
    (.literal ",") (.opt (.name "double_star_pattern")))) (.literal "}"))))),
  -- line 223
  ("key_value_pattern",
    .seq (.alt (.name "literal_pattern") (.name "dotted_pattern_name")) (.seq (.literal ":")
    (.name "pattern"))),
  -- line 224
  ("double_star_pattern",
    .seq (.literal "**") (.seq (.name "pattern_capture_target") (.opt (.literal ",")))),
  -- line 226
  ("class_pattern",
    .seq (.name "dotted_pattern_name") (.seq (.literal "(") (.seq (.opt (.name
    "param_patterns")) (.literal ")")))),
  -- line 230
  ("keyword_pattern",
    .seq (.name "Name") (.seq (.literal "=") (.name "pattern"))),
  -- line 231
  ("dotted_pattern_name",
    .seq (.opt (.seq (.name "dotted_pattern_name") (.literal "."))) (.name "Name")),
  -- line 236
  ("type_alias",
    .seq (.literal "type") (.seq (.name "name_def") (.seq (.opt (.name "type_params")) (.seq
    (.literal "=") (.name "expression"))))),
  -- line 242
  ("type_params",
    .seq (.literal "[") (.seq (.sepPlus (.literal ",") (.name "type_param")) (.seq (.opt
    (.literal ",")) (.literal "]")))),
  -- line 244
  ("type_param",
    .alt (.seq (.name "name_def") (.seq (.opt (.name "type_param_bound")) (.opt (.name
    "type_param_default")))) (.alt (.seq (.literal "*") (.seq (.name "name_def") (.opt (.name
    "type_param_starred_default")))) (.seq (.literal "**") (.seq (.name "name_def") (.opt (.name
    "type_param_default")))))),
  -- line 249
  ("type_param_bound",
    .seq (.literal ":") (.name "expression")),
  -- line 250
  ("type_param_default",
    .seq (.literal "=") (.name "expression")),
  -- line 251
  ("type_param_starred_default",
    .seq (.literal "=") (.alt (.name "expression") (.name "star_expression")))]

/-- Rules 76 to 90 (parsa_python/src/lib.rs 256-279). -/
def pythonRules5 : List (String × Expr) := [
  -- line 256
  ("expressions",
    .seq (.sepPlus (.literal ",") (.name "expression")) (.opt (.literal ","))),
  -- line 257
  ("expression",
    .alt (.name "ternary") (.name "lambda")),
  -- line 258
  ("ternary",
    .seq (.name "disjunction") (.opt (.seq (.literal "if") (.seq (.name "disjunction") (.seq
    (.literal "else") (.name "expression")))))),
  -- line 260
  ("yield_expr",
    .seq (.literal "yield") (.opt (.alt (.name "yield_from") (.name "star_expressions")))),
  -- line 261
  ("yield_from",
    .seq (.literal "from") (.name "expression")),
  -- line 263
  ("star_expressions",
    .seq (.sepPlus (.literal ",") (.alt (.name "expression") (.name "star_expression"))) (.opt
    (.literal ","))),
  -- line 264
  ("star_expression",
    .seq (.literal "*") (.name "bitwise_or")),
  -- line 265
  ("star_named_expressions",
    .seq (.sepPlus (.literal ",") (.name "star_named_expression")) (.opt (.literal ","))),
  -- line 266
  ("star_named_expression",
    .alt (.seq (.literal "*") (.name "disjunction")) (.name "named_expression")),
  -- line 269
  ("walrus",
    .seq (.name "name_def") (.seq (.literal ":=") (.name "expression"))),
  -- line 271
  ("disjunction",
    .seq (.opt (.seq (.name "disjunction") (.literal "or"))) (.name "conjunction")),
  -- line 272
  ("conjunction",
    .seq (.opt (.seq (.name "conjunction") (.literal "and"))) (.name "inversion")),
  -- line 273
  ("inversion",
    .alt (.seq (.literal "not") (.name "inversion")) (.name "comparison")),
  -- line 278
  ("comparison",
    .seq (.name "bitwise_or") (.star (.seq (.name "comp_op") (.name "bitwise_or")))),
  -- line 279
  ("comp_op",
    .alt (.literal "<") (.alt (.literal ">") (.alt (.literal "==") (.alt (.literal ">=") (.alt
    (.literal "<=") (.alt (.literal "!=") (.alt (.literal "in") (.alt (.seq (.literal "not")
    (.literal "in")) (.alt (.literal "is") (.seq (.literal "is") (.literal "not")))))))))))]

/-- Rules 91 to 105 (parsa_python/src/lib.rs 284-355). -/
def pythonRules6 : List (String × Expr) := [
  -- line 284
  ("bitwise_or",
    .seq (.opt (.seq (.name "bitwise_or") (.literal "|"))) (.name "bitwise_xor")),
  -- line 285
  ("bitwise_xor",
    .seq (.opt (.seq (.name "bitwise_xor") (.literal "^"))) (.name "bitwise_and")),
  -- line 286
  ("bitwise_and",
    .seq (.opt (.seq (.name "bitwise_and") (.literal "&"))) (.name "shift_expr")),
  -- line 287
  ("shift_expr",
    .seq (.opt (.seq (.name "shift_expr") (.alt (.literal "<<") (.literal ">>")))) (.name "sum")),
  -- line 292
  ("sum",
    .alt (.seq (.name "sum") (.seq (.alt (.literal "+") (.literal "-")) (.name "term"))) (.name
    "term")),
  -- line 293
  ("term",
    .seq (.opt (.seq (.name "term") (.alt (.literal "*") (.alt (.literal "@") (.alt (.literal
    "/") (.alt (.literal "%") (.literal "//"))))))) (.name "factor")),
  -- line 294
  ("factor",
    .alt (.seq (.alt (.literal "+") (.alt (.literal "-") (.literal "~"))) (.name "factor"))
    (.name "power")),
  -- line 295
  ("power",
    .seq (.name "await_primary") (.opt (.seq (.literal "**") (.name "factor")))),
  -- line 300
  ("await_primary",
    .seq (.opt (.literal "await")) (.name "primary")),
  -- line 301
  ("primary",
    .alt (.seq (.name "primary") (.seq (.literal ".") (.name "Name"))) (.alt (.seq (.name
    "primary") (.seq (.literal "(") (.seq (.opt (.alt (.name "arguments") (.name
    "comprehension"))) (.literal ")")))) (.alt (.seq (.name "primary") (.seq (.literal "[")
    (.seq (.name "slices") (.literal "]")))) (.name "atom")))),
  -- line 307
  ("slice",
    .seq (.opt (.name "expression")) (.seq (.literal ":") (.seq (.opt (.name "expression"))
    (.opt (.seq (.literal ":") (.opt (.name "expression"))))))),
  -- line 308
  ("atom",
    .alt (.seq (.literal "(") (.seq (.opt (.alt (.name "tuple_content") (.alt (.name
    "yield_expr") (.alt (.name "named_expression") (.name "comprehension"))))) (.literal ")")))
    (.alt (.seq (.literal "[") (.seq (.opt (.alt (.name "star_named_expressions") (.name
    "comprehension"))) (.literal "]"))) (.alt (.seq (.literal "{") (.seq (.opt (.alt (.name
    "dict_content") (.alt (.name "star_named_expressions") (.alt (.name "dict_comprehension")
    (.name "comprehension"))))) (.literal "}"))) (.alt (.name "Name") (.alt (.name "Number")
    (.alt (.name "strings") (.alt (.name "bytes") (.alt (.literal "...") (.alt (.literal "None")
    (.alt (.literal "True") (.literal "False"))))))))))),
  -- line 317
  ("lambda",
    .seq (.literal "lambda") (.seq (.opt (.name "lambda_parameters")) (.seq (.literal ":")
    (.name "expression")))),
  -- line 320
  ("lambda_parameters",
    .alt (.seq (.sepPlus (.literal ",") (.name "lambda_param_no_default")) (.opt (.seq (.literal
    ",") (.opt (.name "lambda_star_etc"))))) (.alt (.seq (.sepPlus (.literal ",") (.name
    "lambda_param_no_default")) (.seq (.literal ",") (.seq (.literal "/") (.opt (.seq (.literal
    ",") (.opt (.alt (.seq (.sepPlus (.literal ",") (.name "lambda_param_no_default")) (.opt
    (.seq (.literal ",") (.opt (.alt (.seq (.sepPlus (.literal ",") (.name
    "lambda_param_with_default")) (.opt (.seq (.literal ",") (.opt (.name "lambda_star_etc")))))
    (.opt (.name "lambda_star_etc"))))))) (.name "lambda_star_etc")))))))) (.alt (.seq (.sepPlus
    (.literal ",") (.name "lambda_param_no_default")) (.seq (.literal ",") (.seq (.literal "/")
    (.opt (.seq (.literal ",") (.opt (.alt (.seq (.sepPlus (.literal ",") (.name
    "lambda_param_with_default")) (.opt (.seq (.literal ",") (.opt (.name "lambda_star_etc")))))
    (.name "lambda_star_etc")))))))) (.alt (.seq (.sepPlus (.literal ",") (.name
    "lambda_param_no_default")) (.seq (.literal ",") (.seq (.sepPlus (.literal ",") (.name
    "lambda_param_with_default")) (.alt (.opt (.seq (.literal ",") (.opt (.name
    "lambda_star_etc")))) (.seq (.literal ",") (.seq (.literal "/") (.opt (.seq (.literal ",")
    (.opt (.alt (.seq (.sepPlus (.literal ",") (.name "lambda_param_with_default")) (.opt (.seq
    (.literal ",") (.opt (.name "lambda_star_etc"))))) (.name "lambda_star_etc"))))))))))) (.alt
    (.seq (.sepPlus (.literal ",") (.name "lambda_param_with_default")) (.seq (.literal ",")
    (.seq (.literal "/") (.opt (.seq (.literal ",") (.opt (.alt (.seq (.sepPlus (.literal ",")
    (.name "lambda_param_with_default")) (.opt (.seq (.literal ",") (.opt (.name
    "lambda_star_etc"))))) (.name "lambda_star_etc")))))))) (.alt (.seq (.sepPlus (.literal ",")
    (.name "lambda_param_with_default")) (.opt (.seq (.literal ",") (.opt (.name
    "lambda_star_etc"))))) (.name "lambda_star_etc"))))))),
  -- line 355
  ("lambda_star_etc",
    .alt (.seq (.name "lambda_starred_param") (.seq (.opt (.seq (.literal ",") (.sepPlus
    (.literal ",") (.name "lambda_param_maybe_default")))) (.opt (.seq (.literal ",") (.opt
    (.seq (.name "lambda_double_starred_param") (.opt (.literal ",")))))))) (.alt (.seq
    (.literal "*") (.seq (.literal ",") (.seq (.sepPlus (.literal ",") (.name
    "lambda_param_maybe_default")) (.opt (.seq (.literal ",") (.opt (.seq (.name
    "lambda_double_starred_param") (.opt (.literal ","))))))))) (.seq (.name
    "lambda_double_starred_param") (.opt (.literal ",")))))]

/-- Rules 106 to 120 (parsa_python/src/lib.rs 360-384). -/
def pythonRules7 : List (String × Expr) := [
  -- line 360
  ("lambda_param_with_default",
    .seq (.name "name_def") (.seq (.literal "=") (.name "expression"))),
  -- line 361
  ("lambda_param_maybe_default",
    .seq (.name "name_def") (.opt (.seq (.literal "=") (.name "expression")))),
  -- line 362
  ("lambda_starred_param",
    .seq (.literal "*") (.name "name_def")),
  -- line 363
  ("lambda_double_starred_param",
    .seq (.literal "**") (.name "name_def")),
  -- line 368
  ("fstring",
    .seq (.name "FStringStart") (.seq (.star (.name "fstring_content")) (.name "FStringEnd"))),
  -- line 369
  ("fstring_content",
    .alt (.name "FStringString") (.name "fstring_expr")),
  -- line 370
  ("fstring_conversion",
    .seq (.literal "!") (.name "Name")),
  -- line 371
  ("fstring_expr",
    .seq (.literal "{") (.seq (.name "expressions") (.seq (.opt (.literal "=")) (.seq (.opt
    (.name "fstring_conversion")) (.seq (.opt (.name "fstring_format_spec")) (.literal "}")))))),
  -- line 372
  ("fstring_format_spec",
    .seq (.literal ":") (.star (.name "fstring_content"))),
  -- line 374
  ("strings",
    .plus (.alt (.name "String") (.name "fstring"))),
  -- line 375
  ("bytes",
    .plus (.name "Bytes")),
  -- line 377
  ("tuple_content",
    .seq (.name "star_named_expression") (.seq (.literal ",") (.opt (.name
    "star_named_expressions")))),
  -- line 382
  ("dict_content",
    .seq (.sepPlus (.literal ",") (.alt (.name "dict_starred") (.name "dict_key_value"))) (.opt
    (.literal ","))),
  -- line 383
  ("dict_starred",
    .seq (.literal "**") (.name "bitwise_or")),
  -- line 384
  ("dict_key_value",
    .seq (.name "expression") (.seq (.literal ":") (.name "expression")))]

/-- Rules 121 to 135 (parsa_python/src/lib.rs 389-437). -/
def pythonRules8 : List (String × Expr) := [
  -- line 389
  ("comprehension",
    .seq (.name "named_expression") (.name "for_if_clauses")),
  -- line 390
  ("for_if_clauses",
    .plus (.name "async_for_if_clause")),
  -- line 391
  ("async_for_if_clause",
    .seq (.opt (.literal "async")) (.name "sync_for_if_clause")),
  -- line 392
  ("sync_for_if_clause",
    .seq (.literal "for") (.seq (.name "star_targets") (.seq (.literal "in") (.seq (.name
    "disjunction") (.star (.name "comp_if")))))),
  -- line 393
  ("comp_if",
    .seq (.literal "if") (.name "disjunction")),
  -- line 394
  ("dict_comprehension",
    .seq (.name "dict_key_value") (.name "for_if_clauses")),
  -- line 402
  ("kwargs",
    .alt (.seq (.sepPlus (.literal ",") (.alt (.name "kwarg") (.name "starred_expression")))
    (.opt (.literal ","))) (.alt (.seq (.sepPlus (.literal ",") (.alt (.name "kwarg") (.name
    "starred_expression"))) (.seq (.literal ",") (.seq (.sepPlus (.literal ",") (.alt (.name
    "kwarg") (.name "double_starred_expression"))) (.opt (.literal ","))))) (.seq (.sepPlus
    (.literal ",") (.alt (.name "kwarg") (.name "double_starred_expression"))) (.opt (.literal
    ","))))),
  -- line 406
  ("starred_expression",
    .seq (.literal "*") (.name "expression")),
  -- line 407
  ("double_starred_expression",
    .seq (.literal "**") (.name "expression")),
  -- line 408
  ("kwarg",
    .seq (.name "Name") (.seq (.literal "=") (.name "expression"))),
  -- line 416
  ("star_targets",
    .seq (.sepPlus (.literal ",") (.name "star_target")) (.opt (.literal ","))),
  -- line 418
  ("star_target_brackets",
    .alt (.seq (.literal "(") (.seq (.opt (.name "star_targets")) (.literal ")"))) (.seq
    (.literal "[") (.seq (.opt (.name "star_targets")) (.literal "]")))),
  -- line 431
  ("name_def",
    .name "Name"),
  -- line 436
  ("del_targets",
    .seq (.sepPlus (.literal ",") (.alt (.name "t_primary") (.alt (.name "name_def") (.name
    "del_t_atom")))) (.opt (.literal ","))),
  -- line 437
  ("del_t_atom",
    .alt (.seq (.literal "(") (.seq (.opt (.name "del_targets")) (.literal ")"))) (.seq
    (.literal "[") (.seq (.opt (.name "del_targets")) (.literal "]"))))]

/-- All of them. -/
def pythonRules : List (String × Expr) :=
  pythonRules0 ++ pythonRules1 ++ pythonRules2 ++ pythonRules3 ++ pythonRules4 ++ pythonRules5
  ++ pythonRules6 ++ pythonRules7 ++ pythonRules8

/-- Deciding `Known`. -/
def knownB (names : Names) : Expr → Bool
  | .name s => decide (s ∈ names.terminals) || decide (s ∈ names.nonterminals)
  | .literal _ => true
  | .alt a b | .seq a b | .sepPlus a b => knownB names a && knownB names b
  | .opt a | .plus a | .star a => knownB names a

/-- Deciding `noLoopAtEnds`. -/
def noLoopB (a : Expr) : Bool := !startsWithLoop a && !endsWithLoop a

/-- The operand of an optional part is fine. -/
def optB (a : Expr) : Bool :=
  noLoopB a ||
  match a with
  | .plus x => noLoopB x
  | .seq s (.sepPlus s' _) => decide (s = s') && !startsWithLoop s
  | _ => false

/-- Deciding `WellShaped`. -/
def wellShapedB : Expr → Bool
  | .name _ | .literal _ => true
  | .alt a b | .seq a b => wellShapedB a && wellShapedB b
  | .opt a => wellShapedB a && optB a
  | .plus a => wellShapedB a
  | .star a => wellShapedB a && noLoopB a
  | .sepPlus sep a => wellShapedB sep && wellShapedB a && !startsWithLoop sep && !endsWithLoop a

theorem known_of_knownB {names : Names} {e : Expr} (h : knownB names e = true) :
    Known names e := by
  induction e <;> simp_all [knownB, Known]

theorem noLoop_of_noLoopB {a : Expr} (h : noLoopB a = true) : noLoopAtEnds a := by
  simpa [noLoopB, noLoopAtEnds] using h

theorem opt_of_optB {a : Expr} (h : optB a = true) :
    noLoopAtEnds a ∨ (∃ x, a = .plus x ∧ noLoopAtEnds x) ∨
      ∃ s x, a = .seq s (.sepPlus s x) ∧ startsWithLoop s = false := by
  unfold optB at h
  rw [Bool.or_eq_true] at h
  rcases h with h | h
  · exact Or.inl (noLoop_of_noLoopB h)
  · split at h
    · exact Or.inr (Or.inl ⟨_, rfl, noLoop_of_noLoopB h⟩)
    · simp only [Bool.and_eq_true, decide_eq_true_eq, Bool.not_eq_true'] at h
      obtain ⟨rfl, h⟩ := h
      exact Or.inr (Or.inr ⟨_, _, rfl, h⟩)
    · cases h

theorem wellShaped_of_wellShapedB {e : Expr} (h : wellShapedB e = true) : WellShaped e := by
  induction e with
  | name | literal => trivial
  | alt a b iha ihb =>
    simp only [wellShapedB, Bool.and_eq_true] at h
    exact ⟨iha h.1, ihb h.2⟩
  | seq a b iha ihb =>
    simp only [wellShapedB, Bool.and_eq_true] at h
    exact ⟨iha h.1, ihb h.2⟩
  | opt a ih =>
    simp only [wellShapedB, Bool.and_eq_true] at h
    exact ⟨ih h.1, opt_of_optB h.2⟩
  | plus a ih => exact ih h
  | star a ih =>
    simp only [wellShapedB, Bool.and_eq_true] at h
    exact ⟨ih h.1, noLoop_of_noLoopB h.2⟩
  | sepPlus sep a ihs iha =>
    simp only [wellShapedB, Bool.and_eq_true, Bool.not_eq_true'] at h
    exact ⟨ihs h.1.1.1, iha h.1.1.2, h.1.2, h.2⟩

/-- Every transcribed rule is known and well shaped. -/
theorem pythonRules_fine : ∀ p ∈ pythonRules, knownB pythonNames p.2 = true ∧
    wellShapedB p.2 = true := by
  decide +kernel

/-- Every rule of the Python grammar that uses no lookahead compiles to an automaton that accepts
exactly the sequences the rule derives, of whatever length. -/
theorem python_rules_exact (name : String) (e : Expr) (h : (name, e) ∈ pythonRules) :
    ∃ dfas, compile pythonNames (desugar e) = some dfas ∧
      ∀ w, accepts dfas w = true ↔ Derives pythonNames e w := by
  obtain ⟨hk, hs⟩ := pythonRules_fine _ h
  obtain ⟨dfas, hd⟩ := compile_total pythonNames e (known_of_knownB hk)
  exact ⟨dfas, hd, accepted_iff_derived_partial pythonNames e (known_of_knownB hk)
    (wellShaped_of_wellShapedB hs) dfas hd⟩

/-- For instance `star_etc`, which contains `["," ",".param_maybe_default+]`. -/
example : "star_etc" ∈ pythonRules.map Prod.fst := by decide +kernel

example : pythonRules.length = 135 := by decide +kernel

end Verif.Automaton
