{
 "claims": [
  {
   "property": "C01",
   "status": "proved",
   "theorems": [
    "Wf.C01_add_exact_or_raises",
    "Wf.C01_sub_exact_or_raises",
    "Wf.C01_mul_exact_or_raises",
    "Wf.C01_neg_exact_or_raises",
    "Wf.C01_abs_exact_or_raises",
    "Wf.C01_div_exact_or_raises",
    "Wf.C01_mod_exact_or_raises",
    "Wf.C01_div_mod_recompose",
    "Wf.C01_gcd_exact_or_raises",
    "Wf.C01_is_even",
    "Wf.C01_unsigned_conversions"
   ],
   "note": "Every checked operation returns the exact integer or raises, and raises exactly when the result does not fit."
  },
  {
   "property": "C02",
   "status": "partial",
   "theorems": [
    "Wf.C02_prime_factorization_partial",
    "Wf.C02_complete",
    "Wf.C02_zero",
    "Wf.C02_most_negative_raises",
    "Wf.C02_large_prime_is_undefined_behaviour",
    "Wf.C02_factorization_or_undefined"
   ],
   "note": "Complete factorisation proved for all inputs whose prime factors are below 3037000499^2; beyond that the code overflows (undefined behaviour), proved with a witness. The most negative integer raises."
  },
  {
   "property": "C03",
   "status": "proved",
   "theorems": [
    "Wf.C03_integer_power_exact_or_raises",
    "Wf.C03_signed_exponent"
   ],
   "note": "Exact, and raises exactly when the power does not fit."
  },
  {
   "property": "C04",
   "status": "proved",
   "theorems": [
    "Wf.C04_constructor",
    "Wf.C04_constructed_is_canonical",
    "Wf.C04_from_integer",
    "Wf.C04_identical_iff_same_number",
    "Wf.C04_zero_denominator_is_accepted"
   ],
   "note": "Exact outcome of the constructor on all 64-bit pairs. Disagreements proved beside it: undefined behaviour at the most negative integer, n/0 accepted, 0/0 ends the process."
  },
  {
   "property": "C05",
   "status": "proved",
   "theorems": [
    "Wf.C05_mul",
    "Wf.C05_mul_int",
    "Wf.C05_div",
    "Wf.C05_add",
    "Wf.C05_sub",
    "Wf.C05_normalized",
    "Wf.C05_try_integer",
    "Wf.C05_mod",
    "Wf.C05_mod_is_not_scaled"
   ],
   "note": "Exact outcome of each operator on canonical constants, including the intermediate overflow conditions. The remainder operator returns the fractional part of the quotient (C05_mod_is_not_scaled)."
  },
  {
   "property": "C06",
   "status": "partial",
   "theorems": [
    "Wf.C06_less_than",
    "Wf.C06_greater_than",
    "Wf.C06_order_partial",
    "Wf.C06_order_can_terminate",
    "Wf.C06_integer_order",
    "Wf.C06_strict_total_order"
   ],
   "note": "Comparison agrees with the values whenever it returns; the canonical order ends the process on overflow of the cross products (witness C06_order_can_terminate)."
  },
  {
   "property": "C07",
   "status": "proved",
   "theorems": [
    "Wf.C07_compare_finite",
    "Wf.C07_compare_special"
   ],
   "note": "Over all 64-bit integers and all finite doubles, for any correct rounding of the integer; NaN and infinities separately."
  },
  {
   "property": "C08",
   "status": "proved",
   "theorems": [
    "Wf.C08_mod_pi"
   ],
   "note": ""
  },
  {
   "property": "C09",
   "status": "proved",
   "theorems": [
    "Wf.C09_rational_to_integer",
    "Wf.C09_integer_to_integer",
    "Wf.C09_integer_to_rational",
    "Wf.C09_exponent_split",
    "Wf.C09_imaginary_integer_power",
    "Wf.C09_imaginary_rational_power",
    "Wf.C09_invert_most_negative_is_undefined"
   ],
   "note": "Integer and rational bases and exponents, powers of i. Floating point operands are not modelled. The most negative integer to the power -1 is undefined behaviour (witness)."
  },
  {
   "property": "C10",
   "status": "partial",
   "theorems": [
    "Wf.Sym.C10_total_order_partial",
    "Wf.Sym.C10_always_comparable",
    "Wf.Sym.C10_exact_total_order",
    "Wf.Sym.C10_identity_is_equality",
    "Wf.Sym.C10_nan_constants",
    "Wf.Sym.C10_same_name_types",
    "Wf.Sym.C10_same_name_functions",
    "Wf.Sym.C10_overflow_terminates"
   ],
   "note": "Order laws proved for regular expressions; refuted for same-named types/functions, NaN constants, and overflow in rational comparison"
  },
  {
   "property": "C11",
   "status": "partial",
   "theorems": [
    "Wf.Sym.C11_identical_same_hash_partial",
    "Wf.Sym.C11_no_floats",
    "Wf.Sym.C11_signed_zero"
   ],
   "note": "Proved when equal floats have equal bits and for float-free expressions; refuted for 0.0 and -0.0"
  },
  {
   "property": "C12",
   "status": "partial",
   "theorems": [
    "Wf.Sym.C12_sum_unconditional",
    "Wf.Sym.C12_shape_partial",
    "Wf.Sym.C12_sum_value"
   ],
   "note": "value proved for all operand lists under lawful power rules (C12_sum_value); shape proved for operands without floats whose terms are products of powers of different plain bases (C12_shape_partial) C12_sum_unconditional drops the condition on the power rules for operands with safe powers."
  },
  {
   "property": "C13",
   "status": "proved",
   "theorems": [
    "Wf.Sym.C13_product_unconditional",
    "Wf.Sym.C13_product_value",
    "Wf.Sym.C13_log_product"
   ],
   "note": "value proved for all operand lists where the power rules used are laws at the assignment; C13_log_product shows a product where the code uses a rule that is not. C13_product_unconditional drops this condition for operands with safe powers"
  },
  {
   "property": "C14",
   "status": "partial",
   "theorems": [
    "Wf.Sym.C14_sum_partial",
    "Wf.Sym.C14_product_partial",
    "Wf.Sym.C14_float_sum",
    "Wf.Sym.C14_like_powers",
    "Wf.Sym.C14_sum_any_stack_partial",
    "Wf.Sym.C14_product_any_stack_partial"
   ],
   "note": "sums without floats: all operand lists. Products without floats: plain bases, and numeric exponents where two factors have the same base. Both runs must return. Refuted for float sums (C14_float_sum) and for powers of a product (C14_like_powers)."
  },
  {
   "property": "C15",
   "status": "proved",
   "theorems": [
    "Wf.Sym.C15_derivative",
    "Wf.Sym.C15_repeated",
    "Wf.Sym.C15_arguments",
    "Wf.Sym.C15_jacobian",
    "Wf.Sym.C15_dependence",
    "Wf.Sym.C15_nested_functions",
    "Wf.Sym.C15_abs_complex",
    "Wf.Sym.C15_derivative_unconditional"
   ],
   "note": "Where the expression is smooth (spec Smooth: away from poles, branch cuts, kinks and jumps; conditions locally constant) and the power rules used are laws; jacobian layout; rules for symbolic functions and unevaluated substitutions are a parameter. Refuted: abs of a complex argument (C15_abs_complex), dependence on nested symbolic functions (C15_nested_functions). C15_derivative_unconditional drops the condition on the power rules for expressions with safe powers and without asin, acos, asinh and acosh."
  },
  {
   "property": "C16",
   "status": "partial",
   "theorems": [
    "Wf.Sym.C16_values_partial",
    "Wf.Sym.C16_in_order",
    "Wf.Sym.C16_repeated_in_order",
    "Wf.Sym.C16_chain",
    "Wf.Sym.C16_zero_times_infinity"
   ],
   "note": "values agree when no replacement mentions a later target; refuted by [(x,y),(y,z)] (C16_chain) and [(x,0),(y,zoo)] (C16_zero_times_infinity)"
  },
  {
   "property": "C17",
   "status": "proved",
   "theorems": [
    "Wf.Sym.C17_unconditional",
    "Wf.Sym.C17_one_variable",
    "Wf.Sym.C17_many_variables"
   ],
   "note": "value of the result equals the value under the updated assignment; for expressions made of interpreted nodes, exact floats, and runs whose power rules are laws under the assignment (LawfulRunOn); code's own licence decisions are refuted in C52; C17_unconditional drops the condition on the power rules for integer exponents"
  },
  {
   "property": "C18",
   "status": "proved",
   "theorems": [
    "Wf.Sym.C18_distribute_value",
    "Wf.Sym.C18_zero_exponent",
    "Wf.Sym.C18_distribute_unconditional"
   ],
   "note": "For every plain expression (interpreted nodes only, exact floats) and every lawful run: the result of distribute has the value of the input wherever the input has one. C18_zero_exponent: raising a sum to an exponent that distributes to zero fails an internal assertion instead of giving one. C18_distribute_unconditional drops the condition on the run for integer exponents."
  },
  {
   "property": "C19",
   "status": "proved",
   "theorems": [
    "Wf.Sym.C19_collect_value",
    "Wf.Sym.C19_rejects_numbers",
    "Wf.Sym.C19_collect_unconditional"
   ],
   "note": "For every plain expression and list of terms, every lawful run: the result of collect has the value of the input wherever the input has one; numeric terms are rejected. C19_collect_unconditional drops the condition on the run for integer exponents."
  },
  {
   "property": "C20",
   "status": "proved",
   "theorems": [
    "Wf.Sym.C20_definitions",
    "Wf.Sym.C20_values",
    "Wf.Sym.C20_back_substitution",
    "Wf.Sym.C20_default_names",
    "Wf.Sym.C20_capture",
    "Wf.Sym.C20_values_unconditional"
   ],
   "note": "For scalars and matrices of plain expressions, any counts and threshold, lawful runs, and new variables that do not occur in the input: definitions refer to earlier variables only, the rewritten expressions have the original values, and so do those obtained by substituting back last to first. C20_capture: the default names v0, v1, ... are not made fresh and capture a variable of that name in the input. C20_values_unconditional drops the condition on the run for integer exponents."
  },
  {
   "property": "C21",
   "status": "partial",
   "theorems": [
    "Wf.Sym.C21_sound_partial",
    "Wf.Sym.C21_sound_plain",
    "Wf.Sym.C21_log",
    "Wf.Sym.C21_power"
   ],
   "note": "sound for plain and tame expressions; refuted in general by C21_log and C21_power"
  },
  {
   "property": "C22",
   "status": "proved",
   "theorems": [
    "Wf.Sym.C22_constant_is_truth",
    "Wf.Sym.C22_less_than",
    "Wf.Sym.C22_less_equal",
    "Wf.Sym.C22_equal",
    "Wf.Sym.C22_relation_value",
    "Wf.Sym.C22_numbers_decided",
    "Wf.Sym.C22_rejects"
   ],
   "note": "Every comparison decided on construction is true; undecided comparisons keep their value. Floats compare exactly."
  },
  {
   "property": "C23",
   "status": "proved",
   "theorems": [
    "Wf.Sym.C23_function_unconditional",
    "Wf.Sym.C23_atan2_unconditional",
    "Wf.Sym.C23_function_value",
    "Wf.Sym.C23_atan2_value",
    "Wf.Sym.C23_cos_of_pi_multiple",
    "Wf.Sym.C23_real_functions",
    "Wf.Sym.C23_floor_out_of_range"
   ],
   "note": "All one-argument functions and atan2, for runs whose power rules are lawful (LawfulRun); float evaluation is taken as exact. floor of a float outside 64 bits is shown to be undefined behaviour. C23_function_unconditional and C23_atan2_unconditional drop the condition on the run for arguments with safe powers."
  },
  {
   "property": "C24",
   "status": "proved",
   "theorems": [
    "Wf.Sym.C24_where_true",
    "Wf.Sym.C24_where_false",
    "Wf.Sym.C24_max",
    "Wf.Sym.C24_min",
    "Wf.Sym.C24_iverson"
   ],
   "note": "where, max, min and iverson; the element-wise matrix form is not modelled."
  },
  {
   "property": "C25",
   "status": "proved",
   "theorems": [
    "Wf.Mat.C25_access",
    "Wf.Mat.C25_extensional",
    "Wf.Mat.C25_constructor",
    "Wf.Mat.C25_block",
    "Wf.Mat.C25_transpose",
    "Wf.Mat.C25_transpose_twice",
    "Wf.Mat.C25_block_overflow_refuted",
    "Wf.Mat.C25_zeros_overflow_refuted",
    "Wf.Mat.C25_reshape",
    "Wf.Mat.C25_vectorize",
    "Wf.Mat.C25_zeros_identity",
    "Wf.Mat.C25_diagonal",
    "Wf.Mat.C25_hstack",
    "Wf.Mat.C25_vstack",
    "Wf.Mat.C25_stack_rejects",
    "Wf.Mat.C25_diagonal_stack"
   ],
   "note": "All shapes and index values for which the int arithmetic of the code does not overflow; get_block and make_zeros overflow for large arguments (C25_block_overflow_refuted, C25_zeros_overflow_refuted)."
  },
  {
   "property": "C26",
   "status": "proved",
   "theorems": [
    "Wf.Mat.C26_add_sub_scale",
    "Wf.Mat.C26_mul",
    "Wf.Mat.C26_rejects",
    "Wf.Mat.C26_squared_norm"
   ],
   "note": "Entries in any type whose operations compute in a commutative ring; entry operations are assumed to return a value."
  },
  {
   "property": "C27",
   "status": "proved",
   "theorems": [
    "Wf.Mat.C27_lu",
    "Wf.Mat.C27_rejects"
   ],
   "note": "Any field, any shape with 1 <= rows <= cols, any pivot sequence; the condition that pivots are non-zero is part of the property."
  },
  {
   "property": "C28",
   "status": "partial",
   "theorems": [
    "Wf.Mat.C28_small",
    "Wf.Mat.C28_large_partial",
    "Wf.Mat.C28_exact_zero_test",
    "Wf.Mat.C28_rejects",
    "Wf.Mat.C28_zero_pivot"
   ],
   "note": "Sizes 1 to 3 unconditionally over any commutative ring; all sizes when the zero test is exact; larger sizes under the condition that symbolic pivots are non-zero. The unconditional statement is false (C28_zero_pivot); a 0x0 matrix is rejected."
  },
  {
   "property": "C29",
   "status": "proved",
   "theorems": [
    "Wf.Geo.C29_mul_assoc",
    "Wf.Geo.C29_one_mul",
    "Wf.Geo.C29_conj_reverses",
    "Wf.Geo.C29_norm_multiplicative",
    "Wf.Geo.C29_mul_inverse",
    "Wf.Geo.C29_nonzero_invertible"
   ],
   "note": "Over any commutative ring; inverse over any field."
  },
  {
   "property": "C30",
   "status": "proved",
   "theorems": [
    "Wf.Geo.C30_matrix_is_rotation",
    "Wf.Geo.C30_rotate_eq_matrix",
    "Wf.Geo.C30_matrix_of_product",
    "Wf.Geo.C30_negation_same_rotation",
    "Wf.Geo.C30_conj_is_transpose"
   ],
   "note": "Over any commutative ring."
  },
  {
   "property": "C31",
   "status": "proved",
   "theorems": [
    "Wf.Geo.C31_from_rotation_matrix",
    "Wf.Geo.C31_round_trip"
   ],
   "note": "Over the reals, all rotation matrices, every branch; also the opposite round trip up to sign."
  },
  {
   "property": "C32",
   "status": "proved",
   "theorems": [
    "Wf.Geo.C32_from_angle_axis",
    "Wf.Geo.C32_from_rotation_vector",
    "Wf.Geo.C32_from_rotation_vector_epsilon",
    "Wf.Geo.C32_to_angle_axis",
    "Wf.Geo.C32_to_angle_axis_epsilon",
    "Wf.Geo.C32_angle_axis_recovered",
    "Wf.Geo.C32_to_rotation_vector",
    "Wf.Geo.C32_rotation_vector_recovered",
    "Wf.Geo.C32_acos_variant_agrees"
   ],
   "note": "Exact real semantics; the rotation is the matrix exponential of the cross product matrix. Below epsilon only unit norm is claimed (the code uses an approximation there)."
  },
  {
   "property": "C33",
   "status": "proved",
   "theorems": [
    "Wf.Geo.C33_inverse",
    "Wf.Geo.C33_inverse_epsilon",
    "Wf.Geo.C33_inverse_divides_by_zero_at_pi",
    "Wf.Geo.C33_left_jacobian_integral",
    "Wf.Geo.C33_left_jacobian_derivative"
   ],
   "note": "Also that the left Jacobian is the integral of the exponential map and the derivative of the rotation. The inverse divides by zero at angle pi (C33_inverse_divides_by_zero_at_pi)."
  },
  {
   "property": "C34",
   "status": "proved",
   "theorems": [
    "Wf.Sym.C34_outputs_unconditional",
    "Wf.Sym.C34_defined",
    "Wf.Sym.C34_outputs",
    "Wf.Sym.C34_optimised",
    "Wf.Sym.C34_types",
    "Wf.Sym.C34_agreeing",
    "Wf.Sym.C34_rejects",
    "Wf.Sym.C34_min_factor"
   ],
   "note": "C34_outputs, C34_optimised (after all passes), C34_types. Exact complex arithmetic; the sign rules used by power::create must be laws under the assignment (LawfulLowering); reciprocals of a zero base and floor/signum of non-real arguments excluded (NotesOk). Compound expressions and struct outputs are not modelled. C34_min_factor: a product with factor INT64_MIN cannot be lowered. C34_outputs_unconditional drops the condition on the power rules where powers have integer exponents, or sums, variables or constants as bases."
  },
  {
   "property": "C35",
   "status": "proved",
   "theorems": [
    "Wf.Gen.C35_outputs",
    "Wf.Gen.C35_no_duplicates"
   ],
   "note": "Exact arithmetic in an arbitrary commutative ring; operations other than sums, products, negations, copies, integer constants and casts of integer constants are arbitrary functions. Single block, types not modelled. Uniqueness is stated for blocks without phi functions (the pass runs before control flow is introduced) and excludes sinks."
  },
  {
   "property": "C36",
   "status": "proved",
   "theorems": [
    "Wf.Gen.C36_search",
    "Wf.Gen.C36_every_choice",
    "Wf.Gen.C36_factorize"
   ],
   "note": "Validity of every factorisation found by the search, and value preservation for every valid choice, any number of passes, any commutative ring. Exact arithmetic; the type of a product is a parameter that decides the cast of the constant one."
  },
  {
   "property": "C37",
   "status": "proved",
   "theorems": [
    "Wf.Gen.C37_every_choice",
    "Wf.Gen.C37_binarize"
   ],
   "note": "Exact arithmetic in an arbitrary commutative ring; operations other than sums, products, negations, copies, integer constants and casts of integer constants are arbitrary functions. Single block, types not modelled. All pair choices, plus termination with the pairs the program chooses."
  },
  {
   "property": "C38",
   "status": "proved",
   "theorems": [
    "Wf.Gen.C38_negations"
   ],
   "note": "Exact arithmetic in an arbitrary commutative ring; operations other than sums, products, negations, copies, integer constants and casts of integer constants are arbitrary functions. Single block, types not modelled."
  },
  {
   "property": "C39",
   "status": "proved",
   "theorems": [
    "Wf.Gen.C39_topological_sort"
   ],
   "note": "Acyclic blocks are sorted, cyclic ones rejected by the assertion."
  },
  {
   "property": "C40",
   "status": "proved",
   "theorems": [
    "Wf.Gen.C40_outputs",
    "Wf.Gen.C40_no_conditionals",
    "Wf.Gen.C40_phi_operands",
    "Wf.Gen.C40_lazy_branches",
    "Wf.Gen.C40_lazy_outputs"
   ],
   "note": "Conversion of a single-block program to blocks (ir_control_flow_converter), with and without conditionals converted, including copy elimination: succeeds, one entry block, every value is read after it is computed, no operation is done twice, outputs are those of the input program for every interpretation; operations needed only for one branch or only for an optional output are done only there."
  },
  {
   "property": "C41",
   "status": "partial",
   "theorems": [
    "Wf.Gen.Text.C41_cpp_partial",
    "Wf.Gen.Text.C41_rust_partial",
    "Wf.Gen.Text.C41_python_partial",
    "Wf.Gen.Text.C41_unambiguous",
    "Wf.Gen.Text.C41_names",
    "Wf.Gen.Text.C41_types",
    "Wf.Gen.Text.C41_cpp_conditional",
    "Wf.Gen.Text.C41_cpp_sign",
    "Wf.Gen.Text.C41_rust_sign",
    "Wf.Gen.Text.C41_rust_negated_cast",
    "Wf.Gen.Text.C41_copy",
    "Wf.Gen.Text.C41_cpp_double_negation",
    "Wf.Gen.Text.C41_cpp_least_integer",
    "Wf.Gen.Text.C41_rust_sign_of_cast"
   ],
   "note": "Proved for C++, Rust and Python for every operation tree outside listed cases; each listed case that is excluded (conditional or sign function below a sum or product, double negation, least integer, copies, negated conversions in Rust) is refuted by its own theorem. Construction of matrices and structs is covered by C56."
  },
  {
   "property": "C42",
   "status": "partial",
   "theorems": [
    "Wf.Sym.Plain.C42_text_partial",
    "Wf.Sym.Plain.C42_one_reading",
    "Wf.Sym.Plain.C42_pole",
    "Wf.Sym.Plain.C42_same_name",
    "Wf.Sym.Plain.C42_least_integer"
   ],
   "note": "Grammar with unique reading; the text has the value of the expression wherever it has no pole (C42_text_partial). Missing: points where only the text has a pole (C42_pole, refuted), names used twice (C42_same_name, refuted), texts with /1/ (reciprocal of a reciprocal, not built by the constructors); the least integer in a sum has no text (C42_least_integer)."
  },
  {
   "property": "C43",
   "status": "proved",
   "theorems": [
    "Wf.Gen.C43_mirror",
    "Wf.Gen.C43_edits",
    "Wf.Gen.C43_consumers"
   ],
   "note": "Over all histories of create, set_operation, replace_with, remove and replace_operand_pair on existing values; the error cases are characterised exactly."
  },
  {
   "property": "C44",
   "status": "proved",
   "theorems": [
    "Wf.Gen.C44_handles_are_stable",
    "Wf.Gen.C44_insert_remove",
    "Wf.Gen.C44_iteration_and_size"
   ],
   "note": "Over all insert/remove histories, by refinement to a map from handles to values."
  },
  {
   "property": "C45",
   "status": "proved",
   "theorems": [
    "Wf.Run.C45_access",
    "Wf.Run.C45_block_access",
    "Wf.Run.C45_block_of_block",
    "Wf.Run.C45_distinct_elements",
    "Wf.Run.C45_row_major",
    "Wf.Run.C45_column_major",
    "Wf.Run.C45_eigen_distinct"
   ],
   "note": "All dimensions, strides and nested blocks. Eigen maps with arbitrary strides under the usual stride condition."
  },
  {
   "property": "C46",
   "status": "proved",
   "theorems": [
    "Wf.Run.C46_no_overlap",
    "Wf.Run.C46_last_in_first_out",
    "Wf.Run.C46_fails_only_when_full",
    "Wf.Run.C46_huge_request_overlaps"
   ],
   "note": "All histories whose rounded sizes fit the address space; outside that range C46_huge_request_overlaps shows the overlap."
  },
  {
   "property": "C47",
   "status": "proved",
   "theorems": [
    "Wf.Gen.C47_reaches",
    "Wf.Gen.C47_distinct",
    "Wf.Gen.C47_rejects",
    "Wf.Gen.C47_member_type"
   ],
   "note": "For all nested types with unique field names (the constructor's own check); also the numeric type of each element."
  },
  {
   "property": "C48",
   "status": "proved",
   "theorems": [
    "Wf.Run.C48_visits_set_bits",
    "Wf.Run.C48_iterate_eq_filter",
    "Wf.Run.C48_terminates_at_end",
    "Wf.Run.C48_postfix_stops_on_clear_bit"
   ],
   "note": "Range-for (pre-increment) iteration over any width. The postfix increment can stop on a clear bit (C48_postfix_stops_on_clear_bit)."
  },
  {
   "property": "C49",
   "status": "proved",
   "theorems": [
    "Wf.C49_sequences_total",
    "Wf.C49_prefix_first",
    "Wf.C49_first_difference",
    "Wf.C49_comparison_total",
    "Wf.C49_strings_total",
    "Wf.C49_chain_total",
    "Wf.C49_variant_total"
   ],
   "note": ""
  },
  {
   "property": "C50",
   "status": "partial",
   "theorems": [
    "Wf.Gen.C50_rebuild",
    "Wf.Gen.C50_rebuild_construction",
    "Wf.Gen.C50_members",
    "Wf.Gen.C50_wrong_length",
    "Wf.Gen.C50_prefix_accepted"
   ],
   "note": "Proved for member lists of the right length whose members the API can hand out (C50_rebuild, C50_rebuild_construction, C50_members). A list of the wrong length is not always refused: C50_prefix_accepted shows leading members of a value accepted as the whole value."
  },
  {
   "property": "C51",
   "status": "proved",
   "theorems": [
    "Wf.Gen.C51_optimise"
   ],
   "note": "Composition of all the passes as apply_simplifications runs them; termination included."
  },
  {
   "property": "C52",
   "status": "partial",
   "theorems": [
    "Wf.Sym.C52_power_unconditional",
    "Wf.Sym.C52_power_value",
    "Wf.Sym.C52_log_square",
    "Wf.Sym.C52_complex_exponent",
    "Wf.Sym.C52_float_power"
   ],
   "note": "value proved where the power rules used are laws; 'rules that are not laws are never used' is refuted by C52_log_square, C52_complex_exponent and C52_float_power; C52_power_unconditional: integer exponents, or bases that are no products, powers, exponentials or floats, need no condition"
  },
  {
   "property": "C53",
   "status": "partial",
   "theorems": [
    "Wf.Sym.C53_other_targets",
    "Wf.Sym.C53_sum_partial",
    "Wf.Sym.C53_power_partial",
    "Wf.Sym.C53_product_partial",
    "Wf.Sym.C53_float_sum",
    "Wf.Sym.C53_float_product",
    "Wf.Sym.C53_zero_product",
    "Wf.Sym.C53_zero_power"
   ],
   "note": "all targets other than sums, products and powers in full; sums without a float term; products and powers whose value is not zero and without a float factor; the remaining cases are refuted by C53_float_sum, C53_float_product, C53_zero_product, C53_zero_power (exponents of value zero are not covered)"
  },
  {
   "property": "C54",
   "status": "partial",
   "theorems": [
    "Wf.Gen.C54_outputs_partial",
    "Wf.Gen.C54_struct_outputs_fail",
    "Wf.Gen.C54_struct_arguments_fail"
   ],
   "note": "Conversion of the blocks of C40 to structured code (ast_conversion.cc with find_merge_point). C54_outputs_partial: succeeds, and the statements write every output once with its value, with correct scoping, for every interpretation; condition: every output struct has a constructor used for nothing else. C54_struct_outputs_fail and C54_struct_arguments_fail show that the generator stops with an assertion otherwise."
  },
  {
   "property": "C55",
   "status": "proved",
   "theorems": [
    "Wf.Sym.C55_transpile_unconditional",
    "Wf.Sym.C55_transpile"
   ],
   "note": "transpile_to_ast from the outputs to the statements, chaining C34, C51 and C54. Limits as in C34 (exact arithmetic, lawful power rules, NotesOk) and: scalar and matrix outputs, no external function calls. C55_transpile_unconditional drops the condition on the power rules where powers have integer exponents, or sums, variables or constants as bases."
  },
  {
   "property": "C56",
   "status": "partial",
   "theorems": [
    "Wf.Gen.Text.C56_cpp_partial",
    "Wf.Gen.Text.C56_rust_partial",
    "Wf.Gen.Text.C56_python_partial",
    "Wf.Gen.Text.C56_unambiguous",
    "Wf.Gen.Text.C56_unambiguous_lines",
    "Wf.Gen.Text.C56_python_refused",
    "Wf.Gen.Text.C56_rust_tail",
    "Wf.Gen.Text.C56_cpp_matrix",
    "Wf.Gen.Text.C56_python_empty"
   ],
   "note": "Proved for all bodies whose operations are fine in the sense of C41, with three conditions that are needed: the value of a Rust function does not begin with a conditional unless it is one (refuted by C56_rust_tail), the first element of a constructed Eigen matrix is not a conditional or comparison (refuted by C56_cpp_matrix), a Python branch is not empty (C56_python_empty). Signatures and the conversions of arguments at the top of the body are not modelled."
  },
  {
   "property": "C57",
   "status": "partial",
   "theorems": [
    "Wf.Gen.Text.C57_temporaries_distinct",
    "Wf.Gen.Text.C57_temporaries_shape",
    "Wf.Gen.Text.C57_argument_names",
    "Wf.Gen.Text.C57_plain_names_partial",
    "Wf.Gen.Text.C57_outputs_as_declared",
    "Wf.Gen.Text.C57_outputs_partial",
    "Wf.Gen.Text.C57_clash",
    "Wf.Gen.Text.C57_views_clash",
    "Wf.Gen.Text.C57_switches_clash"
   ],
   "note": "Proved for functions whose argument names are distinct from each other's derived names and from v followed by digits, and whose statements have a translation (no external calls or struct outputs). Without the condition on names the claim is false of the code (C57_clash, C57_views_clash, C57_switches_clash)."
  },
  {
   "property": "C58",
   "status": "partial",
   "theorems": [
    "Wf.Gen.Text.C58_cpp_partial",
    "Wf.Gen.Text.C58_rust_partial",
    "Wf.Gen.Text.C58_python_partial"
   ],
   "note": "Proved for the bodies of C56 and the names of C57 (outside these the claim is false of the code, see C56 and C57); outputs are numbers and matrices, not structs; no external functions; Python with PyTorch is not covered; numbers are exact; the machine of the text has to compute the operations as the program means them (Computes, Lawful). Signatures and conversions of arguments at the top of the body are not modelled."
  },
  {
   "property": "C59",
   "status": "partial",
   "theorems": [
    "Wf.Sym.C59_cpp_partial",
    "Wf.Sym.C59_rust_partial",
    "Wf.Sym.C59_python_partial"
   ],
   "note": "Proved for the expressions of C34, bodies of C56 and names of C57 (outside these the claim is false of the code). Arithmetic is exact, also for complex numbers (Exact); conversions of integers to other number types do not change them; outputs are numbers and matrices, not structs; no external functions or compound arguments; that the body has a text (stmtStms succeeds) is assumed. Signatures and conversions of arguments at the top of the body are not modelled."
  },
  {
   "property": "C60",
   "status": "partial",
   "theorems": [
    "Wf.Sym.C60_definitions",
    "Wf.Sym.C60_sequential",
    "Wf.Sym.C60_values",
    "Wf.Sym.C60_capture",
    "Wf.Sym.C60_boolean_argument"
   ],
   "note": "Full claim refuted (C60_capture, C60_boolean_argument): it holds when no output mentions a variable with the name of an intermediate variable, and when the power rules used are laws at the values (see C21)."
  },
  {
   "property": "C61",
   "status": "partial",
   "theorems": [
    "Wf.Gen.Text.C61_cpp_definition_partial",
    "Wf.Gen.Text.C61_cpp_views",
    "Wf.Gen.Text.C61_python_refusals",
    "Wf.Gen.Text.C61_python_definition_partial",
    "Wf.Gen.Text.C61_python_conversions",
    "Wf.Gen.Text.C61_cpp_partial",
    "Wf.Gen.Text.C61_rust_partial",
    "Wf.Gen.Text.C61_python_partial",
    "Wf.Gen.Text.C61_python_returns",
    "Wf.Gen.Text.C61_signature_exists",
    "Wf.Gen.Text.C61_python_order_refuted",
    "Wf.Gen.Text.C61_cpp_clash_refuted",
    "Wf.Gen.Text.C61_keyword_refuted",
    "Wf.Gen.Text.C61_python_annotation_refuted",
    "Wf.Sym.C61_cpp_call_partial",
    "Wf.Sym.C61_rust_call_partial",
    "Wf.Sym.C61_python_call_partial"
   ],
   "note": "Full claim refuted (C61_python_order_refuted, C61_cpp_clash_refuted, C61_keyword_refuted, C61_python_annotation_refuted): it holds when names are no keywords and no template parameters, and optional outputs come last. Calls of whole functions under the conditions of C59; PyTorch is left out."
  },
  {
   "property": "C62",
   "status": "proved",
   "theorems": [
    "Wf.Sym.C62_retract_derivative",
    "Wf.Sym.C62_local_derivative",
    "Wf.Sym.C62_product",
    "Wf.Sym.C62_conjugate_negate",
    "Wf.Sym.C62_squared_norm",
    "Wf.Sym.C62_inverse",
    "Wf.Sym.C62_rotation_matrix",
    "Wf.Sym.C62_rotate",
    "Wf.Sym.C62_normalized",
    "Wf.Sym.C62_from_angle_axis",
    "Wf.Sym.C62_from_rotation_vector",
    "Wf.Sym.C62_to_angle_axis",
    "Wf.Sym.C62_to_rotation_vector",
    "Wf.Sym.C62_to_rotation_vector_acos",
    "Wf.Sym.C62_from_rotation_matrix"
   ],
   "note": "complex values for the algebraic operations, real values where roots and angles occur; the power rules used have to be laws (C52 says when they are)"
  },
  {
   "property": "C63",
   "status": "proved",
   "theorems": [
    "Wf.Sym.C63_sum_difference",
    "Wf.Sym.C63_product",
    "Wf.Sym.C63_scale_negate",
    "Wf.Sym.C63_norms",
    "Wf.Sym.C63_where",
    "Wf.Sym.C63_determinant_small",
    "Wf.Sym.C63_lu",
    "Wf.Sym.C63_determinant_large",
    "Wf.Sym.C63_zero_pivot",
    "Wf.Sym.C63_left_jacobian",
    "Wf.Sym.C63_left_jacobian_integral",
    "Wf.Sym.C63_inverse_left_jacobian",
    "Wf.Sym.C63_rejects"
   ],
   "note": "Operations on matrices of expressions: values by a homomorphism from pairs (expression, value); LU and determinants from 4 rows on wherever pivots are non-zero, with a witness that the condition is needed."
  },
  {
   "property": "C64",
   "status": "partial",
   "theorems": [
    "Wf.Sym.C64_number_value",
    "Wf.Sym.C64_symbols_refused",
    "Wf.Sym.C64_numbers_partial",
    "Wf.Sym.C64_documentation_refuted",
    "Wf.Sym.C64_evaluate_value",
    "Wf.Sym.C64_evaluate_refuses",
    "Wf.Sym.C64_array_values",
    "Wf.Sym.C64_array_type",
    "Wf.Sym.C64_matrix_value",
    "Wf.Sym.C64_scalar_matrix_differ",
    "Wf.Sym.C64_number_refuted"
   ],
   "note": "Expr.eval refuses rational and symbolic constants and functions of numbers, contrary to its documentation (C64_documentation_refuted); MatrixExpr.eval refuses acos(floor(log(2))), which has a value (C64_number_refuted). Proved: every number that is returned is the value; integers, floats and complex numbers with such parts are returned."
  },
  {
   "property": "C65",
   "status": "partial",
   "theorems": [
    "Wf.Sym.C65_search",
    "Wf.Sym.C65_variables_partial",
    "Wf.Sym.C65_once",
    "Wf.Sym.C65_order",
    "Wf.Sym.C65_value",
    "Wf.Sym.C65_variable_refuted"
   ],
   "note": "get_variables of an expression that is itself a variable is empty (C65_variable_refuted); the rest is proved for all expressions."
  },
  {
   "property": "C66",
   "status": "proved",
   "theorems": [
    "Wf.Sym.C66_chain_rule",
    "Wf.Sym.C66_repeated",
    "Wf.Sym.C66_self",
    "Wf.Sym.C66_abstract_refuted"
   ],
   "note": "the rules for declared functions, deferred derivatives and substitutions of variables; targets that are not variables are not covered"
  },
  {
   "property": "C67",
   "status": "partial",
   "theorems": [
    "Wf.Sym.C67_elements",
    "Wf.Sym.C67_value",
    "Wf.Sym.C67_jacobian",
    "Wf.Sym.C67_dimensions",
    "Wf.Sym.C67_negative_refuted"
   ],
   "note": "The code violates the last clause: a negative order of differentiation is accepted for matrices (C67_negative_refuted). The rest is proved."
  },
  {
   "property": "C68",
   "status": "partial",
   "theorems": [
    "Wf.Gen.C68_counts_partial",
    "Wf.Gen.C68_total",
    "Wf.Gen.C68_comment",
    "Wf.Gen.C68_statements_refuted"
   ],
   "note": "Proved for the program with blocks from which the statements are made: every run and every kind of operation. The statements themselves may compute a value twice (C68_statements_refuted), so the counts in the comment do not bound what the generated function does."
  },
  {
   "property": "C69",
   "status": "partial",
   "theorems": [
    "Wf.Sym.C69_to_sympy",
    "Wf.Sym.C69_from_sympy_partial",
    "Wf.Sym.C69_round_trip",
    "Wf.Sym.C69_refused",
    "Wf.Sym.C69_total",
    "Wf.Sym.C69_names_refuted",
    "Wf.Sym.C69_conditional_refuted",
    "Wf.Sym.C69_subs_refuted",
    "Wf.Sym.C69_symbols_refuted",
    "Wf.Sym.C69_zero_power_refuted"
   ],
   "note": "To SymPy: proved for all convertible expressions with plain names. From SymPy: proved except for 0**0, symbols that differ only in other assumptions, and simultaneous substitutions, for which the code changes the value (refuted). Matrices are not modelled."
  },
  {
   "property": "C70",
   "status": "partial",
   "theorems": [
    "Wf.Mat.C70_slice_unique",
    "Wf.Mat.C70_element",
    "Wf.Mat.C70_row",
    "Wf.Mat.C70_iteration",
    "Wf.Mat.C70_row_slice",
    "Wf.Mat.C70_block_slice",
    "Wf.Mat.C70_zero_step",
    "Wf.Mat.C70_mixed_slice_partial",
    "Wf.Mat.C70_negative_refuted",
    "Wf.Mat.C70_stack",
    "Wf.Mat.C70_rows",
    "Wf.Mat.C70_column",
    "Wf.Mat.C70_vectors",
    "Wf.Mat.C70_ragged",
    "Wf.Mat.C70_empty_rows_refuted",
    "Wf.Mat.C70_to_list",
    "Wf.Mat.C70_round_trip",
    "Wf.Mat.C70_round_trip_rows",
    "Wf.Mat.C70_unary_map"
   ],
   "note": "proved except for negative indices beside a slice, which the code refuses (C70_negative_refuted), and rows without elements, where it divides by zero (C70_empty_rows_refuted)"
  },
  {
   "property": "C71",
   "status": "partial",
   "theorems": [
    "Wf.Gen.C71_expressions",
    "Wf.Gen.C71_build_partial",
    "Wf.Gen.C71_round_trip_partial",
    "Wf.Gen.C71_round_trip_list_partial",
    "Wf.Gen.C71_shapes_refuted",
    "Wf.Gen.C71_opaque_refuted"
   ],
   "note": "proved for types without opaque members; shapes of matrices are not checked by the code (C71_shapes_refuted), and types with opaque members cannot be built (C71_opaque_refuted)"
  },
  {
   "property": "C72",
   "status": "partial",
   "theorems": [
    "Wf.Gen.C72_binding",
    "Wf.Gen.C72_call",
    "Wf.Gen.C72_accepts_partial",
    "Wf.Gen.C72_integer_refuted",
    "Wf.Gen.C72_reserved_refuted",
    "Wf.Gen.C72_declared"
   ],
   "note": "The code violates two parts: an integer parameter can never be passed (C72_integer_refuted) and parameters called self or func cannot be passed by keyword (C72_reserved_refuted). Binding, types, order and acceptance of all other calls are proved."
  },
  {
   "property": "C73",
   "status": "partial",
   "theorems": [
    "Wf.Sym.C73_symbols_partial",
    "Wf.Sym.C73_listed",
    "Wf.Sym.C73_non_ascii_refuted",
    "Wf.Sym.C73_set"
   ],
   "note": "For ASCII strings everything is proved; for other strings the code has undefined behaviour (C73_non_ascii_refuted)."
  },
  {
   "property": "C74",
   "status": "partial",
   "theorems": [
    "Wf.Sym.Tree.C74_total_partial",
    "Wf.Sym.Tree.C74_determines_partial",
    "Wf.Sym.Tree.C74_empty_refuted",
    "Wf.Sym.Tree.C74_names_refuted"
   ],
   "note": "Proved for expressions whose operations have operands and in which functions and types are identified by their names; the code violates the rest (C74_empty_refuted, C74_names_refuted)."
  },
  {
   "property": "C75",
   "status": "partial",
   "theorems": [
    "Wf.Gen.Desc.C75_description",
    "Wf.Gen.Desc.C75_accepts_partial",
    "Wf.Gen.Desc.C75_parameters_refuted",
    "Wf.Gen.Desc.C75_default_refuted",
    "Wf.Gen.Desc.C75_opaque_refuted"
   ],
   "note": "Proved: the description lists parameters then outputs in order with distinct names and consecutive indices, parameters are bound to values made of the elements of their arguments, every output is found under its key with its type, at most one return value. Acceptance for ordinary annotated parameters. Positional-only and keyword-only parameters and opaque outputs are refuted."
  },
  {
   "property": "C76",
   "status": "partial",
   "theorems": [
    "Wf.Gen.Hook.C76_text_partial",
    "Wf.Gen.Hook.C76_reusable",
    "Wf.Gen.Hook.C76_ends",
    "Wf.Gen.Hook.C76_super",
    "Wf.Gen.Hook.C76_deterministic",
    "Wf.Gen.Hook.C76_multiple",
    "Wf.Gen.Hook.C76_depth_refuted"
   ],
   "note": "Proved: the text is given by the recursive equations for trees in which no kind is nested more than 31 deep; counters are restored in every case; formatting ends whatever format() is called on; methods that return super_format change nothing; several definitions are joined by an empty line. Deeper nesting is refuted."
  },
  {
   "property": "C77",
   "status": "partial",
   "theorems": [
    "Wf.Sym.C77_sum_partial",
    "Wf.Sym.C77_product_partial",
    "Wf.Sym.C77_sum_refuted",
    "Wf.Sym.C77_product_refuted",
    "Wf.Sym.C77_sum_any_stack_partial",
    "Wf.Sym.C77_product_any_stack_partial"
   ],
   "note": "Proved for operands without floats under the conditions of C12_shape and C14_product (plain bases, numeric exponents for equal bases, no sum next to a number); refuted for sums with zoo and products of radicals."
  },
  {
   "property": "C78",
   "status": "proved",
   "theorems": [
    "Wf.Sym.C78_distribute",
    "Wf.Sym.C78_collect",
    "Wf.Sym.C78_functions",
    "Wf.Sym.C78_diff",
    "Wf.Sym.C78_subs",
    "Wf.Sym.C78_more_stack",
    "Wf.Sym.C78_any_stack",
    "Wf.Sym.C78_quaternion_algebra",
    "Wf.Sym.C78_quaternion_conversions",
    "Wf.Sym.C78_quaternion_derivatives",
    "Wf.Sym.C78_static_jacobians"
   ],
   "note": "Results do not depend on the depth. That a finite stack suffices for every call is a separate question and is not claimed."
  },
  {
   "property": "C79",
   "status": "proved",
   "theorems": [
    "Wf.Sym.Truth.C79_comparison",
    "Wf.Sym.Truth.C79_condition",
    "Wf.Sym.Truth.C79_branch",
    "Wf.Sym.Truth.C79_best",
    "Wf.Sym.Truth.C79_open",
    "Wf.Sym.Truth.C79_truth"
   ],
   "note": "Values of floats are exact, as in C22."
  },
  {
   "property": "C80",
   "status": "proved",
   "theorems": [
    "Wf.Sym.Once.C80_distinct",
    "Wf.Sym.Once.C80_results",
    "Wf.Sym.Once.C80_finish",
    "Wf.Sym.Once.C80_fresh"
   ],
   "note": "Any number of threads and any schedule of fewer than 2^64 - 1 steps; the 64 bit counter wraps after that."
  },
  {
   "property": "C81",
   "status": "proved",
   "theorems": [
    "Wf.Sym.Store.C81_places",
    "Wf.Sym.Store.C81_from",
    "Wf.Sym.Store.C81_round_trip",
    "Wf.Sym.Store.C81_mixed",
    "Wf.Sym.Store.C81_names"
   ],
   "note": "All quaternions, matrices, iterables and names."
  },
  {
   "property": "C82",
   "status": "partial",
   "theorems": [
    "Wf.Sym.Sort.C82_compare_partial",
    "Wf.Sym.Sort.C82_sorted_unique_partial",
    "Wf.Sym.Sort.C82_sort_partial",
    "Wf.Sym.Sort.C82_nan_refuted"
   ],
   "note": "Proved for expressions without not-a-number constants and without two types or functions of one name, sorting for rational constants up to 2^31; with a not-a-number constant the claim is false (C82_nan_refuted)."
  },
  {
   "property": "C83",
   "status": "partial",
   "theorems": [
    "Wf.Sym.Declare.C83_rational_partial",
    "Wf.Sym.Declare.C83_rational_identity",
    "Wf.Sym.Declare.C83_rational_zero",
    "Wf.Sym.Declare.C83_rational_refuted",
    "Wf.Sym.Declare.C83_make_symbols",
    "Wf.Sym.Declare.C83_make_symbols_args",
    "Wf.Sym.Declare.C83_symbol_identity"
   ],
   "note": "Proved except for -2^63 as numerator or denominator of sym.rational, which is undefined behaviour (C83_rational_refuted)."
  },
  {
   "property": "C84",
   "status": "partial",
   "theorems": [
    "Wf.Sym.Deferred.C84_refused",
    "Wf.Sym.Deferred.C84_orders_add_partial",
    "Wf.Sym.Deferred.C84_mixed",
    "Wf.Sym.Deferred.C84_merged",
    "Wf.Sym.Deferred.C84_orders_refuted"
   ],
   "note": "Proved except for sums of orders above 2^31 - 1, where the addition of the orders is undefined behaviour (C84_orders_refuted)."
  }
 ]
}
