{
 "C01": {
  "status": "proved",
  "note": "Every checked operation returns the exact integer or raises, and raises exactly when the result does not fit."
 },
 "C02": {
  "status": "partial",
  "note": "Complete factorisation proved for all inputs whose prime factors are below 3037000499^2; beyond that the code overflows (undefined behaviour), proved with a witness. The most negative integer raises."
 },
 "C03": {
  "status": "proved",
  "note": "Exact, and raises exactly when the power does not fit."
 },
 "C04": {
  "status": "proved",
  "note": "Exact outcome of the constructor on all 64-bit pairs. Disagreements proved beside it: undefined behaviour at the most negative integer, n/0 accepted, 0/0 ends the process."
 },
 "C05": {
  "status": "proved",
  "note": "Exact outcome of each operator on canonical constants, including the intermediate overflow conditions. The remainder operator returns the fractional part of the quotient (C05_mod_is_not_scaled)."
 },
 "C06": {
  "status": "partial",
  "note": "Comparison agrees with the values whenever it returns; the canonical order ends the process on overflow of the cross products (witness C06_order_can_terminate)."
 },
 "C07": {
  "status": "proved",
  "note": "Over all 64-bit integers and all finite doubles, for any correct rounding of the integer; NaN and infinities separately."
 },
 "C08": {
  "status": "proved",
  "note": ""
 },
 "C09": {
  "status": "proved",
  "note": "Integer and rational bases and exponents, powers of i. Floating point operands are not modelled. The most negative integer to the power -1 is undefined behaviour (witness)."
 },
 "C10": {
  "status": "partial",
  "note": "Order laws proved for regular expressions; refuted for same-named types/functions, NaN constants, and overflow in rational comparison"
 },
 "C11": {
  "status": "partial",
  "note": "Proved when equal floats have equal bits and for float-free expressions; refuted for 0.0 and -0.0"
 },
 "C12": {
  "status": "partial",
  "note": "value proved for all operand lists under lawful power rules (C12_sum_value); shape proved for operands without floats whose terms are products of powers of different plain bases (C12_shape_partial) C12_sum_unconditional drops the condition on the power rules for operands with safe powers."
 },
 "C13": {
  "status": "proved",
  "note": "value proved for all operand lists where the power rules used are laws at the assignment; C13_log_product shows a product where the code uses a rule that is not. C13_product_unconditional drops this condition for operands with safe powers"
 },
 "C14": {
  "status": "partial",
  "note": "sums without floats: all operand lists. Products without floats: plain bases, and numeric exponents where two factors have the same base. Both runs must return. Refuted for float sums (C14_float_sum) and for powers of a product (C14_like_powers)."
 },
 "C15": {
  "status": "proved",
  "note": "Where the expression is smooth (spec Smooth: away from poles, branch cuts, kinks and jumps; conditions locally constant) and the power rules used are laws; jacobian layout; rules for symbolic functions and unevaluated substitutions are a parameter. Refuted: abs of a complex argument (C15_abs_complex), dependence on nested symbolic functions (C15_nested_functions). C15_derivative_unconditional drops the condition on the power rules for expressions with safe powers and without asin, acos, asinh and acosh."
 },
 "C16": {
  "status": "partial",
  "note": "values agree when no replacement mentions a later target; refuted by [(x,y),(y,z)] (C16_chain) and [(x,0),(y,zoo)] (C16_zero_times_infinity)"
 },
 "C17": {
  "status": "proved",
  "note": "value of the result equals the value under the updated assignment; for expressions made of interpreted nodes, exact floats, and runs whose power rules are laws under the assignment (LawfulRunOn); code's own licence decisions are refuted in C52; C17_unconditional drops the condition on the power rules for integer exponents"
 },
 "C18": {
  "status": "proved",
  "note": "For every plain expression (interpreted nodes only, exact floats) and every lawful run: the result of distribute has the value of the input wherever the input has one. C18_zero_exponent: raising a sum to an exponent that distributes to zero fails an internal assertion instead of giving one. C18_distribute_unconditional drops the condition on the run for integer exponents."
 },
 "C19": {
  "status": "proved",
  "note": "For every plain expression and list of terms, every lawful run: the result of collect has the value of the input wherever the input has one; numeric terms are rejected. C19_collect_unconditional drops the condition on the run for integer exponents."
 },
 "C20": {
  "status": "proved",
  "note": "For scalars and matrices of plain expressions, any counts and threshold, lawful runs, and new variables that do not occur in the input: definitions refer to earlier variables only, the rewritten expressions have the original values, and so do those obtained by substituting back last to first. C20_capture: the default names v0, v1, ... are not made fresh and capture a variable of that name in the input. C20_values_unconditional drops the condition on the run for integer exponents."
 },
 "C21": {
  "status": "partial",
  "note": "sound for plain and tame expressions; refuted in general by C21_log and C21_power"
 },
 "C22": {
  "status": "proved",
  "note": "Every comparison decided on construction is true; undecided comparisons keep their value. Floats compare exactly."
 },
 "C23": {
  "status": "proved",
  "note": "All one-argument functions and atan2, for runs whose power rules are lawful (LawfulRun); float evaluation is taken as exact. floor of a float outside 64 bits is shown to be undefined behaviour. C23_function_unconditional and C23_atan2_unconditional drop the condition on the run for arguments with safe powers."
 },
 "C24": {
  "status": "proved",
  "note": "where, max, min and iverson; the element-wise matrix form is not modelled."
 },
 "C25": {
  "status": "proved",
  "note": "All shapes and index values for which the int arithmetic of the code does not overflow; get_block and make_zeros overflow for large arguments (C25_block_overflow_refuted, C25_zeros_overflow_refuted)."
 },
 "C26": {
  "status": "proved",
  "note": "Entries in any type whose operations compute in a commutative ring; entry operations are assumed to return a value."
 },
 "C27": {
  "status": "proved",
  "note": "Any field, any shape with 1 <= rows <= cols, any pivot sequence; the condition that pivots are non-zero is part of the property."
 },
 "C28": {
  "status": "partial",
  "note": "Sizes 1 to 3 unconditionally over any commutative ring; all sizes when the zero test is exact; larger sizes under the condition that symbolic pivots are non-zero. The unconditional statement is false (C28_zero_pivot); a 0x0 matrix is rejected."
 },
 "C29": {
  "status": "proved",
  "note": "Over any commutative ring; inverse over any field."
 },
 "C30": {
  "status": "proved",
  "note": "Over any commutative ring."
 },
 "C31": {
  "status": "proved",
  "note": "Over the reals, all rotation matrices, every branch; also the opposite round trip up to sign."
 },
 "C32": {
  "status": "proved",
  "note": "Exact real semantics; the rotation is the matrix exponential of the cross product matrix. Below epsilon only unit norm is claimed (the code uses an approximation there)."
 },
 "C33": {
  "status": "proved",
  "note": "Also that the left Jacobian is the integral of the exponential map and the derivative of the rotation. The inverse divides by zero at angle pi (C33_inverse_divides_by_zero_at_pi)."
 },
 "C34": {
  "status": "proved",
  "note": "C34_outputs, C34_optimised (after all passes), C34_types. Exact complex arithmetic; the sign rules used by power::create must be laws under the assignment (LawfulLowering); reciprocals of a zero base and floor/signum of non-real arguments excluded (NotesOk). Compound expressions and struct outputs are not modelled. C34_min_factor: a product with factor INT64_MIN cannot be lowered. C34_outputs_unconditional drops the condition on the power rules where powers have integer exponents, or sums, variables or constants as bases."
 },
 "C35": {
  "status": "proved",
  "note": "Exact arithmetic in an arbitrary commutative ring; operations other than sums, products, negations, copies, integer constants and casts of integer constants are arbitrary functions. Single block, types not modelled. Uniqueness is stated for blocks without phi functions (the pass runs before control flow is introduced) and excludes sinks."
 },
 "C36": {
  "status": "proved",
  "note": "Validity of every factorisation found by the search, and value preservation for every valid choice, any number of passes, any commutative ring. Exact arithmetic; the type of a product is a parameter that decides the cast of the constant one."
 },
 "C37": {
  "status": "proved",
  "note": "Exact arithmetic in an arbitrary commutative ring; operations other than sums, products, negations, copies, integer constants and casts of integer constants are arbitrary functions. Single block, types not modelled. All pair choices, plus termination with the pairs the program chooses."
 },
 "C38": {
  "status": "proved",
  "note": "Exact arithmetic in an arbitrary commutative ring; operations other than sums, products, negations, copies, integer constants and casts of integer constants are arbitrary functions. Single block, types not modelled."
 },
 "C39": {
  "status": "proved",
  "note": "Acyclic blocks are sorted, cyclic ones rejected by the assertion."
 },
 "C40": {
  "status": "proved",
  "note": "Conversion of a single-block program to blocks (ir_control_flow_converter), with and without conditionals converted, including copy elimination: succeeds, one entry block, every value is read after it is computed, no operation is done twice, outputs are those of the input program for every interpretation; operations needed only for one branch or only for an optional output are done only there."
 },
 "C41": {
  "status": "partial",
  "note": "Proved for C++, Rust and Python for every operation tree outside listed cases; each listed case that is excluded (conditional or sign function below a sum or product, double negation, least integer, copies, negated conversions in Rust) is refuted by its own theorem. Construction of matrices and structs is covered by C56."
 },
 "C42": {
  "status": "partial",
  "note": "Grammar with unique reading; the text has the value of the expression wherever it has no pole (C42_text_partial). Missing: points where only the text has a pole (C42_pole, refuted), names used twice (C42_same_name, refuted), texts with /1/ (reciprocal of a reciprocal, not built by the constructors); the least integer in a sum has no text (C42_least_integer)."
 },
 "C43": {
  "status": "proved",
  "note": "Over all histories of create, set_operation, replace_with, remove and replace_operand_pair on existing values; the error cases are characterised exactly."
 },
 "C44": {
  "status": "proved",
  "note": "Over all insert/remove histories, by refinement to a map from handles to values."
 },
 "C45": {
  "status": "proved",
  "note": "All dimensions, strides and nested blocks. Eigen maps with arbitrary strides under the usual stride condition."
 },
 "C46": {
  "status": "proved",
  "note": "All histories whose rounded sizes fit the address space; outside that range C46_huge_request_overlaps shows the overlap."
 },
 "C47": {
  "status": "proved",
  "note": "For all nested types with unique field names (the constructor's own check); also the numeric type of each element."
 },
 "C48": {
  "status": "proved",
  "note": "Range-for (pre-increment) iteration over any width. The postfix increment can stop on a clear bit (C48_postfix_stops_on_clear_bit)."
 },
 "C49": {
  "status": "proved",
  "note": ""
 },
 "C50": {
  "status": "partial",
  "note": "Proved for member lists of the right length whose members the API can hand out (C50_rebuild, C50_rebuild_construction, C50_members). A list of the wrong length is not always refused: C50_prefix_accepted shows leading members of a value accepted as the whole value."
 },
 "C51": {
  "status": "proved",
  "note": "Composition of all the passes as apply_simplifications runs them; termination included."
 },
 "C52": {
  "status": "partial",
  "note": "value proved where the power rules used are laws; 'rules that are not laws are never used' is refuted by C52_log_square, C52_complex_exponent and C52_float_power; C52_power_unconditional: integer exponents, or bases that are no products, powers, exponentials or floats, need no condition"
 },
 "C53": {
  "status": "partial",
  "note": "all targets other than sums, products and powers in full; sums without a float term; products and powers whose value is not zero and without a float factor; the remaining cases are refuted by C53_float_sum, C53_float_product, C53_zero_product, C53_zero_power (exponents of value zero are not covered)"
 },
 "C54": {
  "status": "partial",
  "note": "Conversion of the blocks of C40 to structured code (ast_conversion.cc with find_merge_point). C54_outputs_partial: succeeds, and the statements write every output once with its value, with correct scoping, for every interpretation; condition: every output struct has a constructor used for nothing else. C54_struct_outputs_fail and C54_struct_arguments_fail show that the generator stops with an assertion otherwise."
 },
 "C55": {
  "status": "proved",
  "note": "transpile_to_ast from the outputs to the statements, chaining C34, C51 and C54. Limits as in C34 (exact arithmetic, lawful power rules, NotesOk) and: scalar and matrix outputs, no external function calls. C55_transpile_unconditional drops the condition on the power rules where powers have integer exponents, or sums, variables or constants as bases."
 },
 "C56": {
  "status": "partial",
  "note": "Proved for all bodies whose operations are fine in the sense of C41, with three conditions that are needed: the value of a Rust function does not begin with a conditional unless it is one (refuted by C56_rust_tail), the first element of a constructed Eigen matrix is not a conditional or comparison (refuted by C56_cpp_matrix), a Python branch is not empty (C56_python_empty). Signatures and the conversions of arguments at the top of the body are not modelled."
 },
 "C57": {
  "status": "partial",
  "note": "Proved for functions whose argument names are distinct from each other's derived names and from v followed by digits, and whose statements have a translation (no external calls or struct outputs). Without the condition on names the claim is false of the code (C57_clash, C57_views_clash, C57_switches_clash)."
 },
 "C58": {
  "status": "partial",
  "note": "Proved for the bodies of C56 and the names of C57 (outside these the claim is false of the code, see C56 and C57); outputs are numbers and matrices, not structs; no external functions; Python with PyTorch is not covered; numbers are exact; the machine of the text has to compute the operations as the program means them (Computes, Lawful). Signatures and conversions of arguments at the top of the body are not modelled."
 },
 "C59": {
  "status": "partial",
  "note": "Proved for the expressions of C34, bodies of C56 and names of C57 (outside these the claim is false of the code). Arithmetic is exact, also for complex numbers (Exact); conversions of integers to other number types do not change them; outputs are numbers and matrices, not structs; no external functions or compound arguments; that the body has a text (stmtStms succeeds) is assumed. Signatures and conversions of arguments at the top of the body are not modelled."
 },
 "C60": {
  "status": "partial",
  "note": "Full claim refuted (C60_capture, C60_boolean_argument): it holds when no output mentions a variable with the name of an intermediate variable, and when the power rules used are laws at the values (see C21)."
 },
 "C61": {
  "status": "partial",
  "note": "Full claim refuted (C61_python_order_refuted, C61_cpp_clash_refuted, C61_keyword_refuted, C61_python_annotation_refuted): it holds when names are no keywords and no template parameters, and optional outputs come last. Calls of whole functions under the conditions of C59; PyTorch is left out."
 },
 "C62": {
  "status": "proved",
  "note": "complex values for the algebraic operations, real values where roots and angles occur; the power rules used have to be laws (C52 says when they are)"
 },
 "C63": {
  "status": "proved",
  "note": "Operations on matrices of expressions: values by a homomorphism from pairs (expression, value); LU and determinants from 4 rows on wherever pivots are non-zero, with a witness that the condition is needed."
 },
 "C64": {
  "status": "partial",
  "note": "Expr.eval refuses rational and symbolic constants and functions of numbers, contrary to its documentation (C64_documentation_refuted); MatrixExpr.eval refuses acos(floor(log(2))), which has a value (C64_number_refuted). Proved: every number that is returned is the value; integers, floats and complex numbers with such parts are returned."
 },
 "C65": {
  "status": "partial",
  "note": "get_variables of an expression that is itself a variable is empty (C65_variable_refuted); the rest is proved for all expressions."
 },
 "C66": {
  "status": "proved",
  "note": "the rules for declared functions, deferred derivatives and substitutions of variables; targets that are not variables are not covered"
 },
 "C67": {
  "status": "partial",
  "note": "The code violates the last clause: a negative order of differentiation is accepted for matrices (C67_negative_refuted). The rest is proved."
 },
 "C68": {
  "status": "partial",
  "note": "Proved for the program with blocks from which the statements are made: every run and every kind of operation. The statements themselves may compute a value twice (C68_statements_refuted), so the counts in the comment do not bound what the generated function does."
 },
 "C69": {
  "status": "partial",
  "note": "To SymPy: proved for all convertible expressions with plain names. From SymPy: proved except for 0**0, symbols that differ only in other assumptions, and simultaneous substitutions, for which the code changes the value (refuted). Matrices are not modelled."
 },
 "C70": {
  "status": "partial",
  "note": "proved except for negative indices beside a slice, which the code refuses (C70_negative_refuted), and rows without elements, where it divides by zero (C70_empty_rows_refuted)"
 },
 "C71": {
  "status": "partial",
  "note": "proved for types without opaque members; shapes of matrices are not checked by the code (C71_shapes_refuted), and types with opaque members cannot be built (C71_opaque_refuted)"
 },
 "C72": {
  "status": "partial",
  "note": "The code violates two parts: an integer parameter can never be passed (C72_integer_refuted) and parameters called self or func cannot be passed by keyword (C72_reserved_refuted). Binding, types, order and acceptance of all other calls are proved."
 },
 "C73": {
  "status": "partial",
  "note": "For ASCII strings everything is proved; for other strings the code has undefined behaviour (C73_non_ascii_refuted)."
 },
 "C74": {
  "status": "partial",
  "note": "Proved for expressions whose operations have operands and in which functions and types are identified by their names; the code violates the rest (C74_empty_refuted, C74_names_refuted)."
 },
 "C75": {
  "status": "partial",
  "note": "Proved: the description lists parameters then outputs in order with distinct names and consecutive indices, parameters are bound to values made of the elements of their arguments, every output is found under its key with its type, at most one return value. Acceptance for ordinary annotated parameters. Positional-only and keyword-only parameters and opaque outputs are refuted."
 },
 "C76": {
  "status": "partial",
  "note": "Proved: the text is given by the recursive equations for trees in which no kind is nested more than 31 deep; counters are restored in every case; formatting ends whatever format() is called on; methods that return super_format change nothing; several definitions are joined by an empty line. Deeper nesting is refuted."
 },
 "C77": {
  "status": "partial",
  "note": "Proved for operands without floats under the conditions of C12_shape and C14_product (plain bases, numeric exponents for equal bases, no sum next to a number); refuted for sums with zoo and products of radicals."
 },
 "C78": {
  "status": "proved",
  "note": "Results do not depend on the depth. That a finite stack suffices for every call is a separate question and is not claimed."
 },
 "C79": {
  "status": "proved",
  "note": "Values of floats are exact, as in C22."
 },
 "C80": {
  "status": "proved",
  "note": "Any number of threads and any schedule of fewer than 2^64 - 1 steps; the 64 bit counter wraps after that."
 },
 "C81": {
  "status": "proved",
  "note": "All quaternions, matrices, iterables and names."
 },
 "C82": {
  "status": "partial",
  "note": "Proved for expressions without not-a-number constants and without two types or functions of one name, sorting for rational constants up to 2^31; with a not-a-number constant the claim is false (C82_nan_refuted)."
 },
 "C83": {
  "status": "partial",
  "note": "Proved except for -2^63 as numerator or denominator of sym.rational, which is undefined behaviour (C83_rational_refuted)."
 },
 "C84": {
  "status": "partial",
  "note": "Proved except for sums of orders above 2^31 - 1, where the addition of the orders is undefined behaviour (C84_orders_refuted)."
 }
}
