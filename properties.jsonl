{"id": "C01", "title": "Symbolic integer arithmetic is exact or raises", "statement": "Adding, subtracting, multiplying, dividing, taking the remainder, negating or taking the absolute value of integer constants returns exactly the mathematical result whenever it fits in a signed 64-bit integer, and raises an arithmetic error otherwise. A wrapped or silently wrong result is never returned.", "quantifier": "all pairs of 64-bit integers and all of the operations", "why_tests_cant": "2^128 operand pairs; overflow guards are wrong only at isolated boundaries", "anchors": ["components/core/wf/utility/checked_int.h: checked_int operators"]}
{"id": "C02", "title": "Integer factorisation is a complete prime factorisation", "statement": "The factor list computed for an integer consists of strictly increasing primes with positive exponents (preceded by -1 for negative input), its product is exactly the input, and no factor is missing.", "quantifier": "all non-zero 64-bit integers for which the trial-division counter does not overflow", "why_tests_cant": "must hold for every integer; a wrong wheel increment skips only particular primes", "anchors": ["components/core/wf/integer_utils.h: compute_prime_factors, wheel_factorization"]}
{"id": "C03", "title": "Integer powers are exact or raise", "statement": "Raising an integer to a non-negative integer power returns exactly base^exponent when that value fits in 64 bits and raises an overflow error exactly when it does not; intermediate squarings never raise spuriously.", "quantifier": "all integer bases and non-negative exponents", "why_tests_cant": "unbounded exponents and boundary cases such as (-2)^63", "anchors": ["components/core/wf/integer_utils.h: integer_power"]}
{"id": "C04", "title": "Rational constants have one canonical form", "statement": "Every rational constant a user can create has positive denominator coprime to its numerator, represents the requested quotient, and two rational constants are identical exactly when they are the same number.", "quantifier": "all numerator/denominator pairs with non-zero denominator that do not overflow", "why_tests_cant": "all pairs of 64-bit integers", "anchors": ["components/core/wf/expressions/numeric_expressions.h: rational_constant::create_pair"]}
{"id": "C05", "title": "Rational arithmetic is exact or raises", "statement": "Sums, differences, products and quotients of rational constants equal the exact rational result in canonical form or raise; the remainder operator returns the fractional part of the quotient; the split into integer part and remainder recomposes the input with a remainder of magnitude below one and the sign of the input.", "quantifier": "all pairs of canonical rational constants", "why_tests_cant": "all 64-bit numerators and denominators", "anchors": ["components/core/wf/expressions/numeric_expressions.h: rational_constant operators, normalized"]}
{"id": "C06", "title": "Numeric ordering agrees with value", "statement": "Comparing integer and rational constants gives the same answer as comparing the numbers they denote, and is a strict total order.", "quantifier": "all pairs and triples of integer and rational constants", "why_tests_cant": "cross multiplication must be right for all signs and magnitudes", "anchors": ["components/core/wf/expressions/numeric_expressions.h: operator<, order_struct"]}
{"id": "C07", "title": "Integer/float comparison is exact", "statement": "Comparing an integer constant with a floating point constant returns the order of the exact real values (not of the rounded values), reports no order for NaN, and treats infinities as beyond every integer.", "quantifier": "all 64-bit integers and all doubles", "why_tests_cant": "2^128 pairs; naive conversion is wrong only near 2^53..2^63", "anchors": ["components/core/wf/integer_utils.h: compare_int_float"]}
{"id": "C08", "title": "Angles are reduced to the equivalent angle in (-pi, pi]", "statement": "Reducing a rational multiple of pi yields a multiple in (-1, 1] that differs from the input by an even integer, so every 2*pi-periodic function has the same value.", "quantifier": "all rational multiples", "why_tests_cant": "all rationals, both signs, all parities", "anchors": ["components/core/wf/expressions/numeric_expressions.h: mod_pi_rational", "components/core/wf/functions.cc: cos, sin"]}
{"id": "C09", "title": "Powers of numeric constants keep their value", "statement": "When a numeric base is raised to a numeric exponent and the library returns a closed form (integers, rationals, products of roots, powers of -1 and i), that form denotes the same principal complex value as the original power, and 0^0 and 0^negative are reported as undefined and complex infinity.", "quantifier": "all integer/rational bases and integer/rational exponents", "why_tests_cant": "arbitrary factorisations, denominators and signs", "anchors": ["components/core/wf/expressions/power.cc: pow_maybe_simplify, factorize_rational_exponent, imaginary_unit_power"]}
{"id": "C10", "title": "Expression order is a strict total order consistent with identity", "statement": "The canonical order of expressions is antisymmetric, transitive and total, and two expressions compare equal exactly when they are identical.", "quantifier": "all pairs and triples of expression trees of any depth", "why_tests_cant": "trees are unbounded; sorting is undefined behaviour if the comparator is not a strict weak order", "anchors": ["components/core/wf/expression.cc: order_struct<scalar_expr>", "components/core/wf/utility/ordering.h"]}
{"id": "C11", "title": "Identical expressions have equal hashes", "statement": "Whenever two expressions are identical their hashes agree, so hash tables keyed on expressions find every earlier equal key.", "quantifier": "all pairs of expression trees", "why_tests_cant": "trees are unbounded, floats have special values", "anchors": ["components/core/wf/expression_variant.h: is_identical_to, hash", "components/core/wf/utility/hashing.h"]}
{"id": "C12", "title": "Sums keep their value when canonicalised", "statement": "Adding any list of expressions yields an expression whose value, under every assignment where all operands are defined, is the sum of the operands' values; the result has no nested sum, at most one numeric constant and no two terms that differ only by a numeric coefficient.", "quantifier": "all operand lists of any length and all variable assignments", "why_tests_cant": "unbounded operand lists and assignments", "anchors": ["components/core/wf/expressions/addition.cc: addition::from_operands, addition_parts"]}
{"id": "C13", "title": "Products keep their value when canonicalised", "statement": "Multiplying any list of expressions yields an expression whose value, under every assignment where all operands are defined and powers combine lawfully, is the product of the operands' values.", "quantifier": "all operand lists of any length and all variable assignments", "why_tests_cant": "unbounded operand lists and assignments", "anchors": ["components/core/wf/expressions/multiplication.cc: multiplication::from_operands, multiplication_parts"]}
{"id": "C14", "title": "Sums and products do not depend on operand order", "statement": "Permuting the operands of a sum or product gives an identical expression.", "quantifier": "all operand lists and permutations", "why_tests_cant": "factorially many permutations of unbounded lists", "anchors": ["components/core/wf/expressions/addition.cc: create_addition", "components/core/wf/expressions/multiplication.cc: create_multiplication"]}
{"id": "C15", "title": "Symbolic derivative is the derivative", "statement": "Differentiating an expression with respect to a variable gives an expression whose value, at each point where the expression is differentiable by the calculus rules (no kinks, no singularities), is the derivative of the function the expression denotes.", "quantifier": "all expression trees over the supported functions and all real points of the domain", "why_tests_cant": "unbounded trees and uncountably many points", "anchors": ["components/core/wf/derivative.cc: derivative_visitor"]}
{"id": "C16", "title": "Ordered substitution applies the pairs in order", "statement": "subs with a list of (target, replacement) pairs gives the same result as applying the pairs one after another, as the documentation promises.", "quantifier": "all expressions and all lists of variable substitutions", "why_tests_cant": "the shortcut used for leaf replacements is taken only for particular list shapes", "anchors": ["components/core/wf/substitute.cc: substitute_any, is_valid_for_unordered_subs"]}
{"id": "C17", "title": "Substituting a variable is evaluation in an updated environment", "statement": "The value of an expression after replacing variables equals the value of the original expression with those variables bound to the replacements' values.", "quantifier": "all expressions, replacement maps and assignments", "why_tests_cant": "unbounded trees", "anchors": ["components/core/wf/substitute.cc: substitute_variables_visitor"]}
{"id": "C18", "title": "Distributing keeps the value", "statement": "Expanding products over sums (and integer powers of sums) does not change the value of an expression.", "quantifier": "all expressions and assignments", "why_tests_cant": "unbounded trees and powers", "anchors": ["components/core/wf/distribute.cc"]}
{"id": "C19", "title": "Collecting keeps the value", "statement": "Collecting terms by powers of chosen sub-expressions does not change the value of an expression.", "quantifier": "all expressions, all lists of collected terms, all assignments", "why_tests_cant": "unbounded sums and nested collection", "anchors": ["components/core/wf/collect.cc"]}
{"id": "C20", "title": "Common sub-expression elimination is invertible", "statement": "Substituting the extracted definitions back, last to first, into the rewritten expressions yields expressions with the original values, and each definition only refers to earlier definitions.", "quantifier": "all expression lists and assignments", "why_tests_cant": "unbounded DAGs", "anchors": ["components/core/wf/cse.cc"]}
{"id": "C21", "title": "Number-set classification is sound", "statement": "If an expression is classified (positive, non-negative, real, complex) given the declared sets of its variables, its value lies in that set for every assignment that respects the declarations.", "quantifier": "all expressions and all assignments respecting the declarations", "why_tests_cant": "unbounded trees, uncountably many values; simplifications rely on the answer", "anchors": ["components/core/wf/number_set.cc", "components/core/wf/number_set.h"]}
{"id": "C22", "title": "Comparisons simplify only to the truth", "statement": "When comparing two expressions yields a constant true or false, that is the truth value of the comparison for every assignment respecting the declared sets.", "quantifier": "all pairs of expressions and assignments", "why_tests_cant": "unbounded inputs", "anchors": ["components/core/wf/expressions/relational.cc"]}
{"id": "C23", "title": "Function simplifications keep the value", "statement": "Closed forms returned by the trigonometric, hyperbolic, logarithm, absolute value, sign, floor, min and max functions denote the same value as the function they replace.", "quantifier": "all arguments", "why_tests_cant": "all rational multiples of pi and all symbolic arguments", "anchors": ["components/core/wf/functions.cc"]}
{"id": "C24", "title": "Piecewise expressions select the branch of the condition", "statement": "where(c, a, b) denotes a when c holds and b otherwise, including when it is simplified on construction, and max/min built from it are the larger/smaller value.", "quantifier": "all conditions, branches and assignments", "why_tests_cant": "unbounded expressions", "anchors": ["components/core/wf/expressions/conditional.cc", "components/core/wf/functions.cc: max, min, where"]}
{"id": "C25", "title": "Matrix indexing operations agree with the mathematical matrix", "statement": "Element access, blocks, transposition, reshape, vectorisation, diagonals, stacking horizontally, vertically and block-diagonally, identity and zeros give exactly the entries their definitions prescribe, and out-of-range or mismatched requests are rejected.", "quantifier": "all shapes, indices and entries", "why_tests_cant": "all sizes; off-by-one and row/column swaps show only on particular shapes", "anchors": ["components/core/wf/expressions/matrix.cc", "components/core/wf/matrix_functions.cc"]}
{"id": "C26", "title": "Matrix products and sums are the mathematical ones", "statement": "The product, sum, difference and scalar multiple of matrices have the entries linear algebra prescribes and are rejected exactly when dimensions disagree.", "quantifier": "all shapes and entries in any commutative ring", "why_tests_cant": "all sizes", "anchors": ["components/core/wf/expressions/matrix.cc: operator*, operator+, operator-"]}
{"id": "C27", "title": "Full-pivot LU factorisation reproduces the matrix", "statement": "The factors returned for a matrix satisfy P*L*U*Q = A with P and Q permutation matrices, L unit lower triangular and U upper triangular (trapezoidal), whenever every pivot is non-zero.", "quantifier": "all matrix shapes and entries in any field, under any pivot choice policy", "why_tests_cant": "all sizes and pivot orders", "anchors": ["components/core/wf/matrix_functions.cc: factorize_full_piv_lu, full_pivot_lu"]}
{"id": "C28", "title": "Determinant is the determinant", "statement": "The symbolic determinant of a square matrix equals the Leibniz determinant for every size, including the sign from row and column permutations.", "quantifier": "all sizes and entries in any field", "why_tests_cant": "all sizes; sign errors appear only for particular pivot sequences", "anchors": ["components/core/wf/matrix_functions.cc: determinant, compute_det22, compute_det33"]}
{"id": "C29", "title": "Quaternion algebra laws", "statement": "Quaternion multiplication is associative with unit 1, conjugation reverses products, the squared norm is multiplicative, and a non-zero quaternion times its inverse is 1.", "quantifier": "all quaternions over any commutative ring (field for the inverse)", "why_tests_cant": "identities in 8 to 12 free variables", "anchors": ["components/core/wf/geometry/quaternion.cc: operator*, inverse, conjugate"]}
{"id": "C30", "title": "Quaternion rotations are rotations", "statement": "A unit quaternion's rotation matrix is orthogonal with determinant 1, rotating a vector equals multiplying by that matrix, and the matrix of a product is the product of the matrices.", "quantifier": "all unit quaternions and vectors", "why_tests_cant": "identities over a continuum", "anchors": ["components/core/wf/geometry/quaternion.cc: to_rotation_matrix, rotate"]}
{"id": "C31", "title": "Rotation matrix to quaternion conversion inverts", "statement": "Converting a rotation matrix to a quaternion gives a unit quaternion whose rotation matrix is the input, whichever of the four branches is taken.", "quantifier": "all 3x3 rotation matrices", "why_tests_cant": "branch boundaries of a continuum", "anchors": ["components/core/wf/geometry/quaternion.cc: from_rotation_matrix"]}
{"id": "C32", "title": "Axis-angle and rotation-vector conversions round trip", "statement": "Converting an axis and angle or a rotation vector to a quaternion gives a unit quaternion representing that rotation, and converting back recovers an equivalent rotation.", "quantifier": "all angles and unit axes, all rotation vectors", "why_tests_cant": "continuum with singular points", "anchors": ["components/core/wf/geometry/quaternion.cc: from_angle_axis, to_angle_axis, from_rotation_vector, to_rotation_vector"]}
{"id": "C33", "title": "Left Jacobian of SO(3) and its inverse are inverse to each other", "statement": "The closed forms for the left Jacobian and for its inverse multiply to the identity for every rotation vector whose angle is not zero and at which both are defined; the left Jacobian is the integral of the exponential map along the rotation vector, and it maps a perturbation of the rotation vector to the resulting left rotation increment.", "quantifier": "all rotation vectors outside the singular angles", "why_tests_cant": "matrix identity over a continuum", "anchors": ["components/core/wf/geometry/quaternion.cc: left_jacobian_of_so3, inverse_left_jacobian_of_so3"]}
{"id": "C34", "title": "Lowering an expression to the intermediate form keeps its value", "statement": "The straight-line program produced from an expression computes the expression's value for all inputs, including repeated multiplication for integer and half-integer powers, reciprocal for negative powers and numeric type promotion.", "quantifier": "all expressions and inputs", "why_tests_cant": "unbounded trees and exponents", "anchors": ["components/core/wf/code_generation/ir_form_visitor.cc"]}
{"id": "C35", "title": "Duplicate elimination keeps every output", "statement": "Removing duplicated and unused operations from the intermediate program leaves the value of every output unchanged for all inputs, and leaves no two equal operations in a block.", "quantifier": "all well-formed straight-line programs and inputs", "why_tests_cant": "unbounded programs", "anchors": ["components/core/wf/code_generation/control_flow_graph.cc: local_value_numbering, eliminate_duplicates"]}
{"id": "C36", "title": "Factorising sums of products keeps the value", "statement": "Pulling common factors out of a sum of products yields a program with the same value, for every choice the search makes; every product is used in exactly one group and a step only removes factors common to all products of its group.", "quantifier": "all sums of products with up to 64 distinct factors and 64 terms (others are left alone), values in any commutative ring", "why_tests_cant": "combinatorial search over subsets", "anchors": ["components/core/wf/code_generation/factorizer.cc", "components/core/wf/code_generation/control_flow_graph.cc: factorize_sum_of_products"]}
{"id": "C37", "title": "Splitting n-ary operations into pairs keeps the value", "statement": "Binarising sums and products by shared operand pairs leaves the value of every operation unchanged.", "quantifier": "all programs, all pair choices", "why_tests_cant": "unbounded programs and multiplicities", "anchors": ["components/core/wf/code_generation/control_flow_graph.cc: binarize_operations_of_type", "components/core/wf/code_generation/ir_value.cc: replace_operand_pair", "components/core/wf/code_generation/binarizer.cc"]}
{"id": "C38", "title": "Negation insertion keeps the value", "statement": "Replacing products with -1 factors by negations leaves all values unchanged.", "quantifier": "all products with any number of -1 factors", "why_tests_cant": "parity over unbounded operand lists", "anchors": ["components/core/wf/code_generation/control_flow_graph.cc: insert_negations"]}
{"id": "C39", "title": "Topological sorting of operations is complete and dependency respecting", "statement": "Sorting the operations of an acyclic block yields a permutation of the block in which every operation follows its operands.", "quantifier": "all acyclic blocks", "why_tests_cant": "unbounded graphs", "anchors": ["components/core/wf/code_generation/control_flow_graph.cc: topological_sort_values"]}
{"id": "C40", "title": "Conditionals become branches without changing outputs", "statement": "Converting select operations into if/else control flow leaves every output unchanged for every input, every variable is assigned before it is read, and an operation used only in one branch is evaluated only there.", "quantifier": "all programs with nested and shared conditionals, all inputs", "why_tests_cant": "unbounded nesting and sharing", "anchors": ["components/core/wf/code_generation/ir_control_flow_converter.cc"]}
{"id": "C41", "title": "Emitted expression text parses back to the intended operation tree", "statement": "The text emitted for an operation tree, read with the target language's operator precedence and associativity, denotes the same operation tree.", "quantifier": "all operation trees the generators accept", "why_tests_cant": "all nestings of operators; a missing parenthesis matters only for particular nestings", "anchors": ["components/core/wf/code_generation/ast_conversion.cc: visit_operation_argument", "components/core/wf/code_generation/cpp_code_generator.cc", "components/core/wf/code_generation/rust_code_generator.cc", "components/core/wf/code_generation/python_code_generator.cc", "components/core/wf/code_generation/ir_value.cc: operation_precedence"]}
{"id": "C42", "title": "Printed expressions parse back to the same value", "statement": "The plain text form of an expression, read with the usual precedence of +, -, *, /, **, denotes the same value as the expression.", "quantifier": "all arithmetic expressions", "why_tests_cant": "all nestings", "anchors": ["components/core/wf/plain_formatter.cc"]}
{"id": "C43", "title": "Operand and consumer lists stay mirror images", "statement": "After any sequence of creating, rewiring, replacing and removing operations, an operation lists another as operand exactly as often as the other lists it as consumer.", "quantifier": "all operation histories", "why_tests_cant": "arbitrary histories", "anchors": ["components/core/wf/code_generation/ir_value.cc", "components/core/wf/code_generation/ir_consumer_vector.h"]}
{"id": "C44", "title": "The consumer container behaves like a multiset with stable handles", "statement": "Each inserted consumer stays reachable through the handle returned at insertion until it is removed, iteration visits exactly the live consumers, and size reports their number.", "quantifier": "all insert/remove histories", "why_tests_cant": "arbitrary histories with slot reuse", "anchors": ["components/core/wf/code_generation/ir_consumer_vector.h: consumer_vector"]}
{"id": "C45", "title": "Spans address distinct, in-range elements", "statement": "Element access of a span and of any nested block of it reads the element of the underlying buffer the strides prescribe; distinct index tuples of row- and column-major spans address distinct elements inside the buffer.", "quantifier": "all dimensions, strides and nested blocks", "why_tests_cant": "all shapes and nesting depths", "anchors": ["components/runtime/wrenfold/span.h", "components/runtime/wrenfold/span_detail.h"]}
{"id": "C46", "title": "The stack allocator never hands out overlapping memory", "statement": "Blocks handed out and not yet returned never overlap, lie inside the arena and are aligned, whatever the order of allocations and frees.", "quantifier": "all allocate/deallocate histories with sizes that do not overflow the address space", "why_tests_cant": "arbitrary histories", "anchors": ["components/core/wf/utility/stack_allocator.h"]}
{"id": "C47", "title": "Struct members map to flat indices one to one", "statement": "For nested struct and matrix types, the access path of flat element i exists for every i below the total size, distinct indices give distinct paths, and following the path reaches the i-th element in declaration order.", "quantifier": "all nested types and indices", "why_tests_cant": "unbounded nesting", "anchors": ["components/core/wf/code_generation/types.cc: determine_access_sequence"]}
{"id": "C48", "title": "Iterating set bits visits exactly the set bits", "statement": "Iterating a bit set yields the positions of its set bits in increasing order, each once.", "quantifier": "all bit sets of any width", "why_tests_cant": "2^64 sets", "anchors": ["components/core/wf/utility/bitset_range.h"]}
{"id": "C49", "title": "Lexicographic ordering laws", "statement": "Ordering of sequences, strings and tuples built from an element order that is a strict total order is itself a strict total order in which a proper prefix comes first.", "quantifier": "all sequences", "why_tests_cant": "unbounded sequences", "anchors": ["components/core/wf/utility/ordering.h: lexicographical_order, order_by"]}
{"id": "C50", "title": "Struct values rebuilt from their own members collapse to the original", "statement": "Constructing a struct from all the members of an existing struct value in order yields that value; any other member list yields a value whose members are exactly those given.", "quantifier": "all types and member lists", "why_tests_cant": "unbounded types", "anchors": ["components/core/wf/expressions/custom_type_expressions.cc: custom_type_construction::create", "components/core/wf/expressions/compound_expression_element.cc"]}
{"id": "C51", "title": "Optimising a program keeps all its outputs", "statement": "Optimising the intermediate program (removing duplicates, factorising sums, splitting into pairs, inserting negations), with any number of factorisation passes and with or without splitting, always ends and writes the same value to every output as the unoptimised program.", "quantifier": "all straight-line programs in dependency order, all settings, all interpretations of the operations in a commutative ring", "why_tests_cant": "the passes feed each other; a defect may need a particular shape produced by an earlier pass", "anchors": ["components/core/wf/code_generation/control_flow_graph.cc: apply_simplifications, factorize_sums, merge_multiplications_in_block, eliminate_needless_copies"]}
{"id": "C52", "title": "Powers keep their value when canonicalised", "statement": "Raising any expression to any expression yields an expression whose value, under every assignment where the principal power of the operands' values is defined and the power rules used are laws there, is that power; rules that are not laws are never used.", "quantifier": "all bases, exponents and variable assignments", "why_tests_cant": "branch cuts: a rule such as sqrt(x^2) -> x is right on a half line and wrong elsewhere", "anchors": ["components/core/wf/expressions/power.cc: power::create, pow_maybe_simplify", "components/core/wf/number_set.cc"]}
{"id": "C53", "title": "Replacing an expression by an equal one keeps the value", "statement": "If the target and the replacement of a substitution have the same value under an assignment, then the result of the substitution has the value of the original expression under it, wherever the original has one. This includes the partial matches inside larger sums, larger products, products of powers and powers of the same base.", "quantifier": "all expressions, targets, replacements and variable assignments", "why_tests_cant": "partial matching divides exponents, subtracts coefficients and depends on zero values and on which factors are shared; only particular combinations go wrong", "anchors": ["components/core/wf/substitute.cc: substitute_add_visitor, substitute_mul_visitor, substitute_pow_visitor, substitute_single_impl", "components/core/wf/expressions/multiplication.cc: multiplication_parts"]}
{"id": "C54", "title": "The structured function body computes the outputs", "statement": "The body of the generated function (declarations, assignments, nested branches, optional outputs, return) can always be produced for a function that the user describes; it never uses a variable outside the block it is declared in, never declares one twice, never reads one before it has a value and never gives one a second value; and it writes every output exactly once, with the value that the described expressions have, except that optional outputs are written only if the caller asks for them.", "quantifier": "all function descriptions (any number of outputs, nested and shared conditionals, optional outputs, return values, matrices, structs), all argument values, with and without conversion of conditionals to branches", "why_tests_cant": "which values become variables, which are written in place and where variables are declared depends on how all uses are spread over nested branches; a wrong decision needs a particular nesting to be seen", "anchors": ["components/core/wf/code_generation/ast_conversion.cc: ast_form_visitor, find_conditional_output_values, push_back_output_operations", "components/core/wf/code_generation/ir_block.cc: find_merge_point", "components/core/wf/code_generation/ir_control_flow_converter.cc"]}
{"id": "C55", "title": "The generated statements compute what the user wrote", "statement": "For a function with scalar and matrix outputs, everything from the expressions to the statements of the generated body (lowering, duplicate elimination, factorisation, binarisation, negation insertion, conversion of conditionals to branches, construction of statements) works together: once the expressions are lowered no later stage fails, whatever the optimisation options; the statements run to their end without misuse of a variable; they write exactly the outputs of the function, each once (of the optional ones those that the caller wants), and each with the value of the expression that the user gave for it.", "quantifier": "all lists of outputs with distinct names and at most one return value, all expressions in them whose lowering succeeds, all optimisation options, all argument values for which the expressions have a value", "why_tests_cant": "a stage may rely on something about its input that an earlier stage does not guarantee for some expression; no finite set of functions shows that the stages fit together for all of them", "anchors": ["components/wrapper/pywrenfold/codegen_wrapper.cc: transpile_to_ast", "components/core/wf/code_generation/control_flow_graph.cc: control_flow_graph, apply_simplifications, convert_conditionals_to_control_flow", "components/core/wf/code_generation/ast_conversion.cc: create_ast"]}
{"id": "C56", "title": "The statements of a generated function are read by the target language as the statements that are meant", "statement": "The body that is printed for a C++, Rust or Python function (declarations, assignments, outputs, matrices filled element by element, constructed structs and matrices, branches, optional outputs, the return value, comments, indentation) is a block of the target language, and the target language reads it as the statements that were meant, in the same order, nested in the same way, with every element at its row and column, and with the operations that were meant; no other reading is possible.", "quantifier": "all bodies built from the statements that the generators know, of any depth and length, whose operations are printed correctly (C41); all names, types and sizes; for Python all targets, positive indentations and both ways of returning outputs", "why_tests_cant": "whether a text is read as meant depends on what stands next to what: a value in front of a semicolon, a line break inside brackets, an `if` where a statement may begin; tests compile a handful of functions", "anchors": ["components/core/wf/code_generation/cpp_code_generator.cc: operator() for statements, construct_matrix, construct_custom_type", "components/core/wf/code_generation/rust_code_generator.cc: operator() for statements", "components/core/wf/code_generation/python_code_generator.cc: operator() for statements and function_definition", "components/core/wf/utility/strings.h: join_and_indent"]}
{"id": "C57", "title": "Names in the generated code refer to what is meant", "statement": "In the body of a generated function every name (local variables v00, v01, \u2026, arguments, outputs, the views of C++ matrices and the compute_\u2026 switches of Python) refers, under the scoping rules of the target language, to the variable that is meant: different values have different names, no declaration hides or overwrites an argument that is still needed, and the caller gets every output with the value of the described expression, and nothing for optional outputs that were not asked for.", "quantifier": "all functions (any arguments, outputs, conditionals and optional outputs), all names that the function description accepts, C++, Rust and Python, all argument values", "why_tests_cant": "whether a name is taken for another one depends on the names that users choose and on how many intermediate values the function has; tests use names like x and y", "anchors": ["components/core/wf/code_generation/ast_conversion.h: format_variable_name", "components/core/wf/code_generation/control_flow_graph.cc: value_print_width", "components/core/wf/code_generation/function_description.cc: add_argument", "components/core/wf/code_generation/cpp_code_generator.cc, python_code_generator.cc: names of views and switches"]}
{"id": "C58", "title": "Running the generated text gives the outputs", "statement": "The text of the body of a generated function, read by the rules of its language (C++, Rust, Python with NumPy or JAX) and run, comes to its end without an error and gives the caller every output with the value that the program of operations says: in the caller's object where outputs are passed by reference, as a returned value otherwise; nothing is done for an optional output that was not asked for, and Python returns None for it.", "quantifier": "all functions (any arguments, scalar and matrix outputs, conditionals, optional outputs, a return value), all options of the generators, all machines (meanings of literals, operators and library functions) that compute the operations as the program means them, all argument values", "why_tests_cant": "tests run a fixed set of generated functions in one language at a time; that reading, scoping, views, pointers, optional outputs and returned tuples fit together has to hold for every function", "anchors": ["components/core/wf/code_generation/cpp_code_generator.cc", "components/core/wf/code_generation/rust_code_generator.cc", "components/core/wf/code_generation/python_code_generator.cc", "components/core/wf/code_generation/ast_conversion.cc: create_ast"]}
{"id": "C59", "title": "Calling a generated function gives the values of the expressions", "statement": "From the expressions the user wrote to the text of the function: the body that is generated (C++, Rust, Python with NumPy or JAX) is read in one way only, and whoever calls the function gets, for every output asked for, the value of its expression for the arguments passed (a matrix: the matrix of the values of its elements), as the return value, in the caller's object, or as one of the returned values; Python returns None for outputs not asked for.", "quantifier": "all functions with scalar and matrix outputs built from the supported expressions, all options of optimisation and generators, all argument values in the domain of the expressions, all choices of optional outputs", "why_tests_cant": "tests call a fixed set of generated functions at sample points; that no expression, option or argument makes simplification, lowering, optimisation, control flow, naming and formatting disagree needs a proof of the whole chain", "anchors": ["components/wrapper/pywrenfold/codegen_wrapper.cc: transpile_to_ast", "components/core/wf/code_generation/control_flow_graph.cc", "components/core/wf/code_generation/ast_conversion.cc: create_ast", "components/core/wf/code_generation/cpp_code_generator.cc", "components/core/wf/code_generation/rust_code_generator.cc", "components/core/wf/code_generation/python_code_generator.cc"]}
{"id": "C60", "title": "Expressions rebuilt from the optimised program have the values of the function", "statement": "cse_function_description lowers a function to operations, optimises them and turns the result back into expressions. The expressions returned for the outputs, with the intermediate variables given the values of their definitions in the order returned, have the values of the outputs of the function; a matrix keeps its dimensions. The intermediate variables are distinct, and each definition uses no intermediate variable but earlier ones.", "quantifier": "all functions with scalar and matrix outputs, all options of optimisation, with and without intermediate values, all assignments of the variables where the outputs are defined", "why_tests_cant": "tests rebuild a few functions and compare trees; that shared, factorised and converted operations always give back equal expressions, and that names of intermediate variables cannot clash, is a statement about every function", "anchors": ["components/core/wf/code_generation/expr_from_ir.cc: rebuild_expression_tree", "components/wrapper/pywrenfold/codegen_wrapper.cc: cse_function_description"]}
{"id": "C61", "title": "Generated functions accept the arguments of their signature, and the body starts with them", "statement": "The signature of a generated function is accepted by its language (C++ with spans or Eigen, Rust, Python), has the declared name and parameters in the declared order, and passes inputs, outputs and optional outputs as the caller expects. The conversions at the top of the body turn what was passed into what the body uses: in C++ one view per matrix, with the declared dimensions; in Python numbers of the declared type and arrays of the declared shape. So a call of the whole function, signature and conversions included, gives the caller the values of the expressions.", "quantifier": "all functions (names, lists of arguments of any types and directions, return values), all options of the generators, all argument values and choices of optional outputs", "why_tests_cant": "tests generate a fixed set of functions; that no list of arguments makes template parameters, defaults, names or annotations clash is a statement about every signature", "anchors": ["components/core/wf/code_generation/cpp_code_generator.cc", "components/core/wf/code_generation/rust_code_generator.cc", "components/core/wf/code_generation/python_code_generator.cc", "components/core/wf/code_generation/function_description.cc"]}
{"id": "C62", "title": "Quaternions of expressions have the values of the quaternion formulas, and their tangent derivatives are true derivatives", "statement": "Every operation on symbolic quaternions (product, conjugate, negation, inverse, norms, normalization, rotation matrix, rotation of a vector, conversions from and to angle-axis, rotation vectors and rotation matrices) returns expressions whose values, under every assignment of numbers to the symbols, are the values of the corresponding formula on numbers. The derivative of the retraction is the Jacobian at zero of v -> q * exp(v), and the derivative of the local coordinates is, for a unit quaternion, the Jacobian at zero of d -> log(conj(q) * (q + d)).", "quantifier": "all quaternions of expressions, all assignments for which the operands have values (real ones where the formula takes roots or angles), with and without epsilon, all real matrices", "why_tests_cant": "tests compare at sampled angles and tolerances; agreement for all values, and that the two hard-coded substitutions give the derivative and not only something near it at the samples, are statements about all values", "anchors": ["components/core/wf/geometry/quaternion.cc", "components/core/wf/geometry/quaternion.h"]}
{"id": "C63", "title": "Matrices of expressions have the values of the matrix operations", "statement": "Sums, differences, products, multiples, negation, norms and conditional choice of matrices of expressions, LU factors, determinants and the left Jacobian of SO(3) and its inverse return expressions whose values, under every assignment of numbers to the symbols, are those of the operation on the matrices of values. From four rows on, factors and determinants have this value wherever no pivot that the elimination divides by has the value zero. Shapes that do not fit are rejected.", "quantifier": "all matrices of expressions of any size, all assignments for which the entries have values; for a conditional matrix only the chosen one has to have values", "why_tests_cant": "tests substitute a few numbers into matrices of a few sizes; the elimination chooses pivots by the structure of the expressions, so that the result is right for every assignment, and where it is not, cannot be seen from samples", "anchors": ["components/core/wf/matrix_expression.cc", "components/core/wf/matrix_functions.cc", "components/core/wf/expressions/matrix.cc", "components/core/wf/geometry/quaternion.cc", "components/core/wf/functions.cc"]}
{"id": "C64", "title": "Evaluation to numbers returns the value of the expression", "statement": "Where Expr.eval, MatrixExpr.eval or the conversion of a matrix to an array return a number or an array, it is the value of the expression and has the shape of the matrix; an array of integers comes from integer constants only. Replacing constants and functions of constants by floats keeps the value of an expression. An expression with variables is refused with a TypeError, and an expression without variables that has a value is evaluated.", "quantifier": "all expressions and matrices of expressions, all assignments; the last sentence for integers, floats and complex numbers with such parts", "why_tests_cant": "tests evaluate a few numbers; which sums and products are recognised as numbers depends on the form of the expression, which has no bound", "anchors": ["components/core/wf/numerical_casts.cc", "components/core/wf/evaluate.cc", "components/wrapper/pywrenfold/scalar_wrapper.cc: eval_wrapper", "components/wrapper/pywrenfold/numpy_conversion.cc"]}
{"id": "C65", "title": "The variables of an expression", "statement": "get_variables returns every variable that occurs in an expression, each once, in the order of first occurrence, and nothing else. The value of the expression under an assignment depends on no other variable.", "quantifier": "all expressions of any depth, with shared sub-expressions; all pairs of assignments", "why_tests_cant": "tests look at a few small expressions; the search skips parts it has seen, and that nothing is lost by this has to hold for every sharing of sub-expressions", "anchors": ["components/core/wf/utility_visitors.cc: get_expressions_by_predicate", "components/core/wf/expression_iteration.h", "components/wrapper/pywrenfold/scalar_wrapper.cc: get_variables"]}
{"id": "C66", "title": "Derivatives of declared functions, deferred derivatives and deferred substitutions", "statement": "Differentiating an expression that contains invocations of functions the user declared, derivatives that are not carried out and substitutions of variables that are not carried out gives an expression whose value is the derivative, for every meaning of the declared functions that is differentiable at the values of the arguments: the chain rule over all arguments. Differentiating repeatedly gives the higher derivatives. The new variables that are introduced do not clash with others.", "quantifier": "all expressions, all numbers of arguments, all nestings of deferred nodes, all differentiable meanings of the declared functions, all points where the parts are smooth, all choices of new variables", "why_tests_cant": "tests compare the printed form of a few derivatives with what the author expected; whether that form has the value of the derivative has to hold for every function that may later be put in", "anchors": ["components/core/wf/derivative.cc: derivative_visitor (substitution, symbolic_function_invocation, derivative)", "components/core/wf/expressions/derivative_expression.cc", "components/core/wf/expressions/substitute_expression.cc"]}
{"id": "C67", "title": "Derivatives of matrices and Jacobians", "statement": "Differentiating a matrix of expressions gives a matrix of the same dimensions whose elements are the derivatives of the elements. The Jacobian of a vector of functions with respect to a vector of variables has one row per function and one column per variable, and the value of its element (i, j) is the partial derivative of the value of function i in variable j. Arguments that are not vectors, and negative orders of differentiation, are refused.", "quantifier": "all matrices, all vectors of functions and of variables, all orders of differentiation, all points where the elements are smooth", "why_tests_cant": "tests look at a few small Jacobians; that rows, columns and elements are the right ones, and that the values are those of the partial derivatives, has to hold for all sizes and points", "anchors": ["components/core/wf/matrix_expression.cc: matrix_expr::diff, matrix_expr::jacobian", "components/core/wf/derivative.cc: jacobian"]}
{"id": "C68", "title": "The operation counts in the comment bound what the generated function does", "statement": "The comment at the start of a generated function lists, for each kind of operation, a count that no run of the function exceeds, whichever way its branches go, and that some way through the branches reaches; for a function without branches it is exactly the number of operations done. The total is the sum of the counts.", "quantifier": "all functions, all nestings of branches and optional outputs, all inputs, all kinds of operations", "why_tests_cant": "a test counts by hand for one function; the bound is a statement about every way through every control flow graph", "anchors": ["components/core/wf/code_generation/control_flow_graph.cc: control_flow_graph::compute_operation_counts, count_all_operations", "components/core/wf/code_generation/operation_counts.cc", "components/core/wf/code_generation/ast_conversion.cc: format_operation_count_comment, ast_form_visitor::process_block"]}
{"id": "C69", "title": "Conversion to and from SymPy keeps the value", "statement": "The SymPy expression made from an expression has the value of the expression wherever that has one, for every assignment of values to the variables. The expression made from a SymPy expression is well formed and has the value of the SymPy expression; converting to SymPy and back keeps the value. Expressions without a counterpart in SymPy (stopped derivatives, variables made internally, arguments and elements of structs) are refused wherever they occur; all others are converted.", "quantifier": "all expressions with plain names, all SymPy expressions over the supported heads, all assignments of values", "why_tests_cant": "tests compare a few converted expressions by structure; that every head is mapped to one with the same meaning, and that no combination changes a value, is a statement about all trees and all assignments", "anchors": ["components/wrapper/pywrenfold/sympy_conversion.cc", "components/python/wrenfold/sympy_conversion.py: to_sympy, from_sympy, Conversions"]}
{"id": "C70", "title": "Matrices follow Python's rules for indices, slices and iteration", "statement": "m[i, j], m[i], m[s], m[s, t], m[i, t] and m[s, j] give the elements that Python's rules for indices and slices select, in the order of the slice; negative indices count from the end, others outside the matrix are refused. Iteration gives m[0], m[1], and so on. The matrix built from rows, or from matrices with the same number of columns, has these rows below each other; rows of different lengths are refused. Building a matrix from the list of rows of a matrix gives the matrix back, and the list of rows of a matrix built from rows is these rows.", "quantifier": "all matrices, indices and slices with positive or negative steps and missing bounds; all lists of rows and matrices", "why_tests_cant": "tests index a few small matrices; the selection of elements has to be right for every combination of bounds, steps and shapes", "anchors": ["components/wrapper/pywrenfold/matrix_wrapper.cc: matrix_get_row_and_col, matrix_get_row, matrix_get_row_slice, matrix_get_row_and_col_slice, matrix_get_row_index_and_col_slice, matrix_get_row_slice_and_col_index, row_iterator, matrix_from_iterable, stack_iterables, list_from_matrix, unary_map_matrix"]}
{"id": "C71", "title": "User-defined types and lists of expressions convert into each other", "statement": "Taking an instance of a user-defined type apart gives its expressions in the order of the fields, nested types inside and matrices row by row: expression i is what generated code reads as member i. Building an instance from a list gives matrices of the declared shapes, takes the expressions in order and leaves the rest; lists that are too short are refused. The two are inverse to each other. An instance with a matrix that does not have the declared shape is refused.", "quantifier": "all user-defined types, nested to any depth, all instances and all lists of expressions", "why_tests_cant": "tests use a few types; the order of expressions must be right for every nesting of types and every shape", "anchors": ["components/python/wrenfold/custom_types.py: map_expressions_into_custom_type, map_expressions_out_of_custom_type", "components/core/wf/code_generation/types.cc: determine_access_sequence"]}
{"id": "C72", "title": "External functions are called by Python's rules and only with arguments of the declared types", "statement": "A function declared with declare_external_function can be called with positional and keyword arguments. The values are bound to the parameters exactly as Python binds them to a function with the same parameters: positional values in order, keyword values by name in any order, and missing, surplus, unknown or doubly given arguments are refused. Every accepted call passes, for each parameter, an expression that stands for the given value and has the declared type, in the order of the declaration. Every call that these rules and types allow is accepted. A scalar result is one expression, a matrix result has all elements in order. Two parameters with the same name are refused.", "quantifier": "every declared signature, every list of positional and keyword arguments", "why_tests_cant": "The number of signatures, orders of keywords and kinds of values is unbounded; tests call a few declared functions with arguments in the usual order.", "anchors": ["components/python/wrenfold/external_functions.py: ExternalFunction.__call__, combine_args, declare_external_function", "components/core/wf/external_function.cc: external_function::external_function, arg_position, create_invocation"]}
{"id": "C73", "title": "symbols() returns the names the text lists", "statement": "sym.symbols returns, for a text, one symbol per maximal part without white space and commas, in order: a single symbol if there is one name, otherwise a list. Iterables are processed element by element and keep their nesting. The number set follows the flags: a flag for a real set together with complex is refused, positive is stronger than nonnegative, which is stronger than real; without flags the set is unknown. This holds for every Python string.", "quantifier": "every nested argument, every text, every combination of flags", "why_tests_cant": "Texts and nesting are unbounded; tests use a few ASCII names.", "anchors": ["components/wrapper/pywrenfold/scalar_wrapper.cc: determine_set_from_flags, create_symbols_from_str, create_symbols_from_str_or_iterable"]}
{"id": "C74", "title": "The printed expression tree determines the expression", "statement": "expression_tree_str can be called on every expression and prints one line per node. Two expressions with the same text are the same up to the order of the terms of sums and the factors of products.", "quantifier": "every pair of expressions (scalar, boolean, matrix, compound)", "why_tests_cant": "Tests compare the text of a few trees; injectivity is a statement about all pairs of expressions of any depth.", "anchors": ["components/core/wf/tree_formatter.cc: tree_formatter_visitor"]}
{"id": "C75", "title": "A function description matches the Python function", "statement": "create_function_description calls the given annotated function once, with every parameter bound to a value of its annotated type whose elements are the elements of the argument of the same name. The arguments of the description are the parameters in order, followed by the output arguments in the order in which they were returned, with distinct names. Every output is stored with its type and value, and there is at most one return value; repeated names and second return values are refused.", "quantifier": "every annotated Python function with any number of parameters and outputs, of scalar, matrix, struct and opaque types", "why_tests_cant": "Tests describe a few functions; the claim ranges over all signatures, all nested types and all sequences of outputs.", "anchors": ["components/python/wrenfold/code_generation.py: create_function_description", "components/core/wf/code_generation/function_description.cc: add_argument, add_output_argument, set_return_value, find_output_expressions", "components/core/wf/code_generation/type_registry.cc: create_function_input"]}
{"id": "C76", "title": "Custom generators format every element by its own method", "statement": "In a Python class derived from a code generator, every element of the program, at every depth, is formatted by the class's method for its kind if there is one and by the wrapped generator otherwise; format() gives this text and super_format() the text of the wrapped generator. A method that only returns super_format(element) changes nothing. Formatting always ends, also if a method calls format() on its own element, and the generator can be used again after a failure. Several definitions are separated by an empty line.", "quantifier": "every generator class (any set of replaced methods, any behaviour of them, including catching exceptions) and every syntax tree", "why_tests_cant": "Tests run a few custom generators on a few functions; the claim ranges over all methods and trees of any depth, and includes termination.", "anchors": ["components/wrapper/pywrenfold/code_formatting_wrapper.cc: wrapped_generator, maybe_override, invoke_with_guard, recursion_guard, generate_multiple"]}
{"id": "C77", "title": "Sums and products are made again from their operands", "statement": "If an expression is a sum or product that was built from other expressions, then `sym.addition(expr.args)` (or `sym.multiplication(expr.args)`) returns the identical expression, in whatever order the operands are passed, and does not raise.", "quantifier": "all lists of operands whose sum (product) is a sum (product), all orders of the operands of the result", "why_tests_cant": "tests take apart a few expressions; that the constructor is a fixed point on every expression it makes, in every order, needs an argument about the coefficients and powers that are collected", "anchors": ["components/wrapper/pywrenfold/args_visitor.cc", "components/wrapper/pywrenfold/scalar_wrapper.cc", "components/core/wf/expressions/addition.cc addition_parts", "components/core/wf/expressions/multiplication.cc multiplication_parts"]}
{"id": "C78", "title": "Results do not depend on the stack that is left", "statement": "Adding, multiplying or raising expressions to a power, applying a built-in function, differentiating, substituting, distributing, collecting and the operations on quaternions each give the same expression, or the same error, wherever in a program it is done and however much stack is left, unless the stack is used up. In particular results that are equal for operands in another order, or for the operands of a result, are equal across calls made at different depths.", "quantifier": "all operands, all pairs of stack depths, all ways to decide signs of factors", "why_tests_cant": "a test runs at one stack depth; the constructors call each other recursively through the simplification of coefficients, exponents and powers, and the claim is about every depth of every such call tree", "anchors": ["components/core/wf/expressions/addition.cc: addition::from_operands", "components/core/wf/expressions/multiplication.cc: multiplication::from_operands", "components/core/wf/expressions/power.cc: power::create", "components/core/wf/functions.cc", "components/core/wf/derivative.cc: diff", "components/core/wf/substitute.cc: substitute_any"]}
{"id": "C79", "title": "Python's decisions about expressions are right for all values", "statement": "Python code may ask expressions for their truth: if a < b, chained comparisons, and, or, not, the built-in max and min. When such code returns instead of raising, the decision is the one that holds under every assignment of real values; f if a < b else g is then what sym.where(a < b, f, g) returns. A comparison with an expression that is not a constant raises a type error.", "quantifier": "all conditions built from comparisons, chains, and, or and not; all lists of expressions; all assignments of values", "why_tests_cant": "the branch is taken once, when the expression is built, but must be right for every value the variables may get later", "anchors": ["components/wrapper/pywrenfold/boolean_expression_wrapper.cc: coerce_to_bool", "components/wrapper/pywrenfold/scalar_wrapper.cc: comparison operators and __bool__", "components/core/wf/expression.cc: operator<, operator>, operator<=, operator>=", "components/core/wf/expressions/relational.cc: relational::create"]}
{"id": "C80", "title": "Unique symbols are unique in every schedule", "statement": "sym.unique_symbols(count, ...) returns one symbol for count one and a list of count symbols otherwise, all of the number set the flags describe; count zero and contradictory flags are refused. No symbol is ever given twice, to the same or another thread, and none is identical to a named variable or function argument. Symbols of a call that starts later do not occur in any expression over symbols given earlier. No thread waits for another.", "quantifier": "any number of threads, all sequences of calls of each, all interleavings of their steps (fewer than 2^64 - 1 steps)", "why_tests_cant": "the counter is shared by all threads of the process; uniqueness must hold for every schedule and for the whole history of the process", "anchors": ["components/wrapper/pywrenfold/scalar_wrapper.cc: create_unique_variables, determine_set_from_flags", "components/core/wf/expressions/variable.cc: unique_variable::next_unique_variable_index", "components/core/wf/expressions/variable.h: unique_variable", "components/core/wf/derivative.cc: make_unique_variable_symbol calls"]}
{"id": "C81", "title": "Storage orders and names of quaternions", "statement": "to_vector_wxyz, to_vector_xyzw and to_list have the components in the documented places; from_wxyz and from_xyzw read them back, so that each pair is inverse in both directions. They accept exactly 4x1 matrices and iterables of four elements, and raise a dimension error otherwise. with_name(name) has four different variables name_w, name_x, name_y, name_z, and quaternions of different names share no variable.", "quantifier": "all quaternions of expressions, all matrices of any dimensions, all iterables, all names", "why_tests_cant": "a mixed-up order gives a valid quaternion, wrong only for some component values", "anchors": ["components/core/wf/geometry/quaternion.h: from_vector_wxyz, from_vector_xyzw", "components/core/wf/geometry/quaternion.cc: to_vector_wxyz, to_vector_xyzw, from_name_prefix", "components/wrapper/pywrenfold/geometry_wrapper.cc: components_from_iterable, list_from_quaternion, from_xyzw, from_wxyz, with_name"]}
{"id": "C82", "title": "sym.compare sorts", "statement": "sym.compare(a, b) answers -1, 0 or 1, 0 exactly for identical expressions, and the negated answer when the arguments are swapped. Sorting expressions with it (sorted(es, key=functools.cmp_to_key(sym.compare))) keeps every expression as often as it occurs, puts no expression after one it belongs before, and gives the same list whatever the order of the input and whatever the sorting algorithm.", "quantifier": "all expressions, all lists of expressions of any length and all their permutations", "why_tests_cant": "tests sort a few short lists; a comparison that is not transitive or not antisymmetric shows only for certain triples in certain orders", "anchors": ["components/wrapper/pywrenfold/scalar_wrapper.cc: compare", "components/core/wf/utility/ordering.h: relative_order, order_by", "components/core/wf/expressions/power.cc: apply_float_and_numeric"]}
{"id": "C83", "title": "Rational constants and symbols are what was asked for", "statement": "sym.rational(n, d) is the number n/d in lowest terms, an integer constant when it is an integer, and raises an arithmetic error exactly for d = 0; two rationals are identical expressions exactly when they are the same number. make_symbols, with a sequence or with arguments, returns one variable per name in the order of the names, and raises for an empty name or an argument that is not a string; symbols are identical exactly when name and number set agree.", "quantifier": "all 64-bit numerators and denominators, all lists of names of any length, all number sets", "why_tests_cant": "tests use a few small fractions and short lists of names; the extreme integers and the mixture of valid and invalid names are not enumerable", "anchors": ["components/wrapper/pywrenfold/scalar_wrapper.cc: rational, create_symbol, create_many_symbols_sequence, create_many_symbols_args", "components/core/wf/expressions/numeric_expressions.h: rational_constant, create_pair", "components/core/wf/expression.cc: scalar_expr(rational_constant)"]}
{"id": "C84", "title": "Deferred derivatives combine", "statement": "sym.derivative(f, x, n) raises an invalid argument error exactly for n <= 0 and a type error exactly for an argument x that is neither a variable nor an invocation of a symbolic function. Orders add up: the derivative of order m of the derivative of order n by the same argument is the derivative of order n + m. Derivatives by different arguments stay nested, and no result is a derivative of a derivative by the same argument.", "quantifier": "all expressions, all arguments, all orders", "why_tests_cant": "tests build a few derivatives of order one or two; the laws range over all orders and all nestings", "anchors": ["components/core/wf/expressions/derivative_expression.cc: derivative::create", "components/wrapper/pywrenfold/scalar_wrapper.cc: derivative"]}
