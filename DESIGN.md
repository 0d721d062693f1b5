# Design of the formal model of wrenfold

The model is written in Lean 4 (4.33.0) with single Mathlib modules, under `lean/Verif/`.
`/repo` was read as text; nothing was built or run.

Paths below are relative to `/repo/components/core/wf` unless they start with `runtime/`
(`/repo/components/runtime/wrenfold`).

## Layout

| Directory | Contents |
|---|---|
| `Verif/Num` | checked integers, factorisation, powers, rationals, angle reduction, int/float comparison |
| `Verif/Ord` | ordering combinators, expression order, hashing |
| `Verif/Sym` | expression trees, canonicalising constructors, derivative, substitution, distribute, collect, cse, number sets |
| `Verif/Mat` | matrices, LU, determinant |
| `Verif/Geo` | quaternions, SO(3) |
| `Verif/Gen` | intermediate form, optimisation passes, control flow, emitted text |
| `Verif/Run` | spans, allocators, containers, struct layouts |

Each area has a `…Model` file (definitions that mirror the code, each citing file and lines), where useful a
`…Spec` file (short definitions written without reference to the model), and a `…Props` file holding only
the property theorems with a non-vacuity `example` beside each. Helper lemmas live in `…Lemmas` files.

## Conventions

* A C++ exception is an explicit outcome (`Except`/`Option`), never a default value. Undefined behaviour is a distinct
  outcome `ub`.
* Signed 64-bit integers are Lean `Int` with an explicit range predicate and the code's own guards, so overflow is visible.
* Containers become `List`. Hash tables are modelled by the association they implement (lookup by identity), with iteration
  order irrelevant because the code sorts before use; where the code depends on bucket order this is stated.
* Shared pointers to immutable data become values.
* Floating point values are modelled by the exact real (dyadic rational) they denote plus NaN and the infinities.
  Rounding of float arithmetic is not modelled except where a property is about it.
* Numeric semantics of symbolic expressions is given over the reals or complex numbers of Mathlib, as a partial function
  (undefined points have no value), so "keeps its value" means: wherever the unsimplified expression has a value, the
  simplified expression has the same value.

## Per property plan

| Id | Model | Proof |
|---|---|---|
| C01 | the guards of `checked_int.h` transcribed over `Int` | case analysis, truncated division lemmas, `nlinarith`; exactness iff in range |
| C02 | wheel loop with the eight increments as a well-founded recursion | loop invariant: no divisor below the counter; residues mod 30; primality from `k*k > n` |
| C03 | square-and-multiply over checked multiplication | induction on the exponent; no spurious overflow from divisibility of magnitudes |
| C04 | `create_pair` | `Int.gcd` lemmas; uniqueness of reduced fractions |
| C05 | rational operators over checked integers | reduction to `Rat`/field identities |
| C06 | `operator<` by cross multiplication | order on `Rat` |
| C07 | `compare_int_float` on a double model (dyadic rational, NaN, infinities) | truncation bounds |
| C08 | `mod_pi_rational` | truncated division and parity |
| C09 | numeric cases of `pow_maybe_simplify` | principal value via `Complex.cpow` |
| C10 | order visitor on the expression tree | structural induction, lexicographic lemmas |
| C11 | hash recursion with abstract leaf hashes | structural induction; negative result for signed zero |
| C12 | `addition_parts`, `create_addition` | fold invariants on the coefficient map; the operands made from the map give back its keys |
| C13 | `multiplication_parts`, `create_multiplication` | fold invariants; positive-base and integer-exponent power laws |
| C14 | the same | the map is determined by the multiset of operands (`Collects`); sorted lists that are permutations of each other are equal |
| C15 | derivative visitor over the smart constructors | `HasDerivAt` by structural induction |
| C16 | `substitute_any` on variable pairs | refutation by witness, and the exact side condition under which it holds |
| C17 | `substitute_variables_visitor` | structural induction |
| C18 | `distribute.cc` | structural induction, products of sums |
| C19 | `collect.cc` | partition of a sum by exponent |
| C20 | `cse.cc` | environment extension invariant |
| C21 | number-set tables | case analysis over the tables lifted to all expressions; refutation witnesses for the wrong entries |
| C22 | relational constructor | case analysis |
| C23 | trigonometric tables and sign rules | Mathlib special values |
| C24 | conditional constructor, min, max | case analysis |
| C25, C26 | row-major list model of matrices | index arithmetic; comparison with Mathlib `Matrix` |
| C27 | recursive full-pivot LU with an arbitrary pivot policy | induction on size, Mathlib `Matrix` block algebra |
| C28 | determinant built from the LU factors, hard-coded small cases | `Matrix.det` multiplicativity, triangular and permutation determinants |
| C29, C30 | quaternion formulas transcribed | `ring`/`linear_combination` |
| C31 | branch formulas over the reals | identities of rotation matrices, branch guards give non-zero divisor |
| C32 | angle/axis formulas over the reals | trigonometric identities |
| C33 | closed forms over the reals | cubic identity of the skew matrix |
| C34 | IR building for the arithmetic fragment | simulation against expression evaluation |
| C35, C38 | straight-line programs as lists of operations | evaluation invariants over the fold |
| C36 | the search on bit sets and the rewriting | invariants: disjoint groups, common factors; semiring identity |
| C37 | `replace_operand_pair` | multiset product identity |
| C39 | queue algorithm | invariant and counting argument |
| C40 | `ir_control_flow_converter` as a state machine over values and blocks (`FlowModel`), and a block machine in which reading an uncomputed value is an error (`FlowSpec`) | invariant over the conversion: the blocks built so far form a nested region tree; simulation of the block machine; induction for laziness |
| C41 | operation tree to token list for C++, Rust and Python (`TextModel`); grammars of the languages as inductive derivations and the syntax trees that are meant (`TextSpec`) | a deterministic parser shows that every text has at most one derivation (`TextUnique`); induction over the tree builds a derivation of the tree that is meant; refutation witnesses for the operations that are excluded |
| C42 | plain formatter to token list (`FormatModel`); grammar, trees and their values (`FormatSpec`) | uniqueness of the reading as C41 (`FormatUnique`); induction over the size of the stack for the value |
| C43, C44 | value graph and slot vector as state machines | invariant over histories, refinement to a finite map |
| C45 | stride arithmetic | injectivity of mixed radix numbers |
| C46 | bump allocator with last-block free | invariant over histories |
| C47 | nested type tree | structural induction |
| C48 | next-set-bit iteration | induction |
| C49 | ordering combinators | induction |
| C50 | compound constructor | case analysis |
| C51 | the passes in the order of `apply_simplifications` | composition of C35–C38 |
| C53 | `substitute_single_impl` with the partial matches in sums, products and powers (`SubstituteModel`); the value semantics of C12 | each partial match is an identity between values; the visitor by induction on its depth; products need the parts with factored integers to keep the value |
| C54 | `ast_conversion.cc` and `find_merge_point` over the blocks of C40 (`AstModel`); a small language with scoped variables in which misuse of a variable (also a second value for it) is an error (`AstSpec`) | the merge point is the join of the region tree; induction over the tree with the invariant that every available value with a variable holds its value; two operations of a block never send their values to the same variable (`AstTarget`) |
| C55 | `transpile_to_ast` as the composition of the models of C34, C51, C40 and C54 (`PipelineModel`) | the rules that the converter needs (`Shape` in `ShapeLemmas`) are an invariant: lowering establishes them (`LowerShape`), every pass keeps them; then C34, C51 and C54 are chained |
| C56 | statements with operation trees to token lists with line breaks, indentation and comments (`StmtTextModel`); grammars of blocks and of lines, the statements that are meant (`StmtTextSpec`) | the grammars are unambiguous: a block is cut at the first semicolon, brace or line outside brackets (`StmtTextUnique`); what layout does to words and lines (`StmtTextLayout`); induction over the statements builds the derivation (`StmtTextCpp`, `StmtTextRust`, `StmtTextPython`); refutation witnesses |
| C57 | names of variables, arguments and outputs, the statements of C54 with names (`NameModel`); the scoping rules of C++, Rust and Python as three interpreters of statements with names (`NameSpec`) | names are injective (`NameLemmas`); simulation between the runs of C54, where variables are numbers, and the runs with names (`NameSim`), for functions whose given names are different from each other and from the names of variables; the keys of output statements come from the graph (`NameKeys`); refutation witnesses |
| C58 | the run of the syntax trees of statements, in each language (`RunSpec`): objects of the caller, references, pointers, views, `if let`, arrays of Python, returned values | the text is read as the statements that are meant (C56); simulation between the run with names (C57) and the run of the syntax trees (`RunRel`: what each name stands for; `RunCpp`, `RunRust`, `RunPython`), for statements of the form that `create_ast` makes (`RunForm`, `RunBody`) |
| C59 | calls of the generated function (`CallSpec`): signature, arguments, exact machines, what the caller gets | composition of C34, C51, C54/C55, C56 and C58. The values of matrices are not numbers of the program, so the program is interpreted twice, with two numberings of matrices that have no number in common (`exists_numbering`): an object that holds the value in both is the number, or the matrix, that is meant (`CallLemmas`) |
| C60 | `rebuild_expression_tree` for programs of one block (`FromIrModel`): one expression per operation, by the constructors of C01–C09; `cse_function_description` is lowering (C34), optimisation (C51) and this | the program is run in arithmetic with undefined values (`PartialSpec`), where an operation is undefined as soon as an operand is (`strictInterp`); invariant of the loop: the expression of an operation has the value of the operation (`FromIrLemmas`). Lowering invents no variable (`LowerLeaves`), so the definition of an intermediate variable mentions earlier ones only (`FromIrDefs`). Matrices as in C59, by two numberings. Hypothesis: no output mentions an intermediate variable; `C60_capture` shows that it is needed |
| C61 | signatures as lists of lexemes, and the conversions of arguments (`Gen/SigModel`); readers of signatures, binding of parameters, views and conversions (`Gen/SigSpec`); calls of whole functions (`Sym/WholeCallSpec`) | the reader inverts the writer, parameter by parameter (`SigLemmas`, `SigProps`); the state after views or conversions is the state that C58 starts from, by induction over the arguments (`SigBodyProps`); composition with C59 (`WholeCallProps`). Attributes of Rust functions are not modelled; types are single lexemes |
| C62 | the functions of `quaternion` on expressions, in terms of the constructors, functions, derivatives and substitution of the other models (`Sym/QuatModel`); values of quaternions of expressions (`Sym/QuatSpec`) | each operation step by step from the value lemmas of the constructors (`QuatLemmas`, `QuatReal`, `QuatProps`); the two static Jacobians are computed by the kernel from the model of `jacobian` and `subs`, their values follow from C16, and the derivatives of the retraction and of the local coordinates are proved with Mathlib (`Geo/QuatCalculus`, `QuatDerivProps`). |
| C63 | the functions of `Verif.Mat` with entries that are expressions or exceptions, `where` on matrices, the Jacobians of SO(3) (`Sym/MatExprModel`); values of a matrix of expressions (`Sym/MatExprSpec`) | the functions on matrices commute with maps of the entries that preserve the operations (`Mat/HomLemmas`); pairs of an expression and its value are such entries, so the theorems C25–C28 on numbers carry over (`MatExprLemmas`); Jacobians step by step. The determinant from four rows on needs non-zero pivots: `C63_zero_pivot` is a matrix with determinant −1 whose determinant expression has no value at the point |
| C64 | `complex_cast`, `numerical_cast`, `Expr.eval`, `evaluate`, the conversion of matrices to arrays and the promotion of element types (`Sym/EvaluateModel`); values of numbers and arrays (`Sym/EvaluateSpec`) | cases on the form of the expression; `evaluate` as a visitor that keeps values (`mapChildren`). Partly: `Expr.eval` refuses rational and symbolic constants and functions of numbers although the documentation evaluates them, and `MatrixExpr.eval` refuses `acos(floor(log(2)))` (`C64_documentation_refuted`, `C64_number_refuted`) |
| C65 | `get_expressions_by_predicate` with its set of seen expressions (`Sym/VariablesModel`); occurrence and the list of parts (`Sym/VariablesSpec`) | invariant by size: every seen expression smaller than those being visited has all its parts seen; so the seen expressions are the parts in the order of first occurrence. Partly: the expression itself is not tested, so a variable has no variables (`C65_variable_refuted`) |
| C66 | the rules of `derivative_visitor` for invocations of declared functions and for substitutions (`Sym/ChainModel`); an assignment in which deferred derivatives are derivatives and deferred substitutions are substitutions (`Calculus`), and where such nodes are smooth (`Sym/ChainSpec`) | the induction of C15 with these nodes added; a declared function is composed with the curve of its arguments (Fréchet derivative), and every term is a partial derivative at the value of the argument since the new variable occurs nowhere else; a substitution is the derivative of a function of two variables along a curve. `Sym/ChainWitness` makes such an assignment for all meanings of the declared functions |
| C67 | `matrix_expr::diff` and the two forms of `matrix_expr::jacobian` over the modelled `derivative_visitor` (`Sym/MatDiffModel`); one visitor with a cache is used for all elements in the code, here every element is differentiated on its own | element by element from C66; the position of each element of the Jacobian from `C15_jacobian`; a variable that keeps its value leaves the assignment as it is, so all columns are partial derivatives at one point |
| C68 | `count_all_operations` with `operation_counts` and the comment made of them (`Gen/CountModel`), over the blocks of C40; elementary operations, ways through the blocks and the operations that a run of the structured program does (`Gen/CountSpec`) | induction over the tree of branches of C54: counting gives the maximum over the ways, kind by kind; every run follows a way |
| C69 | both conversions, with `evaluate=False` (`Sym/SympyModel`); the meaning of SymPy expressions, with derivatives, simultaneous substitutions and piecewise expressions (`Sym/SympySpec`) | induction over the expression for each direction, head by head; the environments correspond if symbols have the values of the variables. Partly: see the refutations below; matrices are not modelled |
| C70 | the Python interface of matrices (`Mat/PyMatModel`): element access, slices (with CPython's computation of the bounds), iteration, construction from iterables, conversion to lists | the indices of a slice are specified by membership and order (`SliceOf`; unique by `C70_slice_unique`); the computed start, step and length give exactly these; then elementwise as for C25. Partly: negative indices beside a slice, see below |
| C71 | `map_expressions_into_custom_type` and `map_expressions_out_of_custom_type` over the types of C47 and the matrices of C70 (`Gen/StructModel`) | mutual induction over types and fields; the order is that of C47 (`accessPath`). Partly: types with opaque members, and shapes are not checked, see below |
| C72 | `combine_args`, the conversion of arguments, `external_function` and its type check (`Gen/CallModel`) | `PyBinds` states Python's rules for binding arguments; equivalence with the code by induction over the keywords and uniqueness of sorted positions. Partly: two disagreements, see below |
| C73 | `symbols` on nested iterables of byte strings (`Sym/SymbolsModel`) | induction over the bytes against Mathlib's `List.splitOnP`; mutual induction over the nesting. Partly: ASCII only, see below |
| C74 | `tree_formatter_visitor` over the expressions of C01 (`Sym/TreeModel`) | the lines are (branches, node) pairs in preorder; mutual induction shows that they determine the tree; every line is read back: indentation, kind, data. Partly: two disagreements, see below |
| C75 | `function_description`, `create_function_description` and the values for parameters (`Gen/DescribeModel`), over C71 and the values of C72 | invariants of the loops over parameters and outputs: names distinct, indices are positions, every key of the outputs belongs to an argument or the return value, so that `emplace` never drops a value. Partly: parameters that are only positional or only keyword, and opaque outputs, see below |
| C76 | `wrapped_generator` with the recursion guard (`Gen/HookModel`); methods are scripts that ask for text by `operator()`, `format` or `super_format` and may catch exceptions | texts are specified by their recursive equations (`Texts`); induction over the size of elements, with the counters bounded by the nesting. Termination by the counters that are left and the size. Partly: nesting deeper than the limit, see below |
| C77 | `Expr.args` and the constructors of `Sym/CtorModel` (`Sym/ArgsLemmas`) | the parts that are collected from the operands of a result are the parts it was made of: a constant that is collected alone is itself, a term (factor) that meets no other of its kind is itself (induction over the operands in any order); the sort then gives the same list. Partial: the conditions of C12_shape and C14_product, and products with a sum and a number |
| C78 | `ctors lic n` of `Sym/CtorModel` at any two depths (`Sym/StackLemmas`) | the results are ordered with "out of stack" below everything else; each step of the constructors is monotone in the constructors it calls, so by induction `ctors lic n` lies below `ctors lic m` for `n ≤ m`. With it C14 and C77 hold for calls made at different depths. The same order is carried through the built-in functions, `diff` and `subs` (`Sym/StackFnLemmas`, `Sym/StackSubsLemmas`), each of which has a depth of its own. That a depth exists at which every call ends is not proved; likewise `distribute` and `collect` (`Sym/StackDistLemmas`) and quaternions with their static Jacobians (`Sym/StackQuatLemmas`) |
| C79 | the comparison operators, `__bool__` and the ways Python asks for it (`Sym/TruthModel`) | a relation that has a truth is a constant, which is the truth by C22; conditions by induction over the condition with a specification on real numbers, `max` and `min` by induction over the list |
| C80 | `unique_symbols`, the atomic counter of the unique variables and threads that take steps in any order (`Sym/OnceModel`) | invariant by induction over the schedule: numbers in use are below the counter and all different; the results by a second invariant, progress by a measure of the steps that are left |
| C81 | the conversions of quaternions of expressions to and from matrices, lists and names (`Sym/QuatStoreModel`) | case analysis on dimensions and lengths against specifications of the two orders by index; names by the injectivity of appending a suffix of fixed length |
| C82 | `sym.compare` as a number and insertion sort with it (`Sym/SortModel`), on the order of C10 | a list whose neighbours are in order is determined by its elements (induction, using transitivity and antisymmetry of C10); insertion keeps elements and order |
| C83 | `sym.rational` (`Sym/SympyModel`), `sym.symbol` and both forms of `make_symbols` (`Sym/DeclareModel`) | the constructor of C04 against the rational number `n/d`; uniqueness of lowest terms; induction on the names |
| C84 | `sym.derivative` with its order as an `int` (`Sym/DeferredModel`) | case analysis: is the expression a derivative by the same argument; arithmetic of the orders |
| C52 | `power::create` with the sign questions as a parameter (`Lic`) | case analysis over the rules, each a law where its licence is true |

## Trusted base

* Lean's kernel and the axioms `propext`, `Classical.choice`, `Quot.sound` (checked with `#print axioms`).
* That the definitions in the `…Model` files transcribe the cited source lines. This was done by reading; the code was not run.
* The C++ compiler, standard library, fmt, absl, and the target-language compilers are assumed to behave as documented.

## Modelled and not modelled

See the section "Coverage" at the end, kept up to date with the model.

## Disagreements found between the code and its properties

Each has a theorem with a concrete witness. Where a property is refuted, the theorem that is kept states the condition under which it holds.

| Theorem | What the code does |
|---|---|
| `C02_large_prime_is_undefined_behaviour` | factorising an integer with a prime factor above 3037000499² squares the trial divisor beyond 64 bits |
| `C04_constructor`, `C04_zero_denominator_is_accepted` | the constructor of rational constants: `std::gcd` of the most negative integer is undefined behaviour, `n/0` is accepted, `0/0` ends the process |
| `C05_mod_is_not_scaled` | the remainder of rational constants is not multiplied by the divisor |
| `C06_order_can_terminate`, `C10_overflow_terminates` | comparing rational constants in the canonical order overflows and ends the process (the comparison is `noexcept`) |
| `C09_invert_most_negative_is_undefined` | the most negative integer to the power −1 is undefined behaviour |
| `C10_nan_constants`, `C10_same_name_types`, `C10_same_name_functions` | NaN orders equal to every float; types and functions order by name only, so two with the same name are identified |
| `C11_signed_zero` | 0.0 and −0.0 are identical but hash differently |
| `C13_log_product`, `C52_log_square`, `C52_complex_exponent`, `C52_float_power` | power rules are used where they are not laws, because of the number sets below and because some rules do not ask about the exponent |
| `C14_float_sum`, `C14_like_powers` | a sum of floats that becomes zero on the way is dropped with its type; powers of the same product are merged or not depending on the order of the factors |
| `C15_abs_complex`, `C15_nested_functions` | the derivative of `abs` is that of the real function for complex arguments too; `diff(diff(f(g(x)), x), g(x))` is 0 |
| `C16_chain`, `C16_zero_times_infinity` | a list of substitutions is applied in order where documented as simultaneous |
| `C18_zero_exponent` | `distribute` of a sum to an exponent that distributes to zero fails an assertion |
| `C20_capture` | the default names of eliminated sub-expressions capture variables of the same name |
| `C21_log`, `C21_power` | `log` of a positive number is classified positive; a real number to a non-integer power is classified real |
| `C23_floor_out_of_range` | the floor of a float outside 64 bits is undefined behaviour |
| `C25_block_overflow_refuted`, `C25_zeros_overflow_refuted` | indices are `int`: `get_block` adds position and size (so `m[2147483647]` of a matrix with several columns overflows) and `make_zeros` multiplies the dimensions (`zeros(65536, 65536)`) before anything is checked; both are undefined behaviour |
| `C28_zero_pivot`, `C28_rejects`, `C27_rejects` | a symbolic pivot may evaluate to zero; 0×0 matrices are rejected |
| `C33_inverse_divides_by_zero_at_pi` | the inverse left Jacobian divides by zero at angle π |
| `C34_min_factor` | a product with the least integer as a factor cannot be lowered |
| `C41_cpp_conditional`, `C41_cpp_sign`, `C41_rust_sign`, `C41_copy`, `C41_rust_negated_cast`, `C41_rust_sign_of_cast`, `C41_cpp_double_negation`, `C41_cpp_least_integer` | generated text that the target language reads differently or rejects |
| `C56_rust_tail`, `C56_cpp_matrix` | generated functions that do not compile (with `convert_ternaries=False`): a Rust value that begins with a conditional, a C++ matrix whose first element is one |
| `C57_clash`, `C57_views_clash`, `C57_switches_clash` | names are not checked against the generated ones: a function of `v01` and `v00` that should give `v01 - v00` gives 0 in Rust and Python and does not compile in C++; an argument `_m` beside a matrix `m` (C++ spans) and an argument `compute_J` beside an optional output `J` (Python) are accepted although the names are the same |
| `C42_pole`, `C42_same_name`, `C42_least_integer` | `z*x**(-y)` is written `z/x**y`, which has a pole where the expression has none; variables with the same name and different number sets have the same text; a sum with the least integer has no text |
| `C46_huge_request_overlaps` | rounding up a huge allocation request wraps to zero |
| `C48_postfix_stops_on_clear_bit` | the postfix increment of the bit iterator does not search for the next set bit |
| `C50_prefix_accepted` | a list with only the leading members of a struct value is accepted as the whole value |
| `C53_float_sum`, `C53_float_product` | the float coefficient of the target is ignored: `(y + z).subs(y + 1.0, w)` is `w + z`, `(y * z).subs(2.0 * y, w)` is `w * z` |
| `C53_zero_product`, `C53_zero_power` | a partial match may divide by the replacement: `(z**2 / y).subs(y * z, w)` is `z**3 / w`, which has no value at `z = 0` where the expression is zero |
| `C60_capture`, `C60_boolean_argument` | the intermediate variables are called `v0`, `v1`, … even if the function uses these names: for the outputs `x` and `v0` the variable `v0` is defined as `x`, so the second output becomes `x`; a Boolean argument used as a number fails an assertion |
| `C61_python_order_refuted`, `C61_cpp_clash_refuted`, `C61_keyword_refuted`, `C61_python_annotation_refuted` | with output arguments a Python function whose optional output precedes another argument has a parameter without a default after one with a default, a syntax error; a C++ matrix argument `T0`, or any argument `Scalar`, redeclares a parameter of the template; names that are keywords of the target are written as they are; a Python function with one output is annotated `tuple[…]` but returns the output itself, and numbers are annotated as arrays |
| `C54_struct_outputs_fail`, `C54_struct_arguments_fail` | two output structs with equal contents share one constructor, which then becomes a variable; an output struct that is an input struct has no constructor: both fail an assertion in `push_back_output_operations` |
| `C64_documentation_refuted`, `C64_scalar_matrix_differ`, `C64_number_refuted` | `Expr.eval` does not evaluate: `pi`, `1/2` and functions of numbers raise a `TypeError` although the documentation shows such a call with its result, and a one by one matrix of the same expression is evaluated; `acos(floor(log(2)))` has the value π/2, but a matrix with it is refused, since the result of `floor` is an integer constant and `acos(0)` becomes `pi/2` again |
| `C65_variable_refuted` | `get_variables(x)` of a variable `x` is the empty list: the search tests the parts of the expression but not the expression itself |
| `C66_abstract_refuted` | with `use_abstract=True` the derivative of `floor(x**2)` is deferred, but the derivative of `substitution(floor(y), y, x**2)` is zero: the derivative with respect to the target is taken with the default behaviour |
| `C67_negative_refuted` | `diff` of an expression refuses a negative order, `diff` of a matrix with a negative order returns the matrix unchanged |
| `C68_statements_refuted` | a value that is the result of a branch and an operand of one other operation in the branch gets no variable and is computed twice: `where(x < y, x*y, -x)` and `where(x < y, f(x*y), -y)` give `v7 = x * y; v8 = f(x * y);` with `multiply: 1` in the comment |
| `C69_names_refuted` | names go through `sympy.symbols`: white space around a name is lost, so the variables `" x"` and `"x"` become one symbol and their difference zero; a name with a space inside is refused |
| `C69_subs_refuted` | `Subs(f(x, y), (x, y), (y, x))` replaces at the same time in SymPy but is converted to two substitutions one after the other: `f(x, x)` instead of `f(y, x)` |
| `C69_symbols_refuted` | SymPy symbols of one name with different assumptions are different; those that differ only in assumptions without a number set here (such as `integer`) become one variable, and their difference zero |
| `C69_zero_power_refuted` | `0 ** 0` left unevaluated has the value one in SymPy; here it is undefined |
| `C69_conditional_refuted` | a conditional with a branch that is complex infinity or undefined cannot be converted, although the heads can: the test for a maximum compares the branches |
| `C70_negative_refuted` | `m[-1, :]` and `m[:, -1]` are refused for every matrix: a negative index beside a slice is subtracted from the number of rows or columns instead of added |
| `C70_empty_rows_refuted` | `matrix([[]])` divides the number of elements by the number of columns, zero: undefined behaviour |
| `C71_shapes_refuted` | taking an instance apart does not check the shapes of matrices: with a 3-vector in a field for a 2-vector and the reverse, or a transposed matrix, the elements silently move to other members |
| `C71_opaque_refuted` | a type with an opaque member is accepted, but no instance of it can be built, so it cannot be the type of an argument |
| `C72_integer_refuted` | an external function may be declared with an integer parameter, but no call of it is accepted: every scalar expression counts as a float |
| `C72_reserved_refuted` | a parameter called `self` or `func` cannot be passed by keyword: the name is taken by a parameter of the wrapper |
| `C73_non_ascii_refuted` | `symbols("θ")` passes a negative `char` to `std::isspace`, which is undefined behaviour |
| `C74_empty_refuted` | printing the tree of a call of an external function without parameters, or of a matrix without rows, advances an iterator beyond the end of an empty container |
| `C74_names_refuted` | calls of external functions that differ in parameters or result but not in name have the same printed tree |
| `C75_parameters_refuted` | annotated functions with positional-only parameters, or keyword-only ones without a default, are refused with a `TypeError` from the call |
| `C75_default_refuted` | keyword-only parameters with a default are silently left out of the arguments of the generated function |
| `C75_opaque_refuted` | a function that returns its opaque argument is refused: no overload of the output functions takes opaque values |
| `C76_depth_refuted` | a custom generator whose methods call `format` on parts raises the exception about methods that call themselves when elements of one kind are nested 32 deep below the root, although the recursion ends |
| `C77_sum_refuted` | `x + zoo + 0` is the sum of `zoo` and `x`, but the sum of its two `args` is `zoo`: two operands follow a rule of their own |
| `C77_product_refuted` | `√3 * 12**y * 12**(1/2 - y)` is the product `2 * √3 * √3`, whose `args` multiply to `6` |
| `C82_nan_refuted` | with a not-a-number constant (`(-1.0)**0.5` is one) a list and its reverse are both in order, so `sorted` leaves both as they are |
| `C83_rational_refuted` | `sym.rational(-2**63, 1)` is undefined behaviour in `std::gcd`, as in C04 |
| `C84_orders_refuted` | the orders are added as `int`: one more derivative of a derivative of order 2^31 - 1 is undefined behaviour |

## Coverage

### Idealisations used by several areas

* **Exact floats.** Expressions carry a type `F` of floats with a class `FloatSem`/`FnSem` that gives each float a real value (or none) and says that the
  float operations used by the constructors are exact. The instance over ℝ (`RealFloat`) shows that the class can be inhabited. Theorems about identity,
  order and hash (C10, C11) do not use it.
* **Licences.** The constructors ask sign questions (`is_nonnegative`, number sets) before they use a power rule. The model has these questions as a
  parameter `Lic`; `codeLic` answers as the code does. `LawfulRun ρ …` says that the code's run gives the same result as a run in which every licence
  that is given is true under `ρ`. The refutations of C13, C21 and C52 show that this condition cannot be dropped
  in general. It is a theorem, not a condition, for three kinds of expression (`ExponentSpec`): `IntPowers` (every power has an integer exponent;
  closed under every rewriting function), `SafePowers` (or the base is no product, power, exponential or float; enough for one constructor call)
  and `PlainPowers` (or the base is a sum, variable or constant; closed under lowering). The theorems called `…_unconditional` use this.
* **Depth.** The constructors and visitors call each other. The model closes the recursion with a number of levels (`ctors lic n`); running out is an
  error outcome, so every theorem about a result that is returned holds for any depth.
* **Order of operands.** Sorting uses the canonical order with rational comparison in unbounded integers (`exactOrder`); C10 treats overflow separately.
* **Hash tables** whose iteration order is observable are modelled in insertion order. The tables of `cse.cc` and of lowering are lookups only.
* **Caches** of visitors are left out, except in `cse.cc` and lowering, where they carry meaning.
* **Exact arithmetic in the intermediate form.** Passes are proved over any arithmetic with the laws of a commutative ring except `0 * a = 0` and `a + -a = 0` (`Arith` in `Gen/GraphSpec.lean`), so they also hold when a value may be undefined; lowering (C34) over the complex numbers, and over any such arithmetic that contains them.

### Modelled

| Source (under `components/core/wf` unless given) | Model | Left out |
|---|---|---|
| `utility/checked_int.h`, `integer_utils.h/.cc` | `Num/CheckedInt`, `Num/IntegerUtils` | |
| `expressions/numeric_expressions.h`, numeric part of `power.cc` | `Num/Rational`, `Num/Float`, `Num/Power` | float printing |
| `utility/ordering.h`, `expression_variant` order, `utility/hashing.h` | `Ord`, `Sym/Expr`, `Sym/Order` | the mixing function of the hash is a parameter |
| `expressions/addition.*`, `multiplication.*`, `power.*` | `Sym/Ctor` | |
| `functions.cc`, `expressions/relational.*`, `conditional.h`, `number_set.cc` | `Sym/Function`, `Sym/NumberSet` | |
| `substitute.cc`, `distribute.cc`, `collect.cc`, `cse.cc`, `derivative.cc` | `Sym/Substitute`, `Rebuild`, `Distribute`, `Cse`, `Derivative`, `Chain` | the counter of unique variables is a function that gives new numbers; the inner derivatives of substitutions are bounded in depth |
| `get_expressions_by_predicate`, `is_function_of` of `utility_visitors.cc` | `Sym/Variables`, `Sym/Derivative` | |
| `plain_formatter.cc` | `Sym/Format` | spaces; digits of floats; matrices, compound expressions |
| `matrix_functions.cc`, `expressions/matrix.*` | `Mat`, `Sym/MatExpr` (entries that are expressions) | |
| `sympy_conversion.cc` of the Python wrapper, `sympy_conversion.py` | `Sym/Sympy` | matrices, `evaluate=True`; what SymPy itself does is stated as its documentation does (`SympySpec`: the value of each head; `symbols` on names without backslashes) |
| `matrix_wrapper.cc` of the Python wrapper | `Mat/PyMat` | the conversion of Python objects to scalars (an object either is a scalar or is not), conversion to NumPy arrays, printing, overload resolution |
| `custom_types.py` | `Gen/Struct` | the conversion of annotations to types; constructors of dataclasses that do more than assign attributes; subclasses of `Opaque` that are dataclasses |
| `external_functions.py`, `external_function.cc` | `Gen/Call` | conversion of annotations to types; results of user-defined types, which are instances with one expression per member (C71 and C47 give the order) |
| `scalar_wrapper.cc` (`symbols`) | `Sym/Symbols` | the locale of `isspace` |
| `tree_formatter.cc` | `Sym/Tree` | the digits of floats (a parameter); bytes of UTF-8 (text is a list of code points) |
| `function_description.cc`, `create_function_description` of `code_generation.py` | `Gen/Describe` | the conversion of annotations to types; rebuilding a struct from its own members (C50); variadic parameters |
| `code_formatting_wrapper.cc` | `Gen/Hook` | the cache of existing methods; the conversion of the result to text; constructors and properties of the generators |
| `args_visitor.cc` | `Expr.args` | the `args` of matrices, booleans and compound expressions |
| `boolean_expression_wrapper.cc` (`coerce_to_bool`), `scalar_wrapper.cc` (comparisons, `__bool__`) | `Sym/TruthModel` | Python's `and`, `or`, `not`, chains, `max` and `min` are modelled after the language reference; `==` is identity (C10) |
| `scalar_wrapper.cc` (`unique_symbols`), `variable.cc` (`next_unique_variable_index`) | `Sym/OnceModel` | `fetch_add` is one step (sequential consistency is the default of `std::atomic`); after 2^64 - 1 numbers the counter wraps: one call fails the assertion and numbers are used again, which the theorems exclude by a bound on the steps |
| `geometry_wrapper.cc` (storage conversions, `with_name`) | `Sym/QuatStoreModel` | the choice of the overload is by type; `__repr__` |
| `scalar_wrapper.cc` (`compare`) | `Sym/SortModel` | Python's merge sort (its result is covered by `C82_sorted_unique_partial`, which is about every list in order) |
| `scalar_wrapper.cc` (`rational`, `symbol`, `make_symbols`) | `Sym/DeclareModel` | the conversion of Python objects to strings and 64-bit integers |
| `scalar_wrapper.cc` (`derivative`) | `Sym/DeferredModel` | agrees with `derivCreate` of `Sym/RebuildModel` (`deferred_eq_derivCreate`) wherever it returns |
| `evaluate.cc`, `numerical_casts.cc`, `numpy_conversion.cc` and `eval_wrapper` of the Python wrapper | `Sym/Evaluate` | |
| `geometry/quaternion.*` | `Geo/Quaternion` (numbers), `Sym/Quat` (expressions) | dimension errors of `rotate` and of the overloads for rotation vectors and matrices |
| `code_generation/ir_form_visitor.cc` | `Sym/Lower` | compound expressions, struct outputs |
| `code_generation/expr_from_ir.cc` | `Sym/FromIr` | programs of several blocks (phi functions), external functions, structs |
| `code_generation/control_flow_graph.cc`, `ir_value.*`, `ir_consumer_vector.h`, `binarizer.cc`, `factorizer.cc` | `Gen/Graph`, `Consumer`, `Factorize` | |
| `code_generation/ir_control_flow_converter.cc` | `Gen/Flow` | |
| `code_generation/ast_conversion.cc`, `find_merge_point` of `ir_block.cc` | `Gen/Ast`, `Gen/Name` (names) | parentheses (see C41), comments |
| `code_generation/cpp_code_generator.cc`, `rust_…`, `python_…` | `Gen/Text` (expressions), `Gen/StmtText` (statements, construction of matrices and structs, bodies), `Gen/Sig` (signatures, conversions of arguments) | the preamble, documentation comments, attributes of Rust functions |
| `code_generation/types.*`, `expressions/compound_expression*.h` | `Gen/Types`, `Gen/Compound` | |
| `utility/stack_allocator.h`, `utility/index_range`/bit sets, `components/runtime/wrenfold/span*.h` | `Run` | Eigen and PyTorch glue |

### Not modelled

The other Python bindings, documentation, tracing.
