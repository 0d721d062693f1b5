import Verif.Gen.TextRust
import Verif.Gen.TextPython
import Mathlib.Data.List.Chain

/-!
# Properties of the emitted text

C41. The grammars of the target languages and the syntax trees that are meant are in `TextSpec.lean`.
-/

namespace Wf.Gen.Text

/-! ## The text is read as meant -/

/-- C41, C++: the text is read as the operation tree that it was printed from, and in no other way. The operations excluded by `Fine` are refuted
below. -/
theorem C41_cpp_partial (span : Bool) {t : Tree} (h : t.Fine .cpp) : ReadsAs .cpp (t.visit.cpp span) (t.cppE span) := by
  have h0 := (reads_cpp span t h).down (Nat.zero_le _) t.level_le
  exact ⟨h0, fun e h1 => Reads.unique h0 h1⟩

/-- C41, Rust. -/
theorem C41_rust_partial {t : Tree} (h : t.Fine .rust) : ReadsAs .rust t.visit.rust t.rustE := by
  have h0 := (reads_rust t h).down (Nat.zero_le _) t.level_le
  exact ⟨h0, fun e h1 => Reads.unique h0 h1⟩

/-- C41, Python. -/
theorem C41_python_partial (o : PyOptions) {t : Tree} (h : t.Fine .python) : ReadsAs .python (t.visit.python o) (t.pythonE o) := by
  have h0 := (reads_python o t h).down (Nat.zero_le _) t.level_le
  exact ⟨h0, fun e h1 => Reads.unique h0 h1⟩

/-- `2 * (x + -(y * floor(z))) / f(p)(0, 1) < cos(q.a)`, and a conversion of it. -/
def textTree : Tree :=
  .cast .integral (.cmp .lt (.div (.mul [.int 2, .add [.var "x", .neg (.mul [.var "y", .cast .floating (.std .floor [.var "z"])])]])
    (.elem (.call "f" (.matrix 2 2) [.custom] [.arg "p" .custom]) 0 1)) (.std .cos [.field (.arg "q" .custom) "a"]))

theorem textTree_fine (L : Lang) : textTree.Fine L := by
  cases L <;> simp [textTree, Tree.Fine, AllFine, Tree.risky, Tree.riskyNeg, Tree.isLoose, Tree.isObject, Tree.isAs, Std.arity]

example : textTree.visit.cpp false = [.staticCast "std::int64_t", .lpar, .lpar, .int 2 "", .sp, .star, .sp, .lpar, .name "x", .sp, .plus, .sp, .minus, .lpar,
    .name "y", .sp, .star, .sp, .staticCast "Scalar", .lpar, .staticCast "std::int64_t", .lpar, .name "std::floor", .lpar, .name "z", .rpar, .rpar, .rpar,
    .rpar, .rpar, .rpar, .sp, .slash, .sp, .name "f", .lpar, .name "p", .rpar, .lpar, .int 0 "", .comma, .sp, .int 1 "", .rpar, .sp, .lt, .sp,
    .name "std::cos", .lpar, .name "q", .dot, .name "a", .rpar, .rpar] := by decide +kernel
example : ReadsAs .cpp (textTree.visit.cpp false) (textTree.cppE false) := C41_cpp_partial false (textTree_fine _)
example : ReadsAs .rust textTree.visit.rust textTree.rustE := C41_rust_partial (textTree_fine _)
example : ReadsAs .python (textTree.visit.python ⟨.numpy, true⟩) (textTree.pythonE ⟨.numpy, true⟩) := C41_python_partial _ (textTree_fine _)

/-- C41: a text is read in at most one way. -/
theorem C41_unambiguous {L : Lang} {text : Toks} {e e' : E} (h : Reads L 0 (tokens L text) e) (h' : Reads L 0 (tokens L text) e') : e = e' :=
  Reads.unique h' h

example : ∃ e, Reads .cpp 0 (tokens .cpp (textTree.visit.cpp true)) e := ⟨_, (C41_cpp_partial true (textTree_fine _)).1⟩

/-- C41: the names of the functions are the names that the libraries give them. (PyTorch is left out. The sign has no name in C++ and is not a
method in Rust.) -/
theorem C41_names (f : Std) (o : PyOptions) (ho : o.target ≠ .pytorch) :
    (f ≠ .signum → cmath.lookup (cppStd f) = some f.meaning ∧ rustMethods.lookup (rustStd f) = some f.meaning) ∧
    numpyFunctions.lookup (pyStd f) = some f.meaning ∧ (o.name (pyStd f) = "np." ++ pyStd f ∨ o.name (pyStd f) = "jnp." ++ pyStd f) := by
  refine ⟨?_, ?_, ?_⟩
  · revert f; intro f; cases f <;> decide +kernel
  · revert f; intro f; cases f <;> decide +kernel
  · obtain ⟨target, wide⟩ := o
    cases target
    · exact .inl rfl
    · exact absurd rfl ho
    · exact .inr rfl

example : cmath.lookup (cppStd .powi) = some .pow ∧ rustMethods.lookup (rustStd .log) = some .ln ∧ numpyFunctions.lookup (pyStd .atan2) = some .atan2 := by
  decide +kernel

/-- C41: conversions name the type that is meant. -/
theorem C41_types (p : Prim) (o : PyOptions) :
    (numberTypes .cpp).lookup (cppType p) = some p ∧ (numberTypes .rust).lookup (rustType p) = some p ∧ (numberTypes .python).lookup (o.type p) = some p ∧
      (p = .floating → o.type p = if o.wide then "float64" else "float32") := by
  obtain ⟨target, wide⟩ := o
  cases p <;> cases target <;> cases wide <;> decide +kernel

example : cppType .integral = "std::int64_t" := rfl

/-! ## Texts that are read in another way, or not at all -/

private theorem nameAt {L : Lang} (k : Nat) (h : k ≤ 7) (s : String) : Reads L k [.name s] (.atom s) := Reads.down (k' := 7) .name h (Nat.le_refl _)

/-- The text is read as something else than what is meant. -/
def Misread (L : Lang) (text : Toks) (e : E) : Prop := ∃ e', ReadsAs L text e' ∧ e' ≠ e

/-- The text is not an expression of the language. -/
def Unreadable (L : Lang) (text : Toks) : Prop := ∀ e, ¬ Reads L 0 (tokens L text) e

private theorem misread {L : Lang} {text : Toks} {e e' : E} (h : Reads L 0 (tokens L text) e') (hne : e' ≠ e) : Misread L text e :=
  ⟨e', ⟨h, fun _ h1 => Reads.unique h h1⟩, hne⟩

/-- C41 fails for a conditional below a sum in C++: `x + (c ? a : b)` is printed without the parentheses, and the text is read as `(x + c) ? a : b`. -/
theorem C41_cpp_conditional (span : Bool) :
    let t : Tree := .add [.var "x", .cond (.var "c") (.var "a") (.var "b")]
    t.visit.cpp span = [.name "x", .sp, .plus, .sp, .name "c", .sp, .quest, .sp, .name "a", .sp, .colon, .sp, .name "b"] ∧
      ReadsAs .cpp (t.visit.cpp span) (.cond (.bin .add (.atom "x") (.atom "c")) (.atom "a") (.atom "b")) ∧ Misread .cpp (t.visit.cpp span) (t.cppE span) := by
  have h : Reads .cpp 0 ([.name "x"] ++ .plus :: [.name "c"] ++ .quest :: ([.name "a"] ++ .colon :: [.name "b"]))
      (.cond (.bin .add (.atom "x") (.atom "c")) (.atom "a") (.atom "b")) :=
    .cond rfl ((Reads.bin (L := .cpp) (op := .add) (nameAt 3 (by decide) _) (nameAt 4 (by decide) _) (by simp)).down (k := 1) (by decide) (by decide))
      (nameAt 0 (by decide) _) (nameAt 0 (by decide) _)
  refine ⟨rfl, ⟨h, fun _ h1 => Reads.unique h h1⟩, misread h (by simp [Tree.cppE, cppEs, fold])⟩

/-- C41 fails for the sign function below a product in C++: `2 * sign(x)` is read as `2 * (0 < x) - (x < 0)`. -/
theorem C41_cpp_sign (span : Bool) :
    let t : Tree := .mul [.int 2, .std .signum [.var "x"]]
    Misread .cpp (t.visit.cpp span) (t.cppE span) := by
  have h0 : Reads .cpp 7 (.staticCast "Scalar" :: .lpar :: ([.int 0 ""] ++ [.rpar])) (.cast "Scalar" (.int 0 "")) :=
    .staticCast rfl ((Reads.int fun _ => by decide).down (Nat.zero_le _) (by omega))
  have h1 := Reads.bin (L := .cpp) (op := .lt) (h0.down (k := 2) (by omega) (by omega)) (nameAt 3 (by decide) "x") (by simp)
  have h2 := Reads.bin (L := .cpp) (op := .lt) (nameAt 2 (by decide) "x") (h0.down (k := 3) (by omega) (by omega)) (by simp)
  have h3 := Reads.bin (L := .cpp) (op := .mul) ((Reads.int (n := 2) (s := "") fun _ => by decide).down (k := 4) (by omega) (by omega))
    ((Reads.paren (h1.down (Nat.zero_le _) (by decide))).down (k := 5) (by omega) (by omega)) (by simp)
  have h4 := Reads.bin (L := .cpp) (op := .sub) (h3.down (k := 3) (by decide) (by decide))
    ((Reads.paren (h2.down (Nat.zero_le _) (by decide))).down (k := 4) (by omega) (by omega)) (by simp)
  exact misread (h4.down (Nat.zero_le _) (by decide)) (by simp [Tree.cppE, cppEs, fold])

/-- C41 fails for the sign function below a product in Rust. -/
theorem C41_rust_sign :
    let t : Tree := .mul [.int 2, .std .signum [.var "x"]]
    Misread .rust t.visit.rust t.rustE := by
  have h1 := Reads.bin (L := .rust) (op := .lt) (nameAt 3 (by decide) "0.0f64") (nameAt 3 (by decide) "x") (by simp [endsInType])
  have h2 := Reads.bin (L := .rust) (op := .lt) (nameAt 3 (by decide) "x") (nameAt 3 (by decide) "0.0f64") (by simp [endsInType])
  have h1' := Reads.as (t := "i64") rfl ((Reads.paren (h1.down (Nat.zero_le _) (by decide))).down (k := 5) (by omega) (by omega))
  have h2' := Reads.as (t := "i64") rfl ((Reads.paren (h2.down (Nat.zero_le _) (by decide))).down (k := 5) (by omega) (by omega))
  have h3 := Reads.bin (L := .rust) (op := .mul) ((Reads.int (n := 2) (s := "i64") (by simp)).down (k := 4) (by omega) (by omega)) h1' (by simp)
  have h4 := Reads.bin (L := .rust) (op := .sub) (h3.down (k := 3) (by decide) (by decide)) (h2'.down (k := 4) (by omega) (by omega)) (by simp)
  exact misread (h4.down (Nat.zero_le _) (by decide)) (by simp [Tree.rustE, rustEs, fold])

/-- C41 fails for the negation of a conversion in Rust: `-(x as i64)` is printed as `-(x) as i64`, which converts `-x`. -/
theorem C41_rust_negated_cast :
    let t : Tree := .neg (.cast .integral (.var "x"))
    Misread .rust t.visit.rust t.rustE := by
  have h := Reads.as (t := "i64") rfl ((Reads.neg ((Reads.paren (nameAt (L := .rust) 0 (by decide) "x")).down (k := 6) (by omega) (by omega))).down (k := 5) (by omega) (by omega))
  exact misread (h.down (Nat.zero_le _) (by decide)) (by simp [Tree.rustE])

/-- C41 fails for copies of operations: the copy of a sum is printed below a product without parentheses, in all languages. -/
theorem C41_copy :
    let t : Tree := .mul [.var "x", .copy (.add [.var "y", .var "z"])]
    (∀ span, Misread .cpp (t.visit.cpp span) (t.cppE span)) ∧ Misread .rust t.visit.rust t.rustE ∧
      ∀ o, Misread .python (t.visit.python o) (t.pythonE o) := by
  have h : ∀ L, Reads L 0 ([.name "x"] ++ .star :: [.name "y"] ++ .plus :: [.name "z"]) (.bin .add (.bin .mul (.atom "x") (.atom "y")) (.atom "z")) := by
    intro L
    have hm : Reads L (BinOp.level L .mul) ([.name "x"] ++ BinOp.mul.tok :: [.name "y"]) (.bin .mul (.atom "x") (.atom "y")) :=
      .bin (nameAt _ (by simp [BinOp.left, BinOp.level]) _) (nameAt _ (by simp [BinOp.level]) _) (by simp)
    have ha : Reads L (BinOp.level L .add) ([.name "x"] ++ BinOp.mul.tok :: [.name "y"] ++ BinOp.add.tok :: [.name "z"]) (.bin .add (.bin .mul (.atom "x") (.atom "y")) (.atom "z")) :=
      .bin (hm.down (by simp [BinOp.left, BinOp.level]) (by simp [BinOp.level])) (nameAt _ (by simp [BinOp.level]) _) (by simp)
    exact ha.down (Nat.zero_le _) (by simp [BinOp.level])
  refine ⟨fun span => misread (h .cpp) (by simp [Tree.cppE, cppEs, fold]), misread (h .rust) (by simp [Tree.rustE, rustEs, fold]), fun o => misread (h .python) (by simp [Tree.pythonE, pythonEs, fold])⟩

/-! Texts that are not expressions. -/

private theorem no_decrement {L : Lang} {k : Nat} {ts : Toks} {e : E} (h : Reads L k ts e) : Tok.decrement ∉ ts := by
  induction h using Reads.rec (motive_2 := fun ts _ _ => Tok.decrement ∉ ts) with
  | @bin op => cases op <;> simp_all [BinOp.tok]
  | _ => simp_all

private theorem small_literals {k : Nat} {ts : Toks} {e : E} (h : Reads .cpp k ts e) : ∀ n s, Tok.int n s ∈ ts → n < 2 ^ 63 := by
  induction h using Reads.rec (motive_2 := fun ts _ _ => ∀ n s, Tok.int n s ∈ ts → n < 2 ^ 63) with
  | @bin op l r a b _ _ _ h1 h2 =>
    intro n s hm
    rcases List.mem_append.1 hm with hm | hm
    · exact h1 n s hm
    · rcases List.mem_cons.1 hm with hm | hm
      · cases op <;> cases hm
      · exact h2 n s hm
  | @int m u h =>
    intro n s hm
    rw [List.mem_singleton] at hm
    cases hm
    exact h rfl
  | _ => simp_all; try grind

/-- C41 fails for a double negation, and for the negation of a negative number, in C++: the two signs are read as a decrement. -/
theorem C41_cpp_double_negation (span : Bool) (s : String) (n : Int) (hn : n < 0) :
    Unreadable .cpp ((Tree.neg (.neg (.var s))).visit.cpp span) ∧ Unreadable .cpp ((Tree.neg (.int n)).visit.cpp span) := by
  constructor
  · intro e h
    exact no_decrement h (List.mem_cons_self (a := Tok.decrement) (l := [Tok.name s]))
  · intro e h
    have : tokens .cpp ((Tree.neg (.int n)).visit.cpp span) = [.decrement, .int n.natAbs ""] := by
      simp [Tree.visit, wrap, Tree.prec, Prec.rank, Ast.cpp, intToks, hn, tokens]
    rw [this] at h
    exact no_decrement h List.mem_cons_self

/-- C41 fails for the least integer in C++: the digits of its literal are out of the range of every signed type. -/
theorem C41_cpp_least_integer (span : Bool) : Unreadable .cpp ((Tree.int (-(2 ^ 63))).visit.cpp span) := by
  intro e h
  have : tokens .cpp ((Tree.int (-(2 ^ 63))).visit.cpp span) = [.minus, .int (2 ^ 63) ""] := by cases span <;> decide +kernel
  rw [this] at h
  have := small_literals h (2 ^ 63) "" (by simp)
  omega

/-- The token `b` may follow the token `a` in Rust. -/
private def follows (a b : Tok) : Prop := (∃ t, a = .ty t) → b ≠ .lt

private theorem ends_type {ts : Toks} {x : Tok} (h : endsInType ts = false) (hx : x ∈ ts.getLast?) : ∀ t, x ≠ .ty t := by
  rintro t rfl
  rw [Option.mem_def] at hx
  rw [endsInType, hx] at h
  cases h

private theorem follows_mid {l r : Toks} {x : Tok} (hx : ∀ t, x ≠ .ty t) (hl : List.IsChain follows l) (hr : List.IsChain follows r)
    (h : x ≠ .lt ∨ endsInType l = false) : List.IsChain follows (l ++ x :: r) := by
  refine List.isChain_append.2 ⟨hl, ?_, ?_⟩
  · cases r with
    | nil => exact List.isChain_singleton _
    | cons y r => exact List.isChain_cons_cons.2 ⟨fun ⟨t, e⟩ => absurd e (hx t), hr⟩
  · rintro y hy z hz ⟨t, rfl⟩ hlt
    rw [List.head?_cons, Option.mem_def, Option.some.injEq] at hz
    rcases h with h | h
    · exact h (hz.trans hlt)
    · exact ends_type h hy t rfl

private theorem follows_cons {r : Toks} {x : Tok} (hx : ∀ t, x ≠ .ty t) (hr : List.IsChain follows r) : List.IsChain follows (x :: r) := by
  cases r with
  | nil => exact List.isChain_singleton _
  | cons y r => exact List.isChain_cons_cons.2 ⟨fun ⟨t, e⟩ => absurd e (hx t), hr⟩

private theorem types_end {k : Nat} {ts : Toks} {e : E} (h : Reads .rust k ts e) : List.IsChain follows ts := by
  have one : ∀ x, List.IsChain follows [x] := fun x => List.isChain_singleton _
  induction h using Reads.rec (motive_2 := fun ts _ _ => List.IsChain follows ts) with
  | up _ _ ih => exact ih
  | @bin op l r a b _ _ hn h1 h2 =>
    refine follows_mid (by cases op <;> simp [BinOp.tok]) h1 h2 ?_
    by_cases ho : op = .lt
    · right
      simpa [ho] using hn
    · left
      cases op <;> simp_all [BinOp.tok]
  | cond h => cases h
  | neg _ ih => exact follows_cons (by simp) ih
  | ref _ _ ih => exact follows_cons (by simp) ih
  | as _ _ ih => exact follows_mid (by simp) ih (one _) (.inl (by simp))
  | ifElse _ _ _ _ h1 h2 h3 =>
    exact follows_cons (by simp) (follows_mid (by simp) h1 (follows_mid (by simp) h2 (follows_cons (by simp) (follows_cons (by simp)
      (follows_mid (by simp) h3 .nil (.inl (by simp))))) (.inl (by simp))) (.inl (by simp)))
  | staticCast h => cases h
  | paren _ ih => exact follows_cons (by simp) (follows_mid (by simp) ih .nil (.inl (by simp)))
  | name => exact one _
  | int => exact one _
  | app _ _ h1 h2 => exact follows_mid (by simp) h1 (follows_mid (by simp) h2 .nil (.inl (by simp))) (.inl (by simp))
  | field _ ih => exact follows_mid (by simp) ih (one _) (.inl (by simp))
  | index h => cases h
  | indexTuple _ _ _ h1 h2 =>
    exact follows_mid (by simp) h1 (follows_cons (by simp) (follows_mid (by simp) h2 (one _) (.inl (by simp)))) (.inl (by simp))
  | nil => exact .nil
  | one _ ih => exact ih
  | cons _ _ _ h1 h2 => exact follows_mid (by simp) h1 h2 (.inl (by simp))

/-- C41 fails for the sign of a converted value in Rust: in `x as f64 < 0.0` the sign `<` begins the arguments of a generic type. -/
theorem C41_rust_sign_of_cast (s : String) : Unreadable .rust (Tree.std .signum [.cast .floating (.var s)]).visit.rust := by
  intro e h
  have h1 := types_end h
  have h2 : follows (.ty "f64") .lt := by
    simp [Tree.visit, visitAll, Ast.rust, rustList, rustStdToks, rustType, tokens, List.isChain_cons_cons] at h1
    exact h1.2.2.2.2.2.2.2.2.2.2.2.2.2.2.2.2.2.1
  exact h2 ⟨_, rfl⟩ rfl

end Wf.Gen.Text
