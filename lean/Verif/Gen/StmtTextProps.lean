import Mathlib.Tactic.ByContra
import Verif.Gen.StmtTextRust
import Verif.Gen.StmtTextPython

/-!
# C56: the text of the statements is read as the statements that are meant
-/

namespace Wf.Gen.Text

/-! ## Bodies -/

theorem splitReturn_eq : ∀ body : List Stm, body = (splitReturn body).1 ++ ((splitReturn body).2.map Stm.ret).toList
  | [] => rfl
  | [.ret v] => rfl
  | [.comment _] | [.declare _ _ _] | [.assign _ _] | [.output _ _ _] | [.outputMatrix _ _ _ _ _] | [.branch _ _ _] | [.optional _ _ _] => rfl
  | s :: t :: l => by
    have ih := splitReturn_eq (t :: l)
    have e : splitReturn (s :: t :: l) = (s :: (splitReturn (t :: l)).1, (splitReturn (t :: l)).2) := by
      cases s <;> rfl
    rw [e]
    simpa using ih

private theorem words_join {L : Lang} (l : List Toks) : words L (joinWith [.nl] l) = (l.map (words L)).flatten := by
  induction l with
  | nil => rfl
  | cons t l ih =>
    cases l with
    | nil => simp [joinWith]
    | cons u l => rw [join_cons, List.cons_append, List.nil_append, words_nl, ih]; simp

private theorem stmsCpp_append (span : Bool) (a b : List Stm) : stmsCpp span (a ++ b) = stmsCpp span a ++ stmsCpp span b := by
  induction a with
  | nil => rfl
  | cons s a ih => simp [stmsCpp, ih]

theorem stmsCppSt_append (span : Bool) (a b : List Stm) : stmsCppSt span (a ++ b) = stmsCppSt span a ++ stmsCppSt span b := by
  induction a with
  | nil => rfl
  | cons s a ih => simp [stmsCppSt, ih]

private theorem stmsRust_append (a b : List Stm) : stmsRust (a ++ b) = stmsRust a ++ stmsRust b := by
  induction a with
  | nil => rfl
  | cons s a ih => simp [stmsRust, ih]

theorem stmsRustSt_append (a b : List Stm) : stmsRustSt (a ++ b) = stmsRustSt a ++ stmsRustSt b := by
  induction a with
  | nil => rfl
  | cons s a ih => simp [stmsRustSt, ih]

theorem haveMatrix_append (a b : List Stm) : stmsHaveMatrix (a ++ b) = (stmsHaveMatrix a || stmsHaveMatrix b) := by
  induction a with
  | nil => rfl
  | cons s a ih => simp [stmsHaveMatrix, ih, Bool.or_assoc]

/-- **C56** (C++). The body of a C++ function is read as the statements that are meant, in their order and with the operations that are meant, and in no other
way. -/
theorem C56_cpp_partial (span : Bool) {body : List Stm} {text : Toks} (h : BodyFine .cpp body) (ht : cppBody span body = some text) :
    BlockReadsAs .cpp text (stmsCppSt span body) := by
  have key : ReadsBlock .cpp (words .cpp (joinWith [.nl] (stmsCpp span body))) (stmsCppSt span body) := by
    rw [splitReturn_eq body, stmsCpp_append, stmsCppSt_append, words_join, List.map_append, List.flatten_append, ← words_join]
    refine stms_reads_cpp span _ h.1 ?_
    cases hr : (splitReturn body).2 with
    | none => exact .nil
    | some v =>
      obtain ⟨h1, h2⟩ := v.reads_cpp span (h.2 v hr).1
      have := reads_one (L := .cpp) (.ret (by simp) h2) (by simp) (us := []) .nil
      have e : words .cpp (.kReturn :: .sp :: (v.cpp span ++ [.semi])) = .kReturn :: (words .cpp (v.cpp span) ++ [.semi]) := by
        rw [words_cons, words_sp, words_app h1 (by simp), words_cons, words_nil]
      simpa [stmsCpp, stmsCppSt, Stm.cpp, Stm.cppSt, e] using this
  unfold cppBody at ht
  split at ht
  · cases ht
  · cases ht
    refine ⟨_, ?_, key, fun ss' h' => key.unique (by simp) h'⟩
    have := words_if .cpp (joinWith [.nl] (stmsCpp span body)) []
    rw [List.append_nil] at this
    rw [words_newline, this]
    rfl

/-- **C56** (Rust). -/
theorem C56_rust_partial {body : List Stm} {text : Toks} (h : BodyFine .rust body) (ht : rustBody body = some text) :
    BlockReadsAs .rust text (stmsRustSt body) := by
  unfold rustBody at ht
  by_cases hm : stmsHaveMatrix body = true
  · rw [if_pos hm] at ht; cases ht
  rw [if_neg hm] at ht
  cases ht
  have hm : stmsHaveMatrix body = false := by simpa using hm
  have key : ReadsBlock .rust (words .rust (joinWith [.nl] (stmsRust body))) (stmsRustSt body) := by
    rw [splitReturn_eq body, haveMatrix_append, Bool.or_eq_false_iff] at hm
    rw [splitReturn_eq body, stmsRust_append, stmsRustSt_append, words_join, List.map_append, List.flatten_append, ← words_join]
    refine stms_reads_rust _ h.1 hm.1 ?_
    cases hr : (splitReturn body).2 with
    | none => exact .nil
    | some v =>
      rw [hr] at hm
      have hv := h.2 v hr
      have hm : v.hasMatrix = false := by simpa [stmsHaveMatrix, Stm.hasMatrix] using hm.2
      have e : ReadsBlock .rust (words .rust v.rust) (Stm.ret v).rustSt := by
        cases v with
        | expr t =>
          rw [Value.rust, words_expr (reads_rust_words hv.1).1]
          exact t.reads_tail hv.1 (hv.2 rfl)
        | matrix r c l => cases hm
        | struct n fs =>
          obtain ⟨h1, h2⟩ := Value.reads_rust (.struct n fs) hv.1 hm
          refine .tail rfl h2 ?_
          rw [Value.rust, words_cons]
          simp
      simpa [stmsRust, stmsRustSt, Stm.rust] using e
  refine ⟨_, ?_, key, fun ss' h' => key.unique (by simp) h'⟩
  have := words_if .rust (joinWith [.nl] (stmsRust body)) []
  rw [List.append_nil] at this
  rw [this]
  rfl

/-- **C56** (Python). The lines of the body are read as a block with the statements that are meant, for the indentation that the options give. -/
theorem C56_python_partial {o : PyConfig} {outs : List String} {body : List Stm} {text : Toks} (hn : 0 < o.indent) (h : BodyFine .python body)
    (ht : pyBody o outs body = some text) (hne : pyMeant o outs body ≠ []) : LinesReadAs o.indent text (pyMeant o outs body) := by
  have key : ReadsLines o.indent (pyLines text) (pyMeant o outs body) := by
    unfold pyBody at ht
    by_cases hr : throwPython o (splitReturn body).1 = true
    · rw [if_pos hr] at ht; cases ht
    rw [if_neg hr] at ht
    cases ht
    obtain ⟨ls, h1, h2⟩ := stms_reads_python o hn _ h.1
    have hf : List.Forall₂ (fun ts v => ∃ ws, Row ts ws ∧ ReadsV .python ws v)
        (((splitReturn body).2.map (Value.python o)).toList ++ if o.outputArguments then [] else outs.map fun n => [.name n]) (pyReturned o outs body) := by
      unfold pyReturned
      refine List.rel_append ?_ ?_
      · cases hv : (splitReturn body).2 with
        | none => exact .nil
        | some v => exact .cons (v.reads_python o (h.2 v hv).1) .nil
      · split
        · exact .nil
        · rw [List.forall₂_map_left_iff, List.forall₂_map_right_iff, List.forall₂_same]
          exact fun n _ => ⟨[.name n], .cons .nil, .expr (Reads.down (k' := 7) .name (by omega) (by omega))⟩
    obtain ⟨lr, h3, h4⟩ := reads_pyReturn o hf
    have hl := (h1.indent o.indent).nl h3
    have e : indented o.indent [] [.nl] (joinWith [.nl] (stmsPython o (splitReturn body).1)) ++
        pyReturn o (((splitReturn body).2.map (Value.python o)).toList ++ if o.outputArguments then [] else outs.map fun n => [.name n]) =
        (.indent o.indent :: indentAfter o.indent (joinWith [.nl] (stmsPython o (splitReturn body).1))) ++ .nl ::
          pyReturn o (((splitReturn body).2.map (Value.python o)).toList ++ if o.outputArguments then [] else outs.map fun n => [.name n]) := by
      simp [indented]
    rw [e, hl.2]
    exact (h2.shift o.indent).append h4
  exact ⟨hne, key, fun ss' h' => key.unique h'⟩

/-! A body that meets the hypotheses. -/

def stmBody : List Stm :=
  [.comment ["Operation counts:", "add: 1"],
    .declare "v0" (.scalar .floating) (some (.expr (.add [.var "x", .mul [.int 2, .var "y"]]))),
    .declare "v1" (.scalar .floating) none,
    .branch (.cmp .lt (.var "x") (.int 0)) [.comment ["negative"], .assign "v1" (.expr (.var "v0"))]
      [.branch (.cmp .eq (.var "x") (.int 0)) [.assign "v1" (.expr (.int 0))] [.assign "v1" (.expr (.mul [.var "v0", .neg (.var "y")]))]],
    .optional "J" (.matrix 2 1) [.outputMatrix "J" true 2 1 [.var "v0", .std .sqrt [.var "v1"]]],
    .ret (.struct "Point" (.cons "a" (.expr (.var "v0")) (.cons "b" (.struct "Inner" (.cons "c" (.expr (.var "v1")) .nil)) .nil)))]

theorem stmBody_fine (L : Lang) : BodyFine L stmBody := by
  refine ⟨?_, fun v hv => ?_⟩
  · cases L <;> simp [stmBody, splitReturn, StmsFine, Stm.Fine, Value.Fine, Tree.Fine, AllFine, Tree.risky, Tree.riskyNeg, Tree.isLoose, Tree.isAs, Tree.isTest,
      Stm.isCode, Std.arity]
  · simp only [stmBody, splitReturn, Option.some.injEq] at hv
    subst hv
    cases L <;> simp [Value.Fine, Fields.Fine, Tree.Fine, Value.TailFine]

example (span : Bool) : ∃ text, cppBody span stmBody = some text ∧ BlockReadsAs .cpp text (stmsCppSt span stmBody) := by
  have h : stmsHaveMatrix stmBody = false := rfl
  exact ⟨_, if_neg (by simp [h]), C56_cpp_partial span (stmBody_fine _) (if_neg (by simp [h]))⟩

example : ∃ text, rustBody stmBody = some text ∧ BlockReadsAs .rust text (stmsRustSt stmBody) := by
  have h : stmsHaveMatrix stmBody = false := rfl
  exact ⟨_, if_neg (by simp [h]), C56_rust_partial (stmBody_fine _) (if_neg (by simp [h]))⟩

example (e : PyOptions) (args : Bool) : ∃ text, pyBody ⟨e, 4, args⟩ ["J"] stmBody = some text ∧ LinesReadAs 4 text (pyMeant ⟨e, 4, args⟩ ["J"] stmBody) := by
  have h : throwPython ⟨e, 4, args⟩ (splitReturn stmBody).1 = false := by cases args <;> rfl
  exact ⟨_, if_neg (by simp [h]), C56_python_partial (o := ⟨e, 4, args⟩) (Nat.zero_lt_succ 3) (stmBody_fine _) (if_neg (by simp [h])) (by simp [pyMeant, stmBody, splitReturn, stmsPythonSt, Stm.pythonSt])⟩

/-- The value of a Rust function that is a conditional is read as an `if` with values. -/
example : BlockReadsAs .rust (indented 2 [.lbrace, .nl] [.nl, .rbrace] [.kIf, .sp, .name "c", .sp, .lbrace, .sp, .name "a", .sp, .rbrace, .sp, .kElse, .sp, .lbrace, .sp, .name "b", .sp, .rbrace])
    [.ite (.e (.atom "c")) [.tail (.e (.atom "a"))] [.tail (.e (.atom "b"))]] := by
  refine C56_rust_partial (body := [.ret (.expr (.cond (.var "c") (.var "a") (.var "b")))]) ⟨?_, fun v hv => ?_⟩ rfl
  · simp [splitReturn, StmsFine]
  · simp only [splitReturn, Option.some.injEq] at hv
    subst hv
    simp [Value.Fine, Tree.Fine, Value.TailFine, Tree.TailFine, Tree.BranchFine, Tree.isTest]

/-- **C56**. A text is read in at most one way. -/
theorem C56_unambiguous {L : Lang} (hL : L ≠ .python) {ts : Toks} {ss ss' : List St} (h : ReadsBlock L ts ss) (h' : ReadsBlock L ts ss') : ss = ss' :=
  h'.unique hL h

theorem C56_unambiguous_lines {i : Nat} {ls : List (Nat × Toks)} {ss ss' : List St} (h : ReadsLines i ls ss) (h' : ReadsLines i ls ss') : ss = ss' :=
  h'.unique h

example : ∃ ss, ReadsBlock .cpp [.kReturn, .name "x", .semi] ss :=
  ⟨_, ReadsBlock.simple (ts := [.kReturn, .name "x"]) (.ret (by simp) (.expr (Reads.down (k' := 7) .name (by omega) (by omega)))) (by simp) .nil⟩

example : ∃ ss, ReadsLines 4 [(4, [.kReturn, .name "x"])] ss :=
  ⟨_, ReadsLines.simple (.ret (by simp) (.expr (Reads.down (k' := 7) .name (by omega) (by omega)))) .nil⟩

/-! ## Bodies that are refused -/

/-- A statement is in a block, or in a block that is in it. -/
inductive Within (s : Stm) : List Stm → Prop
  | here {ss : List Stm} : s ∈ ss → Within s ss
  | left {c : Tree} {t e ss : List Stm} : .branch c t e ∈ ss → Within s t → Within s ss
  | right {c : Tree} {t e ss : List Stm} : .branch c t e ∈ ss → Within s e → Within s ss
  | optional {n : String} {T : VarType} {b ss : List Stm} : .optional n T b ∈ ss → Within s b → Within s ss

/-- What a Python function cannot do: return early, and write to an output argument that is not a matrix. -/
def Impossible (o : PyConfig) : Stm → Prop
  | .ret _ => True
  | .output _ _ _ => o.outputArguments = true
  | .optional _ t _ => o.outputArguments = true ∧ t.isMatrix = false
  | _ => False

theorem Within.cons {s x : Stm} {ss : List Stm} (h : Within s ss) : Within s (x :: ss) := by
  cases h with
  | here h => exact .here (List.mem_cons_of_mem _ h)
  | left h h' => exact .left (List.mem_cons_of_mem _ h) h'
  | right h h' => exact .right (List.mem_cons_of_mem _ h) h'
  | optional h h' => exact .optional (List.mem_cons_of_mem _ h) h'

theorem throws_mem {o : PyConfig} {s : Stm} {ss : List Stm} (h : s ∈ ss) (hs : s.throwsPython o = true) : throwPython o ss = true := by
  induction ss with
  | nil => cases h
  | cons a ss ih =>
    rcases List.mem_cons.mp h with rfl | h
    · simp [throwPython, hs]
    · simp [throwPython, ih h]

theorem throws_within {o : PyConfig} {s : Stm} {ss : List Stm} (h : Within s ss) (hs : Impossible o s) : throwPython o ss = true := by
  induction h with
  | here h =>
    refine throws_mem h ?_
    cases s <;> simp_all [Impossible, Stm.throwsPython]
  | left h _ ih | right h _ ih | optional h _ ih => exact throws_mem h (by simp [Stm.throwsPython, ih])

mutual
theorem Stm.within_throws {o : PyConfig} (x : Stm) (h : x.throwsPython o = true) : ∃ s, Within s [x] ∧ Impossible o s := by
  cases x with
  | output n k v => exact ⟨_, .here List.mem_cons_self, by simpa [Stm.throwsPython, Impossible] using h⟩
  | ret v => exact ⟨_, .here List.mem_cons_self, trivial⟩
  | branch c t e =>
    simp only [Stm.throwsPython, Bool.or_eq_true] at h
    rcases h with h | h
    · obtain ⟨s, h1, h2⟩ := within_throwsAll t h
      exact ⟨s, .left List.mem_cons_self h1, h2⟩
    · obtain ⟨s, h1, h2⟩ := within_throwsAll e h
      exact ⟨s, .right List.mem_cons_self h1, h2⟩
  | optional n t b =>
    simp only [Stm.throwsPython, Bool.or_eq_true, Bool.and_eq_true, Bool.not_eq_true'] at h
    rcases h with h | h
    · exact ⟨_, .here List.mem_cons_self, h⟩
    · obtain ⟨s, h1, h2⟩ := within_throwsAll b h
      exact ⟨s, .optional List.mem_cons_self h1, h2⟩
  | comment ls => cases h
  | declare n t v => cases h
  | assign n v => cases h
  | outputMatrix n k r c l => cases h
  termination_by structural x

theorem within_throwsAll {o : PyConfig} (ss : List Stm) (h : throwPython o ss = true) : ∃ s, Within s ss ∧ Impossible o s := by
  cases ss with
  | nil => cases h
  | cons a ss =>
    simp only [throwPython, Bool.or_eq_true] at h
    rcases h with h | h
    · obtain ⟨s, h1, h2⟩ := Stm.within_throws a h
      refine ⟨s, ?_, h2⟩
      generalize hl : [a] = l at h1
      cases h1 with
      | here h => subst hl; exact .here (by simp_all)
      | left h h' => subst hl; exact .left (by rw [List.mem_singleton.mp h]; exact List.mem_cons_self) h'
      | right h h' => subst hl; exact .right (by rw [List.mem_singleton.mp h]; exact List.mem_cons_self) h'
      | optional h h' => subst hl; exact .optional (by rw [List.mem_singleton.mp h]; exact List.mem_cons_self) h'
    · obtain ⟨s, h1, h2⟩ := within_throwsAll ss h
      exact ⟨s, h1.cons, h2⟩
  termination_by structural ss
end

/-- **C56** (Python). A body is refused exactly when, before the last `return`, it has a statement that a Python function cannot have. -/
theorem C56_python_refused (o : PyConfig) (outs : List String) (body : List Stm) :
    pyBody o outs body = none ↔ ∃ s, Within s (splitReturn body).1 ∧ Impossible o s := by
  unfold pyBody
  constructor
  · intro h
    refine within_throwsAll _ ?_
    by_contra hc
    rw [if_neg hc] at h
    cases h
  · rintro ⟨s, h1, h2⟩
    rw [if_pos (throws_within h1 h2)]

example (o : PyOptions) : pyBody ⟨o, 2, true⟩ [] [.output "f" false (.expr (.var "x"))] = none := rfl

/-! ## Statements whose text is not read as meant -/

/-- The first token of a block without semicolons. -/
private theorem block_start {t : Tok} {r : Toks} {ss : List St} (h : ReadsBlock .rust (t :: r) ss) (hs : Tok.semi ∉ t :: r) :
    t = .kIf ∨ starts t = true ∨ ∃ T, t = .ty T := by
  generalize hx : t :: r = xs at h
  rw [hx] at hs
  cases h with
  | nil => cases hx
  | simple _ _ _ => exact absurd (by simp) hs
  | tail _ hv _ =>
    cases hv with
    | expr h =>
      obtain ⟨u, us, e, hu⟩ := h.starts
      rw [e] at hx
      cases hx
      exact .inr (.inl hu)
    | matrixOne hL | matrix hL | array hL | call hL => cases hL
    | braces => cases hx; exact .inr (.inr ⟨_, rfl⟩)
  | ite | iteElse => cases hx; exact .inl rfl

/-- C56 fails for a Rust function whose value is a sum that begins with a conditional: the text `if c { a } else { b } + y` is not an expression where a
statement may begin, and the function does not compile. -/
theorem C56_rust_tail :
    let t : Tree := .add [.cond (.var "c") (.var "a") (.var "b"), .var "y"]
    t.Fine .rust ∧ ∃ text, rustBody [.ret (.expr t)] = some text ∧ ∀ ss, ¬BlockReadsAs .rust text ss := by
  refine ⟨by simp [Tree.Fine, AllFine, Tree.risky], _, rfl, ?_⟩
  rintro ss ⟨ts, hw, h, _⟩
  have e : words .rust (indented 2 [.lbrace, .nl] [.nl, .rbrace] (joinWith [.nl] (stmsRust [.ret (.expr (.add [.cond (.var "c") (.var "a") (.var "b"), .var "y"]))]))) =
      .lbrace :: (([.kIf, .name "c", .lbrace, .name "a", .rbrace, .kElse, .lbrace, .name "b", .rbrace, .plus, .name "y"] : Toks) ++ [.rbrace]) := by
    decide +kernel
  rw [e] at hw
  have hw := List.append_cancel_right (List.cons.inj hw).2
  have hs : Tok.semi ∉ ts := by rw [← hw]; decide
  generalize hx : ts = xs at h
  rw [← hx] at h
  cases h with
  | nil => cases hw
  | simple _ _ _ => exact hs (by simp)
  | tail _ _ hh => rw [← hw] at hh; exact hh rfl
  | @ite l m us c t ss hc h1 h2 =>
    have hw := (List.cons.inj hw).2
    obtain ⟨_, _, hr⟩ := cut (p := (· = .lbrace)) (a := [.name "c"]) (.single rfl rfl) hc.good.1 rfl (hc.good.2 (by simp)) rfl rfl hw
    obtain ⟨_, _, hr⟩ := cut (p := (· = .rbrace)) (a := [.name "a"]) (.single rfl rfl) h1.bal rfl h1.clean rfl rfl hr
    subst hr
    rcases block_start h2 (by decide) with h | h | ⟨T, h⟩ <;> cases h
  | @iteElse l m n us c t f ss hc h1 h2 h3 =>
    have hw := (List.cons.inj hw).2
    obtain ⟨_, _, hr⟩ := cut (p := (· = .lbrace)) (a := [.name "c"]) (.single rfl rfl) hc.good.1 rfl (hc.good.2 (by simp)) rfl rfl hw
    obtain ⟨_, _, hr⟩ := cut (p := (· = .rbrace)) (a := [.name "a"]) (.single rfl rfl) h1.bal rfl h1.clean rfl rfl hr
    obtain ⟨_, _, hr⟩ := cut (p := (· = .rbrace)) (a := [.name "b"]) (.single rfl rfl) h2.bal rfl h2.clean rfl rfl (List.cons.inj (List.cons.inj hr).2).2
    subst hr
    rcases block_start h3 (by decide) with h | h | ⟨T, h⟩ <;> cases h

private theorem no_quest {k : Nat} {ts : Toks} {e : E} (h : Reads .cpp k ts e) : 1 ≤ k → Clean (· = .quest) ts := by
  induction h using Reads.rec (motive_2 := fun _ _ _ => True) with
  | up _ _ ih => exact fun _ => ih (by omega)
  | @bin op l r a b h1 _ _ ih1 ih2 =>
    intro _
    have hl : 1 ≤ op.left .cpp := by cases op <;> decide
    exact .append h1.good.1 (ih1 hl) (.cons (tok_sep op).1 (tok_sep op).2.1 (by cases op <;> rfl) (ih2 (by omega)))
  | cond => intro h; omega
  | neg _ ih => exact fun _ => .cons rfl rfl rfl (ih (by omega))
  | ref hL | as hL | ifElse hL | index hL | indexTuple hL => cases hL
  | staticCast _ h _ => exact fun _ => .cons rfl rfl rfl (.bracket rfl h.good.1 rfl)
  | paren h _ => exact fun _ => .bracket rfl h.good.1 rfl
  | name => exact fun _ => rfl
  | int _ => exact fun _ => rfl
  | app h1 h2 ih _ => exact fun _ => .append h1.good.1 (ih (by omega)) (.bracket rfl h2.bal rfl)
  | field h ih => exact fun _ => .append h.good.1 (ih (by omega)) rfl
  | nil | one | cons => trivial

/-- C56 fails for a C++ matrix whose first element is a conditional: `(Eigen::Matrix<Scalar, 2, 1>() << c ? a : b, z).finished()` does not fill the matrix
with the two elements. -/
theorem C56_cpp_matrix :
    let v : Value := .matrix 2 1 [.cond (.var "c") (.var "a") (.var "b"), .var "z"]
    AllFine .cpp [.cond (.var "c") (.var "a") (.var "b"), .var "z"] ∧ ∃ text, cppBody false [.ret v] = some text ∧ ∀ ss, ¬BlockReadsAs .cpp text ss := by
  refine ⟨by simp [AllFine, Tree.Fine], _, rfl, ?_⟩
  rintro ss ⟨ts, hw, h, _⟩
  obtain ⟨T, e⟩ : ∃ T, words .cpp (.nl :: indented 2 [.lbrace, .nl] [.nl, .rbrace]
        (joinWith [.nl] (stmsCpp false [.ret (.matrix 2 1 [.cond (.var "c") (.var "a") (.var "b"), .var "z"])]))) =
      .lbrace :: (([.kReturn, .lpar, .ty T, .lpar, .rpar, .shl, .name "c", .quest, .name "a", .colon, .name "b", .comma, .name "z", .rpar, .dot, .name "finished",
        .lpar, .rpar, .semi] : Toks) ++ [.rbrace]) := ⟨(VarType.matrix 2 1).cpp, by rfl⟩
  rw [e] at hw
  have hw := List.append_cancel_right (List.cons.inj hw).2
  have hV : ∀ us v, us = [.lpar, .ty T, .lpar, .rpar, .shl, .name "c", .quest, .name "a", .colon, .name "b", .comma, .name "z", .rpar, .dot, .name "finished",
        .lpar, .rpar] → ¬ReadsV .cpp us v := by
    intro us v hu hv
    cases hv with
    | expr h => exact absurd (h.allowed .shl (by rw [hu]; simp)) (by simp [Text.allowed])
    | @matrixOne T' ts e _ h =>
      simp only [List.cons.injEq, true_and] at hu
      have : ts ++ [.rpar, .dot, .name "finished", .lpar, .rpar] =
        [.name "c", .quest, .name "a", .colon, .name "b", .comma, .name "z"] ++ [.rpar, .dot, .name "finished", .lpar, .rpar] := hu.2
      have := List.append_cancel_right this
      subst this
      exact absurd h.good.2 (by simp [Clean, splitAt, sep, Tok.depth, Tok.opens, Tok.closes])
    | @matrix T' ts us' e l _ h _ _ =>
      simp only [List.cons.injEq, true_and] at hu
      have hc : Clean (· = .comma) ts := h.good.2.mono fun t ht => by rw [of_decide_eq_true ht]; rfl
      obtain ⟨ht, _, _⟩ := cut (p := (· = .comma)) (b := [.name "c", .quest, .name "a", .colon, .name "b"]) h.good.1
        (.cons rfl rfl (.cons rfl rfl (.cons rfl rfl (.cons rfl rfl (.single rfl rfl))))) hc rfl rfl rfl hu.2
      subst ht
      exact absurd (no_quest h (by omega)) (by simp [Clean, splitAt, Tok.depth, Tok.opens, Tok.closes])
    | array hL | call hL => cases hL
    | braces => cases hu
  generalize hx : ts = xs at h
  rw [← hx] at h
  cases h with
  | nil => cases hw
  | @simple ts us s ss h _ _ =>
    have hc : Clean (· = .semi) ts := h.clean.mono fun t ht => by rw [of_decide_eq_true ht]; rfl
    have hw : [.kReturn, .lpar, .ty T, .lpar, .rpar, .shl, .name "c", .quest, .name "a", .colon, .name "b", .comma, .name "z", .rpar, .dot, .name "finished",
        .lpar, .rpar] ++ .semi :: [] = ts ++ .semi :: us := hw
    obtain ⟨ht, _, _⟩ := cut (p := (· = .semi)) (.cons rfl rfl (by rw [bal_iff]; exact ⟨fun d => rfl, fun d => by simp [Never, Tok.depth, Tok.opens, Tok.closes]⟩)) h.bal (by rfl) hc rfl rfl hw
    cases h with
    | const | bare | bind | later => cases ht
    | assign hp _ => have := assign_head hp ht.symm; simp [starts] at this
    | expr hL => cases hL
    | ret _ hv => exact hV _ _ (List.cons.inj ht).2.symm hv
    | tuple hL | assert hL => cases hL
  | tail hL => cases hL
  | ite | iteElse => cases hw

/-- A branch must not be empty in Python. -/
theorem C56_python_empty (o : PyConfig) : ∃ text, pyBody o [] [.branch (.var "c") [] [], .ret (.expr (.var "x"))] = some text ∧
    ∀ ss, ¬LinesReadAs o.indent text ss := by
  refine ⟨_, rfl, ?_⟩
  rintro ss ⟨hne, h, _⟩
  have e : pyLines (indented o.indent [] [.nl] (joinWith [.nl] (stmsPython o [.branch (.var "c") [] []])) ++ pyReturn o [[.name "x"]]) =
      [(o.indent, [.kIf, .name "c", .colon]), (o.indent, [.kReturn, .name "x"])] := rfl
  have hb : ∀ {j : Nat} {m ls : List (Nat × Toks)} {t : List St}, [(o.indent, [Tok.kReturn, .name "x"])] = m ++ ls → ReadsLines j m t → t ≠ [] →
      o.indent < j → False := by
    intro j m ls t hm h ht hj
    obtain ⟨_, h2, h3⟩ := h.indents
    cases m with
    | nil => exact ht (h3.1 rfl)
    | cons x m =>
      have hx : x.1 = o.indent := by rw [← (List.cons.inj hm).1]
      have := h2 x rfl
      omega
  have h : ReadsLines o.indent [(o.indent, [.kIf, .name "c", .colon]), (o.indent, [.kReturn, .name "x"])] ss := by
    have e2 : ((splitReturn [.branch (.var "c") [] [], .ret (.expr (.var "x"))]).2.map (Value.python o)).toList ++
        (if o.outputArguments = true then [] else ([] : List String).map fun n => [Tok.name n]) = [[.name "x"]] := by
      split <;> rfl
    rw [e2] at h
    exact e ▸ h
  generalize hx : [(o.indent, [Tok.kIf, .name "c", .colon]), (o.indent, [Tok.kReturn, .name "x"])] = xs at h
  cases h with
  | nil => cases hx
  | simple hs _ =>
    cases hx
    exact (simple_head hs).1 rfl
  | ite _ hj h1 ht _ => exact hb (List.cons.inj hx).2 h1 ht hj
  | iteElse _ hj h1 ht _ _ _ _ => exact hb (List.cons.inj hx).2 h1 ht hj

end Wf.Gen.Text
