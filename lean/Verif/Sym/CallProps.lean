import Verif.Sym.CallLemmas
import Verif.Sym.CallMachine

/-!
# C59: calling a generated function

The outputs of a function are lowered, optimised, converted to statements and written as text. Whoever calls the function that the text defines gets the
values of the expressions. See `CallSpec.lean` for calls, `Gen/RunSpec.lean` for running the text, and `EvalSpec.lean` for the values of expressions.
-/

namespace Wf.Sym
open Complex
open Wf.Gen (AstInfo Graph Stmt)
open Wf.Gen.Text (Machine Setting Scoping Naming Argument Cell State Toks Stm PyOptions PyConfig stmtStms BodyFine BlockReadsAs LinesReadAs cppBody rustBody pyBody pyMeant
  splitReturn runSts startState returnedOutputs)

variable {F : Type} [DecidableEq F] [FnSem F] {info : AstInfo} {M : Machine ℂ} {o : PyOptions} {N : Naming} {args : List Argument} {nK m n : Nat}
  {outs : List (Nat × Output F)} {s : Low F} {opt : Options} {cast : Graph → Nat → Option Nat} {K : Nat} {ss : List Stmt} {xs : List Stm} {text : Toks}

/-- The statements come from the program after all passes. -/
private theorem from_graph {ρ : Env F} (hT : TypedEnv ρ) (hg : ∀ o ∈ outs, ∀ e ∈ o.2.exprs, Plain e ∧ Good e) (hs : Signature info outs)
    (h : LawfulLowering ρ nK m n outs s) (hss : ∀ fuel, K ≤ fuel → transpile (ctors codeLic nK) m n info opt cast fuel outs = .ok ss) :
    ∃ g c entry, Final info ρ s outs g ∧ Gen.Conv.convert g info.usage opt.ternaries = .ok (c, entry) ∧ Gen.Conv.createAst info c entry = .ok ss := by
  obtain ⟨K', g, k1, hf⟩ := final_graph hT hg hs h opt cast
  obtain ⟨c, entry, ss', e1, e2, _⟩ := Gen.C54_outputs_partial hf.wf hf.order hf.convertible hf.typed hf.own opt.ternaries
  have h1 := hss (max K K') (Nat.le_max_left _ _)
  unfold transpile at h1
  rw [h.code] at h1
  change finish info opt cast _ s.g = _ at h1
  unfold finish at h1
  rw [k1 _ (Nat.le_max_right _ _)] at h1
  change (match Gen.Conv.convert g info.usage opt.ternaries with | .error e => _ | .ok p => _) = _ at h1
  rw [e1] at h1
  change Gen.Conv.createAst info c entry = _ at h1
  exact ⟨g, c, entry, hf, e1, h1⟩

/-- **C59** for C++. The text of the body is read as statements, in one way only, and whoever calls the function, with any arguments and any choice of optional
outputs, gets for every output that is wanted the value of its expression, or the matrix of the values of its elements. Conditions: arithmetic is exact and the
names do not clash (`Usable`); the arguments are in the domain of the expressions (`Called`); the body has a text (`hx`, `htext`) and none of the forms that
are misread (`hf`, see `C56_cpp_matrix` and similar). -/
theorem C59_cpp_partial {span : Bool} {mod : String} (hg : ∀ o ∈ outs, ∀ e ∈ o.2.exprs, Plain e ∧ Good e) (hd : Described info N args outs)
    (hu : Usable M ⟨.cpp span, mod⟩ N args) (hss : ∀ fuel, K ≤ fuel → transpile (ctors codeLic nK) m n info opt cast fuel outs = .ok ss)
    (hx : stmtStms N ss = some xs) (htext : cppBody span xs = some text) (hf : BodyFine .cpp xs) (hsize : ∀ v, (splitReturn xs).2 = some v → v.Sized) :
    ∃ body, BlockReadsAs .cpp text body ∧ ∀ (ρ : Env F) (input : String → Cell ℂ) (wanted : String → Bool),
      Called M ⟨.cpp span, mod⟩ o N args nK m n outs s ρ input →
      ∃ e, runSts M ⟨.cpp span, mod⟩ 0 body (startState (.cpp span) args input wanted) = some e ∧ GetsAll (.cpp span) N info args wanted ρ outs e := by
  obtain ⟨body, hread⟩ : ∃ body, BlockReadsAs .cpp text body := ⟨_, Gen.Text.C56_cpp_partial span hf htext⟩
  refine ⟨body, hread, fun ρ input wanted hc => ?_⟩
  obtain ⟨g, c, entry, hfin, e1, e2⟩ := from_graph hc.typed hg hd.signature hc.laws hss
  obtain ⟨load, hload⟩ := exists_loads (wanted := wanted) hc.leaves hu.names hc.passed hc.assigns
  obtain ⟨num, hnum⟩ := exists_numbering
  have hrun : ∀ b, ∃ e, runSts M ⟨.cpp span, mod⟩ 0 body (startState (.cpp span) args input wanted) = some e ∧
      ∀ key x, Gen.Writes (callInterp hu.exact load (num b) N wanted) g key x →
        Gen.Text.Received (.cpp span) N (callInterp hu.exact load (num b) N wanted) args info.usage wanted key x e := by
    intro b
    obtain ⟨body', e, h1, h2, h3⟩ := Gen.Text.C58_cpp_partial hfin.wf hfin.order hfin.convertible hfin.typed hfin.own e1 e2 hx htext hf hsize
      (call_shaped hd hfin) (call_types hd) (Machine.interp_computes M) hu.lawful (fun i hi => by rw [hd.get i] at hi; cases hi)
      (call_named hu.exact (num := num b) hload hu.names hd hfin) hu.plain
    obtain ⟨ts, t1, _, t3⟩ := hread
    obtain ⟨ts', t1', t2', _⟩ := h1
    rw [t1] at t1'
    have : ts = ts' := List.append_cancel_right (List.cons.inj t1').2
    subst this
    rw [t3 _ t2'] at h2
    exact ⟨e, h2, h3⟩
  obtain ⟨e, h1, h2⟩ := hrun false
  obtain ⟨e', h1', h2'⟩ := hrun true
  rw [h1] at h1'
  cases h1'
  exact ⟨e, h1, gets_all hu.exact hnum rfl hload hu.names hd hfin hc.notes (fun b => by cases b <;> assumption)⟩

/-- **C59** for Rust. -/
theorem C59_rust_partial {mod : String} (hg : ∀ o ∈ outs, ∀ e ∈ o.2.exprs, Plain e ∧ Good e) (hd : Described info N args outs)
    (hu : Usable M ⟨.rust, mod⟩ N args) (hss : ∀ fuel, K ≤ fuel → transpile (ctors codeLic nK) m n info opt cast fuel outs = .ok ss)
    (hx : stmtStms N ss = some xs) (htext : rustBody xs = some text) (hf : BodyFine .rust xs) :
    ∃ body, BlockReadsAs .rust text body ∧ ∀ (ρ : Env F) (input : String → Cell ℂ) (wanted : String → Bool),
      Called M ⟨.rust, mod⟩ o N args nK m n outs s ρ input →
      ∃ e, runSts M ⟨.rust, mod⟩ 0 body (startState .rust args input wanted) = some e ∧ GetsAll .rust N info args wanted ρ outs e := by
  obtain ⟨body, hread⟩ : ∃ body, BlockReadsAs .rust text body := ⟨_, Gen.Text.C56_rust_partial hf htext⟩
  refine ⟨body, hread, fun ρ input wanted hc => ?_⟩
  obtain ⟨g, c, entry, hfin, e1, e2⟩ := from_graph hc.typed hg hd.signature hc.laws hss
  obtain ⟨load, hload⟩ := exists_loads (wanted := wanted) hc.leaves hu.names hc.passed hc.assigns
  obtain ⟨num, hnum⟩ := exists_numbering
  have hrun : ∀ b, ∃ e, runSts M ⟨.rust, mod⟩ 0 body (startState .rust args input wanted) = some e ∧
      ∀ key x, Gen.Writes (callInterp hu.exact load (num b) N wanted) g key x →
        Gen.Text.Received .rust N (callInterp hu.exact load (num b) N wanted) args info.usage wanted key x e := by
    intro b
    obtain ⟨body', e, h1, h2, h3⟩ := Gen.Text.C58_rust_partial hfin.wf hfin.order hfin.convertible hfin.typed hfin.own e1 e2 hx htext hf
      (call_shaped hd hfin) (call_types hd) (Machine.interp_computes M) hu.lawful (fun i hi => by rw [hd.get i] at hi; cases hi)
      (call_named hu.exact (num := num b) hload hu.names hd hfin) hu.plain
    obtain ⟨ts, t1, _, t3⟩ := hread
    obtain ⟨ts', t1', t2', _⟩ := h1
    rw [t1] at t1'
    have : ts = ts' := List.append_cancel_right (List.cons.inj t1').2
    subst this
    rw [t3 _ t2'] at h2
    exact ⟨e, h2, h3⟩
  obtain ⟨e, h1, h2⟩ := hrun false
  obtain ⟨e', h1', h2'⟩ := hrun true
  rw [h1] at h1'
  cases h1'
  exact ⟨e, h1, gets_all hu.exact hnum rfl hload hu.names hd hfin hc.notes (fun b => by cases b <;> assumption)⟩

/-- **C59** for Python with NumPy and JAX. -/
theorem C59_python_partial {o : PyConfig} (hi : 0 < o.indent) (htarget : o.expr.target ≠ .pytorch) (hg : ∀ o ∈ outs, ∀ e ∈ o.2.exprs, Plain e ∧ Good e)
    (hd : Described info N args outs) (hu : Usable M ⟨.python o.outputArguments, o.expr.module⟩ N args)
    (hss : ∀ fuel, K ≤ fuel → transpile (ctors codeLic nK) m n info opt cast fuel outs = .ok ss) (hx : stmtStms N ss = some xs)
    (htext : pyBody o (returnedOutputs (.python o.outputArguments) args) xs = some text) (hne : pyMeant o (returnedOutputs (.python o.outputArguments) args) xs ≠ [])
    (hf : BodyFine .python xs) (hsize : ∀ v, (splitReturn xs).2 = some v → v.Sized) :
    ∃ body, LinesReadAs o.indent text body ∧ ∀ (ρ : Env F) (input : String → Cell ℂ) (wanted : String → Bool),
      Called M ⟨.python o.outputArguments, o.expr.module⟩ o.expr N args nK m n outs s ρ input →
      ∃ e, runSts M ⟨.python o.outputArguments, o.expr.module⟩ 0 body (startState (.python o.outputArguments) args input wanted) = some e ∧
        GetsAll (.python o.outputArguments) N info args wanted ρ outs e := by
  obtain ⟨body, hread⟩ : ∃ body, LinesReadAs o.indent text body := ⟨_, Gen.Text.C56_python_partial hi hf htext hne⟩
  refine ⟨body, hread, fun ρ input wanted hc => ?_⟩
  obtain ⟨g, c, entry, hfin, e1, e2⟩ := from_graph hc.typed hg hd.signature hc.laws hss
  obtain ⟨load, hload⟩ := exists_loads (wanted := wanted) hc.leaves hu.names hc.passed hc.assigns
  obtain ⟨num, hnum⟩ := exists_numbering
  have hrun : ∀ b, ∃ e, runSts M ⟨.python o.outputArguments, o.expr.module⟩ 0 body (startState (.python o.outputArguments) args input wanted) = some e ∧
      ∀ key x, Gen.Writes (callInterp hu.exact load (num b) N wanted) g key x →
        Gen.Text.Received (.python o.outputArguments) N (callInterp hu.exact load (num b) N wanted) args info.usage wanted key x e := by
    intro b
    obtain ⟨body', e, h1, h2, h3⟩ := Gen.Text.C58_python_partial hfin.wf hfin.order hfin.convertible hfin.typed hfin.own e1 e2 hx hi htarget htext hne hf hsize
      (call_shaped hd hfin) (call_types hd) (fun _ => call_all hd hfin) (Machine.interp_computes M) hu.lawful (fun i hi => by rw [hd.get i] at hi; cases hi)
      (call_named hu.exact (num := num b) hload hu.names hd hfin) hu.plain
    rw [hread.2.2 _ h1.2.1] at h2
    exact ⟨e, h2, h3⟩
  obtain ⟨e, h1, h2⟩ := hrun false
  obtain ⟨e', h1', h2'⟩ := hrun true
  rw [h1] at h1'
  cases h1'
  exact ⟨e, h1, gets_all hu.exact hnum rfl hload hu.names hd hfin hc.notes (fun b => by cases b <;> assumption)⟩

/-! ## Example -/

/-- Two numbers, a row, an optional number. -/
def callArgs : List Argument := [⟨"x", .scalar .floating, .input⟩, ⟨"y", .scalar .floating, .input⟩, ⟨"J", .matrix 1 2, .output⟩, ⟨"g", .scalar .floating, .optional⟩]

def argX : Expr ℝ := .argVar "x" 0 .floating
def argY : Expr ℝ := .argVar "y" 0 .floating

/-- The output row `J = (x, y ** (3 / 2))`, the optional output `g = x + y` and the return value `x * y if x < y else 1 / y`. -/
def callOuts : List (Nat × Output ℝ) :=
  [(0, .matrix 1 2 [argX, .pow argY (.rat ⟨3, 2⟩)]), (1, .scalar (.add [argX, argY]) .floating),
   (2, .scalar (.cond (.rel .lt argX argY) (.mul [argX, argY]) (.pow argY (.int (-1)))) .floating)]

def callNaming : Naming where
  width := Gen.Text.printWidth 14
  leaf := fun k => if k = 0 then some (.arg "x" .scalar) else if k = 1 then some (.arg "y" .scalar) else none
  type := fun _ => .scalar .floating
  shape := fun t => some t.unpair
  output := fun k => if k = 1 then ⟨"g", .scalar .floating, .optional⟩ else ⟨"J", .matrix 1 2, .output⟩

/-- The statements. -/
def callStmts : List Stmt :=
  [.decl 1 (.app (.load (.other 1)) []), .decl 0 (.app (.load (.other 0)) []), .optional 1 [.output 1 (.app .add [.ref 0, .ref 1])], .declare 14,
   .branch (.app (.compare 0) [.ref 0, .ref 1]) [.assign 14 (.app .mul [.ref 0, .ref 1])]
     [.assign 14 (.app .div [.app (.cast 2) [.app (.load (.int 1)) []], .ref 1])],
   .decl 2 (.app (.callStd 14) [.ref 1]), .output 0 (.app (.construct 5) [.ref 0, .app .mul [.ref 2, .ref 2, .ref 2]]), .ret 2 (.ref 14)]

theorem call_transpiles (fuel : Nat) : transpile (ctors codeLic 4) 1 6 pipeInfo ⟨1, false, true⟩ (fun _ _ => none) fuel callOuts = .ok callStmts := by
  have h0 : transpile (ctors codeLic 4) 1 6 pipeInfo ⟨1, false, true⟩ (fun _ _ => none) 0 callOuts = .ok callStmts := Gen.stmts_of_same (by decide +kernel)
  rw [← h0]
  unfold transpile
  cases lowerFunction (ctors codeLic 4) 1 6 Low.empty callOuts with
  | error e => rfl
  | ok s =>
    show finish _ _ _ _ _ = finish _ _ _ _ _
    unfold finish
    have : s.g.applySimplifications (fun _ _ => none) 1 false fuel = s.g.applySimplifications (fun _ _ => none) 1 false 0 := by
      unfold Graph.applySimplifications Graph.binarizeIf
      rfl
    rw [this]

theorem call_lowers (ρ : Env ℝ) : ∃ s, LawfulLowering ρ 4 1 6 callOuts s ∧ s.notes = [.recip argY (.int (-1))] ∧ s.leaves = [argX, argY] := by
  obtain ⟨s, h1, h2⟩ := lawful_of_noLic (nK := 4) (m := 1) (n := 6) (outs := callOuts) (ns := [.recip argY (.int (-1))]) (by decide +kernel) (by decide +kernel) ρ
  have h3 : (lowerFunction (ctors codeLic 4) 1 6 Low.empty callOuts).map (fun s => s.leaves) = .ok [argX, argY] := by decide +kernel
  rw [h1.code] at h3
  exact ⟨s, h1, h2, by simpa [Except.map] using h3⟩

theorem call_good : ∀ o ∈ callOuts, ∀ e ∈ o.2.exprs, Plain e ∧ Good e := by
  intro o ho e he
  simp only [callOuts, List.mem_cons, List.not_mem_nil, or_false] at ho
  rcases ho with rfl | rfl | rfl <;> simp only [Output.exprs, List.mem_cons, List.not_mem_nil, or_false] at he
  · rcases he with rfl | rfl
    · exact ⟨by simp [argX, Plain, Over, Overs, Head.plain, Head.interpreted, Head.isLeaf], by simp [argX, Good, Goods, GoodNode]⟩
    · exact ⟨by simp [argY, Plain, Over, Overs, Head.plain, Head.interpreted, Head.isLeaf], by
        refine good_node.2 ⟨trivial, ?_⟩
        simp [argY, Good, Goods, GoodNode, RatC.Canonical, InI64_iff]; decide⟩
  · subst he
    exact ⟨by simp [argX, argY, Plain, Over, Overs, Head.plain, Head.interpreted, Head.isLeaf], by simp [argX, argY, Good, Goods, GoodNode]⟩
  · subst he
    exact ⟨by simp [argX, argY, Plain, Over, Overs, Head.plain, Head.interpreted, Head.isLeaf], by simp [argX, argY, Good, Goods, GoodNode, InI64_iff]; decide +kernel⟩

theorem call_described : Described pipeInfo callNaming callArgs callOuts where
  signature := by
    refine ⟨fun o ho => ?_, by decide, fun o ho o' ho' => ?_⟩
    · simp only [callOuts, List.mem_cons, List.not_mem_nil, or_false] at ho
      rcases ho with rfl | rfl | rfl
      · exact ⟨by decide, fun _ => rfl⟩
      · exact fun _ => rfl
      · exact fun h => absurd rfl h
    · simp only [callOuts, List.mem_cons, List.not_mem_nil, or_false] at ho ho'
      rcases ho with rfl | rfl | rfl <;> rcases ho' with rfl | rfl | rfl <;> decide
  get _ := rfl
  shape t r c := by
    show some t.unpair = some (r, c) ↔ t = Nat.pair r c
    constructor
    · intro h
      rw [← Nat.pair_unpair t, Option.some.inj h]
    · rintro rfl
      rw [Nat.unpair_pair]
  output o ho hu := by
    simp only [callOuts, List.mem_cons, List.not_mem_nil, or_false] at ho
    rcases ho with rfl | rfl | rfl
    · exact ⟨by decide, by decide, rfl⟩
    · exact ⟨by decide, by decide, rfl⟩
    · exact absurd rfl hu
  own o ho o' ho' hu hu' := by
    simp only [callOuts, List.mem_cons, List.not_mem_nil, or_false] at ho ho'
    rcases ho with rfl | rfl | rfl <;> rcases ho' with rfl | rfl | rfl <;> first | exact absurd rfl hu | exact absurd rfl hu' | decide
  all a ha hi := by
    simp only [callArgs, List.mem_cons, List.not_mem_nil, or_false] at ha
    rcases ha with rfl | rfl | rfl | rfl
    · exact absurd rfl hi
    · exact absurd rfl hi
    · exact ⟨_, List.mem_cons_self, by decide, rfl⟩
    · exact ⟨_, List.mem_cons_of_mem _ List.mem_cons_self, by decide, rfl⟩

theorem call_usable (T : Scoping) : Usable exactMachine ⟨T, "np"⟩ callNaming callArgs where
  exact := exactMachine_exact
  lawful := exactMachine_lawful
  names := by
    refine Gen.Text.C57_plain_names_partial (args := callArgs) rfl (fun a ha hl => ?_) (by decide) T _
    obtain ⟨ds, _, _, hd⟩ := hl
    have hne : ∀ a ∈ callArgs, a.name.toList.head? ≠ some 'v' := by decide
    exact hne a ha (by simp [hd])
  plain := by
    have key : ∀ (n : String) c, c ∈ ['x', 'y', 'g', 'J', 'c', '_', 'v'] → n.toList.head? = some c →
        exactMachine.lit n = none ∧ Setting.isLibrary ⟨T, "np"⟩ n = false ∧ n ≠ "None" := by
      intro n c hc hn
      have hne : ∀ m : String, (∀ d ∈ ['x', 'y', 'g', 'J', 'c', '_', 'v'], m.toList.head? ≠ some d) → m ≠ n := by
        rintro m hm rfl
        exact hm c hc hn
      refine ⟨if_neg fun h => hne "0.0f64" (by decide) h.symm, ?_, fun h => hne "None" (by decide) h.symm⟩
      have h1 : Gen.Text.find n Gen.Text.cmath = none := Gen.Text.find_absent fun p hp =>
        hne _ ((by decide : ∀ p ∈ Gen.Text.cmath, ∀ d ∈ ['x', 'y', 'g', 'J', 'c', '_', 'v'], p.1.toList.head? ≠ some d) p hp)
      have h2 : Gen.Text.find n (Gen.Text.inModule "np" (Gen.Text.numberTypes .python)) = none := Gen.Text.find_absent fun p hp =>
        hne _ ((by decide : ∀ p ∈ Gen.Text.inModule "np" (Gen.Text.numberTypes .python), ∀ d ∈ ['x', 'y', 'g', 'J', 'c', '_', 'v'], p.1.toList.head? ≠ some d) p hp)
      have h3 : Gen.Text.find n (Gen.Text.inModule "np" Gen.Text.numpyFunctions) = none := Gen.Text.find_absent fun p hp =>
        hne _ ((by decide : ∀ p ∈ Gen.Text.inModule "np" Gen.Text.numpyFunctions, ∀ d ∈ ['x', 'y', 'g', 'J', 'c', '_', 'v'], p.1.toList.head? ≠ some d) p hp)
      have h4 : n ≠ "np.where" := fun h => hne "np.where" (by decide) h.symm
      rcases T with (_ | _) | _ | (_ | _) <;> simp [Setting.isLibrary, h1, h2, h3, h4]
    refine ⟨?_, rfl⟩
    rintro n (hn | ⟨v, rfl⟩)
    · have hh : n ∈ ["x", "y", "g", "J", "compute_g", "_J"] := by
        rcases T with (_ | _) | _ | (_ | _) <;> simp [Gen.Text.givenNames, callArgs, Gen.Text.VarType.isMatrix] at hn ⊢ <;> tauto
      simp only [List.mem_cons, List.not_mem_nil, or_false] at hh
      rcases hh with rfl | rfl | rfl | rfl | rfl | rfl
      · exact key _ 'x' (by decide) rfl
      · exact key _ 'y' (by decide) rfl
      · exact key _ 'g' (by decide) rfl
      · exact key _ 'J' (by decide) rfl
      · exact key _ 'c' (by decide) rfl
      · exact key _ '_' (by decide) rfl
    · exact key _ 'v' (by decide) (by simp [Gen.Text.tempName])

/-- `x` is 2 and `y` is 4. -/
noncomputable def callEnv : Env ℝ where
  leaf h := match h with | .argVar n 0 .floating => some (if n = "x" then 2 else 4) | _ => none
  symfn _ _ := none
  opaq _ _ := none

noncomputable def callInput (n : String) : Cell ℂ := .num (if n = "x" then 2 else 4)

theorem call_called (T : Scoping) (o : PyOptions) : ∃ s, Called exactMachine ⟨T, "np"⟩ o callNaming callArgs 4 1 6 callOuts s callEnv callInput := by
  obtain ⟨s, h1, h2, h3⟩ := call_lowers callEnv
  refine ⟨s, ?_, h1, ?_, ?_, ?_, ?_⟩
  · intro n i t z hz
    cases t with
    | floating => trivial
    | boolean => cases i <;> cases hz
    | integral => cases i <;> cases hz
  · rw [h2]
    refine ⟨?_, by simp⟩
    intro b e hb w h0 hw
    simp only [List.mem_singleton, Note.recip.injEq] at hb
    obtain ⟨rfl, rfl⟩ := hb
    simp [argY, eval, evals, headVal, callEnv] at h0
  · have key : ∀ k t, callNaming.leaf k = some t → (k = 0 ∧ t = .arg "x" .scalar) ∨ (k = 1 ∧ t = .arg "y" .scalar) := by
      intro k t h
      simp only [callNaming] at h
      split at h
      · cases h; exact .inl ⟨by assumption, rfl⟩
      · split at h
        · cases h; exact .inr ⟨by assumption, rfl⟩
        · cases h
    refine ⟨fun k t h => ?_, fun k t e h he hv => ?_⟩
    · rcases key k t h with ⟨rfl, rfl⟩ | ⟨rfl, rfl⟩
      · exact ⟨argX, by rw [h3]; rfl, .scalar (by decide)⟩
      · exact ⟨argY, by rw [h3]; rfl, .scalar (by decide)⟩
    · rw [h3] at he
      rcases key k t h with ⟨rfl, rfl⟩ | ⟨rfl, rfl⟩ <;> cases he
      · exact absurd rfl (hv "x" 0 .floating)
      · exact absurd rfl (hv "y" 0 .floating)
  · intro a ha hi
    refine ⟨fun p _ => ⟨_, rfl⟩, fun r c ht => ?_⟩
    simp only [callArgs, List.mem_cons, List.not_mem_nil, or_false] at ha
    rcases ha with rfl | rfl | rfl | rfl <;> cases ht
    cases hi
  · intro a ha hi
    refine ⟨fun p ht => ?_, fun r c ht => ?_⟩
    · simp only [callArgs, List.mem_cons, List.not_mem_nil, or_false] at ha
      rcases ha with rfl | rfl | rfl | rfl <;> cases p <;> cases ht <;> simp [callEnv, argElement, callInput]
    · simp only [callArgs, List.mem_cons, List.not_mem_nil, or_false] at ha
      rcases ha with rfl | rfl | rfl | rfl <;> cases ht
      cases hi

/-- The statements with names. -/
def callStms : List Stm :=
  let v := Gen.Text.tempName callNaming.width
  [.declare (v 1) (.scalar .floating) (some (.expr (.arg "y" .scalar))), .declare (v 0) (.scalar .floating) (some (.expr (.arg "x" .scalar))),
   .optional "g" (.scalar .floating) [.output "g" true (.expr (.add [.var (v 0), .var (v 1)]))], .declare (v 14) (.scalar .floating) none,
   .branch (.cmp .lt (.var (v 0)) (.var (v 1))) [.assign (v 14) (.expr (.mul [.var (v 0), .var (v 1)]))]
     [.assign (v 14) (.expr (.div (.cast .floating (.int 1)) (.var (v 1))))],
   .declare (v 2) (.scalar .floating) (some (.expr (.std .sqrt [.var (v 1)]))),
   .outputMatrix "J" false 1 2 [.var (v 0), .mul [.var (v 2), .var (v 2), .var (v 2)]], .ret (.expr (.var (v 14)))]

theorem call_stms : stmtStms callNaming callStmts = some callStms := by
  have hu : callNaming.shape 5 = some (1, 2) := by
    show some (Nat.unpair (Nat.pair 1 2)) = _
    rw [Nat.unpair_pair]
  have hJ : Gen.Text.stmtStm callNaming (.output 0 (.app (.construct 5) [.ref 0, .app .mul [.ref 2, .ref 2, .ref 2]])) =
      some (.outputMatrix "J" false 1 2 [.var (Gen.Text.tempName callNaming.width 0), .mul [.var (Gen.Text.tempName callNaming.width 2),
        .var (Gen.Text.tempName callNaming.width 2), .var (Gen.Text.tempName callNaming.width 2)]]) := by
    unfold Gen.Text.stmtStm
    unfold Gen.Text.outputStm Gen.Text.asMatrix
    simp only [hu]
    rfl
  have hR : stmtStms callNaming [.output 0 (.app (.construct 5) [.ref 0, .app .mul [.ref 2, .ref 2, .ref 2]]), .ret 2 (.ref 14)] =
      some [.outputMatrix "J" false 1 2 [.var (Gen.Text.tempName callNaming.width 0), .mul [.var (Gen.Text.tempName callNaming.width 2),
        .var (Gen.Text.tempName callNaming.width 2), .var (Gen.Text.tempName callNaming.width 2)]], .ret (.expr (.var (Gen.Text.tempName callNaming.width 14)))] := by
    unfold stmtStms
    rw [hJ]
    rfl
  unfold callStmts callStms
  iterate 6 unfold stmtStms
  rw [hR]
  rfl

theorem call_fine (L : Gen.Text.Lang) : BodyFine L callStms := by
  have h2 : (1 : Nat) < 2 ^ 63 ∧ (2 : Nat) < 2 ^ 63 := by decide
  refine ⟨?_, fun v hv => ?_⟩
  · simp [callStms, splitReturn, Gen.Text.StmsFine, Gen.Text.Stm.Fine, Gen.Text.Value.Fine, Gen.Text.Tree.Fine, Gen.Text.AllFine, Gen.Text.Tree.risky,
      Gen.Text.Tree.isLoose, Gen.Text.Std.arity, Gen.Text.Tree.isTest, Gen.Text.Stm.isCode]
  · simp [callStms, splitReturn] at hv
    subst hv
    refine ⟨by simp [Gen.Text.Value.Fine, Gen.Text.Tree.Fine], fun _ => ?_⟩
    show List.head? _ ≠ _
    intro h
    cases h

theorem call_power : eval callEnv (.pow argY (.rat ⟨3, 2⟩)) = some 8 := by
  have h : (4 : ℂ) ^ (3 / 2 : ℂ) = 8 := by
    have : ((4 : ℝ) ^ (3 / 2 : ℝ) : ℝ) = 8 := by
      rw [show (4 : ℝ) = 2 ^ (2 : ℝ) by norm_num, ← Real.rpow_mul (by norm_num)]
      norm_num
    have h2 := congrArg (fun x : ℝ => (x : ℂ)) this
    simp only [Complex.ofReal_cpow (by norm_num : (0 : ℝ) ≤ 4)] at h2
    push_cast at h2
    exact h2
  simp [argY, eval, evals, headVal, callEnv, powO, powVal]
  rw [← h]
  simp [RatC.val]

theorem call_return : CellOf callEnv (.scalar (.cond (.rel .lt argX argY) (.mul [argX, argY]) (.pow argY (.int (-1)))) .floating) (.num 8) := by
  refine ⟨8, ?_, trivial, rfl⟩
  simp [argX, argY, eval, evals, headVal, callEnv, condO, relO, relVal, prodO, powO, powVal]
  norm_num

theorem call_sum : CellOf callEnv (.scalar (.add [argX, argY]) .floating) (.num 6) := by
  refine ⟨6, ?_, trivial, rfl⟩
  simp [argX, argY, eval, evals, headVal, callEnv, sumO]
  norm_num

theorem call_row : CellOf callEnv (.matrix 1 2 [argX, .pow argY (.rat ⟨3, 2⟩)]) (.mat 1 2 [2, 8]) :=
  ⟨[2, 8], .cons (by simp [argX, eval, evals, headVal, callEnv]) (.cons call_power .nil), rfl⟩

/-- In C++ (with views) the function called with `x = 2` and `y = 4` returns `x * y = 8`, and writes `(2, 8)` to `J`; `g` is not wanted. -/
example : ∃ text body e, cppBody true callStms = some text ∧ BlockReadsAs .cpp text body ∧
    runSts exactMachine ⟨.cpp true, "np"⟩ 0 body (startState (.cpp true) callArgs callInput fun _ => false) = some e ∧
    e.result = some [.num 8] ∧ Gen.Text.find "J" e.heap = some (.mat 1 2 [some 2, some 8]) := by
  obtain ⟨s, hs⟩ := call_called (.cpp true) ⟨.numpy, true⟩
  obtain ⟨body, h1, h2⟩ := C59_cpp_partial (s := s) (o := ⟨.numpy, true⟩) (span := true) (K := 0) call_good call_described (call_usable _) (fun fuel _ => call_transpiles fuel) call_stms rfl
    (call_fine _) (fun v hv => by simp [callStms, splitReturn] at hv; subst hv; trivial)
  obtain ⟨e, h3, h4⟩ := h2 callEnv callInput (fun _ => false) hs
  refine ⟨_, body, e, rfl, h1, h3, ?_, ?_⟩
  · obtain ⟨cs, h5, h6⟩ := (h4 _ (List.mem_cons_of_mem _ (List.mem_cons_of_mem _ List.mem_cons_self))).1 (fun h => by cases h) (.num 8) call_return
    rw [h5, List.length_eq_zero_iff.1 (h6 : cs.length = 0)]
  · obtain ⟨slot, h5, h6⟩ := (h4 _ List.mem_cons_self).1 (fun h => by cases h) (.mat 1 2 [2, 8]) call_row
    cases slot with
    | num y => cases h6
    | mat r c l =>
      obtain ⟨rfl, rfl, rfl⟩ := h6
      exact h5

/-- The Python function returns `(8, (2, 8), 6)`, with `g = x + y`. -/
example : ∃ text body e, pyBody ⟨⟨.numpy, true⟩, 2, false⟩ ["J", "g"] callStms = some text ∧ LinesReadAs 2 text body ∧
    runSts exactMachine ⟨.python false, "np"⟩ 0 body (startState (.python false) callArgs callInput fun _ => true) = some e ∧
    e.result = some [.num 8, .mat 1 2 [2, 8], .num 6] := by
  obtain ⟨s, hs⟩ := call_called (.python false) ⟨.numpy, true⟩
  obtain ⟨body, h1, h2⟩ := C59_python_partial (o := ⟨⟨.numpy, true⟩, 2, false⟩) (s := s) (K := 0) (by decide) (by decide) call_good call_described (call_usable _)
    (fun fuel _ => call_transpiles fuel) call_stms rfl (by simp [pyMeant, callStms, splitReturn, Gen.Text.stmsPythonSt, Gen.Text.Stm.pythonSt]) (call_fine _)
    (fun v hv => by simp [callStms, splitReturn] at hv; subst hv; trivial)
  obtain ⟨e, h3, h4⟩ := h2 callEnv callInput (fun _ => true) hs
  refine ⟨_, body, e, rfl, h1, h3, ?_⟩
  obtain ⟨cs, h5, h6⟩ := (h4 _ (List.mem_cons_of_mem _ (List.mem_cons_of_mem _ List.mem_cons_self))).1 (fun h => by cases h) (.num 8) call_return
  obtain ⟨b1, cs1, i1, c1, j1, j2, j3, j4, rfl⟩ := (h4 _ List.mem_cons_self).1 (fun h => by cases h) (.mat 1 2 [2, 8]) call_row
  obtain ⟨b2, cs2, i2, c2, k1, k2, k3, k4, rfl⟩ := (h4 _ (List.mem_cons_of_mem _ List.mem_cons_self)).1 (fun h => rfl) (.num 6) call_sum
  rw [h5] at j1 k1
  obtain ⟨_, rfl⟩ := List.append_inj' (s₁ := [_]) (t₁ := cs) (Option.some.inj j1) (h6.trans j2.symm)
  obtain ⟨_, rfl⟩ := List.append_inj' (s₁ := [_]) (t₁ := cs) (Option.some.inj k1) (h6.trans k2.symm)
  have hj : i1 = 0 := by
    match i1, j3 with
    | 0, _ => rfl
    | 1, h => exact absurd (Option.some.inj h) (by decide)
    | n + 2, h => cases h
  have hk : i2 = 1 := by
    match i2, k3 with
    | 0, h => exact absurd (Option.some.inj h) (by decide)
    | 1, h => rfl
    | n + 2, h => cases h
  subst hj hk
  match cs, h6, j4, k4 with
  | [a, b], _, h, h' => cases h; cases h'; exact h5

end Wf.Sym
