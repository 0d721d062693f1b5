import Verif.Sym.CallProps
import Verif.Sym.WholeCallSpec
import Verif.Gen.SigBodyProps

/-!
# C61: calls of whole functions

The text of a function, with its signature and the conversions of arguments, gives the values of the expressions to whoever calls it.
-/

namespace Wf.Sym
open Complex
open Wf.Gen (AstInfo Graph Stmt)
open Wf.Gen.Text (Machine Setting Scoping Naming Argument Cell State Toks Stm Lex PyOptions PyConfig stmtStms BodyFine BlockReadsAs LinesReadAs cppBody rustBody pyBody pyMeant
  splitReturn runSts startState returnedOutputs FnSignature cppSignature cppDefinition cppTypeParams rustSignature pySignature pyDefinition Speakable InputsFirst actuals)

variable {F : Type} [DecidableEq F] [FnSem F] {info : AstInfo} {M : Machine ℂ} {o : PyOptions} {N : Naming} {args : List Argument} {nK m n : Nat}
  {outs : List (Nat × Output F)} {s : Low F} {opt : Options} {cast : Graph → Nat → Option Nat} {K : Nat} {ss : List Stmt} {xs : List Stm} {text : Toks}

private theorem block_unique {L : Gen.Text.Lang} {text : Toks} {b b' : List Gen.Text.St} (h : BlockReadsAs L text b) (h' : BlockReadsAs L text b') : b = b' := by
  obtain ⟨ts, t1, _, t3⟩ := h
  obtain ⟨ts', t1', t2', _⟩ := h'
  rw [t1] at t1'
  have : ts = ts' := List.append_cancel_right (List.cons.inj t1').2
  subst this
  exact (t3 _ t2').symm

/-- **C61** for C++. The text of the function, with its signature and the views of its arguments, is accepted, and whoever calls it gets for every output that
is wanted the value of its expression. Conditions as in `C59_cpp_partial`; in addition, the names are no keywords and no parameters of the template. -/
theorem C61_cpp_call_partial {span : Bool} {mod : String} (hg : ∀ o ∈ outs, ∀ e ∈ o.2.exprs, Plain e ∧ Good e) (hd : Described info N args outs)
    (hu : Usable M ⟨.cpp span, mod⟩ N args) (hss : ∀ fuel, K ≤ fuel → transpile (ctors codeLic nK) m n info opt cast fuel outs = .ok ss)
    (hx : stmtStms N ss = some xs) (htext : cppDefinition span args xs = some text) (hf : BodyFine .cpp xs) (hsize : ∀ v, (splitReturn xs).2 = some v → v.Sized)
    {f : FnSignature} {sig : List Lex} (hfa : f.args = args) (hsig : cppSignature span f = some sig) (hk : Speakable .cpp f)
    (hnd : (cppTypeParams span args ++ args.map (·.name)).Nodup) (ρ : Env F) (input : String → Cell ℂ) (wanted : String → Bool)
    (hc : Called M ⟨.cpp span, mod⟩ o N args nK m n outs s ρ input) :
    ∃ e, RunsCpp M span mod sig text args wanted (actuals (.cpp span) input wanted args) e ∧ GetsAll (.cpp span) N info args wanted ρ outs e := by
  subst hfa
  obtain ⟨t, ht⟩ : ∃ t, cppBody span xs = some t := by
    unfold cppDefinition at htext
    unfold cppBody
    by_cases h : (span && Gen.Text.stmsHaveMatrix xs) = true
    · rw [if_pos h] at htext; cases htext
    · rw [if_neg h]; exact ⟨_, rfl⟩
  obtain ⟨body, hb1, hb2⟩ := C59_cpp_partial (s := s) (o := o) hg hd hu hss hx ht hf hsize
  obtain ⟨e, he1, he2⟩ := hb2 ρ input wanted hc
  have hbody : body = Gen.Text.stmsCppSt span xs := block_unique hb1 (Gen.Text.C56_cpp_partial span hf ht)
  subst hbody
  obtain ⟨g, hg1, _, _, _, _, _, hg2⟩ := Gen.Text.C61_cpp_partial (K := ℂ) span f hsig hk hnd
  refine ⟨e, ⟨g, _, _, _, startState (.cpp span) f.args input wanted, hg1, Gen.Text.C61_cpp_definition_partial span f.args hf htext, hg2 input wanted, ?_, he1⟩, he2⟩
  cases span with
  | false => rfl
  | true =>
    refine Gen.Text.C61_cpp_views hu.names.1 fun a ha hi r c ht => ?_
    obtain ⟨l, hl, _⟩ := (hc.passed a ha hi).2 r c ht
    exact ⟨l, hl⟩

/-- **C61** for Rust. -/
theorem C61_rust_call_partial {mod : String} (hg : ∀ o ∈ outs, ∀ e ∈ o.2.exprs, Plain e ∧ Good e) (hd : Described info N args outs)
    (hu : Usable M ⟨.rust, mod⟩ N args) (hss : ∀ fuel, K ≤ fuel → transpile (ctors codeLic nK) m n info opt cast fuel outs = .ok ss)
    (hx : stmtStms N ss = some xs) (htext : rustBody xs = some text) (hf : BodyFine .rust xs)
    {f : FnSignature} {sig : List Lex} (hfa : f.args = args) (hsig : rustSignature f = some sig) (hk : Speakable .rust f)
    (ρ : Env F) (input : String → Cell ℂ) (wanted : String → Bool) (hc : Called M ⟨.rust, mod⟩ o N args nK m n outs s ρ input) :
    ∃ e, RunsRust M mod sig text args wanted (actuals .rust input wanted args) e ∧ GetsAll .rust N info args wanted ρ outs e := by
  subst hfa
  obtain ⟨body, hb1, hb2⟩ := C59_rust_partial (s := s) (o := o) hg hd hu hss hx htext hf
  obtain ⟨e, he1, he2⟩ := hb2 ρ input wanted hc
  obtain ⟨g, bs, hg1, _, _, _, _, _, _, hg2⟩ := Gen.Text.C61_rust_partial (K := ℂ) f hsig hk hu.names.1
  exact ⟨e, ⟨g, bs, body, _, hg1, hb1, hg2 input wanted, he1⟩, he2⟩

private theorem prim_text (p : Gen.Text.Prim) : ∃ q, p = primText q := by
  cases p
  · exact ⟨.boolean, rfl⟩
  · exact ⟨.integral, rfl⟩
  · exact ⟨.floating, rfl⟩

/-- Conversions of arguments that have their types do not change numbers. -/
private theorem converted {ρ : Env F} {input input' : String → Cell ℂ} (hM : Exact M) (hT : TypedEnv ρ) (ha : Assigns ρ args input')
    {a : Argument} (hm : a ∈ args) (hi : a.direction = .input) (h : Reshaped a.type (input a.name) (input' a.name)) :
    Gen.Text.Converted M a.type (input a.name) (input' a.name) := by
  have h2 := (ha a hm hi).1
  generalize ht : a.type = t at h h2
  generalize hx : input a.name = x at h
  generalize hy : input' a.name = y at h
  cases h with
  | custom => exact .custom
  | @matrix r c r' c' zs e =>
    have : Gen.Text.Converted M (.matrix r c) (.mat r' c' zs) (.mat r c (zs.map (M.cast .floating))) := .matrix e
    have hz : zs.map (M.cast .floating) = zs := by
      conv_rhs => rw [← List.map_id zs]
      exact List.map_congr_left fun z _ => hM.float z
    rwa [hz] at this
  | @scalar p z =>
    have : Gen.Text.Converted M (.scalar p) (.num z) (.num (M.cast p z)) := .scalar
    have hz : M.cast p z = z := by
      obtain ⟨q, rfl⟩ := prim_text p
      have h3 := h2 q rfl
      have h4 : argElement input' a.name 0 = some z := by
        unfold argElement
        rw [hy]; rfl
      rw [h4] at h3
      have h5 := hT _ _ _ _ h3
      cases q with
      | floating => exact hM.float z
      | integral =>
        obtain ⟨k, rfl⟩ := h5
        exact hM.int _ k
      | boolean =>
        rcases h5 with rfl | rfl
        · simpa using hM.int (primText .boolean) 0
        · simpa using hM.int (primText .boolean) 1
    rwa [hz] at this

/-- **C61** for Python. In addition: the arrays that are passed have the number of elements of the argument, in any shape. -/
theorem C61_python_call_partial {o : PyConfig} (hi : 0 < o.indent) (htarget : o.expr.target ≠ .pytorch) (hg : ∀ o ∈ outs, ∀ e ∈ o.2.exprs, Plain e ∧ Good e)
    (hd : Described info N args outs) (hu : Usable M ⟨.python o.outputArguments, o.expr.module⟩ N args)
    (hss : ∀ fuel, K ≤ fuel → transpile (ctors codeLic nK) m n info opt cast fuel outs = .ok ss) (hx : stmtStms N ss = some xs)
    (htext : pyDefinition o args xs = some text) (hne : pyMeant o ((args.filter (·.direction ≠ .input)).map (·.name)) xs ≠ [])
    (hf : BodyFine .python xs) (hsize : ∀ v, (splitReturn xs).2 = some v → v.Sized)
    {f : FnSignature} (hfa : f.args = args) (hk : Speakable .python f) (hin : o.outputArguments = false → InputsFirst args)
    (hlast : o.outputArguments = true → args.Pairwise fun a b => a.direction = .optional → b.direction = .optional)
    (ρ : Env F) (input input' : String → Cell ℂ) (wanted : String → Bool) (hr : ∀ a ∈ args, a.direction = .input → Reshaped a.type (input a.name) (input' a.name))
    (hc : Called M ⟨.python o.outputArguments, o.expr.module⟩ o.expr N args nK m n outs s ρ input') :
    ∃ e, RunsPython M o (pySignature o f) text args wanted (actuals (.python o.outputArguments) input wanted args) e ∧
      GetsAll (.python o.outputArguments) N info args wanted ρ outs e := by
  subst hfa
  obtain ⟨t, ht⟩ : ∃ t, pyBody o ((f.args.filter (·.direction ≠ .input)).map (·.name)) xs = some t := by
    unfold pyDefinition at htext
    by_cases h : (Gen.Text.pyRefuses o f.args || xs.isEmpty) = true
    · rw [if_pos h] at htext; cases htext
    · rw [if_neg h] at htext
      obtain ⟨t, ht, _⟩ := Option.map_eq_some_iff.1 htext
      exact ⟨t, ht⟩
  have hmeant : pyMeant o (returnedOutputs (.python o.outputArguments) f.args) xs = pyMeant o ((f.args.filter (·.direction ≠ .input)).map (·.name)) xs := by
    cases hb : o.outputArguments with
    | false => rfl
    | true => simp only [Gen.Text.pyMeant, Gen.Text.pyReturned, hb, if_true]
  have htext' : pyBody o (returnedOutputs (.python o.outputArguments) f.args) xs = some t := by
    rw [← ht]
    cases hb : o.outputArguments with
    | false => rfl
    | true => simp only [pyBody, hb, if_true]
  obtain ⟨body, hb1, hb2⟩ := C59_python_partial (s := s) hi htarget hg hd hu hss hx htext' (by rw [hmeant]; exact hne) hf hsize
  obtain ⟨e, he1, he2⟩ := hb2 ρ input' wanted hc
  have hbody : body = pyMeant o ((f.args.filter (·.direction ≠ .input)).map (·.name)) xs :=
    (Gen.Text.C56_python_partial hi hf ht hne).2.2 _ hb1.2.1
  subst hbody
  obtain ⟨g, hg1, _, _, _, hg2⟩ := Gen.Text.C61_python_partial (K := ℂ) o f hk hu.names.1 hin hlast
  have hplain : ∀ a ∈ f.args, M.lit a.name = none := fun a ha => (hu.plain.plain a.name (.inl (by
    show a.name ∈ Gen.Text.givenNames (.python o.outputArguments) f.args
    cases o.outputArguments with
    | true => exact List.mem_map_of_mem ha
    | false => exact List.mem_append.2 (.inl (List.mem_map_of_mem ha))))).1
  have hconv := Gen.Text.C61_python_conversions (M := M) (wanted := wanted) htarget hu.names.1 hplain (input := input) (input' := input')
    (fun a ha hdir => converted hu.exact hc.typed hc.assigns ha hdir (hr a ha hdir))
  exact ⟨e, ⟨g, Gen.Text.pyConvs o f.args, _, _, _, hg1, Gen.Text.C61_python_definition_partial hi hf htext hne, hg2 input wanted, hconv, he1⟩, he2⟩

/-! ## Examples -/

/-- The function of the example for C59. -/
def callSignature : FnSignature := ⟨"f", some (.scalar .floating), callArgs⟩

theorem callSignature_speakable (L : Gen.Text.Lang) : Speakable L callSignature := by
  cases L <;> exact ⟨by decide, by decide⟩

/-- The C++ function, called with `x = 2`, `y = 4`, an object for `J` and a null pointer, returns `8`. -/
example : ∃ sig text e, cppSignature true callSignature = some sig ∧ cppDefinition true callArgs callStms = some text ∧
    RunsCpp exactMachine true "np" sig text callArgs (fun _ => false) [.val (.num 2), .val (.num 4), .obj "J", .nothing] e ∧ e.result = some [.num 8] := by
  obtain ⟨s, hs⟩ := call_called (.cpp true) ⟨.numpy, true⟩
  obtain ⟨e, h3, h4⟩ := C61_cpp_call_partial (s := s) (o := ⟨.numpy, true⟩) (span := true) (K := 0) call_good call_described (call_usable _) (fun fuel _ => call_transpiles fuel)
    call_stms rfl (call_fine _) (fun v hv => by simp [callStms, splitReturn] at hv; subst hv; trivial) (f := callSignature) rfl rfl (callSignature_speakable _) (by decide)
    callEnv callInput (fun _ => false) hs
  obtain ⟨cs, h5, h6⟩ := (h4 _ (List.mem_cons_of_mem _ (List.mem_cons_of_mem _ List.mem_cons_self))).1 (fun h => by cases h) (.num 8) call_return
  refine ⟨_, _, e, rfl, rfl, ?_, by rw [h5, List.length_eq_zero_iff.1 (h6 : cs.length = 0)]⟩
  simpa [actuals, Argument.actual, callArgs, callInput] using h3

/-- The Rust function, called with `None` for `g`, returns `8`. -/
example : ∃ sig text e, rustSignature callSignature = some sig ∧ rustBody callStms = some text ∧
    RunsRust exactMachine "np" sig text callArgs (fun _ => false) [.val (.num 2), .val (.num 4), .obj "J", .nothing] e ∧ e.result = some [.num 8] := by
  obtain ⟨s, hs⟩ := call_called .rust ⟨.numpy, true⟩
  obtain ⟨e, h3, h4⟩ := C61_rust_call_partial (s := s) (o := ⟨.numpy, true⟩) (K := 0) call_good call_described (call_usable _) (fun fuel _ => call_transpiles fuel)
    call_stms rfl (call_fine _) (f := callSignature) rfl rfl (callSignature_speakable _) callEnv callInput (fun _ => false) hs
  obtain ⟨cs, h5, h6⟩ := (h4 _ (List.mem_cons_of_mem _ (List.mem_cons_of_mem _ List.mem_cons_self))).1 (fun h => by cases h) (.num 8) call_return
  refine ⟨_, _, e, rfl, rfl, ?_, by rw [h5, List.length_eq_zero_iff.1 (h6 : cs.length = 0)]⟩
  simpa [actuals, Argument.actual, callArgs, callInput] using h3

/-- The Python function, called with `x = 2`, `y = 4` and `compute_g = False`, returns `8` first. -/
example : ∃ text e, pyDefinition ⟨⟨.numpy, true⟩, 2, false⟩ callArgs callStms = some text ∧
    RunsPython exactMachine ⟨⟨.numpy, true⟩, 2, false⟩ (pySignature ⟨⟨.numpy, true⟩, 2, false⟩ callSignature) text callArgs (fun _ => false)
      [.val (.num 2), .val (.num 4), .val (.switch false)] e ∧ ∃ cs, e.result = some (.num 8 :: cs) := by
  obtain ⟨s, hs⟩ := call_called (.python false) ⟨.numpy, true⟩
  obtain ⟨e, h3, h4⟩ := C61_python_call_partial (o := ⟨⟨.numpy, true⟩, 2, false⟩) (s := s) (K := 0) (by decide) (by decide) call_good call_described (call_usable _)
    (fun fuel _ => call_transpiles fuel) call_stms rfl (by simp [pyMeant, callStms, splitReturn, Gen.Text.stmsPythonSt, Gen.Text.Stm.pythonSt]) (call_fine _)
    (fun v hv => by simp [callStms, splitReturn] at hv; subst hv; trivial) (f := callSignature) rfl (callSignature_speakable _)
    (fun _ => ⟨callArgs.take 2, callArgs.drop 2, rfl, by decide, by decide⟩) (fun h => by cases h) callEnv callInput callInput (fun _ => false)
    (fun a ha hi => by
      simp only [callArgs, List.mem_cons, List.not_mem_nil, or_false] at ha
      rcases ha with rfl | rfl | rfl | rfl
      · exact .scalar
      · exact .scalar
      · cases hi
      · cases hi) hs
  obtain ⟨cs, h5, h6⟩ := (h4 _ (List.mem_cons_of_mem _ (List.mem_cons_of_mem _ List.mem_cons_self))).1 (fun h => by cases h) (.num 8) call_return
  refine ⟨_, e, rfl, ?_, cs, h5⟩
  simpa [actuals, callArgs, callInput] using h3

end Wf.Sym
