import Verif.Gen.RunBody
import Verif.Gen.NameProps

/-!
# C58: running the text of a function

The text of the body of a generated function is read as a list of statements, in one way only; running them gives the caller, for every output, the value that
the program says. See `RunSpec.lean` for the run of the text, `StmtTextSpec.lean` for reading it, and `Writes` for the values of the program.
-/

namespace Wf.Gen.Text

open Conv

variable {K : Type} [CommRing K] {M : Machine K} {I : Interp K} {S : Setting} {N : Naming} {args : List Argument} {input : String → Cell K} {wanted : String → Bool}
  {g : Graph} {info : AstInfo}

/-- What is known of the statements of a body. -/
private theorem statements (hw : WF g) (ho : InOrder g) (hc : Convertible g) (ht : Typed info g) (hown : OwnStructs info g) {ternaries : Bool} {s : Conv} {entry : Nat}
    {ss : List Stmt} (h : convert g info.usage ternaries = .ok (s, entry)) (ha : createAst info s entry = .ok ss) {xs : List Stm} (hx : stmtStms N ss = some xs)
    (hshape : Shaped N info.usage g) (hM : M.Computes I) (hget : ∀ i, info.scalarGet i = true → ∀ x, I.f (.get i) [x] = x) (o : PyConfig)
    (hT : S.T = .python true → o.outputArguments = true) (hn : Named S.T N I (M.con S o.expr) M.truth args input wanted info.usage (Written g info.usage))
    (hp : PlainNames M S N args) {L : Lang} (hf : BodyFine L xs) (ht' : S.T = .python true → throwPython o (splitReturn xs).1 = false) :
    NamesOk M S args (Temporary N) ∧ StmsOk S.T args (Temporary N) (Readable S.T args input wanted (Temporary N)) [] (splitReturn xs).1 ∧
      (∀ v, (splitReturn xs).2 = some v → v.Over S.T (Readable S.T args input wanted (Temporary N))) ∧
      ∃ e, execAll S.T I (M.con S o.expr) M.truth 0 xs ⟨startVars S.T args input wanted, none⟩ = some e ∧
        ∀ key x, Writes I g key x → Delivered S.T N I info.usage wanted key x e := by
  refine ⟨⟨hn.distinct, hp.plain, ?_, hp.none⟩, ?_, fun v hv => ret_over hn ss hx (ret_mem hv), ?_⟩
  · rintro n ⟨v, rfl⟩
    exact hn.noClash v
  · exact stmtStms_ok (o := o) hn hT ss _ _ (G := []) (by rw [hx, ← splitReturn_eq xs]) (createAst_keyed hw ho hc ht hown h ha)
      (createAst_formed hw ho hc ht hown h ha hshape) (by simp) hf.1 ht'
  · exact C57_outputs_partial hw ho hc ht hown h ha hx (fun c x y => hM.cond c x y) hget hn

private theorem written {key : Nat} {x : K} (h : Writes I g key x) (hu : info.usage key ≠ .returnValue) : Written g info.usage key := by
  obtain ⟨v, hv, hop, _⟩ := h
  exact ⟨hu, v, hv, hop⟩

/-- **C58** for C++. The program `g` is converted to blocks, to a structured body, and to text. The text of the body is read, in one way only, as statements
that run to the end, and then the caller has the value of every output. Conditions: the machine computes the operations as the program means them (`Computes`,
`Lawful`); the names of arguments and temporaries are distinct and are not those of literals, constants or library functions (`Named`, `PlainNames`); outputs
are numbers or matrices of the size of their arguments (`Shaped`); the body has none of the forms of `C56_cpp_matrix` and similar (`BodyFine`). -/
theorem C58_cpp_partial (hw : WF g) (ho : InOrder g) (hc : Convertible g) (ht : Typed info g) (hown : OwnStructs info g) {ternaries : Bool} {s : Conv} {entry : Nat}
    {ss : List Stmt} (h : convert g info.usage ternaries = .ok (s, entry)) (ha : createAst info s entry = .ok ss) {xs : List Stm} (hx : stmtStms N ss = some xs)
    {span : Bool} {text : Toks} (htext : cppBody span xs = some text) (hf : BodyFine .cpp xs) (hsize : ∀ v, (splitReturn xs).2 = some v → v.Sized)
    (hshape : Shaped N info.usage g) (hty : ∀ a ∈ args, a.direction ≠ .input → ∀ n, a.type ≠ .custom n)
    (hM : M.Computes I) (hL : M.Lawful) (hget : ∀ i, info.scalarGet i = true → ∀ x, I.f (.get i) [x] = x) {o : PyOptions} {mod : String}
    (hn : Named (.cpp span) N I (M.con ⟨.cpp span, mod⟩ o) M.truth args input wanted info.usage (Written g info.usage)) (hp : PlainNames M ⟨.cpp span, mod⟩ N args) :
    ∃ body e, BlockReadsAs .cpp text body ∧ runSts M ⟨.cpp span, mod⟩ 0 body (startState (.cpp span) args input wanted) = some e ∧
      ∀ key x, Writes I g key x → Received (.cpp span) N I args info.usage wanted key x e := by
  obtain ⟨h1, h2, h3, e, he, hd⟩ := statements (S := ⟨.cpp span, mod⟩) hw ho hc ht hown h ha hx hshape hM hget ⟨o, 0, false⟩ (by simp) hn hp hf (by simp)
  obtain ⟨W, m, s1, s', hr, hrel, hv, hh, hres⟩ := cpp_body (S := ⟨.cpp span, mod⟩) hM hL h1 rfl hty hf h2 (fun v hv => ⟨h3 v hv, hsize v hv⟩) he
  exact ⟨_, s', C56_cpp_partial span hf htext, hr, fun key x hx => received hn (by simp) hrel hv hh hres (written hx) (hd key x hx)⟩

/-- **C58** for Rust. -/
theorem C58_rust_partial (hw : WF g) (ho : InOrder g) (hc : Convertible g) (ht : Typed info g) (hown : OwnStructs info g) {ternaries : Bool} {s : Conv} {entry : Nat}
    {ss : List Stmt} (h : convert g info.usage ternaries = .ok (s, entry)) (ha : createAst info s entry = .ok ss) {xs : List Stm} (hx : stmtStms N ss = some xs)
    {text : Toks} (htext : rustBody xs = some text) (hf : BodyFine .rust xs)
    (hshape : Shaped N info.usage g) (hty : ∀ a ∈ args, a.direction ≠ .input → ∀ n, a.type ≠ .custom n)
    (hM : M.Computes I) (hL : M.Lawful) (hget : ∀ i, info.scalarGet i = true → ∀ x, I.f (.get i) [x] = x) {o : PyOptions} {mod : String}
    (hn : Named .rust N I (M.con ⟨.rust, mod⟩ o) M.truth args input wanted info.usage (Written g info.usage)) (hp : PlainNames M ⟨.rust, mod⟩ N args) :
    ∃ body e, BlockReadsAs .rust text body ∧ runSts M ⟨.rust, mod⟩ 0 body (startState .rust args input wanted) = some e ∧
      ∀ key x, Writes I g key x → Received .rust N I args info.usage wanted key x e := by
  obtain ⟨h1, h2, h3, e, he, hd⟩ := statements (S := ⟨.rust, mod⟩) hw ho hc ht hown h ha hx hshape hM hget ⟨o, 0, false⟩ (by simp) hn hp hf (by simp)
  have hmat : stmsHaveMatrix xs = false := by
    unfold rustBody at htext
    by_cases hm : stmsHaveMatrix xs = true
    · rw [if_pos hm] at htext; cases htext
    · simpa using hm
  obtain ⟨W, m, s1, s', hr, hrel, hv, hh, hres⟩ := rust_body (S := ⟨.rust, mod⟩) hM hL h1 rfl hty hf hmat h2 h3 he
  exact ⟨_, s', C56_rust_partial hf htext, hr, fun key x hx => received hn (by simp) hrel hv hh hres (written hx) (hd key x hx)⟩

/-- **C58** for Python with NumPy and JAX. Without output arguments the outputs are variables that are returned, so each of them has to be an output of the
program. -/
theorem C58_python_partial (hw : WF g) (ho : InOrder g) (hc : Convertible g) (ht : Typed info g) (hown : OwnStructs info g) {ternaries : Bool} {s : Conv} {entry : Nat}
    {ss : List Stmt} (h : convert g info.usage ternaries = .ok (s, entry)) (ha : createAst info s entry = .ok ss) {xs : List Stm} (hx : stmtStms N ss = some xs)
    {o : PyConfig} (hi : 0 < o.indent) (htarget : o.expr.target ≠ .pytorch) {text : Toks}
    (htext : pyBody o (returnedOutputs (.python o.outputArguments) args) xs = some text) (hne : pyMeant o (returnedOutputs (.python o.outputArguments) args) xs ≠ [])
    (hf : BodyFine .python xs) (hsize : ∀ v, (splitReturn xs).2 = some v → v.Sized)
    (hshape : Shaped N info.usage g) (hty : ∀ a ∈ args, a.direction ≠ .input → ∀ n, a.type ≠ .custom n)
    (hall : o.outputArguments = false → ∀ a ∈ args, a.direction ≠ .input → ∃ key, Written g info.usage key ∧ N.output key = a)
    (hM : M.Computes I) (hL : M.Lawful) (hget : ∀ i, info.scalarGet i = true → ∀ x, I.f (.get i) [x] = x)
    (hn : Named (.python o.outputArguments) N I (M.con ⟨.python o.outputArguments, o.expr.module⟩ o.expr) M.truth args input wanted info.usage (Written g info.usage))
    (hp : PlainNames M ⟨.python o.outputArguments, o.expr.module⟩ N args) :
    ∃ body e, LinesReadAs o.indent text body ∧
      runSts M ⟨.python o.outputArguments, o.expr.module⟩ 0 body (startState (.python o.outputArguments) args input wanted) = some e ∧
      ∀ key x, Writes I g key x → Received (.python o.outputArguments) N I args info.usage wanted key x e := by
  have hthrow : throwPython o (splitReturn xs).1 = false := by
    unfold pyBody at htext
    by_cases hm : throwPython o (splitReturn xs).1 = true
    · rw [if_pos hm] at htext; cases htext
    · simpa using hm
  obtain ⟨h1, h2, h3, e, he, hd⟩ := statements (S := ⟨.python o.outputArguments, o.expr.module⟩) hw ho hc ht hown h ha hx hshape hM hget o (by simp) hn hp hf
    (fun _ => hthrow)
  have hmem : o.outputArguments = false → ∀ n ∈ returnedOutputs (.python o.outputArguments) args, ∃ a ∈ args, a.direction ≠ .input ∧ a.name = n := by
    intro hb n hn'
    rw [hb] at hn'
    unfold returnedOutputs at hn'
    rw [if_pos rfl] at hn'
    obtain ⟨a, ha', rfl⟩ := List.mem_map.1 hn'
    obtain ⟨h4, h5⟩ := List.mem_filter.1 ha'
    exact ⟨a, h4, by simpa using h5, rfl⟩
  obtain ⟨W, m, s1, s', hr, hrel, hv, hh, hres, hres'⟩ := python_body (S := ⟨.python o.outputArguments, o.expr.module⟩) hM hL h1 rfl htarget rfl rfl hty hf h2
    (fun v hv => ⟨h3 v hv, hsize v hv⟩) he (outs := returnedOutputs (.python o.outputArguments) args)
    (fun hb n hn' => by
      obtain ⟨a, h4, h5, rfl⟩ := hmem hb n hn'
      have := hp.plain a.name (.inl (by
        simp only
        rw [hb]
        exact List.mem_append_left _ (List.mem_map_of_mem h4)))
      exact ⟨this.1, this.2.2⟩)
    (fun hb n hn' => by
      obtain ⟨a, h4, h5, rfl⟩ := hmem hb n hn'
      obtain ⟨key, ⟨hu, v, hv, hop⟩, rfl⟩ := hall hb a h4 h5
      obtain ⟨x, hx⟩ : ∃ x, Writes I g key x := by
        obtain ⟨a, ha'⟩ := List.length_eq_one_iff.1 (hw.unary v hv (.inr (.inr (.inr ⟨key, hop⟩))))
        exact ⟨run I g a, v, hv, hop, by rw [ha']; rfl⟩
      have hdel := hd key x hx
      simp only at hdel
      unfold Delivered at hdel
      rw [hb] at hdel
      change match info.usage key with
        | .returnValue => _
        | .output => ∃ c, find (N.output key).name e.vars = some c ∧ Holds N I x c
        | .optional => if wanted (N.output key).name then ∃ c, find (N.output key).name e.vars = some c ∧ Holds N I x c else find (N.output key).name e.vars = some .none at hdel
      cases hk : info.usage key with
      | returnValue => exact absurd hk hu
      | output =>
        rw [hk] at hdel
        obtain ⟨c, h6, h7⟩ := hdel
        exact ⟨c, h6, by rintro rfl; exact h7⟩
      | optional =>
        rw [hk] at hdel
        simp only at hdel
        by_cases hwd : wanted (N.output key).name = true
        · rw [if_pos hwd] at hdel
          obtain ⟨c, h6, h7⟩ := hdel
          exact ⟨c, h6, by rintro rfl; exact h7⟩
        · rw [if_neg hwd] at hdel
          exact ⟨_, hdel, by simp⟩)
  refine ⟨_, s', C56_python_partial hi hf htext hne, hr, fun key x hx => ?_⟩
  cases hb : o.outputArguments with
  | true =>
    rw [hb] at hn hrel
    have hd' := hd key x hx
    simp only [hb] at hd'
    exact received hn (by simp) hrel hv hh (hres hb) (written hx) hd'
  | false =>
    rw [hb] at hn
    have hd' := hd key x hx
    have hr' := hres' hb
    simp only [hb] at hd' hr'
    exact received_python hn hr' (written hx) hd'

/-! ## Example -/

/-- All functions. -/
def allStd : List Std := [.cos, .sin, .tan, .acos, .asin, .atan, .cosh, .sinh, .tanh, .acosh, .asinh, .atanh, .log, .exp, .sqrt, .abs, .signum, .floor, .atan2, .powi, .powf]

/-- The operations as the machine computes them; `load` gives the values of the leaves and `other` the rest. -/
def Machine.interp (M : Machine K) (hcast : ∀ p (n : Int), M.cast p n = n) (load : Nat → K) (other : Op → List K → K) : Interp K where
  f := fun op l => match op, l with
    | .add, l => l.sum
    | .mul, l => l.prod
    | .neg, [x] => -x
    | .copy, [x] => x
    | .load (.int n), _ => n
    | .load (.other k), _ => load k
    | .cast t, [x] => if t = 0 then M.cast .boolean x else if t = 1 then M.cast .integral x else M.cast .floating x
    | .div, [x, y] => M.div x y
    | .compare r, [x, y] => if r = 0 then M.cmp .lt x y else if r = 1 then M.cmp .le x y else M.cmp .eq x y
    | .cond, [c, x, y] => if M.truth c then x else y
    | .callStd n, l =>
      match allStd.find? (fun f => f.number = n) with
      | some f => M.fn f.meaning l
      | none => 0
    | op, l => other op l
  add := fun _ => rfl
  mul := fun _ => rfl
  neg := fun _ => rfl
  copy := fun _ => rfl
  int := fun _ => rfl
  cast := fun t n => by
    show (if t = 0 then M.cast .boolean _ else if t = 1 then M.cast .integral _ else M.cast .floating _) = _
    split
    · exact hcast _ n
    · split <;> exact hcast _ n

theorem Machine.interp_computes (M : Machine K) {hcast : ∀ p (n : Int), M.cast p n = n} {load : Nat → K} {other : Op → List K → K} : M.Computes (M.interp hcast load other) where
  div := fun _ _ => rfl
  cmp := fun r _ _ => by cases r <;> rfl
  cast := fun p _ => by cases p <;> rfl
  fn := fun f _ => by cases f <;> rfl
  cond := fun _ _ _ => rfl

/-- A machine for the example; `sin` and `tan` are multiples. -/
def intMachine : Machine Int where
  lit := fun n => if n = "0.0f64" then some 0 else none
  truth := fun x => decide (x = 1)
  div := fun x y => x / y
  cmp := fun r x y => match r with
    | .lt => if x < y then 1 else 0
    | .le => if x ≤ y then 1 else 0
    | .eq => if x = y then 1 else 0
  cast := fun _ x => x
  fn := fun f l => match f, l with
    | .sin, [x] => x
    | .tan, [x] => 2 * x
    | .sign, [x] => (if 0 < x then 1 else 0) - (if x < 0 then 1 else 0)
    | _, _ => 0

theorem intMachine_lawful : intMachine.Lawful where
  sign := fun _ => rfl
  floor := fun _ => rfl
  bool := fun _ _ _ => rfl
  zero := rfl
  rustZero := rfl
  refl := fun x => by simp [intMachine]

def intInterp : Interp Int := intMachine.interp (fun _ _ => rfl) flowLoads fun _ _ => 0

/-- The statements of the example. -/
def flowStms : List Stm :=
  let v := tempName flowNaming.width
  [.declare (v 1) (.scalar .floating) (some (.expr (.arg "y" .scalar))),
   .optional "J" (.scalar .floating) [.output "J" true (.expr (.mul [.var (v 1), .var (v 1)]))],
   .declare (v 0) (.scalar .floating) (some (.expr (.arg "x" .scalar))),
   .declare (v 6) (.scalar .floating) none,
   .branch (.cmp .lt (.var (v 0)) (.var (v 1))) [.assign (v 6) (.expr (.std .sin [.add [.var (v 0), .var (v 0)]]))] [.assign (v 6) (.expr (.std .tan [.var (v 1)]))],
   .output "f" false (.expr (.var (v 6)))]

theorem flow_statements : ∃ s entry ss, convert flowGraph flowInfo.usage true = .ok (s, entry) ∧ createAst flowInfo s entry = .ok ss ∧ stmtStms flowNaming ss = some flowStms := by
  have hb : (convert flowGraph flowInfo.usage true).bind (fun p => createAst flowInfo p.1 p.2) = .ok [
    .decl 1 (.app (.load (.other 3)) []),
    .optional 1 [.output 1 (.app .mul [.ref 1, .ref 1])],
    .decl 0 (.app (.load (.other 5)) []),
    .declare 6,
    .branch (.app (.compare 0) [.ref 0, .ref 1]) [.assign 6 (.app (.callStd 1) [.app .add [.ref 0, .ref 0]])] [.assign 6 (.app (.callStd 2) [.ref 1])],
    .output 0 (.ref 6)] := by rfl
  obtain ⟨s, entry, ss, h1, h2, _⟩ := C54_outputs_partial (info := flowInfo) flowGraph_ok.1 flowGraph_ok.2.1 flowGraph_ok.2.2 flowInfo_typed.1 flowInfo_typed.2 true
  refine ⟨s, entry, ss, h1, h2, ?_⟩
  rw [h1] at hb
  change createAst flowInfo s entry = _ at hb
  rw [h2] at hb
  cases hb
  rfl

theorem flow_fine (L : Lang) : BodyFine L flowStms := by
  refine ⟨?_, fun v hv => by simp [flowStms, splitReturn] at hv⟩
  simp [flowStms, splitReturn, StmsFine, Stm.Fine, Value.Fine, Tree.Fine, AllFine, Tree.risky, Tree.isLoose, Std.arity, Tree.isTest, Stm.isCode]

theorem flow_shaped : Shaped flowNaming flowInfo.usage flowGraph := by
  intro v hv key hk hu r c ht
  simp only [flowNaming] at ht
  split at ht <;> cases ht

theorem flow_types : ∀ a ∈ flowArgs, a.direction ≠ .input → ∀ n, a.type ≠ .custom n := by
  intro a ha _ n
  simp only [flowArgs, List.mem_cons, List.not_mem_nil, or_false] at ha
  rcases ha with rfl | rfl | rfl | rfl <;> simp

theorem find_absent {α : Type} {n : String} : ∀ {t : List (String × α)}, (∀ p ∈ t, p.1 ≠ n) → find n t = none
  | [], _ => rfl
  | (m, x) :: t, h => by
    unfold find
    rw [if_neg fun hm => h _ List.mem_cons_self hm]
    exact find_absent fun p hp => h p (List.mem_cons_of_mem _ hp)

/-- Names that begin with other letters than the names of literals and libraries. -/
theorem flow_plain (T : Scoping) : PlainNames intMachine ⟨T, "np"⟩ flowNaming flowArgs where
  none := rfl
  plain := by
    have key : ∀ (n : String) c, c ∈ ['x', 'y', 'f', 'J', 'c', 'v'] → n.toList.head? = some c →
        intMachine.lit n = none ∧ Setting.isLibrary ⟨T, "np"⟩ n = false ∧ n ≠ "None" := by
      intro n c hc hn
      have hne : ∀ m : String, (∀ d ∈ ['x', 'y', 'f', 'J', 'c', 'v'], m.toList.head? ≠ some d) → m ≠ n := by
        rintro m hm rfl
        exact hm c hc hn
      refine ⟨if_neg fun h => hne "0.0f64" (by decide) h.symm, ?_, fun h => hne "None" (by decide) h.symm⟩
      have h1 : find n cmath = none := find_absent fun p hp => hne _ ((by decide : ∀ p ∈ cmath, ∀ d ∈ ['x', 'y', 'f', 'J', 'c', 'v'], p.1.toList.head? ≠ some d) p hp)
      have h2 : find n (inModule "np" (numberTypes .python)) = none := find_absent fun p hp =>
        hne _ ((by decide : ∀ p ∈ inModule "np" (numberTypes .python), ∀ d ∈ ['x', 'y', 'f', 'J', 'c', 'v'], p.1.toList.head? ≠ some d) p hp)
      have h3 : find n (inModule "np" numpyFunctions) = none := find_absent fun p hp =>
        hne _ ((by decide : ∀ p ∈ inModule "np" numpyFunctions, ∀ d ∈ ['x', 'y', 'f', 'J', 'c', 'v'], p.1.toList.head? ≠ some d) p hp)
      have h4 : n ≠ "np.where" := fun h => hne "np.where" (by decide) h.symm
      rcases T with (_ | _) | _ | (_ | _) <;> simp [Setting.isLibrary, h1, h2, h3, h4]
    rintro n (hn | ⟨v, rfl⟩)
    · have hh : n ∈ ["x", "y", "f", "J", "compute_J"] := by
        rcases T with (_ | _) | _ | (_ | _) <;> simp [givenNames, flowArgs, VarType.isMatrix] at hn ⊢ <;> tauto
      simp only [List.mem_cons, List.not_mem_nil, or_false] at hh
      rcases hh with rfl | rfl | rfl | rfl | rfl
      · exact key _ 'x' (by decide) rfl
      · exact key _ 'y' (by decide) rfl
      · exact key _ 'f' (by decide) rfl
      · exact key _ 'J' (by decide) rfl
      · exact key _ 'c' (by decide) rfl
    · exact key _ 'v' (by decide) (by simp [tempName])

/-- In C++ and Rust the caller has `sin (x + x) = 4` in `f` after the call of the function with `x = 2` and `y = 3`. -/
example : (∃ text body e, cppBody false flowStms = some text ∧ BlockReadsAs .cpp text body ∧
      runSts intMachine ⟨.cpp false, "np"⟩ 0 body (startState (.cpp false) flowArgs flowInput fun _ => false) = some e ∧ ∃ slot, find "f" e.heap = some slot ∧ slot = .num (some 4)) ∧
    (∃ text body e, rustBody flowStms = some text ∧ BlockReadsAs .rust text body ∧
      runSts intMachine ⟨.rust, "np"⟩ 0 body (startState .rust flowArgs flowInput fun _ => false) = some e ∧ ∃ slot, find "f" e.heap = some slot ∧ slot = .num (some 4)) := by
  obtain ⟨s, entry, ss, h1, h2, h3⟩ := flow_statements
  have hslot : ∀ slot, Slot.Holds flowNaming intInterp 4 slot → slot = .num (some 4) := by
    intro slot h
    cases slot with
    | num y => cases h; rfl
    | mat _ _ _ => obtain ⟨t, _, h, _⟩ := h; cases h
  have hw : Writes intInterp flowGraph 0 4 := ⟨7, by decide, rfl, by decide⟩
  refine ⟨?_, ?_⟩
  · obtain ⟨body, e, k1, k2, k3⟩ := C58_cpp_partial (M := intMachine) (I := intInterp) (mod := "np") (o := ⟨.numpy, true⟩) flowGraph_ok.1 flowGraph_ok.2.1 flowGraph_ok.2.2 flowInfo_typed.1 flowInfo_typed.2 h1 h2 h3
      (span := false) rfl (flow_fine _) (fun v hv => by simp [flowStms, splitReturn] at hv) flow_shaped flow_types intMachine.interp_computes intMachine_lawful (fun _ h => by cases h)
      (flow_named _ (fun _ => rfl) (fun _ => rfl)) (flow_plain _)
    obtain ⟨slot, k4, k5⟩ := k3 0 4 hw
    exact ⟨_, body, e, rfl, k1, k2, slot, k4, hslot slot k5⟩
  · obtain ⟨body, e, k1, k2, k3⟩ := C58_rust_partial (M := intMachine) (I := intInterp) (mod := "np") (o := ⟨.numpy, true⟩) flowGraph_ok.1 flowGraph_ok.2.1 flowGraph_ok.2.2 flowInfo_typed.1 flowInfo_typed.2 h1 h2 h3
      rfl (flow_fine _) flow_shaped flow_types intMachine.interp_computes intMachine_lawful (fun _ h => by cases h)
      (flow_named _ (fun _ => rfl) (fun _ => rfl)) (flow_plain _)
    obtain ⟨slot, k4, k5⟩ := k3 0 4 hw
    exact ⟨_, body, e, rfl, k1, k2, slot, k4, hslot slot k5⟩

/-- The Python function returns `(4, None)`. -/
example : ∃ text body e, pyBody ⟨⟨.numpy, true⟩, 2, false⟩ ["f", "J"] flowStms = some text ∧ LinesReadAs 2 text body ∧
    runSts intMachine ⟨.python false, "np"⟩ 0 body (startState (.python false) flowArgs flowInput fun _ => false) = some e ∧
    ReturnedAs (.python false) flowArgs "f" e (· = .num 4) ∧ ReturnedAs (.python false) flowArgs "J" e (· = .none) := by
  obtain ⟨s, entry, ss, h1, h2, h3⟩ := flow_statements
  obtain ⟨body, e, k1, k2, k3⟩ := C58_python_partial (M := intMachine) (I := intInterp) (o := ⟨⟨.numpy, true⟩, 2, false⟩) flowGraph_ok.1 flowGraph_ok.2.1
    flowGraph_ok.2.2 flowInfo_typed.1 flowInfo_typed.2 h1 h2 h3 (by decide) (by decide) rfl (by simp [pyMeant, flowStms, splitReturn, stmsPythonSt, Stm.pythonSt]) (flow_fine _)
    (fun v hv => by simp [flowStms, splitReturn] at hv) flow_shaped flow_types
    (fun _ a ha hd => by
      simp only [flowArgs, List.mem_cons, List.not_mem_nil, or_false] at ha
      rcases ha with rfl | rfl | rfl | rfl
      · exact absurd rfl hd
      · exact absurd rfl hd
      · exact ⟨0, ⟨by decide, 7, by decide, rfl⟩, rfl⟩
      · exact ⟨1, ⟨by decide, 9, by decide, rfl⟩, rfl⟩)
    intMachine.interp_computes intMachine_lawful (fun _ h => by cases h) (flow_named _ (fun _ => rfl) (fun _ => rfl)) (flow_plain _)
  obtain ⟨before, cs, i, c, k4, k5, k6, k7, k8⟩ := k3 0 4 ⟨7, by decide, rfl, by decide⟩
  refine ⟨_, body, e, rfl, k1, k2, ⟨before, cs, i, c, k4, k5, k6, k7, ?_⟩, k3 1 9 ⟨9, by decide, rfl, by decide⟩ rfl⟩
  cases c with
  | num y => cases k8; rfl
  | mat _ _ _ => obtain ⟨t, h, _⟩ := k8; cases h
  | _ => exact absurd k8 id

end Wf.Gen.Text
