import Mathlib.Tactic.ByContra
import Verif.Gen.NameKeys
import Verif.Gen.StmtTextProps

/-!
# C57: names of variables, arguments and outputs

The specification is in `NameSpec.lean`: how names are found in C++, Rust and Python.
-/

namespace Wf.Gen.Text

open Conv

variable {g : Graph} {info : AstInfo}

/-- C57: different values have variables with different names. -/
theorem C57_temporaries_distinct (width u v : Nat) (h : tempName width u = tempName width v) : u = v := tempName_injective h

example : tempName 2 7 = "v07" ∧ tempName 2 123 = "v123" ∧ printWidth 9 = 2 ∧ printWidth 10 = 3 := by decide

/-- C57: names of variables are the letter `v` with digits, so that other names of arguments cannot be taken for them. -/
theorem C57_temporaries_shape (width v : Nat) : LikeTemporary (tempName width v) := tempName_like width v

theorem addArguments_eq : ∀ (as done : List Argument), (done.map (·.name)).Nodup →
    addArguments done as = if ((done ++ as).map (·.name)).Nodup then .ok (done ++ as) else .error .invalidArgument
  | [], done, h => by rw [addArguments, List.append_nil, if_pos h]
  | a :: as, done, h => by
    unfold addArguments addArgument
    by_cases ha : a.name ∈ done.map (·.name)
    · have hany : done.any (fun b => b.name == a.name) = true := by
        obtain ⟨b, hb, he⟩ := List.mem_map.1 ha
        exact List.any_eq_true.2 ⟨b, hb, by simp [he]⟩
      rw [if_pos hany, if_neg]
      intro hn
      rw [List.map_append, List.map_cons] at hn
      exact (List.nodup_append.1 hn).2.2 _ ha _ List.mem_cons_self rfl
    · have hany : ¬ done.any (fun b => b.name == a.name) = true := by
        intro hc
        obtain ⟨b, hb, he⟩ := List.any_eq_true.1 hc
        exact ha (List.mem_map.2 ⟨b, hb, by simpa using he⟩)
      rw [if_neg hany]
      have := addArguments_eq as (done ++ [a]) (by
        rw [List.map_append, List.nodup_append]
        exact ⟨h, by simp, fun x hx y hy => by
          simp only [List.map_cons, List.map_nil, List.mem_singleton] at hy
          rintro rfl
          exact ha (hy ▸ hx)⟩)
      simpa [List.append_assoc] using this

/-- C57: the arguments of a function are accepted exactly when their names are different. -/
theorem C57_argument_names (args : List Argument) : addArguments [] args = if (args.map (·.name)).Nodup then .ok args else .error .invalidArgument :=
  addArguments_eq args [] List.nodup_nil

example : addArguments [] [⟨"x", .scalar .floating, .input⟩, ⟨"x", .scalar .floating, .output⟩] = .error .invalidArgument ∧
    addArguments [] [⟨"x", .scalar .floating, .input⟩, ⟨"y", .scalar .floating, .output⟩] =
      .ok [⟨"x", .scalar .floating, .input⟩, ⟨"y", .scalar .floating, .output⟩] := by decide

/-- C57: if the arguments are accepted, and none has a name like `v12`, `_x` or `compute_x`, then no two of the names of the generated function are the same. -/
theorem C57_plain_names_partial {args l : List Argument} (h : addArguments [] args = .ok l) (hv : ∀ a ∈ args, ¬ LikeTemporary a.name)
    (hu : ∀ a ∈ args, ∀ b ∈ args, a.name ≠ "_" ++ b.name ∧ a.name ≠ "compute_" ++ b.name) (T : Scoping) (width : Nat) :
    (givenNames T args).Nodup ∧ ∀ v, tempName width v ∉ givenNames T args := by
  have hn : (args.map (·.name)).Nodup := by
    rw [C57_argument_names] at h
    by_contra hc
    rw [if_neg hc] at h
    cases h
  have hpre : ∀ (s : String) (p : Argument → Bool), (args.map (·.name) ++ (args.filter p).map fun a => s ++ a.name).Nodup ↔
      ∀ a ∈ args, ∀ b ∈ args, p b = true → a.name ≠ s ++ b.name := by
    intro s p
    rw [List.nodup_append]
    constructor
    · rintro ⟨_, _, h3⟩ a ha b hb hp
      exact h3 _ (List.mem_map_of_mem ha) _ (List.mem_map_of_mem (List.mem_filter.2 ⟨hb, hp⟩))
    · intro h
      refine ⟨hn, ?_, ?_⟩
      · have h2 : ((args.filter p).map (·.name)).Nodup := hn.sublist (List.Sublist.map _ List.filter_sublist)
        rw [List.Nodup, List.pairwise_map] at h2 ⊢
        refine h2.imp fun hne he => hne ?_
        have := congrArg String.toList he
        simp only [String.toList_append, List.append_cancel_left_eq] at this
        exact String.toList_inj.1 this
      · intro x hx y hy
        obtain ⟨a, ha, rfl⟩ := List.mem_map.1 hx
        obtain ⟨b, hb, rfl⟩ := List.mem_map.1 hy
        exact h a ha b (List.mem_filter.1 hb).1 (List.mem_filter.1 hb).2
  have htmp : ∀ v, tempName width v ∉ args.map (·.name) := by
    intro v hm
    obtain ⟨a, ha, he⟩ := List.mem_map.1 hm
    exact hv a ha (he ▸ tempName_like width v)
  have hhead : ∀ v (s : String) (c : Char) (cs : List Char), s.toList = c :: cs → c ≠ 'v' → ∀ p : Argument → Bool,
      tempName width v ∉ (args.filter p).map fun a => s ++ a.name := by
    intro v s c cs hs hc p hm
    obtain ⟨a, ha, he⟩ := List.mem_map.1 hm
    obtain ⟨ds, _, _, hl⟩ := tempName_like width v
    rw [hl] at he
    have := congrArg String.toList he
    rw [String.toList_append, hs] at this
    simp at this
    exact hc this.1
  rcases T with (_ | _) | _ | (_ | _)
  · exact ⟨hn, htmp⟩
  · exact ⟨(hpre "_" _).2 fun a ha b hb _ => (hu a ha b hb).1, fun v hm =>
      (List.mem_append.1 hm).elim (htmp v) (hhead v "_" '_' [] (by decide) (by decide) _)⟩
  · exact ⟨hn, htmp⟩
  · exact ⟨(hpre "compute_" _).2 fun a ha b hb _ => (hu a ha b hb).2, fun v hm =>
      (List.mem_append.1 hm).elim (htmp v) (hhead v "compute_" 'c' "ompute_".toList (by decide) (by decide) _)⟩
  · exact ⟨hn, htmp⟩

/-- An output is written as the argument it belongs to requires: through a pointer if the argument is optional, element by element if it is a matrix. -/
def AsDeclared (N : Naming) : Stm → Prop
  | .output n opt _ => ∃ key p, N.output key = ⟨n, .scalar p, if opt then .optional else (N.output key).direction⟩ ∧ (opt = false → (N.output key).direction ≠ .optional)
  | .outputMatrix n opt _ _ _ =>
    ∃ key r c, N.output key = ⟨n, .matrix r c, if opt then .optional else (N.output key).direction⟩ ∧ (opt = false → (N.output key).direction ≠ .optional)
  | .optional n t _ => ∃ key, (N.output key).name = n ∧ (N.output key).type = t
  | _ => True

theorem Within.split {s x : Stm} {xs : List Stm} (h : Within s (x :: xs)) : Within s [x] ∨ Within s xs := by
  cases h with
  | here h =>
    rcases List.mem_cons.1 h with rfl | h
    · exact .inl (.here List.mem_cons_self)
    · exact .inr (.here h)
  | left h h' =>
    rcases List.mem_cons.1 h with rfl | h
    · exact .inl (.left List.mem_cons_self h')
    · exact .inr (.left h h')
  | right h h' =>
    rcases List.mem_cons.1 h with rfl | h
    · exact .inl (.right List.mem_cons_self h')
    · exact .inr (.right h h')
  | optional h h' =>
    rcases List.mem_cons.1 h with rfl | h
    · exact .inl (.optional List.mem_cons_self h')
    · exact .inr (.optional h h')

theorem Within.one {s x : Stm} (h : Within s [x]) : s = x ∨ (∃ c t e, x = .branch c t e ∧ (Within s t ∨ Within s e)) ∨ ∃ n T b, x = .optional n T b ∧ Within s b := by
  generalize hl : [x] = l at h
  cases h with
  | here h => subst hl; exact .inl (List.mem_singleton.1 h)
  | left h h' => subst hl; exact .inr (.inl ⟨_, _, _, (List.mem_singleton.1 h).symm, .inl h'⟩)
  | right h h' => subst hl; exact .inr (.inl ⟨_, _, _, (List.mem_singleton.1 h).symm, .inr h'⟩)
  | optional h h' => subst hl; exact .inr (.inr ⟨_, _, _, (List.mem_singleton.1 h).symm, h'⟩)

theorem outputStm_declared {N : Naming} {key : Nat} {e : AExpr} {x : Stm} (h : outputStm N key e = some x) :
    AsDeclared N x ∧ (∀ c t e, x ≠ .branch c t e) ∧ ∀ n T b, x ≠ .optional n T b := by
  generalize ha : N.output key = a at *
  obtain ⟨n, t, d⟩ := a
  unfold outputStm at h
  simp only [ha] at h
  cases t with
  | scalar p =>
    obtain ⟨y, _, rfl⟩ := Option.map_eq_some_iff.1 h
    refine ⟨⟨key, p, ?_, ?_⟩, by simp, by simp⟩ <;> rw [ha] <;> cases d <;> simp
  | matrix r c =>
    simp only at h
    cases hm : asMatrix N e with
    | none => simp [hm] at h
    | some q =>
      simp only [hm] at h
      obtain ⟨y, _, rfl⟩ := Option.map_eq_some_iff.1 h
      refine ⟨⟨key, r, c, ?_, ?_⟩, by simp, by simp⟩ <;> rw [ha] <;> cases d <;> simp
  | custom s => cases h

mutual
theorem stmtStm_declared {N : Naming} : ∀ (st : Stmt) {x : Stm}, stmtStm N st = some x → ∀ s, Within s [x] → AsDeclared N s
  | .decl v e, x, h, s, hw => by
    obtain ⟨y, _, rfl⟩ := Option.map_eq_some_iff.1 h
    rcases hw.one with rfl | ⟨_, _, _, hc, _⟩ | ⟨_, _, _, hc, _⟩
    · trivial
    · cases hc
    · cases hc
  | .declare v, x, h, s, hw => by
    cases h
    rcases hw.one with rfl | ⟨_, _, _, hc, _⟩ | ⟨_, _, _, hc, _⟩
    · trivial
    · cases hc
    · cases hc
  | .assign v e, x, h, s, hw => by
    obtain ⟨y, _, rfl⟩ := Option.map_eq_some_iff.1 h
    rcases hw.one with rfl | ⟨_, _, _, hc, _⟩ | ⟨_, _, _, hc, _⟩
    · trivial
    · cases hc
    · cases hc
  | .ret k e, x, h, s, hw => by
    obtain ⟨y, _, rfl⟩ := Option.map_eq_some_iff.1 h
    rcases hw.one with rfl | ⟨_, _, _, hc, _⟩ | ⟨_, _, _, hc, _⟩
    · trivial
    · cases hc
    · cases hc
  | .output key e, x, h, s, hw => by
    obtain ⟨h1, h2, h3⟩ := outputStm_declared h
    rcases hw.one with rfl | ⟨c, t, e, hc, _⟩ | ⟨n, T, b, hc, _⟩
    · exact h1
    · exact absurd hc (h2 _ _ _)
    · exact absurd hc (h3 _ _ _)
  | .branch c t e, x, h, s, hw => by
    unfold stmtStm at h
    cases h1 : exprTree N c with
    | none => simp [h1] at h
    | some c' =>
    cases h2 : stmtStms N t with
    | none => simp [h1, h2] at h
    | some t' =>
    cases h3 : stmtStms N e with
    | none => simp [h1, h2, h3] at h
    | some e' =>
    simp only [h1, h2, h3, Option.some.injEq] at h
    subst h
    rcases hw.one with rfl | ⟨_, _, _, hc, hw'⟩ | ⟨_, _, _, hc, _⟩
    · trivial
    · cases hc
      rcases hw' with hw' | hw'
      · exact stmtStms_declared t h2 s hw'
      · exact stmtStms_declared e h3 s hw'
    · cases hc
  | .optional key t, x, h, s, hw => by
    obtain ⟨y, hy, rfl⟩ := Option.map_eq_some_iff.1 h
    rcases hw.one with rfl | ⟨_, _, _, hc, _⟩ | ⟨_, _, _, hc, hw'⟩
    · exact ⟨key, rfl, rfl⟩
    · cases hc
    · cases hc
      exact stmtStms_declared t hy s hw'

theorem stmtStms_declared {N : Naming} : ∀ (ss : List Stmt) {xs : List Stm}, stmtStms N ss = some xs → ∀ s, Within s xs → AsDeclared N s
  | [], xs, h, s, hw => by
    cases h
    cases hw with
    | here h | left h | right h | optional h => cases h
  | st :: ss, xs, h, s, hw => by
    unfold stmtStms at h
    cases h1 : stmtStm N st with
    | none => simp [h1] at h
    | some x =>
    cases h2 : stmtStms N ss with
    | none => simp [h1, h2] at h
    | some ys =>
    simp only [h1, h2, Option.some.injEq] at h
    subst h
    rcases hw.split with hw' | hw'
    · exact stmtStm_declared st h1 s hw'
    · exact stmtStms_declared ss h2 s hw'
end

/-- C57: outputs are written in the way that their arguments require, and optional outputs are guarded by the test for their argument. -/
theorem C57_outputs_as_declared {N : Naming} {ss : List Stmt} {xs : List Stm} (h : stmtStms N ss = some xs) {s : Stm} (hs : Within s xs) : AsDeclared N s :=
  stmtStms_declared ss h s hs

/-- C57, for functions in which the names of arguments, views and switches are different from each other and from the names of variables: the statements run
in each of the languages, and the caller gets every output with the value that the program gives it; optional outputs that are not wanted are nothing. -/
theorem C57_outputs_partial (hw : WF g) (ho : InOrder g) (hc : Convertible g) (ht : Typed info g) (hown : OwnStructs info g) {ternaries : Bool} {s : Conv} {entry : Nat}
    {ss : List Stmt} (h : convert g info.usage ternaries = .ok (s, entry)) (ha : createAst info s entry = .ok ss) {N : Naming} {xs : List Stm} (hx : stmtStms N ss = some xs)
    {V : Type} [Arith V] {I : Interp V} {truth : V → Bool} (hsel : Selects I truth) (hget : ∀ i, info.scalarGet i = true → ∀ x, I.f (.get i) [x] = x)
    {T : Scoping} {con : Tree → Option V} {args : List Argument} {input : String → Cell V} {wanted : String → Bool}
    (hn : Named T N I con truth args input wanted info.usage (Written g info.usage)) :
    ∃ e, execAll T I con truth 0 xs ⟨startVars T args input wanted, none⟩ = some e ∧ ∀ key x, Writes I g key x → Delivered T N I info.usage wanted key x e := by
  obtain ⟨m, h1, h2, h3, h4⟩ := ast_result hw ho hc ht hown h ha hsel hget
  have hwants : Wants I truth info.usage m := ⟨h2, fun key hm hu => by
    obtain ⟨⟨k, x⟩, hx, rfl⟩ := List.mem_map.1 hm
    exact ((h3 _ _).1 hx).2 hu⟩
  obtain ⟨e, e1, e2, e3, e4⟩ := hn.whole hx (createAst_keyed hw ho hc ht hown h ha) h1 hwants h4
  refine ⟨e, e1, fun key x hxw => ?_⟩
  have hkey : info.usage key ≠ .returnValue → Written g info.usage key := fun hne => by
    obtain ⟨v, hv, hop, _⟩ := hxw
    exact ⟨hne, v, hv, hop⟩
  unfold Delivered
  cases hu : info.usage key with
  | returnValue => exact e4 key x hu ((h3 key x).2 ⟨hxw, fun hh => by rw [hu] at hh; cases hh⟩)
  | output => exact e2 key x (hkey (by rw [hu]; simp)) ((h3 key x).2 ⟨hxw, fun hh => by rw [hu] at hh; cases hh⟩)
  | optional =>
    have hk := hkey (by rw [hu]; simp)
    simp only
    by_cases hwd : wanted (N.output key).name = true
    · rw [if_pos hwd]
      exact e2 key x hk ((h3 key x).2 ⟨hxw, fun _ => by rw [← hn.optional key hk hu]; exact hwd⟩)
    · rw [if_neg hwd]
      exact e3 key hk hu (by simpa using hwd)

/-! ## Example -/

/-- Numbers; the loads are given, and the functions multiply by their number. -/
def loadInterp (a : Nat → Int) : Interp Int where
  f := fun op l => match op, l with
    | .add, l => l.sum
    | .mul, l => l.prod
    | .neg, [x] => -x
    | .copy, [x] => x
    | .load (.int n), _ => n
    | .load (.other k), _ => a k
    | .cast _, [x] => x
    | .get _, [x] => x
    | .callStd n, [x] => n * x
    | .compare _, [x, y] => if x < y then 1 else 0
    | .cond, [c, a, b] => if c = 1 then a else b
    | _, _ => 0
  add := fun _ => rfl
  mul := fun _ => rfl
  neg := fun _ => rfl
  copy := fun _ => rfl
  int := fun n => by simp
  cast := fun _ n => by simp

theorem loadInterp_selects (a : Nat → Int) : Selects (loadInterp a) (fun x => decide (x = 1)) := by intro c a b; simp [loadInterp]

/-- The function with the arguments `x`, `y`, the output `f` and the optional output `J`. -/
def flowArgs : List Argument := [⟨"x", .scalar .floating, .input⟩, ⟨"y", .scalar .floating, .input⟩, ⟨"f", .scalar .floating, .output⟩, ⟨"J", .scalar .floating, .optional⟩]

def flowNaming : Naming where
  width := printWidth 9
  leaf := fun k => if k = 5 then some (.arg "x" .scalar) else if k = 3 then some (.arg "y" .scalar) else none
  type := fun _ => .scalar .floating
  shape := fun _ => none
  output := fun k => if k = 1 then ⟨"J", .scalar .floating, .optional⟩ else ⟨"f", .scalar .floating, .output⟩

/-- `x` is 2, `y` is 3. -/
def flowInput (n : String) : Cell Int := .num (if n = "x" then 2 else 3)

def flowLoads (k : Nat) : Int := if k = 5 then 2 else 3

theorem flow_saves {key : Nat} (h : Written flowGraph flowUsage key) : key = 0 ∨ key = 1 := by
  obtain ⟨_, v, hv, hk⟩ := h
  simp only [flowGraph, List.mem_cons, List.not_mem_nil, or_false] at hv
  rcases hv with rfl | rfl | rfl | rfl | rfl | rfl | rfl | rfl | rfl | rfl <;> simp [flowGraph] at hk <;> simp [← hk]

theorem flow_named (T : Scoping) {I : Interp Int} {con : Tree → Option Int} {truth : Int → Bool} (hI : ∀ k, I.f (.load (.other k)) [] = flowLoads k)
    (hw : ∀ k, truth (I.f (.outputRequired k) []) = false) : Named T flowNaming I con truth flowArgs flowInput (fun _ => false) flowUsage (Written flowGraph flowUsage) where
  distinct := by rcases T with (_ | _) | _ | (_ | _) <;> decide
  noClash := fun v h => by
    have hl := tempName_like flowNaming.width v
    generalize tempName flowNaming.width v = n at h hl
    obtain ⟨ds, h1, _, rfl⟩ := hl
    cases ds with
    | nil => exact h1 rfl
    | cons d ds =>
      have hh : String.ofList ('v' :: d :: ds) ∈ ["x", "y", "f", "J", "compute_J"] := by
        rcases T with (_ | _) | _ | (_ | _) <;> simp [givenNames, flowArgs, VarType.isMatrix] at h ⊢ <;> tauto
      have hne : ∀ s ∈ ["x", "y", "f", "J", "compute_J"], s.toList.head? ≠ some 'v' := by decide
      exact hne _ hh (by simp)
  leaf := by
    intro k t h
    simp only [flowNaming] at h
    split at h
    · cases h
      rename_i hk
      subst hk
      rw [hI]
      rcases T with (_ | _) | _ | (_ | _) <;> rfl
    · split at h
      · cases h
        rename_i hk
        subst hk
        rw [hI]
        rcases T with (_ | _) | _ | (_ | _) <;> rfl
      · cases h
  arg := by
    intro key hk
    rcases flow_saves hk with rfl | rfl <;> decide
  retKey := fun key h hk => hk.1 h
  own := by
    intro key key' hk hk'
    rcases flow_saves hk with rfl | rfl <;> rcases flow_saves hk' with rfl | rfl <;> decide
  optional := fun key _ _ => (hw key).symm

example (T : Scoping) (width : Nat) : (givenNames T flowArgs).Nodup ∧ ∀ v, tempName width v ∉ givenNames T flowArgs := by
  refine C57_plain_names_partial (args := flowArgs) rfl (fun a ha hl => ?_) (by decide) T width
  obtain ⟨ds, _, _, hd⟩ := hl
  have hne : ∀ a ∈ flowArgs, a.name.toList.head? ≠ some 'v' := by decide
  exact hne a ha (by simp [hd])

example : AsDeclared flowNaming (.output "J" true (.expr (.var "v1"))) := ⟨1, .floating, rfl, by simp⟩

/-- In every language `f` gets the value `1 * (2 + 2)`, as `2 < 3`, and `J`, which is not wanted, stays nothing. -/
example (T : Scoping) : ∃ s entry ss xs e, convert flowGraph flowInfo.usage true = .ok (s, entry) ∧ createAst flowInfo s entry = .ok ss ∧ stmtStms flowNaming ss = some xs ∧
    execAll T (loadInterp flowLoads) (fun _ => none) (fun x => decide (x = 1)) 0 xs ⟨startVars T flowArgs flowInput fun _ => false, none⟩ = some e ∧
    (∃ c, find "f" e.vars = some c ∧ Holds flowNaming (loadInterp flowLoads) 4 c) ∧ find "J" e.vars = some .none := by
  have hb : (convert flowGraph flowInfo.usage true).bind (fun p => createAst flowInfo p.1 p.2) = .ok [
    .decl 1 (.app (.load (.other 3)) []),
    .optional 1 [.output 1 (.app .mul [.ref 1, .ref 1])],
    .decl 0 (.app (.load (.other 5)) []),
    .declare 6,
    .branch (.app (.compare 0) [.ref 0, .ref 1]) [.assign 6 (.app (.callStd 1) [.app .add [.ref 0, .ref 0]])] [.assign 6 (.app (.callStd 2) [.ref 1])],
    .output 0 (.ref 6)] := by rfl
  obtain ⟨s, entry, ss, h1, h2, _⟩ := C54_outputs_partial (info := flowInfo) flowGraph_ok.1 flowGraph_ok.2.1 flowGraph_ok.2.2 flowInfo_typed.1 flowInfo_typed.2 true
  rw [h1] at hb
  change createAst flowInfo s entry = _ at hb
  obtain ⟨xs, hx⟩ : ∃ xs, stmtStms flowNaming ss = some xs := by
    rw [h2] at hb
    cases hb
    exact ⟨_, rfl⟩
  obtain ⟨e, e1, e2⟩ := C57_outputs_partial (info := flowInfo) flowGraph_ok.1 flowGraph_ok.2.1 flowGraph_ok.2.2 flowInfo_typed.1 flowInfo_typed.2 h1 h2 hx
    (loadInterp_selects flowLoads) (fun _ _ _ => rfl) (flow_named T (fun _ => rfl) (fun _ => rfl))
  have hf := e2 0 4 ⟨7, by decide, rfl, by decide⟩
  have hJ := e2 1 9 ⟨9, by decide, rfl, by decide⟩
  have ho : ∀ k, outVar T (flowNaming.output k) = (flowNaming.output k).name := fun k => by
    unfold outVar
    rw [show (flowNaming.output k).type.isMatrix = false by simp only [flowNaming]; split <;> rfl, argVar_false]
  simp only [Delivered, ho] at hf hJ
  exact ⟨s, entry, ss, xs, e, h1, h2, hx, e1, hf, hJ⟩

/-! ## Names that clash -/

/-- `a - b`. -/
def clashGraph : Graph where
  node := fun i => match i with
    | 0 => ⟨.load (.other 0), []⟩
    | 1 => ⟨.load (.other 1), []⟩
    | 2 => ⟨.neg, [1]⟩
    | 3 => ⟨.add, [0, 2]⟩
    | 4 => ⟨.save 0, [3]⟩
    | _ => ⟨.copy, []⟩
  ops := [0, 1, 2, 3, 4]
  next := 5

def clashInfo : AstInfo where
  constant := fun _ => false
  argument := fun _ => true
  matrix := fun _ => false
  scalarGet := fun _ => false
  usage := fun _ => .returnValue
  kind := fun _ => .scalar

theorem clashGraph_ok : WF clashGraph ∧ InOrder clashGraph ∧ Convertible clashGraph ∧ Typed clashInfo clashGraph ∧ OwnStructs clashInfo clashGraph := by
  have key : ∀ v ∈ clashGraph.ops, NodeWF (clashGraph.node v) := by
    intro v hv
    simp only [clashGraph, List.mem_cons, List.not_mem_nil, or_false] at hv
    rcases hv with rfl | rfl | rfl | rfl | rfl <;>
      exact ⟨by intro h; revert h; decide, by intro h; revert h; decide, by simp [clashGraph], by intro l hl; revert hl; simp [clashGraph]⟩
  have hw : WF clashGraph := WF.of (by decide) (by decide) (by decide) key
  have hcases : ∀ v ∈ clashGraph.ops, ∀ key, (clashGraph.node v).op = .save key → v = 4 := by
    intro v hv key hk
    simp only [clashGraph, List.mem_cons, List.not_mem_nil, or_false] at hv
    rcases hv with rfl | rfl | rfl | rfl | rfl <;> simp [clashGraph] at hk <;> rfl
  refine ⟨hw, ?_, ?_, ?_, fun v _ key _ _ hk => nomatch hk⟩
  · have hr : Ranked clashGraph (fun v => (v : ℚ)) := by
      intro v hv a ha
      have : a < v := by revert v; intro v hv; revert a; revert v; decide
      show (a : ℚ) < (v : ℚ)
      exact_mod_cast this
    refine inOrder_of_pairwise hw.closed hr ?_
    have : clashGraph.ops.Pairwise (· < ·) := by decide
    exact this.imp fun h => by exact_mod_cast h
  · refine ⟨?_, ?_, by decide, ?_⟩
    · intro v hv
      have h2 : v = 4 ∨ ∃ u ∈ clashGraph.ops, v ∈ (clashGraph.node u).args := by revert v; decide
      rcases h2 with rfl | h2
      · exact .inl ⟨0, rfl⟩
      · exact .inr h2
    · intro v hv a ha k
      have h2 : saveKey (clashGraph.node a).op = none := by revert a; revert v; decide
      intro hk
      rw [hk] at h2
      cases h2
    · intro v hv
      simp only [clashGraph, List.mem_cons, List.not_mem_nil, or_false] at hv
      rcases hv with rfl | rfl | rfl | rfl | rfl <;> simp [clashGraph]
  · refine ⟨(fun v _ i _ hs => nomatch hs), (fun v _ key _ _ hk => nomatch hk), ?_, ?_⟩
    · intro v hv w hw key h1 h2
      rw [hcases v hv key h1, hcases w hw key h2]
    · intro v hv w hw key key' h1 h2 _ _
      rw [hcases v hv key h1, hcases w hw key' h2]

/-- The arguments of a function that gives `v01 - v00`. -/
def clashArgs : List Argument := [⟨"v01", .scalar .floating, .input⟩, ⟨"v00", .scalar .floating, .input⟩]

def clashNaming : Naming where
  width := printWidth 4
  leaf := fun k => if k = 0 then some (.arg "v01" .scalar) else if k = 1 then some (.arg "v00" .scalar) else none
  type := fun _ => .scalar .floating
  shape := fun _ => none
  output := fun _ => ⟨"", .scalar .floating, .output⟩

/-- The statements are `v01 = v00; v00 = v01; return v00 + -v01`. -/
def clashStms : List Stm :=
  [.declare "v01" (.scalar .floating) (some (.expr (.arg "v00" .scalar))), .declare "v00" (.scalar .floating) (some (.expr (.arg "v01" .scalar))),
   .ret (.expr (.add [.var "v00", .neg (.var "v01")]))]

/-- C57 does not hold for all functions: arguments may have the names of variables. For the function `v01 - v00` the code in Rust and Python gives zero for
all arguments, and the code in C++ is not valid. -/
theorem C57_clash : ∃ ss, addArguments [] clashArgs = .ok clashArgs ∧ (convert clashGraph clashInfo.usage true).bind (fun p => createAst clashInfo p.1 p.2) = .ok ss ∧
    stmtStms clashNaming ss = some clashStms ∧ ∀ a b : Int, Writes (loadInterp fun k => if k = 0 then a else b) clashGraph 0 (a - b) ∧
      ∀ T, execAll T (loadInterp fun k => if k = 0 then a else b) (fun _ => none) (fun x => decide (x = 1)) 0 clashStms
          ⟨startVars T clashArgs (fun n => .num (if n = "v01" then a else b)) fun _ => true, none⟩ =
        match T with
        | .cpp _ => none
        | .rust => some ⟨[("v00", .num b), ("v01", .num b), ("v01", .num a), ("v00", .num b)], some (.num 0)⟩
        | .python _ => some ⟨[("v01", .num b), ("v00", .num b)], some (.num 0)⟩ := by
  refine ⟨[.decl 1 (.app (.load (.other 1)) []), .decl 0 (.app (.load (.other 0)) []), .ret 0 (.app .add [.ref 0, .app .neg [.ref 1]])], rfl, rfl, rfl, fun a b => ⟨⟨4, by decide, rfl, ?_⟩, fun T => ?_⟩⟩
  · simp [clashGraph, run, runFrom, loadInterp]
    ring
  · rcases T with (_ | _) | _ | (_ | _) <;>
      simp [clashStms, execAll, Stm.exec, newVar, setVar, startVars, clashArgs, argCell, find, put, Value.cell, Tree.value, values, Cell.number, Scoping.argVar, loadInterp]

/-- Names of views and switches can be names of arguments. -/
theorem C57_views_clash : ∃ args, addArguments [] args = .ok args ∧ (∀ v w, tempName w v ∉ givenNames (.cpp true) args) ∧ ¬ (givenNames (.cpp true) args).Nodup := by
  refine ⟨[⟨"m", .matrix 2 2, .input⟩, ⟨"_m", .scalar .floating, .input⟩], rfl, fun v w h => ?_, by decide⟩
  obtain ⟨ds, _, _, hl⟩ := tempName_like w v
  rw [hl] at h
  have hne : ∀ s ∈ ["m", "_m", "_m"], s.toList.head? ≠ some 'v' := by decide
  exact hne _ h (by simp)

theorem C57_switches_clash : ∃ args, addArguments [] args = .ok args ∧ (∀ v w, tempName w v ∉ givenNames (.python false) args) ∧ ¬ (givenNames (.python false) args).Nodup := by
  refine ⟨[⟨"compute_J", .scalar .floating, .input⟩, ⟨"J", .scalar .floating, .optional⟩], rfl, fun v w h => ?_, by decide⟩
  obtain ⟨ds, _, _, hl⟩ := tempName_like w v
  rw [hl] at h
  have hne : ∀ s ∈ ["compute_J", "J", "compute_J"], s.toList.head? ≠ some 'v' := by decide
  exact hne _ h (by simp)

end Wf.Gen.Text
