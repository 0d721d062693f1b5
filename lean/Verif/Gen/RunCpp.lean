import Verif.Gen.RunStep

/-!
# Lemmas for C58: the C++ text does what the statements do
-/

namespace Wf.Gen.Text

variable {K : Type} [CommRing K] {M : Machine K} {I : Interp K} {S : Setting} {args : List Argument} {input : String → Cell K} {wanted : String → Bool}
  {tmp : String → Prop} {o : PyOptions} {span : Bool}

section
variable {G : List String} {W : Track K} {m : Mem K} {s : State K}

theorem newVar_cpp (hS : S.T = .cpp span) (h : Rel' S.T args input wanted G W m s) {outer : Nat} {n : String} {c : Cell K} {vars : Vars K}
    (hv : newVar S.T outer n c m.vars = some vars) (d : Obj K) : vars = (n, c) :: m.vars ∧ newVar S.T outer n d s.vars = some ((n, d) :: s.vars) := by
  obtain ⟨h1, h2⟩ := h.lengths (by rw [hS]; simp)
  rw [hS] at hv ⊢
  simp only [newVar] at hv ⊢
  have e : (s.vars.take (s.vars.length - outer)).map (·.1) = (m.vars.take (m.vars.length - outer)).map (·.1) := by
    rw [List.map_take, List.map_take, h2]
    exact congrArg _ h1
  rw [e]
  split at hv
  · cases hv
  · rename_i hn
    cases hv
    exact ⟨rfl, if_neg hn⟩

/-- The object of an output in C++. -/
theorem Rel'.cpp_object (hn : NamesOk M S args tmp) (hS : S.T = .cpp span) (h : Rel' S.T args input wanted G W m s) {n : String} {t : VarType} {opt : Bool}
    (ha : (⟨n, t, if opt then .optional else .output⟩ : Argument) ∈ args) (hg : opt = true → n ∈ G) :
    (⟨n, t, if opt then .optional else .output⟩ : Argument).present wanted = true ∧
      find (S.T.argVar n t.isMatrix) s.vars = some (if opt then (if span && t.isMatrix then .alias n else .ptr n) else .alias n) := by
  have hT : S.T ≠ .python false := by rw [hS]; simp
  have hp : (⟨n, t, if opt then .optional else .output⟩ : Argument).present wanted = true := by
    cases opt with
    | false => rfl
    | true => exact h.given hT n (hg rfl) _ ha rfl
  refine ⟨hp, ?_⟩
  have h1 := handle_out (input := input) hn.distinct ha hp hT
  rcases h.find_handle h1 hT with h2 | h2
  · refine h2.trans (congrArg some ?_)
    rw [hS]
    cases opt <;> cases span <;> cases t <;> rfl
  · rw [hS] at h2; exact absurd h2.1 (by simp)

end

section
variable (hc : M.Computes I) (hM : M.Lawful) (hn : NamesOk M S args tmp) (hS : S.T = .cpp span)
include hc hM hn hS

mutual
theorem cpp_run : ∀ (x : Stm) {G : List String} {W : Track K} {m m' : Mem K} {s : State K} (outer : Nat), x.Fine .cpp →
    x.Ok S.T args tmp (Readable S.T args input wanted tmp) G → Rel' S.T args input wanted G W m s → x.exec S.T I (M.con S o) M.truth outer m = some m' →
    ∃ W' s', runSts M S outer (x.cppSt span) s = some s' ∧ Rel' S.T args input wanted G W' m' s' ∧ Grown S.T args W W'
  | .comment _, G, W, m, m', s, outer, hf, ho, h, e => by
    unfold Stm.exec at e
    cases e
    exact ⟨W, s, rfl, h, .refl _⟩
  | .declare n t none, G, W, m, m', s, outer, hf, ho, h, e => by
    unfold Stm.exec at e
    rw [Option.map_eq_some_iff] at e
    obtain ⟨vars, h1, rfl⟩ := e
    have hu : (match S.T with | .python _ => Cell.none | _ => (Cell.unset : Cell K)) = .unset := by rw [hS]
    have h1 : newVar S.T outer n .unset m.vars = some vars := by
      rw [← h1]
      congr 1
      rw [hS]; rfl
    obtain ⟨rfl, h2⟩ := newVar_cpp hS h h1 (.val .unset)
    have hb := hn.handle_tmp (input := input) (wanted := wanted) ho
    refine ⟨_, _, ?_, h.push (c := .unset) hb (.inl (hn.apart n ho)) (hn.plain n (.inr ho)).2.2, .cons fun _ => .inl (hn.apart n ho)⟩
    rw [Stm.cppSt, run_one h.result.2]
    unfold St.run
    rw [hS] at h2 ⊢
    simp only [h2, Option.map_some]
  | .declare n t (some (.expr v)), G, W, m, m', s, outer, hf, ho, h, e => by
    have e' : (match newVar S.T outer n .unset m.vars with
        | some vars => ((Value.expr v).cell S.T I (M.con S o) vars).map fun c => { m with vars := put n c vars }
        | .none => .none) = some m' := by
      rw [← e]
      unfold Stm.exec
      rw [hS]
      rfl
    cases h1 : newVar S.T outer n .unset m.vars with
    | none => simp [h1] at e'
    | some vars =>
    rw [h1] at e'
    simp only [Value.cell] at e'
    rw [Option.map_map, Option.map_eq_some_iff] at e'
    obtain ⟨x, hx, rfl⟩ := e'
    obtain ⟨rfl, h2⟩ := newVar_cpp hS h h1 (.val .unset)
    have hb := hn.handle_tmp (input := input) (wanted := wanted) ho.1
    have hr := h.push (c := .unset) hb (.inl (hn.apart n ho.1)) (hn.plain n (.inr ho.1)).2.2
    have hv := cell_expr hn.none (hn.noNone hr) (cppE_value hc hM hS (hn.shows hr) v (hf _ rfl) ho.2 hx)
    have hr' := hr.set (c := .num x) hb (.inl (hn.apart n ho.1))
    refine ⟨_, _, ?_, hr', (Grown.cons fun _ => .inl (hn.apart n ho.1)).trans (.of_eq (shape_putLeft _ _ _))⟩
    rw [Stm.cppSt, run_one h.result.2]
    unfold St.run
    rw [hS]
    simp only
    rw [← hS, h2]
    simp only [Value.cppV]
    rw [hv]
    rfl
  | .declare n t (some (.matrix _ _ _)), G, W, m, m', s, outer, hf, ho, h, e => ho.elim
  | .declare n t (some (.struct _ _)), G, W, m, m', s, outer, hf, ho, h, e => ho.elim
  | .assign n (.expr v), G, W, m, m', s, outer, hf, ho, h, e => by
    unfold Stm.exec at e
    simp only [Value.cell] at e
    cases hx : v.value S.T I (M.con S o) m.vars with
    | none => simp [hx] at e
    | some x =>
    simp only [hx, Option.map_some] at e
    rw [Option.map_eq_some_iff] at e
    obtain ⟨vars, h1, rfl⟩ := e
    obtain ⟨h2, rfl⟩ := giveVar_inv (by rw [hS]; simp) h1
    have hb := hn.handle_tmp (input := input) (wanted := wanted) ho.1
    have hv := cell_expr hn.none (hn.noNone h) (cppE_value hc hM hS (hn.shows h) v hf ho.2 hx)
    refine ⟨_, _, ?_, h.set (c := .num x) hb (.inl (hn.apart n ho.1)), .of_eq (shape_putLeft _ _ _)⟩
    rw [Stm.cppSt, run_one h.result.2]
    unfold St.run
    simp only [Value.cppV]
    rw [hv]
    have hfd : find n s.vars = some (.val .unset) := by rw [h.find_good hb, h2]; rfl
    simp only [Option.bind_some, Place.store, hS, hfd, State.give]
  | .assign n (.matrix _ _ _), G, W, m, m', s, outer, hf, ho, h, e => ho.elim
  | .assign n (.struct _ _), G, W, m, m', s, outer, hf, ho, h, e => ho.elim
  | .output n opt (.expr v), G, W, m, m', s, outer, hf, ho, h, e => by
    unfold Stm.exec at e
    simp only [Value.cell] at e
    cases hx : v.value S.T I (M.con S o) m.vars with
    | none => simp [hx] at e
    | some x =>
    simp only [hx, Option.map_some] at e
    rw [Option.map_eq_some_iff] at e
    obtain ⟨vars, h1, rfl⟩ := e
    have hT : S.T ≠ .python false := by rw [hS]; simp
    have h2 := write_inv hT h1
    subst h2
    obtain ⟨_, ⟨p, ha⟩, hg, hov⟩ := ho
    obtain ⟨hp, hfd⟩ := h.cpp_object hn hS ha hg
    obtain ⟨slot, c0, k1, k2, k3, k4⟩ := h.heap hT _ ha hp
    have hov' : outVar S.T ⟨n, .scalar p, if opt then .optional else .output⟩ = n := argVar_false
    have hv := cell_expr hn.none (hn.noNone h) (cppE_value hc hM hS (hn.shows h) v hf hov hx)
    cases slot with
    | mat r c l => exact k3.elim
    | num y =>
    have hw := h.write hn.distinct hT ha hp (c := .num x) (slot := .num (some x)) trivial rfl
    rw [hov'] at hw
    refine ⟨_, _, ?_, hw, .of_eq (shape_putLeft _ _ _)⟩
    rw [Stm.cppSt, run_one h.result.2]
    unfold St.run
    simp only [Value.cppV]
    rw [hv]
    have e1 : S.T.argVar n (VarType.scalar p).isMatrix = n := argVar_false
    rw [e1] at hfd
    simp only [Option.bind_some]
    simp only at k1
    cases opt with
    | true =>
      simp only [VarType.isMatrix, Bool.and_false, if_true] at hfd ⊢
      simp [Place.store, hS, hfd, State.write, k1]
    | false =>
      simp at hfd
      simp [Place.store, hS, hfd, State.write, k1]
  | .output n opt (.matrix _ _ _), G, W, m, m', s, outer, hf, ho, h, e => ho.elim
  | .output n opt (.struct _ _), G, W, m, m', s, outer, hf, ho, h, e => ho.elim
  | .outputMatrix n opt r c l, G, W, m, m', s, outer, hf, ho, h, e => by
    unfold Stm.exec at e
    cases hx : values S.T I (M.con S o) m.vars l with
    | none => simp [hx] at e
    | some xs =>
    simp only [hx] at e
    rw [Option.map_eq_some_iff] at e
    obtain ⟨vars, h1, rfl⟩ := e
    have hT : S.T ≠ .python false := by rw [hS]; simp
    have h2 := write_inv hT h1
    subst h2
    obtain ⟨ha, hg, hov⟩ := ho
    obtain ⟨hp, hfd⟩ := h.cpp_object hn hS ha hg
    obtain ⟨slot, c0, k1, k2, k3, k4⟩ := h.heap hT _ ha hp
    cases slot with
    | num y => exact k3.elim
    | mat r' c' es =>
    obtain ⟨rfl, rfl, k5⟩ := k3
    have hl := values_length hx
    have hw := h.write hn.distinct hT ha hp (c := .mat r' c' xs) (slot := .mat r' c' (xs.map some)) ⟨rfl, rfl, by rw [List.length_map, hl, hf.2.1]⟩ ⟨rfl, rfl, rfl⟩
    refine ⟨_, _, ?_, hw, .of_eq (shape_putLeft _ _ _)⟩
    have hrun := run_matrix (M := M) (S := S) (outer := outer) (r := r') (c := c')
      (fun p => St.assign (cppPlace span n opt p.1.1 p.1.2) (.e (p.2.cppE span))) n l xs [] es s
      (by simpa using hf.2.1) hl (by rw [k5, hf.2.1]) h.result.2 k1 (by
        rintro ⟨t, x⟩ hp i j s2 hv2 hr2
        have hmem := (List.of_mem_zip hp).1
        have hsh : Shows M S (Readable S.T args input wanted tmp) m.vars s2 :=
          ⟨(hn.shows h).plain, fun n c hP hf => by rw [hv2]; exact (hn.shows h).same n c hP hf⟩
        have hv := cell_expr hn.none (by rw [hv2]; exact hn.noNone h) (cppE_value hc hM hS hsh t (allFine_mem hf.1 t hmem) (allOver_mem hov t hmem) (values_zip hx _ hp))
        unfold St.run
        rw [hv]
        simp only [Option.bind_some]
        rw [← hv2] at hfd
        rw [hS] at hfd
        cases span <;> cases opt <;> simp [Scoping.argVar, VarType.isMatrix] at hfd <;> simp [cppPlace, Place.store, hS, hfd])
    rw [Stm.cppSt, ← range_positions, List.range_eq_range', ← hf.2.1]
    exact hrun
  | .ret _, G, W, m, m', s, outer, hf, ho, h, e => ho.elim
  | .branch c t e, G, W, m, m', s, outer, hf, ho, h, ex => by
    obtain ⟨x, m1, hx, hb, rfl⟩ := exec_branch_inv ex
    have hv := test_expr (cppE_value hc hM hS (hn.shows h) c hf.1 ho.1 hx)
    have hlen := (h.lengths (by rw [hS]; simp)).2
    rw [Stm.cppSt, run_one h.result.2]
    by_cases ht : M.truth x = true
    · rw [if_pos ht] at hb
      obtain ⟨W', s', h1, h2, h3⟩ := cpp_runs t m.vars.length hf.2.2.1 ho.2.1 h hb
      obtain ⟨W1, h4, h5⟩ := h.leave h2 h3
      refine ⟨W1, _, ?_, h4, h5⟩
      unfold St.run
      rw [hv, ht]
      simp only [List.nil_append]
      rw [hlen, h1]; rfl
    · rw [if_neg ht] at hb
      obtain ⟨W', s', h1, h2, h3⟩ := cpp_runs e m.vars.length hf.2.2.2.1 ho.2.2 h hb
      obtain ⟨W1, h4, h5⟩ := h.leave h2 h3
      refine ⟨W1, _, ?_, h4, h5⟩
      unfold St.run
      rw [hv]
      simp only [ht]
      rw [hlen, h1]; rfl
  | .optional n t body, G, W, m, m', s, outer, hf, ho, h, ex => by
    obtain ⟨ha, hG, hob⟩ := ho
    have hT : S.T ≠ .python false := by rw [hS]; simp
    have hR : S.T ≠ .rust := by rw [hS]; simp
    have hlen := (h.lengths hR).2
    have hname : (if span && t.isMatrix then "_" ++ n else n) = outVar S.T ⟨n, t, .optional⟩ := by
      rw [hS]
      cases span <;> cases hm : t.isMatrix <;> simp [outVar, Scoping.argVar, hm]
    have hplain := hn.plain _ (.inl (outVar_given ha))
    rw [Stm.cppSt, run_one h.result.2, hname]
    rcases exec_optional_inv ex with ⟨hw, m1, hb, rfl⟩ | ⟨hw, he, _⟩
    · have hwt : wanted n = true := h.wants hT ha rfl hw
      have hk := h.know hR (n := n) fun _ => hwt
      obtain ⟨_, hfd⟩ := hk.cpp_object hn hS (opt := true) ha (fun _ => List.mem_cons_self)
      obtain ⟨W', s', h1, h2, h3⟩ := cpp_runs body m.vars.length hf.1 hob hk hb
      obtain ⟨W1, h4, h5⟩ := h.leave h2 h3
      refine ⟨W1, _, ?_, h4, h5⟩
      have htest : (Cond.e (.cast "bool" (.atom (outVar S.T ⟨n, t, .optional⟩)))).test M S s = some (true, []) := by
        have hfd : find (outVar S.T ⟨n, t, .optional⟩) s.vars = some (if span && t.isMatrix then .alias n else .ptr n) := hfd
        have hval : (E.cast "bool" (.atom (outVar S.T ⟨n, t, .optional⟩))).value M S s = none := by
          have hat : (E.atom (outVar S.T ⟨n, t, .optional⟩)).value M S s = none := by
            rw [E.value, hplain.1]
            simp only
            rw [hfd]
            split <;> rfl
          rw [E.value, hat]
          split <;> rfl
        unfold Cond.test
        rw [hS] at hval hfd ⊢
        simp only [hval, if_true]
        rw [hfd]
        split <;> rfl
      unfold St.run
      rw [htest]
      simp only [List.nil_append]
      rw [hlen, h1]; rfl
    · have hwf : wanted n = false := h.wants hT ha rfl hw
      rw [he hT]
      obtain ⟨W1, h4, h5⟩ := h.leave h (.refl _)
      have hsame : ∀ {α : Type} (x : List (String × α)), leaveBlock S.T x x = x := by
        intro α x; rw [hS]; simp [leaveBlock]
      rw [hsame, hsame] at h4
      refine ⟨W1, s, ?_, h4, h5⟩
      have hfd : find (outVar S.T ⟨n, t, .optional⟩) s.vars = some (.val .none) := by
        rw [h.find_good (handle_absent hn.distinct ha rfl hwf hT), h.absent hT _ ha rfl hwf]; rfl
      have htest : (Cond.e (.cast "bool" (.atom (outVar S.T ⟨n, t, .optional⟩)))).test M S s = some (false, []) := by
        have hval : (E.cast "bool" (.atom (outVar S.T ⟨n, t, .optional⟩))).value M S s = none := by
          have hat : (E.atom (outVar S.T ⟨n, t, .optional⟩)).value M S s = none := by
            rw [E.value, hplain.1]
            simp only
            rw [hfd]
            rfl
          rw [E.value, hat]
          split <;> rfl
        unfold Cond.test
        rw [hS] at hval hfd ⊢
        simp only [hval, if_true]
        rw [hfd]
        rfl
      unfold St.run
      rw [htest]
      simp only [runSts, Option.map_some, hsame]

theorem cpp_runs : ∀ (xs : List Stm) {G : List String} {W : Track K} {m m' : Mem K} {s : State K} (outer : Nat), StmsFine .cpp xs →
    StmsOk S.T args tmp (Readable S.T args input wanted tmp) G xs → Rel' S.T args input wanted G W m s → execAll S.T I (M.con S o) M.truth outer xs m = some m' →
    ∃ W' s', runSts M S outer (stmsCppSt span xs) s = some s' ∧ Rel' S.T args input wanted G W' m' s' ∧ Grown S.T args W W'
  | [], G, W, m, m', s, outer, hf, ho, h, e => by
    rw [execAll] at e
    cases e
    exact ⟨W, s, rfl, h, .refl _⟩
  | x :: xs, G, W, m, m', s, outer, hf, ho, h, e => by
    obtain ⟨m1, e1, e2⟩ := execAll_cons_inv h.result.1 e
    obtain ⟨W1, s1, h1, h2, h3⟩ := cpp_run x outer hf.1 ho.1 h e1
    obtain ⟨W2, s2, h4, h5, h6⟩ := cpp_runs xs outer hf.2 ho.2 h2 e2
    refine ⟨W2, s2, ?_, h5, h3.trans h6⟩
    rw [stmsCppSt, runSts_append, h1]
    exact h4
end

end

end Wf.Gen.Text
