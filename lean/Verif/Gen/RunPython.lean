import Verif.Gen.RunStep

/-!
# Lemmas for C58: the Python text does what the statements do
-/

namespace Wf.Gen.Text

variable {K : Type} [CommRing K] {M : Machine K} {I : Interp K} {S : Setting} {args : List Argument} {input : String → Cell K} {wanted : String → Bool}
  {tmp : String → Prop} {o : PyConfig}

section
variable {G : List String} {W : Track K} {m : Mem K} {s : State K}

/-- Without output arguments no name stands for an object of the caller. -/
theorem handle_python {n : String} : handle (.python false) args input wanted n = none := by
  unfold handle
  split
  · rfl
  · rename_i ho
    cases e : find n (startObjs (.python false) args input wanted) with
    | none => rfl
    | some o' =>
      exfalso
      rcases List.mem_append.1 (mem_of_find e) with hm | hm <;> obtain ⟨a, ha, e'⟩ := List.mem_map.1 hm <;>
        exact ho _ (e.trans (congrArg some (Prod.mk.inj e').2.symm))

/-- An assignment makes the variable or changes it. -/
theorem Rel'.setVar {T : Scoping} {b : Bool} (hT : T = .python b) (h : Rel' T args input wanted G W m s) {n : String} {c : Cell K} {vars : Vars K}
    (hb : handle T args input wanted n = none) (hg : n ∉ givenNames T args ∨ T = .python false) (hN : n ≠ "None") (e : Text.setVar T n c m.vars = some vars) :
    ∃ W' vars', Text.setVar T n (.val c) s.vars = some vars' ∧ Rel' T args input wanted G W' { m with vars := vars } { s with vars := vars' } ∧ Grown T args W W' := by
  have hf := h.find_good hb
  unfold Text.setVar at e ⊢
  cases hm : find n m.vars with
  | none =>
    rw [hm] at e hf
    rw [hf]
    subst hT
    cases e
    exact ⟨_, _, rfl, h.push hb hg hN, .cons fun _ => hg⟩
  | some d =>
    rw [hm] at e hf
    rw [hf]
    simp only [Option.some.injEq] at e
    subst e
    exact ⟨_, _, rfl, h.set hb hg, .of_eq (shape_putLeft _ _ _)⟩

/-- The object of an output in Python. -/
theorem Rel'.python_object (hn : NamesOk M S args tmp) (hS : S.T = .python true) (h : Rel' S.T args input wanted G W m s) {n : String} {t : VarType} {opt : Bool}
    (ha : (⟨n, t, if opt then .optional else .output⟩ : Argument) ∈ args) (hg : opt = true → n ∈ G) :
    (⟨n, t, if opt then .optional else .output⟩ : Argument).present wanted = true ∧ find n s.vars = some (.ptr n) := by
  have hT : S.T ≠ .python false := by rw [hS]; simp
  have hp : (⟨n, t, if opt then .optional else .output⟩ : Argument).present wanted = true := by
    cases opt with
    | false => rfl
    | true => exact h.given hT n (hg rfl) _ ha rfl
  refine ⟨hp, ?_⟩
  have h1 := handle_out (input := input) hn.distinct ha hp hT
  have e : outVar S.T ⟨n, t, if opt then .optional else .output⟩ = n := by rw [hS]; rfl
  rw [e] at h1
  rcases h.find_handle h1 hT with h2 | h2
  · rw [h2, hS]; cases opt <;> cases t <;> rfl
  · exact h2.2.2

theorem none_cell {b : Bool} (hS : S.T = .python b) (hl : M.lit "None" = none) : (V.e (.atom "None")).cell M S s = some .none := by
  show s.named M S "None" = _
  unfold State.named
  rw [hl, hS]
  rfl

theorem run_assign {b : Bool} (hS : S.T = .python b) {outer : Nat} {n : String} {v : V} {c : Cell K} {vars : List (String × Obj K)} (hr : s.result = none)
    (hv : v.cell M S s = some c) (e : Text.setVar S.T n (.val c) s.vars = some vars) :
    runSts M S outer [.assign (.e (.atom n)) v] s = some { s with vars := vars } := by
  rw [run_one hr]
  unfold St.run
  rw [hv]
  simp only [Option.bind_some, Place.store]
  rw [hS] at e ⊢
  simp only [e, Option.map_some]

end

section
variable {b : Bool} (hc : M.Computes I) (hM : M.Lawful) (hn : NamesOk M S args tmp) (hS : S.T = .python b) (ho' : o.expr.target ≠ .pytorch) (hm : S.mod = o.expr.module)
  (hb' : o.outputArguments = b)
include hc hM hn hS ho' hm hb'

theorem array_cell {G : List String} {W : Track K} {m : Mem K} {s : State K} (h : Rel' S.T args input wanted G W m s) {l : List Tree} {r c : Nat} {xs : List K}
    (hf : AllFine .python l) (hl : l.length = r * c) (ho : AllOver S.T (Readable S.T args input wanted tmp) l) (hx : values S.T I (M.con S o.expr) m.vars l = some xs) :
    (V.array o.expr.matrixConstructor (l.map (Tree.pythonE o.expr)) r c).cell M S s = some (.mat r c xs) := by
  have hv := pythonEs_values hc hM hS ho' hm (hn.shows h) l hf ho hx
  rw [pythonEs_eq] at hv
  have hk : o.expr.matrixConstructor = S.mod ++ ".array" := by
    unfold PyOptions.matrixConstructor
    rw [hm]
    cases e : o.expr.target with
    | pytorch => exact absurd e ho'
    | _ => simp [PyOptions.name, PyOptions.module, e] <;> decide
  unfold V.cell
  rw [hS]
  simp only [Scoping.lang, hk, List.length_map, hl, true_and, if_true, hv, Option.map_some]

mutual
theorem python_run : ∀ (x : Stm) {G : List String} {W : Track K} {m m' : Mem K} {s : State K} (outer outer' : Nat), x.Fine .python →
    x.Ok S.T args tmp (Readable S.T args input wanted tmp) G → Rel' S.T args input wanted G W m s → x.exec S.T I (M.con S o.expr) M.truth outer m = some m' →
    ∃ W' s', runSts M S outer' (x.pythonSt o) s = some s' ∧ Rel' S.T args input wanted G W' m' s' ∧ Grown S.T args W W'
  | .comment _, G, W, m, m', s, outer, outer', hf, ho, h, e => by
    unfold Stm.exec at e
    cases e
    exact ⟨W, s, rfl, h, .refl _⟩
  | .declare n t none, G, W, m, m', s, outer, outer', hf, ho, h, e => by
    unfold Stm.exec at e
    rw [hS] at e
    simp only [newVar] at e
    rw [← hS, Option.map_eq_some_iff] at e
    obtain ⟨vars, h1, rfl⟩ := e
    have hb := hn.handle_tmp (input := input) (wanted := wanted) ho
    obtain ⟨W', vars', h2, h3, h4⟩ := h.setVar (c := .none) hS hb (.inl (hn.apart n ho)) (hn.plain n (.inr ho)).2.2 (by simpa using h1)
    exact ⟨W', _, run_assign hS h.result.2 (none_cell hS hn.none) h2, h3, h4⟩
  | .declare n t (some (.expr v)), G, W, m, m', s, outer, outer', hf, ho, h, e => by
    unfold Stm.exec at e
    rw [hS] at e
    simp only [Value.cell] at e
    rw [← hS] at e
    cases hx : v.value S.T I (M.con S o.expr) m.vars with
    | none => simp [hx] at e
    | some x =>
    simp only [hx, Option.map_some] at e
    rw [Option.map_eq_some_iff] at e
    obtain ⟨vars, h1, rfl⟩ := e
    have h1 : setVar S.T n (.num x) m.vars = some vars := by rw [hS] at h1 ⊢; exact h1
    have hb := hn.handle_tmp (input := input) (wanted := wanted) ho.1
    have hv := cell_expr hn.none (hn.noNone h) (pythonE_value hc hM hS ho' hm (hn.shows h) v (hf _ rfl) ho.2 hx)
    obtain ⟨W', vars', h2, h3, h4⟩ := h.setVar hS hb (.inl (hn.apart n ho.1)) (hn.plain n (.inr ho.1)).2.2 h1
    exact ⟨W', _, run_assign hS h.result.2 hv h2, h3, h4⟩
  | .declare n t (some (.matrix _ _ _)), G, W, m, m', s, outer, outer', hf, ho, h, e => ho.elim
  | .declare n t (some (.struct _ _)), G, W, m, m', s, outer, outer', hf, ho, h, e => ho.elim
  | .assign n (.expr v), G, W, m, m', s, outer, outer', hf, ho, h, e => by
    unfold Stm.exec at e
    simp only [Value.cell] at e
    cases hx : v.value S.T I (M.con S o.expr) m.vars with
    | none => simp [hx] at e
    | some x =>
    simp only [hx, Option.map_some] at e
    rw [Option.map_eq_some_iff] at e
    obtain ⟨vars, h1, rfl⟩ := e
    have h1 : setVar S.T n (.num x) m.vars = some vars := by rw [hS] at h1 ⊢; exact h1
    have hb := hn.handle_tmp (input := input) (wanted := wanted) ho.1
    have hv := cell_expr hn.none (hn.noNone h) (pythonE_value hc hM hS ho' hm (hn.shows h) v hf ho.2 hx)
    obtain ⟨W', vars', h2, h3, h4⟩ := h.setVar hS hb (.inl (hn.apart n ho.1)) (hn.plain n (.inr ho.1)).2.2 h1
    exact ⟨W', _, run_assign hS h.result.2 hv h2, h3, h4⟩
  | .assign n (.matrix _ _ _), G, W, m, m', s, outer, outer', hf, ho, h, e => ho.elim
  | .assign n (.struct _ _), G, W, m, m', s, outer, outer', hf, ho, h, e => ho.elim
  | .output n opt (.expr v), G, W, m, m', s, outer, outer', hf, ho, h, e => by
    unfold Stm.exec at e
    simp only [Value.cell] at e
    cases hx : v.value S.T I (M.con S o.expr) m.vars with
    | none => simp [hx] at e
    | some x =>
    simp only [hx, Option.map_some] at e
    rw [Option.map_eq_some_iff] at e
    obtain ⟨vars, h1, rfl⟩ := e
    obtain ⟨hT, ⟨p, ha⟩, hg, hov⟩ := ho
    have hT : S.T = .python false := by
      rw [hS] at hT ⊢
      cases b with
      | true => exact absurd rfl hT
      | false => rfl
    have h1 : setVar S.T n (.num x) m.vars = some vars := by rw [hT] at h1 ⊢; exact h1
    have hN : n ≠ "None" := (hn.plain n (.inl (by have := outVar_given (T := S.T) ha; rw [hT] at this ⊢; exact this))).2.2
    have hv := cell_expr hn.none (hn.noNone h) (pythonE_value hc hM hS ho' hm (hn.shows h) v hf hov hx)
    obtain ⟨W', vars', h2, h3, h4⟩ := h.setVar hS (by rw [hT]; exact handle_python) (.inr hT) hN h1
    exact ⟨W', _, run_assign hS h.result.2 hv h2, h3, h4⟩
  | .output n opt (.matrix _ _ _), G, W, m, m', s, outer, outer', hf, ho, h, e => ho.elim
  | .output n opt (.struct _ _), G, W, m, m', s, outer, outer', hf, ho, h, e => ho.elim
  | .outputMatrix n opt r c l, G, W, m, m', s, outer, outer', hf, ho, h, e => by
    unfold Stm.exec at e
    cases hx : values S.T I (M.con S o.expr) m.vars l with
    | none => simp [hx] at e
    | some xs =>
    simp only [hx] at e
    rw [Option.map_eq_some_iff] at e
    obtain ⟨vars, h1, rfl⟩ := e
    obtain ⟨ha, hg, hov⟩ := ho
    have hv := array_cell hc hM hn hS ho' hm hb' h hf.1 hf.2.1 hov hx
    have hname : S.T.argVar n true = n := by rw [hS]; rfl
    rw [hname] at h1
    rw [Stm.pythonSt, hb']
    cases hbb : b with
    | false =>
      have hS1 := hS
      rw [hbb] at hS1
      have h1 : setVar S.T n (.mat r c xs) m.vars = some vars := by rw [hS1] at h1 ⊢; exact h1
      have hN : n ≠ "None" := (hn.plain n (.inl (by have := outVar_given (T := S.T) ha; rw [hS1] at this ⊢; exact this))).2.2
      obtain ⟨W', vars', h2, h3, h4⟩ := h.setVar hS1 (by rw [hS1]; exact handle_python) (.inr hS1) hN h1
      refine ⟨W', _, run_assign hS1 h.result.2 hv h2, h3, h4⟩
    | true =>
      have hS1 := hS
      rw [hbb] at hS1
      have hT : S.T ≠ .python false := by rw [hS1]; simp
      have h2 := write_inv hT h1
      subst h2
      obtain ⟨hp, hfd⟩ := h.python_object hn hS1 ha hg
      obtain ⟨slot, c0, k1, k2, k3, k4⟩ := h.heap hT _ ha hp
      cases slot with
      | num y => exact k3.elim
      | mat r' c' es =>
      obtain ⟨rfl, rfl, k5⟩ := k3
      have hl := values_length hx
      have hw := h.write hn.distinct hT ha hp (c := .mat r' c' xs) (slot := .mat r' c' (xs.map some)) ⟨rfl, rfl, by rw [List.length_map, hl, hf.2.1]⟩ ⟨rfl, rfl, rfl⟩
      have hname' : outVar S.T ⟨n, .matrix r' c', if opt then .optional else .output⟩ = n := by rw [hS1]; rfl
      rw [hname'] at hw
      refine ⟨_, _, ?_, hw, .of_eq (shape_putLeft _ _ _)⟩
      rw [run_one h.result.2]
      unfold St.run
      rw [hv]
      simp only [Option.bind_some, if_true]
      simp only at k1
      simp [Place.store, hS1, hfd, indices, State.writeAll, k1]
  | .ret _, G, W, m, m', s, outer, outer', hf, ho, h, e => ho.elim
  | .branch c t e, G, W, m, m', s, outer, outer', hf, ho, h, ex => by
    obtain ⟨x, m1, hx, hb, rfl⟩ := exec_branch_inv ex
    have hv := test_expr (pythonE_value hc hM hS ho' hm (hn.shows h) c hf.1 ho.1 hx)
    rw [Stm.pythonSt, run_one h.result.2]
    by_cases ht : M.truth x = true
    · rw [if_pos ht] at hb
      obtain ⟨W', s', h1, h2, h3⟩ := python_runs t m.vars.length s.vars.length hf.2.2.1 ho.2.1 h hb
      obtain ⟨W1, h4, h5⟩ := h.leave h2 h3
      refine ⟨W1, _, ?_, h4, h5⟩
      unfold St.run
      rw [hv, ht]
      simp only [List.nil_append]
      rw [h1]; rfl
    · rw [if_neg ht] at hb
      obtain ⟨W', s', h1, h2, h3⟩ := python_runs e m.vars.length s.vars.length hf.2.2.2.1 ho.2.2 h hb
      obtain ⟨W1, h4, h5⟩ := h.leave h2 h3
      refine ⟨W1, _, ?_, h4, h5⟩
      unfold St.run
      rw [hv]
      simp only [ht]
      rw [h1]; rfl
  | .optional n t body, G, W, m, m', s, outer, outer', hf, ho, h, ex => by
    obtain ⟨ha, hG, hob⟩ := ho
    have hR : S.T ≠ .rust := by rw [hS]; simp
    rw [Stm.pythonSt, hb']
    cases hbb : b with
    | false =>
      have hS1 := hS
      rw [hbb] at hS1
      have hcn : "compute_" ++ n ∈ givenNames S.T args := by
        rw [hS1]
        exact List.mem_append_right _ (List.mem_map.2 ⟨_, List.mem_filter.2 ⟨ha, by simp⟩, rfl⟩)
      have hplain := hn.plain _ (.inl hcn)
      have htest : ∀ b, wants S.T n t.isMatrix m.vars = some b → (Cond.e (.atom ("compute_" ++ n))).test M S s = some (b, []) := by
        intro b hw
        have hf' := h.find_good (n := "compute_" ++ n) (by rw [hS1]; exact handle_python)
        rw [hS1] at hw
        simp only [wants] at hw
        have hfd : find ("compute_" ++ n) m.vars = some (.switch b) := by
          split at hw
          · rename_i e; rw [e]; cases hw; rfl
          · cases hw
        rw [hfd] at hf'
        have hat : (E.atom ("compute_" ++ n)).value M S s = none := by
          rw [E.value, hplain.1]
          simp only
          rw [hf']
          rfl
        unfold Cond.test
        rw [hS1]
        simp only [hat, hf', Option.map_some]
      simp only [Bool.false_eq_true, if_false]
      rw [run_one h.result.2]
      rcases exec_optional_inv ex with ⟨hw, m1, hb, rfl⟩ | ⟨hw, _, he⟩
      · have hk := h.know hR (n := n) fun hT => absurd hS1 hT
        obtain ⟨W', s', h1, h2, h3⟩ := python_runs body m.vars.length s.vars.length hf.1 hob hk hb
        obtain ⟨W1, h4, h5⟩ := h.leave h2 h3
        refine ⟨W1, _, ?_, h4, h5⟩
        unfold St.run
        rw [htest _ hw]
        simp only [List.nil_append]
        rw [h1]; rfl
      · obtain ⟨vars, hs, rfl⟩ := he hS1
        have hN : n ≠ "None" := (hn.plain n (.inl (by have := outVar_given (T := S.T) ha; rw [hS1] at this ⊢; exact this))).2.2
        obtain ⟨W', vars', h2, h3, h4⟩ := h.setVar hS1 (by rw [hS1]; exact handle_python) (.inr hS1) hN hs
        refine ⟨W', _, ?_, h3, h4⟩
        unfold St.run
        rw [htest _ hw]
        simp only
        rw [run_assign hS1 h.result.2 (none_cell hS1 hn.none) h2]
        rw [hS1]
        rfl
    | true =>
      have hS1 := hS
      rw [hbb] at hS1
      have hT : S.T ≠ .python false := by rw [hS1]; simp
      have hov : outVar S.T ⟨n, t, .optional⟩ = n := by rw [hS1]; rfl
      simp only [if_true]
      rw [run_one h.result.2]
      rcases exec_optional_inv ex with ⟨hw, m1, hb, rfl⟩ | ⟨hw, he, _⟩
      · have hwt : wanted n = true := h.wants hT ha rfl hw
        have hk := h.know hR (n := n) fun _ => hwt
        obtain ⟨hp, hfd⟩ := hk.python_object hn hS1 (opt := true) ha (fun _ => List.mem_cons_self)
        obtain ⟨W', s', h1, h2, h3⟩ := python_runs body m.vars.length s.vars.length hf.1 hob hk hb
        obtain ⟨W1, h4, h5⟩ := h.leave h2 h3
        refine ⟨W1, _, ?_, h4, h5⟩
        have htest : (Cond.notNone n).test M S s = some (true, []) := by
          unfold Cond.test
          rw [hS1]
          simp only [hfd]
        have hsize : runSts M S s.vars.length (sizeCheck n t) s = some s := by
          cases t with
          | matrix r c =>
            obtain ⟨slot, c0, k1, k2, k3, k4⟩ := h.heap hT _ ha hp
            cases slot with
            | num y => exact k3.elim
            | mat r' c' es =>
            obtain ⟨rfl, rfl, k5⟩ := k3
            have hval : (E.bin .eq (.field (.atom n) "size") (.int (r' * c') "")).value M S s = some (M.cmp .eq ((r' * c' : Nat) : K) ((r' * c' : Nat) : K)) := by
              refine bin_value (op := .eq) ?_ ?_
              · rw [E.value, if_pos ⟨by rw [hS1]; rfl, rfl⟩]
                unfold State.size
                rw [hfd]
                simp only at k1 ⊢
                rw [k1]
              · rw [E.value]
            show runSts M S _ [_] s = _
            rw [run_one h.result.2]
            unfold St.run
            rw [hval]
            simp only [hM.refl, if_true]
          | _ => rfl
        unfold St.run
        rw [htest]
        simp only [List.nil_append]
        rw [runSts_append, hsize]
        simp only [Option.bind_some]
        rw [h1]; rfl
      · have hwf : wanted n = false := h.wants hT ha rfl hw
        rw [he hT]
        refine ⟨W, s, ?_, h, .refl _⟩
        have hfd : find n s.vars = some (.val .none) := by
          have h1 := handle_absent (input := input) hn.distinct ha rfl hwf hT
          have h2 := h.absent hT _ ha rfl hwf
          rw [hov] at h1 h2
          rw [h.find_good h1, h2]; rfl
        have htest : (Cond.notNone n).test M S s = some (false, []) := by
          unfold Cond.test
          rw [hS1]
          simp only [hfd]
        unfold St.run
        rw [htest]
        simp only [runSts, Option.map_some]
        rw [hS1]
        rfl

theorem python_runs : ∀ (xs : List Stm) {G : List String} {W : Track K} {m m' : Mem K} {s : State K} (outer outer' : Nat), StmsFine .python xs →
    StmsOk S.T args tmp (Readable S.T args input wanted tmp) G xs → Rel' S.T args input wanted G W m s → execAll S.T I (M.con S o.expr) M.truth outer xs m = some m' →
    ∃ W' s', runSts M S outer' (stmsPythonSt o xs) s = some s' ∧ Rel' S.T args input wanted G W' m' s' ∧ Grown S.T args W W'
  | [], G, W, m, m', s, outer, outer', hf, ho, h, e => by
    rw [execAll] at e
    cases e
    exact ⟨W, s, rfl, h, .refl _⟩
  | x :: xs, G, W, m, m', s, outer, outer', hf, ho, h, e => by
    obtain ⟨m1, e1, e2⟩ := execAll_cons_inv h.result.1 e
    obtain ⟨W1, s1, h1, h2, h3⟩ := python_run x outer outer' hf.1 ho.1 h e1
    obtain ⟨W2, s2, h4, h5, h6⟩ := python_runs xs outer outer' hf.2 ho.2 h2 e2
    refine ⟨W2, s2, ?_, h5, h3.trans h6⟩
    rw [stmsPythonSt, runSts_append, h1]
    exact h4
end

end

end Wf.Gen.Text
