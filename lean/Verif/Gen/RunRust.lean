import Verif.Gen.RunStep

/-!
# Lemmas for C58: the Rust text does what the statements do
-/

namespace Wf.Gen.Text

variable {K : Type} [CommRing K] {M : Machine K} {I : Interp K} {S : Setting} {args : List Argument} {input : String → Cell K} {wanted : String → Bool}
  {tmp : String → Prop} {o : PyOptions}

section
variable {G : List String} {W : Track K} {m : Mem K} {s : State K}

/-- The object of an output in Rust. -/
theorem Rel'.rust_object (hn : NamesOk M S args tmp) (hS : S.T = .rust) (h : Rel' S.T args input wanted G W m s) {n : String} {t : VarType} {opt : Bool}
    (ha : (⟨n, t, if opt then .optional else .output⟩ : Argument) ∈ args) (hg : opt = true → n ∈ G) :
    (⟨n, t, if opt then .optional else .output⟩ : Argument).present wanted = true ∧ find n s.vars = some (.ptr n) := by
  have hT : S.T ≠ .python false := by rw [hS]; simp
  have hp : (⟨n, t, if opt then .optional else .output⟩ : Argument).present wanted = true := by
    cases opt with
    | false => rfl
    | true => exact h.given hT n (hg rfl) _ ha rfl
  refine ⟨hp, ?_⟩
  have h1 := handle_out (input := input) hn.distinct ha hp hT
  have e : outVar S.T ⟨n, t, if opt then .optional else .output⟩ = n := by rw [hS]; rfl
  rw [e] at h1
  rcases h.find_handle h1 hT with h2 | h2
  · cases opt with
    | false => rw [h2, hS]; cases t <;> rfl
    | true =>
      have h3 := h.inside hS n (hg rfl)
      rw [h.right, find_right_some h1, h3]; rfl
  · exact h2.2.2

end

section
variable (hc : M.Computes I) (hM : M.Lawful) (hn : NamesOk M S args tmp) (hS : S.T = .rust)
include hc hM hn hS

mutual
theorem rust_run : ∀ (x : Stm) {G : List String} {W : Track K} {m m' : Mem K} {s : State K} (outer outer' : Nat), x.Fine .rust →
    x.Ok S.T args tmp (Readable S.T args input wanted tmp) G → Rel' S.T args input wanted G W m s → x.exec S.T I (M.con S o) M.truth outer m = some m' →
    ∃ W' s', runSts M S outer' x.rustSt s = some s' ∧ Rel' S.T args input wanted G W' m' s' ∧ Grown S.T args W W'
  | .comment _, G, W, m, m', s, outer, outer', hf, ho, h, e => by
    unfold Stm.exec at e
    cases e
    exact ⟨W, s, rfl, h, .refl _⟩
  | .declare n t none, G, W, m, m', s, outer, outer', hf, ho, h, e => by
    unfold Stm.exec at e
    rw [hS] at e
    cases e
    have hb := hn.handle_tmp (input := input) (wanted := wanted) ho
    refine ⟨_, _, ?_, h.push (c := .unset) hb (.inl (hn.apart n ho)) (hn.plain n (.inr ho)).2.2, .cons fun _ => .inl (hn.apart n ho)⟩
    rw [Stm.rustSt, run_one h.result.2]
    simp only [Option.map_none]
    unfold St.run
    rw [hS]
    rfl
  | .declare n t (some (.expr v)), G, W, m, m', s, outer, outer', hf, ho, h, e => by
    unfold Stm.exec at e
    rw [hS] at e
    simp only [Value.cell] at e
    rw [← hS] at e
    cases hx : v.value S.T I (M.con S o) m.vars with
    | none => simp [hx] at e
    | some x =>
    simp only [hx, Option.map_some] at e
    rw [hS] at e
    simp only [newVar, Option.map_some] at e
    cases e
    have hb := hn.handle_tmp (input := input) (wanted := wanted) ho.1
    have hv := cell_expr hn.none (hn.noNone h) (rustE_value hc hM hS (hn.shows h) v (hf _ rfl) ho.2 hx)
    refine ⟨_, _, ?_, h.push (c := .num x) hb (.inl (hn.apart n ho.1)) (hn.plain n (.inr ho.1)).2.2, .cons fun _ => .inl (hn.apart n ho.1)⟩
    rw [Stm.rustSt, run_one h.result.2]
    simp only [Option.map_some, Value.rustV]
    unfold St.run
    rw [hv, hS]
    rfl
  | .declare n t (some (.matrix _ _ _)), G, W, m, m', s, outer, outer', hf, ho, h, e => ho.elim
  | .declare n t (some (.struct _ _)), G, W, m, m', s, outer, outer', hf, ho, h, e => ho.elim
  | .assign n (.expr v), G, W, m, m', s, outer, outer', hf, ho, h, e => by
    unfold Stm.exec at e
    simp only [Value.cell] at e
    cases hx : v.value S.T I (M.con S o) m.vars with
    | none => simp [hx] at e
    | some x =>
    simp only [hx, Option.map_some] at e
    rw [Option.map_eq_some_iff] at e
    obtain ⟨vars, h1, rfl⟩ := e
    obtain ⟨h2, rfl⟩ := giveVar_inv (by rw [hS]; simp) h1
    have hb := hn.handle_tmp (input := input) (wanted := wanted) ho.1
    have hv := cell_expr hn.none (hn.noNone h) (rustE_value hc hM hS (hn.shows h) v hf ho.2 hx)
    refine ⟨_, _, ?_, h.set (c := .num x) hb (.inl (hn.apart n ho.1)), .of_eq (shape_putLeft _ _ _)⟩
    rw [Stm.rustSt, run_one h.result.2]
    unfold St.run
    simp only [Value.rustV]
    rw [hv]
    have hfd : find n s.vars = some (.val .unset) := by rw [h.find_good hb, h2]; rfl
    simp only [Option.bind_some, Place.store, hS, hfd, State.give]
  | .assign n (.matrix _ _ _), G, W, m, m', s, outer, outer', hf, ho, h, e => ho.elim
  | .assign n (.struct _ _), G, W, m, m', s, outer, outer', hf, ho, h, e => ho.elim
  | .output n opt (.expr v), G, W, m, m', s, outer, outer', hf, ho, h, e => by
    unfold Stm.exec at e
    simp only [Value.cell] at e
    cases hx : v.value S.T I (M.con S o) m.vars with
    | none => simp [hx] at e
    | some x =>
    simp only [hx, Option.map_some] at e
    rw [Option.map_eq_some_iff] at e
    obtain ⟨vars, h1, rfl⟩ := e
    have hT : S.T ≠ .python false := by rw [hS]; simp
    have h2 := write_inv hT h1
    subst h2
    obtain ⟨_, ⟨p, ha⟩, hg, hov⟩ := ho
    obtain ⟨hp, hfd⟩ := h.rust_object hn hS ha hg
    obtain ⟨slot, c0, k1, k2, k3, k4⟩ := h.heap hT _ ha hp
    have hov' : outVar S.T ⟨n, .scalar p, if opt then .optional else .output⟩ = n := argVar_false
    have hv := cell_expr hn.none (hn.noNone h) (rustE_value hc hM hS (hn.shows h) v hf hov hx)
    cases slot with
    | mat r c l => exact k3.elim
    | num y =>
    have hw := h.write hn.distinct hT ha hp (c := .num x) (slot := .num (some x)) trivial rfl
    rw [hov'] at hw
    refine ⟨_, _, ?_, hw, .of_eq (shape_putLeft _ _ _)⟩
    rw [Stm.rustSt, run_one h.result.2]
    unfold St.run
    simp only [Value.rustV]
    rw [hv]
    simp only at k1
    simp [Place.store, hS, hfd, State.write, k1]
  | .output n opt (.matrix _ _ _), G, W, m, m', s, outer, outer', hf, ho, h, e => ho.elim
  | .output n opt (.struct _ _), G, W, m, m', s, outer, outer', hf, ho, h, e => ho.elim
  | .outputMatrix n opt r c l, G, W, m, m', s, outer, outer', hf, ho, h, e => by
    unfold Stm.exec at e
    cases hx : values S.T I (M.con S o) m.vars l with
    | none => simp [hx] at e
    | some xs =>
    simp only [hx] at e
    rw [Option.map_eq_some_iff] at e
    obtain ⟨vars, h1, rfl⟩ := e
    have hT : S.T ≠ .python false := by rw [hS]; simp
    have h2 := write_inv hT h1
    subst h2
    obtain ⟨ha, hg, hov⟩ := ho
    obtain ⟨hp, hfd⟩ := h.rust_object hn hS ha hg
    obtain ⟨slot, c0, k1, k2, k3, k4⟩ := h.heap hT _ ha hp
    cases slot with
    | num y => exact k3.elim
    | mat r' c' es =>
    obtain ⟨rfl, rfl, k5⟩ := k3
    have hl := values_length hx
    have hw := h.write hn.distinct hT ha hp (c := .mat r' c' xs) (slot := .mat r' c' (xs.map some)) ⟨rfl, rfl, by rw [List.length_map, hl, hf.2.1]⟩ ⟨rfl, rfl, rfl⟩
    refine ⟨_, _, ?_, hw, .of_eq (shape_putLeft _ _ _)⟩
    have hrun := run_matrix (M := M) (S := S) (outer := outer') (r := r') (c := c')
      (fun p => St.expr (.app (.field (.atom n) "set") [.int p.1.1 "", .int p.1.2 "", p.2.rustE])) n l xs [] es s
      (by simpa using hf.2.1) hl (by rw [k5, hf.2.1]) h.result.2 k1 (by
        rintro ⟨t, x⟩ hp i j s2 hv2 hr2
        have hmem := (List.of_mem_zip hp).1
        have hsh : Shows M S (Readable S.T args input wanted tmp) m.vars s2 :=
          ⟨(hn.shows h).plain, fun n c hP hf => by rw [hv2]; exact (hn.shows h).same n c hP hf⟩
        have hv := rustE_value hc hM hS hsh t (allFine_mem hf.1 t hmem) (allOver_mem hov t hmem) (values_zip hx _ hp)
        unfold St.run
        rw [← hv2] at hfd
        simp [E.perform, hS, hfd, hv])
    rw [Stm.rustSt, ← range_positions, List.range_eq_range', ← hf.2.1]
    exact hrun
  | .ret _, G, W, m, m', s, outer, outer', hf, ho, h, e => ho.elim
  | .branch c t e, G, W, m, m', s, outer, outer', hf, ho, h, ex => by
    obtain ⟨x, m1, hx, hb, rfl⟩ := exec_branch_inv ex
    have hv := test_expr (rustE_value hc hM hS (hn.shows h) c hf.1 ho.1 hx)
    rw [Stm.rustSt, run_one h.result.2]
    by_cases ht : M.truth x = true
    · rw [if_pos ht] at hb
      obtain ⟨W', s', h1, h2, h3⟩ := rust_runs t m.vars.length s.vars.length hf.2.2.1 ho.2.1 h hb
      obtain ⟨W1, h4, h5⟩ := h.leave h2 h3
      refine ⟨W1, _, ?_, h4, h5⟩
      unfold St.run
      rw [hv, ht]
      simp only [List.nil_append]
      rw [h1]; rfl
    · rw [if_neg ht] at hb
      obtain ⟨W', s', h1, h2, h3⟩ := rust_runs e m.vars.length s.vars.length hf.2.2.2.1 ho.2.2 h hb
      obtain ⟨W1, h4, h5⟩ := h.leave h2 h3
      refine ⟨W1, _, ?_, h4, h5⟩
      unfold St.run
      rw [hv]
      simp only [ht]
      rw [h1]; rfl
  | .optional n t body, G, W, m, m', s, outer, outer', hf, ho, h, ex => by
    obtain ⟨ha, hG, hob⟩ := ho
    have hT : S.T ≠ .python false := by rw [hS]; simp
    have hov : outVar S.T ⟨n, t, .optional⟩ = n := by rw [hS]; rfl
    have hplain := hn.plain _ (.inl (outVar_given ha))
    rw [hov] at hplain
    rw [Stm.rustSt, run_one h.result.2]
    rcases exec_optional_inv ex with ⟨hw, m1, hb, rfl⟩ | ⟨hw, he, _⟩
    · have hwt : wanted n = true := h.wants hT ha rfl hw
      have h1 := handle_out (input := input) (wanted := wanted) hn.distinct ha (by simp [Argument.present, hwt]) hT
      rw [hov] at h1
      have hk := h.enter hS (n := n) (by rw [h1]; rfl) hplain.2.2 hwt
      obtain ⟨W', s', h5, h6, h7⟩ := rust_runs body m.vars.length s.vars.length hf.1 hob hk hb
      obtain ⟨W1, h8, h9⟩ := h.leave h6 ((Grown.cons (fun h => absurd rfl h)).trans h7)
      refine ⟨W1, _, ?_, h8, h9⟩
      have hfd : find n s.vars = some (.option n) := by
        rcases h.find_handle h1 hT with h2 | h2
        · rw [h2, hS]; rfl
        · exfalso
          obtain ⟨q, hq, e'⟩ := List.mem_map.1 (mem_of_find h2.2.1)
          obtain ⟨e1, e2⟩ := Prod.mk.inj e'
          have := (h.guards q hq (by cases hq2 : q.2 with | none => rfl | some c => rw [hq2] at e2; cases e2)).2.2
          rw [e1] at this
          exact hG this
      have htest : (Cond.isSome n n).test M S s = some (true, [(n, .ptr n)]) := by
        unfold Cond.test
        rw [hS]
        simp only [hfd]
      unfold St.run
      rw [htest]
      simp only [List.singleton_append]
      rw [h5]; rfl
    · have hwf : wanted n = false := h.wants hT ha rfl hw
      rw [he hT]
      obtain ⟨W1, h4, h5⟩ := h.leave h (.refl _)
      have hsame : ∀ {α : Type} (x : List (String × α)), leaveBlock S.T x x = x := by
        intro α x; rw [hS]; simp [leaveBlock]
      rw [hsame, hsame] at h4
      refine ⟨W1, s, ?_, h4, h5⟩
      have hfd : find n s.vars = some (.val .none) := by
        have h1 := handle_absent (input := input) hn.distinct ha rfl hwf hT
        have h2 := h.absent hT _ ha rfl hwf
        rw [hov] at h1 h2
        rw [h.find_good h1, h2]; rfl
      have htest : (Cond.isSome n n).test M S s = some (false, []) := by
        unfold Cond.test
        rw [hS]
        simp only [hfd]
      unfold St.run
      rw [htest]
      simp only [runSts, Option.map_some, hsame]

theorem rust_runs : ∀ (xs : List Stm) {G : List String} {W : Track K} {m m' : Mem K} {s : State K} (outer outer' : Nat), StmsFine .rust xs →
    StmsOk S.T args tmp (Readable S.T args input wanted tmp) G xs → Rel' S.T args input wanted G W m s → execAll S.T I (M.con S o) M.truth outer xs m = some m' →
    ∃ W' s', runSts M S outer' (stmsRustSt xs) s = some s' ∧ Rel' S.T args input wanted G W' m' s' ∧ Grown S.T args W W'
  | [], G, W, m, m', s, outer, outer', hf, ho, h, e => by
    rw [execAll] at e
    cases e
    exact ⟨W, s, rfl, h, .refl _⟩
  | x :: xs, G, W, m, m', s, outer, outer', hf, ho, h, e => by
    obtain ⟨m1, e1, e2⟩ := execAll_cons_inv h.result.1 e
    obtain ⟨W1, s1, h1, h2, h3⟩ := rust_run x outer outer' hf.1 ho.1 h e1
    obtain ⟨W2, s2, h4, h5, h6⟩ := rust_runs xs outer outer' hf.2 ho.2 h2 e2
    refine ⟨W2, s2, ?_, h5, h3.trans h6⟩
    rw [stmsRustSt, runSts_append, h1]
    exact h4
end

end

end Wf.Gen.Text
