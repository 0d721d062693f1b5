import Verif.Gen.NameLemmas
import Verif.Gen.AstBlock

/-!
# The program with names does what the structured program does
-/

namespace Wf.Gen.Text

variable {V : Type} [Arith V] {T : Scoping} {N : Naming} {I : Interp V} {con : Tree → Option V} {truth : V → Bool} {args : List Argument}
  {input : String → Cell V} {wanted : String → Bool} {usage : Nat → Usage} {keys : Nat → Prop} {init : Nat → Option (Cell V)}

/-- The states of the two programs agree. -/
structure Sim (T : Scoping) (N : Naming) (I : Interp V) (args : List Argument) (input : String → Cell V) (wanted : String → Bool) (usage : Nat → Usage)
    (keys : Nat → Prop) (init : Nat → Option (Cell V)) (m : Store V) (e : Mem V) : Prop where
  temps : ∀ v x, m.vars v = some (some x) → find (tempName N.width v) e.vars = some (.num x)
  declared : ∀ v, (m.vars v).isSome = true → tempName N.width v ∈ names e.vars
  fresh : (∀ b, T ≠ .python b) → ∀ v, m.vars v = none → tempName N.width v ∉ names e.vars
  given : ∀ p ∈ startVars T args input wanted, (∀ key, keys key → p.1 ≠ outVar T (N.output key)) → find p.1 e.vars = some p.2
  written : ∀ key, keys key → ∀ x, (key, x) ∈ m.out → ∃ c, find (outVar T (N.output key)) e.vars = some c ∧ Holds N I x c
  unwritten : ∀ key, keys key → key ∉ m.out.map (·.1) → find (outVar T (N.output key)) e.vars = init key ∨
    (T = .python false ∧ usage key = .optional ∧ wanted (N.output key).name = false ∧ find (outVar T (N.output key)) e.vars = some .none)
  returned : m.returned = e.result.isSome
  result : ∀ key x, usage key = .returnValue → (key, x) ∈ m.out → ∃ c, e.result = some c ∧ Holds N I x c
  start : T ≠ .python false → ∀ key, keys key → init key = find (outVar T (N.output key)) (startVars T args input wanted)
  unset : (∀ b, T ≠ .python b) → ∀ v, m.vars v = some none → find (tempName N.width v) e.vars = some .unset

section start

theorem mem_start_given {p : String × Cell V} (h : p ∈ startVars T args input wanted) : p.1 ∈ givenNames T args := by
  unfold startVars at h
  unfold givenNames
  split at h
  · rcases List.mem_append.1 h with h | h <;> obtain ⟨a, ha, rfl⟩ := List.mem_map.1 h
    · exact List.mem_append_left _ (List.mem_map_of_mem ha)
    · exact List.mem_append_right _ (List.mem_map.2 ⟨a, ha, rfl⟩)
  · rcases List.mem_append.1 h with h | h <;> obtain ⟨a, ha, rfl⟩ := List.mem_map.1 h
    · exact List.mem_append_left _ (List.mem_map_of_mem (List.mem_filter.1 ha).1)
    · exact List.mem_append_right _ (List.mem_map.2 ⟨a, ha, rfl⟩)
  · obtain ⟨a, ha, rfl⟩ := List.mem_map.1 h
    exact List.mem_map_of_mem ha

theorem isMatrix_false {t : VarType} {p : Prim} (h : t = .scalar p) : t.isMatrix = false := by rw [h]; rfl

theorem outVar_given {a : Argument} (h : a ∈ args) : outVar T a ∈ givenNames T args := by
  rcases T with (_ | _) | _ | (_ | _)
  · exact List.mem_map_of_mem h
  · by_cases hm : a.type.isMatrix = true
    · refine List.mem_append_right _ (List.mem_map.2 ⟨a, List.mem_filter.2 ⟨h, hm⟩, ?_⟩)
      simp [outVar, Scoping.argVar, hm]
    · refine List.mem_append_left _ (List.mem_map.2 ⟨a, h, ?_⟩)
      simp [outVar, Scoping.argVar, hm]
  · exact List.mem_map_of_mem h
  · exact List.mem_append_left _ (List.mem_map_of_mem h)
  · exact List.mem_map_of_mem h

/-- The names at the start are given names, each once. -/
theorem names_start_sublist : (names (startVars T args input wanted)).Sublist (givenNames T args) := by
  unfold names startVars givenNames
  split
  · simp [List.map_append, List.map_map, Function.comp_def]
  · rw [List.map_append, List.map_map, List.map_map]
    refine List.Sublist.append ?_ ?_
    · exact (List.filter_sublist).map _
    · exact List.Sublist.refl _
  · simp [List.map_map, Function.comp_def]

/-- The object for an output, at the start. -/
theorem find_start_out (hd : (givenNames T args).Nodup) {a : Argument} (h : a ∈ args) (hT : T ≠ .python false) :
    find (outVar T a) (startVars T args input wanted) = some (argCell input wanted a) := by
  have key : (outVar T a, argCell input wanted a) ∈ startVars T args input wanted := by
    rcases T with (_ | _) | _ | (_ | _)
    · exact List.mem_map.2 ⟨a, h, rfl⟩
    · by_cases hm : a.type.isMatrix = true
      · refine List.mem_append_right _ (List.mem_map.2 ⟨a, List.mem_filter.2 ⟨h, hm⟩, ?_⟩)
        simp [outVar, Scoping.argVar, hm]
      · refine List.mem_append_left _ (List.mem_map.2 ⟨a, h, ?_⟩)
        simp [outVar, Scoping.argVar, hm]
    · exact List.mem_map.2 ⟨a, h, rfl⟩
    · exact absurd rfl hT
    · exact List.mem_map.2 ⟨a, h, rfl⟩
  exact find_mem (names_start_sublist.nodup hd) key

/-- Without output arguments (Python) an output has no variable at the start. -/
theorem find_start_python (hd : (givenNames (.python false) args).Nodup) {a : Argument} (h : a ∈ args) (ha : a.direction ≠ .input) :
    find (outVar (.python false) a) (startVars (.python false) args input wanted) = none := by
  rw [find_none]
  intro hm
  obtain ⟨p, hp, hn⟩ := List.mem_map.1 hm
  have hd := List.nodup_append.1 hd
  rcases List.mem_append.1 hp with hp | hp <;> obtain ⟨b, hb, rfl⟩ := List.mem_map.1 hp
  · have hb := List.mem_filter.1 hb
    have : a = b := List.inj_on_of_nodup_map hd.1 h hb.1 hn.symm
    subst this
    exact ha (by simpa using hb.2)
  · exact hd.2.2 _ (List.mem_map_of_mem h) _ (List.mem_map.2 ⟨b, hb, rfl⟩) hn.symm

/-- What can be read at the start is not an output. -/
theorem readable_start (hd : (givenNames T args).Nodup) {n : String} {c : Cell V} (h : find n (startVars T args input wanted) = some c) (hc : c.readable = true)
    {a : Argument} (ha : a ∈ args) (hi : a.direction ≠ .input) : n ≠ outVar T a := by
  rintro rfl
  by_cases hT : T = .python false
  · subst hT
    rw [find_start_python hd ha hi] at h
    cases h
  · rw [find_start_out hd ha hT] at h
    cases h
    unfold argCell at hc
    split at hc
    · rename_i hdir; exact hi hdir
    · cases hc
    · split at hc <;> cases hc

/-- The switch of an optional output. -/
theorem find_start_switch (hd : (givenNames (.python false) args).Nodup) {a : Argument} (h : a ∈ args) (ha : a.direction = .optional) :
    (("compute_" ++ a.name, .switch (wanted a.name)) : String × Cell V) ∈ startVars (.python false) args input wanted ∧
      ∀ b ∈ args, "compute_" ++ a.name ≠ outVar (.python false) b := by
  refine ⟨List.mem_append_right _ (List.mem_map.2 ⟨a, List.mem_filter.2 ⟨h, by simpa using ha⟩, rfl⟩), fun b hb e => ?_⟩
  exact (List.nodup_append.1 hd).2.2 _ (List.mem_map_of_mem hb) _ (List.mem_map.2 ⟨a, List.mem_filter.2 ⟨h, by simpa using ha⟩, rfl⟩) e.symm

end start

section outs

variable (hn : Named T N I con truth args input wanted usage keys)
include hn

theorem Named.outVar_inj {key key' : Nat} (h : keys key) (h' : keys key') (e : outVar T (N.output key) = outVar T (N.output key')) : key = key' := by
  have ha := (hn.arg key h).1
  have ha' := (hn.arg key' h').1
  have hd := hn.distinct
  refine hn.own key key' h h' ?_
  unfold outVar Scoping.argVar at e
  split at e
  · have hd := List.nodup_append.1 hd
    by_cases h1 : (N.output key).type.isMatrix = true <;> by_cases h2 : (N.output key').type.isMatrix = true
    · simpa [h1, h2] using e
    · simp only [h1, h2, if_true] at e
      exact absurd e.symm (hd.2.2 _ (List.mem_map_of_mem ha') _ (List.mem_map.2 ⟨_, List.mem_filter.2 ⟨ha, h1⟩, rfl⟩))
    · simp only [h1, h2, if_true] at e
      exact absurd e (hd.2.2 _ (List.mem_map_of_mem ha) _ (List.mem_map.2 ⟨_, List.mem_filter.2 ⟨ha', h2⟩, rfl⟩))
    · simpa [h1, h2] using e
  · exact e

theorem Named.outVar_ne_temp {key : Nat} (h : keys key) (v : Nat) : outVar T (N.output key) ≠ tempName N.width v :=
  fun e => hn.noClash v (e ▸ outVar_given (hn.arg key h).1)

theorem Named.not_input {key : Nat} (h : keys key) : (N.output key).direction ≠ .input := by
  rw [(hn.arg key h).2]
  split <;> simp

/-- The values that the operations need are there. -/
theorem Named.sees {m : Store V} {env : Vars V} (h1 : ∀ v x, m.vars v = some (some x) → find (tempName N.width v) env = some (.num x))
    (h2 : ∀ p ∈ startVars T args input wanted, (∀ key, keys key → p.1 ≠ outVar T (N.output key)) → find p.1 env = some p.2) : Sees T N I con m.vars env := by
  refine ⟨h1, fun k t hk => Tree.value_mono ?_ t (hn.leaf k t hk)⟩
  intro n c hc hr
  exact h2 (n, c) (mem_of_find hc) fun key hkey => readable_start hn.distinct hc hr (hn.arg key hkey).1 (hn.not_input hkey)

theorem Named.sim_sees {m : Store V} {e : Mem V} (h : Sim T N I args input wanted usage keys init m e) : Sees T N I con m.vars e.vars := hn.sees h.temps h.given

/-- At the start. -/
theorem Named.sim_start : Sim T N I args input wanted usage keys (fun key => find (outVar T (N.output key)) (startVars T args input wanted)) .start ⟨startVars T args input wanted, none⟩ where
  temps := fun v x h => by cases h
  declared := fun v h => by cases h
  fresh := fun _ v _ hm => by
    obtain ⟨p, hp, e⟩ := List.mem_map.1 hm
    exact hn.noClash v (e ▸ mem_start_given hp)
  given := fun p hp _ => find_mem (names_start_sublist.nodup hn.distinct) hp
  written := fun key _ x h => by cases h
  unwritten := fun key _ _ => .inl rfl
  returned := rfl
  result := fun key x _ h => by cases h
  start := fun _ _ _ => rfl
  unset := fun _ v h => by cases h

end outs

section steps

omit [Arith V] in
theorem setVar_some {n : String} {c : Cell V} {vars : Vars V} (h : (∀ b, T ≠ .python b) → n ∈ names vars) : ∃ env, setVar T n c vars = some env ∧
    find n env = some c ∧ (∀ n', n' ≠ n → find n' env = find n' vars) ∧ n ∈ names env ∧ ((∀ b, T ≠ .python b) → names env = names vars) := by
  by_cases hm : n ∈ names vars
  · obtain ⟨d, hd⟩ := Option.isSome_iff_exists.1 (find_isSome.2 hm)
    refine ⟨put n c vars, ?_, find_put hm, fun n' hne => find_put_ne hne, by rw [names_put]; exact hm, fun _ => names_put⟩
    unfold setVar
    rw [hd]
  · have hd := find_none.2 hm
    cases T with
    | python b =>
      refine ⟨(n, c) :: vars, ?_, by simp [find], fun n' hne => by simp [find, Ne.symm hne], by simp [names], fun h => absurd rfl (h b)⟩
      unfold setVar
      rw [hd]
    | cpp b => exact absurd (h (fun _ => by simp)) hm
    | rust => exact absurd (h (fun _ => by simp)) hm

omit [Arith V] in
theorem giveVar_some {n : String} {c : Cell V} {vars : Vars V} (h : (∀ b, T ≠ .python b) → find n vars = some .unset) : ∃ env, giveVar T n c vars = some env ∧
    find n env = some c ∧ (∀ n', n' ≠ n → find n' env = find n' vars) ∧ n ∈ names env ∧ ((∀ b, T ≠ .python b) → names env = names vars) := by
  by_cases hT : ∃ b, T = .python b
  · obtain ⟨b, rfl⟩ := hT
    exact setVar_some fun hT => absurd rfl (hT b)
  · have hT : ∀ b, T ≠ .python b := fun b hb => hT ⟨b, hb⟩
    have hf := h hT
    have hm : n ∈ names vars := find_isSome.1 (by rw [hf]; rfl)
    refine ⟨put n c vars, ?_, find_put hm, fun n' hne => find_put_ne hne, by rw [names_put]; exact hm, fun _ => names_put⟩
    unfold giveVar
    rw [hf]
    cases T with
    | python b => exact absurd rfl (hT b)
    | cpp b => rfl
    | rust => rfl

omit [Arith V] in
theorem newVar_some {n : String} {c : Cell V} {vars : Vars V} (outer : Nat) (h : (∀ b, T ≠ .python b) → n ∉ names vars) : ∃ env, newVar T outer n c vars = some env ∧
    find n env = some c ∧ (∀ n', n' ≠ n → find n' env = find n' vars) ∧ n ∈ names env ∧ ((∀ b, T ≠ .python b) → names env = n :: names vars) := by
  cases T with
  | python b =>
    obtain ⟨env, h1, h2, h3, h4, _⟩ := setVar_some (T := .python b) (n := n) (c := c) (vars := vars) (fun h => absurd rfl (h b))
    exact ⟨env, h1, h2, h3, h4, fun h => absurd rfl (h b)⟩
  | cpp b =>
    refine ⟨(n, c) :: vars, ?_, by simp [find], fun n' hne => by simp [find, Ne.symm hne], by simp [names], fun _ => rfl⟩
    unfold newVar
    simp only
    rw [if_neg]
    intro hm
    refine h (fun _ => by simp) ?_
    obtain ⟨p, hp, rfl⟩ := List.mem_map.1 hm
    exact List.mem_map_of_mem (List.mem_of_mem_take hp)
  | rust => exact ⟨(n, c) :: vars, rfl, by simp [find], fun n' hne => by simp [find, Ne.symm hne], by simp [names], fun _ => rfl⟩

variable (hn : Named T N I con truth args input wanted usage keys)
include hn

/-- A temporary gets a value, or is declared. -/
theorem Named.sim_set {m : Store V} {e : Mem V} (h : Sim T N I args input wanted usage keys init m e) {v : Nat} {o : Option V} {env : Vars V}
    (h1 : ∀ x, o = some x → find (tempName N.width v) env = some (.num x)) (h2 : ∀ n, n ≠ tempName N.width v → find n env = find n e.vars)
    (h3 : tempName N.width v ∈ names env) (h4 : (∀ b, T ≠ .python b) → o = none → find (tempName N.width v) env = some .unset) :
    Sim T N I args input wanted usage keys init { m with vars := updateAt m.vars v (some o) } { e with vars := env } where
  temps := fun u x hu => by
    simp only [updateAt] at hu
    split at hu
    · rename_i huv
      cases hu
      rw [huv]
      exact h1 x rfl
    · rename_i huv
      rw [h2 _ fun hh => huv (tempName_injective hh)]
      exact h.temps u x hu
  declared := fun u hu => by
    simp only [updateAt] at hu
    split at hu
    · rename_i huv
      rw [huv]
      exact h3
    · rename_i huv
      rw [← find_isSome, h2 _ fun hh => huv (tempName_injective hh), find_isSome]
      exact h.declared u hu
  fresh := fun hT u hu => by
    simp only [updateAt] at hu
    split at hu
    · cases hu
    · rename_i huv
      rw [← find_none, h2 _ fun hh => huv (tempName_injective hh), find_none]
      exact h.fresh hT u hu
  given := fun p hp hk => by
    rw [h2 _ fun hh => hn.noClash v (hh ▸ mem_start_given hp)]
    exact h.given p hp hk
  written := fun key hk x hx => by
    rw [h2 _ (hn.outVar_ne_temp hk v)]
    exact h.written key hk x hx
  unwritten := fun key hk hx => by
    rw [h2 _ (hn.outVar_ne_temp hk v)]
    exact h.unwritten key hk hx
  returned := h.returned
  result := h.result
  start := h.start
  unset := fun hT u hu => by
    simp only [updateAt] at hu
    split at hu
    · rename_i huv
      cases hu
      rw [huv]
      exact h4 hT rfl
    · rename_i huv
      rw [h2 _ fun hh => huv (tempName_injective hh)]
      exact h.unset hT u hu

/-- An output is written. -/
theorem Named.sim_write {m : Store V} {e : Mem V} (h : Sim T N I args input wanted usage keys init m e) {key : Nat} {x : V} {c : Cell V} (hk : keys key)
    (hu : usage key ≠ .returnValue) (hnew : key ∉ m.out.map (·.1)) (hw : usage key = .optional → truth (I.f (.outputRequired key) []) = true) (hc : Holds N I x c) :
    ∃ env, write T (outVar T (N.output key)) c e.vars = some env ∧
      Sim T N I args input wanted usage keys init { m with out := m.out ++ [(key, x)] } { e with vars := env } ∧ ((∀ b, T ≠ .python b) → names env = names e.vars) := by
  have step : ∀ env : Vars V, find (outVar T (N.output key)) env = some c → (∀ n, n ≠ outVar T (N.output key) → find n env = find n e.vars) →
      Sim T N I args input wanted usage keys init { m with out := m.out ++ [(key, x)] } { e with vars := env } := by
    intro env h1 h2
    refine ⟨fun v y hv => ?_, fun v hv => ?_, fun hT v hv => ?_, fun p hp hpk => ?_, fun key' hk' y hy => ?_, fun key' hk' hy => ?_, h.returned,
      fun key' y hu' hy => ?_, h.start, fun hT v hv => by rw [h2 _ (Ne.symm (hn.outVar_ne_temp hk v))]; exact h.unset hT v hv⟩
    · rw [h2 _ (Ne.symm (hn.outVar_ne_temp hk v))]
      exact h.temps v y hv
    · rw [← find_isSome, h2 _ (Ne.symm (hn.outVar_ne_temp hk v)), find_isSome]
      exact h.declared v hv
    · rw [← find_none, h2 _ (Ne.symm (hn.outVar_ne_temp hk v)), find_none]
      exact h.fresh hT v hv
    · rw [h2 _ (hpk key hk)]
      exact h.given p hp hpk
    · rcases List.mem_append.1 hy with hy' | hy'
      · have hne : key' ≠ key := by
          rintro rfl
          exact hnew (List.mem_map.2 ⟨(_, y), hy', rfl⟩)
        rw [h2 _ fun hh => hne (hn.outVar_inj hk' hk hh)]
        exact h.written key' hk' y hy'
      · cases List.mem_singleton.1 hy'
        exact ⟨c, h1, hc⟩
    · have hne : key' ≠ key := by
        rintro rfl
        exact hy (List.mem_map.2 ⟨(key', x), List.mem_append_right _ (List.mem_singleton.2 rfl), rfl⟩)
      rw [h2 _ fun hh => hne (hn.outVar_inj hk' hk hh)]
      refine h.unwritten key' hk' fun hm => hy ?_
      rw [List.map_append]
      exact List.mem_append_left _ hm
    · rcases List.mem_append.1 hy with hy | hy
      · exact h.result key' y hu' hy
      · cases List.mem_singleton.1 hy
        exact absurd hu' hu
  by_cases hT : T = .python false
  · subst hT
    obtain ⟨env, h1, h2, h3, _, _⟩ := setVar_some (T := .python false) (n := outVar (.python false) (N.output key)) (c := c) (vars := e.vars) (fun h => absurd rfl (h false))
    exact ⟨env, h1, step env h2 h3, fun h => absurd rfl (h false)⟩
  · have hf : find (outVar T (N.output key)) e.vars = some .unset := by
      rcases h.unwritten key hk hnew with h1 | ⟨h1, _⟩
      · rw [h1, h.start hT key hk, find_start_out hn.distinct (hn.arg key hk).1 hT]
        unfold argCell
        rw [(hn.arg key hk).2]
        by_cases ho : usage key = .optional
        · rw [if_pos ho]
          simp only
          rw [if_pos (by rw [hn.optional key hk ho]; exact hw ho)]
        · rw [if_neg ho]
      · exact absurd h1 hT
    have hm : outVar T (N.output key) ∈ names e.vars := find_isSome.1 (by rw [hf]; rfl)
    refine ⟨put (outVar T (N.output key)) c e.vars, ?_, step _ (find_put hm) (fun n hne => find_put_ne hne), fun _ => names_put⟩
    unfold write
    split
    · exact absurd rfl hT
    · rw [hf]

/-- The end of a block. -/
theorem Named.sim_leave {m m' : Store V} {e e' : Mem V} (h : Sim T N I args input wanted usage keys init m e) (h' : Sim T N I args input wanted usage keys init m' e')
    (hv : ∀ v, (m.vars v).isSome = true → (m'.vars v).isSome = true)
    (hg : (∀ b, T ≠ .python b) → ∃ ns, names e'.vars = ns ++ names e.vars ∧ ∀ n ∈ ns, ∃ u, n = tempName N.width u ∧ m.vars u = none) :
    Sim T N I args input wanted usage keys init (m.leave m') { e' with vars := leaveBlock T e.vars e'.vars } ∧
      ((∀ b, T ≠ .python b) → names (leaveBlock T e.vars e'.vars) = names e.vars) := by
  have hvis : ∀ v o, (m.leave m').vars v = some o → m'.vars v = some o ∧ (m.vars v).isSome = true := by
    intro v o hvo
    simp only [Store.leave] at hvo
    split at hvo
    · rename_i hs
      exact ⟨hvo, hs⟩
    · cases hvo
  by_cases hT : ∃ b, T = .python b
  · obtain ⟨b, rfl⟩ := hT
    refine ⟨⟨fun v x hvx => h'.temps v x (hvis v _ hvx).1, fun v hvs => ?_, fun h => absurd rfl (h b), h'.given, h'.written, h'.unwritten, h'.returned, h'.result, h'.start,
      fun h => absurd rfl (h b)⟩, fun h => absurd rfl (h b)⟩
    obtain ⟨o, ho⟩ := Option.isSome_iff_exists.1 hvs
    exact h'.declared v (by rw [(hvis v o ho).1]; rfl)
  · have hT : ∀ b, T ≠ .python b := fun b hb => hT ⟨b, hb⟩
    obtain ⟨ns, h1, h2⟩ := hg hT
    have hl : leaveBlock T e.vars e'.vars = e'.vars.drop (e'.vars.length - e.vars.length) := by
      unfold leaveBlock
      split
      · exact absurd rfl (hT _)
      · rfl
    have hlen : e'.vars.length - e.vars.length = ns.length := by
      have := congrArg List.length h1
      simp only [names, List.length_map, List.length_append] at this
      omega
    have hnames : names (e'.vars.drop ns.length) = names e.vars := by
      unfold names at h1 ⊢
      rw [List.map_drop, h1, List.drop_left]
    have htake : names (e'.vars.take ns.length) = ns := by
      unfold names at h1 ⊢
      rw [List.map_take, h1, List.take_left]
    have hfind : ∀ n, n ∉ ns → find n (e'.vars.drop ns.length) = find n e'.vars := by
      intro n hne
      have := find_append (n := n) (a := e'.vars.take ns.length) (b := e'.vars.drop ns.length) (by rw [htake]; exact hne)
      rw [List.take_append_drop] at this
      exact this.symm
    have hgiven : ∀ n ∈ givenNames T args, n ∉ ns := by
      intro n hg hmem
      obtain ⟨u, rfl, _⟩ := h2 n hmem
      exact hn.noClash u hg
    rw [hl, hlen]
    refine ⟨⟨fun v x hvx => ?_, fun v hvs => ?_, fun _ v hvn => ?_, fun p hp hpk => ?_, fun key hk x hx => ?_, fun key hk hx => ?_, h'.returned, h'.result, h'.start, fun hT v hvx => ?_⟩, fun _ => hnames⟩
    rotate_right
    · obtain ⟨h3, h4⟩ := hvis v _ hvx
      rw [hfind _ fun hmem => ?_]
      · exact h'.unset hT v h3
      · obtain ⟨u, hu, hun⟩ := h2 _ hmem
        rw [tempName_injective hu, hun] at h4
        cases h4
    · obtain ⟨h3, h4⟩ := hvis v _ hvx
      rw [hfind _ fun hmem => ?_]
      · exact h'.temps v x h3
      · obtain ⟨u, hu, hun⟩ := h2 _ hmem
        rw [tempName_injective hu, hun] at h4
        cases h4
    · obtain ⟨o, ho⟩ := Option.isSome_iff_exists.1 hvs
      simp only [hnames]
      exact h.declared v (hvis v o ho).2
    · simp only [hnames]
      refine h.fresh hT v ?_
      cases hmv : m.vars v with
      | none => rfl
      | some o =>
        have h5 := hv v (by rw [hmv]; rfl)
        simp only [Store.leave, hmv, Option.isSome_some, if_true] at hvn
        rw [hvn] at h5
        cases h5
    · rw [hfind _ (hgiven _ (mem_start_given hp))]
      exact h'.given p hp hpk
    · rw [hfind _ (hgiven _ (outVar_given (hn.arg key hk).1))]
      exact h'.written key hk x hx
    · rw [hfind _ (hgiven _ (outVar_given (hn.arg key hk).1))]
      exact h'.unwritten key hk hx

end steps

section run

omit [Arith V] in
theorem argVar_false {n : String} : T.argVar n false = n := by
  rcases T with (_ | _) | _ | (_ | _) <;> rfl

/-- The variables that were added are temporaries that were not visible before. -/
def Grows (T : Scoping) (N : Naming) (m : Store V) (e e' : Mem V) : Prop :=
  (∀ b, T ≠ .python b) → ∃ ns, names e'.vars = ns ++ names e.vars ∧ ∀ n ∈ ns, ∃ u, n = tempName N.width u ∧ m.vars u = none

omit [Arith V] in
theorem grows_of_eq {m : Store V} {e e' : Mem V} (h : (∀ b, T ≠ .python b) → names e'.vars = names e.vars) : Grows T N m e e' :=
  fun hT => ⟨[], by rw [h hT]; rfl, fun _ h => absurd h List.not_mem_nil⟩

/-- The outputs are new and wanted. -/
def Wants (I : Interp V) (truth : V → Bool) (usage : Nat → Usage) (m : Store V) : Prop :=
  (m.out.map (·.1)).Nodup ∧ ∀ key ∈ m.out.map (·.1), usage key = .optional → truth (I.f (.outputRequired key) []) = true

theorem Wants.prefix {m m' : Store V} (h : Wants I truth usage m') (hp : m.out <+: m'.out) : Wants I truth usage m :=
  ⟨(hp.sublist.map _).nodup h.1, fun key hk => h.2 key ((hp.sublist.map _).subset hk)⟩

theorem Wants.last {m : Store V} {key : Nat} {x : V} {b : Bool} (h : Wants I truth usage { m with out := m.out ++ [(key, x)], returned := b }) :
    key ∉ m.out.map (·.1) ∧ (usage key = .optional → truth (I.f (.outputRequired key) []) = true) := by
  refine ⟨?_, h.2 key (by simp)⟩
  have := h.1
  simp only [List.map_append, List.map_cons, List.map_nil] at this
  intro hm
  exact (List.nodup_append.1 this).2.2 _ hm _ (by simp) rfl

theorem exec_declare_some (hc : ¬ ∃ b, T = .cpp b) {outer : Nat} {n : String} {ty : VarType} {v : Value} {m : Mem V} :
    (Stm.declare n ty (some v)).exec T I con truth outer m = match v.cell T I con m.vars with
      | some c => (newVar T outer n c m.vars).map fun vars => { m with vars := vars }
      | .none => .none := by
  cases T with
  | cpp b => exact absurd ⟨b, rfl⟩ hc
  | rust => rfl
  | python b => rfl

theorem exec_declare_none : ∃ c : Cell V, ((∀ b, T ≠ .python b) → c = .unset) ∧ ∀ {outer : Nat} {n : String} {ty : VarType} {m : Mem V},
    (Stm.declare n ty .none).exec T I con truth outer m = (newVar T outer n c m.vars).map fun vars => { m with vars := vars } := by
  cases T with
  | cpp b => exact ⟨.unset, fun _ => rfl, by intros; rfl⟩
  | rust => exact ⟨.unset, fun _ => rfl, by intros; rfl⟩
  | python b => exact ⟨.none, fun h => absurd rfl (h b), by intros; rfl⟩

theorem exec_optional_true {n : String} {t : VarType} {body : List Stm} {m m' : Mem V} {outer : Nat} (h : wants T n t.isMatrix m.vars = some true)
    (hm : Text.execAll T I con truth m.vars.length body m = some m') :
    (Stm.optional n t body).exec T I con truth outer m = some { m' with vars := leaveBlock T m.vars m'.vars } := by
  cases t <;> (simp only [VarType.isMatrix] at h; unfold Stm.exec; simp only [h, hm])

theorem exec_optional_false {n : String} {t : VarType} {body : List Stm} {m : Mem V} {outer : Nat} (h : wants T n t.isMatrix m.vars = some false) :
    (Stm.optional n t body).exec T I con truth outer m =
      if T = .python false then (setVar T n .none m.vars).map fun vars => { m with vars := vars } else some m := by
  cases t <;> (simp only [VarType.isMatrix] at h; unfold Stm.exec; simp only [h]; rcases T with (_ | _) | _ | (_ | _) <;> simp)

/-- A matrix or an expression has the value. -/
theorem exprValue_holds {vars : Nat → Option (Option V)} {env : Vars V} (hs : Sees T N I con vars env) {e : AExpr} {v : Value} {x : V} (h : exprValue N e = some v)
    (hx : e.eval I vars = some x) : ∃ c, v.cell T I con env = some c ∧ Holds N I x c := by
  unfold exprValue at h
  cases hm : asMatrix N e with
  | none =>
    simp only [hm, Option.map_eq_some_iff] at h
    obtain ⟨t, ht, rfl⟩ := h
    exact ⟨.num x, by rw [Value.cell, exprTree_value hs e ht hx]; rfl, rfl⟩
  | some p =>
    obtain ⟨s, l⟩ := p
    simp only [hm, Option.map_eq_some_iff] at h
    obtain ⟨ts, ht, rfl⟩ := h
    unfold asMatrix at hm
    split at hm
    · rename_i t l'
      simp only [Option.map_eq_some_iff] at hm
      obtain ⟨s', hs', he⟩ := hm
      cases he
      rw [AExpr.eval, Option.map_eq_some_iff] at hx
      obtain ⟨xs, hxs, rfl⟩ := hx
      exact ⟨.mat s.1 s.2 xs, by rw [Value.cell, exprTrees_values hs l ht hxs]; rfl, t, hs', rfl⟩
    · cases hm

variable (hn : Named T N I con truth args input wanted usage keys)
include hn

/-- The switch or the object of an optional output says whether it is wanted. -/
theorem Named.wants_eq {m : Store V} {e : Mem V} (h : Sim T N I args input wanted usage keys init m e) {key : Nat} (hk : keys key) (hu : usage key = .optional)
    (hnew : wanted (N.output key).name = false → key ∉ m.out.map (·.1)) :
    wants T (N.output key).name (N.output key).type.isMatrix e.vars = some (wanted (N.output key).name) := by
  have ha := hn.arg key hk
  rw [if_pos hu] at ha
  by_cases hT : T = .python false
  · subst hT
    obtain ⟨h1, h2⟩ := find_start_switch (input := input) (wanted := wanted) hn.distinct ha.1 ha.2
    have := h.given _ h1 fun key' hk' => h2 _ (hn.arg key' hk').1
    unfold wants
    simp only at this ⊢
    rw [this]
  · have hw : wants T (N.output key).name (N.output key).type.isMatrix e.vars =
        match find (outVar T (N.output key)) e.vars with
        | some .none => some false
        | some _ => some true
        | .none => .none := by
      rcases T with (_ | _) | _ | (_ | _)
      · rfl
      · rfl
      · rfl
      · exact absurd rfl hT
      · rfl
    rw [hw]
    by_cases hm : key ∈ m.out.map (·.1)
    · obtain ⟨⟨key', x⟩, hx, rfl⟩ := List.mem_map.1 hm
      obtain ⟨c, hc, hh⟩ := h.written _ hk x hx
      have hwt : wanted (N.output key').name = true := by
        cases hb : wanted (N.output key').name with
        | true => rfl
        | false => exact absurd hm (hnew hb)
      rw [hc, hwt]
      cases c with
      | none => exact absurd hh (by simp [Holds])
      | _ => rfl
    · rcases h.unwritten key hk hm with h1 | ⟨h1, _⟩
      · rw [h1, h.start hT key hk, find_start_out hn.distinct ha.1 hT]
        unfold argCell
        rw [ha.2]
        cases wanted (N.output key).name <;> rfl
      · exact absurd h1 hT

mutual
/-- A statement with names does what the statement does. -/
theorem Named.exec : ∀ (s : Stmt) {x : Stm} {m m' : Store V} {e : Mem V} (outer : Nat), stmtStm N s = some x → s.Keyed usage keys → s.run I truth m = some m' →
    Wants I truth usage m' → Sim T N I args input wanted usage keys init m e → m.returned = false →
    ∃ e', x.exec T I con truth outer e = some e' ∧ Sim T N I args input wanted usage keys init m' e' ∧ Grows T N m e e'
  | .decl v a, x, m, m', e, outer, hx, _, hr, _, h, _ => by
    rw [stmtStm, Option.map_eq_some_iff] at hx
    obtain ⟨t, ht, rfl⟩ := hx
    rw [Stmt.run] at hr
    by_cases hv : (m.vars v).isSome = true
    · rw [if_pos hv] at hr; cases hr
    rw [if_neg hv] at hr
    have hvn : m.vars v = none := by simpa using hv
    cases ha : a.eval I m.vars with
    | none => simp [ha] at hr
    | some y =>
    simp only [ha, Option.some.injEq] at hr
    subst hr
    have hgr : ∀ env, ((∀ b, T ≠ .python b) → names env = tempName N.width v :: names e.vars) → Grows T N m e ⟨env, e.result⟩ := fun env he hT =>
      ⟨[tempName N.width v], by rw [he hT]; rfl, fun n hmem => ⟨v, List.mem_singleton.1 hmem, hvn⟩⟩
    by_cases hc : ∃ b, T = .cpp b
    · obtain ⟨b, rfl⟩ := hc
      obtain ⟨env, h1, h2, h3, h4, h5⟩ := newVar_some (T := .cpp b) (c := (.unset : Cell V)) (vars := e.vars) (n := tempName N.width v) outer (fun hT => h.fresh hT v hvn)
      have hs : Sees (.cpp b) N I con m.vars env := hn.sees
        (fun u z hu => by
          rw [h3 _ fun hh => ?_]
          · exact h.temps u z hu
          · rw [tempName_injective hh, hvn] at hu; cases hu)
        (fun p hp hpk => by
          rw [h3 _ fun hh => hn.noClash v (hh ▸ mem_start_given hp)]
          exact h.given p hp hpk)
      refine ⟨⟨put (tempName N.width v) (.num y) env, e.result⟩, ?_, hn.sim_set h (fun z hz => ?_) (fun n hne => ?_) ?_ (fun _ h => by cases h), hgr _ fun hT => by rw [names_put]; exact h5 hT⟩
      · rw [Stm.exec]
        simp only [h1, Value.cell, exprTree_value hs a ht ha]
        rfl
      · cases hz
        exact find_put h4
      · rw [find_put_ne hne]
        exact h3 n hne
      · rw [names_put]
        exact h4
    · obtain ⟨env, h1, h2, h3, h4, h5⟩ := newVar_some (T := T) (c := (.num y : Cell V)) (vars := e.vars) (n := tempName N.width v) outer (fun hT => h.fresh hT v hvn)
      refine ⟨⟨env, e.result⟩, ?_, hn.sim_set h (fun z hz => by cases hz; exact h2) h3 h4 (fun _ h => by cases h), hgr _ h5⟩
      rw [exec_declare_some hc, Value.cell, exprTree_value (hn.sim_sees h) a ht ha]
      simp only [Option.map_some, h1]
  | .declare v, x, m, m', e, outer, hx, _, hr, _, h, _ => by
    rw [stmtStm] at hx
    cases hx
    rw [Stmt.run] at hr
    by_cases hv : (m.vars v).isSome = true
    · rw [if_pos hv] at hr; cases hr
    rw [if_neg hv] at hr
    cases hr
    have hvn : m.vars v = none := by simpa using hv
    obtain ⟨c, hcu, hc⟩ := exec_declare_none (T := T) (I := I) (con := con) (truth := truth)
    obtain ⟨env, h1, h2, h3, h4, h5⟩ := newVar_some (T := T) (c := c) (vars := e.vars) (n := tempName N.width v) outer
      (fun hT => h.fresh hT v hvn)
    refine ⟨⟨env, e.result⟩, ?_, hn.sim_set h (fun z hz => by cases hz) h3 h4 (fun hT _ => by rw [← hcu hT]; exact h2),
      fun hT => ⟨[tempName N.width v], by rw [h5 hT]; rfl, fun n hmem => ⟨v, List.mem_singleton.1 hmem, hvn⟩⟩⟩
    rw [hc, h1]
    rfl
  | .assign v a, x, m, m', e, outer, hx, _, hr, _, h, _ => by
    rw [stmtStm, Option.map_eq_some_iff] at hx
    obtain ⟨t, ht, rfl⟩ := hx
    rw [Stmt.run] at hr
    cases hv : m.vars v with
    | none => simp [hv] at hr
    | some o =>
    cases o with
    | some _ => simp [hv] at hr
    | none =>
    cases ha : a.eval I m.vars with
    | none => simp [hv, ha] at hr
    | some y =>
      simp only [hv, ha, Option.some.injEq] at hr
      subst hr
      obtain ⟨env, h1, h2, h3, h4, h5⟩ := giveVar_some (T := T) (c := (.num y : Cell V)) (vars := e.vars) (n := tempName N.width v) (fun hT => h.unset hT v hv)
      refine ⟨⟨env, e.result⟩, ?_, hn.sim_set h (fun z hz => by cases hz; exact h2) h3 h4 (fun _ h => by cases h), grows_of_eq h5⟩
      rw [Stm.exec]
      simp only [Value.cell, exprTree_value (hn.sim_sees h) a ht ha, Option.map_some, h1]
  | .output key a, x, m, m', e, outer, hx, hk, hr, hw, h, hret => by
    rw [Stmt.Keyed] at hk
    rw [Stmt.run] at hr
    cases ha : a.eval I m.vars with
    | none => simp [ha] at hr
    | some y =>
    simp only [ha, Option.some.injEq] at hr
    subst hr
    obtain ⟨hnew, hwt⟩ := Wants.last hw
    have go : ∀ c : Cell V, Holds N I y c → ∃ env, write T (outVar T (N.output key)) c e.vars = some env ∧
        Sim T N I args input wanted usage keys init { m with out := m.out ++ [(key, y)] } ⟨env, e.result⟩ ∧ Grows T N m e ⟨env, e.result⟩ := by
      intro c hc
      obtain ⟨env, h1, h2, h3⟩ := hn.sim_write h hk.2 hk.1 hnew hwt hc
      exact ⟨env, h1, h2, grows_of_eq h3⟩
    rw [stmtStm] at hx
    unfold outputStm at hx
    cases htype : (N.output key).type with
    | scalar p =>
      simp only [htype, Option.map_eq_some_iff] at hx
      obtain ⟨t, ht, rfl⟩ := hx
      obtain ⟨env, h1, h2, h3⟩ := go (.num y) rfl
      refine ⟨⟨env, e.result⟩, ?_, h2, h3⟩
      rw [outVar, isMatrix_false htype, argVar_false] at h1
      rw [Stm.exec]
      simp only [Value.cell, exprTree_value (hn.sim_sees h) a ht ha, Option.map_some, h1]
    | matrix r c =>
      simp only [htype] at hx
      cases hm : asMatrix N a with
      | none => simp [hm] at hx
      | some p =>
        obtain ⟨s, l⟩ := p
        simp only [hm, Option.map_eq_some_iff] at hx
        obtain ⟨ts, ht, rfl⟩ := hx
        unfold asMatrix at hm
        split at hm
        · rename_i t l'
          simp only [Option.map_eq_some_iff] at hm
          obtain ⟨s', hs', he⟩ := hm
          cases he
          rw [AExpr.eval, Option.map_eq_some_iff] at ha
          obtain ⟨xs, hxs, rfl⟩ := ha
          obtain ⟨env, h1, h2, h3⟩ := go (.mat s.1 s.2 xs) ⟨t, hs', rfl⟩
          refine ⟨⟨env, e.result⟩, ?_, h2, h3⟩
          have hmt : (N.output key).type.isMatrix = true := by rw [htype]; rfl
          rw [outVar, hmt] at h1
          rw [Stm.exec]
          simp only [exprTrees_values (hn.sim_sees h) l ht hxs, h1, Option.map_some]
        · cases hm
    | custom n => simp [htype] at hx
  | .ret key a, x, m, m', e, outer, hx, hk, hr, hw, h, hret => by
    rw [Stmt.Keyed] at hk
    rw [stmtStm, Option.map_eq_some_iff] at hx
    obtain ⟨t, ht, rfl⟩ := hx
    rw [Stmt.run] at hr
    cases ha : a.eval I m.vars with
    | none => simp [ha] at hr
    | some y =>
    simp only [ha, Option.some.injEq] at hr
    subst hr
    obtain ⟨c, hc, hh⟩ := exprValue_holds (hn.sim_sees h) ht ha
    have hres : e.result = none := by
      have := h.returned
      rw [hret] at this
      simpa using this.symm
    have hno : ∀ key' y', usage key' = .returnValue → (key', y') ∈ m.out → False := by
      intro key' y' hu' hm
      obtain ⟨c', hc', _⟩ := h.result key' y' hu' hm
      rw [hres] at hc'
      cases hc'
    refine ⟨⟨e.vars, some c⟩, by rw [Stm.exec, hc]; rfl,
      ⟨h.temps, h.declared, h.fresh, h.given, fun key' hk' y' hy' => ?_, fun key' hk' hy' => h.unwritten key' hk' fun hm => hy' ?_, rfl, fun key' y' hu' hy' => ?_, h.start, h.unset⟩, grows_of_eq fun _ => rfl⟩
    · rcases List.mem_append.1 hy' with hy | hy
      · exact h.written key' hk' y' hy
      · cases List.mem_singleton.1 hy
        have := hn.retKey key hk
        exact absurd hk' this
    · rw [List.map_append]
      exact List.mem_append_left _ hm
    · rcases List.mem_append.1 hy' with hy | hy
      · exact absurd hy (hno key' y' hu')
      · cases List.mem_singleton.1 hy
        exact ⟨c, rfl, hh⟩
  | .branch c t f, x, m, m', e, outer, hx, hk, hr, hw, h, hret => by
    rw [Stmt.Keyed] at hk
    rw [stmtStm] at hx
    cases h1 : exprTree N c with
    | none => simp [h1] at hx
    | some c' =>
    cases h2 : stmtStms N t with
    | none => simp [h1, h2] at hx
    | some t' =>
    cases h3 : stmtStms N f with
    | none => simp [h1, h2, h3] at hx
    | some f' =>
    simp only [h1, h2, h3, Option.some.injEq] at hx
    subst hx
    rw [Stmt.run] at hr
    cases hc : c.eval I m.vars with
    | none => simp [hc] at hr
    | some y =>
    simp only [hc] at hr
    have hcv := exprTree_value (hn.sim_sees h) c h1 hc
    cases hb : truth y with
    | true =>
      simp only [hb, if_true] at hr
      cases hm : runAll I truth t m with
      | none => simp [hm] at hr
      | some m2 =>
      simp only [hm, Option.some.injEq] at hr
      subst hr
      obtain ⟨e2, h4, h5, h6⟩ := Named.execAll t e.vars.length h2 hk.1 hm hw h
      obtain ⟨h7, h8⟩ := hn.sim_leave h h5 (runAll_keeps t hm).2 h6
      refine ⟨_, ?_, h7, grows_of_eq h8⟩
      rw [Stm.exec]
      simp only [hcv, hb, if_true, h4]
    | false =>
      simp only [hb, Bool.false_eq_true, if_false] at hr
      cases hm : runAll I truth f m with
      | none => simp [hm] at hr
      | some m2 =>
      simp only [hm, Option.some.injEq] at hr
      subst hr
      obtain ⟨e2, h4, h5, h6⟩ := Named.execAll f e.vars.length h3 hk.2 hm hw h
      obtain ⟨h7, h8⟩ := hn.sim_leave h h5 (runAll_keeps f hm).2 h6
      refine ⟨_, ?_, h7, grows_of_eq h8⟩
      rw [Stm.exec]
      simp only [hcv, hb, Bool.false_eq_true, if_false, h4]
  | .optional key t, x, m, m', e, outer, hx, hk, hr, hw, h, hret => by
    rw [Stmt.Keyed] at hk
    obtain ⟨hu, hk, hkt⟩ := hk
    rw [stmtStm, Option.map_eq_some_iff] at hx
    obtain ⟨t', ht', rfl⟩ := hx
    have hwd := hn.optional key hk hu
    rw [Stmt.run] at hr
    cases hb : truth (I.f (.outputRequired key) []) with
    | true =>
      rw [hb] at hwd
      rw [if_pos hb] at hr
      cases hm : runAll I truth t m with
      | none => simp [hm] at hr
      | some m2 =>
      simp only [hm, Option.some.injEq] at hr
      subst hr
      obtain ⟨e2, h4, h5, h6⟩ := Named.execAll t e.vars.length ht' hkt hm hw h
      obtain ⟨h7, h8⟩ := hn.sim_leave h h5 (runAll_keeps t hm).2 h6
      refine ⟨_, ?_, h7, grows_of_eq h8⟩
      exact exec_optional_true (by rw [hn.wants_eq h hk hu (fun hf => by rw [hwd] at hf; cases hf), hwd]) h4
    | false =>
      rw [hb] at hwd
      rw [if_neg (by rw [hb]; simp)] at hr
      cases hr
      have hnew : key ∉ m.out.map (·.1) := fun hm => by
        have := hw.2 key hm hu
        rw [hb] at this
        cases this
      by_cases hT : T = .python false
      · subst hT
        obtain ⟨env, h1, h2, h3, _, _⟩ := setVar_some (T := .python false) (c := (.none : Cell V)) (vars := e.vars) (n := (N.output key).name) (fun hT => absurd rfl (hT false))
        have ho : outVar (.python false) (N.output key) = (N.output key).name := rfl
        refine ⟨⟨env, e.result⟩, ?_, ⟨fun v y hv => ?_, fun v hv => ?_, fun hT => absurd rfl (hT false), fun p hp hpk => ?_, fun key' hk' y hy => ?_, fun key' hk' hy => ?_,
          h.returned, h.result, h.start, fun hT => absurd rfl (hT false)⟩, fun hT => absurd rfl (hT false)⟩
        · rw [exec_optional_false (by rw [hn.wants_eq h hk hu (fun _ => hnew), hwd]), if_pos rfl, h1]
          rfl
        · rw [h3 _ fun hh => hn.outVar_ne_temp hk v (ho ▸ hh.symm)]
          exact h.temps v y hv
        · rw [← find_isSome, h3 _ fun hh => hn.outVar_ne_temp hk v (ho ▸ hh.symm), find_isSome]
          exact h.declared v hv
        · rw [h3 _ (ho ▸ hpk key hk)]
          exact h.given p hp hpk
        · have hne : key' ≠ key := by
            rintro rfl
            exact hnew (List.mem_map.2 ⟨(_, y), hy, rfl⟩)
          rw [h3 _ fun hh => hne (hn.outVar_inj hk' hk (hh.trans ho.symm))]
          exact h.written key' hk' y hy
        · by_cases hkk : key' = key
          · subst hkk
            exact Or.inr ⟨rfl, hu, hwd, h2⟩
          · rw [h3 _ fun hh => hkk (hn.outVar_inj hk' hk (hh.trans ho.symm))]
            exact h.unwritten key' hk' hy
      · refine ⟨e, ?_, h, grows_of_eq fun _ => rfl⟩
        rw [exec_optional_false (by rw [hn.wants_eq h hk hu (fun _ => hnew), hwd]), if_neg hT]
termination_by structural s => s

/-- Statements with names do what the statements do. -/
theorem Named.execAll : ∀ (l : List Stmt) {xs : List Stm} {m m' : Store V} {e : Mem V} (outer : Nat), stmtStms N l = some xs → AllKeyed usage keys l →
    runAll I truth l m = some m' → Wants I truth usage m' → Sim T N I args input wanted usage keys init m e →
    ∃ e', Text.execAll T I con truth outer xs e = some e' ∧ Sim T N I args input wanted usage keys init m' e' ∧ Grows T N m e e'
  | [], xs, m, m', e, outer, hx, _, hr, _, h => by
    rw [stmtStms] at hx
    cases hx
    rw [runAll] at hr
    cases hr
    exact ⟨e, rfl, h, grows_of_eq fun _ => rfl⟩
  | s :: ss, xs, m, m', e, outer, hx, hk, hr, hw, h => by
    rw [AllKeyed] at hk
    rw [stmtStms] at hx
    cases h1 : stmtStm N s with
    | none => simp [h1] at hx
    | some y =>
    cases h2 : stmtStms N ss with
    | none => simp [h1, h2] at hx
    | some ys =>
    simp only [h1, h2, Option.some.injEq] at hx
    subst hx
    rw [runAll] at hr
    cases hret : m.returned with
    | true =>
      rw [if_pos hret] at hr
      cases hr
      refine ⟨e, ?_, h, grows_of_eq fun _ => rfl⟩
      rw [Text.execAll, if_pos (by rw [← h.returned, hret])]
    | false =>
      rw [if_neg (by rw [hret]; simp)] at hr
      cases hm : s.run I truth m with
      | none => simp [hm] at hr
      | some m2 =>
      simp only [hm] at hr
      obtain ⟨e2, h3, h4, h5⟩ := Named.exec s outer h1 hk.1 hm (hw.prefix (runAll_keeps ss hr).1) h hret
      obtain ⟨e3, h6, h7, h8⟩ := Named.execAll ss outer h2 hk.2 hr hw h4
      refine ⟨e3, ?_, h7, fun hT => ?_⟩
      · rw [Text.execAll, if_neg (by rw [← h.returned, hret]; simp), h3]
        exact h6
      · obtain ⟨ns, h9, h10⟩ := h5 hT
        obtain ⟨ns', h11, h12⟩ := h8 hT
        refine ⟨ns' ++ ns, by rw [h11, h9, List.append_assoc], fun n hmem => ?_⟩
        rcases List.mem_append.1 hmem with hmem | hmem
        · obtain ⟨u, hu, hun⟩ := h12 n hmem
          refine ⟨u, hu, ?_⟩
          cases hmu : m.vars u with
          | none => rfl
          | some o =>
            have := (run_keeps s hm).2 u (by rw [hmu]; rfl)
            rw [hun] at this
            cases this
        · exact h10 n hmem
termination_by structural l => l
end

end run

section whole

theorem execAll_append {outer : Nat} : ∀ (l l' : List Stm) (e : Mem V), Text.execAll T I con truth outer (l ++ l') e =
    (Text.execAll T I con truth outer l e).bind (Text.execAll T I con truth outer l')
  | [], l', e => rfl
  | x :: xs, l', e => by
    rw [List.cons_append, Text.execAll, Text.execAll]
    by_cases hr : e.result.isSome = true
    · rw [if_pos hr, if_pos hr]
      cases l' with
      | nil => rfl
      | cons y ys => rw [Option.bind_some, Text.execAll, if_pos hr]
    · rw [if_neg hr, if_neg hr]
      cases x.exec T I con truth outer e with
      | none => rfl
      | some e' => exact execAll_append xs l' e'

theorem stmtStms_append {N : Naming} : ∀ (l l' : List Stmt) {xs : List Stm}, stmtStms N (l ++ l') = some xs → ∃ ys zs, stmtStms N l = some ys ∧ stmtStms N l' = some zs ∧ xs = ys ++ zs
  | [], l', xs, h => ⟨[], xs, rfl, h, rfl⟩
  | s :: l, l', xs, h => by
    rw [List.cons_append, stmtStms] at h
    cases h1 : stmtStm N s with
    | none => simp [h1] at h
    | some x =>
    cases h2 : stmtStms N (l ++ l') with
    | none => simp [h1, h2] at h
    | some xs' =>
    simp only [h1, h2, Option.some.injEq] at h
    obtain ⟨ys, zs, h3, h4, rfl⟩ := stmtStms_append l l' h2
    exact ⟨x :: ys, zs, by rw [stmtStms, h1, h3], h4, h.symm⟩

theorem allKeyed_split : ∀ {l l' : List Stmt}, AllKeyed usage keys (l ++ l') → AllKeyed usage keys l ∧ AllKeyed usage keys l'
  | [], _, h => ⟨by rw [AllKeyed]; trivial, h⟩
  | s :: l, l', h => by
    rw [List.cons_append, AllKeyed] at h
    rw [AllKeyed]
    exact ⟨⟨h.1, (allKeyed_split h.2).1⟩, (allKeyed_split h.2).2⟩

theorem Sim.again {m : Store V} {e : Mem V} (h : Sim T N I args input wanted usage keys init m e) (hT : T = .python false) :
    Sim T N I args input wanted usage keys (fun key => find (outVar T (N.output key)) e.vars) m e :=
  ⟨h.temps, h.declared, h.fresh, h.given, h.written, fun _ _ _ => .inl rfl, h.returned, h.result, fun h => absurd hT h, h.unset⟩

variable (hn : Named T N I con truth args input wanted usage keys)
include hn

/-- The whole program. -/
theorem Named.whole {ss : List Stmt} {xs : List Stm} {m : Store V} (hx : stmtStms N ss = some xs) (hk : AllKeyed usage keys ss) (hr : runAll I truth ss .start = some m)
    (hw : Wants I truth usage m) (hreach : ∀ key, keys key → usage key = .optional →
      ∃ pre body post m', ss = pre ++ .optional key body :: post ∧ runAll I truth pre .start = some m' ∧ m'.returned = false) :
    ∃ e, Text.execAll T I con truth 0 xs ⟨startVars T args input wanted, none⟩ = some e ∧
      (∀ key x, keys key → (key, x) ∈ m.out → ∃ c, find (outVar T (N.output key)) e.vars = some c ∧ Holds N I x c) ∧
      (∀ key, keys key → usage key = .optional → wanted (N.output key).name = false → find (outVar T (N.output key)) e.vars = some .none) ∧
      ∀ key x, usage key = .returnValue → (key, x) ∈ m.out → ∃ c, e.result = some c ∧ Holds N I x c := by
  obtain ⟨e, h1, h2, _⟩ := hn.execAll ss 0 hx hk hr hw hn.sim_start
  refine ⟨e, h1, fun key x hkey hm => h2.written key hkey x hm, fun key hkey hu hwd => ?_, h2.result⟩
  have hb := hn.optional key hkey hu
  rw [hwd] at hb
  have hnot : ∀ {m' : Store V}, Wants I truth usage m' → key ∉ m'.out.map (·.1) := fun hw' hm => by
    rw [hw'.2 key hm hu] at hb
    cases hb
  by_cases hT : T = .python false
  · obtain ⟨pre, body, post, m', rfl, hpre, hret⟩ := hreach key hkey hu
    obtain ⟨ys, zs, h3, h4, rfl⟩ := stmtStms_append _ _ hx
    obtain ⟨kp, ko⟩ := allKeyed_split hk
    rw [AllKeyed] at ko
    rw [stmtStms] at h4
    cases h5 : stmtStm N (.optional key body) with
    | none => simp [h5] at h4
    | some y =>
    cases h6 : stmtStms N post with
    | none => simp [h5, h6] at h4
    | some zs' =>
    simp only [h5, h6, Option.some.injEq] at h4
    subst h4
    rw [runAll_append, hpre, Option.bind_some, runAll, if_neg (by rw [hret]; simp)] at hr
    have hrun : (Stmt.optional key body).run I truth m' = some m' := by
      rw [Stmt.run, if_neg (by rw [← hb]; simp)]
    rw [hrun] at hr
    simp only at hr
    have hw' : Wants I truth usage m' := hw.prefix (runAll_keeps post hr).1
    obtain ⟨e1, g1, g2, _⟩ := hn.execAll pre 0 h3 kp hpre hw' hn.sim_start
    obtain ⟨e2, g3, g4, _⟩ := hn.exec _ 0 h5 ko.1 hrun hw' g2 hret
    have hnone : find (outVar T (N.output key)) e2.vars = some .none := by
      rw [stmtStm, Option.map_eq_some_iff] at h5
      obtain ⟨t', _, rfl⟩ := h5
      rw [exec_optional_false (by rw [hn.wants_eq g2 hkey hu (fun _ => hnot hw'), hwd]), if_pos hT] at g3
      obtain ⟨env, s1, s2, _⟩ := setVar_some (T := T) (c := (.none : Cell V)) (vars := e1.vars) (n := (N.output key).name) (fun h => absurd hT (h false))
      rw [s1] at g3
      cases g3
      have ho : outVar T (N.output key) = (N.output key).name := by rw [hT]; rfl
      rw [ho]
      exact s2
    obtain ⟨e3, g5, g6, _⟩ := hn.execAll post 0 h6 ko.2 hr hw (g4.again hT)
    have he : e3 = e := by
      have : Text.execAll T I con truth 0 (ys ++ y :: zs') ⟨startVars T args input wanted, none⟩ = some e3 := by
        rw [execAll_append, g1, Option.bind_some, Text.execAll, if_neg (by rw [← g2.returned, hret]; simp), g3]
        exact g5
      rw [h1] at this
      exact (Option.some.inj this).symm
    subst he
    rcases g6.unwritten key hkey (hnot hw) with h7 | ⟨_, _, _, h7⟩
    · rw [h7]
      exact hnone
    · exact h7
  · rcases h2.unwritten key hkey (hnot hw) with h3 | ⟨h3, _⟩
    · rw [h3, find_start_out hn.distinct (hn.arg key hkey).1 hT]
      unfold argCell
      rw [(hn.arg key hkey).2, if_pos hu]
      simp only
      rw [if_neg (by rw [hwd]; simp)]
    · exact absurd h3 hT

end whole

end Wf.Gen.Text
