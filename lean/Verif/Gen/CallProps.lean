import Verif.Gen.CallModel
import Verif.Gen.StructProps
import Mathlib.Data.List.Perm.Subperm
import Mathlib.Data.List.NodupEquivFin
import Mathlib.Data.List.Nodup

/-!
# C72: calls of external functions
-/

namespace Wf.Gen

open Mat (Mat)

variable {α E : Type}

/-! ## Specification -/

/-- Python's rules for a call: positional arguments go to the first parameters, every other parameter gets the keyword argument with its name,
and no keyword names another parameter. -/
structure PyBinds (names : List String) (args : List α) (kwargs : List (String × α)) (vals : List α) : Prop where
  fewer : args.length ≤ names.length
  length : vals.length = names.length
  positional : ∀ (i : Nat), i < args.length → vals[i]? = args[i]?
  keyword : ∀ (i : Nat) s, args.length ≤ i → names[i]? = some s → ∃ v, (s, v) ∈ kwargs ∧ vals[i]? = some v
  known : ∀ s v, (s, v) ∈ kwargs → ∃ i : Nat, args.length ≤ i ∧ names[i]? = some s

/-- A passed expression has the declared type. -/
def AnyArg.HasType : AnyArg E → Ty → Prop
  | .scalar _, t => t = .scalar .floating
  | .matrix m, t => ∃ r c : Nat, t = .matrix r c ∧ m.rows = r ∧ m.cols = c
  | .struct u es, t => u = t ∧ es.length = t.totalSize
  | .opaque u _, t => u = t

/-- The expression that is passed for a value. -/
inductive Stands : Passed E → AnyArg E → Prop
  | expr (x : E) : Stands (.expr x) (.scalar x)
  | number (x : E) : Stands (.number x) (.scalar x)
  | matrix (m : Mat E) : Stands (.matrix m) (.matrix m)
  | struct (n : String) (fs : Fields) (a : Attrs E) (es : List E) (h : (Ty.custom n fs).toFlat (.inst a) = .ok es) :
    Stands (.inst (.custom n fs) a) (.struct (.custom n fs) es)
  | opaque (n : String) (x : E) : Stands (.opaque (.custom n .nil) (some x)) (.opaque (.custom n .nil) x)

/-- The matrix among the values, if there is one, is well formed, and opaque objects have opaque types. -/
def Passed.WellFormed : Passed E → Prop
  | .matrix m => m.WF
  | .opaque t _ => ∃ n, t = .custom n .nil
  | _ => True

/-! ## Combination of arguments -/

theorem argPosition_some {names : List String} {s : String} {p : Nat} (h : argPosition names s = some p) : names[p]? = some s := by
  unfold argPosition at h
  rw [List.findIdx?_eq_some_iff_getElem] at h
  obtain ⟨hp, h1, _⟩ := h
  rw [List.getElem?_eq_getElem hp]
  simpa using h1

theorem argPosition_of {names : List String} (hn : names.Nodup) {s : String} {i : Nat} (h : names[i]? = some s) : argPosition names s = some i := by
  obtain ⟨hi, rfl⟩ := List.getElem?_eq_some_iff.1 h
  unfold argPosition
  rw [List.findIdx?_eq_some_iff_getElem]
  refine ⟨hi, by simp, fun j hj => ?_⟩
  have : names[j] ≠ names[i] := fun he => by
    have := (hn.getElem_inj_iff).1 he
    omega
  simpa using this

theorem keywordPositions_ok {names : List String} {n : Nat} {kwargs : List (String × α)} {ps : List (Nat × α)} (h : keywordPositions names n kwargs = .ok ps) :
    List.Forall₂ (fun k p => names[p.1]? = some k.1 ∧ n ≤ p.1 ∧ p.2 = k.2) kwargs ps := by
  induction kwargs generalizing ps with
  | nil => cases h; exact .nil
  | cons k kwargs ih =>
    obtain ⟨key, value⟩ := k
    unfold keywordPositions at h
    cases hp : argPosition names key with
    | none => rw [hp] at h; cases h
    | some p =>
      rw [hp] at h
      by_cases hlt : p < n
      · simp only [if_pos hlt] at h; cases h
      · simp only [if_neg hlt] at h
        cases hr : keywordPositions names n kwargs with
        | error e => rw [hr] at h; cases h
        | ok r =>
          rw [hr] at h
          cases h
          exact .cons ⟨argPosition_some hp, by omega, rfl⟩ (ih hr)

theorem keywordPositions_runs {names : List String} (hn : names.Nodup) {n : Nat} {kwargs : List (String × α)}
    (h : ∀ s v, (s, v) ∈ kwargs → ∃ i : Nat, n ≤ i ∧ names[i]? = some s) : ∃ ps, keywordPositions names n kwargs = .ok ps := by
  induction kwargs with
  | nil => exact ⟨[], rfl⟩
  | cons k kwargs ih =>
    obtain ⟨key, value⟩ := k
    obtain ⟨i, hi, hs⟩ := h key value List.mem_cons_self
    obtain ⟨ps, hps⟩ := ih fun s v hsv => h s v (List.mem_cons_of_mem _ hsv)
    refine ⟨(i, value) :: ps, ?_⟩
    unfold keywordPositions
    rw [argPosition_of hn hs]
    simp only
    rw [if_neg (by omega), hps]
    rfl

theorem forall₂_mem_right {β γ : Type} {R : β → γ → Prop} {l : List β} {m : List γ} (h : List.Forall₂ R l m) {c : γ} (hc : c ∈ m) : ∃ b ∈ l, R b c := by
  induction h with
  | nil => cases hc
  | cons h1 _ ih =>
    rcases List.mem_cons.1 hc with rfl | hc
    · exact ⟨_, List.mem_cons_self, h1⟩
    · obtain ⟨b, hb, hR⟩ := ih hc
      exact ⟨b, List.mem_cons_of_mem _ hb, hR⟩

theorem positions_nodup {names : List String} {n : Nat} {kwargs : List (String × α)} {ps : List (Nat × α)} (hk : (kwargs.map (·.1)).Nodup)
    (h : List.Forall₂ (fun (k : String × α) (p : Nat × α) => names[p.1]? = some k.1 ∧ n ≤ p.1 ∧ p.2 = k.2) kwargs ps) : (ps.map (·.1)).Nodup := by
  induction h with
  | nil => simp
  | @cons k p ks ps h1 h2 ih =>
    simp only [List.map_cons, List.nodup_cons] at hk ⊢
    refine ⟨fun hm => ?_, ih hk.2⟩
    obtain ⟨q, hq, he⟩ := List.mem_map.1 hm
    obtain ⟨b, hb, hR⟩ := forall₂_mem_right h2 hq
    have : some b.1 = some k.1 := by rw [← hR.1, he, h1.1]
    exact hk.1 (List.mem_map.2 ⟨b, hb, Option.some.inj this⟩)

/-- The arguments are combined exactly as Python binds the arguments of a call; calls that Python would refuse are refused. -/
theorem C72_binding (names : List String) (hn : names.Nodup) (args : List α) (kwargs : List (String × α)) (hk : (kwargs.map (·.1)).Nodup)
    (vals : List α) : combineArgs names args kwargs = .ok vals ↔ PyBinds names args kwargs vals := by
  have forward : ∀ vals, combineArgs names args kwargs = .ok vals → PyBinds names args kwargs vals := by
    intro vals h
    unfold combineArgs at h
    by_cases hl : args.length + kwargs.length ≠ names.length
    · rw [if_pos hl] at h; cases h
    rw [if_neg hl] at h
    have hl' : args.length + kwargs.length = names.length := by omega
    cases hps : keywordPositions names args.length kwargs with
    | error e => rw [hps] at h; cases h
    | ok ps =>
      rw [hps] at h
      have hv : args ++ (ps.mergeSort fun a b => decide (a.1 ≤ b.1)).map (·.2) = vals := Except.ok.inj h
      have hf := keywordPositions_ok hps
      have hlen : ps.length = kwargs.length := hf.length_eq.symm
      have hperm : (ps.mergeSort fun a b => decide (a.1 ≤ b.1)).Perm ps := List.mergeSort_perm ps _
      have hsort : (ps.mergeSort fun a b => decide (a.1 ≤ b.1)).Pairwise fun a b => a.1 ≤ b.1 := by
        have := List.pairwise_mergeSort (le := fun (a b : Nat × α) => decide (a.1 ≤ b.1)) (fun a b c h1 h2 => by simp at *; omega) (fun a b => by simp; omega) ps
        exact this.imp fun hab => by simpa using hab
      generalize hS : (ps.mergeSort fun a b => decide (a.1 ≤ b.1)) = S at hv hperm hsort
      have hnd : (S.map (·.1)).Nodup := ((hperm.map (·.1)).nodup_iff).2 (positions_nodup hk hf)
      have hmem : ∀ q ∈ S, ∃ k ∈ kwargs, names[q.1]? = some k.1 ∧ args.length ≤ q.1 ∧ q.2 = k.2 := fun q hq => forall₂_mem_right hf (hperm.mem_iff.1 hq)
      have hrange : S.map (·.1) = List.range' args.length kwargs.length := by
        have hsub : S.map (·.1) ⊆ List.range' args.length kwargs.length := by
          intro x hx
          obtain ⟨q, hq, rfl⟩ := List.mem_map.1 hx
          obtain ⟨k, _, h1, h2, _⟩ := hmem q hq
          have := (List.getElem?_eq_some_iff.1 h1).1
          rw [List.mem_range'_1]
          omega
        have hp : (S.map (·.1)).Perm (List.range' args.length kwargs.length) := by
          refine (hnd.subperm hsub).perm_of_length_le ?_
          rw [List.length_range', List.length_map, hperm.length_eq, hlen]
        refine hp.eq_of_pairwise (le := fun a b => a ≤ b) (fun a b _ _ h1 h2 => by omega) ?_ ?_
        · rw [List.pairwise_map]; exact hsort
        · exact (List.pairwise_lt_range' (s := args.length) (n := kwargs.length)).imp fun hab => by omega
      have hSlen : S.length = kwargs.length := by rw [hperm.length_eq, hlen]
      have hat : ∀ (j : Nat) q, S[j]? = some q → q.1 = args.length + j := by
        intro j q hq
        have h1 : (S.map (·.1))[j]? = some q.1 := by rw [List.getElem?_map, hq]; rfl
        rw [hrange] at h1
        obtain ⟨hj, h2⟩ := List.getElem?_eq_some_iff.1 h1
        rw [List.getElem_range'] at h2
        omega
      refine ⟨by omega, by rw [← hv]; simp [hSlen]; omega, fun i hi => by rw [← hv, List.getElem?_append_left hi], fun i s hi hs => ?_, fun s v hsv => ?_⟩
      · have hi2 := (List.getElem?_eq_some_iff.1 hs).1
        have hj : i - args.length < S.length := by omega
        have hq : S[i - args.length]? = some S[i - args.length] := List.getElem?_eq_getElem hj
        obtain ⟨k, hk1, h1, h2, h3⟩ := hmem _ (List.getElem_mem hj)
        have hpos := hat _ _ hq
        rw [hpos, show args.length + (i - args.length) = i by omega, hs] at h1
        refine ⟨k.2, by rw [Option.some.inj h1]; exact hk1, ?_⟩
        rw [← hv, List.getElem?_append_right hi, List.getElem?_map, hq, ← h3]
        rfl
      · obtain ⟨i, hi⟩ := List.mem_iff_getElem?.1 hsv
        have hip : i < ps.length := by rw [hlen]; exact (List.getElem?_eq_some_iff.1 hi).1
        have := hf.get (i := i) (by rw [← hlen]; exact hip) hip
        have he : kwargs.get ⟨i, by rw [← hlen]; exact hip⟩ = (s, v) := by
          rw [List.get_eq_getElem]
          exact (List.getElem?_eq_some_iff.1 hi).2
        rw [he] at this
        exact ⟨_, this.2.1, this.1⟩
  refine ⟨forward vals, fun h => ?_⟩
  obtain ⟨ps, hps⟩ := keywordPositions_runs hn h.known
  have hcount : args.length + kwargs.length = names.length := by
    have hd : (names.drop args.length).Nodup := hn.sublist (List.drop_sublist _ _)
    have hp : (kwargs.map (·.1)).Perm (names.drop args.length) := by
      rw [List.perm_ext_iff_of_nodup hk hd]
      intro s
      constructor
      · intro hs
        obtain ⟨⟨s', v⟩, hq, rfl⟩ := List.mem_map.1 hs
        obtain ⟨i, hi, hs⟩ := h.known s' v hq
        refine List.mem_iff_getElem?.2 ⟨i - args.length, ?_⟩
        rw [List.getElem?_drop, show args.length + (i - args.length) = i by omega, hs]
      · intro hs
        obtain ⟨j, hj⟩ := List.mem_iff_getElem?.1 hs
        rw [List.getElem?_drop] at hj
        obtain ⟨v, hv, _⟩ := h.keyword (args.length + j) s (by omega) hj
        exact List.mem_map.2 ⟨_, hv, rfl⟩
    have := hp.length_eq
    rw [List.length_map, List.length_drop] at this
    have := h.fewer
    omega
  obtain ⟨vals', hv'⟩ : ∃ vals', combineArgs names args kwargs = .ok vals' := ⟨_, by
    unfold combineArgs
    rw [if_neg (by omega), hps]
    rfl⟩
  rw [hv']
  congr 1
  have h' := forward vals' hv'
  apply List.ext_getElem? 
  intro i
  by_cases hi : i < args.length
  · rw [h'.positional i hi, h.positional i hi]
  · by_cases hi2 : i < names.length
    · obtain ⟨v, h1, h2⟩ := h.keyword i names[i] (by omega) (List.getElem?_eq_getElem hi2)
      obtain ⟨v', h1', h2'⟩ := h'.keyword i names[i] (by omega) (List.getElem?_eq_getElem hi2)
      have : v = v' := by
        have := List.inj_on_of_nodup_map hk h1 h1' rfl
        exact congrArg Prod.snd this
      rw [h2, h2', this]
    · rw [List.getElem?_eq_none (by rw [h'.length]; omega), List.getElem?_eq_none (by rw [h.length]; omega)]

/-! ## Conversion and types -/

theorem convertArg_spec {t : Ty} {v : Passed E} {a : AnyArg E} (hw : v.WellFormed) (h : convertArg t v = .ok a) (ht : t = a.type) :
    Stands v a ∧ a.HasType t := by
  cases v with
  | expr x => cases h; exact ⟨.expr x, ht⟩
  | number x => cases h; exact ⟨.number x, ht⟩
  | matrix m =>
    cases h
    have h1 := Mat.Mat.WF.rows_nonneg hw
    have h2 := Mat.Mat.WF.cols_nonneg hw
    exact ⟨.matrix m, m.rows.toNat, m.cols.toNat, ht, by omega, by omega⟩
  | inst u at_ =>
    dsimp only [convertArg] at h
    by_cases hc : t.isCustom = false
    · rw [if_pos hc] at h; cases h
    rw [if_neg hc] at h
    by_cases hu : u ≠ t
    · rw [if_pos hu] at h; cases h
    rw [if_neg hu] at h
    have hut : u = t := by simpa using hu
    subst hut
    cases hes : u.toFlat (.inst at_) with
    | error e => rw [hes] at h; cases h
    | ok es =>
      rw [hes] at h
      have h' : (if es.length = u.totalSize then (Except.ok (.struct u es) : Res (AnyArg E)) else .error .assertion) = .ok a := h
      by_cases hl : es.length = u.totalSize
      · rw [if_pos hl] at h'
        cases h'
        cases u with
        | scalar _ => exact absurd rfl hc
        | matrix _ _ => exact absurd rfl hc
        | custom n fs => exact ⟨.struct n fs at_ es hes, rfl, hl⟩
      · rw [if_neg hl] at h'; cases h'
  | «opaque» u p =>
    obtain ⟨n, rfl⟩ := hw
    dsimp only [convertArg] at h
    by_cases hc : t.isCustom = false
    · rw [if_pos hc] at h; cases h
    rw [if_neg hc] at h
    by_cases hu : Ty.custom n .nil ≠ t
    · rw [if_pos hu] at h; cases h
    rw [if_neg hu] at h
    have hut : Ty.custom n .nil = t := by simpa using hu
    subst hut
    rw [if_neg (by simp [Ty.totalSize, Fields.totalSize])] at h
    cases p with
    | none => cases h
    | some x => cases h; exact ⟨.opaque n x, rfl⟩
  | other => cases h

theorem convertArg_runs {t : Ty} {v : Passed E} {a : AnyArg E} (hs : Stands v a) (ht : a.HasType t) : convertArg t v = .ok a ∧ t = a.type := by
  cases hs with
  | expr x => exact ⟨rfl, ht⟩
  | number x => exact ⟨rfl, ht⟩
  | matrix m =>
    obtain ⟨r, c, rfl, h1, h2⟩ := ht
    refine ⟨rfl, ?_⟩
    show Ty.matrix r c = Ty.matrix m.rows.toNat m.cols.toNat
    rw [h1, h2]; rfl
  | struct n fs at_ es h =>
    obtain ⟨rfl, hl⟩ := ht
    refine ⟨?_, rfl⟩
    dsimp only [convertArg]
    rw [if_neg (by simp [Ty.isCustom]), if_neg (by simp), h]
    show (if es.length = _ then _ else _) = _
    rw [if_pos hl]
  | «opaque» n x =>
    obtain rfl : Ty.custom n .nil = t := ht
    refine ⟨?_, rfl⟩
    dsimp only [convertArg]
    rw [if_neg (by simp [Ty.isCustom]), if_neg (by simp), if_neg (by simp [Ty.totalSize, Fields.totalSize])]

theorem convertArgs_ok : (ps : List (String × Ty)) → (vs : List (Passed E)) → (as : List (AnyArg E)) → convertArgs ps vs = .ok as →
    as.length = ps.length ∧ vs.length = ps.length ∧ ∀ (i : Nat) p v, ps[i]? = some p → vs[i]? = some v → ∃ a, as[i]? = some a ∧ convertArg p.2 v = .ok a
  | [], [], as, h => by cases h; exact ⟨rfl, rfl, fun i p v hp => by simp at hp⟩
  | [], _ :: _, as, h => by cases h
  | _ :: _, [], as, h => by cases h
  | p :: ps, v :: vs, as, h => by
    unfold convertArgs at h
    cases h1 : convertArg p.2 v with
    | error e => rw [h1] at h; cases h
    | ok a =>
      rw [h1] at h
      cases h2 : convertArgs ps vs with
      | error e => rw [h2] at h; cases h
      | ok as' =>
        rw [h2] at h
        cases h
        obtain ⟨g1, g2, g3⟩ := convertArgs_ok ps vs as' h2
        refine ⟨by simp [g1], by simp [g2], fun i q w hq hw => ?_⟩
        cases i with
        | zero =>
          simp only [List.getElem?_cons_zero, Option.some.injEq] at hq hw
          subst hq hw
          exact ⟨a, rfl, h1⟩
        | succ i => exact g3 i q w (by simpa using hq) (by simpa using hw)

theorem checkArgs_ok : (ps : List (String × Ty)) → (as : List (AnyArg E)) → checkArgs ps as = .ok () →
    ∀ (i : Nat) p a, ps[i]? = some p → as[i]? = some a → p.2 = a.type
  | [], [], _ => fun i p a hp => by simp at hp
  | [], _ :: _, h => by cases h
  | _ :: _, [], h => by cases h
  | p :: ps, a :: as, h => by
    unfold checkArgs at h
    by_cases ht : p.2 = a.type
    · rw [if_pos ht] at h
      intro i q b hq hb
      cases i with
      | zero =>
        simp only [List.getElem?_cons_zero, Option.some.injEq] at hq hb
        subst hq hb
        exact ht
      | succ i => exact checkArgs_ok ps as h i q b (by simpa using hq) (by simpa using hb)
    · rw [if_neg ht] at h; cases h

theorem callExternal_ok {f : ExternalFn} {args : List (Passed E)} {kwargs : List (String × Passed E)} {c : Call E} (h : callExternal f args kwargs = .ok c) :
    ∃ vals, combineArgs (f.params.map (·.1)) args kwargs = .ok vals ∧ convertArgs f.params vals = .ok c.args ∧ checkArgs f.params c.args = .ok () ∧
      c.elements = resultElements f.ret := by
  unfold callExternal at h
  by_cases hr : (kwargs.any fun k => k.1 == "self" || k.1 == "func") = true
  · rw [if_pos hr] at h; cases h
  rw [if_neg hr] at h
  cases h1 : combineArgs (f.params.map (·.1)) args kwargs with
  | error e => rw [h1] at h; cases h
  | ok vals =>
    rw [h1] at h
    cases h2 : convertArgs f.params vals with
    | error e => simp only [Except.bind, bind, h2] at h; cases h
    | ok as =>
      simp only [Except.bind, bind, h2] at h
      cases h3 : checkArgs f.params as with
      | error e => rw [h3] at h; cases h
      | ok u =>
        rw [h3] at h
        cases h
        exact ⟨vals, rfl, h2, h3, rfl⟩

/-- A call that is accepted binds the values to the parameters as Python does, and passes to every parameter an expression that stands for its
value and has its declared type. The result is the first element of the invocation for a scalar, all elements in order for a matrix. -/
theorem C72_call (f : ExternalFn) (hn : (f.params.map (·.1)).Nodup) (args : List (Passed E)) (kwargs : List (String × Passed E))
    (hk : (kwargs.map (·.1)).Nodup) (c : Call E) (h : callExternal f args kwargs = .ok c) (ha : ∀ v ∈ args, v.WellFormed) (hkw : ∀ k ∈ kwargs, k.2.WellFormed) :
    ∃ vals, PyBinds (f.params.map (·.1)) args kwargs vals ∧ c.args.length = f.params.length ∧
      (∀ (i : Nat) p v, f.params[i]? = some p → vals[i]? = some v → ∃ a, c.args[i]? = some a ∧ Stands v a ∧ a.HasType p.2) ∧
      (∀ t, f.ret = .scalar t → c.elements = some (1, 1, [0])) ∧ (∀ r k, f.ret = .matrix r k → c.elements = some (r, k, List.range (r * k))) ∧
      (∀ n fs, f.ret = .custom n fs → c.elements = none) := by
  obtain ⟨vals, h1, h2, h3, h4⟩ := callExternal_ok h
  have hb := (C72_binding _ hn args kwargs hk vals).1 h1
  obtain ⟨g1, g2, g3⟩ := convertArgs_ok _ _ _ h2
  refine ⟨vals, hb, g1, fun i p v hp hv => ?_, fun t ht => by rw [h4, ht]; rfl, fun r k ht => by rw [h4, ht]; rfl, fun n fs ht => by rw [h4, ht]; rfl⟩
  obtain ⟨a, ha', hc⟩ := g3 i p v hp hv
  have hw : v.WellFormed := by
    by_cases hi : i < args.length
    · rw [hb.positional i hi] at hv
      exact ha v (List.mem_of_getElem? hv)
    · have hpn : (f.params.map (·.1))[i]? = some p.1 := by rw [List.getElem?_map, hp]; rfl
      obtain ⟨w, hw1, hw2⟩ := hb.keyword i p.1 (by omega) hpn
      rw [hv] at hw2
      rw [Option.some.inj hw2]
      exact hkw _ hw1
  obtain ⟨k1, k2⟩ := convertArg_spec hw hc (checkArgs_ok _ _ h3 i p a hp ha')
  exact ⟨a, ha', k1, k2⟩

theorem convertArgs_runs : (ps : List (String × Ty)) → (vs : List (Passed E)) → vs.length = ps.length →
    (∀ (i : Nat) p v, ps[i]? = some p → vs[i]? = some v → ∃ a, Stands v a ∧ a.HasType p.2) →
    ∃ as, convertArgs ps vs = .ok as ∧ checkArgs ps as = .ok ()
  | [], [], _, _ => ⟨[], rfl, rfl⟩
  | [], _ :: _, h, _ => by simp at h
  | _ :: _, [], h, _ => by simp at h
  | p :: ps, v :: vs, hl, h => by
    obtain ⟨a, h1, h2⟩ := h 0 p v rfl rfl
    obtain ⟨h3, h4⟩ := convertArg_runs h1 h2
    obtain ⟨as, g1, g2⟩ := convertArgs_runs ps vs (by simpa using hl) fun i q w hq hw => h (i + 1) q w (by simpa using hq) (by simpa using hw)
    refine ⟨a :: as, ?_, ?_⟩
    · unfold convertArgs; rw [h3, g1]; rfl
    · unfold checkArgs; rw [if_pos h4, g2]

/-- Every call that Python's rules and the declared types allow is accepted. Partial: the keywords must not be `self` or `func`
(`C72_reserved_refuted`), and no expression has an integer type (`C72_integer_refuted`). -/
theorem C72_accepts_partial (f : ExternalFn) (hn : (f.params.map (·.1)).Nodup) (args : List (Passed E)) (kwargs : List (String × Passed E))
    (hk : (kwargs.map (·.1)).Nodup) (hr : ∀ k ∈ kwargs, k.1 ≠ "self" ∧ k.1 ≠ "func") (vals : List (Passed E))
    (hb : PyBinds (f.params.map (·.1)) args kwargs vals)
    (ht : ∀ (i : Nat) p v, f.params[i]? = some p → vals[i]? = some v → ∃ a, Stands v a ∧ a.HasType p.2) :
    ∃ c, callExternal f args kwargs = .ok c := by
  obtain ⟨as, h1, h2⟩ := convertArgs_runs f.params vals (by have := hb.length; simpa using this) ht
  refine ⟨⟨as, resultElements f.ret⟩, ?_⟩
  have hany : ¬ (kwargs.any fun k => k.1 == "self" || k.1 == "func") = true := by
    rw [List.any_eq_true]
    rintro ⟨k, hk', hh⟩
    have := hr k hk'
    simp [this.1, this.2] at hh
  unfold callExternal
  rw [if_neg hany, (C72_binding _ hn args kwargs hk vals).2 hb]
  simp only [Except.bind, bind, h1, h2]
  rfl

/-- A function with an integer parameter is accepted, but no call of it is: every scalar is taken to be a float. -/
theorem C72_integer_refuted (f : ExternalFn) (name : String) (h : (name, Ty.scalar .integral) ∈ f.params) (args : List (Passed E))
    (kwargs : List (String × Passed E)) : ∃ e, callExternal f args kwargs = .error e := by
  cases hc : callExternal f args kwargs with
  | error e => exact ⟨e, rfl⟩
  | ok c =>
    exfalso
    obtain ⟨vals, h1, h2, h3, _⟩ := callExternal_ok hc
    obtain ⟨g1, g2, g3⟩ := convertArgs_ok _ _ _ h2
    obtain ⟨i, hi⟩ := List.mem_iff_getElem?.1 h
    have hi' := (List.getElem?_eq_some_iff.1 hi).1
    have hv : vals[i]? = some vals[i] := List.getElem?_eq_getElem (by omega)
    obtain ⟨a, ha, hca⟩ := g3 i _ _ hi hv
    have ht := checkArgs_ok _ _ h3 i _ a hi ha
    cases hvi : vals[i] with
    | expr x => rw [hvi] at hca; cases hca; cases ht
    | number x => rw [hvi] at hca; cases hca; cases ht
    | matrix m => rw [hvi] at hca; cases hca; cases ht
    | inst u at_ => rw [hvi] at hca; cases hca
    | «opaque» u p => rw [hvi] at hca; cases hca
    | other => rw [hvi] at hca; cases hca

/-- A parameter called `func` cannot be passed by keyword, although Python's rules bind it. -/
theorem C72_reserved_refuted (x : E) :
    PyBinds ["func"] [] [("func", Passed.expr x)] [Passed.expr x] ∧
    callExternal ⟨[("func", .scalar .floating)], .scalar .floating⟩ [] [("func", Passed.expr x)] = .error .type ∧
    (∃ c, callExternal ⟨[("func", .scalar .floating)], .scalar .floating⟩ [Passed.expr x] [] = .ok c) := by
  refine ⟨⟨by simp, rfl, fun i hi => by simp at hi, fun i s _ hs => ?_, fun s v hsv => ?_⟩, rfl,
    C72_accepts_partial _ (by simp) _ _ (by simp) (by simp) [Passed.expr x] ⟨by simp, rfl, fun i _ => rfl, fun i s hi hs => ?_, by simp⟩ fun i p v hp hv => ?_⟩
  · cases i with
    | zero => simp at hs; exact ⟨_, by simp [hs], rfl⟩
    | succ i => simp at hs
  · simp at hsv
    exact ⟨0, by simp, by simp [hsv.1]⟩
  · simp only [List.length_cons, List.length_nil] at hi
    rw [List.getElem?_eq_none (by simp; omega)] at hs
    cases hs
  · cases i with
    | zero =>
      simp only [List.getElem?_cons_zero, Option.some.injEq] at hp hv
      subst hp hv
      exact ⟨_, .expr x, rfl⟩
    | succ i => simp at hp

/-- Names of parameters that are used twice are refused. -/
theorem C72_declared (params : List (String × Ty)) (ret : Ty) : (∃ f, declareExternal params ret = .ok f) ↔ (params.map (·.1)).Nodup := by
  unfold declareExternal
  by_cases h : (params.map (·.1)).Nodup
  · rw [if_pos h]; exact ⟨fun _ => h, fun _ => ⟨_, rfl⟩⟩
  · rw [if_neg h]; exact ⟨(fun ⟨f, hf⟩ => by cases hf), fun h' => absurd h' h⟩

/-! ## Examples -/

/-- `f(a: float, s: S, b: float)`, called as `f(1, b=3, s=S(…))`. -/
def exampleFn : ExternalFn := ⟨[("a", .scalar .floating), ("s", twoVectors), ("b", .scalar .floating)], .matrix 2 1⟩

def exampleArg : Passed Int := .inst twoVectors (.cons "a" (.matrix ⟨2, 1, [1, 2]⟩) (.cons "b" (.matrix ⟨3, 1, [3, 4, 5]⟩) .nil))

example : (exampleFn.params.map (·.1)).Nodup ∧
    callExternal exampleFn [.number 1] [("b", .expr 3), ("s", exampleArg)] = .ok ⟨[.scalar 1, .struct twoVectors [1, 2, 3, 4, 5], .scalar 3], some (2, 1, [0, 1])⟩ := by
  refine ⟨by decide, ?_⟩
  have hs : ([(2, Passed.expr 3), (1, exampleArg)] : List (Nat × Passed Int)).mergeSort (fun a b => decide (a.1 ≤ b.1)) = [(1, exampleArg), (2, .expr 3)] := by
    simp [List.mergeSort, List.MergeSort.Internal.splitInTwo, List.merge]
  have hcomb : combineArgs (exampleFn.params.map (·.1)) [.number 1] [("b", .expr 3), ("s", exampleArg)] = .ok [Passed.number 1, exampleArg, .expr 3] := by
    unfold combineArgs
    rw [if_neg (by simp [exampleFn])]
    show Except.ok ([Passed.number 1] ++ (([(2, Passed.expr 3), (1, exampleArg)] : List (Nat × Passed Int)).mergeSort (fun a b => decide (a.1 ≤ b.1))).map (·.2)) = _
    rw [hs]
    rfl
  unfold callExternal
  rw [if_neg (by decide), hcomb]
  rfl

end Wf.Gen
