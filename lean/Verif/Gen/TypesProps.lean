import Verif.Gen.TypesSpec
import Mathlib.Data.List.Basic

/-!
# C47: access sequences
-/

namespace Wf.Gen

theorem flatten_getElem? {α : Type} (c : Nat) (rows : List (List α)) (h : ∀ row ∈ rows, row.length = c) (i : Nat) (hi : i < rows.length * c) :
    rows.flatten[i]? = (rows[i / c]?).bind fun row => row[i % c]? := by
  induction rows generalizing i with
  | nil => simp at hi
  | cons row rows ih =>
    have hr : row.length = c := h row List.mem_cons_self
    have hc : 0 < c := by
      rcases Nat.eq_zero_or_pos c with h0 | h0
      · rw [h0] at hi; simp at hi
      · exact h0
    rw [List.flatten_cons, List.getElem?_append]
    by_cases hic : i < c
    · rw [if_pos (by omega), Nat.div_eq_of_lt hic, Nat.mod_eq_of_lt hic]; rfl
    · have hci : c ≤ i := Nat.le_of_not_lt hic
      rw [if_neg (by omega), hr, ih (fun r hr => h r (List.mem_cons_of_mem _ hr)) (i - c) (by rw [List.length_cons, Nat.succ_mul] at hi; omega)]
      have h1 : i / c = (i - c) / c + 1 := by rw [Nat.div_eq_sub_div hc hci]
      have h2 : i % c = (i - c) % c := by rw [Nat.mod_eq_sub_mod hci]
      rw [h1, h2, List.getElem?_cons_succ]

theorem flatten_length {α : Type} (c : Nat) (rows : List (List α)) (h : ∀ row ∈ rows, row.length = c) : rows.flatten.length = rows.length * c := by
  induction rows with
  | nil => simp
  | cons row rows ih =>
    rw [List.flatten_cons, List.length_append, ih (fun r hr => h r (List.mem_cons_of_mem _ hr)), h row List.mem_cons_self, List.length_cons, Nat.succ_mul, Nat.add_comm]

mutual
theorem elements_length {α : Type} : (t : Ty) → (v : Val α) → v.HasType t → v.elements.length = t.totalSize
  | .scalar _, .scalar _, _ => rfl
  | .scalar _, .matrix _, h => by simp [Val.HasType] at h
  | .scalar _, .struct _, h => by simp [Val.HasType] at h
  | .matrix _ _, .scalar _, h => by simp [Val.HasType] at h
  | .matrix r c, .matrix rows, h => by
    unfold Val.HasType at h
    unfold Val.elements Ty.totalSize
    rw [flatten_length c rows h.2, h.1]
  | .matrix _ _, .struct _, h => by simp [Val.HasType] at h
  | .custom _ _, .scalar _, h => by simp [Val.HasType] at h
  | .custom _ _, .matrix _, h => by simp [Val.HasType] at h
  | .custom _ fs, .struct ms, h => by
    unfold Val.HasType at h
    unfold Val.elements Ty.totalSize
    exact members_length fs ms h
theorem members_length {α : Type} : (fs : Fields) → (ms : Members α) → ms.HasType fs → ms.elements.length = fs.totalSize
  | .nil, .nil, _ => rfl
  | .nil, .cons _ _ _, h => by simp [Members.HasType] at h
  | .cons _ _ _, .nil, h => by simp [Members.HasType] at h
  | .cons _ t fs, .cons _ v ms, h => by
    unfold Members.HasType at h
    unfold Members.elements Fields.totalSize
    rw [List.length_append, elements_length t v h.2.1, members_length fs ms h.2.2]
end

/-- What `build` does on element `index` of a value with the given elements and reader. -/
structure Builds {α : Type} (res : Bool × Nat × List Access) (out : List Access) (size index : Nat) (elements : List α) (read : List Step → Option α) : Prop where
  found : index < size → ∃ j p path, res = (true, j, out ++ p) ∧ p.reverse.mapM Access.step = .ok path ∧ read path = elements[index]?
  skipped : size ≤ index → res = (false, index - size, out)

theorem lookup_of_mem {α : Type} {ms : Members α} {fs : Fields} (h : ms.HasType fs) : ∀ s, s ∉ fs.names → ms.lookup s = none := by
  induction fs using Fields.rec (motive_1 := fun _ => True) generalizing ms with
  | scalar => trivial
  | matrix => trivial
  | custom => trivial
  | nil => intro s _; cases ms with | nil => rfl | cons _ _ _ => simp [Members.HasType] at h
  | cons n t r _ ih =>
    intro s hs
    cases ms with
    | nil => simp [Members.HasType] at h
    | cons n' v ms =>
      unfold Members.HasType at h
      unfold Fields.names at hs
      rw [List.mem_cons, not_or] at hs
      unfold Members.lookup
      rw [if_neg (by rw [h.1]; exact fun e => hs.1 e.symm)]
      exact ih h.2.2 s hs.2

mutual
theorem build_spec {α : Type} : (t : Ty) → (v : Val α) → t.valid = true → v.HasType t → ∀ index out,
    Builds (t.build index out) out t.totalSize index v.elements v.readPath
  | .scalar _, .scalar x, _, _ => fun index out => by
    constructor
    · intro hi
      have hi' : index = 0 := by unfold Ty.totalSize at hi; omega
      subst hi'
      exact ⟨0, [], [], by simp [Ty.build], rfl, rfl⟩
    · intro hi
      unfold Ty.totalSize at hi ⊢
      unfold Ty.build
      rw [if_neg (by omega)]
  | .scalar _, .matrix _, _, h => by simp [Val.HasType] at h
  | .scalar _, .struct _, _, h => by simp [Val.HasType] at h
  | .matrix _ _, .scalar _, _, h => by simp [Val.HasType] at h
  | .matrix r c, .matrix rows, _, h => fun index out => by
    unfold Val.HasType at h
    constructor
    · intro hi
      unfold Ty.totalSize at hi
      refine ⟨index, [.element r c index], [.cell (index / c) (index % c)], by unfold Ty.build; rw [if_pos hi], ?_, ?_⟩
      · have : Access.step (.element r c index) = .ok (.cell (index / c) (index % c)) := by
          show (match computeIndices r c index with | .ok (i, j) => Except.ok (Step.cell i j) | .error x => .error x) = _
          unfold computeIndices
          rw [if_pos hi]
        rw [List.reverse_singleton, List.mapM_cons, this]
        rfl
      · unfold Val.elements
        rw [flatten_getElem? c rows h.2 index (by rw [h.1]; exact hi)]
        unfold Val.readPath
        show (match (((rows[index / c]?).bind fun row => row[index % c]?).map Val.scalar) with | some w => w.readPath [] | none => none) = _
        cases ((rows[index / c]?).bind fun row => row[index % c]?) <;> rfl
    · intro hi
      unfold Ty.totalSize at hi ⊢
      unfold Ty.build
      rw [if_neg (by omega)]
  | .matrix _ _, .struct _, _, h => by simp [Val.HasType] at h
  | .custom _ _, .scalar _, _, h => by simp [Val.HasType] at h
  | .custom _ _, .matrix _, _, h => by simp [Val.HasType] at h
  | .custom n fs, .struct ms, hv, h => fun index out => by
    unfold Val.HasType at h
    unfold Ty.valid at hv
    simp only [Bool.and_eq_true, decide_eq_true_eq] at hv
    unfold Ty.build Ty.totalSize Val.elements
    exact fields_spec n fs ms fs ms hv.1 hv.2 h (fun _ _ => rfl) index out
theorem fields_spec {α : Type} (n : String) (all : Fields) (allMs : Members α) : (fs : Fields) → (ms : Members α) → fs.names.Nodup → fs.valid = true → ms.HasType fs →
    (∀ s ∈ fs.names, allMs.lookup s = ms.lookup s) → ∀ index out,
    Builds (buildFields n all fs index out) out fs.totalSize index ms.elements (Val.struct allMs).readPath
  | .nil, .nil, _, _, _, _ => fun index out => by
    constructor
    · intro hi; unfold Fields.totalSize at hi; omega
    · intro _; unfold buildFields Fields.totalSize; rfl
  | .nil, .cons _ _ _, _, _, h, _ => by simp [Members.HasType] at h
  | .cons _ _ _, .nil, _, _, h, _ => by simp [Members.HasType] at h
  | .cons f' t fs, .cons f v ms, hnd, hv, h, hl => fun index out => by
    unfold Members.HasType at h
    obtain ⟨hff, h1, h2⟩ := h
    subst hff
    unfold Fields.names at hnd
    rw [List.nodup_cons] at hnd
    unfold Fields.valid at hv
    rw [Bool.and_eq_true] at hv
    have b := build_spec t v hv.1 h1 index out
    have hlf : allMs.lookup f = some v := by
      rw [hl f (by unfold Fields.names; exact List.mem_cons_self)]
      unfold Members.lookup
      rw [if_pos rfl]
    have hlen := elements_length t v h1
    by_cases hi : index < t.totalSize
    · obtain ⟨j, p, path, e1, e2, e3⟩ := b.found hi
      constructor
      · intro _
        refine ⟨j, p ++ [.field n all f], .member f :: path, ?_, ?_, ?_⟩
        · unfold buildFields
          rw [e1]
          simp
        · rw [List.reverse_append, List.reverse_singleton, List.singleton_append, List.mapM_cons, e2]
          rfl
        · unfold Val.readPath Val.read
          simp only [hlf]
          unfold Members.elements
          rw [List.getElem?_append_left (by omega)]
          exact e3
      · intro h'
        unfold Fields.totalSize at h'
        omega
    · have hi' : t.totalSize ≤ index := Nat.le_of_not_lt hi
      have e := b.skipped hi'
      have b' := fields_spec n all allMs fs ms hnd.2 hv.2 h2 (by
        intro s hs
        rw [hl s (by unfold Fields.names; exact List.mem_cons_of_mem _ hs)]
        show (if f = s then some v else ms.lookup s) = _
        rw [if_neg (fun e => hnd.1 (by rw [e]; exact hs))]) (index - t.totalSize) out
      constructor
      · intro h'
        unfold Fields.totalSize at h'
        obtain ⟨j, p, path, e1, e2, e3⟩ := b'.found (by omega)
        refine ⟨j, p, path, ?_, e2, ?_⟩
        · unfold buildFields
          rw [e]
          simp only [Bool.false_eq_true, if_false]
          exact e1
        · unfold Members.elements
          rw [List.getElem?_append_right (by omega), hlen]
          exact e3
      · intro h'
        unfold Fields.totalSize at h' ⊢
        unfold buildFields
        rw [e]
        simp only [Bool.false_eq_true, if_false]
        rw [b'.skipped (by omega)]
        congr 2
        omega
end

/-- C47: for every index below the total size the path exists, and in every value of the type following it gives the element with that
index in declaration order. -/
theorem C47_reaches {α : Type} (n : String) (fs : Fields) (hv : (Ty.custom n fs).valid = true) (v : Val α) (h : v.HasType (.custom n fs)) (i : Nat)
    (hi : i < (Ty.custom n fs).totalSize) :
    ∃ path, accessPath (.custom n fs) i = .ok path ∧ v.readPath path = v.elements[i]? ∧ v.elements[i]? ≠ none := by
  obtain ⟨j, p, path, e1, e2, e3⟩ := (build_spec (.custom n fs) v hv h i []).found hi
  refine ⟨path, ?_, e3, ?_⟩
  · unfold accessPath determineAccessSequence
    rw [e1]
    simp only [if_true, List.nil_append]
    exact e2
  · rw [Ne, List.getElem?_eq_none_iff, elements_length _ v h]
    omega

/-! ### A value to tell indices apart -/

mutual
/-- A value of a type whose elements count from `k`. -/
def Ty.fill : Ty → Nat → Val Nat
  | .scalar _, k => .scalar k
  | .matrix r c, k => .matrix ((List.range r).map fun i => (List.range c).map fun j => k + (i * c + j))
  | .custom _ fs, k => .struct (fs.fill k)
def Fields.fill : Fields → Nat → Members Nat
  | .nil, _ => .nil
  | .cons n t fs, k => .cons n (t.fill k) (fs.fill (k + t.totalSize))
end

theorem fill_matrix (r c k : Nat) : ((List.range r).map fun i => (List.range c).map fun j => k + (i * c + j)).flatten = (List.range (r * c)).map (k + ·) := by
  induction r with
  | zero => simp
  | succ r ih =>
    rw [List.range_succ, List.map_append, List.flatten_append, ih, Nat.succ_mul, List.range_add, List.map_append]
    simp

mutual
theorem fill_spec : (t : Ty) → (k : Nat) → (t.fill k).HasType t ∧ (t.fill k).elements = (List.range t.totalSize).map (k + ·)
  | .scalar _, k => ⟨trivial, rfl⟩
  | .matrix r c, k => by
    unfold Ty.fill Val.HasType Val.elements Ty.totalSize
    refine ⟨⟨by simp, ?_⟩, fill_matrix r c k⟩
    intro row hrow
    obtain ⟨i, _, rfl⟩ := List.mem_map.mp hrow
    simp
  | .custom _ fs, k => by
    unfold Ty.fill Val.HasType Val.elements Ty.totalSize
    exact fill_fields fs k
theorem fill_fields : (fs : Fields) → (k : Nat) → (fs.fill k).HasType fs ∧ (fs.fill k).elements = (List.range fs.totalSize).map (k + ·)
  | .nil, k => ⟨trivial, rfl⟩
  | .cons n t fs, k => by
    unfold Fields.fill Members.HasType Members.elements Fields.totalSize
    obtain ⟨h1, h2⟩ := fill_spec t k
    obtain ⟨h3, h4⟩ := fill_fields fs (k + t.totalSize)
    refine ⟨⟨rfl, h1, h3⟩, ?_⟩
    rw [h2, h4, List.range_add, List.map_append, List.map_map]
    congr 1
    apply List.map_congr_left
    intro a _
    simp only [Function.comp]
    omega
end

/-- C47: distinct elements have distinct paths. -/
theorem C47_distinct (n : String) (fs : Fields) (hv : (Ty.custom n fs).valid = true) (i j : Nat) (hi : i < (Ty.custom n fs).totalSize)
    (hj : j < (Ty.custom n fs).totalSize) (h : accessPath (.custom n fs) i = accessPath (.custom n fs) j) : i = j := by
  obtain ⟨ht, he⟩ := fill_spec (.custom n fs) 0
  obtain ⟨p, e1, e2, _⟩ := C47_reaches n fs hv _ ht i hi
  obtain ⟨q, e3, e4, _⟩ := C47_reaches n fs hv _ ht j hj
  rw [e1, e3] at h
  cases h
  rw [e2, he] at e4
  simp [hi, hj] at e4
  exact e4

/-- C47: any other index is refused. -/
theorem C47_rejects (n : String) (fs : Fields) (hv : (Ty.custom n fs).valid = true) (i : Nat) (hi : (Ty.custom n fs).totalSize ≤ i) :
    determineAccessSequence (.custom n fs) i = .error .assertion := by
  have := (build_spec (.custom n fs) _ hv (fill_spec (.custom n fs) 0).1 i []).skipped hi
  unfold determineAccessSequence
  rw [this]
  rfl

/-! ### Member types -/

theorem byName_none (s : String) : (fs : Fields) → s ∉ fs.names → fs.byName s = none
  | .nil, _ => rfl
  | .cons n t r, h => by
    unfold Fields.names at h
    rw [List.mem_cons, not_or] at h
    unfold Fields.byName
    rw [if_neg (fun e => h.1 e.symm)]
    exact byName_none s r h.2

mutual
theorem elementTypes_length : (t : Ty) → t.elementTypes.length = t.totalSize
  | .scalar _ => rfl
  | .matrix r c => by unfold Ty.elementTypes Ty.totalSize; simp
  | .custom _ fs => by unfold Ty.elementTypes Ty.totalSize; exact fieldTypes_length fs
theorem fieldTypes_length : (fs : Fields) → fs.elementTypes.length = fs.totalSize
  | .nil => rfl
  | .cons _ t fs => by unfold Fields.elementTypes Fields.totalSize; rw [List.length_append, elementTypes_length t, fieldTypes_length fs]
end

/-- The type the last access of a sequence (bottom first) tells, or `leaf` for an empty sequence. -/
def lastType (leaf : Res Prim) : List Access → Res Prim
  | [] => leaf
  | .element _ _ _ :: _ => .ok .floating
  | .field _ fs name :: _ =>
    match fs.byName name with
    | none => .error .ub
    | some (.scalar p) => .ok p
    | some _ => .error .assertion

/-- The value of `lastType` for an empty sequence: only a scalar has one. -/
def Ty.leafType : Ty → Res Prim
  | .scalar p => .ok p
  | _ => .error .assertion

mutual
theorem type_spec : (t : Ty) → t.valid = true → ∀ index out, index < t.totalSize →
    ∃ j p q, t.build index out = (true, j, out ++ p) ∧ t.elementTypes[index]? = some q ∧ lastType t.leafType p = .ok q
  | .scalar q, _ => fun index out hi => by
    have hi' : index = 0 := by unfold Ty.totalSize at hi; omega
    subst hi'
    exact ⟨0, [], q, by simp [Ty.build], rfl, rfl⟩
  | .matrix r c, _ => fun index out hi => by
    unfold Ty.totalSize at hi
    exact ⟨index, [.element r c index], .floating, by unfold Ty.build; rw [if_pos hi], by unfold Ty.elementTypes; rw [List.getElem?_replicate, if_pos hi], rfl⟩
  | .custom n fs, hv => fun index out hi => by
    unfold Ty.valid at hv
    simp only [Bool.and_eq_true, decide_eq_true_eq] at hv
    unfold Ty.totalSize at hi
    unfold Ty.build Ty.elementTypes
    obtain ⟨j, p, q, h1, h2, _, h3⟩ := fieldType_spec n fs fs hv.1 hv.2 (fun _ _ => rfl) index out hi
    exact ⟨j, p, q, h1, h2, h3 _⟩
theorem fieldType_spec (n : String) (all : Fields) : (fs : Fields) → fs.names.Nodup → fs.valid = true → (∀ s ∈ fs.names, all.byName s = fs.byName s) →
    ∀ index out, index < fs.totalSize →
    ∃ j p q, buildFields n all fs index out = (true, j, out ++ p) ∧ fs.elementTypes[index]? = some q ∧ p ≠ [] ∧ ∀ leaf, lastType leaf p = .ok q
  | .nil, _, _, _ => fun index out hi => by unfold Fields.totalSize at hi; omega
  | .cons f t fs, hnd, hv, hl => fun index out hi => by
    unfold Fields.names at hnd
    rw [List.nodup_cons] at hnd
    unfold Fields.valid at hv
    rw [Bool.and_eq_true] at hv
    unfold Fields.totalSize at hi
    have hlf : all.byName f = some t := by
      rw [hl f (by unfold Fields.names; exact List.mem_cons_self)]
      unfold Fields.byName
      rw [if_pos rfl]
    have hlen := elementTypes_length t
    by_cases h' : index < t.totalSize
    · obtain ⟨j, p, q, h1, h2, h3⟩ := type_spec t hv.1 index out h'
      refine ⟨j, p ++ [.field n all f], q, ?_, ?_, by simp, ?_⟩
      · unfold buildFields
        rw [h1]
        simp
      · unfold Fields.elementTypes
        rw [List.getElem?_append_left (by omega)]
        exact h2
      · intro leaf
        cases p with
        | nil =>
          rw [List.nil_append]
          show (match all.byName f with | none => Except.error Err.ub | some (.scalar p) => .ok p | some _ => .error .assertion) = _
          rw [hlf]
          cases t with
          | scalar p => exact h3
          | matrix r c => cases h3
          | custom m gs => cases h3
        | cons a p => cases a <;> exact h3
    · have hs := (build_spec t _ hv.1 (fill_spec t 0).1 index out).skipped (Nat.le_of_not_lt h')
      obtain ⟨j, p, q, h1, h2, h3, h4⟩ := fieldType_spec n all fs hnd.2 hv.2 (by
        intro s hs
        rw [hl s (by unfold Fields.names; exact List.mem_cons_of_mem _ hs)]
        show (if f = s then some t else fs.byName s) = _
        rw [if_neg (fun e => hnd.1 (by rw [e]; exact hs))]) (index - t.totalSize) out (by omega)
      refine ⟨j, p, q, ?_, ?_, h3, h4⟩
      · unfold buildFields
        rw [hs]
        simp only [Bool.false_eq_true, if_false]
        exact h1
      · unfold Fields.elementTypes
        rw [List.getElem?_append_right (by omega), hlen]
        exact h2
end

/-- C47: the numeric type found for an element is the declared one. -/
theorem C47_member_type (n : String) (fs : Fields) (hv : (Ty.custom n fs).valid = true) (i : Nat) (hi : i < (Ty.custom n fs).totalSize) :
    ∃ p, (Ty.custom n fs).elementTypes[i]? = some p ∧ determineMemberType (.custom n fs) i = .ok p := by
  have hv' := hv
  unfold Ty.valid at hv'
  simp only [Bool.and_eq_true, decide_eq_true_eq] at hv'
  unfold Ty.totalSize at hi
  obtain ⟨j, p, q, h1, h2, h3, h4⟩ := fieldType_spec n fs fs hv'.1 hv'.2 (fun _ _ => rfl) i [] hi
  refine ⟨q, by unfold Ty.elementTypes; exact h2, ?_⟩
  unfold determineMemberType determineAccessSequence Ty.build
  rw [h1]
  simp only [if_true, List.nil_append, List.getLast?_reverse]
  have h5 := h4 (.error .assertion)
  cases p with
  | nil => exact absurd rfl h3
  | cons a p =>
    cases a with
    | field m gs name => exact h5
    | element r c e => exact h5

/-- `struct Pose { struct Time { int t; } stamp; matrix<2, 3> m; float w; }`. -/
def poseType : Ty :=
  .custom "Pose" (.cons "stamp" (.custom "Time" (.cons "t" (.scalar .integral) .nil)) (.cons "m" (.matrix 2 3) (.cons "w" (.scalar .floating) .nil)))

example : poseType.valid = true ∧ poseType.totalSize = 8 := by decide
example : (poseType.fill 0).HasType poseType := (fill_spec _ 0).1
example : (List.range 8).map (accessPath poseType) =
    [.ok [.member "stamp", .member "t"], .ok [.member "m", .cell 0 0], .ok [.member "m", .cell 0 1], .ok [.member "m", .cell 0 2],
     .ok [.member "m", .cell 1 0], .ok [.member "m", .cell 1 1], .ok [.member "m", .cell 1 2], .ok [.member "w"]] := by rfl
example : determineMemberType poseType 0 = .ok .integral ∧ determineMemberType poseType 5 = .ok .floating := by constructor <;> rfl

end Wf.Gen
