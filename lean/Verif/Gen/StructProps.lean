import Verif.Gen.StructModel
import Verif.Gen.TypesProps
import Verif.Mat.PyMatProps

/-!
# C71: instances of user-defined types and lists of expressions
-/

namespace Wf.Gen

open Mat (Mat PyObj matrixFromIterable listFromMatrix)

variable {E : Type}

/-! ## Specification -/

mutual
/-- The instance has the type: the declared attributes in this order, matrices of the declared shapes. -/
def PyVal.Fits : PyVal E → Ty → Prop
  | .expr _, .scalar _ => True
  | .matrix m, .matrix r c => m.WF ∧ m.rows = r ∧ m.cols = c
  | .inst a, .custom _ fs => a.Fits fs
  | _, _ => False
def Attrs.Fits : Attrs E → Fields → Prop
  | .nil, .nil => True
  | .cons n v a, .cons n' t fs => n = n' ∧ v.Fits t ∧ a.Fits fs
  | _, _ => False
end

mutual
/-- The struct value that an instance stands for (`Val`, the specification of C47). -/
def PyVal.toVal : PyVal E → Val E
  | .expr x => .scalar x
  | .matrix m => .matrix (match listFromMatrix m with | .ok rows => rows | .error _ => [])
  | .inst a => .struct a.toMembers
  | .other => .struct .nil
def Attrs.toMembers : Attrs E → Members E
  | .nil => .nil
  | .cons n v a => .cons n v.toVal a.toMembers
end

mutual
/-- Types without opaque members, with matrices that are not empty and whose sizes fit `int`. -/
def Ty.Filled : Ty → Prop
  | .scalar _ => True
  | .matrix r c => 0 < r * c ∧ r * c < 2 ^ 31
  | .custom _ fs => fs ≠ .nil ∧ fs.Filled
def Fields.Filled : Fields → Prop
  | .nil => True
  | .cons _ t fs => t.Filled ∧ fs.Filled
end

/-! ## Lemmas -/

theorem rows_flatten (m : Mat E) (h : m.WF) : ∃ rows, listFromMatrix m = .ok rows ∧ (rows.length : Int) = m.rows ∧
    (∀ r ∈ rows, (r.length : Int) = m.cols) ∧ rows.flatten = m.data := by
  obtain ⟨rows, h1, h2, h3, h4⟩ := Mat.C70_to_list m h
  refine ⟨rows, h1, h2, h3, ?_⟩
  obtain ⟨c, hc⟩ := Int.eq_ofNat_of_zero_le h.cols_nonneg
  have hrow : ∀ row ∈ rows, row.length = c := fun r hr => by have := h3 r hr; omega
  have hlen : rows.flatten.length = m.data.length := by
    have h5 := flatten_length c rows hrow
    have h6 := h.size_eq
    rw [← h2, hc] at h6
    have : (m.data.length : Int) = ((rows.length * c : Nat) : Int) := by rw [h6]; push_cast; rfl
    omega
  apply List.ext_getElem hlen
  intro k hk hk'
  have hk2 : k < rows.length * c := by rw [← flatten_length c rows hrow]; exact hk
  have hc0 : 0 < c := by
    rcases Nat.eq_zero_or_pos c with h0 | h0
    · rw [h0] at hk2; simp at hk2
    · exact h0
  have hi : k / c < rows.length := Nat.div_lt_of_lt_mul (by rw [Nat.mul_comm]; exact hk2)
  have hj : k % c < c := Nat.mod_lt _ hc0
  have e1 := flatten_getElem? c rows hrow k hk2
  rw [List.getElem?_eq_getElem hi] at e1
  have hj' : k % c < rows[k / c].length := by rw [hrow _ (List.getElem_mem hi)]; exact hj
  have e2 := h4 (k / c) (k % c) rows[k / c] rows[k / c][k % c] (List.getElem?_eq_getElem hi) (List.getElem?_eq_getElem hj')
  obtain ⟨x, hx, _, hx2⟩ := h.get_ok (i := ((k / c : Nat) : Int)) (j := ((k % c : Nat) : Int)) (Int.natCast_nonneg _) (by omega)
    (Int.natCast_nonneg _) (by omega)
  rw [e2] at hx
  have e3 : (((k / c : Nat) : Int) * m.cols + ((k % c : Nat) : Int)).toNat = k := by
    rw [hc]
    have : ((k / c : Nat) : Int) * (c : Int) + ((k % c : Nat) : Int) = ((k : Nat) : Int) := by
      have := Nat.div_add_mod' k c
      exact_mod_cast this
    rw [this]; simp
  rw [e3] at hx2
  have e4 : rows.flatten[k]? = some rows[k / c][k % c] := by rw [e1]; exact List.getElem?_eq_getElem hj'
  have e5 : rows.flatten[k]? = m.data[k]? := by rw [e4, hx2, Except.ok.inj hx]
  rw [List.getElem?_eq_getElem hk, List.getElem?_eq_getElem hk'] at e5
  exact Option.some.inj e5

mutual
theorem PyVal.Fits.val : (t : Ty) → (v : PyVal E) → v.Fits t → v.toVal.HasType t
  | .scalar _, .expr _, _ => trivial
  | .matrix r c, .matrix m, h => by
    unfold PyVal.Fits at h
    obtain ⟨rows, h1, h2, h3, _⟩ := rows_flatten m h.1
    unfold PyVal.toVal Val.HasType
    rw [h1]
    show rows.length = r ∧ ∀ row ∈ rows, row.length = c
    exact ⟨by have := h.2.1; omega, fun row hr => by have := h3 row hr; have := h.2.2; omega⟩
  | .custom _ fs, .inst a, h => by
    unfold PyVal.Fits at h
    unfold PyVal.toVal Val.HasType
    exact Attrs.Fits.val fs a h
  | .scalar _, .matrix _, h => by simp [PyVal.Fits] at h
  | .scalar _, .inst _, h => by simp [PyVal.Fits] at h
  | .scalar _, .other, h => by simp [PyVal.Fits] at h
  | .matrix _ _, .expr _, h => by simp [PyVal.Fits] at h
  | .matrix _ _, .inst _, h => by simp [PyVal.Fits] at h
  | .matrix _ _, .other, h => by simp [PyVal.Fits] at h
  | .custom _ _, .expr _, h => by simp [PyVal.Fits] at h
  | .custom _ _, .matrix _, h => by simp [PyVal.Fits] at h
  | .custom _ _, .other, h => by simp [PyVal.Fits] at h
theorem Attrs.Fits.val : (fs : Fields) → (a : Attrs E) → a.Fits fs → a.toMembers.HasType fs
  | .nil, .nil, _ => trivial
  | .cons _ t fs, .cons _ v a, h => by
    unfold Attrs.Fits at h
    unfold Attrs.toMembers Members.HasType
    exact ⟨h.1, PyVal.Fits.val t v h.2.1, Attrs.Fits.val fs a h.2.2⟩
  | .nil, .cons _ _ _, h => by simp [Attrs.Fits] at h
  | .cons _ _ _, .nil, h => by simp [Attrs.Fits] at h
end

/-- The attributes with other names do not matter. -/
theorem toFlat_congr : (fs : Fields) → (a b : Attrs E) → (∀ s ∈ fs.names, a.get s = b.get s) → fs.toFlat a = fs.toFlat b
  | .nil, _, _, _ => rfl
  | .cons n t fs, a, b, h => by
    unfold Fields.toFlat
    rw [h n (by simp [Fields.names]), toFlat_congr fs a b fun s hs => h s (by simp [Fields.names, hs])]

mutual
theorem toFlat_fits : (t : Ty) → (v : PyVal E) → t.valid = true → v.Fits t → t.toFlat v = .ok v.toVal.elements
  | .scalar _, .expr _, _, _ => rfl
  | .matrix r c, .matrix m, _, h => by
    unfold PyVal.Fits at h
    obtain ⟨rows, h1, h2, h3, h4⟩ := rows_flatten m h.1
    unfold PyVal.toVal Val.elements
    rw [h1]
    show Except.ok m.data = Except.ok rows.flatten
    rw [h4]
  | .custom _ fs, .inst a, hv, h => by
    unfold PyVal.Fits at h
    simp only [Ty.valid, Bool.and_eq_true, decide_eq_true_eq] at hv
    exact toFlat_fields fs a hv.1 hv.2 h
  | .scalar _, .matrix _, _, h => by simp [PyVal.Fits] at h
  | .scalar _, .inst _, _, h => by simp [PyVal.Fits] at h
  | .scalar _, .other, _, h => by simp [PyVal.Fits] at h
  | .matrix _ _, .expr _, _, h => by simp [PyVal.Fits] at h
  | .matrix _ _, .inst _, _, h => by simp [PyVal.Fits] at h
  | .matrix _ _, .other, _, h => by simp [PyVal.Fits] at h
  | .custom _ _, .expr _, _, h => by simp [PyVal.Fits] at h
  | .custom _ _, .matrix _, _, h => by simp [PyVal.Fits] at h
  | .custom _ _, .other, _, h => by simp [PyVal.Fits] at h
theorem toFlat_fields : (fs : Fields) → (a : Attrs E) → fs.names.Nodup → fs.valid = true → a.Fits fs → fs.toFlat a = .ok a.toMembers.elements
  | .nil, .nil, _, _, _ => rfl
  | .cons n t fs, .cons n' v a, hn, hv, h => by
    unfold Attrs.Fits at h
    obtain ⟨rfl, h1, h2⟩ := h
    simp only [Fields.valid, Bool.and_eq_true] at hv
    simp only [Fields.names, List.nodup_cons] at hn
    unfold Fields.toFlat
    have hg : (Attrs.cons n' v a).get n' = .ok v := by simp [Attrs.get]
    have hr : fs.toFlat (.cons n' v a) = fs.toFlat a := toFlat_congr fs _ _ fun s hs => by
      rw [Attrs.get, if_neg fun he : n' = s => hn.1 (he ▸ hs)]
    rw [hg, hr, toFlat_fields fs a hn.2 hv.2 h2]
    show (do
      let xs ← t.toFlat v
      let ys ← Except.ok a.toMembers.elements
      return xs ++ ys) = _
    rw [toFlat_fits t v hv.1 h1]
    rfl
  | .nil, .cons _ _ _, _, _, h => by simp [Attrs.Fits] at h
  | .cons _ _ _, .nil, _, _, h => by simp [Attrs.Fits] at h
end

theorem fromFlat_matrix {r c : Nat} (h0 : 0 < r * c) (h1 : r * c < 2 ^ 31) (es : List E) (hes : r * c ≤ es.length) :
    ∃ m, (Ty.matrix r c).fromFlat es = .ok (.matrix m, es.drop (r * c)) ∧ m.WF ∧ m.rows = r ∧ m.cols = c ∧ m.data = es.take (r * c) := by
  have hl : (es.take (r * c)).length = r * c := by rw [List.length_take]; omega
  obtain ⟨x, xs, hx⟩ : ∃ x xs, es.take (r * c) = x :: xs := by
    cases h : es.take (r * c) with
    | nil => rw [h] at hl; exact absurd hl.symm (Nat.pos_iff_ne_zero.1 h0)
    | cons x xs => exact ⟨x, xs, rfl⟩
  have hlx : (x :: xs).length = r * c := by rw [← hx]; exact hl
  obtain ⟨col, e1, e2, e3, e4, e5⟩ := Mat.C70_column x xs (by rw [List.length_cons] at hlx; omega)
  have hr : 0 < r := Nat.pos_of_mul_pos_right h0
  have hc : 0 < c := Nat.pos_of_mul_pos_left h0
  have hr1 : r ≤ r * c := Nat.le_mul_of_pos_right r hc
  have hc1 : c ≤ r * c := Nat.le_mul_of_pos_left c hr
  have hsz : (r : Int) * (c : Int) = ((r * c : Nat) : Int) := by push_cast; rfl
  have e6 := (Mat.C25_reshape col r c (by omega) (by omega)).1 ⟨by omega, by omega, by rw [e5, hlx, hsz]⟩
  have hw : (⟨r, c, col.data⟩ : Mat E).WF := ⟨by simp, by simp, by show (col.data.length : Int) = r * c; rw [e5, hlx, hsz], by show (r : Int) * c < 2 ^ 31; rw [hsz]; omega⟩
  refine ⟨⟨r, c, col.data⟩, ?_, hw, rfl, rfl, by rw [hx]; exact e5⟩
  unfold Ty.fromFlat
  rw [hx, e1]
  show (do
    let m ← col.reshape r c
    return (PyVal.matrix m, es.drop (m.rows * m.cols).toNat)) = _
  rw [e6]
  show Except.ok (PyVal.matrix _, es.drop ((r : Int) * (c : Int)).toNat) = _
  rw [hsz]
  rfl

mutual
theorem fromFlat_fits : (t : Ty) → (es : List E) → t.Filled → t.totalSize ≤ es.length →
    ∃ v, t.fromFlat es = .ok (v, es.drop t.totalSize) ∧ v.Fits t ∧ v.toVal.elements = es.take t.totalSize
  | .scalar p, es, _, h => by
    cases es with
    | nil => simp [Ty.totalSize] at h
    | cons x rest => exact ⟨.expr x, rfl, trivial, rfl⟩
  | .matrix r c, es, hf, h => by
    unfold Ty.Filled at hf
    unfold Ty.totalSize at h ⊢
    obtain ⟨m, h1, h2, h3, h4, h5⟩ := fromFlat_matrix hf.1 hf.2 es h
    refine ⟨.matrix m, h1, ⟨h2, h3, h4⟩, ?_⟩
    obtain ⟨rows, g1, _, _, g4⟩ := rows_flatten m h2
    unfold PyVal.toVal Val.elements
    rw [g1]
    show rows.flatten = _
    rw [g4, h5]
  | .custom n .nil, es, hf, _ => by simp [Ty.Filled] at hf
  | .custom n (.cons k t fs), es, hf, h => by
    unfold Ty.Filled at hf
    unfold Ty.totalSize at h ⊢
    obtain ⟨a, h1, h2, h3⟩ := fromFlat_fields (.cons k t fs) es hf.2 h
    refine ⟨.inst a, ?_, ?_, ?_⟩
    · unfold Ty.fromFlat
      show (do
        let a ← (Fields.cons k t fs).fromFlat es
        return (PyVal.inst a.1, a.2)) = _
      rw [h1]
      rfl
    · unfold PyVal.Fits; exact h2
    · unfold PyVal.toVal Val.elements; exact h3
theorem fromFlat_fields : (fs : Fields) → (es : List E) → fs.Filled → fs.totalSize ≤ es.length →
    ∃ a, fs.fromFlat es = .ok (a, es.drop fs.totalSize) ∧ a.Fits fs ∧ a.toMembers.elements = es.take fs.totalSize
  | .nil, es, _, _ => ⟨.nil, rfl, trivial, rfl⟩
  | .cons n t fs, es, hf, h => by
    unfold Fields.Filled at hf
    unfold Fields.totalSize at h ⊢
    obtain ⟨v, h1, h2, h3⟩ := fromFlat_fits t es hf.1 (by omega)
    obtain ⟨a, g1, g2, g3⟩ := fromFlat_fields fs (es.drop t.totalSize) hf.2 (by rw [List.length_drop]; omega)
    have hne : es.isEmpty = false := by
      have : 0 < t.totalSize := filled_pos t hf.1
      cases es with
      | nil => simp at h; omega
      | cons _ _ => rfl
    refine ⟨.cons n v a, ?_, ⟨rfl, h2, g2⟩, ?_⟩
    · unfold Fields.fromFlat
      rw [hne, if_neg (by simp), h1]
      show (do
        let a ← fs.fromFlat (es.drop t.totalSize)
        return (Attrs.cons n v a.1, a.2)) = _
      rw [g1, List.drop_drop]
      rfl
    · unfold Attrs.toMembers Members.elements
      rw [h3, g3, List.take_add]
theorem filled_pos : (t : Ty) → t.Filled → 0 < t.totalSize
  | .scalar _, _ => by simp [Ty.totalSize]
  | .matrix r c, h => by unfold Ty.Filled at h; unfold Ty.totalSize; exact h.1
  | .custom _ .nil, h => by simp [Ty.Filled] at h
  | .custom _ (.cons _ t fs), h => by
    unfold Ty.Filled at h
    have h2 := h.2
    unfold Fields.Filled at h2
    have := filled_pos t h2.1
    unfold Ty.totalSize Fields.totalSize
    omega
end

mutual
theorem fromFlat_short : (t : Ty) → (es : List E) → t.Filled → es.length < t.totalSize → ∃ e, t.fromFlat es = .error e
  | .scalar p, es, _, h => by
    cases es with
    | nil => exact ⟨_, rfl⟩
    | cons x rest => simp [Ty.totalSize] at h
  | .matrix r c, es, hf, h => by
    unfold Ty.Filled at hf
    unfold Ty.totalSize at h
    have hr : 0 < r := Nat.pos_of_mul_pos_right hf.1
    have hc : 0 < c := Nat.pos_of_mul_pos_left hf.1
    have hr1 : r ≤ r * c := Nat.le_mul_of_pos_right r hc
    have hc1 : c ≤ r * c := Nat.le_mul_of_pos_left c hr
    have hsz : (r : Int) * (c : Int) = ((r * c : Nat) : Int) := by push_cast; rfl
    unfold Ty.fromFlat
    rw [List.take_of_length_le (by omega)]
    cases es with
    | nil => exact ⟨.dimension, rfl⟩
    | cons x xs =>
      obtain ⟨col, e1, e2, e3, e4, e5⟩ := Mat.C70_column x xs (by rw [List.length_cons] at h; omega)
      rw [e1]
      show ∃ e, (do
        let m ← col.reshape r c
        return (PyVal.matrix m, (x :: xs).drop (m.rows * m.cols).toNat)) = .error e
      rw [(Mat.C25_reshape col r c (by omega) (by omega)).2 (by rw [e5, hsz]; omega)]
      exact ⟨_, rfl⟩
  | .custom n .nil, es, hf, _ => by simp [Ty.Filled] at hf
  | .custom n (.cons k t fs), es, hf, h => by
    unfold Ty.Filled at hf
    unfold Ty.totalSize at h
    obtain ⟨e, h1⟩ := fromFlat_fields_short (.cons k t fs) es hf.2 h
    refine ⟨e, ?_⟩
    unfold Ty.fromFlat
    show (do
      let a ← (Fields.cons k t fs).fromFlat es
      return (PyVal.inst a.1, a.2)) = _
    rw [h1]
    rfl
theorem fromFlat_fields_short : (fs : Fields) → (es : List E) → fs.Filled → es.length < fs.totalSize → ∃ e, fs.fromFlat es = .error e
  | .nil, es, _, h => by simp [Fields.totalSize] at h
  | .cons n t fs, es, hf, h => by
    unfold Fields.Filled at hf
    unfold Fields.totalSize at h
    unfold Fields.fromFlat
    by_cases hne : es.isEmpty = true
    · rw [if_pos hne]; exact ⟨_, rfl⟩
    rw [if_neg hne]
    by_cases ht : es.length < t.totalSize
    · obtain ⟨e, he⟩ := fromFlat_short t es hf.1 ht
      rw [he]; exact ⟨e, rfl⟩
    · obtain ⟨v, h1, _⟩ := fromFlat_fits t es hf.1 (by omega)
      obtain ⟨e, he⟩ := fromFlat_fields_short fs (es.drop t.totalSize) hf.2 (by rw [List.length_drop]; omega)
      rw [h1]
      show ∃ e, (do
        let a ← fs.fromFlat (es.drop t.totalSize)
        return (Attrs.cons n v a.1, a.2)) = .error e
      rw [he]; exact ⟨e, rfl⟩
end

mutual
theorem fits_unique : (t : Ty) → (v w : PyVal E) → v.Fits t → w.Fits t → v.toVal.elements = w.toVal.elements → v = w
  | .scalar _, .expr x, .expr y, _, _, h => by
    simp only [PyVal.toVal, Val.elements, List.cons.injEq, and_true] at h
    rw [h]
  | .matrix r c, .matrix m, .matrix k, hm, hk, h => by
    unfold PyVal.Fits at hm hk
    obtain ⟨rows, h1, _, _, h4⟩ := rows_flatten m hm.1
    obtain ⟨rows', g1, _, _, g4⟩ := rows_flatten k hk.1
    unfold PyVal.toVal Val.elements at h
    rw [h1, g1] at h
    have h' : rows.flatten = rows'.flatten := h
    rw [h4, g4] at h'
    obtain ⟨mr, mc, md⟩ := m
    obtain ⟨kr, kc, kd⟩ := k
    obtain ⟨_, rfl, rfl⟩ := hm
    obtain ⟨_, e1, e2⟩ := hk
    simp only at h' e1 e2
    rw [h', e1, e2]
  | .custom _ fs, .inst a, .inst b, ha, hb, h => by
    unfold PyVal.Fits at ha hb
    unfold PyVal.toVal Val.elements at h
    rw [fits_unique_fields fs a b ha hb h]
  | .scalar _, .expr _, .matrix _, _, h, _ => by simp [PyVal.Fits] at h
  | .scalar _, .expr _, .inst _, _, h, _ => by simp [PyVal.Fits] at h
  | .scalar _, .expr _, .other, _, h, _ => by simp [PyVal.Fits] at h
  | .scalar _, .matrix _, _, h, _, _ => by simp [PyVal.Fits] at h
  | .scalar _, .inst _, _, h, _, _ => by simp [PyVal.Fits] at h
  | .scalar _, .other, _, h, _, _ => by simp [PyVal.Fits] at h
  | .matrix _ _, .matrix _, .expr _, _, h, _ => by simp [PyVal.Fits] at h
  | .matrix _ _, .matrix _, .inst _, _, h, _ => by simp [PyVal.Fits] at h
  | .matrix _ _, .matrix _, .other, _, h, _ => by simp [PyVal.Fits] at h
  | .matrix _ _, .expr _, _, h, _, _ => by simp [PyVal.Fits] at h
  | .matrix _ _, .inst _, _, h, _, _ => by simp [PyVal.Fits] at h
  | .matrix _ _, .other, _, h, _, _ => by simp [PyVal.Fits] at h
  | .custom _ _, .inst _, .expr _, _, h, _ => by simp [PyVal.Fits] at h
  | .custom _ _, .inst _, .matrix _, _, h, _ => by simp [PyVal.Fits] at h
  | .custom _ _, .inst _, .other, _, h, _ => by simp [PyVal.Fits] at h
  | .custom _ _, .expr _, _, h, _, _ => by simp [PyVal.Fits] at h
  | .custom _ _, .matrix _, _, h, _, _ => by simp [PyVal.Fits] at h
  | .custom _ _, .other, _, h, _, _ => by simp [PyVal.Fits] at h
theorem fits_unique_fields : (fs : Fields) → (a b : Attrs E) → a.Fits fs → b.Fits fs → a.toMembers.elements = b.toMembers.elements → a = b
  | .nil, .nil, .nil, _, _, _ => rfl
  | .cons n t fs, .cons k v a, .cons l w b, ha, hb, h => by
    unfold Attrs.Fits at ha hb
    unfold Attrs.toMembers Members.elements at h
    have hl : v.toVal.elements.length = w.toVal.elements.length := by
      rw [elements_length t _ (ha.2.1.val), elements_length t _ (hb.2.1.val)]
    obtain ⟨h1, h2⟩ := List.append_inj h hl
    rw [ha.1, hb.1, fits_unique t v w ha.2.1 hb.2.1 h1, fits_unique_fields fs a b ha.2.2 hb.2.2 h2]
  | .nil, .nil, .cons _ _ _, _, h, _ => by simp [Attrs.Fits] at h
  | .nil, .cons _ _ _, _, h, _, _ => by simp [Attrs.Fits] at h
  | .cons _ _ _, .nil, _, h, _, _ => by simp [Attrs.Fits] at h
  | .cons _ _ _, .cons _ _ _, .nil, _, h, _ => by simp [Attrs.Fits] at h
end

/-! ## Theorems -/

/-- The expressions of an instance are its elements in the order of the fields, matrices row by row; and expression `i` is what generated
code reads as member `i` of the struct. -/
theorem C71_expressions (n : String) (fs : Fields) (hv : (Ty.custom n fs).valid = true) (v : PyVal E) (h : v.Fits (.custom n fs)) :
    (Ty.custom n fs).toFlat v = .ok v.toVal.elements ∧ v.toVal.elements.length = (Ty.custom n fs).totalSize ∧
    ∀ i, i < (Ty.custom n fs).totalSize → ∃ path, accessPath (.custom n fs) i = .ok path ∧ v.toVal.readPath path = v.toVal.elements[i]? ∧
      v.toVal.elements[i]? ≠ none :=
  ⟨toFlat_fits _ v hv h, elements_length _ _ (PyVal.Fits.val _ v h), fun i hi => C47_reaches n fs hv v.toVal (PyVal.Fits.val _ v h) i hi⟩

/-- An instance built from a list has the declared type and takes its elements from the list in order; the others are left over. Lists that
are too short are refused. Partial: for types without opaque members and without empty matrices (see `C71_opaque_refuted`). -/
theorem C71_build_partial (n : String) (fs : Fields) (hf : (Ty.custom n fs).Filled) (es : List E) :
    ((Ty.custom n fs).totalSize ≤ es.length → ∃ v, (Ty.custom n fs).fromFlat es = .ok (v, es.drop (Ty.custom n fs).totalSize) ∧ v.Fits (.custom n fs) ∧
      v.toVal.elements = es.take (Ty.custom n fs).totalSize) ∧
    (es.length < (Ty.custom n fs).totalSize → ∃ e, (Ty.custom n fs).fromFlat es = .error e) :=
  ⟨fromFlat_fits _ es hf, fromFlat_short _ es hf⟩

/-- Taking an instance apart and building it again gives the instance. -/
theorem C71_round_trip_partial (n : String) (fs : Fields) (hv : (Ty.custom n fs).valid = true) (hf : (Ty.custom n fs).Filled) (v : PyVal E)
    (h : v.Fits (.custom n fs)) (rest : List E) :
    ∃ es, (Ty.custom n fs).toFlat v = .ok es ∧ (Ty.custom n fs).fromFlat (es ++ rest) = .ok (v, rest) := by
  have hl := elements_length _ _ (PyVal.Fits.val _ v h)
  refine ⟨_, toFlat_fits _ v hv h, ?_⟩
  obtain ⟨w, h1, h2, h3⟩ := fromFlat_fits (.custom n fs) (v.toVal.elements ++ rest) hf (by rw [List.length_append]; omega)
  rw [← hl, List.drop_left] at h1
  rw [← hl, List.take_left] at h3
  rw [h1, fits_unique _ w v h2 h h3]

/-- Building an instance and taking it apart gives the list. -/
theorem C71_round_trip_list_partial (n : String) (fs : Fields) (hv : (Ty.custom n fs).valid = true) (hf : (Ty.custom n fs).Filled) (es : List E)
    (h : es.length = (Ty.custom n fs).totalSize) :
    ∃ v, (Ty.custom n fs).fromFlat es = .ok (v, []) ∧ (Ty.custom n fs).toFlat v = .ok es := by
  obtain ⟨v, h1, h2, h3⟩ := fromFlat_fits (.custom n fs) es hf (by omega)
  rw [List.drop_of_length_le (by omega)] at h1
  rw [List.take_of_length_le (by omega)] at h3
  exact ⟨v, h1, by rw [toFlat_fits _ v hv h2, h3]⟩

/-- The type with a vector of two and a vector of three elements. -/
def twoVectors : Ty := .custom "S" (.cons "a" (.matrix 2 1) (.cons "b" (.matrix 3 1) .nil))

/-- The shapes of matrices are not checked: an instance with the vectors exchanged is accepted, and the struct has other vectors than the
instance: the first ends with an element of the second. The same for a transposed matrix. -/
theorem C71_shapes_refuted (x1 x2 x3 y1 y2 : E) :
    twoVectors.toFlat (.inst (.cons "a" (.matrix ⟨3, 1, [x1, x2, x3]⟩) (.cons "b" (.matrix ⟨2, 1, [y1, y2]⟩) .nil))) = .ok [x1, x2, x3, y1, y2] ∧
    twoVectors.fromFlat [x1, x2, x3, y1, y2] =
      .ok (.inst (.cons "a" (.matrix ⟨2, 1, [x1, x2]⟩) (.cons "b" (.matrix ⟨3, 1, [x3, y1, y2]⟩) .nil)), []) ∧
    ¬ (PyVal.inst (.cons "a" (.matrix ⟨3, 1, [x1, x2, x3]⟩) (.cons "b" (.matrix ⟨2, 1, [y1, y2]⟩) .nil))).Fits twoVectors ∧
    (Ty.custom "T" (.cons "m" (.matrix 1 2) .nil)).toFlat (.inst (.cons "m" (.matrix ⟨2, 1, [x1, x2]⟩) .nil)) = .ok [x1, x2] :=
  ⟨rfl, rfl, by simp [twoVectors, PyVal.Fits, Attrs.Fits], rfl⟩

/-- A type with an opaque member is accepted, but no instance of it can be built (as is needed for an argument). -/
theorem C71_opaque_refuted : (Ty.custom "S" (.cons "x" (.scalar .floating) (.cons "o" (.custom "O" .nil) .nil))).valid = true ∧
    ∀ es : List E, ∃ e, (Ty.custom "S" (.cons "x" (.scalar .floating) (.cons "o" (.custom "O" .nil) .nil))).fromFlat es = .error e := by
  refine ⟨by decide, fun es => ?_⟩
  cases es with
  | nil => exact ⟨_, rfl⟩
  | cons y es => cases es <;> exact ⟨_, rfl⟩

example : twoVectors.valid = true ∧ twoVectors.Filled ∧ twoVectors.totalSize = 5 ∧
    (PyVal.inst (.cons "a" (.matrix ⟨2, 1, [1, 2]⟩) (.cons "b" (.matrix ⟨3, 1, [3, 4, 5]⟩) .nil)) : PyVal Int).Fits twoVectors := by
  refine ⟨by decide, ?_, by decide, ?_⟩
  · simp [twoVectors, Ty.Filled, Fields.Filled]
  · refine ⟨rfl, ⟨?_, rfl, rfl⟩, rfl, ⟨?_, rfl, rfl⟩, trivial⟩ <;> constructor <;> decide

/-- Nested types: `poseType` of C47. -/
example : poseType.Filled ∧ poseType.fromFlat [1, 2, 3, 4, 5, 6, 7, 8, 9] =
    .ok (.inst (.cons "stamp" (.inst (.cons "t" (.expr 1) .nil)) (.cons "m" (.matrix ⟨2, 3, [2, 3, 4, 5, 6, 7]⟩) (.cons "w" (.expr 8) .nil))), [9]) := by
  refine ⟨?_, rfl⟩
  simp [poseType, Ty.Filled, Fields.Filled]

end Wf.Gen
