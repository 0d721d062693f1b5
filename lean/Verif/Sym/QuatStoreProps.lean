import Verif.Sym.QuatStoreModel

/-! # C81: storage orders and names of quaternions -/

namespace Wf.Sym.Store

variable {F : Type}

/-- Specification: where a component is stored in scalar-first order. -/
def scalarFirst (q : QuatE F) (i : Nat) : Option (Expr F) :=
  if i = 0 then some q.w else if i = 1 then some q.x else if i = 2 then some q.y else if i = 3 then some q.z else none

/-- Specification: in scalar-last order the vector part comes first. -/
def scalarLast (q : QuatE F) (i : Nat) : Option (Expr F) :=
  if i = 3 then some q.w else if i = 0 then some q.x else if i = 1 then some q.y else if i = 2 then some q.z else none

/-- Specification: the dimensions of a matrix fit its elements. -/
def MatE.Proper (m : MatE F) : Prop := m.elems.length = m.rows * m.cols

/-- Specification: the elements that are passed, if there are four, in a column or in another iterable. -/
def Storage.four : Storage F → Option (List (Expr F))
  | .matrix m => if m.rows = 4 ∧ m.cols = 1 then some m.elems else none
  | .iterable es => if es.length = 4 then some es else none

/-- **C81**. `to_vector_wxyz`, `to_vector_xyzw` and `to_list` have the components in the documented places, and the vectors are 4x1. -/
theorem C81_places (q : QuatE F) :
    (∀ i, (toVectorWxyz q).elems[i]? = scalarFirst q i) ∧ (∀ i, (toVectorXyzw q).elems[i]? = scalarLast q i) ∧
    (∀ i, (toList q)[i]? = scalarFirst q i) ∧ ((toVectorWxyz q).rows = 4 ∧ (toVectorWxyz q).cols = 1 ∧ (toVectorWxyz q).Proper) ∧
    (toVectorXyzw q).rows = 4 ∧ (toVectorXyzw q).cols = 1 ∧ (toVectorXyzw q).Proper := by
  have h : ∀ i, i = 0 ∨ i = 1 ∨ i = 2 ∨ i = 3 ∨ 4 ≤ i := by omega
  refine ⟨fun i => ?_, fun i => ?_, fun i => ?_, ⟨rfl, rfl, rfl⟩, rfl, rfl, rfl⟩ <;>
  · rcases h i with rfl | rfl | rfl | rfl | h
    · rfl
    · rfl
    · rfl
    · rfl
    · have h0 : i ≠ 0 := by omega
      have h1 : i ≠ 1 := by omega
      have h2 : i ≠ 2 := by omega
      have h3 : i ≠ 3 := by omega
      simp [toVectorWxyz, toVectorXyzw, toList, scalarFirst, scalarLast, h0, h1, h2, h3, h]

theorem four_of_length {es : List (Expr F)} (h : es.length = 4) : ∃ a b c d, es = [a, b, c, d] := by
  match es, h with
  | [a, b, c, d], _ => exact ⟨a, b, c, d, rfl⟩

/-- **C81**. `from_wxyz` and `from_xyzw` accept exactly columns of four elements and iterables of four elements, and read them in the order of
their names; everything else is a dimension error. -/
theorem C81_from (s : Storage F) (hs : ∀ m, s = .matrix m → m.Proper) :
    (match s.four with
      | none => fromWxyz s = .error .dimension ∧ fromXyzw s = .error .dimension
      | some es => (∃ q, fromWxyz s = .ok q ∧ ∀ i, es[i]? = scalarFirst q i) ∧ (∃ q, fromXyzw s = .ok q ∧ ∀ i, es[i]? = scalarLast q i)) := by
  cases s with
  | matrix m =>
    obtain ⟨r, c, es⟩ := m
    have hp : es.length = r * c := hs _ rfl
    by_cases h : r = 4 ∧ c = 1
    · obtain ⟨rfl, rfl⟩ := h
      obtain ⟨a, b, d, e, rfl⟩ := four_of_length hp
      exact ⟨⟨⟨a, b, d, e⟩, rfl, (C81_places ⟨a, b, d, e⟩).1⟩, ⟨⟨e, a, b, d⟩, rfl, (C81_places ⟨e, a, b, d⟩).2.1⟩⟩
    · have h' : r ≠ 4 ∨ c ≠ 1 := by
        by_cases h4 : r = 4
        · exact .inr fun h1 => h ⟨h4, h1⟩
        · exact .inl h4
      simp only [Storage.four, if_neg h]
      exact ⟨by simp only [fromWxyz, fromVectorWxyz, if_pos h'], by simp only [fromXyzw, fromVectorXyzw, if_pos h']⟩
  | iterable es =>
    by_cases h : es.length = 4
    · obtain ⟨a, b, d, e, rfl⟩ := four_of_length h
      exact ⟨⟨⟨a, b, d, e⟩, rfl, (C81_places ⟨a, b, d, e⟩).1⟩, ⟨⟨e, a, b, d⟩, rfl, (C81_places ⟨e, a, b, d⟩).2.1⟩⟩
    · simp only [Storage.four, if_neg h]
      exact ⟨by simp only [fromWxyz, componentsFromIterable, if_pos h]; rfl, by simp only [fromXyzw, componentsFromIterable, if_pos h]; rfl⟩

/-- **C81**. The conversions are inverse to each other, in both orders. -/
theorem C81_round_trip (q : QuatE F) (m : MatE F) (hm : m.Proper) :
    fromWxyz (.matrix (toVectorWxyz q)) = .ok q ∧ fromXyzw (.matrix (toVectorXyzw q)) = .ok q ∧ fromWxyz (.iterable (toList q)) = .ok q ∧
    (∀ r, fromWxyz (.matrix m) = .ok r → toVectorWxyz r = m) ∧ (∀ r, fromXyzw (.matrix m) = .ok r → toVectorXyzw r = m) := by
  refine ⟨rfl, rfl, rfl, fun r hr => ?_, fun r hr => ?_⟩ <;>
  · obtain ⟨a, b, es⟩ := m
    by_cases h : a = 4 ∧ b = 1
    · obtain ⟨rfl, rfl⟩ := h
      obtain ⟨e0, e1, e2, e3, rfl⟩ := four_of_length hm
      cases hr
      rfl
    · have h' := C81_from (.matrix ⟨a, b, es⟩) (by intro m' hm'; cases hm'; exact hm)
      simp only [Storage.four, if_neg h] at h'
      first
        | (rw [h'.1] at hr; cases hr)
        | (rw [h'.2] at hr; cases hr)

/-- **C81**. A quaternion that is written in one order and read in the other is the same only if all its components are equal. -/
theorem C81_mixed (q : QuatE F) : fromXyzw (.matrix (toVectorWxyz q)) = .ok q ↔ q.w = q.x ∧ q.x = q.y ∧ q.y = q.z := by
  obtain ⟨w, x, y, z⟩ := q
  have : fromXyzw (.matrix (toVectorWxyz ⟨w, x, y, z⟩)) = .ok (⟨z, w, x, y⟩ : QuatE F) := rfl
  rw [this]
  simp only [Except.ok.injEq, QuatE.mk.injEq]
  constructor
  · rintro ⟨h1, h2, h3, h4⟩; exact ⟨h2, h3, h4⟩
  · rintro ⟨h1, h2, h3⟩; exact ⟨by rw [h1, h2, h3], h1, h2, h3⟩

theorem suffix_inj {a b : String} {c d : Char} (h : a ++ String.ofList ['_', c] = b ++ String.ofList ['_', d]) : a = b ∧ c = d := by
  have h' := congrArg String.toList h
  simp only [String.toList_append, String.toList_ofList] at h'
  obtain ⟨h1, h2⟩ := List.append_inj' h' rfl
  exact ⟨String.toList_inj.1 h1, by simpa using h2⟩

/-- **C81**. The four variables of `with_name` are named after their component, and are different. Quaternions of different names share no variable. -/
theorem C81_names [FloatCmp F] [DecidableEq F] (a b : String) :
    (withName a : QuatE F) = ⟨.var (a ++ "_w") .unknown, .var (a ++ "_x") .unknown, .var (a ++ "_y") .unknown, .var (a ++ "_z") .unknown⟩ ∧
    (toList (withName a : QuatE F)).Pairwise (fun e f => identical e f = false) ∧
    (a ≠ b → ∀ e ∈ toList (withName a : QuatE F), ∀ f ∈ toList (withName b : QuatE F), identical e f = false) := by
  have hw : "_w" = String.ofList ['_', 'w'] := rfl
  have hx : "_x" = String.ofList ['_', 'x'] := rfl
  have hy : "_y" = String.ofList ['_', 'y'] := rfl
  have hz : "_z" = String.ofList ['_', 'z'] := rfl
  have hid : ∀ n n' : String, n ≠ n' → identical (.var n .unknown : Expr F) (.var n' .unknown) = false := by
    intro n n' h
    simp [identical, headIdentical, h]
  refine ⟨rfl, ?_, fun hab e he f hf => ?_⟩
  · simp only [toList, withName, hw, hx, hy, hz, List.pairwise_cons, List.mem_cons, List.not_mem_nil, or_false, forall_eq_or_imp, forall_eq,
      false_imp_iff, implies_true, List.Pairwise.nil, and_true]
    refine ⟨⟨?_, ?_, ?_⟩, ⟨?_, ?_⟩, ?_⟩ <;> exact hid _ _ fun h => absurd (suffix_inj h).2 (by decide)
  · simp only [toList, withName, hw, hx, hy, hz, List.mem_cons, List.not_mem_nil, or_false] at he hf
    rcases he with rfl | rfl | rfl | rfl <;> rcases hf with rfl | rfl | rfl | rfl <;> exact hid _ _ fun h => hab (suffix_inj h).1

/-- Hypotheses of `C81_from` and `C81_round_trip`: a column, a row, a list and a short list. -/
example : (⟨4, 1, [.int 1, .int 2, .int 3, .int 4]⟩ : MatE Nat).Proper ∧
    fromXyzw (.matrix ⟨4, 1, [.int 1, .int 2, .int 3, .int 4]⟩) = .ok (⟨.int 4, .int 1, .int 2, .int 3⟩ : QuatE Nat) ∧
    fromXyzw (.matrix ⟨1, 4, [.int 1, .int 2, .int 3, .int 4]⟩) = (.error .dimension : Res (QuatE Nat)) ∧
    fromWxyz (.iterable [.int 1, .int 2, .int 3, .int 4]) = .ok (⟨.int 1, .int 2, .int 3, .int 4⟩ : QuatE Nat) ∧
    fromWxyz (.iterable [.int 1, .int 2, .int 3]) = (.error .dimension : Res (QuatE Nat)) := ⟨rfl, rfl, rfl, rfl, rfl⟩

end Wf.Sym.Store
