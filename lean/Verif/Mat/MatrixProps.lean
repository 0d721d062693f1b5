import Verif.Mat.MatrixLemmas
import Mathlib.Data.Matrix.Mul
import Mathlib.Algebra.BigOperators.Fin
import Mathlib.Data.Int.Cast.Lemmas

/-! # C25 and C26: matrix indexing and matrix algebra -/

namespace Wf.Mat

variable {E : Type}

/-- The position `(i, j)` exists in a matrix of shape `r × c`. -/
def InRange (r c i j : Int) : Prop := 0 ≤ i ∧ i < r ∧ 0 ≤ j ∧ j < c

instance (r c i j : Int) : Decidable (InRange r c i j) := by unfold InRange; infer_instance

/-! ## C25 -/

/-- Element access returns the element at row-major position `i * cols + j`, and is rejected exactly outside the matrix. -/
theorem C25_access (m : Mat E) (h : m.WF) (i j : Int) :
    (InRange m.rows m.cols i j → ∃ x, m.get i j = .ok x ∧ m.data[(i * m.cols + j).toNat]? = some x) ∧
    (¬ InRange m.rows m.cols i j → m.get i j = .error .dimension) := by
  refine ⟨fun hr => ?_, fun hr => Mat.get_out hr⟩
  obtain ⟨x, h1, _, h3⟩ := h.get_ok hr.1 hr.2.1 hr.2.2.1 hr.2.2.2
  exact ⟨x, h1, h3⟩

/-- Two matrices of the same shape with the same elements everywhere are the same matrix. -/
theorem C25_extensional (a b : Mat E) (ha : a.WF) (hb : b.WF) (hr : a.rows = b.rows) (hc : a.cols = b.cols)
    (h : ∀ i j, a.get i j = b.get i j) : a = b := by
  have hlen : a.data.length = b.data.length := by have := ha.size_eq; have := hb.size_eq; rw [hr, hc] at *; omega
  have hdata : a.data = b.data := by
    apply List.ext_getElem? 
    intro k
    by_cases hk : k < a.data.length
    · have hc0 : 0 < a.cols := by
        have := ha.size_eq
        have h1 := ha.cols_nonneg
        rcases lt_or_eq_of_le h1 with h2 | h2
        · exact h2
        · rw [← h2] at this; simp at this; simp [this] at hk
      have e := Int.mul_ediv_add_emod (k : Int) a.cols
      have hm0 := Int.emod_nonneg (k : Int) (by omega : a.cols ≠ 0)
      have hm1 := Int.emod_lt_of_pos (k : Int) hc0
      have hd0 : 0 ≤ (k : Int) / a.cols := Int.ediv_nonneg (by omega) (by omega)
      have hd1 : (k : Int) / a.cols < a.rows := by
        apply Int.ediv_lt_of_lt_mul hc0
        rw [← ha.size_eq]; omega
      obtain ⟨x, h1, _, h3⟩ := ha.get_ok hd0 hd1 hm0 hm1
      obtain ⟨y, h4, _, h6⟩ := hb.get_ok hd0 (by rw [← hr]; exact hd1) hm0 (by rw [← hc]; exact hm1)
      have hxy := h ((k : Int) / a.cols) ((k : Int) % a.cols)
      rw [h1, h4] at hxy
      simp only [Except.ok.injEq] at hxy
      have ek : ((k : Int) / a.cols * a.cols + (k : Int) % a.cols).toNat = k := by rw [mul_comm, e]; rfl
      rw [ek] at h3
      rw [← hc, ek] at h6
      rw [h3, h6, hxy]
    · rw [List.getElem?_eq_none (by omega), List.getElem?_eq_none (by omega)]
  cases a; cases b
  simp_all

/-- Creating a matrix from a shape and a list of elements succeeds exactly when the shape is non-negative and matches the number
of elements. -/
theorem C25_constructor (r c : Int) (data : List E) (hr : r < 2 ^ 31) (hc : c < 2 ^ 31) :
    (0 ≤ r ∧ 0 ≤ c ∧ (data.length : Int) = r * c → newMatrix r c data = .ok ⟨r, c, data⟩) ∧
    (¬ (0 ≤ r ∧ 0 ≤ c ∧ (data.length : Int) = r * c) → newMatrix r c data = .error .dimension ∨ newMatrix r c data = .error .assertion) := by
  constructor
  · rintro ⟨h1, h2, h3⟩
    unfold newMatrix
    rw [if_neg (by rw [sizeProduct_int h1 h2 hr hc]; simp [h3]), if_neg (by omega)]
  · intro h
    unfold newMatrix
    by_cases hneg : r < 0 ∨ c < 0
    · by_cases hl : (data.length : Int) ≠ sizeProduct r c
      · left; rw [if_pos hl]
      · right; rw [if_neg hl, if_pos hneg]
    · left
      rw [if_pos]
      have h1 : 0 ≤ r := by omega
      have h2 : 0 ≤ c := by omega
      rw [sizeProduct_int h1 h2 hr hc]
      exact fun h3 => h ⟨h1, h2, h3⟩

/-- A block has the requested shape and the elements at the given offset; requests that do not lie inside the matrix are rejected. -/
theorem C25_block (m : Mat E) (h : m.WF) (row col nrows ncols : Int) (h1 : -2 ^ 31 ≤ nrows) (h2 : -2 ^ 31 ≤ ncols) (h3 : row + nrows < 2 ^ 31)
    (h4 : col + ncols < 2 ^ 31) :
    (0 ≤ row ∧ 0 ≤ col ∧ 0 ≤ nrows ∧ 0 ≤ ncols ∧ row + nrows ≤ m.rows ∧ col + ncols ≤ m.cols →
      ∃ b, m.getBlock row col nrows ncols = .ok b ∧ b.WF ∧ b.rows = nrows ∧ b.cols = ncols ∧
        ∀ i j, InRange nrows ncols i j → b.get i j = m.get (row + i) (col + j)) ∧
    (¬ (0 ≤ row ∧ 0 ≤ col ∧ 0 ≤ nrows ∧ 0 ≤ ncols ∧ row + nrows ≤ m.rows ∧ col + ncols ≤ m.cols) →
      ∃ e, m.getBlock row col nrows ncols = .error e ∧ e ≠ .ub) := by
  constructor
  · rintro ⟨h1, h2, h3, h4, h5, h6⟩
    unfold Mat.getBlock
    rw [if_neg (by omega), intResult_ok (by omega) (by omega)]
    simp only [Except.bind]
    rw [if_neg (by omega), intResult_ok (by omega) (by omega)]
    simp only [Except.bind]
    rw [if_neg (by omega)]
    have hsz : nrows * ncols < 2 ^ 31 := by
      have : nrows * ncols ≤ m.rows * m.cols := mul_le_mul (by omega) (by omega) h4 (by omega)
      have := h.size_lt
      omega
    obtain ⟨b, e1, e2, e3, e4, e5⟩ := createMatrix_spec h3 h4 hsz (fun i j => m.getUnchecked (i + row) (j + col)) (by
      intro i j a b c d
      obtain ⟨x, _, hx, _⟩ := h.get_ok (i := i + row) (j := j + col) (by omega) (by omega) (by omega) (by omega)
      exact ⟨x, hx⟩)
    refine ⟨b, e1, e4, e2, e3, ?_⟩
    rintro i j ⟨a, b, c, d⟩
    rw [e5 i j a b c d, h.getUnchecked_eq (by omega) (by omega) (by omega) (by omega), add_comm i, add_comm j]
  · intro hn
    unfold Mat.getBlock
    by_cases hr : row < 0
    · rw [if_pos hr]; exact ⟨_, rfl, by decide⟩
    rw [if_neg hr, intResult_ok (by omega) (by omega)]
    simp only [Except.bind]
    by_cases hb : row + nrows > m.rows ∨ col < 0
    · rw [if_pos hb]; exact ⟨_, rfl, by decide⟩
    rw [if_neg hb, intResult_ok (by omega) (by omega)]
    simp only [Except.bind]
    by_cases hc : col + ncols > m.cols
    · rw [if_pos hc]; exact ⟨_, rfl, by decide⟩
    · rw [if_neg hc]
      have hneg : nrows < 0 ∨ ncols < 0 := by omega
      have hnil : indexPairs nrows ncols = [] := by
        apply List.eq_nil_iff_forall_not_mem.mpr
        rintro ⟨i, j⟩ hp
        rw [mem_indexPairs] at hp
        omega
      unfold createMatrix iterMatrix
      rw [hnil]
      show ∃ e, newMatrix nrows ncols ([] : List E) = .error e ∧ _
      unfold newMatrix
      split
      · exact ⟨_, rfl, by decide⟩
      · exact ⟨_, rfl, by decide⟩

/-- Transposition swaps the indices, for every pair of indices (out-of-range ones are rejected on both sides). -/
theorem C25_transpose (m : Mat E) (h : m.WF) :
    ∃ t, m.transposed = .ok t ∧ t.WF ∧ t.rows = m.cols ∧ t.cols = m.rows ∧ ∀ i j, t.get i j = m.get j i := by
  have hsz : m.cols * m.rows < 2 ^ 31 := by rw [mul_comm]; exact h.size_lt
  obtain ⟨b, e1, e2, e3, e4, e5⟩ := createMatrix_spec h.cols_nonneg h.rows_nonneg hsz (fun r c => m.get c r) (by
    intro i j a b c d
    obtain ⟨x, hx, _⟩ := h.get_ok c d a b
    exact ⟨x, hx⟩)
  refine ⟨b, e1, e4, e2, e3, ?_⟩
  intro i j
  by_cases hr : InRange m.cols m.rows i j
  · exact e5 i j hr.1 hr.2.1 hr.2.2.1 hr.2.2.2
  · rw [Mat.get_out (m := b) (by rw [e2, e3]; exact hr), Mat.get_out (m := m) (by unfold InRange at hr; omega)]

/-- Transposing twice gives back the matrix. -/
theorem C25_transpose_twice (m t : Mat E) (h : m.WF) (ht : m.transposed = .ok t) : t.transposed = .ok m := by
  obtain ⟨t', h1, h2, h3, h4, h5⟩ := C25_transpose m h
  rw [ht] at h1
  obtain rfl := Except.ok.inj h1
  obtain ⟨s, g1, g2, g3, g4, g5⟩ := C25_transpose t h2
  rw [g1]
  congr 1
  exact C25_extensional s m g2 h (by rw [g3, h4]) (by rw [g4, h3]) (fun i j => by rw [g5, h5])

/-- The check of `get_block` adds the position and the size as `int`: a row index near the largest `int` overflows. -/
theorem C25_block_overflow_refuted : (⟨2, 2, [1, 2, 3, 4]⟩ : Mat Nat).getBlock (2 ^ 31 - 1) 0 1 2 = .error .ub := by decide

/-- `make_zeros` multiplies the dimensions as `int`. -/
theorem C25_zeros_overflow_refuted (o : Ops E) : makeZeros o (2 ^ 16) (2 ^ 16) = .error .ub := rfl

/-- Reshaping keeps the row-major sequence of elements, and is rejected when the number of elements differs. -/
theorem C25_reshape (m : Mat E) (r c : Int) (hr : r < 2 ^ 31) (hc : c < 2 ^ 31) :
    (0 ≤ r ∧ 0 ≤ c ∧ r * c = m.data.length → m.reshape r c = .ok ⟨r, c, m.data⟩) ∧
    (¬ (0 ≤ r ∧ 0 ≤ c ∧ r * c = m.data.length) → m.reshape r c = .error .dimension) := by
  constructor
  · rintro ⟨h1, h2, h3⟩
    unfold Mat.reshape
    rw [if_neg (by omega), if_neg (by rw [sizeProduct_int h1 h2 hr hc]; simp [h3])]
    exact (C25_constructor r c m.data hr hc).1 ⟨h1, h2, h3.symm⟩
  · intro h
    unfold Mat.reshape
    by_cases hneg : r < 0 ∨ c < 0
    · rw [if_pos hneg]
    · rw [if_neg hneg, if_pos]
      have h1 : 0 ≤ r := by omega
      have h2 : 0 ≤ c := by omega
      rw [sizeProduct_int h1 h2 hr hc]
      exact fun h3 => h ⟨h1, h2, h3⟩

/-- Flattening stacks the columns: element `(i, j)` becomes element `j * rows + i` of a column vector. -/
theorem C25_vectorize (m : Mat E) (h : m.WF) :
    ∃ v, vectorize m = .ok v ∧ v.WF ∧ v.rows = m.rows * m.cols ∧ v.cols = 1 ∧
      ∀ i j, InRange m.rows m.cols i j → v.get (j * m.rows + i) 0 = m.get i j := by
  obtain ⟨rn, hrn⟩ := Int.eq_ofNat_of_zero_le h.rows_nonneg
  obtain ⟨cn, hcn⟩ := Int.eq_ofNat_of_zero_le h.cols_nonneg
  obtain ⟨t, h1, h2, h3, h4, h5⟩ := C25_transpose m h
  have hdata : ((List.range m.cols.toNat).flatMap fun (j : Nat) => (List.range m.rows.toNat).map fun (i : Nat) => ((i : Int), (j : Int))).mapM
      (fun p => m.get p.1 p.2) = .ok t.data := by
    have : iterMatrix m.cols m.rows (fun r c => m.get c r) = .ok t.data := by
      unfold Mat.transposed createMatrix at h1
      cases hit : iterMatrix m.cols m.rows (fun r c => m.get c r) with
      | error e => rw [hit] at h1; cases h1
      | ok d =>
        rw [hit] at h1
        change newMatrix m.cols m.rows d = .ok t at h1
        unfold newMatrix at h1
        split at h1
        · cases h1
        · split at h1
          · cases h1
          · obtain rfl := Except.ok.inj h1; rfl
    rw [← this]
    unfold iterMatrix indexPairs
    have : ((List.range m.cols.toNat).flatMap fun (j : Nat) => (List.range m.rows.toNat).map fun (i : Nat) => ((i : Int), (j : Int)))
        = ((List.range m.cols.toNat).flatMap fun (j : Nat) => (List.range m.rows.toNat).map fun (i : Nat) => ((j : Int), (i : Int))).map fun p => (p.2, p.1) := by
      rw [List.map_flatMap]
      congr 1
      funext j
      rw [List.map_map]
      rfl
    rw [this, List.mapM_map]
    rfl
  have hl : (t.data.length : Int) = m.rows * m.cols * 1 := by rw [h2.size_eq, h3, h4]; ring
  have hlt : m.rows * m.cols * 1 < 2 ^ 31 := by have := h.size_lt; omega
  have hnn : 0 ≤ m.rows * m.cols := mul_nonneg h.rows_nonneg h.cols_nonneg
  refine ⟨⟨m.rows * m.cols, 1, t.data⟩, ?_, ⟨hnn, by simp, hl, hlt⟩, rfl, rfl, ?_⟩
  · unfold vectorize
    rw [intResult_ok (by omega) (by omega), hdata]
    exact newMatrix_ok hnn (by omega) hlt _ hl
  · rintro i j ⟨a, b, c, d⟩
    rw [← h5 j i]
    obtain ⟨x, hx, _, hx3⟩ := h2.get_ok (i := j) (j := i) c (by rw [h3]; exact d) a (by rw [h4]; exact b)
    rw [hx]
    rw [h4] at hx3
    have hk0 : 0 ≤ j * m.rows + i := by nlinarith
    have hk1 : j * m.rows + i < m.rows * m.cols := by nlinarith
    unfold Mat.get Mat.getUnchecked
    rw [if_neg (by simp only; omega)]
    simp only [mul_one, add_zero]
    obtain ⟨k, hk⟩ := Int.eq_ofNat_of_zero_le hk0
    rw [hk] at hx3 ⊢
    exact vecAt_ok hx3

/-- Zero and identity matrices. -/
theorem C25_zeros_identity (o : Ops E) (r c : Int) (hr : 0 < r) (hc : 0 < c) (hs : r * c < 2 ^ 31) :
    (∃ z, makeZeros o r c = .ok z ∧ z.WF ∧ z.rows = r ∧ z.cols = c ∧ ∀ i j, InRange r c i j → z.get i j = .ok o.zero) ∧
    (∃ m, makeIdentity o r (some c) = .ok m ∧ m.WF ∧ m.rows = r ∧ m.cols = c ∧
      ∀ i j, InRange r c i j → m.get i j = .ok (if i = j then o.one else o.zero)) ∧
    makeIdentity o r none = makeIdentity o r (some r) := by
  refine ⟨?_, ?_, ?_⟩
  · have hnn : 0 < r * c := mul_pos hr hc
    have hl : ((List.replicate (r * c).toNat o.zero).length : Int) = r * c := by rw [List.length_replicate]; omega
    refine ⟨⟨r, c, List.replicate (r * c).toNat o.zero⟩, ?_, ⟨by simp; omega, by simp; omega, hl, hs⟩, rfl, rfl, ?_⟩
    · unfold makeZeros
      rw [if_neg (by omega), intResult_ok (by omega) (by omega)]
      exact newMatrix_ok (by omega) (by omega) hs _ hl
    · rintro i j ⟨a, b, c', d⟩
      unfold Mat.get Mat.getUnchecked vecAt
      have : 0 ≤ i * c + j := by nlinarith
      have : i * c + j < r * c := by nlinarith
      rw [if_neg (by simp only; omega), if_neg (by simp only; omega), List.getElem?_replicate, if_pos (by simp only; omega)]
  · obtain ⟨m, h1, h2, h3, h4, h5⟩ := createMatrix_ok (by omega) (by omega) hs (fun i j => .ok (if i = j then o.one else o.zero))
      (fun i j => if i = j then o.one else o.zero) (fun _ _ _ _ _ _ => rfl)
    refine ⟨m, ?_, h4, h2, h3, fun i j h => h5 i j h.1 h.2.1 h.2.2.1 h.2.2.2⟩
    unfold makeIdentity
    simp only [Option.getD_some]
    rw [if_neg (by omega)]
    exact h1
  · rfl

/-- A diagonal matrix has the given values on the diagonal and zero elsewhere. -/
theorem C25_diagonal (o : Ops E) (values : List E) (hne : values ≠ []) (hs : (values.length : Int) * values.length < 2 ^ 31) :
    ∃ m, diagonal o values = .ok m ∧ m.WF ∧ m.rows = values.length ∧ m.cols = values.length ∧
      ∀ i j : Nat, (hi : i < values.length) → j < values.length → m.get i j = .ok (if i = j then values[i] else o.zero) := by
  have hex : ∀ i j : Int, 0 ≤ i → i < values.length → 0 ≤ j → j < values.length →
      ∃ x, (if i = j then vecAt values i else .ok o.zero : Res E) = .ok x := by
    intro i j a b c d
    obtain ⟨k, rfl⟩ := Int.eq_ofNat_of_zero_le a
    by_cases hij : (k : Int) = j
    · rw [if_pos hij]
      exact ⟨values[k]'(by omega), vecAt_ok (List.getElem?_eq_getElem (by omega))⟩
    · rw [if_neg hij]; exact ⟨_, rfl⟩
  obtain ⟨m, h1, h2, h3, h4, h5⟩ := createMatrix_spec (by omega) (by omega) hs _ hex
  refine ⟨m, ?_, h4, h2, h3, ?_⟩
  · unfold diagonal
    rw [if_neg (by simpa using hne)]
    exact h1
  · intro i j hi hj
    rw [h5 i j (by omega) (by omega) (by omega) (by omega)]
    by_cases hij : i = j
    · subst hij
      rw [if_pos rfl, if_pos rfl]
      exact vecAt_ok (List.getElem?_eq_getElem hi)
    · rw [if_neg (by omega), if_neg hij]

/-- Horizontal stacking: each input appears, unchanged, to the right of the earlier ones. -/
theorem C25_hstack (o : Ops E) (values : List (Mat E)) (hwf : ∀ m ∈ values, m.WF) (rows : Int) (hne : values ≠ [])
    (hrows : ∀ m ∈ values, m.rows = rows) (hs : rows * (values.map (·.cols)).sum < 2 ^ 31) :
    ∃ r, hstack o values = .ok r ∧ r.WF ∧ r.rows = rows ∧ r.cols = (values.map (·.cols)).sum ∧
      ∀ pre m post, values = pre ++ m :: post → ∀ i j, InRange m.rows m.cols i j → r.get i ((pre.map (·.cols)).sum + j) = m.get i j := by
  cases values with
  | nil => exact absurd rfl hne
  | cons f rest =>
    have hf := hrows f List.mem_cons_self
    obtain ⟨r, h1, h2, h3, h4, h5⟩ := stack_ok o false true f rest hwf rows ((f :: rest).map (·.cols)).sum
      (by simp [hf]) (by simp) (fun _ x hx => by rw [hf]; exact hrows x (List.mem_cons_of_mem _ hx)) (by simp) hs
    refine ⟨r, ?_, h4, h2, h3, ?_⟩
    · unfold hstack
      simp only
      rw [if_neg, hf]
      · exact h1
      · simp only [List.any_eq_true, not_exists, not_and]
        intro x hx
        simp [hrows x hx, hf]
    · intro pre m post hsplit i j hr
      have hmr : m.rows = rows := hrows m (by rw [hsplit]; simp)
      have hpre : ∀ x ∈ pre, x.WF := fun x hx => hwf x (by rw [hsplit]; simp [hx])
      have hpost : ∀ x ∈ post, x.WF := fun x hx => hwf x (by rw [hsplit]; simp [hx])
      have s1 := sum_nonneg_cols pre hpre
      have s2 := sum_nonneg_cols post hpost
      have hsum : ((f :: rest).map (·.cols)).sum = (pre.map (·.cols)).sum + (m.cols + (post.map (·.cols)).sum) := by
        rw [hsplit, List.map_append, List.sum_append, List.map_cons, List.sum_cons]
      obtain ⟨a, b, c, d⟩ := hr
      rw [h5 i _ a (by omega) (by omega) (by omega)]
      have := cover_block false true (.inr rfl) pre m post (by rw [← hsplit]; exact hwf) 0 0 i j a b c d
      simp only [flag, Bool.false_eq_true, if_false, if_true, zero_mul, one_mul, zero_add] at this
      rw [hsplit, this]

/-- Vertical stacking: each input appears, unchanged, below the earlier ones. -/
theorem C25_vstack (o : Ops E) (values : List (Mat E)) (hwf : ∀ m ∈ values, m.WF) (cols : Int) (hne : values ≠ [])
    (hcols : ∀ m ∈ values, m.cols = cols) (hs : (values.map (·.rows)).sum * cols < 2 ^ 31) :
    ∃ r, vstack o values = .ok r ∧ r.WF ∧ r.rows = (values.map (·.rows)).sum ∧ r.cols = cols ∧
      ∀ pre m post, values = pre ++ m :: post → ∀ i j, InRange m.rows m.cols i j → r.get ((pre.map (·.rows)).sum + i) j = m.get i j := by
  cases values with
  | nil => exact absurd rfl hne
  | cons f rest =>
    have hf := hcols f List.mem_cons_self
    obtain ⟨r, h1, h2, h3, h4, h5⟩ := stack_ok o true false f rest hwf ((f :: rest).map (·.rows)).sum cols
      (by simp) (by simp [hf]) (by simp) (fun _ x hx => by rw [hf]; exact hcols x (List.mem_cons_of_mem _ hx)) hs
    refine ⟨r, ?_, h4, h2, h3, ?_⟩
    · unfold vstack
      simp only
      rw [if_neg, hf]
      · exact h1
      · simp only [List.any_eq_true, not_exists, not_and]
        intro x hx
        simp [hcols x hx, hf]
    · intro pre m post hsplit i j hr
      have hmr : m.cols = cols := hcols m (by rw [hsplit]; simp)
      have hpre : ∀ x ∈ pre, x.WF := fun x hx => hwf x (by rw [hsplit]; simp [hx])
      have hpost : ∀ x ∈ post, x.WF := fun x hx => hwf x (by rw [hsplit]; simp [hx])
      have s1 := sum_nonneg_rows pre hpre
      have s2 := sum_nonneg_rows post hpost
      have hsum : ((f :: rest).map (·.rows)).sum = (pre.map (·.rows)).sum + (m.rows + (post.map (·.rows)).sum) := by
        rw [hsplit, List.map_append, List.sum_append, List.map_cons, List.sum_cons]
      obtain ⟨a, b, c, d⟩ := hr
      rw [h5 _ j (by omega) (by omega) c (by omega)]
      have := cover_block true false (.inl rfl) pre m post (by rw [← hsplit]; exact hwf) 0 0 i j a b c d
      simp only [flag, Bool.false_eq_true, if_false, if_true, zero_mul, one_mul, zero_add] at this
      rw [hsplit, this]

/-- Mismatched or missing inputs are rejected. -/
theorem C25_stack_rejects (o : Ops E) (values : List (Mat E)) :
    (values = [] ∨ (∃ a ∈ values, ∃ b ∈ values, a.rows ≠ b.rows) → hstack o values = .error .dimension) ∧
    (values = [] ∨ (∃ a ∈ values, ∃ b ∈ values, a.cols ≠ b.cols) → vstack o values = .error .dimension) ∧
    (values = [] → diagonalStack o values = .error .dimension) := by
  refine ⟨?_, ?_, ?_⟩
  · intro h
    cases values with
    | nil => rfl
    | cons f rest =>
      rcases h with h | ⟨a, ha, b, hb, hab⟩
      · cases h
      · unfold hstack
        simp only
        rw [if_pos]
        rw [List.any_eq_true]
        by_cases h1 : a.rows = f.rows
        · exact ⟨b, hb, by simp only [bne_iff_ne, ne_eq]; intro h2; exact hab (by rw [h1, h2])⟩
        · exact ⟨a, ha, by simp only [bne_iff_ne, ne_eq]; exact h1⟩
  · intro h
    cases values with
    | nil => rfl
    | cons f rest =>
      rcases h with h | ⟨a, ha, b, hb, hab⟩
      · cases h
      · unfold vstack
        simp only
        rw [if_pos]
        rw [List.any_eq_true]
        by_cases h1 : a.cols = f.cols
        · exact ⟨b, hb, by simp only [bne_iff_ne, ne_eq]; intro h2; exact hab (by rw [h1, h2])⟩
        · exact ⟨a, ha, by simp only [bne_iff_ne, ne_eq]; exact h1⟩
  · rintro rfl; rfl

/-- Block-diagonal stacking: each input appears below and to the right of the earlier ones, and everything outside the blocks is zero. -/
theorem C25_diagonal_stack (o : Ops E) (values : List (Mat E)) (hwf : ∀ m ∈ values, m.WF) (hne : values ≠ [])
    (hs : (values.map (·.rows)).sum * (values.map (·.cols)).sum < 2 ^ 31) :
    ∃ r, diagonalStack o values = .ok r ∧ r.WF ∧ r.rows = (values.map (·.rows)).sum ∧ r.cols = (values.map (·.cols)).sum ∧
      (∀ pre m post, values = pre ++ m :: post → ∀ i j, InRange m.rows m.cols i j →
        r.get ((pre.map (·.rows)).sum + i) ((pre.map (·.cols)).sum + j) = m.get i j) ∧
      (∀ i j, InRange r.rows r.cols i j →
        (∀ pre m post, values = pre ++ m :: post → ¬ InRange m.rows m.cols (i - (pre.map (·.rows)).sum) (j - (pre.map (·.cols)).sum)) →
        r.get i j = .ok o.zero) := by
  cases values with
  | nil => exact absurd rfl hne
  | cons f rest =>
    obtain ⟨r, h1, h2, h3, h4, h5⟩ := stack_ok o true true f rest hwf ((f :: rest).map (·.rows)).sum ((f :: rest).map (·.cols)).sum
      (by simp) (by simp) (by simp) (by simp) hs
    refine ⟨r, ?_, h4, h2, h3, ?_, ?_⟩
    · unfold diagonalStack
      rw [if_neg (by simp)]
      exact h1
    · intro pre m post hsplit i j hr
      have hpre : ∀ x ∈ pre, x.WF := fun x hx => hwf x (by rw [hsplit]; simp [hx])
      have hpost : ∀ x ∈ post, x.WF := fun x hx => hwf x (by rw [hsplit]; simp [hx])
      have s1 := sum_nonneg_rows pre hpre
      have s2 := sum_nonneg_rows post hpost
      have s3 := sum_nonneg_cols pre hpre
      have s4 := sum_nonneg_cols post hpost
      have hsum : ((f :: rest).map (·.rows)).sum = (pre.map (·.rows)).sum + (m.rows + (post.map (·.rows)).sum) := by
        rw [hsplit, List.map_append, List.sum_append, List.map_cons, List.sum_cons]
      have hsum' : ((f :: rest).map (·.cols)).sum = (pre.map (·.cols)).sum + (m.cols + (post.map (·.cols)).sum) := by
        rw [hsplit, List.map_append, List.sum_append, List.map_cons, List.sum_cons]
      obtain ⟨a, b, c, d⟩ := hr
      rw [h5 _ _ (by omega) (by omega) (by omega) (by omega)]
      have := cover_block true true (.inl rfl) pre m post (by rw [← hsplit]; exact hwf) 0 0 i j a b c d
      simp only [flag, if_true, one_mul, zero_add] at this
      rw [hsplit, this]
    · rintro i j ⟨a, b, c, d⟩ hnone
      rw [h5 i j a (by omega) c (by omega)]
      cases hc : cover true true (f :: rest) 0 0 i j with
      | none => rfl
      | some t =>
        obtain ⟨m, x, y⟩ := t
        obtain ⟨pre, post, e1, e2, e3, e4⟩ := cover_some true true _ 0 0 i j m x y hc
        simp only [flag, if_true, one_mul, zero_add] at e2 e3
        exact absurd (by unfold InRange; omega) (hnone pre m post e1)

/-! ## C26 -/

/-- The entry operations compute in the commutative ring `K`: `val` gives the value of an entry. -/
structure Ops.Values (o : Ops E) {K : Type} [CommRing K] (val : E → K) : Prop where
  zero : val o.zero = 0
  one : val o.one = 1
  add : ∀ a b, val (o.add a b) = val a + val b
  sub : ∀ a b, val (o.sub a b) = val a - val b
  mul : ∀ a b, val (o.mul a b) = val a * val b
  sum : ∀ l, l ≠ [] → val (o.sum l) = (l.map val).sum
  isZero : ∀ a, o.isZero a = true → val a = 0

/-- The mathematical matrix of values. -/
def toMatrix {K : Type} [Zero K] (val : E → K) (m : Mat E) (r c : Nat) : Matrix (Fin r) (Fin c) K := fun i j =>
  match m.get (i : Nat) (j : Nat) with
  | .ok x => val x
  | .error _ => 0

theorem toMatrix_apply {K : Type} [Zero K] (val : E → K) (m : Mat E) {r c : Nat} (i : Fin r) (j : Fin c) {x : E}
    (h : m.get (i : Nat) (j : Nat) = .ok x) : toMatrix val m r c i j = val x := by
  simp only [toMatrix, h]

/-- Sums, differences and scalar multiples are entry by entry; shapes must agree. -/
theorem C26_add_sub_scale (o : Ops E) {K : Type} [CommRing K] (val : E → K) (ho : o.Values val) (a b : Mat E) (ha : a.WF) (hb : b.WF)
    (r c : Nat) (har : a.rows = r) (hac : a.cols = c) (hbr : b.rows = r) (hbc : b.cols = c) (s : E) :
    (∃ m, a.add o b = .ok m ∧ m.WF ∧ m.rows = r ∧ m.cols = c ∧ toMatrix val m r c = toMatrix val a r c + toMatrix val b r c) ∧
    (∃ m, a.sub o b = .ok m ∧ m.WF ∧ m.rows = r ∧ m.cols = c ∧ toMatrix val m r c = toMatrix val a r c - toMatrix val b r c) ∧
    (∃ m, a.scale o s = .ok m ∧ m.WF ∧ m.rows = r ∧ m.cols = c ∧ toMatrix val m r c = val s • toMatrix val a r c) := by
  have key : ∀ (op : E → E → E), ∃ m, createMatrix a.rows a.cols (fun i j => do
      let x ← a.get i j
      let y ← b.get i j
      return op x y) = .ok m ∧ m.WF ∧ m.rows = r ∧ m.cols = c ∧
      ∀ i j : Int, InRange r c i j → ∃ x y, a.get i j = .ok x ∧ b.get i j = .ok y ∧ m.get i j = .ok (op x y) := by
    intro op
    have hget : ∀ i j : Int, 0 ≤ i → i < a.rows → 0 ≤ j → j < a.cols → ∃ x y, a.get i j = .ok x ∧ b.get i j = .ok y := by
      intro i j h1 h2 h3 h4
      obtain ⟨x, hx, _⟩ := ha.get_ok h1 h2 h3 h4
      obtain ⟨y, hy, _⟩ := hb.get_ok (i := i) (j := j) h1 (by omega) h3 (by omega)
      exact ⟨x, y, hx, hy⟩
    obtain ⟨m, h1, h2, h3, h4, h5⟩ := createMatrix_spec ha.rows_nonneg ha.cols_nonneg ha.size_lt (fun i j => do
      let x ← a.get i j
      let y ← b.get i j
      return op x y) (by
        intro i j h1 h2 h3 h4
        obtain ⟨x, y, hx, hy⟩ := hget i j h1 h2 h3 h4
        exact ⟨op x y, by rw [hx, hy]; rfl⟩)
    refine ⟨m, h1, h4, by rw [h2, har], by rw [h3, hac], ?_⟩
    rintro i j ⟨h6, h7, h8, h9⟩
    obtain ⟨x, y, hx, hy⟩ := hget i j h6 (by omega) h8 (by omega)
    refine ⟨x, y, hx, hy, ?_⟩
    rw [h5 i j h6 (by omega) h8 (by omega), hx, hy]
    rfl
  refine ⟨?_, ?_, ?_⟩
  · obtain ⟨m, h1, h2, h3, h4, h5⟩ := key o.add
    refine ⟨m, ?_, h2, h3, h4, ?_⟩
    · unfold Mat.add; rw [if_neg (by omega)]; exact h1
    · ext i j
      obtain ⟨x, y, hx, hy, hm⟩ := h5 i j ⟨by omega, by have := i.isLt; omega, by omega, by have := j.isLt; omega⟩
      rw [toMatrix_apply val m i j hm, Matrix.add_apply, toMatrix_apply val a i j hx, toMatrix_apply val b i j hy, ho.add]
  · obtain ⟨m, h1, h2, h3, h4, h5⟩ := key o.sub
    refine ⟨m, ?_, h2, h3, h4, ?_⟩
    · unfold Mat.sub; rw [if_neg (by omega)]; exact h1
    · ext i j
      obtain ⟨x, y, hx, hy, hm⟩ := h5 i j ⟨by omega, by have := i.isLt; omega, by omega, by have := j.isLt; omega⟩
      rw [toMatrix_apply val m i j hm, Matrix.sub_apply, toMatrix_apply val a i j hx, toMatrix_apply val b i j hy, ho.sub]
  · have hl : ((a.data.map fun x => o.mul x s).length : Int) = a.rows * a.cols := by rw [List.length_map]; exact ha.size_eq
    refine ⟨⟨a.rows, a.cols, a.data.map fun x => o.mul x s⟩, newMatrix_ok ha.rows_nonneg ha.cols_nonneg ha.size_lt _ hl,
      ⟨ha.rows_nonneg, ha.cols_nonneg, hl, ha.size_lt⟩, har, hac, ?_⟩
    ext i j
    obtain ⟨x, hx, _, hx3⟩ := ha.get_ok (i := (i : Nat)) (j := (j : Nat)) (by omega) (by have := i.isLt; omega) (by omega) (by have := j.isLt; omega)
    have hm : (⟨a.rows, a.cols, a.data.map fun x => o.mul x s⟩ : Mat E).get (i : Nat) (j : Nat) = .ok (o.mul x s) := by
      unfold Mat.get Mat.getUnchecked
      rw [if_neg (by simp only; have := i.isLt; have := j.isLt; omega)]
      have hk : 0 ≤ ((i : Nat) : Int) * a.cols + ((j : Nat) : Int) := by have := ha.cols_nonneg; positivity
      obtain ⟨k, hk⟩ := Int.eq_ofNat_of_zero_le hk
      simp only [hk] at hx3 ⊢
      apply vecAt_ok
      rw [List.getElem?_map]
      simp only [Int.toNat_natCast] at hx3
      rw [hx3]; rfl
    rw [toMatrix_apply val _ i j hm, Matrix.smul_apply, toMatrix_apply val a i j hx, ho.mul, smul_eq_mul, mul_comm]

theorem sum_filter_isZero (o : Ops E) {K : Type} [CommRing K] (val : E → K) (ho : o.Values val) (l : List E) :
    ((l.filter fun p => !o.isZero p).map val).sum = (l.map val).sum := by
  induction l with
  | nil => rfl
  | cons a l ih =>
    rw [List.filter_cons]
    cases hz : o.isZero a
    · simp [ih]
    · simp [ih, ho.isZero a hz]

/-- The product of matrices is the mathematical product. -/
theorem C26_mul (o : Ops E) {K : Type} [CommRing K] (val : E → K) (ho : o.Values val) (a b : Mat E) (ha : a.WF) (hb : b.WF)
    (r n c : Nat) (har : a.rows = r) (hac : a.cols = n) (hbr : b.rows = n) (hbc : b.cols = c) (hs : (r : Int) * c < 2 ^ 31) :
    ∃ m, a.mul o b = .ok m ∧ m.WF ∧ m.rows = r ∧ m.cols = c ∧ toMatrix val m r c = toMatrix val a r n * toMatrix val b n c := by
  have hterms : ∀ i j : Int, InRange r c i j → ∃ ps, productTerms o a b i j = .ok ps ∧
      (ps.map val).sum = ((List.range n).map fun k => (match a.get i (k : Nat) with | .ok x => val x | .error _ => 0) *
        (match b.get (k : Nat) j with | .ok x => val x | .error _ => 0)).sum := by
    rintro i j ⟨h1, h2, h3, h4⟩
    have hk : ∀ k : Nat, k < n → ∃ x y, a.get i k = .ok x ∧ b.get k j = .ok y := by
      intro k hk
      obtain ⟨x, hx, _⟩ := ha.get_ok (i := i) (j := (k : Int)) h1 (by omega) (by omega) (by omega)
      obtain ⟨y, hy, _⟩ := hb.get_ok (i := (k : Int)) (j := j) (by omega) (by omega) h3 (by omega)
      exact ⟨x, y, hx, hy⟩
    classical
    have hex : ∃ g : Nat → E, ∀ k, k ∈ List.range n → (do
        let x ← a.get i k
        let y ← b.get k j
        return o.mul x y : Res E) = .ok (g k) := by
      by_cases hE : Nonempty E
      · obtain ⟨d⟩ := hE
        refine ⟨fun k => match (do
          let x ← a.get i k
          let y ← b.get k j
          return o.mul x y : Res E) with | .ok z => z | .error _ => d, ?_⟩
        intro k hkm
        obtain ⟨x, y, hx, hy⟩ := hk k (List.mem_range.mp hkm)
        simp only [hx, hy]
        rfl
      · exact absurd ⟨o.zero⟩ hE
    obtain ⟨g, hg⟩ := hex
    refine ⟨((List.range n).map g).filter fun p => !o.isZero p, ?_, ?_⟩
    · unfold productTerms
      rw [hac, Int.toNat_natCast, mapM_ok _ _ g hg]
      rfl
    · rw [sum_filter_isZero o val ho, List.map_map]
      congr 1
      apply List.map_congr_left
      intro k hkm
      obtain ⟨x, y, hx, hy⟩ := hk k (List.mem_range.mp hkm)
      have := hg k hkm
      rw [hx, hy] at this
      have hgk : o.mul x y = g k := Except.ok.inj this
      simp only [Function.comp_apply, hx, hy, ← hgk, ho.mul]
  have hf : ∀ i j : Int, InRange r c i j → ∃ x, (do
      let terms ← productTerms o a b i j
      if terms.isEmpty then return o.zero else return o.sum terms : Res E) = .ok x ∧
      val x = ((List.range n).map fun k => (match a.get i (k : Nat) with | .ok x => val x | .error _ => 0) *
        (match b.get (k : Nat) j with | .ok x => val x | .error _ => 0)).sum := by
    intro i j hr
    obtain ⟨ps, h1, h2⟩ := hterms i j hr
    cases ps with
    | nil => exact ⟨o.zero, by rw [h1]; rfl, by rw [← h2, ho.zero]; rfl⟩
    | cons p ps => exact ⟨o.sum (p :: ps), by rw [h1]; rfl, by rw [← h2, ho.sum _ (by simp)]⟩
  obtain ⟨m, h1, h2, h3, h4, h5⟩ := createMatrix_spec ha.rows_nonneg hb.cols_nonneg (by rw [har, hbc]; exact hs) (fun i j => do
      let terms ← productTerms o a b i j
      if terms.isEmpty then return o.zero else return o.sum terms) (by
    intro i j e1 e2 e3 e4
    obtain ⟨x, hx, _⟩ := hf i j ⟨e1, by omega, e3, by omega⟩
    exact ⟨x, hx⟩)
  refine ⟨m, ?_, h4, by rw [h2, har], by rw [h3, hbc], ?_⟩
  · unfold Mat.mul
    rw [if_neg (by omega)]
    exact h1
  · ext i j
    obtain ⟨x, hx, hv⟩ := hf i j ⟨by omega, by have := i.isLt; omega, by omega, by have := j.isLt; omega⟩
    have hm := h5 i j (by omega) (by have := i.isLt; omega) (by omega) (by have := j.isLt; omega)
    rw [hx] at hm
    rw [toMatrix_apply val m i j hm, hv, Matrix.mul_apply, ← List.sum_ofFn]
    congr 1
    rw [List.ofFn_eq_map, ← List.map_coe_finRange_eq_range, List.map_map]
    rfl

/-- Products, sums and differences with mismatched shapes are rejected. -/
theorem C26_rejects (o : Ops E) (a b : Mat E) :
    (a.cols ≠ b.rows → a.mul o b = .error .dimension) ∧
    (a.rows ≠ b.rows ∨ a.cols ≠ b.cols → a.add o b = .error .dimension ∧ a.sub o b = .error .dimension) := by
  refine ⟨fun h => ?_, fun h => ⟨?_, ?_⟩⟩
  · unfold Mat.mul; rw [if_pos h]
  · unfold Mat.add; rw [if_pos h]
  · unfold Mat.sub; rw [if_pos h]

/-- The squared norm is the sum of the squares of the entries; an empty matrix is rejected. -/
theorem C26_squared_norm (o : Ops E) {K : Type} [CommRing K] (val : E → K) (ho : o.Values val) (a : Mat E) :
    (a.data ≠ [] → ∃ x, a.squaredNorm o = .ok x ∧ val x = (a.data.map fun x => val x ^ 2).sum) ∧
    (a.data = [] → a.squaredNorm o = .error .invalidArgument) := by
  constructor
  · intro h
    refine ⟨_, by unfold Mat.squaredNorm; rw [if_neg (by simpa using h)], ?_⟩
    rw [ho.sum _ (by simpa using h), List.map_map]
    congr 1
    apply List.map_congr_left
    intro x _
    simp [ho.mul, sq]
  · intro h
    unfold Mat.squaredNorm
    rw [h]; rfl

/-! Non-vacuity: integers as entries. -/

def intOps : Ops Int := ⟨0, 1, (· + ·), (· - ·), (· * ·), (· / ·), List.sum, fun x => x == 0⟩

example : intOps.Values (K := ℤ) id :=
  ⟨rfl, rfl, fun _ _ => rfl, fun _ _ => rfl, fun _ _ => rfl, fun l _ => by simp [intOps], fun a h => by simpa [intOps] using h⟩
example : (⟨2, 3, [1, 2, 3, 4, 5, 6]⟩ : Mat Int).WF := ⟨by decide, by decide, by decide, by decide⟩
example : (⟨2, 3, [1, 2, 3, 4, 5, 6]⟩ : Mat Int).transposed = .ok ⟨3, 2, [1, 4, 2, 5, 3, 6]⟩ := by decide
example : (⟨2, 2, [1, 2, 3, 4]⟩ : Mat Int).mul intOps ⟨2, 1, [5, 6]⟩ = .ok ⟨2, 1, [17, 39]⟩ := by decide
example : diagonalStack intOps [⟨1, 2, [7, 8]⟩, ⟨1, 1, [9]⟩] = .ok ⟨2, 3, [7, 8, 0, 0, 0, 9]⟩ := by decide
example : (⟨2, 2, [1, 2, 3, 4]⟩ : Mat Int).getBlock 0 0 (-1) 1 = .error .dimension := by decide

end Wf.Mat
