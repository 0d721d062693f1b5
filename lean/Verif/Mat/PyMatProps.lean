import Verif.Mat.PyMatModel
import Verif.Mat.MatrixProps

/-!
# C70: matrices are indexed, sliced, built and read like nested Python lists
-/

namespace Wf.Mat

variable {E : Type}

/-! ## Specification: the rules of the Python language reference for sequences -/

/-- The position that an index means in a sequence of length `len`: negative indices count from the end. -/
def fromEnd (len i : Int) : Int := if i < 0 then i + len else i

/-- The index is valid for a sequence of length `len`. -/
def ValidIndex (len i : Int) : Prop := -len ≤ i ∧ i < len

/-- `ks` are the positions that the slice selects in a sequence of length `len`, in order: the positions `i`, `i + step`, `i + 2 * step`, …
up to but not including `j`, where the bounds `i` and `j` count from the end if they are negative, missing bounds mean the end that the step
comes from and goes to, and a start outside the sequence is moved to its nearer end. -/
structure SliceOf (len : Int) (s : PySlice) (ks : List Int) : Prop where
  increasing : 0 < s.step.getD 1 → ks.Pairwise (· < ·)
  decreasing : s.step.getD 1 < 0 → ks.Pairwise (· > ·)
  forward : 0 < s.step.getD 1 → ∀ k, k ∈ ks ↔ 0 ≤ k ∧ k < len ∧ k < (s.stop.map (fromEnd len)).getD len ∧
    ∃ n : Nat, k = max 0 ((s.start.map (fromEnd len)).getD 0) + n * s.step.getD 1
  backward : s.step.getD 1 < 0 → ∀ k, k ∈ ks ↔ 0 ≤ k ∧ k < len ∧ (s.stop.map (fromEnd len)).getD (-1) < k ∧
    ∃ n : Nat, k = min (len - 1) ((s.start.map (fromEnd len)).getD (len - 1)) + n * s.step.getD 1

/-! ## Lemmas -/

theorem adjust_forward {len step : Int} (hl : 0 ≤ len) (hs : 0 < step) (x : Int) :
    adjustBound len step x = min len (max 0 (fromEnd len x)) := by
  unfold adjustBound fromEnd
  rw [if_neg (by omega : ¬ step < 0)]
  split
  · split <;> omega
  · split <;> omega

theorem adjust_backward {len step : Int} (hl : 0 ≤ len) (hs : step < 0) (x : Int) :
    adjustBound len step x = max (-1) (min (len - 1) (fromEnd len x)) := by
  unfold adjustBound fromEnd
  rw [if_pos hs, if_pos hs]
  split
  · split <;> omega
  · split <;> omega

theorem sliceLength_forward {a b step : Int} (hs : 0 < step) (n : Nat) : (n : Int) < sliceLength a b step ↔ a + n * step < b := by
  unfold sliceLength
  rw [if_neg (by omega)]
  split
  · rw [Int.lt_add_one_iff, Int.le_ediv_iff_mul_le hs]; omega
  · constructor
    · intro h; omega
    · intro h
      have : (0 : Int) ≤ n * step := mul_nonneg (by omega) (by omega)
      omega

theorem sliceLength_backward {a b step : Int} (hs : step < 0) (n : Nat) : (n : Int) < sliceLength a b step ↔ b < a + n * step := by
  unfold sliceLength
  rw [if_pos hs]
  split
  · rw [Int.lt_add_one_iff, Int.le_ediv_iff_mul_le (by omega)]
    have : (n : Int) * -step = -(n * step) := by ring
    omega
  · constructor
    · intro h; omega
    · intro h
      have : (n : Int) * step ≤ 0 := mul_nonpos_of_nonneg_of_nonpos (by omega) (by omega)
      omega

theorem sliceLength_nonneg (a b step : Int) : 0 ≤ sliceLength a b step := by
  unfold sliceLength
  split
  · split
    · have : 0 ≤ (a - b - 1) / -step := Int.ediv_nonneg (by omega) (by omega)
      omega
    · omega
  · split
    · have : 0 ≤ (b - a - 1) / step := Int.ediv_nonneg (by omega) (by omega)
      omega
    · omega

/-- The positions that the code visits. -/
def SliceIx.list (ix : SliceIx) : List Int := (List.range ix.length.toNat).map fun (i : Nat) => ix.map i

theorem slice_pos {len : Int} {s : PySlice} {ix : SliceIx} (hl : 0 ≤ len) (hl' : len < 2 ^ 31) (h : sliceCompute len s = .ok ix) :
    SliceOf len s ix.list ∧ 0 ≤ ix.length ∧ ix.length ≤ len := by
  unfold sliceCompute at h
  simp only at h
  by_cases h0 : s.step.getD 1 = 0
  · rw [if_pos h0] at h; cases h
  rw [if_neg h0] at h
  obtain rfl := Except.ok.inj h
  generalize hst : s.step.getD 1 = step at *
  have hmem : ∀ (a b : Int) k, k ∈ SliceIx.list ⟨a, step, sliceLength a b step⟩ ↔ ∃ n : Nat, (n : Int) < sliceLength a b step ∧ k = a + n * step := by
    intro a b k
    simp only [SliceIx.list, List.mem_map, List.mem_range, SliceIx.map]
    constructor
    · rintro ⟨n, hn, rfl⟩; exact ⟨n, by omega, rfl⟩
    · rintro ⟨n, hn, rfl⟩; exact ⟨n, by omega, rfl⟩
  have hpair : ∀ (R : Int → Int → Prop) (a b : Int), (∀ i j : Nat, i < j → R (a + i * step) (a + j * step)) →
      (SliceIx.list ⟨a, step, sliceLength a b step⟩).Pairwise R := by
    intro R a b hR
    unfold SliceIx.list
    rw [List.pairwise_map]
    exact List.pairwise_lt_range.imp fun hij => hR _ _ hij
  rcases lt_or_gt_of_ne h0 with hneg | hpos
  · rw [if_pos hneg, if_pos hneg]
    obtain ⟨a, ha⟩ : ∃ a, adjustBound len step (s.start.getD (2 ^ 63 - 1)) = a := ⟨_, rfl⟩
    obtain ⟨b, hb⟩ : ∃ b, adjustBound len step (s.stop.getD (-2 ^ 63)) = b := ⟨_, rfl⟩
    rw [ha, hb]
    have ha' : a = max (-1) (min (len - 1) ((s.start.map (fromEnd len)).getD (len - 1))) := by
      rw [← ha, adjust_backward hl hneg]
      cases s.start with
      | none => simp only [Option.getD_none, Option.map_none]; unfold fromEnd; omega
      | some x => rfl
    have hb' : b = max (-1) (min (len - 1) ((s.stop.map (fromEnd len)).getD (-1))) := by
      rw [← hb, adjust_backward hl hneg]
      cases s.stop with
      | none => simp only [Option.getD_none, Option.map_none]; unfold fromEnd; omega
      | some x => rfl
    generalize hA : (s.start.map (fromEnd len)).getD (len - 1) = A at ha'
    generalize hB : (s.stop.map (fromEnd len)).getD (-1) = B at hb'
    have hcount : sliceLength a b step ≤ len := by
      by_contra hn
      have h1 := (sliceLength_backward (a := a) (b := b) hneg len.toNat).1 (by omega)
      have h2 : ((len.toNat : Int)) * step ≤ -len := by rw [Int.toNat_of_nonneg hl]; nlinarith
      omega
    refine ⟨⟨fun h => absurd h (by omega), fun _ => hpair _ a b fun i j hij => ?_, fun h => absurd h (by omega), fun _ k => ?_⟩,
      sliceLength_nonneg _ _ _, hcount⟩
    · have : ((i : Int) - j) * step > 0 := mul_pos_of_neg_of_neg (by omega) hneg
      show a + i * step > a + j * step
      nlinarith
    · rw [hmem, hst, hA, hB]
      constructor
      · rintro ⟨n, hn, rfl⟩
        rw [sliceLength_backward hneg] at hn
        have h1 : (n : Int) * step ≤ 0 := mul_nonpos_of_nonneg_of_nonpos (by omega) (by omega)
        exact ⟨by omega, by omega, by omega, n, by omega⟩
      · rintro ⟨h1, h2, h3, n, rfl⟩
        have h4 : (n : Int) * step ≤ 0 := mul_nonpos_of_nonneg_of_nonpos (by omega) (by omega)
        exact ⟨n, by rw [sliceLength_backward hneg]; omega, by omega⟩
  · rw [if_neg (by omega), if_neg (by omega)]
    obtain ⟨a, ha⟩ : ∃ a, adjustBound len step (s.start.getD 0) = a := ⟨_, rfl⟩
    obtain ⟨b, hb⟩ : ∃ b, adjustBound len step (s.stop.getD (2 ^ 63 - 1)) = b := ⟨_, rfl⟩
    rw [ha, hb]
    have ha' : a = min len (max 0 ((s.start.map (fromEnd len)).getD 0)) := by
      rw [← ha, adjust_forward hl hpos]
      cases s.start with
      | none => simp only [Option.getD_none, Option.map_none]; unfold fromEnd; omega
      | some x => rfl
    have hb' : b = min len (max 0 ((s.stop.map (fromEnd len)).getD len)) := by
      rw [← hb, adjust_forward hl hpos]
      cases s.stop with
      | none => simp only [Option.getD_none, Option.map_none]; unfold fromEnd; omega
      | some x => rfl
    generalize hA : (s.start.map (fromEnd len)).getD 0 = A at ha'
    generalize hB : (s.stop.map (fromEnd len)).getD len = B at hb'
    have hcount : sliceLength a b step ≤ len := by
      by_contra hn
      have h1 := (sliceLength_forward (a := a) (b := b) hpos len.toNat).1 (by omega)
      have h2 : ((len.toNat : Int)) * step ≥ len := by rw [Int.toNat_of_nonneg hl]; nlinarith
      omega
    refine ⟨⟨fun _ => hpair _ a b fun i j hij => ?_, fun h => absurd h (by omega), fun _ k => ?_, fun h => absurd h (by omega)⟩,
      sliceLength_nonneg _ _ _, hcount⟩
    · have : ((j : Int) - i) * step > 0 := mul_pos (by omega) hpos
      show a + i * step < a + j * step
      nlinarith
    · rw [hmem, hst, hA, hB]
      constructor
      · rintro ⟨n, hn, rfl⟩
        rw [sliceLength_forward hpos] at hn
        have h1 : (n : Int) * step ≥ 0 := mul_nonneg (by omega) (by omega)
        exact ⟨by omega, by omega, by omega, n, by omega⟩
      · rintro ⟨h1, h2, h3, n, rfl⟩
        have h4 : (n : Int) * step ≥ 0 := mul_nonneg (by omega) (by omega)
        exact ⟨n, by rw [sliceLength_forward hpos]; omega, by omega⟩

theorem slice_runs {len : Int} {s : PySlice} (hl : 0 ≤ len) (hl' : len < 2 ^ 31) (hs : s.step ≠ some 0) :
    ∃ ix, sliceCompute len s = .ok ix ∧ SliceOf len s ix.list ∧ 0 ≤ ix.length ∧ ix.length ≤ len := by
  have h0 : s.step.getD 1 ≠ 0 := by
    cases h : s.step with
    | none => simp
    | some x => simpa [h] using hs
  obtain ⟨ix, h⟩ : ∃ ix, sliceCompute len s = .ok ix := ⟨_, by unfold sliceCompute; exact if_neg h0⟩
  exact ⟨ix, h, slice_pos hl hl' h⟩

theorem slice_zero {len : Int} {s : PySlice} (hs : s.step = some 0) : sliceCompute len s = .error .invalidArgument := by
  unfold sliceCompute
  rw [hs]
  rfl

theorem slice_range {len : Int} {s : PySlice} {ks : List Int} (h : SliceOf len s ks) (h0 : s.step.getD 1 ≠ 0) : ∀ k ∈ ks, 0 ≤ k ∧ k < len := by
  intro k hk
  rcases lt_or_gt_of_ne h0 with hn | hp
  · have := (h.backward hn k).1 hk; exact ⟨this.1, this.2.1⟩
  · have := (h.forward hp k).1 hk; exact ⟨this.1, this.2.1⟩

theorem slice_map_range {len : Int} {s : PySlice} {ix : SliceIx} (hl : 0 ≤ len) (hl' : len < 2 ^ 31) (h : sliceCompute len s = .ok ix) {i : Int}
    (hi : 0 ≤ i) (hi' : i < ix.length) : 0 ≤ ix.map i ∧ ix.map i < len := by
  have h0 : s.step.getD 1 ≠ 0 := by
    intro h0
    unfold sliceCompute at h
    rw [if_pos h0] at h; cases h
  refine slice_range (slice_pos hl hl' h).1 h0 _ ?_
  simp only [SliceIx.list, List.mem_map, List.mem_range]
  exact ⟨i.toNat, by omega, by rw [Int.toNat_of_nonneg hi]⟩

theorem slice_at {ix : SliceIx} {i : Nat} {k : Int} (h : ix.list[i]? = some k) : (i : Int) < ix.length ∧ ix.map i = k := by
  unfold SliceIx.list at h
  rw [List.getElem?_map] at h
  by_cases hi : i < ix.length.toNat
  · rw [List.getElem?_range hi] at h
    exact ⟨by omega, by simpa using h⟩
  · rw [List.getElem?_eq_none (by simpa using hi)] at h
    cases h

theorem slice_length {ix : SliceIx} (h : 0 ≤ ix.length) : (ix.list.length : Int) = ix.length := by
  unfold SliceIx.list
  simp [h]

/-- Positions are determined by the slice. -/
theorem C70_slice_unique {len : Int} {s : PySlice} (hs : s.step ≠ some 0) {ks ks' : List Int} (h : SliceOf len s ks) (h' : SliceOf len s ks') : ks = ks' := by
  have h0 : s.step.getD 1 ≠ 0 := by
    cases hh : s.step with
    | none => simp
    | some x => simpa [hh] using hs
  rcases lt_or_gt_of_ne h0 with hn | hp
  · have hp1 : ks.Perm ks' := (List.perm_ext_iff_of_nodup ((h.decreasing hn).imp fun hab => (ne_of_gt hab)) ((h'.decreasing hn).imp fun hab => (ne_of_gt hab))).2
      fun k => by rw [h.backward hn, h'.backward hn]
    exact hp1.eq_of_pairwise (fun a b _ _ h1 h2 => absurd h1 (by omega)) (h.decreasing hn) (h'.decreasing hn)
  · have hp1 : ks.Perm ks' := (List.perm_ext_iff_of_nodup ((h.increasing hp).imp fun hab => (ne_of_lt hab)) ((h'.increasing hp).imp fun hab => (ne_of_lt hab))).2
      fun k => by rw [h.forward hp, h'.forward hp]
    exact hp1.eq_of_pairwise (fun a b _ _ h1 h2 => absurd h1 (by omega)) (h.increasing hp) (h'.increasing hp)

/-! ## Indices -/

/-- `m[i, j]` is the element that Python's rules for indices give; other indices are refused. -/
theorem C70_element (m : Mat E) (h : m.WF) (i j : Int) :
    (ValidIndex m.rows i ∧ ValidIndex m.cols j → ∃ x, getRowAndCol m i j = .ok x ∧ m.get (fromEnd m.rows i) (fromEnd m.cols j) = .ok x) ∧
    (¬ (ValidIndex m.rows i ∧ ValidIndex m.cols j) → getRowAndCol m i j = .error .dimension) := by
  have e1 : (if i < 0 then m.rows + i else i) = fromEnd m.rows i := by unfold fromEnd; split <;> omega
  have e2 : (if j < 0 then m.cols + j else j) = fromEnd m.cols j := by unfold fromEnd; split <;> omega
  unfold getRowAndCol
  rw [e1, e2]
  have hv : ∀ len k, ValidIndex len k ↔ 0 ≤ fromEnd len k ∧ fromEnd len k < len := by
    intro len k
    unfold ValidIndex fromEnd
    split <;> omega
  rw [hv, hv]
  constructor
  · rintro ⟨⟨a, b⟩, c, d⟩
    obtain ⟨x, hx, _⟩ := h.get_ok a b c d
    exact ⟨x, hx, hx⟩
  · intro hn
    exact Mat.get_out fun hh => hn ⟨⟨hh.1, hh.2.1⟩, hh.2.2⟩

/-- `m[i]` of a column vector is an element, of any other matrix a row; other indices are refused. (The largest `int` overflows, see
`C25_block_overflow_refuted`.) -/
theorem C70_row (m : Mat E) (h : m.WF) (hr : m.rows < 2 ^ 31) (hc : m.cols < 2 ^ 31) (i : Int) (hi : i < 2 ^ 31 - 1) :
    (ValidIndex m.rows i → m.cols = 1 → ∃ x, getRow m i = .ok (.scalar x) ∧ m.get (fromEnd m.rows i) 0 = .ok x) ∧
    (ValidIndex m.rows i → m.cols ≠ 1 → ∃ r, getRow m i = .ok (.matrix r) ∧ r.WF ∧ r.rows = 1 ∧ r.cols = m.cols ∧
      ∀ j, 0 ≤ j → j < m.cols → r.get 0 j = m.get (fromEnd m.rows i) j) ∧
    (¬ ValidIndex m.rows i → ∃ e, getRow m i = .error e ∧ e ≠ .ub) := by
  have e1 : (if i < 0 then m.rows + i else i) = fromEnd m.rows i := by unfold fromEnd; split <;> omega
  have hb : fromEnd m.rows i < 2 ^ 31 - 1 := by have := h.rows_nonneg; unfold fromEnd; split <;> omega
  have hv : ValidIndex m.rows i ↔ 0 ≤ fromEnd m.rows i ∧ fromEnd m.rows i < m.rows := by
    unfold ValidIndex fromEnd
    split <;> omega
  have hc0 := h.cols_nonneg
  unfold getRow
  rw [e1, hv]
  refine ⟨fun hi hone => ?_, fun hi hone => ?_, fun hi => ?_⟩
  · rw [if_pos hone]
    have hlen : (m.data.length : Int) = m.rows := by rw [h.size_eq, hone, mul_one]
    obtain ⟨x, h1, h2, h3⟩ := h.get_ok hi.1 hi.2 (le_refl 0) (by omega)
    refine ⟨x, ?_, h1⟩
    unfold Mat.getFlat
    rw [if_neg (by omega), if_neg (by omega)]
    unfold Mat.getUnchecked at h2
    rw [hone, mul_one, add_zero] at h2
    rw [h2]; rfl
  · rw [if_neg hone]
    obtain ⟨b, h1, h2, h3, h4, h5⟩ := (C25_block m h (fromEnd m.rows i) 0 1 m.cols (by omega) (by omega) (by omega) (by omega)).1
      ⟨hi.1, le_refl 0, by omega, hc0, by omega, by omega⟩
    refine ⟨b, by rw [h1]; rfl, h2, h3, h4, fun j hj hj' => ?_⟩
    have := h5 0 j ⟨le_refl 0, by omega, hj, hj'⟩
    rw [add_zero, zero_add] at this
    exact this
  · by_cases hone : m.cols = 1
    · rw [if_pos hone]
      have hlen : (m.data.length : Int) = m.rows := by rw [h.size_eq, hone, mul_one]
      unfold Mat.getFlat
      rw [if_neg (by omega), if_pos (by omega)]
      exact ⟨_, rfl, by decide⟩
    · rw [if_neg hone]
      obtain ⟨e, he, hu⟩ := (C25_block m h (fromEnd m.rows i) 0 1 m.cols (by omega) (by omega) (by omega) (by omega)).2 (by omega)
      exact ⟨e, by rw [he]; rfl, hu⟩

theorem mapM_exists {α β : Type} (f : α → Res β) (l : List α) (h : ∀ x ∈ l, ∃ y, f x = .ok y) :
    ∃ ys, l.mapM f = .ok ys ∧ ys.length = l.length ∧ ∀ (i : Nat) x y, l[i]? = some x → ys[i]? = some y → f x = .ok y := by
  induction l with
  | nil => exact ⟨[], rfl, rfl, fun i x y h => by simp at h⟩
  | cons a l ih =>
    obtain ⟨y, hy⟩ := h a List.mem_cons_self
    obtain ⟨ys, h1, h2, h3⟩ := ih fun x hx => h x (List.mem_cons_of_mem _ hx)
    refine ⟨y :: ys, by rw [List.mapM_cons, hy, h1]; rfl, by simp [h2], fun i x z hx hz => ?_⟩
    cases i with
    | zero =>
      simp only [List.getElem?_cons_zero, Option.some.injEq] at hx hz
      rw [← hx, ← hz, hy]
    | succ i => exact h3 i x z (by simpa using hx) (by simpa using hz)

/-- Iteration gives `m[0]`, `m[1]`, … -/
theorem C70_iteration (m : Mat E) (h : m.WF) (hr : m.rows < 2 ^ 31) (hc : m.cols < 2 ^ 31) :
    ∃ l, iterRows m = .ok l ∧ (l.length : Int) = m.rows ∧ ∀ (i : Nat) x, l[i]? = some x → getRow m i = .ok x := by
  have key : ∀ i ∈ List.range m.rows.toNat, ∃ x, getRow m (i : Nat) = .ok x := by
    intro i hi
    rw [List.mem_range] at hi
    have hv : ValidIndex m.rows i := by unfold ValidIndex; omega
    by_cases hone : m.cols = 1
    · obtain ⟨x, hx, _⟩ := (C70_row m h hr hc i (by omega)).1 hv hone; exact ⟨_, hx⟩
    · obtain ⟨x, hx, _⟩ := (C70_row m h hr hc i (by omega)).2.1 hv hone; exact ⟨_, hx⟩
  have hsame : iterRows m = (List.range m.rows.toNat).mapM fun (i : Nat) => getRow m i := by
    unfold iterRows
    congr 1
  obtain ⟨l, h1, h2, h3⟩ := mapM_exists _ _ key
  rw [List.length_range] at h2
  refine ⟨l, hsame.trans h1, by have := h.rows_nonneg; omega, fun i x hx => ?_⟩
  have hi : i < m.rows.toNat := by
    rw [← h2]
    exact (List.getElem?_eq_some_iff.1 hx).1
  exact h3 i i x (List.getElem?_range hi) hx

/-! ## Slices -/

/-- `m[s]` has the rows that the slice selects, in its order. -/
theorem C70_row_slice (m : Mat E) (h : m.WF) (hr : m.rows < 2 ^ 31) (s : PySlice) (hs : s.step ≠ some 0) :
    ∃ ks r, SliceOf m.rows s ks ∧ getRowSlice m s = .ok r ∧ r.WF ∧ r.rows = ks.length ∧ r.cols = m.cols ∧
      ∀ (i : Nat) k, ks[i]? = some k → ∀ j, r.get i j = m.get k j := by
  obtain ⟨ix, h1, h2, h3, h4⟩ := slice_runs h.rows_nonneg hr hs
  have hsz : ix.length * m.cols < 2 ^ 31 := lt_of_le_of_lt (mul_le_mul_of_nonneg_right h4 h.cols_nonneg) h.size_lt
  obtain ⟨r, e1, e2, e3, e4, e5⟩ := createMatrix_spec h3 h.cols_nonneg hsz (fun i j => m.get (ix.map i) j) (by
    intro i j a b c d
    obtain ⟨p, q⟩ := slice_map_range h.rows_nonneg hr h1 a b
    obtain ⟨x, hx, _⟩ := h.get_ok p q c d
    exact ⟨x, hx⟩)
  refine ⟨ix.list, r, h2, ?_, e4, by rw [e2, slice_length h3], e3, fun i k hk j => ?_⟩
  · unfold getRowSlice; rw [h1]; exact e1
  · obtain ⟨hi, rfl⟩ := slice_at hk
    obtain ⟨p, q⟩ := slice_map_range h.rows_nonneg hr h1 (Int.natCast_nonneg i) hi
    by_cases hj : 0 ≤ j ∧ j < m.cols
    · exact e5 i j (by omega) hi hj.1 hj.2
    · rw [Mat.get_out (by omega), Mat.get_out (by omega)]

/-- `m[s, t]` has the elements in the selected rows and columns. -/
theorem C70_block_slice (m : Mat E) (h : m.WF) (hr : m.rows < 2 ^ 31) (hc : m.cols < 2 ^ 31) (s t : PySlice) (hs : s.step ≠ some 0) (ht : t.step ≠ some 0) :
    ∃ ks ls r, SliceOf m.rows s ks ∧ SliceOf m.cols t ls ∧ getRowAndColSlice m s t = .ok r ∧ r.WF ∧ r.rows = ks.length ∧ r.cols = ls.length ∧
      ∀ (i j : Nat) k l, ks[i]? = some k → ls[j]? = some l → r.get i j = m.get k l := by
  obtain ⟨ix, h1, h2, h3, h4⟩ := slice_runs h.rows_nonneg hr hs
  obtain ⟨iy, g1, g2, g3, g4⟩ := slice_runs h.cols_nonneg hc ht
  have hsz : ix.length * iy.length < 2 ^ 31 := lt_of_le_of_lt (mul_le_mul h4 g4 g3 h.rows_nonneg) h.size_lt
  obtain ⟨r, e1, e2, e3, e4, e5⟩ := createMatrix_spec h3 g3 hsz (fun i j => m.get (ix.map i) (iy.map j)) (by
    intro i j a b c d
    obtain ⟨p, q⟩ := slice_map_range h.rows_nonneg hr h1 a b
    obtain ⟨p', q'⟩ := slice_map_range h.cols_nonneg hc g1 c d
    obtain ⟨x, hx, _⟩ := h.get_ok p q p' q'
    exact ⟨x, hx⟩)
  refine ⟨ix.list, iy.list, r, h2, g2, ?_, e4, by rw [e2, slice_length h3], by rw [e3, slice_length g3], fun i j k l hk hl => ?_⟩
  · unfold getRowAndColSlice; rw [h1, g1]; exact e1
  · obtain ⟨hi, rfl⟩ := slice_at hk
    obtain ⟨hj, rfl⟩ := slice_at hl
    exact e5 i j (by omega) hi (by omega) hj

/-- A zero step is refused. -/
theorem C70_zero_step (m : Mat E) (s t : PySlice) (i : Int) (hs : s.step = some 0) :
    getRowSlice m s = .error .invalidArgument ∧ getRowAndColSlice m s t = .error .invalidArgument := by
  unfold getRowSlice getRowAndColSlice
  rw [slice_zero hs]
  exact ⟨rfl, rfl⟩

/-- `m[i, t]` and `m[s, j]` select from one row or column. Partial: for indices that are not negative (see `C70_negative_refuted`). -/
theorem C70_mixed_slice_partial (m : Mat E) (h : m.WF) (hr : m.rows < 2 ^ 31) (hc : m.cols < 2 ^ 31) (i : Int) (t : PySlice) (ht : t.step ≠ some 0) (hi : 0 ≤ i) :
    (i < m.rows → ∃ ls r, SliceOf m.cols t ls ∧ getRowAndSlice m i t = .ok r ∧ r.WF ∧ r.rows = 1 ∧ r.cols = ls.length ∧
      ∀ (j : Nat) l, ls[j]? = some l → r.get 0 j = m.get i l) ∧
    (i < m.cols → ∀ s : PySlice, s.step ≠ some 0 → ∃ ks r, SliceOf m.rows s ks ∧ getSliceAndCol m s i = .ok r ∧ r.WF ∧ r.rows = ks.length ∧ r.cols = 1 ∧
      ∀ (j : Nat) k, ks[j]? = some k → r.get j 0 = m.get k i) := by
  constructor
  · intro hi'
    obtain ⟨iy, g1, g2, g3, g4⟩ := slice_runs h.cols_nonneg hc ht
    have hsz : 1 * iy.length < 2 ^ 31 := by omega
    obtain ⟨r, e1, e2, e3, e4, e5⟩ := createMatrix_spec (by omega : (0 : Int) ≤ 1) g3 hsz (fun _ j => m.get i (iy.map j)) (by
      intro _ j _ _ c d
      obtain ⟨p', q'⟩ := slice_map_range h.cols_nonneg hc g1 c d
      obtain ⟨x, hx, _⟩ := h.get_ok hi hi' p' q'
      exact ⟨x, hx⟩)
    refine ⟨iy.list, r, g2, ?_, e4, e2, by rw [e3, slice_length g3], fun j l hl => ?_⟩
    · unfold getRowAndSlice; rw [if_neg (by omega), g1]; exact e1
    · obtain ⟨hj, rfl⟩ := slice_at hl
      exact e5 0 j (le_refl 0) (by omega) (by omega) hj
  · intro hi' s hs
    obtain ⟨ix, h1, h2, h3, h4⟩ := slice_runs h.rows_nonneg hr hs
    have hsz : ix.length * 1 < 2 ^ 31 := by omega
    obtain ⟨r, e1, e2, e3, e4, e5⟩ := createMatrix_spec h3 (by omega : (0 : Int) ≤ 1) hsz (fun j _ => m.get (ix.map j) i) (by
      intro j _ a b _ _
      obtain ⟨p, q⟩ := slice_map_range h.rows_nonneg hr h1 a b
      obtain ⟨x, hx, _⟩ := h.get_ok p q hi hi'
      exact ⟨x, hx⟩)
    refine ⟨ix.list, r, h2, ?_, e4, by rw [e2, slice_length h3], e3, fun j k hk => ?_⟩
    · unfold getSliceAndCol; rw [if_neg (by omega), h1]; exact e1
    · obtain ⟨hj, rfl⟩ := slice_at hk
      exact e5 j 0 (by omega) hj (le_refl 0) (by omega)

/-- A negative index beside a slice is subtracted from the length instead of added: `m[-1, :]` and `m[:, -1]` are refused for every matrix
that has an element in the last row or column, although `m[-1, 0]` and `m[-1:, :]` are accepted. -/
theorem C70_negative_refuted (m : Mat E) (h : m.WF) (hr : 0 < m.rows) (hc : 0 < m.cols) (hr' : m.rows < 2 ^ 31 - 1) (hc' : m.cols < 2 ^ 31 - 1) :
    getRowAndSlice m (-1) ⟨none, none, none⟩ = .error .dimension ∧ getSliceAndCol m ⟨none, none, none⟩ (-1) = .error .dimension ∧
    (∃ x, getRowAndCol m (-1) 0 = .ok x) := by
  refine ⟨?_, ?_, ?_⟩
  · obtain ⟨iy, g1, g2, g3, g4⟩ := slice_runs (s := ⟨none, none, none⟩) h.cols_nonneg (by omega) (by simp)
    have hl : iy.length ≠ 0 := by
      intro h0
      have hm := (g2.forward (by simp) 0).2 ⟨le_refl 0, hc, by simpa using hc, 0, by simp⟩
      unfold SliceIx.list at hm
      rw [h0] at hm
      simp at hm
    unfold getRowAndSlice
    rw [if_pos (by omega), intResult_ok (by omega) (by omega), g1]
    show createMatrix 1 iy.length (fun _ j => m.get (m.rows - -1) (iy.map j)) = _
    obtain ⟨n, hn⟩ : ∃ n : Nat, iy.length.toNat = n + 1 := ⟨iy.length.toNat - 1, by omega⟩
    obtain ⟨rest, this⟩ : ∃ rest, indexPairs 1 iy.length = (0, 0) :: rest := by
      unfold indexPairs
      rw [hn, List.range_succ_eq_map]
      exact ⟨_, rfl⟩
    unfold createMatrix iterMatrix
    rw [this, List.mapM_cons]
    beta_reduce
    rw [Mat.get_out (by omega)]
    rfl
  · obtain ⟨ix, g1, g2, g3, g4⟩ := slice_runs (s := ⟨none, none, none⟩) h.rows_nonneg (by omega) (by simp)
    have hl : ix.length ≠ 0 := by
      intro h0
      have hm := (g2.forward (by simp) 0).2 ⟨le_refl 0, hr, by simpa using hr, 0, by simp⟩
      unfold SliceIx.list at hm
      rw [h0] at hm
      simp at hm
    unfold getSliceAndCol
    rw [if_pos (by omega), intResult_ok (by omega) (by omega), g1]
    show createMatrix ix.length 1 (fun i _ => m.get (ix.map i) (m.cols - -1)) = _
    obtain ⟨n, hn⟩ : ∃ n : Nat, ix.length.toNat = n + 1 := ⟨ix.length.toNat - 1, by omega⟩
    obtain ⟨rest, this⟩ : ∃ rest, indexPairs ix.length 1 = (0, 0) :: rest := by
      unfold indexPairs
      rw [hn, List.range_succ_eq_map]
      exact ⟨_, rfl⟩
    unfold createMatrix iterMatrix
    rw [this, List.mapM_cons]
    beta_reduce
    rw [Mat.get_out (by omega)]
    rfl
  · obtain ⟨x, hx, _⟩ := (C70_element m h (-1) 0).1 ⟨by unfold ValidIndex; omega, by unfold ValidIndex; omega⟩
    exact ⟨x, hx⟩

/-! ## Construction from rows -/

theorem mapM_exprs (es : List E) : (es.map PyObj.expr).mapM PyObj.toExpr = .ok es := by
  induction es with
  | nil => rfl
  | cons a es ih => rw [List.map_cons, List.mapM_cons, ih]; rfl

/-- What an argument of `sym.matrix` contributes: a row for a list of scalars, its rows for a matrix. -/
inductive Contributes : PyObj E → Mat E → Prop
  | row (es : List E) : Contributes (.iter (es.map .expr)) ⟨1, es.length, es⟩
  | rows (m : Mat E) : Contributes (.matrix m) m

theorem Contributes.extract {o : PyObj E} {m : Mat E} (h : Contributes o m) : extractRows o = .ok (m.data, m.cols) := by
  cases h with
  | row es => simp only [extractRows, mapM_exprs]; rfl
  | rows m => rfl

theorem extractLoop_ok {c : Int} {os : List (PyObj E)} {ms : List (Mat E)} (h : List.Forall₂ Contributes os ms) (hc : ∀ m ∈ ms, m.cols = c) (acc : List E) :
    extractLoop c os acc = .ok (acc ++ ms.flatMap (·.data)) := by
  induction h generalizing acc with
  | nil => simp [extractLoop]
  | @cons o m os ms h1 _ ih =>
    unfold extractLoop
    rw [h1.extract]
    show (if m.cols ≠ c then _ else extractLoop c os (acc ++ m.data)) = _
    rw [if_neg (by simp [hc m List.mem_cons_self]), ih fun x hx => hc x (List.mem_cons_of_mem _ hx)]
    simp

theorem data_length {c : Int} (ms : List (Mat E)) (hw : ∀ m ∈ ms, m.WF) (hc : ∀ m ∈ ms, m.cols = c) :
    ((ms.flatMap (·.data)).length : Int) = (ms.map (·.rows)).sum * c := by
  induction ms with
  | nil => simp
  | cons m ms ih =>
    have h1 := (hw m List.mem_cons_self).size_eq
    have h2 := ih (fun x hx => hw x (List.mem_cons_of_mem _ hx)) fun x hx => hc x (List.mem_cons_of_mem _ hx)
    rw [hc m List.mem_cons_self] at h1
    rw [List.flatMap_cons, List.length_append, List.map_cons, List.sum_cons, Nat.cast_add, h1, h2]
    ring

/-- `sym.matrix` of rows and matrices with `c > 0` columns puts them below each other. -/
theorem C70_stack (os : List (PyObj E)) (ms : List (Mat E)) (h : List.Forall₂ Contributes os ms) (hne : ms ≠ []) (c : Int) (hc : 0 < c)
    (hw : ∀ m ∈ ms, m.WF) (hcols : ∀ m ∈ ms, m.cols = c) (hs : (ms.map (·.rows)).sum * c < 2 ^ 31) :
    ∃ r, matrixFromIterable os = .ok r ∧ r.WF ∧ r.rows = (ms.map (·.rows)).sum ∧ r.cols = c ∧
      ∀ pre m post, ms = pre ++ m :: post → ∀ i j, 0 ≤ i → i < m.rows → 0 ≤ j → j < m.cols → r.get ((pre.map (·.rows)).sum + i) j = m.get i j := by
  have hlen := data_length ms hw hcols
  have hnn := sum_nonneg_rows ms hw
  have hwf : (⟨(ms.map (·.rows)).sum, c, ms.flatMap (·.data)⟩ : Mat E).WF := ⟨hnn, hc.le, hlen, hs⟩
  refine ⟨⟨(ms.map (·.rows)).sum, c, ms.flatMap (·.data)⟩, ?_, hwf, rfl, rfl, ?_⟩
  · cases h with
    | nil => exact absurd rfl hne
    | @cons o m os ms h1 h2 =>
      have : matrixFromIterable (o :: os) = stackIterables o os := by cases h1 <;> rfl
      rw [this]
      unfold stackIterables
      rw [h1.extract]
      have hm := hcols m List.mem_cons_self
      rw [hm]
      show (do
        let all ← extractLoop c os m.data
        if c = 0 then .error Err.ub else if (all.length : Int) % c ≠ 0 then .error Err.assertion else newMatrix ((all.length : Int) / c) c all) = _
      rw [extractLoop_ok h2 fun x hx => hcols x (List.mem_cons_of_mem _ hx)]
      have e1 : m.data ++ ms.flatMap (·.data) = (m :: ms).flatMap (·.data) := by simp
      show (if c = 0 then .error Err.ub else if ((m.data ++ ms.flatMap (·.data)).length : Int) % c ≠ 0 then .error Err.assertion
        else newMatrix (((m.data ++ ms.flatMap (·.data)).length : Int) / c) c (m.data ++ ms.flatMap (·.data))) = _
      rw [e1, if_neg hc.ne', hlen, if_neg (by simp), Int.mul_ediv_cancel _ hc.ne']
      exact newMatrix_ok hnn hc.le hs _ hlen
  · intro pre m post hms i j hi hi' hj hj'
    have hmem : m ∈ ms := by rw [hms]; simp
    have hm := hw m hmem
    have hcm := hcols m hmem
    have hpre : ∀ x ∈ pre, x ∈ ms := fun x hx => by rw [hms]; simp [hx]
    have hpost : ∀ x ∈ post, x ∈ ms := fun x hx => by rw [hms]; simp [hx]
    have hp0 := sum_nonneg_rows pre fun x hx => hw x (hpre x hx)
    have hq0 := sum_nonneg_rows post fun x hx => hw x (hpost x hx)
    have hsum : (ms.map (·.rows)).sum = (pre.map (·.rows)).sum + m.rows + (post.map (·.rows)).sum := by rw [hms]; simp; ring
    have hpl := data_length pre (fun x hx => hw x (hpre x hx)) fun x hx => hcols x (hpre x hx)
    obtain ⟨x, hx, hx2⟩ := hm.get_ok hi hi' hj hj'
    obtain ⟨y, hy, hy2⟩ := hwf.get_ok (i := (pre.map (·.rows)).sum + i) (j := j) (by omega) (by show _ < (ms.map (·.rows)).sum; omega) hj (by show j < c; omega)
    have hk : 0 ≤ i * c + j := by nlinarith
    have e1 : (((pre.map (·.rows)).sum + i) * c + j).toNat = (pre.flatMap (·.data)).length + (i * m.cols + j).toNat := by
      have : ((pre.map (·.rows)).sum + i) * c + j = ((pre.flatMap (·.data)).length : Int) + (i * c + j) := by rw [hpl]; ring
      rw [this, hcm]; omega
    have hlt := (List.getElem?_eq_some_iff.1 hx2.2).1
    have hy3 : (ms.flatMap (·.data))[(((pre.map (·.rows)).sum + i) * c + j).toNat]? = some y := hy2.2
    rw [hms, e1, List.flatMap_append, List.flatMap_cons, List.getElem?_append_right (by omega), Nat.add_sub_cancel_left,
      List.getElem?_append_left hlt, hx2.2] at hy3
    rw [hx, hy, Option.some.inj hy3]

/-- A list of rows of equal length gives the matrix with these rows. -/
theorem C70_rows (rows : List (List E)) (c : Nat) (hne : rows ≠ []) (hc : 0 < c) (hlen : ∀ r ∈ rows, r.length = c) (hs : rows.length * c < 2 ^ 31) :
    ∃ m, matrixFromIterable (rows.map fun r => .iter (r.map .expr)) = .ok m ∧ m.WF ∧ m.rows = rows.length ∧ m.cols = c ∧
      ∀ (i j : Nat) r x, rows[i]? = some r → r[j]? = some x → m.get i j = .ok x := by
  have hf : ∀ l : List (List E), List.Forall₂ Contributes (l.map fun r => PyObj.iter (r.map .expr)) (l.map fun r => (⟨1, r.length, r⟩ : Mat E)) := by
    intro l
    induction l with
    | nil => exact .nil
    | cons a l ih => exact .cons (.row a) ih
  have hsum : ∀ l : List (List E), ((l.map fun r => (⟨1, r.length, r⟩ : Mat E)).map (·.rows)).sum = l.length := by
    intro l
    simp [Function.comp_def]
  have hcpos : 1 ≤ rows.length := by cases rows with | nil => exact absurd rfl hne | cons _ _ => simp
  have hwf : ∀ r ∈ rows, (⟨1, r.length, r⟩ : Mat E).WF := fun r hr =>
    ⟨by simp, by simp, by simp, by
      have := hlen r hr
      show (1 : Int) * (r.length : Int) < 2 ^ 31
      have : 1 * c ≤ rows.length * c := Nat.mul_le_mul_right c hcpos
      omega⟩
  obtain ⟨m, h1, h2, h3, h4, h5⟩ := C70_stack _ _ (hf rows) (by simpa using hne) c (by omega)
    (fun m hm => by obtain ⟨r, hr, rfl⟩ := List.mem_map.1 hm; exact hwf r hr)
    (fun m hm => by obtain ⟨r, hr, rfl⟩ := List.mem_map.1 hm; simp [hlen r hr]) (by rw [hsum]; exact_mod_cast hs)
  refine ⟨m, h1, h2, by rw [h3, hsum], h4, fun i j r x hr hx => ?_⟩
  obtain ⟨hi, hri⟩ := List.getElem?_eq_some_iff.1 hr
  have hj := (List.getElem?_eq_some_iff.1 hx).1
  have hsplit : rows = rows.take i ++ r :: rows.drop (i + 1) := by
    rw [← hri, List.getElem_cons_drop, List.take_append_drop]
  have := h5 ((rows.take i).map fun r => ⟨1, r.length, r⟩) ⟨1, r.length, r⟩ ((rows.drop (i + 1)).map fun r => ⟨1, r.length, r⟩)
    (by conv_lhs => rw [hsplit]
        simp) 0 j (le_refl 0) (by simp) (by omega) (by simpa using hj)
  rw [hsum, List.length_take, Nat.min_eq_left hi.le, add_zero] at this
  rw [this]
  unfold Mat.get Mat.getUnchecked
  rw [if_neg (by simp; omega)]
  simp only [zero_mul, zero_add]
  exact vecAt_ok hx

/-- A list of scalars gives a column. -/
theorem C70_column (x : E) (xs : List E) (hs : xs.length + 1 < 2 ^ 31) :
    ∃ m, matrixFromIterable ((x :: xs).map .expr) = .ok m ∧ m.WF ∧ m.rows = (x :: xs).length ∧ m.cols = 1 ∧ m.data = x :: xs := by
  have h1 : matrixFromIterable ((x :: xs).map .expr) = newMatrix ((x :: xs).length : Int) 1 (x :: xs) := by
    show columnVector ((x :: xs).map .expr) = _
    unfold columnVector
    rw [mapM_exprs]; rfl
  have hs' : ((x :: xs).length : Int) * 1 < 2 ^ 31 := by simp; omega
  rw [h1, newMatrix_ok (by omega) (by omega) hs' _ (by simp)]
  exact ⟨_, rfl, ⟨by simp; omega, by simp, by simp, hs'⟩, rfl, rfl, rfl⟩

/-- `row_vector` and `vector` of scalars give a row and a column; without arguments they are refused. -/
theorem C70_vectors (x : E) (xs : List E) (hs : xs.length + 1 < 2 ^ 31) :
    rowVector ((x :: xs).map .expr) = .ok ⟨1, (x :: xs).length, x :: xs⟩ ∧ columnVector ((x :: xs).map .expr) = .ok ⟨(x :: xs).length, 1, x :: xs⟩ ∧
    (⟨1, (x :: xs).length, x :: xs⟩ : Mat E).WF ∧ rowVector ([] : List (PyObj E)) = .error .dimension ∧ columnVector ([] : List (PyObj E)) = .error .dimension := by
  have h1 : rowVector ((x :: xs).map .expr) = newMatrix 1 ((x :: xs).length : Int) (x :: xs) := by
    unfold rowVector
    rw [mapM_exprs]; rfl
  have h2 : columnVector ((x :: xs).map .expr) = newMatrix ((x :: xs).length : Int) 1 (x :: xs) := by
    unfold columnVector
    rw [mapM_exprs]; rfl
  have hs1 : (1 : Int) * ((x :: xs).length : Int) < 2 ^ 31 := by simp; omega
  have hs2 : ((x :: xs).length : Int) * 1 < 2 ^ 31 := by simp; omega
  refine ⟨?_, ?_, ⟨by simp, by simp; omega, by simp, hs1⟩, rfl, rfl⟩
  · rw [h1, newMatrix_ok (by omega) (by omega) hs1 _ (by simp)]
  · rw [h2, newMatrix_ok (by omega) (by omega) hs2 _ (by simp)]

/-- Rows of different lengths are refused, and so is the empty list. -/
theorem C70_ragged (pre : List (PyObj E)) (ms : List (Mat E)) (h : List.Forall₂ Contributes pre ms) (hne : ms ≠ []) (c : Int)
    (hcols : ∀ m ∈ ms, m.cols = c) (o : PyObj E) (m : Mat E) (ho : Contributes o m) (hm : m.cols ≠ c) (post : List (PyObj E)) :
    matrixFromIterable (pre ++ o :: post) = .error .dimension ∧ matrixFromIterable ([] : List (PyObj E)) = .error .dimension := by
  refine ⟨?_, rfl⟩
  have hloop : ∀ (os : List (PyObj E)) (ms : List (Mat E)), List.Forall₂ Contributes os ms → (∀ m ∈ ms, m.cols = c) → ∀ acc,
      extractLoop c (os ++ o :: post) acc = .error .dimension := by
    intro os ms hf
    induction hf with
    | nil =>
      intro _ acc
      rw [List.nil_append]
      unfold extractLoop
      rw [ho.extract]
      show (if m.cols ≠ c then (Except.error Err.dimension : Res (List E)) else _) = _
      rw [if_pos hm]
    | @cons p k os ms h1 _ ih =>
      intro hk acc
      rw [List.cons_append]
      unfold extractLoop
      rw [h1.extract]
      show (if k.cols ≠ c then _ else extractLoop c (os ++ o :: post) (acc ++ k.data)) = _
      rw [if_neg (by simp [hk k List.mem_cons_self]), ih fun x hx => hk x (List.mem_cons_of_mem _ hx)]
  cases h with
  | nil => exact absurd rfl hne
  | @cons p k os ms h1 h2 =>
    have : matrixFromIterable (p :: os ++ o :: post) = stackIterables p (os ++ o :: post) := by cases h1 <;> rfl
    rw [this]
    unfold stackIterables
    rw [h1.extract]
    show (do
      let all ← extractLoop k.cols (os ++ o :: post) k.data
      if k.cols = 0 then .error Err.ub else if (all.length : Int) % k.cols ≠ 0 then .error Err.assertion
        else newMatrix ((all.length : Int) / k.cols) k.cols all) = _
    rw [hcols k List.mem_cons_self, hloop os ms h2 fun x hx => hcols x (List.mem_cons_of_mem _ hx)]
    rfl

/-- Rows without elements: the number of elements is divided by zero. -/
theorem C70_empty_rows_refuted (n : Nat) : matrixFromIterable ((List.replicate (n + 1) (.iter [])) : List (PyObj E)) = .error .ub := by
  have hf : ∀ n, List.Forall₂ Contributes (List.replicate n (.iter [] : PyObj E)) (List.replicate n ⟨1, 0, []⟩) := by
    intro n
    induction n with
    | zero => exact .nil
    | succ n ih => exact .cons (.row []) ih
  rw [List.replicate_succ]
  show stackIterables _ _ = _
  unfold stackIterables
  rw [show extractRows (.iter [] : PyObj E) = .ok ([], 0) from rfl]
  show (do
    let all ← extractLoop 0 (List.replicate n (.iter [] : PyObj E)) []
    if (0 : Int) = 0 then .error Err.ub else if (all.length : Int) % 0 ≠ 0 then .error Err.assertion else newMatrix ((all.length : Int) / 0) 0 all) = _
  rw [extractLoop_ok (hf n) fun m hm => by rw [List.eq_of_mem_replicate hm]]
  rfl

/-! ## Conversion to lists -/

/-- `to_list` gives the rows. -/
theorem C70_to_list (m : Mat E) (h : m.WF) :
    ∃ rows, listFromMatrix m = .ok rows ∧ (rows.length : Int) = m.rows ∧ (∀ r ∈ rows, (r.length : Int) = m.cols) ∧
      ∀ (i j : Nat) r x, rows[i]? = some r → r[j]? = some x → m.get i j = .ok x := by
  have inner : ∀ i ∈ List.range m.rows.toNat, ∃ r, (List.range m.cols.toNat).mapM (fun (j : Nat) => m.get i j) = .ok r ∧ (r.length : Int) = m.cols ∧
      ∀ (j : Nat) x, r[j]? = some x → m.get i j = .ok x := by
    intro i hi
    rw [List.mem_range] at hi
    obtain ⟨r, h1, h2, h3⟩ := mapM_exists (fun (j : Nat) => m.get i j) (List.range m.cols.toNat) (by
      intro j hj
      rw [List.mem_range] at hj
      obtain ⟨x, hx, _⟩ := h.get_ok (i := i) (j := j) (by omega) (by omega) (by omega) (by omega)
      exact ⟨x, hx⟩)
    rw [List.length_range] at h2
    refine ⟨r, h1, by have := h.cols_nonneg; omega, fun j x hx => ?_⟩
    have hj := (List.getElem?_eq_some_iff.1 hx).1
    exact h3 j j x (List.getElem?_range (by omega)) hx
  obtain ⟨rows, h1, h2, h3⟩ := mapM_exists (fun (i : Nat) => (List.range m.cols.toNat).mapM fun (j : Nat) => m.get i j) (List.range m.rows.toNat)
    fun i hi => by obtain ⟨r, hr, _⟩ := inner i hi; exact ⟨r, hr⟩
  rw [List.length_range] at h2
  have at_ : ∀ (i : Nat) r, rows[i]? = some r → (r.length : Int) = m.cols ∧ ∀ (j : Nat) x, r[j]? = some x → m.get i j = .ok x := by
    intro i r hr
    have hi := (List.getElem?_eq_some_iff.1 hr).1
    have h4 := h3 i i r (List.getElem?_range (by omega)) hr
    obtain ⟨r', h5, h6⟩ := inner i (List.mem_range.2 (by omega))
    have := Except.ok.inj (h4.symm.trans h5)
    rw [this]; exact h6
  refine ⟨rows, h1, by have := h.rows_nonneg; omega, fun r hr => ?_, fun i j r x hr hx => (at_ i r hr).2 j x hx⟩
  obtain ⟨i, hi, rfl⟩ := List.mem_iff_getElem.1 hr
  exact (at_ i _ (List.getElem?_eq_getElem hi)).1

/-- `matrix(m.to_list())` is `m`, unless `m` has no elements. -/
theorem C70_round_trip (m : Mat E) (h : m.WF) (hr : 0 < m.rows) (hc : 0 < m.cols) :
    ∃ rows, listFromMatrix m = .ok rows ∧ matrixFromIterable (rows.map fun r => .iter (r.map .expr)) = .ok m := by
  obtain ⟨rows, h1, h2, h3, h4⟩ := C70_to_list m h
  have hsz := h.size_lt
  obtain ⟨c, hcc⟩ := Int.eq_ofNat_of_zero_le h.cols_nonneg
  have hs : rows.length * c < 2 ^ 31 := by
    have : (rows.length : Int) * (c : Int) < 2 ^ 31 := by rw [h2, ← hcc]; exact hsz
    exact_mod_cast this
  obtain ⟨r, e1, e2, e3, e4, e5⟩ := C70_rows rows c (by intro h0; rw [h0] at h2; simp at h2; omega) (by omega)
    (fun r hr => by have := h3 r hr; omega) hs
  refine ⟨rows, h1, ?_⟩
  rw [e1]
  congr 1
  refine C25_extensional r m e2 h (by omega) (by omega) fun i j => ?_
  by_cases hij : 0 ≤ i ∧ i < m.rows ∧ 0 ≤ j ∧ j < m.cols
  · obtain ⟨a, b, c', d⟩ := hij
    obtain ⟨i, rfl⟩ := Int.eq_ofNat_of_zero_le a
    obtain ⟨j, rfl⟩ := Int.eq_ofNat_of_zero_le c'
    have hi : i < rows.length := by omega
    have hj : j < rows[i].length := by have := h3 rows[i] (List.getElem_mem hi); omega
    have g1 : rows[i]? = some rows[i] := List.getElem?_eq_getElem hi
    have g2 : rows[i][j]? = some rows[i][j] := List.getElem?_eq_getElem hj
    rw [e5 i j _ _ g1 g2, h4 i j _ _ g1 g2]
  · rw [Mat.get_out (by omega), Mat.get_out (by omega)]

/-- The other way round: the matrix built from rows has these rows as its list. -/
theorem C70_round_trip_rows (rows : List (List E)) (c : Nat) (hne : rows ≠ []) (hc : 0 < c) (hlen : ∀ r ∈ rows, r.length = c) (hs : rows.length * c < 2 ^ 31) :
    ∃ m, matrixFromIterable (rows.map fun r => .iter (r.map .expr)) = .ok m ∧ listFromMatrix m = .ok rows := by
  obtain ⟨m, h1, h2, h3, h4, h5⟩ := C70_rows rows c hne hc hlen hs
  obtain ⟨rows', g1, g2, g3, g4⟩ := C70_to_list m h2
  refine ⟨m, h1, ?_⟩
  rw [g1]
  congr 1
  have hl : rows'.length = rows.length := by omega
  apply List.ext_getElem hl
  intro i hi hi'
  have a1 := g3 rows'[i] (List.getElem_mem hi)
  have a2 := hlen rows[i] (List.getElem_mem hi')
  apply List.ext_getElem (by omega)
  intro j hj hj'
  have b1 := g4 i j _ _ (List.getElem?_eq_getElem hi) (List.getElem?_eq_getElem hj)
  have b2 := h5 i j _ _ (List.getElem?_eq_getElem hi') (List.getElem?_eq_getElem hj')
  exact Except.ok.inj (b1.symm.trans b2)

/-- `unary_map` applies the function to every element. -/
theorem C70_unary_map (m : Mat E) (h : m.WF) (f : E → E) :
    ∃ r, unaryMap m (fun x => .ok (f x)) = .ok r ∧ r.WF ∧ r.rows = m.rows ∧ r.cols = m.cols ∧ ∀ i j, r.get i j = (m.get i j).map f := by
  have hlen : ((m.data.map f).length : Int) = m.rows * m.cols := by rw [List.length_map, h.size_eq]
  have hwf : (⟨m.rows, m.cols, m.data.map f⟩ : Mat E).WF := ⟨h.rows_nonneg, h.cols_nonneg, hlen, h.size_lt⟩
  refine ⟨⟨m.rows, m.cols, m.data.map f⟩, ?_, hwf, rfl, rfl, fun i j => ?_⟩
  · unfold unaryMap
    rw [mapM_ok _ _ f fun _ _ => rfl]
    exact newMatrix_ok h.rows_nonneg h.cols_nonneg h.size_lt _ hlen
  · by_cases hij : 0 ≤ i ∧ i < m.rows ∧ 0 ≤ j ∧ j < m.cols
    · obtain ⟨x, hx, _, hx2⟩ := h.get_ok hij.1 hij.2.1 hij.2.2.1 hij.2.2.2
      obtain ⟨y, hy, _, hy2⟩ := hwf.get_ok hij.1 hij.2.1 hij.2.2.1 hij.2.2.2
      have hy3 : (m.data.map f)[(i * m.cols + j).toNat]? = some y := hy2
      rw [List.getElem?_map, hx2] at hy3
      rw [hx, hy, ← Option.some.inj hy3]
      rfl
    · rw [Mat.get_out (by exact hij), Mat.get_out hij]; rfl

/-! ## Examples -/

/-- A matrix with three rows and two columns. -/
def sample : Mat Int := ⟨3, 2, [1, 2, 3, 4, 5, 6]⟩

theorem sample_wf : sample.WF := by constructor <;> decide

example : sample.WF ∧ sample.rows < 2 ^ 31 ∧ ValidIndex sample.rows (-1) ∧ getRowAndCol sample (-1) (-2) = .ok 5 ∧
    getRow sample (-2) = .ok (.matrix ⟨1, 2, [3, 4]⟩) ∧ iterRows sample = .ok [.matrix ⟨1, 2, [1, 2]⟩, .matrix ⟨1, 2, [3, 4]⟩, .matrix ⟨1, 2, [5, 6]⟩] :=
  ⟨sample_wf, by decide, by unfold ValidIndex; decide, by decide +kernel, by decide +kernel, by decide +kernel⟩

example : 0 < sample.rows ∧ 0 < sample.cols ∧ sample.rows < 2 ^ 31 - 1 ∧ sample.cols < 2 ^ 31 - 1 ∧ getRowAndSlice sample (-1) ⟨none, none, none⟩ = .error .dimension :=
  ⟨by decide, by decide, by decide, by decide, by decide +kernel⟩

example : getRowSlice sample ⟨none, none, some (-2)⟩ = .ok ⟨2, 2, [5, 6, 1, 2]⟩ ∧
    getRowAndColSlice sample ⟨some 1, none, none⟩ ⟨none, some (-1), none⟩ = .ok ⟨2, 1, [3, 5]⟩ ∧
    getRowAndSlice sample 1 ⟨none, none, none⟩ = .ok ⟨1, 2, [3, 4]⟩ ∧ getSliceAndCol sample ⟨none, some 2, none⟩ 1 = .ok ⟨2, 1, [2, 4]⟩ :=
  ⟨by decide +kernel, by decide +kernel, by decide +kernel, by decide +kernel⟩

example : matrixFromIterable [.iter [.expr 1, .expr 2], .matrix ⟨2, 2, [3, 4, 5, 6]⟩] = .ok sample ∧
    List.Forall₂ Contributes [.iter [.expr 1, .expr 2], .matrix ⟨2, 2, [3, 4, 5, 6]⟩] [⟨1, 2, [1, 2]⟩, (⟨2, 2, [3, 4, 5, 6]⟩ : Mat Int)] ∧
    listFromMatrix sample = .ok [[1, 2], [3, 4], [5, 6]] :=
  ⟨by decide +kernel, .cons (.row [1, 2]) (.cons (.rows _) .nil), by decide +kernel⟩

end Wf.Mat
