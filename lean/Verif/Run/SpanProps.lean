import Verif.Run.SpanModel
import Mathlib.Algebra.BigOperators.Group.List.Basic
import Mathlib.Tactic.Ring
import Mathlib.Tactic.Linarith
import Mathlib.Data.List.Forall2

/-! # C45: spans -/

namespace Wf.Run

/-- An index tuple is in bounds: one natural number below each dimension. -/
def InBounds (dims : List Nat) (idx : List Nat) : Prop := List.Forall₂ (fun i d => i < d) idx dims

/-- The mathematical address: the sum of stride times index. -/
def address (strides : List Nat) (idx : List Int) : Int := (List.zipWith (fun (s : Nat) i => (s : Int) * i) strides idx).sum

theorem computeIndex_eq : ∀ (ss : List Nat) (is : List Int), computeIndex ss is = address ss is
  | [], is => by simp [computeIndex, address]
  | s :: ss, [] => by simp [computeIndex, address]
  | [s], [i] => by simp [computeIndex, address]
  | [s], i :: j :: is => by
    have := computeIndex_eq [] (j :: is)
    simp [computeIndex, address]
  | s :: t :: ss, i :: is => by
    have := computeIndex_eq (t :: ss) is
    rw [computeIndex]
    · rw [this]; simp [address]
    · simp

/-- Element access follows the strides. -/
theorem C45_access (s : Span) (idx : List Int) :
    s.at idx = s.base + (List.zipWith (fun (st : Nat) i => (st : Int) * i) s.strides idx).sum := by
  rw [Span.at, computeIndex_eq]; rfl

theorem address_add : ∀ (ss : List Nat) (a b : List Int), a.length = ss.length → b.length = ss.length →
    address ss (List.zipWith (· + ·) a b) = address ss a + address ss b
  | [], a, b, _, _ => by simp [address]
  | s :: ss, [], b, h, _ => by simp at h
  | s :: ss, a :: as, [], _, h => by simp at h
  | s :: ss, a :: as, b :: bs, ha, hb => by
    have ih := address_add ss as bs (by simpa using ha) (by simpa using hb)
    simp only [address, List.zipWith_cons_cons, List.sum_cons] at *
    rw [ih]; ring

/-- An element of a block is the element of the outer span at offset plus index; so blocks nest. -/
theorem C45_block_access (s : Span) (offsets dims : List Nat) (idx : List Int)
    (h1 : offsets.length = s.strides.length) (h2 : idx.length = s.strides.length) :
    (s.block offsets dims).at idx = s.at (List.zipWith (· + ·) (offsets.map Int.ofNat) idx) := by
  simp only [Span.at, Span.block, computeIndex_eq]
  rw [address_add _ _ _ (by simpa using h1) h2]
  ring

theorem C45_block_of_block (s : Span) (o1 o2 d1 d2 : List Nat)
    (h1 : o1.length = s.strides.length) (h2 : o2.length = s.strides.length) :
    (s.block o1 d1).block o2 d2 = s.block (List.zipWith (· + ·) o1 o2) d2 := by
  have := C45_block_access s o1 d1 (o2.map Int.ofNat) h1 (by simpa using h2)
  simp only [Span.at, Span.block] at this ⊢
  rw [this]
  congr 3
  rw [List.zipWith_map, List.map_zipWith]
  rfl

/-- Strides that leave room for everything stored at the following axes: `sₖ > Σ_{j>k} (dⱼ - 1) sⱼ`. Dense row-major buffers and
row-major buffers with padding satisfy it. -/
def Dominating : List Nat → List Nat → Prop
  | [], [] => True
  | _ :: ds, s :: ss => (∀ idx, InBounds ds idx → address ss (idx.map Int.ofNat) < s) ∧ Dominating ds ss
  | _, _ => False

theorem address_nonneg (ss : List Nat) : ∀ idx : List Nat, 0 ≤ address ss (idx.map Int.ofNat) := by
  induction ss with
  | nil => intro idx; simp [address]
  | cons s ss ih =>
    intro idx
    cases idx with
    | nil => simp [address]
    | cons i is =>
      have := ih is
      simp only [address, List.map_cons, List.zipWith_cons_cons, List.sum_cons] at *
      have h : (0 : Int) ≤ (s : Int) * Int.ofNat i := Int.mul_nonneg (by omega) (by simp)
      linarith

/-- With dominating strides, different in-bounds index tuples address different elements. -/
theorem C45_distinct_elements (dims strides : List Nat) (h : Dominating dims strides) (base : Int) (a b : List Nat)
    (ha : InBounds dims a) (hb : InBounds dims b)
    (hab : (Span.mk base dims strides).at (a.map Int.ofNat) = (Span.mk base dims strides).at (b.map Int.ofNat)) : a = b := by
  simp only [Span.at, computeIndex_eq] at hab
  replace hab : address strides (a.map Int.ofNat) = address strides (b.map Int.ofNat) := by linarith
  clear base
  induction dims generalizing strides a b with
  | nil => cases ha; cases hb; rfl
  | cons d ds ih =>
    cases strides with
    | nil => exact absurd h (by simp [Dominating])
    | cons s ss =>
      obtain ⟨h1, h2⟩ := h
      unfold InBounds at ha hb
      rw [List.forall₂_cons_right_iff] at ha hb
      obtain ⟨i, is, hi, his, rfl⟩ := ha
      obtain ⟨j, js, hj, hjs, rfl⟩ := hb
      have e1 := h1 is his
      have e2 := h1 js hjs
      have p1 := address_nonneg ss is
      have p2 := address_nonneg ss js
      simp only [address, List.map_cons, List.zipWith_cons_cons, List.sum_cons] at *
      have hij : i = j := by
        rcases Nat.lt_trichotomy i j with hlt | heq | hlt
        · exfalso
          have : (s : Int) * Int.ofNat i + s ≤ s * Int.ofNat j := by
            have : (Int.ofNat i) + 1 ≤ Int.ofNat j := by simp only [Int.ofNat_eq_natCast]; omega
            nlinarith
          linarith
        · exact heq
        · exfalso
          have : (s : Int) * Int.ofNat j + s ≤ s * Int.ofNat i := by
            have : (Int.ofNat j) + 1 ≤ Int.ofNat i := by simp only [Int.ofNat_eq_natCast]; omega
            nlinarith
          linarith
      subst hij
      rw [ih ss h2 is js his hjs (by linarith)]

theorem rowMajor_bound (dims : List Nat) : ∀ idx, InBounds dims idx →
    address (rowMajor dims) (idx.map Int.ofNat) < dims.prod := by
  induction dims with
  | nil => intro idx h; cases h; simp [address, rowMajor]
  | cons d ds ih =>
    intro idx h
    unfold InBounds at h
    rw [List.forall₂_cons_right_iff] at h
    obtain ⟨i, is, hi, his, rfl⟩ := h
    have := ih is his
    have hp : ds.foldr (· * ·) 1 = ds.prod := rfl
    simp only [rowMajor, address, List.map_cons, List.zipWith_cons_cons, List.sum_cons, List.prod_cons, hp] at *
    have : (Int.ofNat i) + 1 ≤ (d : Int) := by simp only [Int.ofNat_eq_natCast]; omega
    push_cast
    push_cast at *
    nlinarith

theorem rowMajor_dominating (dims : List Nat) : Dominating dims (rowMajor dims) := by
  induction dims with
  | nil => trivial
  | cons d ds ih => exact ⟨fun idx h => rowMajor_bound ds idx h, ih⟩

/-- Dense row-major spans: every in-bounds tuple lies inside the buffer of `∏ dims` elements, and different tuples address
different elements. -/
theorem C45_row_major (dims : List Nat) (base : Int) :
    (∀ a, InBounds dims a → base ≤ (Span.mk base dims (rowMajor dims)).at (a.map Int.ofNat) ∧
      (Span.mk base dims (rowMajor dims)).at (a.map Int.ofNat) < base + dims.prod) ∧
    (∀ a b, InBounds dims a → InBounds dims b →
      (Span.mk base dims (rowMajor dims)).at (a.map Int.ofNat) = (Span.mk base dims (rowMajor dims)).at (b.map Int.ofNat) → a = b) := by
  refine ⟨fun a ha => ?_, fun a b ha hb hab => C45_distinct_elements dims _ (rowMajor_dominating dims) base a b ha hb hab⟩
  have h1 := rowMajor_bound dims a ha
  have h2 := address_nonneg (rowMajor dims) a
  simp only [Span.at, computeIndex_eq]
  constructor <;> linarith

theorem colMajor_address (acc : Nat) : ∀ (dims idx : List Nat),
    ∃ k : Nat, InBounds dims idx → address (colMajorFrom acc dims) (idx.map Int.ofNat) = acc * k ∧ (k : Int) < dims.prod := by
  intro dims
  induction dims generalizing acc with
  | nil => intro idx; exact ⟨0, fun h => by cases h; simp [address, colMajorFrom]⟩
  | cons d ds ih =>
    intro idx
    cases idx with
    | nil => exact ⟨0, fun h => by cases h⟩
    | cons i is =>
      obtain ⟨k, hk⟩ := ih (acc * d) is
      refine ⟨i + d * k, fun h => ?_⟩
      unfold InBounds at h
      rw [List.forall₂_cons] at h
      obtain ⟨h1, h2⟩ := hk h.2
      simp only [colMajorFrom, address, List.map_cons, List.zipWith_cons_cons, List.sum_cons, List.prod_cons] at *
      rw [h1]
      constructor
      · push_cast; simp; ring
      · have : (i : Int) + 1 ≤ d := by exact_mod_cast h.1
        have hk1 : (k : Int) + 1 ≤ ds.prod := h2
        push_cast
        push_cast at hk1
        have hd : (0 : Int) ≤ d := by omega
        nlinarith [mul_le_mul_of_nonneg_left hk1 hd]

theorem colMajor_inj (acc : Nat) (hacc : 0 < acc) : ∀ (dims a b : List Nat), InBounds dims a → InBounds dims b →
    address (colMajorFrom acc dims) (a.map Int.ofNat) = address (colMajorFrom acc dims) (b.map Int.ofNat) → a = b := by
  intro dims
  induction dims generalizing acc with
  | nil => intro a b ha hb _; cases ha; cases hb; rfl
  | cons d ds ih =>
    intro a b ha hb hab
    unfold InBounds at ha hb
    rw [List.forall₂_cons_right_iff] at ha hb
    obtain ⟨i, is, hi, his, rfl⟩ := ha
    obtain ⟨j, js, hj, hjs, rfl⟩ := hb
    obtain ⟨k, hk⟩ := colMajor_address (acc * d) ds is
    obtain ⟨l, hl⟩ := colMajor_address (acc * d) ds js
    have e1 := (hk his).1
    have e2 := (hl hjs).1
    simp only [colMajorFrom, address, List.map_cons, List.zipWith_cons_cons, List.sum_cons] at *
    have hab' := hab
    rw [e1, e2] at hab'
    push_cast at hab'
    have hmain : (i : Int) + d * k = j + d * l := by
      have h0 : (acc : Int) * (i + d * k) = acc * (j + d * l) := by
        simp at hab'; linarith
      exact mul_left_cancel₀ (by exact_mod_cast hacc.ne') h0
    have hij : i = j := by
      have h1 : (i + d * k) % d = (j + d * l) % d := by
        have : i + d * k = j + d * l := by exact_mod_cast hmain
        rw [this]
      simpa [Nat.mod_eq_of_lt hi, Nat.mod_eq_of_lt hj] using h1
    subst hij
    rw [ih (acc * d) (Nat.mul_pos hacc (by omega)) is js his hjs (by linarith)]

/-- Dense column-major spans: the same. -/
theorem C45_column_major (dims : List Nat) (base : Int) :
    (∀ a, InBounds dims a → base ≤ (Span.mk base dims (colMajor dims)).at (a.map Int.ofNat) ∧
      (Span.mk base dims (colMajor dims)).at (a.map Int.ofNat) < base + dims.prod) ∧
    (∀ a b, InBounds dims a → InBounds dims b →
      (Span.mk base dims (colMajor dims)).at (a.map Int.ofNat) = (Span.mk base dims (colMajor dims)).at (b.map Int.ofNat) → a = b) := by
  refine ⟨fun a ha => ?_, fun a b ha hb hab => ?_⟩
  · obtain ⟨k, hk⟩ := colMajor_address 1 dims a
    have h1 := hk ha
    have h2 := address_nonneg (colMajor dims) a
    simp only [Span.at, computeIndex_eq]
    unfold colMajor at *
    constructor
    · linarith
    · rw [h1.1]; push_cast; linarith [h1.2]
  · simp only [Span.at, computeIndex_eq] at hab
    exact colMajor_inj 1 one_pos dims a b ha hb (by unfold colMajor at hab; linarith)

/-- Spans over Eigen matrices: with unit inner stride and an outer stride at least the inner dimension (padding allowed), distinct
(row, column) pairs address distinct elements, in both storage orders. -/
theorem C45_eigen_distinct (rm : Bool) (rows cols outer : Nat) (base : Int)
    (ho : (if rm then cols else rows) ≤ outer) (r c r' c' : Nat) (hr : r < rows) (hc : c < cols) (hr' : r' < rows) (hc' : c' < cols)
    (h : (Span.mk base [rows, cols] (eigenStrides rm outer 1)).at [(r : Int), c] =
      (Span.mk base [rows, cols] (eigenStrides rm outer 1)).at [(r' : Int), c']) : r = r' ∧ c = c' := by
  have aux : ∀ n x y x' y' : Nat, n ≤ outer → y < n → y' < n → (outer : Int) * x + y = outer * x' + y' → x = x' ∧ y = y' := by
    intro n x y x' y' hn hy hy' he
    have he' : outer * x + y = outer * x' + y' := by exact_mod_cast he
    have hx : x = x' := by
      rcases Nat.lt_trichotomy x x' with hl | hl | hl
      · exfalso; have : outer * (x + 1) ≤ outer * x' := Nat.mul_le_mul_left _ hl; nlinarith
      · exact hl
      · exfalso; have : outer * (x' + 1) ≤ outer * x := Nat.mul_le_mul_left _ hl; nlinarith
    subst hx
    exact ⟨rfl, by omega⟩
  cases rm
  · simp only [Span.at, computeIndex, eigenStrides, if_false, Bool.false_eq_true] at h ho
    push_cast at h
    have := aux rows c r c' r' ho hr hr' (by linarith)
    exact ⟨this.2, this.1⟩
  · simp only [Span.at, computeIndex, eigenStrides, if_true] at h ho
    push_cast at h
    exact aux cols r c r' c' ho hc hc' (by linarith)

/-! Non-vacuity -/
example : rowMajor [2, 3, 4] = [12, 4, 1] ∧ colMajor [2, 3, 4] = [1, 2, 6] := by decide
example : InBounds [2, 3, 4] [1, 2, 3] := by unfold InBounds; decide
example : (Span.mk 5 [2, 3, 4] (rowMajor [2, 3, 4])).at [1, 2, 3] = 28 := by decide
example : ((Span.mk 0 [4, 6] (rowMajor [4, 6])).block [1, 2] [3, 4]).at [1, 1] = 15 := by decide

end Wf.Run
