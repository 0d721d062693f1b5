import Verif.Mat.MatrixModel
import Mathlib.Tactic.Linarith
import Mathlib.Tactic.Ring
import Mathlib.Algebra.Order.Ring.Int

/-! # Lemmas about the matrix model -/

namespace Wf.Mat

variable {E : Type}

/-- A matrix the library can hold: non-negative shape, one element per position. -/
structure Mat.WF (m : Mat E) : Prop where
  rows_nonneg : 0 ≤ m.rows
  cols_nonneg : 0 ≤ m.cols
  size_eq : (m.data.length : Int) = m.rows * m.cols
  size_lt : m.rows * m.cols < 2 ^ 31

theorem mapM_ok {α β : Type} (l : List α) (f : α → Res β) (g : α → β) (h : ∀ x ∈ l, f x = .ok (g x)) :
    l.mapM f = .ok (l.map g) := by
  induction l with
  | nil => rfl
  | cons a l ih =>
    rw [List.mapM_cons, h a List.mem_cons_self, ih fun x hx => h x (List.mem_cons_of_mem _ hx)]
    rfl

theorem mem_indexPairs {r c i j : Int} : (i, j) ∈ indexPairs r c ↔ 0 ≤ i ∧ i < r ∧ 0 ≤ j ∧ j < c := by
  simp only [indexPairs, List.mem_flatMap, List.mem_range, List.mem_map, Prod.mk.injEq]
  constructor
  · rintro ⟨a, ha, b, hb, rfl, rfl⟩; omega
  · rintro ⟨h1, h2, h3, h4⟩; exact ⟨i.toNat, by omega, j.toNat, by omega, by omega, by omega⟩

theorem flatMap_pairs_length (f : Nat → Nat → Int × Int) (r c : Nat) :
    ((List.range r).flatMap fun i => (List.range c).map (f i)).length = r * c := by
  induction r with
  | zero => simp
  | succ r ih => rw [List.range_succ, List.flatMap_append, List.length_append, ih]; simp; ring

theorem flatMap_pairs_getElem (f : Nat → Nat → Int × Int) (r c i j : Nat) (hi : i < r) (hj : j < c) :
    ((List.range r).flatMap fun i => (List.range c).map (f i))[i * c + j]? = some (f i j) := by
  induction r with
  | zero => omega
  | succ r ih =>
    rw [List.range_succ, List.flatMap_append]
    by_cases h : i < r
    · have hlt : i * c + j < r * c := by
        have : (i + 1) * c ≤ r * c := Nat.mul_le_mul_right c h
        have : (i + 1) * c = i * c + c := by ring
        omega
      rw [List.getElem?_append_left (by rw [flatMap_pairs_length]; exact hlt)]
      exact ih h
    · have : i = r := by omega
      subst this
      rw [List.getElem?_append_right (by rw [flatMap_pairs_length]; omega), flatMap_pairs_length]
      simp [hj]

theorem indexPairs_length (r c : Nat) : (indexPairs r c).length = r * c := by
  simp only [indexPairs, Int.toNat_natCast]
  exact flatMap_pairs_length (fun i j => ((i : Int), (j : Int))) r c

theorem indexPairs_getElem (r c i j : Nat) (hi : i < r) (hj : j < c) :
    (indexPairs r c)[i * c + j]? = some ((i : Int), (j : Int)) := by
  simp only [indexPairs, Int.toNat_natCast]
  exact flatMap_pairs_getElem (fun i j => ((i : Int), (j : Int))) r c i j hi hj

theorem newMatrix_ok {r c : Int} (hr : 0 ≤ r) (hc : 0 ≤ c) (hs : r * c < 2 ^ 31) (data : List E) (hl : (data.length : Int) = r * c) :
    newMatrix r c data = .ok ⟨r, c, data⟩ := by
  have : sizeProduct r c = r * c := by
    unfold sizeProduct; exact Int.emod_eq_of_lt (mul_nonneg hr hc) (lt_trans hs (by norm_num))
  unfold newMatrix
  rw [if_neg (by rw [this]; simp [hl]), if_neg (by omega)]

/-- The product of two dimensions does not wrap. -/
theorem sizeProduct_int {r c : Int} (hr : 0 ≤ r) (hc : 0 ≤ c) (hr' : r < 2 ^ 31) (hc' : c < 2 ^ 31) : sizeProduct r c = r * c := by
  unfold sizeProduct
  refine Int.emod_eq_of_lt (mul_nonneg hr hc) ?_
  have : r * c ≤ 2 ^ 31 * 2 ^ 31 := mul_le_mul (by omega) (by omega) hc (by norm_num)
  omega

theorem intResult_ok {a : Int} (h1 : -2 ^ 31 ≤ a) (h2 : a < 2 ^ 31) : intResult a = .ok a := if_pos ⟨h1, h2⟩

theorem vecAt_ok {data : List E} {k : Nat} {x : E} (h : data[k]? = some x) : vecAt data (k : Int) = .ok x := by
  unfold vecAt
  rw [if_neg (by omega)]
  simp [h]

theorem Mat.WF.get_ok {m : Mat E} (h : m.WF) {i j : Int} (hi : 0 ≤ i) (hi' : i < m.rows) (hj : 0 ≤ j) (hj' : j < m.cols) :
    ∃ x, m.get i j = .ok x ∧ m.getUnchecked i j = .ok x ∧ m.data[(i * m.cols + j).toNat]? = some x := by
  have hk : 0 ≤ i * m.cols + j := by nlinarith [h.cols_nonneg]
  have hk' : i * m.cols + j < m.data.length := by
    rw [h.size_eq]; nlinarith [h.cols_nonneg]
  obtain ⟨k, hk2⟩ := Int.eq_ofNat_of_zero_le hk
  have hlt : k < m.data.length := by omega
  refine ⟨m.data[k], ?_, ?_, ?_⟩
  · unfold Mat.get Mat.getUnchecked
    rw [if_neg (by omega), hk2]
    exact vecAt_ok (List.getElem?_eq_getElem hlt)
  · unfold Mat.getUnchecked
    rw [hk2]
    exact vecAt_ok (List.getElem?_eq_getElem hlt)
  · rw [hk2]; simp [hlt]

theorem Mat.get_out {m : Mat E} {i j : Int} (h : ¬ (0 ≤ i ∧ i < m.rows ∧ 0 ≤ j ∧ j < m.cols)) : m.get i j = .error .dimension := by
  unfold Mat.get
  rw [if_pos (by omega)]

/-- The matrix built entry by entry. -/
theorem createMatrix_ok {r c : Int} (hr : 0 ≤ r) (hc : 0 ≤ c) (hs : r * c < 2 ^ 31) (f : Int → Int → Res E) (g : Int → Int → E)
    (h : ∀ i j, 0 ≤ i → i < r → 0 ≤ j → j < c → f i j = .ok (g i j)) :
    ∃ m : Mat E, createMatrix r c f = .ok m ∧ m.rows = r ∧ m.cols = c ∧ m.WF ∧
      ∀ i j, 0 ≤ i → i < r → 0 ≤ j → j < c → m.get i j = .ok (g i j) := by
  obtain ⟨rn, rfl⟩ := Int.eq_ofNat_of_zero_le hr
  obtain ⟨cn, rfl⟩ := Int.eq_ofNat_of_zero_le hc
  have h1 : iterMatrix (E := E) rn cn f = .ok ((indexPairs rn cn).map fun p => g p.1 p.2) := by
    unfold iterMatrix
    apply mapM_ok
    rintro ⟨i, j⟩ hp
    rw [mem_indexPairs] at hp
    exact h i j hp.1 hp.2.1 hp.2.2.1 hp.2.2.2
  have hl : (((indexPairs (rn : Int) cn).map fun p => g p.1 p.2).length : Int) = (rn : Int) * cn := by
    rw [List.length_map, indexPairs_length]; push_cast; rfl
  refine ⟨⟨rn, cn, (indexPairs rn cn).map fun p => g p.1 p.2⟩, ?_, rfl, rfl, ⟨hr, hc, hl, hs⟩, ?_⟩
  · unfold createMatrix
    rw [h1]
    show newMatrix _ _ _ = _
    exact newMatrix_ok hr hc hs _ hl
  · intro i j hi hi' hj hj'
    obtain ⟨a, rfl⟩ := Int.eq_ofNat_of_zero_le hi
    obtain ⟨b, rfl⟩ := Int.eq_ofNat_of_zero_le hj
    unfold Mat.get Mat.getUnchecked
    rw [if_neg (by simp only; omega)]
    have : ((a : Int) * ((cn : Nat) : Int) + b) = ((a * cn + b : Nat) : Int) := by push_cast; rfl
    simp only [this]
    apply vecAt_ok
    rw [List.getElem?_map, indexPairs_getElem rn cn a b (by omega) (by omega)]
    rfl

/-- Conversely, a matrix that was built had all its entries computed. -/
theorem Mat.WF.getUnchecked_eq {m : Mat E} (h : m.WF) {i j : Int} (hi : 0 ≤ i) (hi' : i < m.rows) (hj : 0 ≤ j) (hj' : j < m.cols) :
    m.getUnchecked i j = m.get i j := by
  obtain ⟨x, h1, h2, _⟩ := h.get_ok hi hi' hj hj'
  rw [h1, h2]

/-- Version of `createMatrix_ok` where the entries are given by successful computations. -/
theorem createMatrix_spec {r c : Int} (hr : 0 ≤ r) (hc : 0 ≤ c) (hs : r * c < 2 ^ 31) (f : Int → Int → Res E)
    (h : ∀ i j, 0 ≤ i → i < r → 0 ≤ j → j < c → ∃ x, f i j = .ok x) :
    ∃ m : Mat E, createMatrix r c f = .ok m ∧ m.rows = r ∧ m.cols = c ∧ m.WF ∧
      ∀ i j, 0 ≤ i → i < r → 0 ≤ j → j < c → m.get i j = f i j := by
  classical
  by_cases hne : Nonempty E
  · obtain ⟨d⟩ := hne
    let g : Int → Int → E := fun i j => match f i j with | .ok x => x | .error _ => d
    obtain ⟨m, h1, h2, h3, h4, h5⟩ := createMatrix_ok hr hc hs f g (by
      intro i j a b c' d'
      obtain ⟨x, hx⟩ := h i j a b c' d'
      simp only [g, hx])
    refine ⟨m, h1, h2, h3, h4, ?_⟩
    intro i j a b c' d'
    obtain ⟨x, hx⟩ := h i j a b c' d'
    rw [h5 i j a b c' d']
    simp only [g, hx]
  · have hz : ∀ i j, 0 ≤ i → i < r → 0 ≤ j → j < c → False := fun i j a b c' d' => by
      obtain ⟨x, _⟩ := h i j a b c' d'
      exact hne ⟨x⟩
    have hnil : indexPairs r c = [] := by
      apply List.eq_nil_iff_forall_not_mem.mpr
      rintro ⟨i, j⟩ hp
      rw [mem_indexPairs] at hp
      exact hz i j hp.1 hp.2.1 hp.2.2.1 hp.2.2.2
    have hrc : r * c = 0 := by
      by_contra hne0
      have : 0 < r * c := lt_of_le_of_ne (mul_nonneg hr hc) (Ne.symm hne0)
      have h1 : 0 < r := by rcases lt_or_eq_of_le hr with h | h; exact h; rw [← h] at this; simp at this
      have h2 : 0 < c := by rcases lt_or_eq_of_le hc with h | h; exact h; rw [← h] at this; simp at this
      exact hz 0 0 (by omega) h1 (by omega) h2
    refine ⟨⟨r, c, []⟩, ?_, rfl, rfl, ⟨hr, hc, by simp [hrc], hs⟩, fun i j a b c' d' => (hz i j a b c' d').elim⟩
    unfold createMatrix iterMatrix
    rw [hnil]
    exact newMatrix_ok hr hc hs [] (by simp [hrc])

theorem idx_inj {nc i j i' j' : Int} (hj : 0 ≤ j) (hj1 : j < nc) (hj' : 0 ≤ j') (hj1' : j' < nc) (h : i * nc + j = i' * nc + j') :
    i = i' ∧ j = j' := by
  have h1 : (i - i') * nc = j' - j := by linarith
  have : i = i' := by
    by_contra hne
    rcases lt_or_gt_of_ne hne with hlt | hgt
    · have : i - i' ≤ -1 := by omega
      nlinarith
    · have : i - i' ≥ 1 := by omega
      nlinarith
  subst this
  exact ⟨rfl, by simp at h1; omega⟩

/-! ## Stacking -/

/-- Copying a list of positions of `m` into `result`. -/
theorem copy_list (m : Mat E) (hm : m.WF) (nr nc ro co : Int) (hro : 0 ≤ ro) (hco : 0 ≤ co) (hr : ro + m.rows ≤ nr) (hc : co + m.cols ≤ nc)
    (ps : List (Int × Int)) (hps : ∀ p ∈ ps, 0 ≤ p.1 ∧ p.1 < m.rows ∧ 0 ≤ p.2 ∧ p.2 < m.cols) (result : List E)
    (hl : (result.length : Int) = nr * nc) :
    ∃ res, ps.foldlM (fun res (p : Int × Int) => do
        let x ← m.getUnchecked p.1 p.2
        vecSet res ((p.1 + ro) * nc + (p.2 + co)) x) result = Except.ok (ε := Err) res ∧ res.length = result.length ∧
      ∀ i j, 0 ≤ i → i < nr → 0 ≤ j → j < nc →
        vecAt res (i * nc + j) = if (i - ro, j - co) ∈ ps then m.get (i - ro) (j - co) else vecAt result (i * nc + j) := by
  induction ps generalizing result with
  | nil => exact ⟨result, rfl, rfl, by simp⟩
  | cons p ps ih =>
    obtain ⟨a, b⟩ := p
    have hp := hps (a, b) List.mem_cons_self
    simp only at hp
    obtain ⟨x, hx1, hx2, _⟩ := hm.get_ok hp.1 hp.2.1 hp.2.2.1 hp.2.2.2
    have hk0 : 0 ≤ (a + ro) * nc + (b + co) := by
      have : 0 ≤ (a + ro) * nc := mul_nonneg (by omega) (by omega)
      omega
    have hk1 : (a + ro) * nc + (b + co) < result.length := by
      rw [hl]
      have : (a + ro + 1) * nc ≤ nr * nc := mul_le_mul_of_nonneg_right (by omega) (by omega)
      have : (a + ro + 1) * nc = (a + ro) * nc + nc := by ring
      omega
    have hset : vecSet result ((a + ro) * nc + (b + co)) x = .ok (result.set ((a + ro) * nc + (b + co)).toNat x) := by
      unfold vecSet; rw [if_neg (by omega)]
    obtain ⟨res, h1, h2, h3⟩ := ih (fun p hp => hps p (List.mem_cons_of_mem _ hp)) (result.set ((a + ro) * nc + (b + co)).toNat x)
      (by rw [List.length_set]; exact hl)
    refine ⟨res, ?_, by rw [h2, List.length_set], ?_⟩
    · rw [List.foldlM_cons]
      simp only [hx2]
      show (vecSet result _ x >>= _) = _
      rw [hset]
      exact h1
    · intro i j hi hi' hj hj'
      rw [h3 i j hi hi' hj hj']
      by_cases hmem : (i - ro, j - co) ∈ ps
      · rw [if_pos hmem, if_pos (List.mem_cons_of_mem _ hmem)]
      · rw [if_neg hmem]
        have hij0 : 0 ≤ i * nc + j := by
          have : 0 ≤ i * nc := mul_nonneg hi (by omega)
          omega
        by_cases heq : (i - ro, j - co) = (a, b)
        · rw [if_pos (by rw [heq]; exact List.mem_cons_self)]
          simp only [Prod.mk.injEq] at heq
          have e1 : i = a + ro := by omega
          have e2 : j = b + co := by omega
          rw [heq.1, heq.2, hx1, e1, e2]
          unfold vecAt
          rw [if_neg (by omega), List.getElem?_set_self (by omega)]
        · rw [if_neg (by simp only [List.mem_cons, not_or]; exact ⟨heq, hmem⟩)]
          unfold vecAt
          rw [if_neg (by omega), if_neg (by omega), List.getElem?_set_ne]
          intro hcontra
          have : (a + ro) * nc + (b + co) = i * nc + j := by omega
          obtain ⟨e1, e2⟩ := idx_inj (by omega) (by omega) hj hj' this
          apply heq
          rw [Prod.mk.injEq]
          omega

theorem copyBlock_ok (m : Mat E) (hm : m.WF) (nr nc ro co : Int) (hro : 0 ≤ ro) (hco : 0 ≤ co) (hr : ro + m.rows ≤ nr)
    (hc : co + m.cols ≤ nc) (result : List E) (hl : (result.length : Int) = nr * nc) :
    ∃ res, copyBlock m nc ro co result = .ok res ∧ (res.length : Int) = nr * nc ∧
      ∀ i j, 0 ≤ i → i < nr → 0 ≤ j → j < nc →
        vecAt res (i * nc + j) = if 0 ≤ i - ro ∧ i - ro < m.rows ∧ 0 ≤ j - co ∧ j - co < m.cols then m.get (i - ro) (j - co)
          else vecAt result (i * nc + j) := by
  obtain ⟨res, h1, h2, h3⟩ := copy_list m hm nr nc ro co hro hco hr hc (indexPairs m.rows m.cols)
    (by rintro ⟨a, b⟩ hp; exact mem_indexPairs.mp hp) result hl
  refine ⟨res, h1, by rw [h2, hl], ?_⟩
  intro i j hi hi' hj hj'
  rw [h3 i j hi hi' hj hj']
  simp only [mem_indexPairs]

/-- Where the blocks of a stack begin, and which block (if any) covers a position. -/
def cover (incR incC : Bool) : List (Mat E) → Int → Int → Int → Int → Option (Mat E × Int × Int)
  | [], _, _, _, _ => none
  | m :: ms, ro, co, i, j =>
    match cover incR incC ms (ro + m.rows * (if incR then 1 else 0)) (co + m.cols * (if incC then 1 else 0)) i j with
    | some r => some r
    | none => if 0 ≤ i - ro ∧ i - ro < m.rows ∧ 0 ≤ j - co ∧ j - co < m.cols then some (m, i - ro, j - co) else none

/-- Every block fits the output. -/
def fits (incR incC : Bool) (nr nc : Int) : List (Mat E) → Int → Int → Prop
  | [], _, _ => True
  | m :: ms, ro, co => 0 ≤ ro ∧ 0 ≤ co ∧ ro + m.rows ≤ nr ∧ co + m.cols ≤ nc ∧
      fits incR incC nr nc ms (ro + m.rows * (if incR then 1 else 0)) (co + m.cols * (if incC then 1 else 0))

theorem stackLoop_ok (incR incC : Bool) (nr nc : Int) (ms : List (Mat E)) (hms : ∀ m ∈ ms, m.WF) (ro co : Int)
    (hf : fits incR incC nr nc ms ro co) (result : List E) (hl : (result.length : Int) = nr * nc) :
    ∃ res, stackLoop nc incR incC ms ro co result = .ok res ∧ (res.length : Int) = nr * nc ∧
      ∀ i j, 0 ≤ i → i < nr → 0 ≤ j → j < nc →
        vecAt res (i * nc + j) = match cover incR incC ms ro co i j with
          | some (m, a, b) => m.get a b
          | none => vecAt result (i * nc + j) := by
  induction ms generalizing ro co result with
  | nil => exact ⟨result, rfl, hl, by intros; simp [cover]⟩
  | cons m ms ih =>
    obtain ⟨h1, h2, h3, h4, h5⟩ := hf
    obtain ⟨res1, e1, e2, e3⟩ := copyBlock_ok m (hms m List.mem_cons_self) nr nc ro co h1 h2 h3 h4 result hl
    obtain ⟨res2, f1, f2, f3⟩ := ih (fun m hm => hms m (List.mem_cons_of_mem _ hm)) _ _ h5 res1 e2
    refine ⟨res2, ?_, f2, ?_⟩
    · rw [stackLoop, e1]; exact f1
    · intro i j hi hi' hj hj'
      rw [f3 i j hi hi' hj hj', cover]
      split
      · rename_i hcv
        rw [hcv]
      · rename_i hcv
        rw [hcv, e3 i j hi hi' hj hj']
        split <;> simp_all

end Wf.Mat

namespace Wf.Mat

variable {E : Type}

def flag (b : Bool) : Int := if b then 1 else 0

theorem cover_none_of_before (u v : Bool) (ms : List (Mat E)) (hms : ∀ m ∈ ms, m.WF) (ro co i j : Int)
    (h : (u = true ∧ i < ro) ∨ (v = true ∧ j < co) ∨ (∀ m ∈ ms, m.rows = 0) ∨ (∀ m ∈ ms, m.cols = 0)) : cover u v ms ro co i j = none := by
  induction ms generalizing ro co with
  | nil => rfl
  | cons m ms ih =>
    have hm := hms m List.mem_cons_self
    have h1 := hm.rows_nonneg
    have h2 := hm.cols_nonneg
    rw [cover, ih (fun m hm => hms m (List.mem_cons_of_mem _ hm))]
    · simp only
      rw [if_neg]
      rcases h with ⟨_, h⟩ | ⟨_, h⟩ | h | h
      · omega
      · omega
      · have := h m List.mem_cons_self; omega
      · have := h m List.mem_cons_self; omega
    · rcases h with ⟨hu, h⟩ | ⟨hu, h⟩ | h | h
      · left; refine ⟨hu, ?_⟩; simp only [hu, if_true]; omega
      · right; left; refine ⟨hu, ?_⟩; simp only [hu, if_true]; omega
      · right; right; left; exact fun m hm => h m (List.mem_cons_of_mem _ hm)
      · right; right; right; exact fun m hm => h m (List.mem_cons_of_mem _ hm)

theorem cover_block (u v : Bool) (huv : u = true ∨ v = true) (pre : List (Mat E)) (m : Mat E) (post : List (Mat E))
    (hms : ∀ x ∈ pre ++ m :: post, x.WF) (ro co i j : Int) (hi : 0 ≤ i) (hi' : i < m.rows) (hj : 0 ≤ j) (hj' : j < m.cols) :
    cover u v (pre ++ m :: post) ro co (ro + flag u * (pre.map (·.rows)).sum + i) (co + flag v * (pre.map (·.cols)).sum + j) = some (m, i, j) := by
  induction pre generalizing ro co with
  | nil =>
    simp only [List.nil_append, List.map_nil, List.sum_nil, mul_zero, add_zero]
    have hpost : ∀ x ∈ post, x.WF := fun x hx => hms x (by simp [hx])
    rw [cover, cover_none_of_before u v post hpost]
    · simp only
      rw [if_pos (by omega)]
      simp
    · rcases huv with h | h
      · left; refine ⟨h, ?_⟩; simp only [h, if_true]; omega
      · right; left; refine ⟨h, ?_⟩; simp only [h, if_true]; omega
  | cons p pre ih =>
    rw [List.cons_append, cover]
    have := ih (fun x hx => hms x (by rw [List.cons_append]; exact List.mem_cons_of_mem _ hx)) (ro + p.rows * (if u then 1 else 0)) (co + p.cols * (if v then 1 else 0))
    have e1 : ro + flag u * (List.map (fun x => x.rows) (p :: pre)).sum + i = ro + p.rows * (if u then 1 else 0) + flag u * (List.map (fun x => x.rows) pre).sum + i := by
      simp only [List.map_cons, List.sum_cons, flag]; ring
    have e2 : co + flag v * (List.map (fun x => x.cols) (p :: pre)).sum + j = co + p.cols * (if v then 1 else 0) + flag v * (List.map (fun x => x.cols) pre).sum + j := by
      simp only [List.map_cons, List.sum_cons, flag]; ring
    rw [e1, e2, this]

theorem cover_some (u v : Bool) (ms : List (Mat E)) (ro co i j : Int) (m : Mat E) (a b : Int) (h : cover u v ms ro co i j = some (m, a, b)) :
    ∃ pre post, ms = pre ++ m :: post ∧ i = ro + flag u * (pre.map (·.rows)).sum + a ∧ j = co + flag v * (pre.map (·.cols)).sum + b ∧
      0 ≤ a ∧ a < m.rows ∧ 0 ≤ b ∧ b < m.cols := by
  induction ms generalizing ro co with
  | nil => simp [cover] at h
  | cons p ms ih =>
    rw [cover] at h
    split at h
    · rename_i r hr
      rw [h] at hr
      obtain ⟨pre, post, h1, h2, h3, h4⟩ := ih _ _ hr
      refine ⟨p :: pre, post, by rw [h1]; rfl, ?_, ?_, h4⟩
      · rw [h2, List.map_cons, List.sum_cons, flag]; ring
      · rw [h3, List.map_cons, List.sum_cons, flag]; ring
    · split at h
      · rename_i hc
        simp only [Option.some.injEq, Prod.mk.injEq] at h
        obtain ⟨rfl, rfl, rfl⟩ := h
        exact ⟨[], ms, rfl, by simp, by simp, hc⟩
      · simp at h

/-- The increments computed by `stack` may be off only when no later block has extent in that direction. -/
theorem cover_flags (u v u' v' : Bool) (m : Mat E) (ms : List (Mat E)) (hms : ∀ x ∈ m :: ms, x.WF)
    (hu : u' = u ∨ ∀ x ∈ ms, x.rows = 0) (hv : v' = v ∨ ∀ x ∈ ms, x.cols = 0) (i j : Int) :
    cover u' v' (m :: ms) 0 0 i j = cover u v (m :: ms) 0 0 i j := by
  have hms' : ∀ x ∈ ms, x.WF := fun x hx => hms x (List.mem_cons_of_mem _ hx)
  by_cases h0 : (∀ x ∈ ms, x.rows = 0) ∨ (∀ x ∈ ms, x.cols = 0)
  · rw [cover, cover, cover_none_of_before _ _ _ hms', cover_none_of_before _ _ _ hms']
    · rcases h0 with h0 | h0
      · exact .inr (.inr (.inl h0))
      · exact .inr (.inr (.inr h0))
    · rcases h0 with h0 | h0
      · exact .inr (.inr (.inl h0))
      · exact .inr (.inr (.inr h0))
  · push Not at h0
    rcases hu with rfl | hu
    · rcases hv with rfl | hv
      · rfl
      · obtain ⟨x, hx, hx'⟩ := h0.2; exact absurd (hv x hx) hx'
    · obtain ⟨x, hx, hx'⟩ := h0.1; exact absurd (hu x hx) hx'

theorem fits_of (u v : Bool) (nr nc : Int) (ms : List (Mat E)) (hms : ∀ x ∈ ms, x.WF) (ro co : Int) (hro : 0 ≤ ro) (hco : 0 ≤ co)
    (hr : if u then ro + (ms.map (·.rows)).sum ≤ nr else ∀ x ∈ ms, ro + x.rows ≤ nr)
    (hc : if v then co + (ms.map (·.cols)).sum ≤ nc else ∀ x ∈ ms, co + x.cols ≤ nc) : fits u v nr nc ms ro co := by
  induction ms generalizing ro co with
  | nil => trivial
  | cons m ms ih =>
    have hm := hms m List.mem_cons_self
    have h1 := hm.rows_nonneg
    have h2 := hm.cols_nonneg
    have hs1 : ∀ l : List (Mat E), (∀ x ∈ l, x.WF) → 0 ≤ (l.map (·.rows)).sum := by
      intro l hl; induction l with
      | nil => simp
      | cons a l ih2 =>
        rw [List.map_cons, List.sum_cons]
        have := (hl a List.mem_cons_self).rows_nonneg
        have := ih2 fun x hx => hl x (List.mem_cons_of_mem _ hx)
        omega
    have hs2 : ∀ l : List (Mat E), (∀ x ∈ l, x.WF) → 0 ≤ (l.map (·.cols)).sum := by
      intro l hl; induction l with
      | nil => simp
      | cons a l ih2 =>
        rw [List.map_cons, List.sum_cons]
        have := (hl a List.mem_cons_self).cols_nonneg
        have := ih2 fun x hx => hl x (List.mem_cons_of_mem _ hx)
        omega
    have hms' : ∀ x ∈ ms, x.WF := fun x hx => hms x (List.mem_cons_of_mem _ hx)
    have := hs1 ms hms'
    have := hs2 ms hms'
    refine ⟨hro, hco, ?_, ?_, ih hms' _ _ ?_ ?_ ?_ ?_⟩
    · cases u
      · exact hr m List.mem_cons_self
      · simp only [if_true, List.map_cons, List.sum_cons] at hr; omega
    · cases v
      · exact hc m List.mem_cons_self
      · simp only [if_true, List.map_cons, List.sum_cons] at hc; omega
    · cases u <;> simp <;> omega
    · cases v <;> simp <;> omega
    · cases u
      · simpa using fun x hx => hr x (List.mem_cons_of_mem _ hx)
      · simp only [if_true, List.map_cons, List.sum_cons] at hr; simp only [if_true]; omega
    · cases v
      · simpa using fun x hx => hc x (List.mem_cons_of_mem _ hx)
      · simp only [if_true, List.map_cons, List.sum_cons] at hc; simp only [if_true]; omega

theorem sum_nonneg_rows (l : List (Mat E)) (hl : ∀ x ∈ l, x.WF) : 0 ≤ (l.map (·.rows)).sum := by
  induction l with
  | nil => simp
  | cons a l ih =>
    rw [List.map_cons, List.sum_cons]
    have := (hl a List.mem_cons_self).rows_nonneg
    have := ih fun x hx => hl x (List.mem_cons_of_mem _ hx)
    omega

theorem sum_nonneg_cols (l : List (Mat E)) (hl : ∀ x ∈ l, x.WF) : 0 ≤ (l.map (·.cols)).sum := by
  induction l with
  | nil => simp
  | cons a l ih =>
    rw [List.map_cons, List.sum_cons]
    have := (hl a List.mem_cons_self).cols_nonneg
    have := ih fun x hx => hl x (List.mem_cons_of_mem _ hx)
    omega

theorem all_zero_rows (l : List (Mat E)) (hl : ∀ x ∈ l, x.WF) (h : (l.map (·.rows)).sum ≤ 0) : ∀ x ∈ l, x.rows = 0 := by
  induction l with
  | nil => simp
  | cons a l ih =>
    rw [List.map_cons, List.sum_cons] at h
    have h1 := (hl a List.mem_cons_self).rows_nonneg
    have hl' : ∀ x ∈ l, x.WF := fun x hx => hl x (List.mem_cons_of_mem _ hx)
    have h2 := sum_nonneg_rows l hl'
    intro x hx
    rcases List.mem_cons.mp hx with rfl | hx
    · omega
    · exact ih hl' (by omega) x hx

theorem all_zero_cols (l : List (Mat E)) (hl : ∀ x ∈ l, x.WF) (h : (l.map (·.cols)).sum ≤ 0) : ∀ x ∈ l, x.cols = 0 := by
  induction l with
  | nil => simp
  | cons a l ih =>
    rw [List.map_cons, List.sum_cons] at h
    have h1 := (hl a List.mem_cons_self).cols_nonneg
    have hl' : ∀ x ∈ l, x.WF := fun x hx => hl x (List.mem_cons_of_mem _ hx)
    have h2 := sum_nonneg_cols l hl'
    intro x hx
    rcases List.mem_cons.mp hx with rfl | hx
    · omega
    · exact ih hl' (by omega) x hx

/-- `stack` for intended directions `u` (down) and `v` (right). -/
theorem stack_ok (o : Ops E) (u v : Bool) (m : Mat E) (ms : List (Mat E)) (hms : ∀ x ∈ m :: ms, x.WF) (nr nc : Int)
    (hnr : nr = if u then ((m :: ms).map (·.rows)).sum else m.rows) (hnc : nc = if v then ((m :: ms).map (·.cols)).sum else m.cols)
    (hu : u = false → ∀ x ∈ ms, x.rows = m.rows) (hv : v = false → ∀ x ∈ ms, x.cols = m.cols) (hsz : nr * nc < 2 ^ 31) :
    ∃ r, stack o (m :: ms) nr nc = .ok r ∧ r.rows = nr ∧ r.cols = nc ∧ r.WF ∧
      ∀ i j, 0 ≤ i → i < nr → 0 ≤ j → j < nc → r.get i j = match cover u v (m :: ms) 0 0 i j with
          | some (x, a, b) => x.get a b
          | none => .ok o.zero := by
  have hm := hms m List.mem_cons_self
  have hms' : ∀ x ∈ ms, x.WF := fun x hx => hms x (List.mem_cons_of_mem _ hx)
  have s1 := sum_nonneg_rows ms hms'
  have s2 := sum_nonneg_cols ms hms'
  have hr0 := hm.rows_nonneg
  have hc0 := hm.cols_nonneg
  have hnr0 : 0 ≤ nr := by rw [hnr]; cases u <;> simp <;> omega
  have hnc0 : 0 ≤ nc := by rw [hnc]; cases v <;> simp <;> omega
  have hsp : sizeProduct nr nc = nr * nc := Int.emod_eq_of_lt (mul_nonneg hnr0 hnc0) (lt_trans hsz (by norm_num))
  have hprod : 0 ≤ nr * nc := mul_nonneg hnr0 hnc0
  have hfu : (decide (nr > m.rows)) = u ∨ ∀ x ∈ ms, x.rows = 0 := by
    by_cases h : nr > m.rows
    · left
      cases u
      · simp at hnr; omega
      · simpa using h
    · cases u
      · left; simpa using h
      · right
        simp only [if_true, List.map_cons, List.sum_cons] at hnr
        exact all_zero_rows ms hms' (by omega)
  have hfv : (decide (nc > m.cols)) = v ∨ ∀ x ∈ ms, x.cols = 0 := by
    by_cases h : nc > m.cols
    · left
      cases v
      · simp at hnc; omega
      · simpa using h
    · cases v
      · left; simpa using h
      · right
        simp only [if_true, List.map_cons, List.sum_cons] at hnc
        exact all_zero_cols ms hms' (by omega)
  have hf : fits (decide (nr > m.rows)) (decide (nc > m.cols)) nr nc (m :: ms) 0 0 := by
    apply fits_of _ _ _ _ _ hms _ _ (le_refl _) (le_refl _)
    · by_cases h : nr > m.rows
      · cases u
        · simp at hnr; omega
        · simp only [h, decide_true, if_true] at hnr ⊢; omega
      · simp only [h, decide_false, Bool.false_eq_true, if_false]
        intro x hx
        rcases List.mem_cons.mp hx with rfl | hx
        · cases u
          · simp at hnr; omega
          · simp only [if_true, List.map_cons, List.sum_cons] at hnr; omega
        · cases u
          · have := hu rfl x hx; simp at hnr; omega
          · rcases hfu with hfu | hfu
            · simp [h] at hfu
            · have := hfu x hx; omega
    · by_cases h : nc > m.cols
      · cases v
        · simp at hnc; omega
        · simp only [h, decide_true, if_true] at hnc ⊢; omega
      · simp only [h, decide_false, Bool.false_eq_true, if_false]
        intro x hx
        rcases List.mem_cons.mp hx with rfl | hx
        · cases v
          · simp at hnc; omega
          · simp only [if_true, List.map_cons, List.sum_cons] at hnc; omega
        · cases v
          · have := hv rfl x hx; simp at hnc; omega
          · rcases hfv with hfv | hfv
            · simp [h] at hfv
            · have := hfv x hx; omega
  have hlen : ((List.replicate (sizeProduct nr nc).toNat o.zero).length : Int) = nr * nc := by
    rw [List.length_replicate, hsp]; omega
  obtain ⟨res, h1, h2, h3⟩ := stackLoop_ok _ _ nr nc (m :: ms) hms 0 0 hf _ hlen
  refine ⟨⟨nr, nc, res⟩, ?_, rfl, rfl, ⟨hnr0, hnc0, h2, hsz⟩, ?_⟩
  · show (stackLoop _ _ _ _ _ _ _ >>= _) = _
    rw [h1]
    exact newMatrix_ok hnr0 hnc0 hsz res h2
  · intro i j hi hi' hj hj'
    have : (⟨nr, nc, res⟩ : Mat E).get i j = vecAt res (i * nc + j) := by
      unfold Mat.get; rw [if_neg (by simp only; omega)]; rfl
    rw [this, h3 i j hi hi' hj hj', cover_flags u v _ _ m ms hms hfu hfv]
    split
    · rfl
    · unfold vecAt
      have : 0 ≤ i * nc + j := by have : 0 ≤ i * nc := mul_nonneg hi hnc0
                                  omega
      rw [if_neg (by omega), List.getElem?_replicate, if_pos]
      rw [hsp]
      have : (i + 1) * nc ≤ nr * nc := mul_le_mul_of_nonneg_right (by omega) hnc0
      have : (i + 1) * nc = i * nc + nc := by ring
      omega

end Wf.Mat
