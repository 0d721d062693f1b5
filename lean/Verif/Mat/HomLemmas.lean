import Verif.Mat.LuProps

/-!
# Maps of entries that preserve the operations

A map of entries that preserves the operations commutes with the functions on matrices. Division need only be preserved for divisors that satisfy
a condition; the elimination then has to meet this condition for every pivot.
-/

namespace Wf.Mat

variable {E E' : Type}

/-- The map preserves the operations, and division where the divisor satisfies `ok`. -/
structure Ops.Hom (o : Ops E) (o' : Ops E') (f : E → E') (ok : E' → Prop) : Prop where
  zero : f o.zero = o'.zero
  one : f o.one = o'.one
  add : ∀ a b, f (o.add a b) = o'.add (f a) (f b)
  sub : ∀ a b, f (o.sub a b) = o'.sub (f a) (f b)
  mul : ∀ a b, f (o.mul a b) = o'.mul (f a) (f b)
  sum : ∀ l, f (o.sum l) = o'.sum (l.map f)
  isZero : ∀ a, o'.isZero (f a) = o.isZero a
  div : ∀ a b, ok (f b) → f (o.div a b) = o'.div (f a) (f b)

/-- The entries mapped. -/
def Mat.map (f : E → E') (m : Mat E) : Mat E' := ⟨m.rows, m.cols, m.data.map f⟩

theorem vecAt_map (f : E → E') (l : List E) (k : Int) : vecAt (l.map f) k = (vecAt l k).map f := by
  unfold vecAt
  split
  · rfl
  · rw [List.getElem?_map]
    cases l[k.toNat]? <;> rfl

theorem get_map (f : E → E') (m : Mat E) (i j : Int) : (m.map f).get i j = (m.get i j).map f := by
  show (if i ≥ m.rows ∨ i < 0 ∨ j ≥ m.cols ∨ j < 0 then Except.error Err.dimension else vecAt (m.data.map f) (i * m.cols + j)) =
    (if i ≥ m.rows ∨ i < 0 ∨ j ≥ m.cols ∨ j < 0 then Except.error Err.dimension else vecAt m.data (i * m.cols + j)).map f
  by_cases h : i ≥ m.rows ∨ i < 0 ∨ j ≥ m.cols ∨ j < 0
  · rw [if_pos h, if_pos h]; rfl
  · rw [if_neg h, if_neg h]; exact vecAt_map f _ _

theorem getUnchecked_map (f : E → E') (m : Mat E) (i j : Int) : (m.map f).getUnchecked i j = (m.getUnchecked i j).map f := vecAt_map f _ _

theorem WF_map {f : E → E'} {m : Mat E} : (m.map f).WF ↔ m.WF :=
  ⟨fun h => ⟨h.rows_nonneg, h.cols_nonneg, by have := h.size_eq; simpa [Mat.map] using this, h.size_lt⟩,
    fun h => ⟨h.rows_nonneg, h.cols_nonneg, by have := h.size_eq; simpa [Mat.map] using this, h.size_lt⟩⟩

theorem newMatrix_map (f : E → E') (r c : Int) (l : List E) : newMatrix r c (l.map f) = (newMatrix r c l).map (Mat.map f) := by
  unfold newMatrix
  rw [List.length_map]
  split
  · rfl
  · split <;> rfl

theorem mapM_map_res {α : Type} (f : E → E') (l : List α) (g : α → Res E) (g' : α → Res E') (h : ∀ a, g' a = (g a).map f) :
    l.mapM g' = (l.mapM g).map (List.map f) := by
  induction l with
  | nil => rfl
  | cons a l ih =>
    rw [List.mapM_cons, List.mapM_cons, ih, h]
    cases g a with
    | error e => rfl
    | ok x =>
      cases l.mapM g with
      | error e => rfl
      | ok xs => rfl

theorem createMatrix_map (f : E → E') (r c : Int) (g : Int → Int → Res E) (g' : Int → Int → Res E') (h : ∀ i j, g' i j = (g i j).map f) :
    createMatrix r c g' = (createMatrix r c g).map (Mat.map f) := by
  unfold createMatrix iterMatrix
  rw [mapM_map_res f (indexPairs r c) (fun p : Int × Int => g p.1 p.2) (fun p => g' p.1 p.2) fun p => h p.1 p.2]
  cases (indexPairs r c).mapM fun p => g p.1 p.2 with
  | error e => rfl
  | ok l => exact newMatrix_map f r c l

theorem factorize_inv (o : Ops E) (A : Mat E) (hA : A.WF) (r c : Nat) (har : A.rows = r) (hac : A.cols = c) (h1 : 1 ≤ r) (h2 : r ≤ c) {Pm L U Qm : Mat E}
    (h : factorizeFullPivLu o A = .ok (Pm, L, U, Qm)) : (∃ P Q, luInternal o A = .ok (P, L, U, Q)) ∧ U.rows = r ∧ U.cols = c := by
  obtain ⟨P, L₀, U₀, Q, e, -, -, -, -, -, -, e1, e2, -⟩ := luInternal_spec o A hA r c har hac h1 h2
  unfold factorizeFullPivLu at h
  rw [e] at h
  simp only [bind, Except.bind] at h
  cases hP : permMatrix o P with
  | error x => rw [hP] at h; cases h
  | ok P₁ =>
    cases hQ : permMatrix o Q with
    | error x => rw [hP, hQ] at h; cases h
    | ok Q₁ =>
      rw [hP, hQ] at h
      cases h
      exact ⟨⟨P, Q, e⟩, e1, e2⟩

section
variable {o : Ops E} {o' : Ops E'} {f : E → E'} {ok : E' → Prop} (hf : o.Hom o' f ok)
include hf

theorem productTerms_map (a b : Mat E) (i j : Int) : productTerms o' (a.map f) (b.map f) i j = (productTerms o a b i j).map (List.map f) := by
  unfold productTerms
  rw [mapM_map_res f _ (fun (k : Nat) => do
    let x ← a.get i k
    let y ← b.get k j
    return o.mul x y) _ fun k => ?_]
  · show (((List.range a.cols.toNat).mapM fun (k : Nat) => do
      let x ← a.get i k
      let y ← b.get k j
      return o.mul x y).map (List.map f) >>= _) = _
    cases (List.range a.cols.toNat).mapM fun (k : Nat) => do
      let x ← a.get i k
      let y ← b.get k j
      return o.mul x y with
    | error e => rfl
    | ok l =>
      show Except.ok _ = Except.ok _
      congr 1
      rw [List.filter_map]
      congr 2
      funext x
      show (!o'.isZero (f x)) = _
      rw [hf.isZero]
  · rw [get_map, get_map]
    cases a.get i k with
    | error e => rfl
    | ok x =>
      cases b.get k j with
      | error e => rfl
      | ok y =>
        show Except.ok _ = Except.ok _
        rw [hf.mul]

theorem mul_map (a b : Mat E) : (a.map f).mul o' (b.map f) = (a.mul o b).map (Mat.map f) := by
  unfold Mat.mul
  by_cases h : a.cols = b.rows
  · rw [if_neg (by simpa [Mat.map] using h), if_neg (by simpa using h)]
    refine createMatrix_map f _ _ _ _ fun i j => ?_
    rw [productTerms_map hf]
    cases productTerms o a b i j with
    | error e => rfl
    | ok l =>
      cases l with
      | nil =>
        show Except.ok _ = Except.ok _
        rw [hf.zero]
      | cons x l =>
        show Except.ok _ = Except.ok _
        rw [hf.sum]
  · rw [if_pos (by simpa [Mat.map] using h), if_pos h]
    rfl

theorem zip_map (a b : Mat E) (op : E → E → E) (op' : E' → E' → E') (h : ∀ x y, f (op x y) = op' (f x) (f y)) (r c : Int) :
    createMatrix r c (fun i j => do
      let x ← (a.map f).get i j
      let y ← (b.map f).get i j
      return op' x y) = (createMatrix r c (fun i j => do
      let x ← a.get i j
      let y ← b.get i j
      return op x y)).map (Mat.map f) := by
  refine createMatrix_map f _ _ _ _ fun i j => ?_
  rw [get_map, get_map]
  cases a.get i j with
  | error e => rfl
  | ok x =>
    cases b.get i j with
    | error e => rfl
    | ok y =>
      show Except.ok _ = Except.ok _
      rw [h]

theorem add_map (a b : Mat E) : (a.map f).add o' (b.map f) = (a.add o b).map (Mat.map f) := by
  unfold Mat.add
  by_cases h : a.rows ≠ b.rows ∨ a.cols ≠ b.cols
  · rw [if_pos (by simpa [Mat.map] using h), if_pos h]; rfl
  · rw [if_neg (by simpa [Mat.map] using h), if_neg h]
    exact zip_map hf a b _ _ hf.add _ _

theorem sub_map (a b : Mat E) : (a.map f).sub o' (b.map f) = (a.sub o b).map (Mat.map f) := by
  unfold Mat.sub
  by_cases h : a.rows ≠ b.rows ∨ a.cols ≠ b.cols
  · rw [if_pos (by simpa [Mat.map] using h), if_pos h]; rfl
  · rw [if_neg (by simpa [Mat.map] using h), if_neg h]
    exact zip_map hf a b _ _ hf.sub _ _

theorem scale_map (a : Mat E) (s : E) : (a.map f).scale o' (f s) = (a.scale o s).map (Mat.map f) := by
  unfold Mat.scale
  rw [← newMatrix_map]
  simp only [Mat.map, List.map_map]
  congr 1
  refine List.map_congr_left fun x _ => ?_
  exact (hf.mul x s).symm

theorem findPivot_map (rows cols : Nat) (U : View E) : findPivot o' rows cols (fun i j => f (U i j)) = findPivot o rows cols U := by
  unfold findPivot
  congr 1
  funext p
  rw [hf.isZero]

theorem schur_map (V : View E) (h : ok (f (V 0 0))) : schur o' (fun i j => f (V i j)) = fun i j => f (schur o V i j) := by
  funext i j
  unfold schur
  rw [hf.sub, hf.div _ _ h, hf.mul]

theorem assembleL_map (r : Nat) (L Li V : View E) (P : Perm) (h : ok (f (V 0 0))) :
    assembleL o' r (fun i j => f (L i j)) (fun i j => f (Li i j)) (fun i j => f (V i j)) P = fun i j => f (assembleL o r L Li V P i j) := by
  funext i j
  rcases i with _ | i <;> rcases j with _ | j
  · exact hf.one.symm
  · rfl
  · simp only [assembleL]
    split
    · exact (hf.div _ _ h).symm
    · rfl
  · rfl

theorem assembleU_map (r : Nat) (Ui V : View E) (Q : Perm) :
    assembleU o' r (fun i j => f (Ui i j)) (fun i j => f (V i j)) Q = fun i j => f (assembleU o r Ui V Q i j) := by
  funext i j
  rcases i with _ | i <;> rcases j with _ | j
  · rfl
  · simp only [assembleU]
    cases Q.permutedRow j <;> rfl
  · simp only [assembleU]
    split
    · exact hf.zero.symm
    · rfl
  · rfl

/-- If the pivots of the mapped run satisfy the condition, the run is the map of a run. -/
theorem luSpan_map (rows cols : Nat) (L U : View E) (P Q : Perm) (Lo' Uo' : View E')
    (h : luSpan o' rows cols (fun i j => f (L i j)) (fun i j => f (U i j)) = .ok (P, Q, Lo', Uo'))
    (hp : ∀ k, k + 1 < rows → o'.isZero (Uo' k k) = false → ok (Uo' k k)) :
    ∃ Lo Uo, luSpan o rows cols L U = .ok (P, Q, Lo, Uo) ∧ Lo' = (fun i j => f (Lo i j)) ∧ Uo' = (fun i j => f (Uo i j)) := by
  induction rows generalizing cols L U P Q Lo' Uo' with
  | zero => cases h
  | succ r ih =>
    cases r with
    | zero =>
      simp only [luSpan, Except.ok.injEq, Prod.mk.injEq] at h
      obtain ⟨rfl, rfl, rfl, rfl⟩ := h
      refine ⟨_, _, rfl, ?_, rfl⟩
      funext i j
      split
      · exact hf.one.symm
      · rfl
    | succ r =>
      rw [luSpan] at h ⊢
      rw [findPivot_map hf] at h
      cases hpv : findPivot o (r + 2) cols U with
      | none =>
        simp only [hpv, Except.ok.injEq, Prod.mk.injEq] at h ⊢
        obtain ⟨rfl, rfl, rfl, rfl⟩ := h
        refine ⟨_, _, ⟨rfl, rfl, rfl, rfl⟩, ?_, rfl⟩
        funext i j
        split
        · exact hf.one.symm
        · rfl
      | some ab =>
        obtain ⟨a, b⟩ := ab
        obtain ⟨ha, hb, hz⟩ := findPivot_some hpv
        simp only [hpv] at h ⊢
        set V : View E := fun i j => U (swapIdx a i) (swapIdx b j) with hV
        cases hr : luSpan o' (r + 1) (cols - 1) (fun i j => f (L (i + 1) (j + 1))) (schur o' fun i j => f (U (swapIdx a i) (swapIdx b j))) with
        | error e => rw [hr] at h; cases h
        | ok res =>
          obtain ⟨P₁, Q₁, Li', Ui'⟩ := res
          rw [hr] at h
          simp only at h
          by_cases hlen : P₁.p.length ≠ r + 1 ∨ Q₁.p.length ≠ cols - 1
          · rw [if_pos hlen] at h; cases h
          rw [if_neg hlen] at h
          cases hP : P₁.shiftDownAndSwap a with
          | error e => rw [hP] at h; cases h
          | ok P₂ =>
            cases hQ : Q₁.shiftDownAndSwapRight b with
            | error e => rw [hP, hQ] at h; cases h
            | ok Q₂ =>
              rw [hP, hQ] at h
              simp only [bind, Except.bind, pure, Except.pure, Except.ok.injEq, Prod.mk.injEq] at h
              obtain ⟨rfl, rfl, rfl, rfl⟩ := h
              have hok : ok (f (V 0 0)) := by
                refine hp 0 (by omega) ?_
                show o'.isZero (f (U (swapIdx a 0) (swapIdx b 0))) = false
                rw [hf.isZero]
                simpa [swapIdx] using hz
              rw [show (schur o' fun i j => f (U (swapIdx a i) (swapIdx b j))) = fun i j => f (schur o V i j) from schur_map hf V hok] at hr
              obtain ⟨Li, Ui, e, rfl, rfl⟩ := ih (cols - 1) (fun i j => L (i + 1) (j + 1)) (schur o V) P₁ Q₁ Li' Ui' hr
                fun k hk hz => hp (k + 1) (by omega) hz
              refine ⟨assembleL o r L Li V P₁, assembleU o r Ui V Q₁, ?_, assembleL_map hf r L Li V P₁ hok, assembleU_map hf r Ui V Q₁⟩
              rw [e]
              simp only
              rw [if_neg hlen, hP, hQ]
              rfl

theorem dataView_map (c : Nat) (l : List E) : dataView o' c (l.map f) = fun i j => f (dataView o c l i j) := by
  funext i j
  unfold dataView
  rw [List.getElem?_map]
  cases l[i * c + j]? with
  | none => exact hf.zero.symm
  | some x => rfl

theorem viewData_map (r c : Nat) (v : View E) : viewData r c (fun i j => f (v i j)) = (viewData r c v).map f := by
  simp [viewData, List.map_flatMap, Function.comp_def]

/-- The same for the factorisation. -/
theorem luInternal_map (A : Mat E) (hA : A.WF) (r c : Nat) (har : A.rows = r) (hac : A.cols = c) (h1 : 1 ≤ r) (h2 : r ≤ c) (P Q : Perm)
    (L' U' : Mat E') (h : luInternal o' (A.map f) = .ok (P, L', U', Q))
    (hp : ∀ k : Nat, k + 1 < r → ∀ x, U'.get k k = .ok x → o'.isZero x = false → ok x) :
    ∃ L U, luInternal o A = .ok (P, L, U, Q) ∧ L' = L.map f ∧ U' = U.map f := by
  obtain ⟨P₁, L₁, U₁, Q₁, e, -, -, -, -, -, -, -, -, Lo', Uo', es, -, hU⟩ := luInternal_spec o' (A.map f) (WF_map.2 hA) r c har hac h1 h2
  rw [h] at e
  simp only [Except.ok.injEq, Prod.mk.injEq] at e
  obtain ⟨rfl, rfl, rfl, rfl⟩ := e
  rw [show dataView o' r (List.replicate (r * r) o'.zero) = fun i j => f (dataView o r (List.replicate (r * r) o.zero) i j) by
    rw [← dataView_map hf, List.map_replicate, hf.zero], show dataView o' c (A.map f).data = fun i j => f (dataView o c A.data i j) from
    dataView_map hf c A.data] at es
  obtain ⟨Lo, Uo, e, rfl, rfl⟩ := luSpan_map hf r c _ _ P Q Lo' Uo' es fun k hk hz => hp k hk _ (hU k k (by omega) (by omega)).1 hz
  obtain ⟨P₂, L, U, Q₂, e2, -, -, -, -, -, -, -, -, Lo₂, Uo₂, es2, -, -⟩ := luInternal_spec o A hA r c har hac h1 h2
  rw [e] at es2
  simp only [Except.ok.injEq, Prod.mk.injEq] at es2
  obtain ⟨rfl, rfl, rfl, rfl⟩ := es2
  refine ⟨L, U, e2, ?_⟩
  have es3 : luSpan o' r c (dataView o' r (List.replicate (r * r) o'.zero)) (dataView o' c (A.map f).data) =
      .ok (P, Q, fun i j => f (Lo i j), fun i j => f (Uo i j)) := by
    rw [show dataView o' r (List.replicate (r * r) o'.zero) = fun i j => f (dataView o r (List.replicate (r * r) o.zero) i j) by
      rw [← dataView_map hf, List.map_replicate, hf.zero], show dataView o' c (A.map f).data = fun i j => f (dataView o c A.data i j) from
      dataView_map hf c A.data]
    exact es
  unfold luInternal at e2 h
  rw [if_neg (by omega), har, hac] at e2
  rw [if_neg (by show ¬ A.rows > A.cols; omega), show (A.map f).rows = r from har, show (A.map f).cols = c from hac] at h
  simp only [Int.toNat_natCast, e, bind, Except.bind] at e2
  simp only [Int.toNat_natCast, es3, bind, Except.bind] at h
  rw [viewData_map hf r r Lo, viewData_map hf r c Uo, newMatrix_map, newMatrix_map] at h
  cases hL : newMatrix (r : Int) r (viewData r r Lo) with
  | error x => rw [hL] at e2; cases e2
  | ok L₀ =>
    rw [hL] at e2 h
    cases hU₀ : newMatrix (r : Int) c (viewData r c Uo) with
    | error x => rw [hU₀] at e2; cases e2
    | ok U₀ =>
      rw [hU₀] at e2 h
      cases e2
      cases h
      exact ⟨rfl, rfl⟩

theorem permMatrix_map (P : Perm) : permMatrix o' P = (permMatrix o P).map (Mat.map f) := by
  show newMatrix _ _ (viewData P.p.length P.p.length fun i j => if P.p[i]? = some j then o'.one else o'.zero) =
    (newMatrix _ _ (viewData P.p.length P.p.length fun i j => if P.p[i]? = some j then o.one else o.zero)).map (Mat.map f)
  rw [← newMatrix_map, ← viewData_map hf]
  congr 2
  funext i j
  split
  · exact hf.one.symm
  · exact hf.zero.symm

theorem factorize_map (A : Mat E) (hA : A.WF) (r c : Nat) (har : A.rows = r) (hac : A.cols = c) (h1 : 1 ≤ r) (h2 : r ≤ c)
    (P' L' U' Q' : Mat E') (h : factorizeFullPivLu o' (A.map f) = .ok (P', L', U', Q'))
    (hp : ∀ k : Nat, k + 1 < r → ∀ x, U'.get k k = .ok x → o'.isZero x = false → ok x) :
    ∃ P L U Q, factorizeFullPivLu o A = .ok (P, L, U, Q) ∧ P' = P.map f ∧ L' = L.map f ∧ U' = U.map f ∧ Q' = Q.map f := by
  unfold factorizeFullPivLu at h ⊢
  cases hl : luInternal o' (A.map f) with
  | error e => rw [hl] at h; cases h
  | ok res =>
    obtain ⟨P₀, L₀, U₀, Q₀⟩ := res
    rw [hl] at h
    simp only [bind, Except.bind, permMatrix_map hf] at h
    cases hP : permMatrix o P₀ with
    | error e => rw [hP] at h; cases h
    | ok Pm =>
      cases hQ : permMatrix o Q₀ with
      | error e => rw [hP, hQ] at h; cases h
      | ok Qm =>
        rw [hP, hQ] at h
        cases h
        obtain ⟨L, U, e, rfl, rfl⟩ := luInternal_map hf A hA r c har hac h1 h2 P₀ Q₀ _ _ hl hp
        refine ⟨Pm, L, U, Qm, ?_, rfl, rfl, rfl, rfl⟩
        rw [e]
        simp only [bind, Except.bind, hP, hQ]
        rfl

theorem bind_map {α β α' β' : Type} (g : α → α') (k : β → β') (x : Res α) (F : α → Res β) (F' : α' → Res β') (h : ∀ a, F' (g a) = (F a).map k) :
    (x.map g >>= F') = (x >>= F).map k := by
  cases x with
  | error e => rfl
  | ok a => exact h a

theorem determinant_small_map (sgn : Int → E) (sgn' : Int → E') (A : Mat E) (h3 : A.rows = 1 ∨ A.rows = 2 ∨ A.rows = 3) :
    determinant o' sgn' (A.map f) = (determinant o sgn A).map f := by
  unfold determinant
  rw [show (A.map f).rows = A.rows from rfl, show (A.map f).cols = A.cols from rfl]
  simp only [getUnchecked_map]
  by_cases hs : A.rows ≠ A.cols
  · rw [if_pos hs, if_pos hs]; rfl
  rw [if_neg hs, if_neg hs]
  rcases h3 with h | h | h
  · rw [if_pos h, if_pos h]
  · have n1 : ¬ A.rows = 1 := by omega
    rw [if_neg n1, if_neg n1, if_pos h, if_pos h]
    repeat (refine bind_map hf f f _ _ _ fun _ => ?_)
    show Except.ok _ = Except.ok _
    simp only [hf.sub, hf.mul]
  · have n1 : ¬ A.rows = 1 := by omega
    have n2 : ¬ A.rows = 2 := by omega
    rw [if_neg n1, if_neg n1, if_neg n2, if_neg n2, if_pos h, if_pos h]
    repeat (refine bind_map hf f f _ _ _ fun _ => ?_)
    show Except.ok _ = Except.ok _
    simp only [hf.sub, hf.mul, hf.add]

theorem foldl_map (l : List E) (s : E) : (l.map f).foldl o'.mul (f s) = f (l.foldl o.mul s) := by
  induction l generalizing s with
  | nil => rfl
  | cons a l ih => rw [List.map_cons, List.foldl_cons, List.foldl_cons, ← hf.mul, ih]

theorem determinant_large_map (sgn : Int → E) (sgn' : Int → E') (hsgn : ∀ s, s = 1 ∨ s = -1 → f (sgn s) = sgn' s) (A : Mat E) (h4 : 4 ≤ A.rows) (P Q : Perm)
    (L U : Mat E) (h : luInternal o A = .ok (P, L, U, Q)) (h' : luInternal o' (A.map f) = .ok (P, L.map f, U.map f, Q)) :
    determinant o' sgn' (A.map f) = (determinant o sgn A).map f := by
  unfold determinant
  rw [show (A.map f).rows = A.rows from rfl, show (A.map f).cols = A.cols from rfl]
  by_cases hs : A.rows ≠ A.cols
  · rw [if_pos hs, if_pos hs]; rfl
  have n1 : ¬ A.rows = 1 := by omega
  have n2 : ¬ A.rows = 2 := by omega
  have n3 : ¬ A.rows = 3 := by omega
  rw [if_neg hs, if_neg hs, if_neg n1, if_neg n1, if_neg n2, if_neg n2, if_neg n3, if_neg n3, h, h']
  simp only [bind, Except.bind]
  rw [mapM_map_res f _ (fun (i : Nat) => U.getUnchecked i i) _ fun i => getUnchecked_map f U i i]
  cases (List.range A.rows.toNat).mapM fun (i : Nat) => U.getUnchecked i i with
  | error e => rfl
  | ok l =>
    show Except.ok _ = Except.ok _
    rw [← foldl_map hf, hsgn]
    unfold Perm.determinant
    split <;> split <;> simp

end

end Wf.Mat
