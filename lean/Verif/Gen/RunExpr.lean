import Verif.Gen.RunSpec
import Verif.Gen.NameLemmas

/-!
# Lemmas for C58: values of expressions of the text
-/

namespace Wf.Gen.Text

variable {K : Type} [CommRing K] {M : Machine K} {I : Interp K} {S : Setting} {s : State K} {vars : Vars K} {P : String → Prop}

mutual
/-- The names in the operation have the property. -/
def Tree.Over (T : Scoping) (P : String → Prop) : Tree → Prop
  | .var n => P n
  | .arg n k => P (T.argVar n (k = .matrix))
  | .add l => AllOver T P l
  | .mul l => AllOver T P l
  | .div a b => a.Over T P ∧ b.Over T P
  | .neg a => a.Over T P
  | .cmp _ a b => a.Over T P ∧ b.Over T P
  | .cond c a b => c.Over T P ∧ a.Over T P ∧ b.Over T P
  | .cast _ a => a.Over T P
  | .std _ l => AllOver T P l
  | .call _ _ _ l => AllOver T P l
  | .copy a => a.Over T P
  | .field a _ => a.Over T P
  | .elem a _ _ => a.Over T P
  | _ => True

def AllOver (T : Scoping) (P : String → Prop) : List Tree → Prop
  | [] => True
  | t :: ts => t.Over T P ∧ AllOver T P ts
end

/-- Names with the property are neither literals nor names of libraries, and the variables have the same values. -/
structure Shows (M : Machine K) (S : Setting) (P : String → Prop) (vars : Vars K) (s : State K) : Prop where
  plain : ∀ n, P n → M.lit n = none ∧ S.isLibrary n = false ∧ n ≠ "None"
  same : ∀ n c, P n → find n vars = some c → find n s.vars = some (.val c)

theorem Shows.number (h : Shows M S P vars s) {n : String} {x : K} (hn : P n) (e : (find n vars).bind Cell.number = some x) : (E.atom n).value M S s = some x := by
  rw [E.value, (h.plain n hn).1]
  rw [Option.bind_eq_some_iff] at e ⊢
  obtain ⟨c, hc, hx⟩ := e
  exact ⟨_, h.same n c hn hc, hx⟩

theorem Shows.element (h : Shows M S P vars s) {n : String} {i j : Nat} {x : K} (hn : P n) (e : (find n vars).bind (Cell.element i j) = some x) :
    s.element n [.int i "", .int j ""] = some x := by
  rw [Option.bind_eq_some_iff] at e
  obtain ⟨c, hc, hx⟩ := e
  simp only [State.element, h.same n c hn hc, indices]
  exact hx

theorem foldl_add {M : Machine K} {S : Setting} {s : State K} : ∀ (l : List E) (e : E) {x : K} {xs : List K}, e.value M S s = some x → evals M S s l = some xs →
    (l.foldl (.bin .add) e).value M S s = some (x + xs.sum)
  | [], e, x, xs, h1, h2 => by cases h2; simpa using h1
  | a :: l, e, x, xs, h1, h2 => by
    rw [evals] at h2
    cases ha : a.value M S s with
    | none => simp [ha] at h2
    | some y =>
    cases hl : evals M S s l with
    | none => simp [ha, hl] at h2
    | some ys =>
    rw [ha, hl] at h2
    cases h2
    rw [List.foldl_cons, foldl_add l _ (x := x + y) (by simp only [E.value, h1, ha, Machine.bin]) hl, List.sum_cons, add_assoc]

theorem foldl_mul {M : Machine K} {S : Setting} {s : State K} : ∀ (l : List E) (e : E) {x : K} {xs : List K}, e.value M S s = some x → evals M S s l = some xs →
    (l.foldl (.bin .mul) e).value M S s = some (x * xs.prod)
  | [], e, x, xs, h1, h2 => by cases h2; simpa using h1
  | a :: l, e, x, xs, h1, h2 => by
    rw [evals] at h2
    cases ha : a.value M S s with
    | none => simp [ha] at h2
    | some y =>
    cases hl : evals M S s l with
    | none => simp [ha, hl] at h2
    | some ys =>
    rw [ha, hl] at h2
    cases h2
    rw [List.foldl_cons, foldl_mul l _ (x := x * y) (by simp only [E.value, h1, ha, Machine.bin]) hl, List.prod_cons, mul_assoc]

theorem fold_add {l : List E} {xs : List K} (hl : l ≠ []) (h : evals M S s l = some xs) : (fold .add l).value M S s = some xs.sum := by
  cases l with
  | nil => exact absurd rfl hl
  | cons a l =>
    rw [evals] at h
    cases ha : a.value M S s with
    | none => simp [ha] at h
    | some y =>
    cases hl : evals M S s l with
    | none => simp [ha, hl] at h
    | some ys =>
    rw [ha, hl] at h
    cases h
    rw [fold, foldl_add l a ha hl, List.sum_cons]

theorem fold_mul {l : List E} {xs : List K} (hl : l ≠ []) (h : evals M S s l = some xs) : (fold .mul l).value M S s = some xs.prod := by
  cases l with
  | nil => exact absurd rfl hl
  | cons a l =>
    rw [evals] at h
    cases ha : a.value M S s with
    | none => simp [ha] at h
    | some y =>
    cases hl : evals M S s l with
    | none => simp [ha, hl] at h
    | some ys =>
    rw [ha, hl] at h
    cases h
    rw [fold, foldl_mul l a ha hl, List.prod_cons]

theorem intE_value {n : Int} {suffix : String} : (intE n suffix).value M S s = some (n : K) := by
  unfold intE
  by_cases h : n < 0
  · rw [if_pos h, E.value, E.value, Option.map_some]
    congr 1
    obtain ⟨k, rfl⟩ : ∃ k : ℕ, n = -(k : ℤ) := ⟨n.natAbs, by omega⟩
    rw [Int.natAbs_neg, Int.natAbs_natCast]
    push_cast
    rfl
  · rw [if_neg h, E.value]
    congr 1
    obtain ⟨k, rfl⟩ : ∃ k : ℕ, n = (k : ℤ) := ⟨n.natAbs, by omega⟩
    rw [Int.natAbs_natCast, Int.cast_natCast]

theorem floatE_value {neg : Bool} {d : String} {x : K} (h : (floatE neg d).value M S ⟨[], [], none⟩ = some x) : (floatE neg d).value M S s = some x := by
  have key : ∀ {y : K}, (E.atom d).value M S ⟨[], [], none⟩ = some y → (E.atom d).value M S s = some y := by
    intro y hy
    rw [E.value] at hy ⊢
    cases hl : M.lit d with
    | none => simp [hl, find] at hy
    | some z => rw [hl] at hy; exact hy
  unfold floatE at h ⊢
  cases neg with
  | false => exact key h
  | true =>
    simp only [if_true] at h ⊢
    rw [E.value, Option.map_eq_some_iff] at h ⊢
    obtain ⟨y, hy, rfl⟩ := h
    exact ⟨y, key hy, rfl⟩

theorem atom_value {d : String} {x : K} (h : (E.atom d).value M S ⟨[], [], none⟩ = some x) : (E.atom d).value M S s = some x := by
  rw [E.value] at h ⊢
  cases hl : M.lit d with
  | none => simp [hl, find] at h
  | some z => rw [hl] at h; exact h

theorem bin_value {op : BinOp} {a b : E} {x y : K} (h1 : a.value M S s = some x) (h2 : b.value M S s = some y) : (E.bin op a b).value M S s = some (M.bin op x y) := by
  rw [E.value, h1, h2]

theorem cast_value {t : String} {p : Prim} {a : E} {x : K} (ht : find t (numberTypes S.T.lang) = some p) (h : a.value M S s = some x) :
    (E.cast t a).value M S s = some (M.cast p x) := by
  rw [E.value, ht, h]; rfl

theorem bin_rel (r : Rel) (x y : K) : M.bin (relOp r) x y = M.cmp r x y := by cases r <;> rfl

theorem values_length {T : Scoping} {con : Tree → Option K} : ∀ {l : List Tree} {xs : List K}, values T I con vars l = some xs → xs.length = l.length
  | [], xs, h => by cases h; rfl
  | t :: ts, xs, h => by
    rw [values] at h
    cases h1 : t.value T I con vars with
    | none => simp [h1] at h
    | some x =>
    cases h2 : values T I con vars ts with
    | none => simp [h1, h2] at h
    | some ys =>
    rw [h1, h2] at h
    cases h
    simp [values_length h2]

/-! ## C++ -/

theorem cmath_of {f : Std} (h1 : f ≠ .signum) : find (cppStd f) cmath = some f.meaning := by
  cases f <;> first | rfl | exact absurd rfl h1

theorem cpp_call {span : Bool} (hS : S.T = .cpp span) {f : String} {g : Fn} (hf : find f cmath = some g) {l : List E} {xs : List K} (h : evals M S s l = some xs) :
    (E.app (.atom f) l).value M S s = some (M.fn g xs) := by
  rw [E.value]
  have hl : S.isLibrary f = true := by unfold Setting.isLibrary; rw [hS]; simp [hf]
  rw [if_pos hl, h]
  simp only [Option.bind_some, Machine.call, hS, hf, Option.map_some]

theorem cppEs_eq (span : Bool) : ∀ l : List Tree, cppEs span l = l.map (Tree.cppE span)
  | [] => rfl
  | t :: ts => by rw [cppEs, cppEs_eq span ts]; rfl

theorem cpp_std (hM : M.Lawful) {span : Bool} (hS : S.T = .cpp span) {f : Std} {l : List E} {xs : List K} (ha : l.length = f.arity) (h : evals M S s l = some xs) :
    (cppStdE f l).value M S s = some (M.fn f.meaning xs) := by
  have one : f.arity = 1 → ∃ e x, l = [e] ∧ xs = [x] ∧ e.value M S s = some x := by
    intro h1
    rw [h1] at ha
    obtain ⟨e, rfl⟩ := List.length_eq_one_iff.1 ha
    rw [evals] at h
    cases he : e.value M S s with
    | none => simp [he] at h
    | some x => rw [he] at h; simp only [evals] at h; cases h; exact ⟨e, x, rfl, rfl, he⟩
  have hsc : find "Scalar" (numberTypes S.T.lang) = some .floating := by rw [hS]; rfl
  have hz : (E.cast "Scalar" (.int 0 "")).value M S s = some 0 := by
    rw [cast_value hsc (x := 0) (by simp [E.value]), hM.zero]
  by_cases hs : f = .signum
  · subst hs
    obtain ⟨e, x, rfl, rfl, he⟩ := one rfl
    show (E.bin .sub (.bin .lt (.cast "Scalar" (.int 0 "")) e) (.bin .lt e (.cast "Scalar" (.int 0 "")))).value M S s = _
    rw [bin_value (bin_value hz he) (bin_value he hz)]
    simp only [Machine.bin, Std.meaning, hM.sign]
  · by_cases hf : f = .floor
    · subst hf
      obtain ⟨e, x, rfl, rfl, he⟩ := one rfl
      show (E.cast "std::int64_t" (.app (.atom "std::floor") [e])).value M S s = _
      rw [cast_value (p := .integral) (by rw [hS]; rfl) (cpp_call hS (f := "std::floor") (g := .floor) rfl h), hM.floor]
      rfl
    · have : cppStdE f l = .app (.atom (cppStd f)) l := by
        unfold cppStdE
        split
        · exact absurd rfl hs
        · exact absurd rfl hf
        · rfl
      rw [this]
      exact cpp_call hS (cmath_of hs) h

mutual
/-- The C++ expression has the value of the operation. -/
theorem cppE_value (hc : M.Computes I) (hM : M.Lawful) {span : Bool} (hS : S.T = .cpp span) {o : PyOptions} (h : Shows M S P vars s) :
    ∀ (t : Tree) {x : K}, t.Fine .cpp → t.Over S.T P → t.value S.T I (M.con S o) vars = some x → (t.cppE span).value M S s = some x
  | .var n, x, hf, ho, e => by rw [Tree.value] at e; exact h.number ho e
  | .arg n k, x, hf, ho, e => by
    rw [Tree.value] at e
    have : (Tree.arg n k).cppE span = .atom (S.T.argVar n (k = .matrix)) := by
      rw [hS, Tree.cppE]
      unfold cppArg Scoping.argVar
      cases span <;> simp
    rw [this]
    exact h.number ho e
  | .int n, x, hf, ho, e => by
    rw [Tree.value, I.int] at e
    cases e
    exact intE_value
  | .add l, x, hf, ho, e => by
    rw [Tree.value, Option.map_eq_some_iff] at e
    obtain ⟨xs, h1, rfl⟩ := e
    rw [I.add]
    exact fold_add (by rw [cppEs_eq]; simpa using hf.1) (cppEs_values hc hM hS h l hf.2.2 ho h1)
  | .mul l, x, hf, ho, e => by
    rw [Tree.value, Option.map_eq_some_iff] at e
    obtain ⟨xs, h1, rfl⟩ := e
    rw [I.mul]
    exact fold_mul (by rw [cppEs_eq]; simpa using hf.1) (cppEs_values hc hM hS h l hf.2.2 ho h1)
  | .std f l, x, hf, ho, e => by
    rw [Tree.value, Option.map_eq_some_iff] at e
    obtain ⟨xs, h1, rfl⟩ := e
    rw [hc.fn]
    exact cpp_std hM hS (by rw [cppEs_eq]; simpa using hf.1) (cppEs_values hc hM hS h l hf.2.1 ho h1)
  | .div p q, x, hf, ho, e => by
    rw [Tree.value] at e
    cases h1 : p.value S.T I (M.con S o) vars with
    | none => simp [h1] at e
    | some y =>
      cases h2 : q.value S.T I (M.con S o) vars with
      | none => simp [h1, h2] at e
      | some z =>
        rw [h1, h2] at e
        cases e
        rw [hc.div]
        exact bin_value (cppE_value hc hM hS h p hf.2.2.1 ho.1 h1) (cppE_value hc hM hS h q hf.2.2.2 ho.2 h2)
  | .cmp r p q, x, hf, ho, e => by
    rw [Tree.value] at e
    cases h1 : p.value S.T I (M.con S o) vars with
    | none => simp [h1] at e
    | some y =>
      cases h2 : q.value S.T I (M.con S o) vars with
      | none => simp [h1, h2] at e
      | some z =>
        rw [h1, h2] at e
        cases e
        rw [hc.cmp, ← bin_rel]
        exact bin_value (cppE_value hc hM hS h p hf.2.1 ho.1 h1) (cppE_value hc hM hS h q hf.2.2 ho.2 h2)
  | .cond r p q, x, hf, ho, e => by
    rw [Tree.value] at e
    cases h0 : r.value S.T I (M.con S o) vars with
    | none => simp [h0] at e
    | some w =>
      cases h1 : p.value S.T I (M.con S o) vars with
      | none => simp [h0, h1] at e
      | some y =>
        cases h2 : q.value S.T I (M.con S o) vars with
        | none => simp [h0, h1, h2] at e
        | some z =>
          rw [h0, h1, h2] at e
          cases e
          rw [hc.cond, Tree.cppE, E.value, cppE_value hc hM hS h r hf.1 ho.1 h0]
          simp only
          rw [cppE_value hc hM hS h p hf.2.1 ho.2.1 h1, cppE_value hc hM hS h q hf.2.2.1 ho.2.2 h2]
          split <;> rfl
  | .neg p, x, hf, ho, e => by
    rw [Tree.value, Option.map_eq_some_iff] at e
    obtain ⟨y, h1, rfl⟩ := e
    rw [I.neg, Tree.cppE, E.value, cppE_value hc hM hS h p hf.2 ho h1]
    rfl
  | .cast t p, x, hf, ho, e => by
    rw [Tree.value, Option.map_eq_some_iff] at e
    obtain ⟨y, h1, rfl⟩ := e
    rw [hc.cast]
    exact cast_value (by rw [hS]; cases t <;> rfl) (cppE_value hc hM hS h p hf ho h1)
  | .elem p i j, x, hf, ho, e => by
    cases p <;> simp only [Tree.value, reduceCtorEq] at e
    rename_i n k
    have ha : (Tree.arg n k).cppE span = .atom (S.T.argVar n (k = .matrix)) := by
      rw [hS, Tree.cppE]
      unfold cppArg Scoping.argVar
      cases span <;> simp
    rw [Tree.cppE, ha, E.value, (h.plain _ ho).2.1]
    rw [if_neg (by simp), if_pos (by rw [hS]; rfl)]
    exact h.element ho e
  | .float b d, x, _, ho, e => by
    rw [Tree.value] at e
    change (E.value M S ⟨[], [], none⟩ (Tree.text S.T o (.float b d))) = _ at e
    rw [hS] at e
    change (E.cast "Scalar" (floatE b d)).value M S _ = _ at e
    show (E.cast "Scalar" (floatE b d)).value M S s = _
    have hsc : find "Scalar" (numberTypes S.T.lang) = some .floating := by rw [hS]; rfl
    rw [E.value, hsc] at e ⊢
    simp only [Option.map_eq_some_iff] at e ⊢
    obtain ⟨y, hy, rfl⟩ := e
    exact ⟨y, floatE_value hy, rfl⟩
  | .bool b, x, hf, ho, e => by
    rw [Tree.value] at e
    change (E.value M S ⟨[], [], none⟩ (Tree.text S.T o (.bool b))) = _ at e
    rw [hS] at e
    exact atom_value e
  | .euler, x, hf, ho, e => by
    rw [Tree.value] at e
    change (E.value M S ⟨[], [], none⟩ (Tree.text S.T o .euler)) = _ at e
    rw [hS] at e
    change (E.cast "Scalar" (.atom "M_E")).value M S _ = _ at e
    show (E.cast "Scalar" (.atom "M_E")).value M S s = _
    have hsc : find "Scalar" (numberTypes S.T.lang) = some .floating := by rw [hS]; rfl
    rw [E.value, hsc] at e ⊢
    simp only [Option.map_eq_some_iff] at e ⊢
    obtain ⟨y, hy, rfl⟩ := e
    exact ⟨y, atom_value hy, rfl⟩
  | .pi, x, hf, ho, e => by
    rw [Tree.value] at e
    change (E.value M S ⟨[], [], none⟩ (Tree.text S.T o .pi)) = _ at e
    rw [hS] at e
    change (E.cast "Scalar" (.atom "M_PI")).value M S _ = _ at e
    show (E.cast "Scalar" (.atom "M_PI")).value M S s = _
    have hsc : find "Scalar" (numberTypes S.T.lang) = some .floating := by rw [hS]; rfl
    rw [E.value, hsc] at e ⊢
    simp only [Option.map_eq_some_iff] at e ⊢
    obtain ⟨y, hy, rfl⟩ := e
    exact ⟨y, atom_value hy, rfl⟩
  | .call _ _ _ _, x, hf, ho, e => by simp [Tree.value] at e
  | .copy _, x, hf, ho, e => by simp [Tree.value] at e
  | .field _ _, x, hf, ho, e => by simp [Tree.value] at e

theorem cppEs_values (hc : M.Computes I) (hM : M.Lawful) {span : Bool} (hS : S.T = .cpp span) {o : PyOptions} (h : Shows M S P vars s) :
    ∀ (l : List Tree) {xs : List K}, AllFine .cpp l → AllOver S.T P l → values S.T I (M.con S o) vars l = some xs → evals M S s (cppEs span l) = some xs
  | [], xs, hf, ho, e => e
  | t :: ts, xs, hf, ho, e => by
    rw [values] at e
    cases h1 : t.value S.T I (M.con S o) vars with
    | none => simp [h1] at e
    | some y =>
      cases h2 : values S.T I (M.con S o) vars ts with
      | none => simp [h1, h2] at e
      | some ys =>
        rw [h1, h2] at e
        cases e
        rw [cppEs, evals, cppE_value hc hM hS h t hf.1 ho.1 h1, cppEs_values hc hM hS h ts hf.2 ho.2 h2]
end

/-! ## Rust -/

theorem rustEs_eq : ∀ l : List Tree, rustEs l = l.map Tree.rustE
  | [] => rfl
  | t :: ts => by rw [rustEs, rustEs_eq ts]; rfl

theorem rust_method (hS : S.T = .rust) {m : String} {g : Fn} (hm : m ≠ "get") (hg : find m rustMethods = some g) {e : E} {l : List E} {x : K} {xs : List K}
    (he : e.value M S s = some x) (h : evals M S s l = some xs) : (E.app (.field e m) l).value M S s = some (M.fn g (x :: xs)) := by
  rw [E.value, if_pos hS, if_neg hm, hg, he, h]

theorem rust_std (hM : M.Lawful) (hS : S.T = .rust) {f : Std} {l : List E} {xs : List K} (ha : l.length = f.arity) (h : evals M S s l = some xs) :
    (rustStdE f l).value M S s = some (M.fn f.meaning xs) := by
  obtain ⟨e, l, rfl⟩ : ∃ e l', l = e :: l' := by
    cases l with
    | nil => cases f <;> simp [Std.arity] at ha
    | cons e l => exact ⟨e, l, rfl⟩
  rw [evals] at h
  cases he : e.value M S s with
  | none => simp [he] at h
  | some x =>
  cases hl : evals M S s l with
  | none => simp [he, hl] at h
  | some ys =>
  rw [he, hl] at h
  cases h
  have one : f.arity = 1 → l = [] ∧ ys = [] := by
    intro h1
    rw [h1] at ha
    have : l = [] := by simpa using ha
    subst this
    cases hl
    exact ⟨rfl, rfl⟩
  have hi : find "i64" (numberTypes S.T.lang) = some .integral := by rw [hS]; rfl
  have hz : (E.atom "0.0f64").value M S s = some 0 := by rw [E.value, hM.rustZero]
  by_cases hs : f = .signum
  · subst hs
    obtain ⟨rfl, rfl⟩ := one rfl
    show (E.bin .sub (.cast "i64" (.bin .lt (.atom "0.0f64") e)) (.cast "i64" (.bin .lt e (.atom "0.0f64")))).value M S s = _
    rw [bin_value (cast_value hi (bin_value hz he)) (cast_value hi (bin_value he hz))]
    simp only [Machine.bin, Std.meaning, hM.sign, hM.bool]
  · by_cases hf : f = .floor
    · subst hf
      obtain ⟨rfl, rfl⟩ := one rfl
      show (E.cast "i64" (.app (.field e "floor") [])).value M S s = _
      rw [cast_value hi (rust_method hS (m := "floor") (g := .floor) (by decide) rfl he hl), hM.floor]
      rfl
    · have : rustStdE f (e :: l) = .app (.field e (rustStd f)) l := by
        unfold rustStdE
        split
        · exact absurd rfl hs
        · exact absurd rfl hf
        · rfl
      rw [this]
      refine rust_method hS ?_ ?_ he hl
      · cases f <;> decide
      · cases f <;> first | rfl | exact absurd rfl hs

mutual
/-- The Rust expression has the value of the operation. -/
theorem rustE_value (hc : M.Computes I) (hM : M.Lawful) (hS : S.T = .rust) {o : PyOptions} (h : Shows M S P vars s) :
    ∀ (t : Tree) {x : K}, t.Fine .rust → t.Over S.T P → t.value S.T I (M.con S o) vars = some x → t.rustE.value M S s = some x
  | .var n, x, hf, ho, e => by rw [Tree.value] at e; exact h.number ho e
  | .arg n k, x, hf, ho, e => by
    rw [Tree.value] at e
    have : (Tree.arg n k).rustE = .atom (S.T.argVar n (k = .matrix)) := by rw [hS]; rfl
    rw [this]
    exact h.number ho e
  | .int n, x, hf, ho, e => by
    rw [Tree.value, I.int] at e
    cases e
    exact intE_value
  | .add l, x, hf, ho, e => by
    rw [Tree.value, Option.map_eq_some_iff] at e
    obtain ⟨xs, h1, rfl⟩ := e
    rw [I.add]
    exact fold_add (by rw [rustEs_eq]; simpa using hf.1) (rustEs_values hc hM hS h l hf.2.2 ho h1)
  | .mul l, x, hf, ho, e => by
    rw [Tree.value, Option.map_eq_some_iff] at e
    obtain ⟨xs, h1, rfl⟩ := e
    rw [I.mul]
    exact fold_mul (by rw [rustEs_eq]; simpa using hf.1) (rustEs_values hc hM hS h l hf.2.2 ho h1)
  | .std f l, x, hf, ho, e => by
    rw [Tree.value, Option.map_eq_some_iff] at e
    obtain ⟨xs, h1, rfl⟩ := e
    rw [hc.fn]
    exact rust_std hM hS (by rw [rustEs_eq]; simpa using hf.1) (rustEs_values hc hM hS h l hf.2.1 ho h1)
  | .div p q, x, hf, ho, e => by
    rw [Tree.value] at e
    cases h1 : p.value S.T I (M.con S o) vars with
    | none => simp [h1] at e
    | some y =>
      cases h2 : q.value S.T I (M.con S o) vars with
      | none => simp [h1, h2] at e
      | some z =>
        rw [h1, h2] at e
        cases e
        rw [hc.div]
        exact bin_value (rustE_value hc hM hS h p hf.2.2.1 ho.1 h1) (rustE_value hc hM hS h q hf.2.2.2 ho.2 h2)
  | .cmp r p q, x, hf, ho, e => by
    rw [Tree.value] at e
    cases h1 : p.value S.T I (M.con S o) vars with
    | none => simp [h1] at e
    | some y =>
      cases h2 : q.value S.T I (M.con S o) vars with
      | none => simp [h1, h2] at e
      | some z =>
        rw [h1, h2] at e
        cases e
        rw [hc.cmp, ← bin_rel]
        exact bin_value (rustE_value hc hM hS h p hf.2.1 ho.1 h1) (rustE_value hc hM hS h q hf.2.2 ho.2 h2)
  | .cond r p q, x, hf, ho, e => by
    rw [Tree.value] at e
    cases h0 : r.value S.T I (M.con S o) vars with
    | none => simp [h0] at e
    | some w =>
      cases h1 : p.value S.T I (M.con S o) vars with
      | none => simp [h0, h1] at e
      | some y =>
        cases h2 : q.value S.T I (M.con S o) vars with
        | none => simp [h0, h1, h2] at e
        | some z =>
          rw [h0, h1, h2] at e
          cases e
          rw [hc.cond, Tree.rustE, E.value, rustE_value hc hM hS h r hf.1 ho.1 h0]
          simp only
          rw [rustE_value hc hM hS h p hf.2.1 ho.2.1 h1, rustE_value hc hM hS h q hf.2.2.1 ho.2.2 h2]
          split <;> rfl
  | .neg p, x, hf, ho, e => by
    rw [Tree.value, Option.map_eq_some_iff] at e
    obtain ⟨y, h1, rfl⟩ := e
    rw [I.neg, Tree.rustE, E.value, rustE_value hc hM hS h p hf.2 ho h1]
    rfl
  | .cast t p, x, hf, ho, e => by
    rw [Tree.value, Option.map_eq_some_iff] at e
    obtain ⟨y, h1, rfl⟩ := e
    rw [hc.cast]
    exact cast_value (by rw [hS]; cases t <;> rfl) (rustE_value hc hM hS h p hf ho h1)
  | .elem p i j, x, hf, ho, e => by
    cases p <;> simp only [Tree.value, reduceCtorEq] at e
    rename_i n k
    have : (Tree.elem (.arg n k) i j).rustE = .app (.field (.atom (S.T.argVar n (k = .matrix))) "get") [.int i "", .int j ""] := by rw [hS]; rfl
    rw [this, E.value, if_pos hS, if_pos rfl]
    exact h.element ho e
  | .float b d, x, _, ho, e => by
    rw [Tree.value] at e
    change (E.value M S ⟨[], [], none⟩ (Tree.text S.T o (.float b d))) = _ at e
    rw [hS] at e
    exact floatE_value e
  | .bool b, x, _, ho, e => by
    rw [Tree.value] at e
    change (E.value M S ⟨[], [], none⟩ (Tree.text S.T o (.bool b))) = _ at e
    rw [hS] at e
    exact atom_value e
  | .euler, x, _, ho, e => by
    rw [Tree.value] at e
    change (E.value M S ⟨[], [], none⟩ (Tree.text S.T o (.euler))) = _ at e
    rw [hS] at e
    exact atom_value e
  | .pi, x, _, ho, e => by
    rw [Tree.value] at e
    change (E.value M S ⟨[], [], none⟩ (Tree.text S.T o (.pi))) = _ at e
    rw [hS] at e
    exact atom_value e
  | .call _ _ _ _, x, hf, ho, e => by simp [Tree.value] at e
  | .copy _, x, hf, ho, e => by simp [Tree.value] at e
  | .field _ _, x, hf, ho, e => by simp [Tree.value] at e

theorem rustEs_values (hc : M.Computes I) (hM : M.Lawful) (hS : S.T = .rust) {o : PyOptions} (h : Shows M S P vars s) :
    ∀ (l : List Tree) {xs : List K}, AllFine .rust l → AllOver S.T P l → values S.T I (M.con S o) vars l = some xs → evals M S s (rustEs l) = some xs
  | [], xs, hf, ho, e => e
  | t :: ts, xs, hf, ho, e => by
    rw [values] at e
    cases h1 : t.value S.T I (M.con S o) vars with
    | none => simp [h1] at e
    | some y =>
      cases h2 : values S.T I (M.con S o) vars ts with
      | none => simp [h1, h2] at e
      | some ys =>
        rw [h1, h2] at e
        cases e
        rw [rustEs, evals, rustE_value hc hM hS h t hf.1 ho.1 h1, rustEs_values hc hM hS h ts hf.2 ho.2 h2]
end

/-! ## Python -/

theorem pythonEs_eq (o : PyOptions) : ∀ l : List Tree, pythonEs o l = l.map (Tree.pythonE o)
  | [] => rfl
  | t :: ts => by rw [pythonEs, pythonEs_eq o ts]; rfl

theorem module_cases {o : PyOptions} (h : o.target ≠ .pytorch) : o.module = "np" ∨ o.module = "jnp" := by
  unfold PyOptions.module
  split
  · exact Or.inl rfl
  · rename_i h'; exact absurd h' h
  · exact Or.inr rfl

theorem py_cast {b : Bool} (hS : S.T = .python b) {o : PyOptions} (ho : o.target ≠ .pytorch) (hm : S.mod = o.module) {p : Prim} {e : E} {x : K}
    (h : e.value M S s = some x) : (pyCastE o p e).value M S s = some (M.cast p x) := by
  unfold pyCastE
  rw [if_neg ho, E.value]
  have hf : find (o.name (o.type p)) (inModule S.mod (numberTypes .python)) = some p := by
    rw [hm]
    unfold PyOptions.name PyOptions.type
    rcases module_cases ho with e | e <;> rw [e] <;> cases p <;> first | rfl | (cases o.wide <;> rfl)
  have hw : o.name (o.type p) ≠ S.mod ++ ".where" := by
    rw [hm]
    unfold PyOptions.name PyOptions.type
    rcases module_cases ho with e | e <;> rw [e] <;> cases p <;> first | decide | (cases o.wide <;> decide)
  have hl : S.isLibrary (o.name (o.type p)) = true := by unfold Setting.isLibrary; rw [hS]; simp [hf]
  rw [if_pos hl, evals, h]
  simp only [evals, Option.bind_some, Machine.call, hS]
  rw [if_neg hw, hf]

theorem py_literal {b : Bool} (hS : S.T = .python b) {o : PyOptions} (ho : o.target ≠ .pytorch) (hm : S.mod = o.module) {e : E} {x : K}
    (mono : ∀ {y : K}, e.value M S ⟨[], [], none⟩ = some y → e.value M S s = some y) (h : (pyLiteralE o e).value M S ⟨[], [], none⟩ = some x) :
    (pyLiteralE o e).value M S s = some x := by
  unfold pyLiteralE at h ⊢
  rw [if_neg ho] at h ⊢
  cases he : e.value M S ⟨[], [], none⟩ with
  | some y =>
    rw [py_cast hS ho hm he] at h
    rw [py_cast hS ho hm (mono he), h]
  | none =>
    exfalso
    unfold pyCastE at h
    rw [if_neg ho, E.value] at h
    split at h
    · simp [evals, he] at h
    · rw [if_neg (by rw [hS]; exact Lang.noConfusion)] at h; cases h

theorem py_where {b : Bool} (hS : S.T = .python b) {o : PyOptions} (hm : S.mod = o.module) {e1 e2 e3 : E} {x y z : K}
    (h1 : e1.value M S s = some x) (h2 : e2.value M S s = some y) (h3 : e3.value M S s = some z) :
    (E.app (.atom (o.name "where")) [e1, e2, e3]).value M S s = some (if M.truth x then y else z) := by
  rw [E.value]
  have hw : o.name "where" = S.mod ++ ".where" := by
    rw [hm]
    unfold PyOptions.name
    rw [String.append_assoc]
    rfl
  have hl : S.isLibrary (o.name "where") = true := by unfold Setting.isLibrary; rw [hS]; simp [hw]
  rw [if_pos hl]
  simp only [evals, h1, h2, h3, Option.bind_some, Machine.call, hS]
  rw [if_pos hw]

theorem py_std {b : Bool} (hS : S.T = .python b) {o : PyOptions} (ho : o.target ≠ .pytorch) (hm : S.mod = o.module) {f : Std} {l : List E} {xs : List K}
    (h : evals M S s l = some xs) : (E.app (.atom (o.name (pyStd f))) l).value M S s = some (M.fn f.meaning xs) := by
  rw [E.value]
  have hf : find (o.name (pyStd f)) (inModule S.mod numpyFunctions) = some f.meaning := by
    rw [hm]
    unfold PyOptions.name
    rcases module_cases ho with e | e <;> rw [e] <;> cases f <;> rfl
  have ht : find (o.name (pyStd f)) (inModule S.mod (numberTypes .python)) = none := by
    rw [hm]
    unfold PyOptions.name
    rcases module_cases ho with e | e <;> rw [e] <;> cases f <;> rfl
  have hw : o.name (pyStd f) ≠ S.mod ++ ".where" := by
    rw [hm]
    unfold PyOptions.name
    rcases module_cases ho with e | e <;> rw [e] <;> cases f <;> decide
  have hl : S.isLibrary (o.name (pyStd f)) = true := by unfold Setting.isLibrary; rw [hS]; simp [hf]
  rw [if_pos hl, h]
  simp only [Option.bind_some, Machine.call, hS]
  rw [if_neg hw, ht]
  simp only [hf, Option.map_some]

mutual
/-- The Python expression has the value of the operation. -/
theorem pythonE_value (hc : M.Computes I) (hM : M.Lawful) {b : Bool} (hS : S.T = .python b) {o : PyOptions} (ho' : o.target ≠ .pytorch) (hm : S.mod = o.module) (h : Shows M S P vars s) :
    ∀ (t : Tree) {x : K}, t.Fine .python → t.Over S.T P → t.value S.T I (M.con S o) vars = some x → (t.pythonE o).value M S s = some x
  | .var n, x, hf, ho, e => by rw [Tree.value] at e; exact h.number ho e
  | .arg n k, x, hf, ho, e => by
    rw [Tree.value] at e
    have : (Tree.arg n k).pythonE o = .atom (S.T.argVar n (k = .matrix)) := by rw [hS]; rfl
    rw [this]
    exact h.number ho e
  | .int n, x, hf, ho, e => by
    rw [Tree.value, I.int] at e
    cases e
    exact intE_value
  | .add l, x, hf, ho, e => by
    rw [Tree.value, Option.map_eq_some_iff] at e
    obtain ⟨xs, h1, rfl⟩ := e
    rw [I.add]
    exact fold_add (by rw [pythonEs_eq]; simpa using hf.1) (pythonEs_values hc hM hS ho' hm h l hf.2.2 ho h1)
  | .mul l, x, hf, ho, e => by
    rw [Tree.value, Option.map_eq_some_iff] at e
    obtain ⟨xs, h1, rfl⟩ := e
    rw [I.mul]
    exact fold_mul (by rw [pythonEs_eq]; simpa using hf.1) (pythonEs_values hc hM hS ho' hm h l hf.2.2 ho h1)
  | .std f l, x, hf, ho, e => by
    rw [Tree.value, Option.map_eq_some_iff] at e
    obtain ⟨xs, h1, rfl⟩ := e
    rw [hc.fn]
    exact py_std hS ho' hm (pythonEs_values hc hM hS ho' hm h l hf.2.1 ho h1)
  | .div p q, x, hf, ho, e => by
    rw [Tree.value] at e
    cases h1 : p.value S.T I (M.con S o) vars with
    | none => simp [h1] at e
    | some y =>
      cases h2 : q.value S.T I (M.con S o) vars with
      | none => simp [h1, h2] at e
      | some z =>
        rw [h1, h2] at e
        cases e
        rw [hc.div]
        exact bin_value (pythonE_value hc hM hS ho' hm h p hf.2.2.1 ho.1 h1) (pythonE_value hc hM hS ho' hm h q hf.2.2.2 ho.2 h2)
  | .cmp r p q, x, hf, ho, e => by
    rw [Tree.value] at e
    cases h1 : p.value S.T I (M.con S o) vars with
    | none => simp [h1] at e
    | some y =>
      cases h2 : q.value S.T I (M.con S o) vars with
      | none => simp [h1, h2] at e
      | some z =>
        rw [h1, h2] at e
        cases e
        rw [hc.cmp, ← bin_rel]
        exact bin_value (pythonE_value hc hM hS ho' hm h p hf.2.1 ho.1 h1) (pythonE_value hc hM hS ho' hm h q hf.2.2 ho.2 h2)
  | .cond r p q, x, hf, ho, e => by
    rw [Tree.value] at e
    cases h0 : r.value S.T I (M.con S o) vars with
    | none => simp [h0] at e
    | some w =>
      cases h1 : p.value S.T I (M.con S o) vars with
      | none => simp [h0, h1] at e
      | some y =>
        cases h2 : q.value S.T I (M.con S o) vars with
        | none => simp [h0, h1, h2] at e
        | some z =>
          rw [h0, h1, h2] at e
          cases e
          rw [hc.cond]
          exact py_where hS hm (pythonE_value hc hM hS ho' hm h r hf.1 ho.1 h0) (pythonE_value hc hM hS ho' hm h p hf.2.1 ho.2.1 h1)
            (pythonE_value hc hM hS ho' hm h q hf.2.2.1 ho.2.2 h2)
  | .neg p, x, hf, ho, e => by
    rw [Tree.value, Option.map_eq_some_iff] at e
    obtain ⟨y, h1, rfl⟩ := e
    rw [I.neg, Tree.pythonE, E.value, pythonE_value hc hM hS ho' hm h p hf.2 ho h1]
    rfl
  | .cast t p, x, hf, ho, e => by
    rw [Tree.value, Option.map_eq_some_iff] at e
    obtain ⟨y, h1, rfl⟩ := e
    rw [hc.cast]
    exact py_cast hS ho' hm (pythonE_value hc hM hS ho' hm h p hf ho h1)
  | .elem p i j, x, hf, ho, e => by
    cases p <;> simp only [Tree.value, reduceCtorEq] at e
    rename_i n k
    have : (Tree.elem (.arg n k) i j).pythonE o = .index (.atom (S.T.argVar n (k = .matrix))) [.int i "", .int j ""] := by rw [hS]; rfl
    rw [this, E.value, if_pos (by rw [hS]; rfl)]
    exact h.element ho e
  | .float b d, x, _, ho, e => by
    rw [Tree.value] at e
    change (E.value M S ⟨[], [], none⟩ (Tree.text S.T o (.float b d))) = _ at e
    rw [hS] at e
    exact py_literal hS ho' hm floatE_value e
  | .bool b, x, _, ho, e => by
    rw [Tree.value] at e
    change (E.value M S ⟨[], [], none⟩ (Tree.text S.T o (.bool b))) = _ at e
    rw [hS] at e
    exact atom_value e
  | .euler, x, _, ho, e => by
    rw [Tree.value] at e
    change (E.value M S ⟨[], [], none⟩ (Tree.text S.T o (.euler))) = _ at e
    rw [hS] at e
    exact py_literal hS ho' hm atom_value e
  | .pi, x, _, ho, e => by
    rw [Tree.value] at e
    change (E.value M S ⟨[], [], none⟩ (Tree.text S.T o (.pi))) = _ at e
    rw [hS] at e
    exact py_literal hS ho' hm atom_value e
  | .call _ _ _ _, x, hf, ho, e => by simp [Tree.value] at e
  | .copy _, x, hf, ho, e => by simp [Tree.value] at e
  | .field _ _, x, hf, ho, e => by simp [Tree.value] at e

theorem pythonEs_values (hc : M.Computes I) (hM : M.Lawful) {b : Bool} (hS : S.T = .python b) {o : PyOptions} (ho' : o.target ≠ .pytorch) (hm : S.mod = o.module) (h : Shows M S P vars s) :
    ∀ (l : List Tree) {xs : List K}, AllFine .python l → AllOver S.T P l → values S.T I (M.con S o) vars l = some xs → evals M S s (pythonEs o l) = some xs
  | [], xs, hf, ho, e => e
  | t :: ts, xs, hf, ho, e => by
    rw [values] at e
    cases h1 : t.value S.T I (M.con S o) vars with
    | none => simp [h1] at e
    | some y =>
      cases h2 : values S.T I (M.con S o) vars ts with
      | none => simp [h1, h2] at e
      | some ys =>
        rw [h1, h2] at e
        cases e
        rw [pythonEs, evals, pythonE_value hc hM hS ho' hm h t hf.1 ho.1 h1, pythonEs_values hc hM hS ho' hm h ts hf.2 ho.2 h2]
end

end Wf.Gen.Text
