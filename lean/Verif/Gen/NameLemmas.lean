import Verif.Gen.NameSpec
import Mathlib.Tactic.IntervalCases

/-!
# Lemmas for C57: names of temporaries, variables with names, values of expressions
-/

namespace Wf.Gen.Text

/-! ## Names of temporaries -/

theorem ofDigitChars_zeros (k : Nat) (l : List Char) : Nat.ofDigitChars 10 (List.replicate k '0' ++ l) 0 = Nat.ofDigitChars 10 l 0 := by
  induction k with
  | zero => rfl
  | succ k ih => rw [List.replicate_succ, List.cons_append, Nat.ofDigitChars_cons]; exact ih

theorem tempName_injective {w a b : Nat} (h : tempName w a = tempName w b) : a = b := by
  unfold tempName at h
  have h := String.ofList_inj.1 h
  have h := congrArg (fun l => Nat.ofDigitChars 10 l 0) (List.cons.inj h).2
  simp only [ofDigitChars_zeros, Nat.ofDigitChars_ten_toDigits] at h
  exact h

theorem tempName_like (w n : Nat) : LikeTemporary (tempName w n) := by
  refine ⟨_, ?_, ?_, rfl⟩
  · have := Nat.toDigits_ne_nil (n := n) (b := 10)
    simp [this]
  · intro c hc
    rw [List.mem_append] at hc
    rcases hc with hc | hc
    · rw [List.eq_of_mem_replicate hc]; rfl
    · exact Nat.isDigit_of_mem_toDigits (by omega) (by omega) hc

/-! ## Variables -/

section
variable {V α : Type}

/-- The names of variables. -/
def names (vars : List (String × α)) : List String := vars.map (·.1)

theorem find_isSome {n : String} : ∀ {vars : List (String × α)}, (find n vars).isSome = true ↔ n ∈ names vars
  | [] => by simp [find, names]
  | p :: vars => by
    rw [find, names, List.map_cons, List.mem_cons]
    by_cases h : p.1 = n
    · simp [h]
    · rw [if_neg h, find_isSome]
      simp [names, Ne.symm h]

theorem find_none {n : String} {vars : List (String × α)} : find n vars = none ↔ n ∉ names vars := by
  rw [← find_isSome]
  cases find n vars <;> simp

theorem names_put {n : String} {c : α} : ∀ {vars : List (String × α)}, names (put n c vars) = names vars
  | [] => rfl
  | p :: vars => by
    rw [put]
    by_cases h : p.1 = n
    · rw [if_pos h]; simp [names, h]
    · rw [if_neg h]
      simp only [names, List.map_cons]
      exact congrArg _ names_put

theorem find_put {n : String} {c : α} : ∀ {vars : List (String × α)}, n ∈ names vars → find n (put n c vars) = some c
  | [], h => by cases h
  | p :: vars, h => by
    rw [put]
    by_cases e : p.1 = n
    · rw [if_pos e]; simp [find]
    · rw [if_neg e, find, if_neg e]
      refine find_put ?_
      rw [names, List.map_cons, List.mem_cons] at h
      exact h.resolve_left (Ne.symm e)

theorem find_put_ne {n n' : String} {c : α} (hne : n' ≠ n) : ∀ {vars : List (String × α)}, find n' (put n c vars) = find n' vars
  | [] => rfl
  | p :: vars => by
    rw [put]
    by_cases e : p.1 = n
    · rw [if_pos e, find, if_neg (Ne.symm hne), find, if_neg (by rw [e]; exact Ne.symm hne)]
    · rw [if_neg e, find, find, find_put_ne hne]

theorem find_append {n : String} {b : List (String × α)} : ∀ {a : List (String × α)}, n ∉ names a → find n (a ++ b) = find n b
  | [], _ => rfl
  | p :: a, h => by
    rw [names, List.map_cons, List.mem_cons, not_or] at h
    rw [List.cons_append, find, if_neg (Ne.symm h.1)]
    exact find_append h.2

theorem find_mem : ∀ {vars : List (String × α)}, (names vars).Nodup → ∀ {p}, p ∈ vars → find p.1 vars = some p.2
  | q :: vars, h, p, hp => by
    rw [names, List.map_cons, List.nodup_cons] at h
    rcases List.mem_cons.1 hp with rfl | hp
    · simp [find]
    · rw [find, if_neg ?_]
      · exact find_mem h.2 hp
      · intro e
        exact h.1 (e ▸ List.mem_map_of_mem hp)

theorem mem_of_find {n : String} {c : α} : ∀ {vars : List (String × α)}, find n vars = some c → (n, c) ∈ vars
  | p :: vars, h => by
    rw [find] at h
    by_cases e : p.1 = n
    · rw [if_pos e] at h
      cases h
      exact List.mem_cons.2 (.inl (by rw [← e]))
    · rw [if_neg e] at h
      exact List.mem_cons_of_mem _ (mem_of_find h)

/-! ## Values of expressions -/

/-- The cell can be read. -/
def Cell.readable : Cell V → Bool
  | .num _ => true
  | .mat _ _ _ => true
  | _ => false

variable [Arith V] {T : Scoping} {I : Interp V} {con : Tree → Option V}

/-- The cells of `a` that can be read are the ones of `b`. -/
def Extends (a b : Vars V) : Prop := ∀ n c, find n a = some c → c.readable = true → find n b = some c

theorem Extends.number {a b : Vars V} (h : Extends a b) {n : String} {x : V} (e : (find n a).bind Cell.number = some x) : (find n b).bind Cell.number = some x := by
  rw [Option.bind_eq_some_iff] at e
  obtain ⟨c, hc, hx⟩ := e
  cases c with
  | num y => rw [h n _ hc rfl]; exact hx
  | _ => cases hx

theorem Extends.element {a b : Vars V} (h : Extends a b) {n : String} {i j : Nat} {x : V} (e : (find n a).bind (Cell.element i j) = some x) :
    (find n b).bind (Cell.element i j) = some x := by
  rw [Option.bind_eq_some_iff] at e
  obtain ⟨c, hc, hx⟩ := e
  cases c with
  | mat r c l => rw [h n _ hc rfl]; exact hx
  | _ => cases hx

mutual
theorem Tree.value_mono {a b : Vars V} (h : Extends a b) : ∀ (t : Tree) {x : V}, t.value T I con a = some x → t.value T I con b = some x
  | .var n, x, e => by rw [Tree.value] at e ⊢; exact h.number e
  | .arg n k, x, e => by rw [Tree.value] at e ⊢; exact h.number e
  | .int n, x, e => by rw [Tree.value] at e ⊢; exact e
  | .add l, x, e => by
    rw [Tree.value, Option.map_eq_some_iff] at e ⊢
    obtain ⟨xs, h1, h2⟩ := e
    exact ⟨xs, values_mono h l h1, h2⟩
  | .mul l, x, e => by
    rw [Tree.value, Option.map_eq_some_iff] at e ⊢
    obtain ⟨xs, h1, h2⟩ := e
    exact ⟨xs, values_mono h l h1, h2⟩
  | .std f l, x, e => by
    rw [Tree.value, Option.map_eq_some_iff] at e ⊢
    obtain ⟨xs, h1, h2⟩ := e
    exact ⟨xs, values_mono h l h1, h2⟩
  | .div p q, x, e => by
    rw [Tree.value] at e ⊢
    cases h1 : p.value T I con a with
    | none => simp [h1] at e
    | some y =>
      cases h2 : q.value T I con a with
      | none => simp [h1, h2] at e
      | some z => rw [h1, h2] at e; rw [p.value_mono h h1, q.value_mono h h2]; exact e
  | .cmp r p q, x, e => by
    rw [Tree.value] at e ⊢
    cases h1 : p.value T I con a with
    | none => simp [h1] at e
    | some y =>
      cases h2 : q.value T I con a with
      | none => simp [h1, h2] at e
      | some z => rw [h1, h2] at e; rw [p.value_mono h h1, q.value_mono h h2]; exact e
  | .cond r p q, x, e => by
    rw [Tree.value] at e ⊢
    cases h0 : r.value T I con a with
    | none => simp [h0] at e
    | some w =>
      cases h1 : p.value T I con a with
      | none => simp [h0, h1] at e
      | some y =>
        cases h2 : q.value T I con a with
        | none => simp [h0, h1, h2] at e
        | some z => rw [h0, h1, h2] at e; rw [r.value_mono h h0, p.value_mono h h1, q.value_mono h h2]; exact e
  | .neg p, x, e => by
    rw [Tree.value, Option.map_eq_some_iff] at e ⊢
    obtain ⟨y, h1, h2⟩ := e
    exact ⟨y, p.value_mono h h1, h2⟩
  | .cast t p, x, e => by
    rw [Tree.value, Option.map_eq_some_iff] at e ⊢
    obtain ⟨y, h1, h2⟩ := e
    exact ⟨y, p.value_mono h h1, h2⟩
  | .elem p i j, x, e => by
    cases p <;> simp only [Tree.value, reduceCtorEq] at e ⊢
    exact h.element e
  | .float _ _, x, e => by rw [Tree.value] at e ⊢; exact e
  | .bool _, x, e => by rw [Tree.value] at e ⊢; exact e
  | .euler, x, e => by rw [Tree.value] at e ⊢; exact e
  | .pi, x, e => by rw [Tree.value] at e ⊢; exact e
  | .call _ _ _ _, x, e => by simp [Tree.value] at e
  | .copy _, x, e => by simp [Tree.value] at e
  | .field _ _, x, e => by simp [Tree.value] at e

theorem values_mono {a b : Vars V} (h : Extends a b) : ∀ (l : List Tree) {xs : List V}, values T I con a l = some xs → values T I con b l = some xs
  | [], xs, e => e
  | t :: ts, xs, e => by
    rw [values] at e ⊢
    cases h1 : t.value T I con a with
    | none => simp [h1] at e
    | some y =>
      cases h2 : values T I con a ts with
      | none => simp [h1, h2] at e
      | some ys => rw [h1, h2] at e; rw [t.value_mono h h1, values_mono h ts h2]; exact e
end

theorem primOf_number {t : Nat} {p : Prim} (h : primOf t = some p) : p.number = t := by
  unfold primOf at h
  split at h <;> cases h <;> rfl

theorem relOf_number {t : Nat} {p : Rel} (h : relOf t = some p) : p.number = t := by
  unfold relOf at h
  split at h <;> cases h <;> rfl

theorem stdOf_number {n : Nat} {f : Std} (h : stdOf n = some f) : f.number = n := by
  have hn : n < 21 := by
    unfold stdOf at h
    obtain ⟨hn, _⟩ := List.getElem?_eq_some_iff.1 h
    simpa using hn
  interval_cases n <;> (cases h; rfl)

/-- The values that the operations need are there. -/
structure Sees (T : Scoping) (N : Naming) (I : Interp V) (con : Tree → Option V) (vars : Nat → Option (Option V)) (env : Vars V) : Prop where
  temps : ∀ v x, vars v = some (some x) → find (tempName N.width v) env = some (.num x)
  leaf : ∀ k t, N.leaf k = some t → t.value T I con env = some (I.f (.load (.other k)) [])

theorem opTree_value {N : Naming} {env : Vars V} (hl : ∀ k t, N.leaf k = some t → t.value T I con env = some (I.f (.load (.other k)) [])) {op : Op} {ts : List Tree} {xs : List V}
    {t : Tree} (h : opTree N op ts = some t) (hx : values T I con env ts = some xs) : t.value T I con env = some (I.f op xs) := by
  unfold opTree at h
  split at h
  · cases h; rw [Tree.value, hx]; rfl
  · cases h; rw [Tree.value, hx]; rfl
  · cases h
    rename_i a
    simp only [values] at hx
    cases h1 : a.value T I con env with
    | none => simp [h1] at hx
    | some x => rw [h1] at hx; cases hx; rw [Tree.value, h1]; rfl
  · cases h
    rename_i a b
    simp only [values] at hx
    cases h1 : a.value T I con env with
    | none => simp [h1] at hx
    | some x =>
      cases h2 : b.value T I con env with
      | none => simp [h1, h2] at hx
      | some y => rw [h1, h2] at hx; cases hx; rw [Tree.value, h1, h2]
  · cases h
    rename_i c a b
    simp only [values] at hx
    cases h0 : c.value T I con env with
    | none => simp [h0] at hx
    | some z =>
      cases h1 : a.value T I con env with
      | none => simp [h0, h1] at hx
      | some x =>
        cases h2 : b.value T I con env with
        | none => simp [h0, h1, h2] at hx
        | some y => rw [h0, h1, h2] at hx; cases hx; rw [Tree.value, h0, h1, h2]
  · cases h; cases hx; rw [Tree.value]
  · cases hx; exact hl _ _ h
  · rename_i t' a
    rw [Option.map_eq_some_iff] at h
    obtain ⟨p, hp, rfl⟩ := h
    simp only [values] at hx
    cases h1 : a.value T I con env with
    | none => simp [h1] at hx
    | some x => rw [h1] at hx; cases hx; rw [Tree.value, h1, primOf_number hp]; rfl
  · rename_i r a b
    rw [Option.map_eq_some_iff] at h
    obtain ⟨p, hp, rfl⟩ := h
    simp only [values] at hx
    cases h1 : a.value T I con env with
    | none => simp [h1] at hx
    | some x =>
      cases h2 : b.value T I con env with
      | none => simp [h1, h2] at hx
      | some y => rw [h1, h2] at hx; cases hx; rw [Tree.value, h1, h2, relOf_number hp]
  · rename_i f
    rw [Option.map_eq_some_iff] at h
    obtain ⟨p, hp, rfl⟩ := h
    rw [Tree.value, hx, stdOf_number hp]; rfl
  · cases h

mutual
/-- An expression with names has the value of the expression. -/
theorem exprTree_value {N : Naming} {vars : Nat → Option (Option V)} {env : Vars V} (hs : Sees T N I con vars env) :
    ∀ (e : AExpr) {t : Tree} {x : V}, exprTree N e = some t → e.eval I vars = some x → t.value T I con env = some x
  | .ref v, t, x, h, hx => by
    rw [exprTree] at h
    cases h
    rw [AExpr.eval] at hx
    rw [Tree.value, hs.temps v x (by
      cases hv : vars v with
      | none => simp [hv] at hx
      | some y => rw [hv] at hx; exact congrArg some hx)]
    rfl
  | .app op args, t, x, h, hx => by
    rw [exprTree, Option.bind_eq_some_iff] at h
    obtain ⟨ts, hts, ht⟩ := h
    rw [AExpr.eval, Option.map_eq_some_iff] at hx
    obtain ⟨xs, hxs, rfl⟩ := hx
    exact opTree_value hs.leaf ht (exprTrees_values hs args hts hxs)

theorem exprTrees_values {N : Naming} {vars : Nat → Option (Option V)} {env : Vars V} (hs : Sees T N I con vars env) :
    ∀ (l : List AExpr) {ts : List Tree} {xs : List V}, exprTrees N l = some ts → evalAll I vars l = some xs → values T I con env ts = some xs
  | [], ts, xs, h, hx => by cases h; cases hx; rfl
  | e :: es, ts, xs, h, hx => by
    rw [exprTrees] at h
    rw [evalAll] at hx
    cases h1 : exprTree N e with
    | none => simp [h1] at h
    | some t =>
      cases h2 : exprTrees N es with
      | none => simp [h1, h2] at h
      | some ts' =>
        cases h3 : e.eval I vars with
        | none => simp [h3] at hx
        | some y =>
          cases h4 : evalAll I vars es with
          | none => simp [h3, h4] at hx
          | some ys =>
            rw [h1, h2] at h
            rw [h3, h4] at hx
            cases h
            cases hx
            rw [values, exprTree_value hs e h1 h3, exprTrees_values hs es h2 h4]
end

/-! ## Running a structured program -/

variable {truth : V → Bool}

mutual
/-- Outputs and visible variables stay. -/
theorem run_keeps : ∀ (s : Stmt) {m m' : Store V}, s.run I truth m = some m' → m.out <+: m'.out ∧ ∀ v, (m.vars v).isSome = true → (m'.vars v).isSome = true
  | .decl v e, m, m', h => by
    rw [Stmt.run] at h
    split at h
    · cases h
    split at h
    · cases h
      refine ⟨List.prefix_refl _, fun u hu => ?_⟩
      simp only [updateAt]
      split <;> simp_all
    · cases h
  | .declare v, m, m', h => by
    rw [Stmt.run] at h
    split at h
    · cases h
    cases h
    refine ⟨List.prefix_refl _, fun u hu => ?_⟩
    simp only [updateAt]
    split <;> simp_all
  | .assign v e, m, m', h => by
    rw [Stmt.run] at h
    split at h
    · split at h
      · cases h
        refine ⟨List.prefix_refl _, fun u hu => ?_⟩
        simp only [updateAt]
        split <;> simp_all
      · cases h
    · cases h
  | .output key e, m, m', h => by
    rw [Stmt.run] at h
    split at h
    · cases h
      exact ⟨List.prefix_append _ _, fun _ hu => hu⟩
    · cases h
  | .ret key e, m, m', h => by
    rw [Stmt.run] at h
    split at h
    · cases h
      exact ⟨List.prefix_append _ _, fun _ hu => hu⟩
    · cases h
  | .branch c t e, m, m', h => by
    rw [Stmt.run] at h
    cases hc : c.eval I m.vars with
    | none => simp [hc] at h
    | some x =>
      simp only [hc] at h
      have key : ∀ {ss : List Stmt} (_ : ∀ {m m' : Store V}, runAll I truth ss m = some m' → m.out <+: m'.out ∧ ∀ v, (m.vars v).isSome = true → (m'.vars v).isSome = true)
          (_ : (match runAll I truth ss m with | some m' => some (m.leave m') | none => none) = some m'), m.out <+: m'.out ∧
          ∀ v, (m.vars v).isSome = true → (m'.vars v).isSome = true := by
        intro ss ih h
        cases hr : runAll I truth ss m with
        | none => rw [hr] at h; cases h
        | some m1 =>
          rw [hr] at h
          cases h
          obtain ⟨h1, h2⟩ := ih hr
          refine ⟨h1, fun v hv => ?_⟩
          simp only [Store.leave, hv, if_true]
          exact h2 v hv
      by_cases ht : truth x = true
      · simp only [ht, if_true] at h
        exact key (runAll_keeps t) h
      · simp only [ht] at h
        exact key (runAll_keeps e) h
  | .optional key t, m, m', h => by
    rw [Stmt.run] at h
    split at h
    · cases hr : runAll I truth t m with
      | none => rw [hr] at h; cases h
      | some m1 =>
        rw [hr] at h
        cases h
        obtain ⟨h1, h2⟩ := runAll_keeps t hr
        refine ⟨h1, fun v hv => ?_⟩
        simp only [Store.leave, hv, if_true]
        exact h2 v hv
    · cases h
      exact ⟨List.prefix_refl _, fun _ hu => hu⟩

theorem runAll_keeps : ∀ (ss : List Stmt) {m m' : Store V}, runAll I truth ss m = some m' →
    m.out <+: m'.out ∧ ∀ v, (m.vars v).isSome = true → (m'.vars v).isSome = true
  | [], m, m', h => by cases h; exact ⟨List.prefix_refl _, fun _ hu => hu⟩
  | s :: ss, m, m', h => by
    rw [runAll] at h
    split at h
    · cases h; exact ⟨List.prefix_refl _, fun _ hu => hu⟩
    · cases hr : s.run I truth m with
      | none => rw [hr] at h; cases h
      | some m1 =>
        rw [hr] at h
        obtain ⟨h1, h2⟩ := run_keeps s hr
        obtain ⟨h3, h4⟩ := runAll_keeps ss h
        exact ⟨h1.trans h3, fun v hv => h4 v (h2 v hv)⟩
end

end

end Wf.Gen.Text
