import Verif.Sym.VariablesSpec
import Verif.Sym.OrderLemmas2
import Verif.Sym.SubstituteLemmas

/-!
# The search visits every part once
-/

namespace Wf.Sym

variable {F : Type} [DecidableEq F]

/-! ## Occurrences -/

mutual
theorem mem_parts {v : Expr F} : ∀ {e : Expr F}, v ∈ parts e ↔ Occurs v e
  | .node h as => by
    rw [parts, List.mem_cons]
    constructor
    · rintro (rfl | hv)
      · exact .here
      · obtain ⟨a, ha, hv⟩ := mem_partsL.1 hv
        exact .inside h as a ha hv
    · intro hv
      cases hv with
      | here => exact .inl rfl
      | inside _ _ a ha hv => exact .inr (mem_partsL.2 ⟨a, ha, hv⟩)
theorem mem_partsL {v : Expr F} : ∀ {as : List (Expr F)}, v ∈ partsL as ↔ ∃ a ∈ as, Occurs v a
  | [] => by simp [partsL]
  | a :: as => by rw [partsL, List.mem_append, mem_parts, mem_partsL]; simp
end

theorem Occurs.trans {a b c : Expr F} (h : Occurs a b) (h' : Occurs b c) : Occurs a c := by
  induction h' with
  | here => exact h
  | inside g as x hx _ ih => exact .inside g as x hx ih

mutual
/-- Number of nodes. -/
def weight : Expr F → Nat
  | .node _ as => weights as + 1
/-- Number of nodes of several expressions. -/
def weights : List (Expr F) → Nat
  | [] => 0
  | a :: as => weight a + weights as
end

omit [DecidableEq F] in
theorem weight_le_of_mem {a : Expr F} : ∀ {as : List (Expr F)}, a ∈ as → weight a ≤ weights as
  | b :: bs, h => by
    rw [weights]
    rcases List.mem_cons.1 h with rfl | h
    · omega
    · have := weight_le_of_mem h; omega

omit [DecidableEq F] in
theorem Occurs.weight_le {v e : Expr F} (h : Occurs v e) : weight v ≤ weight e := by
  induction h with
  | here => exact Nat.le_refl _
  | inside g as a ha _ ih => rw [weight]; have := weight_le_of_mem ha; omega

omit [DecidableEq F] in
theorem occurs_proper {v e : Expr F} : (∃ a ∈ e.args, Occurs v a) ↔ Occurs v e ∧ v ≠ e := by
  obtain ⟨h, as⟩ := e
  show (∃ a ∈ as, Occurs v a) ↔ _
  constructor
  · rintro ⟨a, ha, hv⟩
    refine ⟨.inside h as a ha hv, ?_⟩
    rintro rfl
    have h1 := hv.weight_le
    have h2 := weight_le_of_mem ha
    rw [weight] at h1
    omega
  · rintro ⟨hv, hne⟩
    cases hv with
    | here => exact absurd rfl hne
    | inside _ _ a ha hv => exact ⟨a, ha, hv⟩

/-! ## Lists without repetitions -/

/-- Adds an element that is not there yet. -/
def addNew (r : List (Expr F)) (x : Expr F) : List (Expr F) := if x ∈ r then r else r ++ [x]

theorem firsts_eq (l : List (Expr F)) : firsts l = l.foldl addNew [] := rfl

theorem mem_addNew {r : List (Expr F)} {x y : Expr F} : y ∈ addNew r x ↔ y ∈ r ∨ y = x := by
  unfold addNew
  by_cases h : x ∈ r
  · rw [if_pos h]; exact ⟨.inl, fun h' => h'.elim id fun e => e ▸ h⟩
  · rw [if_neg h]; simp

theorem mem_addAll {l r : List (Expr F)} {y : Expr F} : y ∈ l.foldl addNew r ↔ y ∈ r ∨ y ∈ l := by
  induction l generalizing r with
  | nil => simp
  | cons a l ih => rw [List.foldl_cons, ih, mem_addNew, List.mem_cons, or_assoc]

theorem addAll_of_mem {l r : List (Expr F)} (h : ∀ x ∈ l, x ∈ r) : l.foldl addNew r = r := by
  induction l with
  | nil => rfl
  | cons a l ih =>
    rw [List.foldl_cons, show addNew r a = r from if_pos (h a (by simp))]
    exact ih fun x hx => h x (by simp [hx])

theorem nodup_addAll {l r : List (Expr F)} (h : r.Nodup) : (l.foldl addNew r).Nodup := by
  induction l generalizing r with
  | nil => exact h
  | cons a l ih =>
    refine ih ?_
    unfold addNew
    by_cases ha : a ∈ r
    · rw [if_pos ha]; exact h
    · rw [if_neg ha, List.nodup_append]
      refine ⟨h, by simp, ?_⟩
      intro x hx y hy e
      rw [List.mem_singleton] at hy
      subst hy; subst e
      exact ha hx

theorem filter_addNew (p : Expr F → Bool) (r : List (Expr F)) (x : Expr F) :
    (addNew r x).filter p = if p x then addNew (r.filter p) x else r.filter p := by
  unfold addNew
  by_cases hx : x ∈ r
  · by_cases hp : p x = true
    · rw [if_pos hx, if_pos hp, if_pos (List.mem_filter.2 ⟨hx, hp⟩)]
    · rw [if_pos hx, if_neg hp]
  · by_cases hp : p x = true
    · rw [if_neg hx, if_pos hp, if_neg (fun h => hx (List.mem_filter.1 h).1), List.filter_append, List.filter_cons_of_pos hp]; rfl
    · rw [if_neg hx, if_neg hp, List.filter_append, List.filter_cons_of_neg hp]; simp

theorem filter_addAll (p : Expr F → Bool) (l r : List (Expr F)) : (l.foldl addNew r).filter p = (l.filter p).foldl addNew (r.filter p) := by
  induction l generalizing r with
  | nil => rfl
  | cons a l ih =>
    rw [List.foldl_cons, ih, filter_addNew]
    by_cases hp : p a = true
    · rw [if_pos hp, List.filter_cons_of_pos hp, List.foldl_cons]
    · rw [if_neg hp, List.filter_cons_of_neg hp]

/-! ## The search -/

variable [FnSem F]

/-- The scalar parts. -/
abbrev scalars (l : List (Expr F)) : List (Expr F) := l.filter fun x => x.head.isScalar

/-- The scalar parts of every seen expression of at most this size have been seen. -/
def ClosedTo (n : Nat) (V : List (Expr F)) : Prop := ∀ x ∈ V, weight x ≤ n → ∀ y ∈ scalars (parts x), y ∈ V

omit [FnSem F] in
theorem ClosedTo.mono {m n : Nat} {V : List (Expr F)} (h : ClosedTo n V) (hm : m ≤ n) : ClosedTo m V := fun x hx hw => h x hx (by omega)

omit [FnSem F] in
theorem ClosedTo.addParts {n : Nat} {V : List (Expr F)} (h : ClosedTo n V) (e : Expr F) : ClosedTo n ((scalars (parts e)).foldl addNew V) := by
  intro x hx hw y hy
  rcases mem_addAll.1 hx with hx | hx
  · exact mem_addAll.2 (.inl (h x hx hw y hy))
  · refine mem_addAll.2 (.inr ?_)
    have h1 := List.mem_filter.1 hx
    have h2 := List.mem_filter.1 hy
    exact List.mem_filter.2 ⟨mem_parts.2 ((mem_parts.1 h2.1).trans (mem_parts.1 h1.1)), h2.2⟩

/-- What the search has found are the seen expressions with the property. -/
def SearchSt.Ok (p : Expr F → Bool) (s : SearchSt F) : Prop := s.collected = s.visited.filter p

mutual
theorem search_ok (p : Expr F → Bool) : ∀ (e : Expr F) (s : SearchSt F), s.Ok p → ClosedTo (weight e) s.visited →
    (search p e s).Ok p ∧ (search p e s).visited = (scalars (parts e)).foldl addNew s.visited
  | .node h as, s, hs, hc => by
    rw [search, parts]
    by_cases hh : h.isScalar = true
    · rw [if_pos hh, show scalars (.node h as :: partsL as) = .node h as :: scalars (partsL as) from List.filter_cons_of_pos hh, List.foldl_cons]
      have key : s.visited.any (fun v => identical v (.node h as)) = true ↔ .node h as ∈ s.visited := by
        rw [List.any_eq_true]
        constructor
        · rintro ⟨v, hv, he⟩
          rw [← (identical_iff _ _).1 he]; exact hv
        · exact fun h => ⟨_, h, (identical_iff _ _).2 rfl⟩
      by_cases hm : Expr.node h as ∈ s.visited
      · rw [if_pos (key.2 hm), show addNew s.visited (.node h as) = s.visited from if_pos hm]
        refine ⟨hs, (addAll_of_mem fun x hx => hc _ hm (Nat.le_refl _) x ?_).symm⟩
        rw [parts]
        exact List.mem_filter.2 ⟨List.mem_cons_of_mem _ (List.mem_filter.1 hx).1, (List.mem_filter.1 hx).2⟩
      · rw [if_neg (fun h => hm (key.1 h)), show addNew s.visited (.node h as) = s.visited ++ [.node h as] from if_neg hm]
        have hadd : (s.add p (.node h as)).Ok p := by
          unfold SearchSt.Ok SearchSt.add
          by_cases hp : p (.node h as) = true
          · simp only [hp, if_true, List.filter_append, List.filter_cons_of_pos, List.filter_nil]; rw [← show s.collected = s.visited.filter p from hs]
          · simp only [hp, if_false, List.filter_append, List.filter_cons_of_neg, List.filter_nil, List.append_nil, not_false_eq_true, Bool.false_eq_true]
            exact hs
        refine searches_ok p as _ hadd ?_
        intro x hx hw y hy
        have hx : x ∈ s.visited ++ [.node h as] := hx
        show y ∈ s.visited ++ [.node h as]
        rcases List.mem_append.1 hx with hx | hx
        · exact List.mem_append_left _ (hc x hx (by rw [weight]; omega) y hy)
        · rw [List.mem_singleton] at hx
          subst hx
          rw [weight] at hw
          omega
    · rw [if_neg hh, show scalars (.node h as :: partsL as) = scalars (partsL as) from List.filter_cons_of_neg hh]
      exact searches_ok p as s hs (hc.mono (by rw [weight]; omega))
theorem searches_ok (p : Expr F → Bool) : ∀ (as : List (Expr F)) (s : SearchSt F), s.Ok p → ClosedTo (weights as) s.visited →
    (searches p as s).Ok p ∧ (searches p as s).visited = (scalars (partsL as)).foldl addNew s.visited
  | [], s, hs, _ => ⟨hs, rfl⟩
  | a :: as, s, hs, hc => by
    rw [searches, partsL, show scalars (parts a ++ partsL as) = scalars (parts a) ++ scalars (partsL as) from List.filter_append _ _, List.foldl_append]
    have h1 := search_ok p a s hs (hc.mono (by rw [weights]; omega))
    have h2 := searches_ok p as (search p a s) h1.1 (by
      rw [h1.2]
      exact (hc.addParts a).mono (by rw [weights]; omega))
    rw [h1.2] at h2
    exact h2
end

theorem getByPredicate_eq (p : Expr F → Bool) (e : Expr F) : getByPredicate p e = firsts ((partsL e.args).filter fun x => x.head.isScalar && p x) := by
  have h := searches_ok p e.args ⟨[], []⟩ rfl (fun x hx => by cases hx)
  unfold getByPredicate
  rw [h.1, h.2, filter_addAll, List.filter_filter, firsts_eq]
  congr 2
  funext x
  exact Bool.and_comm _ _

/-! ## Values -/

theorem headVal_agree {ρ ρ' : Env F} (hs : ρ.symfn = ρ'.symfn) {h : Head F} (hp : h.plain = true) (hv : h.isVar = false) (e : Expr F) (vs : List (Option ℂ)) :
    headVal ρ e h vs = headVal ρ' e h vs := by
  obtain ⟨l, f, o⟩ := ρ
  obtain ⟨l', f', o'⟩ := ρ'
  cases hs
  rcases vs with _ | ⟨a, _ | ⟨b, _ | ⟨c, _ | ⟨d, vs⟩⟩⟩⟩ <;> cases h <;> first | rfl | exact absurd hp Bool.false_ne_true | exact absurd hv.symm Bool.false_ne_true

mutual
/-- The value of a plain expression depends only on the variables that occur in it. -/
theorem eval_agree {ρ ρ' : Env F} (hs : ρ.symfn = ρ'.symfn) : ∀ e : Expr F, Plain e →
    (∀ v, v.head.isVar = true → Occurs v e → eval ρ v = eval ρ' v) → eval ρ e = eval ρ' e
  | .node h as, hp, hv => by
    by_cases hvar : h.isVar = true
    · exact hv _ hvar .here
    · obtain ⟨h1, h2⟩ := plain_node.1 hp
      rw [eval, eval, evals_agree hs as h2 (fun v h3 a ha h4 => hv v h3 (.inside h as a ha h4))]
      exact headVal_agree hs h1 (by simpa using hvar) _ _
theorem evals_agree {ρ ρ' : Env F} (hs : ρ.symfn = ρ'.symfn) : ∀ as : List (Expr F), (∀ a ∈ as, Plain a) →
    (∀ v, v.head.isVar = true → ∀ a ∈ as, Occurs v a → eval ρ v = eval ρ' v) → evals ρ as = evals ρ' as
  | [], _, _ => rfl
  | a :: as, hp, hv => by
    rw [evals, evals, eval_agree hs a (hp a (by simp)) (fun v h1 h2 => hv v h1 a (by simp) h2),
      evals_agree hs as (fun b hb => hp b (by simp [hb])) (fun v h1 b hb h2 => hv v h1 b (by simp [hb]) h2)]
end

end Wf.Sym
