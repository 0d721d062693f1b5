import Verif.Sym.SubstituteLemmas
import Verif.Sym.ValueProps

/-! # Properties C16, C17: substituting variables -/

namespace Wf.Sym
open Complex

variable {F : Type} [DecidableEq F] [FnSem F]

/-- **C17** (one variable). `e.subs(x, s)` has the value that `e` has when `x` has the value of `s`. -/
theorem C17_one_variable (ρ : Env F) (nK m n : Nat) (force : Bool) (e x s r : Expr F) (hx : x.head.isVar = true) (hs : Good s) (he : Plain e)
    (hg : Good e) (h : LawfulRunOn (· = ρ) nK (fun lic K => substAny K lic m n force e [(x, s)]) r) :
    Good r ∧ ∀ z, eval { ρ with leaf := fun h => if x = .node h [] then eval ρ s else ρ.leaf h } e = some z → eval ρ r = some z := by
  obtain ⟨lic, hl, hr⟩ := h.lawful
  have h1 : substSeq (ctors lic nK) lic m n e [(x, s)] = .ok r := by
    rw [← hr]; unfold substAny; rw [if_neg (by simp)]
  rw [substSeq, foldRes, substSingle_var (.inl hx)] at h1
  cases hv : substVars (ctors lic nK) m n [(x, s)] e with
  | error er => simp [hv] at h1
  | ok r' =>
    simp only [hv, foldRes, Except.ok.injEq] at h1
    subst h1
    obtain ⟨h2, h3⟩ := substVars_ok (ctors_sound lic ρ nK) (σ := [(x, s)]) (by simp [hx, hs]) n e r' he hg hv
    refine ⟨h2, fun z hz => h3 (hl ρ rfl) z ?_⟩
    rw [← hz]
    congr 1
    unfold Env.bindAll
    congr 1
    funext hd
    simp only [findKey, identical_iff]
    split_ifs <;> rfl

/-- **C17** (several variables at once). When the code substitutes several variables at once, the result has the value that the expression has
when every target variable has the value of its replacement. -/
theorem C17_many_variables (ρ : Env F) (nK m n : Nat) (force : Bool) (e r : Expr F) (pairs : List (Expr F × Expr F))
    (hs : ∀ p ∈ pairs, Good p.2) (he : Plain e) (hg : Good e) (hu : (unorderedPairs force [] pairs).isSome) (hn : 1 < pairs.length)
    (h : LawfulRunOn (· = ρ) nK (fun lic K => substAny K lic m n force e pairs) r) :
    Good r ∧ ∀ z, eval (ρ.bindAll pairs) e = some z → eval ρ r = some z := by
  obtain ⟨lic, hl, hr⟩ := h.lawful
  obtain ⟨τ, hτ⟩ := Option.isSome_iff_exists.1 hu
  obtain ⟨h1, h2⟩ := unorderedPairs_eq hτ
  rw [List.nil_append] at h1
  subst h1
  simp only [substAny, if_pos hn, hτ] at hr
  obtain ⟨h3, h4⟩ := substVars_ok (ctors_sound lic ρ nK) (fun p hp => ⟨var_or_opaque (.inr (h2 p hp)), hs p hp⟩) n e r he hg hr
  exact ⟨h3, fun z hz => h4 (hl ρ rfl) z hz⟩

/-- **C16** (partial). For a list of variable substitutions in which no replacement mentions the target of a later pair, `subs` with the whole
list and the pairs applied one after another both give the value that the expression has when every target variable has the value of its
replacement. (The power rules used have to be laws under the assignments that arise on the way.)

Missing: equality of the results themselves, and lists in which a replacement is the target of a later pair; both fail, see below. -/
theorem C16_values_partial (ρ : Env F) (nK m n : Nat) (force : Bool) (e r1 r2 : Expr F) (pairs : List (Expr F × Expr F))
    (ht : ∀ p ∈ pairs, p.1.head.isVar = true) (hs : ∀ p ∈ pairs, Good p.2 ∧ Plain p.2) (hc : NoChain pairs) (he : Plain e) (hg : Good e)
    (h1 : LawfulRunOn (fun ρ' => ∃ qs, qs <:+ pairs ∧ ρ' = ρ.bindSeq qs) nK (fun lic K => substAny K lic m n force e pairs) r1)
    (h2 : LawfulRunOn (fun ρ' => ∃ qs, qs <:+ pairs ∧ ρ' = ρ.bindSeq qs) nK (fun lic K => substSeq K lic m n e pairs) r2) :
    ∀ z, eval (ρ.bindAll pairs) e = some z → eval ρ r1 = some z ∧ eval ρ r2 = some z := by
  intro z hz
  have seq : ∀ r, LawfulRunOn (fun ρ' => ∃ qs, qs <:+ pairs ∧ ρ' = ρ.bindSeq qs) nK (fun lic K => substSeq K lic m n e pairs) r →
      eval ρ r = some z := by
    intro r h
    obtain ⟨lic, hl, hr⟩ := h.lawful
    refine (substSeq_ok pairs e r (fun p hp => ⟨.inl (ht p hp), hs p hp⟩) he hg (fun qs hq => hl _ ⟨qs, hq, rfl⟩) hr).2 z ?_
    rw [← hz]
    have hleaf := bindSeq_leaf ρ pairs (fun p hp => (hs p hp).2) hc
    exact eval_congr (ρ := ρ.bindAll pairs) (ρ' := ρ.bindSeq pairs) (by rw [bindSeq_symfn]; rfl) e
      (over_mono (fun h as hh => ⟨hh, fun _ _ => by rw [hleaf]⟩) he)
  refine ⟨?_, seq r2 h2⟩
  by_cases hu : (unorderedPairs force [] pairs).isSome ∧ 1 < pairs.length
  · refine (C17_many_variables ρ nK m n force e r1 pairs (fun p hp => (hs p hp).1) he hg hu.1 hu.2 ⟨h1.code, ?_⟩).2 z hz
    obtain ⟨lic, hl, hr⟩ := h1.lawful
    exact ⟨lic, fun ρ' h => hl ρ' ⟨[], List.nil_suffix, h⟩, hr⟩
  · have hsame : ∀ (lic : Lic F) (K : Ctors F), substAny K lic m n force e pairs = substSeq K lic m n e pairs := by
      intro lic K
      unfold substAny
      by_cases hl : 1 < pairs.length
      · rw [if_pos hl]
        cases ho : unorderedPairs force [] pairs with
        | none => rfl
        | some τ => exact absurd ⟨by rw [ho]; rfl, hl⟩ hu
      · rw [if_neg hl]
    refine seq r1 ⟨?_, ?_⟩
    · rw [← hsame]; exact h1.code
    · obtain ⟨lic, hl, hr⟩ := h1.lawful
      exact ⟨lic, hl, by rw [← hsame]; exact hr⟩

/-- The pairs are applied one after another, exactly, whenever the list is not one that the code substitutes at once. -/
theorem C16_in_order (K : Ctors F) (lic : Lic F) (m n : Nat) (force : Bool) (e : Expr F) (pairs : List (Expr F × Expr F))
    (h : unorderedPairs force [] pairs = none ∨ pairs.length ≤ 1) : substAny K lic m n force e pairs = substSeq K lic m n e pairs := by
  unfold substAny
  by_cases hl : 1 < pairs.length
  · rw [if_pos hl, h.resolve_right (by omega)]
  · rw [if_neg hl]

/-- The pairs are applied one after another, exactly, if the target of one pair is the target or the replacement of a later pair. -/
theorem C16_repeated_in_order (K : Ctors F) (lic : Lic F) (m n : Nat) (force : Bool) (e t s u r : Expr F) (as bs cs : List (Expr F × Expr F))
    (h : u = t ∨ r = t) :
    substAny K lic m n force e (as ++ (t, s) :: (bs ++ (u, r) :: cs)) = substSeq K lic m n e (as ++ (t, s) :: (bs ++ (u, r) :: cs)) := by
  refine C16_in_order K lic m n force e _ (.inl ?_)
  cases ho : unorderedPairs force [] (as ++ (t, s) :: (bs ++ (u, r) :: cs)) with
  | none => rfl
  | some τ =>
    obtain ⟨h1, h2⟩ := unorderedPairs_split ho (as ++ (t, s) :: bs) (u, r) cs (by simp)
    have h3 : findKey t ([] ++ (as ++ (t, s) :: bs)) ≠ none := findKey_of_mem (v := s) (by simp)
    rcases h with rfl | rfl
    · exact absurd h1 h3
    · exact absurd h2 h3

/-- `x.subs([(x, y), (y, z)])` is `y`, although one after another gives `z`. -/
theorem C16_chain (n : Nat) :
    substAny (ctors codeLic n) codeLic 1 1 false vx [(vx, vy), (vy, vz)] = .ok vy ∧
    substSeq (ctors codeLic n) codeLic 1 1 vx [(vx, vy), (vy, vz)] = .ok vz := by
  constructor
  · rfl
  · rfl

/-- `(x * y).subs([(x, 0), (y, zoo)])` is undefined, although one after another gives zero. -/
theorem C16_zero_times_infinity :
    substAny (ctors codeLic 6) codeLic 1 3 false (.mul [vx, vy]) [(vx, .int 0), (vy, .zoo)] = .ok .undef ∧
    substSeq (ctors codeLic 6) codeLic 1 3 (.mul [vx, vy]) [(vx, .int 0), (vy, .zoo)] = .ok (.int 0) := by
  constructor <;> decide +kernel

/-! ## Non-vacuity -/

/-- `(x * y + x ** 2).subs(x, z + 1)` -/
example : LawfulRunOn (· = valuesOf fun _ => 2) 6
    (fun lic K => substAny K lic 1 5 false (.add [.mul [vx, vy], .pow vx (.int 2)]) [(vx, .add [.int 1, vz])])
    (.add [.pow (.add [.int 1, vz]) (.int 2), .mul [vy, .add [.int 1, vz]]]) :=
  ⟨by decide +kernel, noLic, fun _ _ => noLic_true _, by decide +kernel⟩

theorem plain_var (n : String) (s : NSet) : Plain (.var n s : Expr F) := plain_node.2 ⟨rfl, by simp⟩

/-- `(x * y).subs([(x, 2), (y, z)])` is substituted at once; no replacement is a later target. -/
example : (unorderedPairs false [] [(vx, .int 2), (vy, vz)]).isSome ∧ NoChain [(vx, .int 2), (vy, vz)] ∧
    LawfulRunOn (fun _ => True) 6 (fun lic K => substAny K lic 1 5 false (.mul [vx, vy]) [(vx, .int 2), (vy, vz)]) (.mul [.int 2, vz]) ∧
    LawfulRunOn (fun _ => True) 6 (fun lic K => substSeq K lic 1 5 (.mul [vx, vy]) [(vx, .int 2), (vy, vz)]) (.mul [.int 2, vz]) := by
  refine ⟨by decide +kernel, ⟨?_, ⟨by simp, trivial⟩⟩, ⟨by decide +kernel, noLic, fun _ _ => noLic_true _, by decide +kernel⟩,
    by decide +kernel, noLic, fun _ _ => noLic_true _, by decide +kernel⟩
  intro q hq
  rw [List.mem_singleton] at hq
  subst hq
  exact over_node.2 ⟨by decide, by simp⟩

/-- `(x - y).subs([(x, y), (y, x)])`: the target `x` is the later replacement, so the two are not swapped and the result is zero. -/
example : substAny (ctors codeLic 6) codeLic 1 5 false (.add [vx, .mul [.int (-1), vy]]) [(vx, vy), (vy, vx)] = .ok (.int 0) := by
  decide +kernel

end Wf.Sym
