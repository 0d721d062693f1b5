import Verif.Sym.QuatReal
import Verif.Sym.SubstituteProps
import Verif.Sym.LowerOutput
import Verif.Sym.CseLemmas
import Verif.Sym.FunctionProps

/-!
# Replacing the private quaternion of a matrix of derivatives
-/

namespace Wf.Sym

open Geo

/-- The expression is the product of a constant and an element of the private quaternion. -/
structure LinE (e : Expr ℝ) (i : Nat) (k : ℚ) : Prop where
  plain : Plain e
  good : Good e
  val : ∀ (ρ : Env ℝ) z, eval ρ (own i) = some z → eval ρ e = some (k * z)

theorem good_own (i : Nat) : Good (own i : Expr ℝ) := good_varNode rfl rfl

theorem plain_own (i : Nat) : Plain (own i : Expr ℝ) := plain_node.2 ⟨rfl, by simp⟩

theorem linE_left {i : Nat} {c : Expr ℝ} {k : ℚ} (hp : Plain c) (hg : Good c) (hn : ∀ ρ, eval ρ c = some (k : ℂ)) : LinE (.mul [c, own i]) i k := by
  refine ⟨plain_node.2 ⟨rfl, ?_⟩, good_mul.2 ⟨⟨by simp, ?_⟩, ?_⟩, fun ρ z hz => ?_⟩
  · simp [hp, plain_own]
  · have : isNumeric (own i : Expr ℝ) = false := rfl
    cases hc : isNumeric c <;> simp [List.filter, hc, this]
  · simp [hg, good_own]
  · rw [eval_mul]
    simp [hn, hz, prodO]

theorem linE_right {i : Nat} {c : Expr ℝ} {k : ℚ} (hp : Plain c) (hg : Good c) (hn : ∀ ρ, eval ρ c = some (k : ℂ)) : LinE (.mul [own i, c]) i k := by
  refine ⟨plain_node.2 ⟨rfl, ?_⟩, good_mul.2 ⟨⟨by simp, ?_⟩, ?_⟩, fun ρ z hz => ?_⟩
  · simp [hp, plain_own]
  · have : isNumeric (own i : Expr ℝ) = false := rfl
    cases hc : isNumeric c <;> simp [List.filter, hc, this]
  · simp [hg, good_own]
  · rw [eval_mul]
    simp [hn, hz, prodO, mul_comm]

/-- Element `i` in storage order. -/
def elemOf (v : Quat ℂ) : Nat → ℂ
  | 0 => v.w
  | 1 => v.x
  | 2 => v.y
  | _ => v.z

def ownPairs (q : QuatE ℝ) : List (Expr ℝ × Expr ℝ) := [(own 0, q.w), (own 1, q.x), (own 2, q.y), (own 3, q.z)]

theorem substOwn_ok {ρ : Env ℝ} {lic : Lic ℝ} {nK m n : Nat} {q : QuatE ℝ} {v : Quat ℂ} (hq : q.Has ρ v)
    (hp : ∀ e ∈ [q.w, q.x, q.y, q.z], Plain e ∧ ∀ i < 4, Avoids (own i) e) (hl : ∀ qs, qs <:+ ownPairs q → lic.TrueAt (ρ.bindSeq qs))
    {J r : List (Expr ℝ)} {ks : List (Nat × ℚ)} (hJ : List.Forall₂ (fun e p => p.1 < 4 ∧ LinE e p.1 p.2) J ks)
    (h : substOwn (ctors lic nK) lic m n J q = .ok r) : List.Forall₂ (fun e p => Has ρ e (p.2 * elemOf v p.1)) r ks := by
  have hps : ∀ p ∈ ownPairs q, p.1.head.isVar = true ∧ Good p.2 ∧ Plain p.2 := by
    obtain ⟨g0, g1, g2, g3⟩ := hq.good
    simp only [List.mem_cons, List.not_mem_nil, or_false, forall_eq_or_imp, forall_eq] at hp
    obtain ⟨a0, a1, a2, a3⟩ := hp
    intro p hm
    simp only [ownPairs, List.mem_cons, List.not_mem_nil, or_false] at hm
    rcases hm with rfl | rfl | rfl | rfl
    · exact ⟨rfl, g0, a0.1⟩
    · exact ⟨rfl, g1, a1.1⟩
    · exact ⟨rfl, g2, a2.1⟩
    · exact ⟨rfl, g3, a3.1⟩
  have hc : NoChain (ownPairs q) := by
    simp only [List.mem_cons, List.not_mem_nil, or_false, forall_eq_or_imp, forall_eq] at hp
    obtain ⟨a0, a1, a2, a3⟩ := hp
    refine ⟨?_, ?_, ?_, ?_, trivial⟩ <;> intro p hm <;> simp only [List.mem_cons, List.not_mem_nil, or_false] at hm <;>
      first | (rcases hm with rfl | rfl | rfl <;> exact a0.2 _ (by decide)) | (rcases hm with rfl | rfl <;> exact a1.2 _ (by decide)) | (subst hm; exact a2.2 _ (by decide)) | exact hm.elim
  have hval : ∀ i, i < 4 → eval (ρ.bindSeq (ownPairs q)) (own i) = some (elemOf v i) := by
    intro i hi
    have hleaf := bindSeq_leaf ρ (ownPairs q) (fun p hm => (hps p hm).2.2) hc
    show eval _ (.node (.uniq i .real) []) = _
    rw [eval_var_node rfl, hleaf]
    have key : ∀ a b : Nat, identical (own a : Expr ℝ) (.node (.uniq b .real) []) = decide (a = b) := by
      intro a b
      rw [Bool.eq_iff_iff, identical_iff, decide_eq_true_eq]
      show (Expr.node (.uniq a .real) [] : Expr ℝ) = _ ↔ _
      simp
    simp only [Env.bindAll, ownPairs, findKey_cons, key]
    have : i = 0 ∨ i = 1 ∨ i = 2 ∨ i = 3 := by omega
    rcases this with rfl | rfl | rfl | rfl
    · exact hq.w
    · exact hq.x
    · exact hq.y
    · exact hq.z
  have hun : unorderedPairs true [] (ownPairs q) = none := by
    unfold ownPairs unorderedPairs
    rw [if_neg]
    simp [validUnordered, isVarOrElem, own, Expr.uniq, Expr.head]
  have hstep : ∀ (e : Expr ℝ) (p : Nat × ℚ), p.1 < 4 ∧ LinE e p.1 p.2 → ∀ b, substAny (ctors lic nK) lic m n true e (ownPairs q) = .ok b → Has ρ b ((p.2 : ℚ) * elemOf v p.1) := by
    intro e p hL b hb
    rw [C16_in_order _ _ _ _ _ _ _ (.inl hun)] at hb
    obtain ⟨h1, h2⟩ := substSeq_ok (ownPairs q) e b (fun p hm => ⟨.inl (hps p hm).1, (hps p hm).2⟩) hL.2.plain hL.2.good hl hb
    exact ⟨h1, h2 _ (hL.2.val _ _ (hval _ hL.1))⟩
  have hm : mapRes (fun e => substAny (ctors lic nK) lic m n true e (ownPairs q)) J = .ok r := h
  clear h
  induction hJ generalizing r with
  | nil => cases hm; exact .nil
  | cons h1 h2 ih =>
    rename_i a b as bs
    rw [mapRes] at hm
    cases hb : substAny (ctors lic nK) lic m n true a (ownPairs q) with
    | error er => simp [hb] at hm
    | ok x =>
      cases hs : mapRes (fun e => substAny (ctors lic nK) lic m n true e (ownPairs q)) as with
      | error er => simp [hb, hs] at hm
      | ok xs =>
        simp only [hb, hs] at hm
        cases hm
        exact .cons (hstep _ _ h1 _ hb) (ih hs)

end Wf.Sym
