import Verif.Sym.ExprModel
import Verif.Ord.OrderingProps
import Verif.Num.RationalProps

namespace Wf.Sym

variable {F : Type}

/-- The laws of a strict total order on the elements satisfying `P`. -/
structure TotalOn {α : Type _} (P : α → Prop) (cmp : α → α → Ordering) : Prop where
  eq_iff : ∀ a b, P a → P b → (cmp a b = .eq ↔ a = b)
  swap : ∀ a b, P a → P b → cmp b a = (cmp a b).swap
  trans : ∀ a b c, P a → P b → P c → cmp a b = .lt → cmp b c = .lt → cmp a c = .lt

theorem TotalOn.of_total {α : Type _} {cmp : α → α → Ordering} (h : TotalOrder cmp) (P : α → Prop) : TotalOn P cmp where
  eq_iff a b _ _ := h.eq_iff a b
  swap a b _ _ := h.swap a b
  trans a b c _ _ _ := h.trans a b c

theorem TotalOn.comap {α β : Type _} {P : α → Prop} {Q : β → Prop} {cmp : β → β → Ordering} (h : TotalOn Q cmp) (f : α → β)
    (hf : ∀ a, P a → Q (f a)) (inj : ∀ a b, P a → P b → f a = f b → a = b) : TotalOn P (fun a b => cmp (f a) (f b)) where
  eq_iff a b ha hb := (h.eq_iff _ _ (hf a ha) (hf b hb)).trans ⟨inj a b ha hb, fun e => by rw [e]⟩
  swap a b ha hb := h.swap _ _ (hf a ha) (hf b hb)
  trans a b c ha hb hc := h.trans _ _ _ (hf a ha) (hf b hb) (hf c hc)

theorem TotalOn.chain {α β γ : Type _} {P : α → Prop} {Q : β → Prop} {R : γ → Prop} {f : β → β → Ordering} {g : γ → γ → Ordering}
    (hf : TotalOn Q f) (hg : TotalOn R g) (p : α → β) (q : α → γ) (hp : ∀ a, P a → Q (p a)) (hq : ∀ a, P a → R (q a))
    (inj : ∀ a b, P a → P b → p a = p b → q a = q b → a = b) : TotalOn P (fun a b => andThenBy (f (p a) (p b)) (g (q a) (q b))) where
  eq_iff a b ha hb := by
    have h1 := hf.eq_iff (p a) (p b) (hp a ha) (hp b hb)
    have h2 := hg.eq_iff (q a) (q b) (hq a ha) (hq b hb)
    unfold andThenBy
    constructor
    · intro h
      by_cases e : f (p a) (p b) = .eq
      · rw [if_neg (by simp [e])] at h; exact inj a b ha hb (h1.mp e) (h2.mp h)
      · rw [if_pos e] at h; exact absurd h e
    · rintro rfl
      simp [h1.mpr rfl, h2.mpr rfl]
  swap a b ha hb := by
    have h1 := hf.swap (p a) (p b) (hp a ha) (hp b hb)
    have h2 := hg.swap (q a) (q b) (hq a ha) (hq b hb)
    unfold andThenBy
    rw [h1, h2]
    cases f (p a) (p b) <;> simp [Ordering.swap]
  trans a b c ha hb hc := by
    have h1 := hf.trans (p a) (p b) (p c) (hp a ha) (hp b hb) (hp c hc)
    have h2 := hg.trans (q a) (q b) (q c) (hq a ha) (hq b hb) (hq c hc)
    have e1 := hf.eq_iff (p a) (p b) (hp a ha) (hp b hb)
    have e2 := hf.eq_iff (p b) (p c) (hp b hb) (hp c hc)
    unfold andThenBy
    intro hab hbc
    cases hf1 : f (p a) (p b) with
    | gt => rw [hf1] at hab; simp at hab
    | lt =>
      cases hf2 : f (p b) (p c) with
      | gt => rw [hf2] at hbc; simp at hbc
      | lt => simp [h1 hf1 hf2]
      | eq => rw [← e2.mp hf2]; simp [hf1]
    | eq =>
      have e := e1.mp hf1
      rw [e]
      cases hf2 : f (p b) (p c) with
      | gt => rw [hf2] at hbc; simp at hbc
      | lt => simp
      | eq => simp [hf1] at hab; simp [hf2] at hbc; simpa using h2 hab hbc

theorem natOrder_total : TotalOrder natOrder := C49_comparison_total (α := ℕ)

theorem intOrder_total : TotalOrder intOrder := by
  have h := C49_comparison_total (α := ℤ)
  have e : (orderByComparison (fun a b : ℤ => decide (a < b))) = intOrder := by
    funext a b; simp [orderByComparison, intOrder]
  rwa [e] at h

theorem strOrder_total : TotalOrder strOrder := by
  have h := TotalOn.comap (P := fun _ : String => True) (TotalOn.of_total (C49_sequences_total natOrder natOrder_total) (fun _ => True))
    (fun s : String => s.toList.map Char.toNat) (fun _ _ => trivial) (by
      intro a b _ _ hab
      have inj : Function.Injective Char.toNat := fun x y hxy => Char.toNat_inj.mp hxy
      exact String.ext_iff.mpr (List.map_injective_iff.mpr inj hab))
  exact ⟨fun a b => h.eq_iff a b trivial trivial, fun a b => h.swap a b trivial trivial,
    fun a b c => h.trans a b c trivial trivial trivial⟩

theorem ratCmp_total : TotalOn RatC.Canonical ratCmp := by
  have key : ∀ a b : RatC, a.Canonical → b.Canonical → ratCmp a b = compare a.val b.val := by
    intro a b ha hb
    have e1 : (0 : ℚ) < a.d := by exact_mod_cast ha.2.2.1
    have e2 : (0 : ℚ) < b.d := by exact_mod_cast hb.2.2.1
    have k1 : a.n * b.d < b.n * a.d ↔ a.val < b.val := by
      simp only [RatC.val]; rw [div_lt_div_iff₀ e1 e2]; exact_mod_cast Iff.rfl
    have k2 : b.n * a.d < a.n * b.d ↔ b.val < a.val := by
      simp only [RatC.val]; rw [div_lt_div_iff₀ e2 e1]; exact_mod_cast Iff.rfl
    unfold ratCmp intOrder
    rcases lt_trichotomy a.val b.val with h | h | h
    · rw [if_pos (k1.mpr h)]; exact (compare_lt_iff_lt.mpr h).symm
    · rw [if_neg (fun hh => absurd (k1.mp hh) (by simp [h])), if_neg (fun hh => absurd (k2.mp hh) (by simp [h])), h]; simp
    · rw [if_neg (fun hh => absurd (k1.mp hh) (not_lt.mpr h.le)), if_pos (k2.mpr h)]; exact (compare_gt_iff_gt.mpr h).symm
  constructor
  · intro a b ha hb
    rw [key a b ha hb, compare_eq_iff_eq]
    exact ⟨ha.ext hb, fun h => by rw [h]⟩
  · intro a b ha hb
    rw [key a b ha hb, key b a hb ha]
    rcases lt_trichotomy a.val b.val with h | h | h
    · rw [compare_lt_iff_lt.mpr h, compare_gt_iff_gt.mpr h]; rfl
    · rw [h]; simp
    · rw [compare_gt_iff_gt.mpr h, compare_lt_iff_lt.mpr h]; rfl
  · intro a b c ha hb hc
    rw [key a b ha hb, key b c hb hc, key a c ha hc]
    simp only [compare_lt_iff_lt]
    exact lt_trans

end Wf.Sym
