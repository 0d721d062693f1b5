import Verif.Gen.FlowProps
import Verif.Gen.AstSpec

/-!
# Operands come before their consumers (used in proofs)
-/

namespace Wf.Gen

open Conv

variable {s : Conv} {Φ : Nat → Nat → Nat → Nat → Prop}

/-- Operands are in `A` or come earlier. -/
def Before (s : Conv) : (Nat → Prop) → List Nat → Prop
  | _, [] => True
  | A, v :: vs => (∀ a ∈ (s.node v).args, A a) ∧ Before s (fun a => A a ∨ a = v) vs

theorem Before.mono : ∀ (l : List Nat) {A B : Nat → Prop}, (∀ a, A a → B a) → Before s A l → Before s B l
  | [], _, _, _, _ => trivial
  | _ :: vs, _, _, h, hb => ⟨fun a ha => h a (hb.1 a ha), Before.mono vs (fun a => Or.imp (h a) id) hb.2⟩

theorem Before.append : ∀ (l l' : List Nat) {A : Nat → Prop}, Before s A l → Before s (fun a => A a ∨ a ∈ l) l' → Before s A (l ++ l')
  | [], l', A, _, h => Before.mono l' (fun a ha => ha.resolve_right (by simp)) h
  | v :: vs, l', A, h1, h2 => by
    refine ⟨h1.1, Before.append vs l' h1.2 (Before.mono l' (fun a ha => ?_) h2)⟩
    rcases ha with ha | ha
    · exact .inl (.inl ha)
    · rcases List.mem_cons.1 ha with ha | ha
      · exact .inl (.inr ha)
      · exact .inr ha

theorem OpsOk.before {P : Nat → Prop} : ∀ (l : List Nat) {A B : Nat → Prop}, OpsOk s P A l → (∀ a, A a → B a) →
    (∀ v, P v → ∀ a ∈ (s.node v).args, B a) → Before s B l
  | [], _, _, _, _, _ => trivial
  | v :: vs, A, B, h, hA, hP => by
    refine ⟨fun a ha => ?_, OpsOk.before vs h.2 (fun a => Or.imp (hA a) id) fun u hu a ha => .inl (hP u hu a ha)⟩
    have h1 := h.1
    by_cases hp : (s.node v).op = .phi
    · rw [if_pos hp] at h1; exact hP v h1 a ha
    · rw [if_neg hp] at h1; exact hA a (h1 a ha)

theorem Scoped.before (hΦ : ∀ c l r v, Φ c l r v → ∀ a ∈ (s.node v).args, a ∈ s.ops l ∨ a ∈ s.ops r) : ∀ (R : Reg) {A B P : Nat → Prop}, Scoped s Φ A P R →
    (∀ a, A a → B a) → (∀ v, P v → ∀ a ∈ (s.node v).args, B a) → Before s B (R.blocks.flatMap s.ops)
  | .last b, A, B, P, h, hA, hP => by
    simp only [Reg.blocks, List.flatMap_cons, List.flatMap_nil, List.append_nil]
    exact OpsOk.before _ h hA hP
  | .ite b l r rest, A, B, P, h, hA, hP => by
    simp only [Scoped] at h
    obtain ⟨ho, c, _, hl, hr, hrest⟩ := h
    simp only [Reg.blocks, List.flatMap_cons, List.flatMap_append]
    have hsub : ∀ a, A a ∨ a ∈ s.ops b → B a ∨ a ∈ s.ops b := fun a => Or.imp (hA a) id
    refine Before.append _ _ (OpsOk.before _ ho hA hP) (Before.append _ _ (Before.append _ _ ?_ ?_) ?_)
    · exact Scoped.before hΦ l hl hsub fun _ h => h.elim
    · exact Scoped.before hΦ r hr (fun a ha => .inl (hsub a ha)) fun _ h => h.elim
    · refine Scoped.before hΦ rest hrest (fun a ha => .inl (hsub a ha)) fun v hv a ha => .inr ?_
      rw [List.mem_append, List.mem_flatMap, List.mem_flatMap]
      rcases hΦ _ _ _ v hv a ha with h | h
      · exact .inl ⟨_, l.exit_mem, h⟩
      · exact .inr ⟨_, r.exit_mem, h⟩
  | .opt b k l rest, A, B, P, h, hA, hP => by
    simp only [Scoped] at h
    obtain ⟨ho, c, _, _, hl, hrest⟩ := h
    simp only [Reg.blocks, List.flatMap_cons, List.flatMap_append]
    have hsub : ∀ a, A a ∨ a ∈ s.ops b → B a ∨ a ∈ s.ops b := fun a => Or.imp (hA a) id
    refine Before.append _ _ (OpsOk.before _ ho hA hP) (Before.append _ _ ?_ ?_)
    · exact Scoped.before hΦ l hl hsub fun _ h => h.elim
    · exact Scoped.before hΦ rest hrest (fun a ha => .inl (hsub a ha)) fun _ h => h.elim

theorem Before.split : ∀ {L : List Nat} {A : Nat → Prop}, Before s A L → ∀ l1 v l2, L = l1 ++ v :: l2 → ∀ a ∈ (s.node v).args, A a ∨ a ∈ l1
  | [], _, _, l1, v, l2, e, _, _ => by cases l1 <;> cases e
  | u :: us, A, h, l1, v, l2, e, a, ha => by
    cases l1 with
    | nil =>
      cases e
      exact .inl (h.1 a ha)
    | cons w l1 =>
      cases e
      rcases Before.split h.2 l1 v l2 rfl a ha with (h | h) | h
      · exact .inl h
      · exact .inr (by rw [h]; exact List.mem_cons_self)
      · exact .inr (List.mem_cons_of_mem _ h)

/-- The place of a value in the program. -/
def rank (s : Conv) (W : Reg) (v : Nat) : Nat := (W.blocks.flatMap s.ops).idxOf v

theorem Before.idxOf {L : List Nat} (h : Before s (fun _ => False) L) (hn : L.Nodup) {v : Nat} (hv : v ∈ L) {a : Nat} (ha : a ∈ (s.node v).args) :
    a ∈ L ∧ L.idxOf a < L.idxOf v := by
  obtain ⟨l1, l2, e⟩ := List.append_of_mem hv
  have h1 := (h.split l1 v l2 e a ha).resolve_left fun h => h
  have hv1 : v ∉ l1 := by
    rw [e, List.nodup_append] at hn
    exact fun h => hn.2.2 v h v List.mem_cons_self rfl
  rw [e]
  refine ⟨List.mem_append_left _ h1, ?_⟩
  rw [List.idxOf_append_of_mem h1, List.idxOf_append_of_notMem hv1]
  have := List.idxOf_lt_length_iff.2 h1
  omega

end Wf.Gen
