import Verif.Gen.FlowRegion

/-!
# Values are computed before they are used, on every path (used in proofs)
-/

namespace Wf.Gen

/-- The operands of every operation are available (`A`) or come earlier; phi functions satisfy `P`. -/
def OpsOk (s : Conv) (P : Nat → Prop) : (Nat → Prop) → List Nat → Prop
  | _, [] => True
  | A, v :: vs => (if (s.node v).op = .phi then P v else ∀ a ∈ (s.node v).args, A a) ∧ OpsOk s P (fun a => A a ∨ a = v) vs

/-- The block ends in a jump that tests `c`. -/
def Jumps (s : Conv) (b c : Nat) : Prop := ∃ u, (s.ops b).getLast? = some u ∧ s.node u = ⟨.jump, [c]⟩

/-- The same for the whole tree. `Φ c l r v`: the phi function `v` is right after a branch on `c` whose arms end in the blocks `l` and `r`. -/
def Scoped (s : Conv) (Φ : Nat → Nat → Nat → Nat → Prop) : (Nat → Prop) → (Nat → Prop) → Reg → Prop
  | A, P, .last b => OpsOk s P A (s.ops b)
  | A, P, .ite b l r rest => OpsOk s P A (s.ops b) ∧ ∃ c, Jumps s b c ∧
      Scoped s Φ (fun a => A a ∨ a ∈ s.ops b) (fun _ => False) l ∧ Scoped s Φ (fun a => A a ∨ a ∈ s.ops b) (fun _ => False) r ∧
      Scoped s Φ (fun a => A a ∨ a ∈ s.ops b) (Φ c l.exit r.exit) rest
  | A, P, .opt b key l rest => OpsOk s P A (s.ops b) ∧ ∃ c, Jumps s b c ∧ (c ∈ s.ops b ∧ s.node c = ⟨.outputRequired key, []⟩) ∧
      Scoped s Φ (fun a => A a ∨ a ∈ s.ops b) (fun _ => False) l ∧ Scoped s Φ (fun a => A a ∨ a ∈ s.ops b) (fun _ => False) rest

variable {s s' : Conv} {Φ Φ' : Nat → Nat → Nat → Nat → Prop}

theorem opsOk_transfer {P P' X : Nat → Prop} : ∀ (l : List Nat) (A A' : Nat → Prop),
    (∀ v ∈ l, s'.node v = s.node v ∧ ∀ a ∈ (s.node v).args, (s.node v).op ≠ .phi → ¬ X a) → (∀ a, A a → X a ∨ A' a) → (∀ v ∈ l, P v → P' v) →
    OpsOk s P A l → OpsOk s' P' A' l
  | [], _, _, _, _, _, _ => trivial
  | v :: vs, A, A', hn, hA, hP, h => by
    obtain ⟨h1, h2⟩ := h
    refine ⟨?_, opsOk_transfer vs _ _ (fun u hu => hn u (List.mem_cons_of_mem _ hu)) ?_ (fun u hu => hP u (List.mem_cons_of_mem _ hu)) h2⟩
    · rw [(hn v List.mem_cons_self).1]
      by_cases hp : (s.node v).op = .phi
      · rw [if_pos hp] at h1 ⊢
        exact hP v List.mem_cons_self h1
      · rw [if_neg hp] at h1 ⊢
        intro a ha
        exact (hA a (h1 a ha)).resolve_left ((hn v List.mem_cons_self).2 a ha hp)
    · rintro a (ha | ha)
      · rcases hA a ha with h | h
        · exact .inl h
        · exact .inr (.inl h)
      · exact .inr (.inr ha)

theorem jumps_transfer {b c : Nat} (ho : s'.ops b = s.ops b) (hn : ∀ v ∈ s.ops b, s'.node v = s.node v) (h : Jumps s b c) : Jumps s' b c := by
  obtain ⟨u, h1, h2⟩ := h
  refine ⟨u, by rw [ho]; exact h1, ?_⟩
  rw [hn u (List.mem_of_getLast? h1)]
  exact h2

/-- What a change outside a region must leave alone. -/
def Untouched (s s' : Conv) (X : Nat → Prop) (bs : List Nat) : Prop :=
  ∀ b ∈ bs, s'.ops b = s.ops b ∧ ∀ v ∈ s.ops b, s'.node v = s.node v ∧ ∀ a ∈ (s.node v).args, (s.node v).op ≠ .phi → ¬ X a

theorem Untouched.mono {X : Nat → Prop} {bs bs' : List Nat} (h : Untouched s s' X bs) (hb : ∀ b ∈ bs', b ∈ bs) : Untouched s s' X bs' :=
  fun b hm => h b (hb b hm)

theorem scoped_transfer {X : Nat → Prop} (hΦ : ∀ c l r v, Φ c l r v → Φ' c l r v) : ∀ (R : Reg) (A A' P P' : Nat → Prop),
    Untouched s s' X R.blocks → (∀ a, A a → X a ∨ A' a) → (∀ v, P v → P' v) → Scoped s Φ A P R → Scoped s' Φ' A' P' R
  | .last b, A, A', P, P', hu, hA, hP, h => by
    obtain ⟨h1, h2⟩ := hu b (by simp [Reg.blocks])
    simp only [Scoped] at h ⊢
    rw [h1]
    exact opsOk_transfer _ _ _ h2 hA (fun v _ => hP v) h
  | .ite b l r rest, A, A', P, P', hu, hA, hP, h => by
    obtain ⟨h1, h2⟩ := hu b (by simp [Reg.blocks])
    have hul : Untouched s s' X l.blocks := hu.mono fun b hb => by simp [Reg.blocks, hb]
    have hur : Untouched s s' X r.blocks := hu.mono fun b hb => by simp [Reg.blocks, hb]
    have hurest : Untouched s s' X rest.blocks := hu.mono fun b hb => by simp [Reg.blocks, hb]
    have hA2 : ∀ a, (A a ∨ a ∈ s.ops b) → X a ∨ (A' a ∨ a ∈ s'.ops b) := by
      rintro a (ha | ha)
      · rcases hA a ha with h | h
        · exact .inl h
        · exact .inr (.inl h)
      · exact .inr (.inr (by rw [h1]; exact ha))
    simp only [Scoped] at h ⊢
    obtain ⟨ho, c, hj, hl, hr, hrest⟩ := h
    refine ⟨?_, c, jumps_transfer h1 (fun v hv => (h2 v hv).1) hj, ?_, ?_, ?_⟩
    · rw [h1]; exact opsOk_transfer _ _ _ h2 hA (fun v _ => hP v) ho
    · exact scoped_transfer hΦ l _ _ _ _ hul hA2 (fun _ h => h) hl
    · exact scoped_transfer hΦ r _ _ _ _ hur hA2 (fun _ h => h) hr
    · exact scoped_transfer hΦ rest _ _ _ _ hurest hA2 (fun v h => hΦ _ _ _ v h) hrest
  | .opt b k l rest, A, A', P, P', hu, hA, hP, h => by
    obtain ⟨h1, h2⟩ := hu b (by simp [Reg.blocks])
    have hul : Untouched s s' X l.blocks := hu.mono fun b hb => by simp [Reg.blocks, hb]
    have hurest : Untouched s s' X rest.blocks := hu.mono fun b hb => by simp [Reg.blocks, hb]
    have hA2 : ∀ a, (A a ∨ a ∈ s.ops b) → X a ∨ (A' a ∨ a ∈ s'.ops b) := by
      rintro a (ha | ha)
      · rcases hA a ha with h | h
        · exact .inl h
        · exact .inr (.inl h)
      · exact .inr (.inr (by rw [h1]; exact ha))
    simp only [Scoped] at h ⊢
    obtain ⟨ho, c, hj, hc, hl, hrest⟩ := h
    refine ⟨?_, c, jumps_transfer h1 (fun v hv => (h2 v hv).1) hj, ⟨by rw [h1]; exact hc.1, by rw [(h2 c hc.1).1]; exact hc.2⟩, ?_, ?_⟩
    · rw [h1]; exact opsOk_transfer _ _ _ h2 hA (fun v _ => hP v) ho
    · exact scoped_transfer hΦ l _ _ _ _ hul hA2 (fun _ h => h) hl
    · exact scoped_transfer hΦ rest _ _ _ _ hurest hA2 (fun _ h => h) hrest

/-- Changes inside a piece. -/
theorem scoped_plug {X : Nat → Prop} (hΦ : ∀ c l r v, Φ c l r v → Φ' c l r v) : ∀ (fs : List Frame) (R R' : Reg) (A A' : Nat → Prop),
    Untouched s s' X (ctxBlocks fs) → (∀ a, A a → X a ∨ A' a) → R'.exit = R.exit →
    (∀ B B' : Nat → Prop, (∀ a, A a → B a) → (∀ a, A' a → B' a) → (∀ a, B a → X a ∨ B' a) →
      Scoped s Φ B (fun _ => False) R → Scoped s' Φ' B' (fun _ => False) R') →
    Scoped s Φ A (fun _ => False) (plug fs R) → Scoped s' Φ' A' (fun _ => False) (plug fs R')
  | [], R, R', A, A', _, hA, _, hR, h => hR A A' (fun _ h => h) (fun _ h => h) hA h
  | f :: fs, R, R', A, A', hu, hA, he, hR, h => by
    have huf : Untouched s s' X f.blocks := hu.mono fun b hb => List.mem_append_left _ hb
    refine scoped_plug hΦ fs (f.put R) (f.put R') A A' (hu.mono fun b hb => List.mem_append_right _ hb) hA (exit_put he) ?_ h
    intro B B' hB hB' hBB hs
    have hA2 : ∀ b, s'.ops b = s.ops b → ∀ a, (B a ∨ a ∈ s.ops b) → X a ∨ (B' a ∨ a ∈ s'.ops b) := by
      rintro b h1 a (ha | ha)
      · rcases hBB a ha with h | h
        · exact .inl h
        · exact .inr (.inl h)
      · exact .inr (.inr (by rw [h1]; exact ha))
    cases f with
    | left b r rest =>
      obtain ⟨h1, h2⟩ := huf b (by simp [Frame.blocks])
      have hur : Untouched s s' X r.blocks := huf.mono fun b hb => by simp [Frame.blocks, hb]
      have hurest : Untouched s s' X rest.blocks := huf.mono fun b hb => by simp [Frame.blocks, hb]
      simp only [Frame.put, Scoped] at hs ⊢
      obtain ⟨ho, c, hj, hl, hr, hrest⟩ := hs
      refine ⟨?_, c, jumps_transfer h1 (fun v hv => (h2 v hv).1) hj, ?_, ?_, ?_⟩
      · rw [h1]; exact opsOk_transfer _ _ _ h2 hBB (fun v _ h => h) ho
      · exact hR _ _ (fun a h => .inl (hB a h)) (fun a h => .inl (hB' a h)) (hA2 b h1) hl
      · exact scoped_transfer hΦ r _ _ _ _ hur (hA2 b h1) (fun _ h => h) hr
      · refine scoped_transfer hΦ rest _ _ _ _ hurest (hA2 b h1) (fun v h => ?_) hrest
        rw [he]; exact hΦ _ _ _ v h
    | right b l rest =>
      obtain ⟨h1, h2⟩ := huf b (by simp [Frame.blocks])
      have hur : Untouched s s' X l.blocks := huf.mono fun b hb => by simp [Frame.blocks, hb]
      have hurest : Untouched s s' X rest.blocks := huf.mono fun b hb => by simp [Frame.blocks, hb]
      simp only [Frame.put, Scoped] at hs ⊢
      obtain ⟨ho, c, hj, hl, hr, hrest⟩ := hs
      refine ⟨?_, c, jumps_transfer h1 (fun v hv => (h2 v hv).1) hj, ?_, ?_, ?_⟩
      · rw [h1]; exact opsOk_transfer _ _ _ h2 hBB (fun v _ h => h) ho
      · exact scoped_transfer hΦ l _ _ _ _ hur (hA2 b h1) (fun _ h => h) hl
      · exact hR _ _ (fun a h => .inl (hB a h)) (fun a h => .inl (hB' a h)) (hA2 b h1) hr
      · refine scoped_transfer hΦ rest _ _ _ _ hurest (hA2 b h1) (fun v h => ?_) hrest
        rw [he]; exact hΦ _ _ _ v h
    | arm b k rest =>
      obtain ⟨h1, h2⟩ := huf b (by simp [Frame.blocks])
      have hurest : Untouched s s' X rest.blocks := huf.mono fun b hb => by simp [Frame.blocks, hb]
      simp only [Frame.put, Scoped] at hs ⊢
      obtain ⟨ho, c, hj, hc, hl, hrest⟩ := hs
      refine ⟨?_, c, jumps_transfer h1 (fun v hv => (h2 v hv).1) hj, ⟨by rw [h1]; exact hc.1, by rw [(h2 c hc.1).1]; exact hc.2⟩, ?_, ?_⟩
      · rw [h1]; exact opsOk_transfer _ _ _ h2 hBB (fun v _ h => h) ho
      · exact hR _ _ (fun a h => .inl (hB a h)) (fun a h => .inl (hB' a h)) (hA2 b h1) hl
      · exact scoped_transfer hΦ rest _ _ _ _ hurest (hA2 b h1) (fun _ h => h) hrest

/-- The blocks of a region after its entry. -/
def Reg.tail : Reg → List Nat
  | .last _ => []
  | .ite _ l r rest => l.blocks ++ r.blocks ++ rest.blocks
  | .opt _ _ l rest => l.blocks ++ rest.blocks

theorem Reg.blocks_eq (R : Reg) : R.blocks = R.entry :: R.tail := by cases R <;> rfl

/-- New operations at the front of the entry. -/
theorem scoped_front {A A' P P' : Nat → Prop} {X : List Nat}
    (hΦ : ∀ c l r v, Φ c l r v → Φ' c l r v) (R : Reg) (ho : s'.ops R.entry = X ++ s.ops R.entry)
    (hne : ∀ b ∈ R.tail, s'.ops b = s.ops b) (hn : ∀ b ∈ R.blocks, ∀ v ∈ s.ops b, s'.node v = s.node v)
    (hX : OpsOk s' P' A' X) (hA : ∀ a, A a → A' a ∨ a ∈ X) (hP : ∀ v, P v → P' v) (h : Scoped s Φ A P R) : Scoped s' Φ' A' P' R := by
  have hentry : ∀ (X : List Nat) (A A' : Nat → Prop) (l : List Nat), (∀ v ∈ l, s'.node v = s.node v) → OpsOk s' P' A' X → (∀ a, A a → A' a ∨ a ∈ X) →
      OpsOk s P A l → OpsOk s' P' A' (X ++ l) := by
    intro X
    induction X with
    | nil =>
      intro A A' l hl _ hA h
      refine opsOk_transfer (X := fun _ => False) l A A' (fun v hv => ⟨hl v hv, fun _ _ _ h => h⟩) (fun a ha => .inr ?_) (fun v _ => hP v) h
      simpa using hA a ha
    | cons x X ih =>
      intro A A' l hl hX hA h
      refine ⟨hX.1, ih A _ l hl hX.2 (fun a ha => ?_) h⟩
      rcases hA a ha with h | h
      · exact .inl (.inl h)
      · rcases List.mem_cons.1 h with h | h
        · exact .inl (.inr h)
        · exact .inr h
  have hunt : Untouched s s' (fun _ => False) R.tail := fun b hb =>
    ⟨hne b hb, fun v hv => ⟨hn b (by rw [R.blocks_eq]; exact List.mem_cons_of_mem _ hb) v hv, fun _ _ _ h => h⟩⟩
  have hjump : ∀ c, Jumps s R.entry c → Jumps s' R.entry c := by
    rintro c ⟨u, h1, h2⟩
    refine ⟨u, ?_, ?_⟩
    · rw [ho, List.getLast?_append, h1]; rfl
    · rw [hn _ R.entry_mem u (List.mem_of_getLast? h1)]; exact h2
  have hA2 : ∀ a, (A a ∨ a ∈ s.ops R.entry) → False ∨ (A' a ∨ a ∈ s'.ops R.entry) := by
    rw [ho]
    rintro a (ha | ha)
    · rcases hA a ha with h | h
      · exact .inr (.inl h)
      · exact .inr (.inr (List.mem_append_left _ h))
    · exact .inr (.inr (List.mem_append_right _ ha))
  have hmem : ∀ c ∈ s.ops R.entry, c ∈ s'.ops R.entry := fun c hc => by rw [ho]; exact List.mem_append_right _ hc
  have hOps : OpsOk s P A (s.ops R.entry) → OpsOk s' P' A' (s'.ops R.entry) := fun h => by
    rw [ho]
    exact hentry X A A' _ (hn _ R.entry_mem) hX hA h
  cases R with
  | last b => exact hOps h
  | ite b l r rest =>
    simp only [Scoped] at h ⊢
    obtain ⟨h0, c, hj, hl, hr, hrest⟩ := h
    refine ⟨hOps h0, c, hjump c hj, ?_, ?_, ?_⟩
    · exact scoped_transfer hΦ l _ _ _ _ (hunt.mono fun b hb => by simp [Reg.tail, hb]) hA2 (fun _ h => h) hl
    · exact scoped_transfer hΦ r _ _ _ _ (hunt.mono fun b hb => by simp [Reg.tail, hb]) hA2 (fun _ h => h) hr
    · exact scoped_transfer hΦ rest _ _ _ _ (hunt.mono fun b hb => by simp [Reg.tail, hb]) hA2 (fun v h => hΦ _ _ _ v h) hrest
  | opt b k l rest =>
    simp only [Scoped] at h ⊢
    obtain ⟨h0, c, hj, hc, hl, hrest⟩ := h
    refine ⟨hOps h0, c, hjump c hj, ⟨hmem c hc.1, by rw [hn b (by simp [Reg.blocks]) c hc.1]; exact hc.2⟩, ?_, ?_⟩
    · exact scoped_transfer hΦ l _ _ _ _ (hunt.mono fun b hb => by simp [Reg.tail, hb]) hA2 (fun _ h => h) hl
    · exact scoped_transfer hΦ rest _ _ _ _ (hunt.mono fun b hb => by simp [Reg.tail, hb]) hA2 (fun _ h => h) hrest

end Wf.Gen
