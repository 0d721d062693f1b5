import Verif.Gen.FlowOutputs

/-!
# Operations needed in one arm only are done in that arm only (used in proofs)
-/

namespace Wf.Gen

open Conv

variable {g : Graph} {usage : Nat → Usage} {ternaries : Bool} {s : Conv} {W : Reg}

/-- The pieces of the tree. -/
def Reg.subs : Reg → List Reg
  | .last b => [.last b]
  | .ite b l r rest => .ite b l r rest :: (l.subs ++ r.subs ++ rest.subs)
  | .opt b k l rest => .opt b k l rest :: (l.subs ++ rest.subs)

theorem Reg.subs_blocks {Q : Reg} {b : Nat} : ∀ R : Reg, Q ∈ R.subs → b ∈ Q.blocks → b ∈ R.blocks
  | .last d, h, hb => by
    simp only [subs, List.mem_singleton] at h
    rw [← h]; exact hb
  | .ite d l r rest, h, hb => by
    simp only [subs, List.mem_cons, List.mem_append] at h
    rcases h with rfl | (h | h) | h
    · exact hb
    · simp [blocks, subs_blocks l h hb]
    · simp [blocks, subs_blocks r h hb]
    · simp [blocks, subs_blocks rest h hb]
  | .opt d k l rest, h, hb => by
    simp only [subs, List.mem_cons, List.mem_append] at h
    rcases h with rfl | h | h
    · exact hb
    · simp [blocks, subs_blocks l h hb]
    · simp [blocks, subs_blocks rest h hb]

theorem Reg.subs_arms {b : Nat} {l r rest : Reg} : ∀ R : Reg, .ite b l r rest ∈ R.subs → l ∈ R.arms ∧ r ∈ R.arms
  | .last d, h => by simp [subs] at h
  | .ite d l' r' rest', h => by
    simp only [subs, List.mem_cons, List.mem_append] at h
    simp only [arms, List.mem_cons, List.mem_append]
    rcases h with h | (h | h) | h
    · cases h; exact ⟨.inl rfl, .inr (.inl rfl)⟩
    · have := subs_arms l' h; tauto
    · have := subs_arms r' h; tauto
    · have := subs_arms rest' h; tauto
  | .opt d k l' rest', h => by
    simp only [subs, List.mem_cons, List.mem_append] at h
    simp only [arms, List.mem_cons, List.mem_append]
    rcases h with h | h | h
    · cases h
    · have := subs_arms l' h; tauto
    · have := subs_arms rest' h; tauto

theorem Reg.subs_opt_arms {b k : Nat} {l rest : Reg} : ∀ R : Reg, .opt b k l rest ∈ R.subs → l ∈ R.arms
  | .last d, h => by simp [subs] at h
  | .ite d l' r' rest', h => by
    simp only [subs, List.mem_cons, List.mem_append] at h
    simp only [arms, List.mem_cons, List.mem_append]
    rcases h with h | (h | h) | h
    · cases h
    · have := subs_opt_arms l' h; tauto
    · have := subs_opt_arms r' h; tauto
    · have := subs_opt_arms rest' h; tauto
  | .opt d k' l' rest', h => by
    simp only [subs, List.mem_cons, List.mem_append] at h
    simp only [arms, List.mem_cons, List.mem_append]
    rcases h with h | h | h
    · cases h; exact .inl rfl
    · have := subs_opt_arms l' h; tauto
    · have := subs_opt_arms rest' h; tauto

/-- An arm that contains the block after a branch contains the branch. -/
theorem Reg.branch_in {L : Reg} {b : Nat} {l r rest : Reg} : ∀ R : Reg, R.blocks.Nodup → L ∈ R.arms → .ite b l r rest ∈ R.subs → rest.entry ∈ L.blocks →
    b ∈ L.blocks ∧ l.exit ∈ L.blocks ∧ r.exit ∈ L.blocks := by
  have hall : ∀ Q : Reg, .ite b l r rest ∈ Q.subs → rest.entry ∈ Q.blocks ∧ b ∈ Q.blocks ∧ l.exit ∈ Q.blocks ∧ r.exit ∈ Q.blocks := by
    intro Q hQ
    refine ⟨Reg.subs_blocks Q hQ ?_, Reg.subs_blocks Q hQ ?_, Reg.subs_blocks Q hQ ?_, Reg.subs_blocks Q hQ ?_⟩ <;> simp [blocks, Reg.exit_mem, Reg.entry_mem]
  intro R
  induction R with
  | last d => intro _ h; simp [arms] at h
  | ite d l' r' rest' il ir irest =>
    intro hn hL hQ he
    simp only [blocks, List.nodup_cons, List.nodup_append, List.mem_append, not_or] at hn
    obtain ⟨hd, ⟨nl, nr, hlr⟩, nrest, hdis⟩ := hn
    simp only [arms, List.mem_cons, List.mem_append] at hL
    simp only [subs, List.mem_cons, List.mem_append] at hQ
    -- the arm is inside one of the three parts
    have hside : (∀ x ∈ L.blocks, x ∈ l'.blocks) ∨ (∀ x ∈ L.blocks, x ∈ r'.blocks) ∨ ∀ x ∈ L.blocks, x ∈ rest'.blocks := by
      rcases hL with rfl | rfl | (hL | hL) | hL
      · exact .inl fun _ h => h
      · exact .inr (.inl fun _ h => h)
      · exact .inl fun _ h => Reg.arms_blocks _ hL h
      · exact .inr (.inl fun _ h => Reg.arms_blocks _ hL h)
      · exact .inr (.inr fun _ h => Reg.arms_blocks _ hL h)
    rcases hQ with hQ | (hQ | hQ) | hQ
    · cases hQ
      exfalso
      rcases hL with rfl | rfl | (hL | hL) | hL
      · exact hdis _ (.inl he) _ rest.entry_mem rfl
      · exact hdis _ (.inr he) _ rest.entry_mem rfl
      · exact hdis _ (.inl (Reg.arms_blocks _ hL he)) _ rest.entry_mem rfl
      · exact hdis _ (.inr (Reg.arms_blocks _ hL he)) _ rest.entry_mem rfl
      · exact rest.entry_arms nrest L hL he
    · rcases hL with rfl | rfl | (hL | hL) | hL
      · exact (hall _ hQ).2
      · exact (hlr _ (hall _ hQ).1 _ he rfl).elim
      · exact il nl hL hQ he
      · exact (hlr _ (hall _ hQ).1 _ (Reg.arms_blocks _ hL he) rfl).elim
      · exact (hdis _ (.inl (hall _ hQ).1) _ (Reg.arms_blocks _ hL he) rfl).elim
    · rcases hL with rfl | rfl | (hL | hL) | hL
      · exact (hlr _ he _ (hall _ hQ).1 rfl).elim
      · exact (hall _ hQ).2
      · exact (hlr _ (Reg.arms_blocks _ hL he) _ (hall _ hQ).1 rfl).elim
      · exact ir nr hL hQ he
      · exact (hdis _ (.inr (hall _ hQ).1) _ (Reg.arms_blocks _ hL he) rfl).elim
    · rcases hL with rfl | rfl | (hL | hL) | hL
      · exact (hdis _ (.inl he) _ (hall _ hQ).1 rfl).elim
      · exact (hdis _ (.inr he) _ (hall _ hQ).1 rfl).elim
      · exact (hdis _ (.inl (Reg.arms_blocks _ hL he)) _ (hall _ hQ).1 rfl).elim
      · exact (hdis _ (.inr (Reg.arms_blocks _ hL he)) _ (hall _ hQ).1 rfl).elim
      · exact irest nrest hL hQ he
  | opt d k l' rest' il irest =>
    intro hn hL hQ he
    simp only [blocks, List.nodup_cons, List.nodup_append, List.mem_append, not_or] at hn
    obtain ⟨hd, nl, nrest, hdis⟩ := hn
    simp only [arms, List.mem_cons, List.mem_append] at hL
    simp only [subs, List.mem_cons, List.mem_append] at hQ
    rcases hQ with hQ | hQ | hQ
    · cases hQ
    · rcases hL with rfl | hL | hL
      · exact (hall _ hQ).2
      · exact il nl hL hQ he
      · exact (hdis _ (hall _ hQ).1 _ (Reg.arms_blocks _ hL he) rfl).elim
    · rcases hL with rfl | hL | hL
      · exact (hdis _ he _ (hall _ hQ).1 rfl).elim
      · exact (hdis _ (Reg.arms_blocks _ hL he) _ (hall _ hQ).1 rfl).elim
      · exact irest nrest hL hQ he

/-- The first operations after a branch. -/
theorem scoped_entry {Φ : Nat → Nat → Nat → Nat → Prop} {A P : Nat → Prop} {R : Reg} (h : Scoped s Φ A P R) {v : Nat} (hv : v ∈ s.ops R.entry)
    (hphi : (s.node v).op = .phi) : P v := by
  cases R with
  | last b => exact opsOk_phi hphi _ _ h hv
  | ite b l r rest => simp only [Scoped] at h; exact opsOk_phi hphi _ _ h.1 hv
  | opt b k l rest => simp only [Scoped] at h; exact opsOk_phi hphi _ _ h.1 hv

/-- What is known about a branch. -/
structure Branches (s : Conv) (Φ : Nat → Nat → Nat → Nat → Prop) (b : Nat) (l r rest : Reg) (c : Nat) : Prop where
  jumps : Jumps s b c
  phi : ∀ v ∈ s.ops rest.entry, (s.node v).op = .phi → Φ c l.exit r.exit v

theorem scoped_branch {Φ : Nat → Nat → Nat → Nat → Prop} {b : Nat} {l r rest : Reg} : ∀ (R : Reg) (A P : Nat → Prop), Scoped s Φ A P R →
    .ite b l r rest ∈ R.subs → ∃ c, Branches s Φ b l r rest c
  | .last d, _, _, _, h => by simp [Reg.subs] at h
  | .ite d l' r' rest', A, P, hs, h => by
    simp only [Scoped] at hs
    obtain ⟨_, c, hj, sl, sr, srest⟩ := hs
    simp only [Reg.subs, List.mem_cons, List.mem_append] at h
    rcases h with h | (h | h) | h
    · cases h
      exact ⟨c, hj, fun v hv hp => scoped_entry srest hv hp⟩
    · exact scoped_branch l' _ _ sl h
    · exact scoped_branch r' _ _ sr h
    · exact scoped_branch rest' _ _ srest h
  | .opt d k l' rest', A, P, hs, h => by
    simp only [Scoped] at hs
    obtain ⟨_, c, hj, _, sl, srest⟩ := hs
    simp only [Reg.subs, List.mem_cons, List.mem_append] at h
    rcases h with h | h | h
    · cases h
    · exact scoped_branch l' _ _ sl h
    · exact scoped_branch rest' _ _ srest h

theorem scoped_opt {Φ : Nat → Nat → Nat → Nat → Prop} {b k : Nat} {l rest : Reg} : ∀ (R : Reg) (A P : Nat → Prop), Scoped s Φ A P R →
    .opt b k l rest ∈ R.subs → ∃ c, Jumps s b c ∧ c ∈ s.ops b ∧ s.node c = ⟨.outputRequired k, []⟩
  | .last d, _, _, _, h => by simp [Reg.subs] at h
  | .ite d l' r' rest', A, P, hs, h => by
    simp only [Scoped] at hs
    obtain ⟨_, c, hj, sl, sr, srest⟩ := hs
    simp only [Reg.subs, List.mem_cons, List.mem_append] at h
    rcases h with h | (h | h) | h
    · cases h
    · exact scoped_opt l' _ _ sl h
    · exact scoped_opt r' _ _ sr h
    · exact scoped_opt rest' _ _ srest h
  | .opt d k l' rest', A, P, hs, h => by
    simp only [Scoped] at hs
    obtain ⟨_, c, hj, ho, sl, srest⟩ := hs
    simp only [Reg.subs, List.mem_cons, List.mem_append] at h
    rcases h with h | h | h
    · cases h; exact ⟨c, hj, ho⟩
    · exact scoped_opt l' _ _ sl h
    · exact scoped_opt rest' _ _ srest h

/-- A phi function is in the block after a branch. -/
theorem phi_sub {Φ : Nat → Nat → Nat → Nat → Prop} {v d : Nat} (hphi : (s.node v).op = .phi) (hv : v ∈ s.ops d) : ∀ (R : Reg) (A P : Nat → Prop),
    Scoped s Φ A P R → d ∈ R.blocks → (d = R.entry ∧ P v) ∨ ∃ b l r rest, .ite b l r rest ∈ R.subs ∧ rest.entry = d
  | .last b, A, P, h, hd => by
    simp only [Reg.blocks, List.mem_singleton] at hd
    subst hd
    exact .inl ⟨rfl, scoped_entry (R := .last d) h hv hphi⟩
  | .ite b l r rest, A, P, h, hd => by
    simp only [Reg.blocks, List.mem_cons, List.mem_append] at hd
    have h' := h
    simp only [Scoped] at h
    obtain ⟨_, c, hj, sl, sr, srest⟩ := h
    simp only [Reg.subs, List.mem_cons, List.mem_append]
    rcases hd with hd | (hd | hd) | hd
    · subst hd
      exact .inl ⟨rfl, scoped_entry (R := .ite d l r rest) h' hv hphi⟩
    · rcases phi_sub hphi hv l _ _ sl hd with ⟨_, hf⟩ | ⟨b', l', r', rest', hm, he⟩
      · exact hf.elim
      · exact .inr ⟨b', l', r', rest', .inr (.inl (.inl hm)), he⟩
    · rcases phi_sub hphi hv r _ _ sr hd with ⟨_, hf⟩ | ⟨b', l', r', rest', hm, he⟩
      · exact hf.elim
      · exact .inr ⟨b', l', r', rest', .inr (.inl (.inr hm)), he⟩
    · rcases phi_sub hphi hv rest _ _ srest hd with ⟨he, _⟩ | ⟨b', l', r', rest', hm, he⟩
      · exact .inr ⟨b, l, r, rest, .inl rfl, he.symm⟩
      · exact .inr ⟨b', l', r', rest', .inr (.inr hm), he⟩
  | .opt b k l rest, A, P, h, hd => by
    simp only [Reg.blocks, List.mem_cons, List.mem_append] at hd
    have h' := h
    simp only [Scoped] at h
    obtain ⟨_, c, hj, _, sl, srest⟩ := h
    simp only [Reg.subs, List.mem_cons, List.mem_append]
    rcases hd with hd | hd | hd
    · subst hd
      exact .inl ⟨rfl, scoped_entry (R := .opt d k l rest) h' hv hphi⟩
    · rcases phi_sub hphi hv l _ _ sl hd with ⟨_, hf⟩ | ⟨b', l', r', rest', hm, he⟩
      · exact hf.elim
      · exact .inr ⟨b', l', r', rest', .inr (.inl hm), he⟩
    · rcases phi_sub hphi hv rest _ _ srest hd with ⟨_, hf⟩ | ⟨b', l', r', rest', hm, he⟩
      · exact hf.elim
      · exact .inr ⟨b', l', r', rest', .inr (.inr hm), he⟩

theorem phi_after {s : Conv} {b : Nat} {l r rest : Reg} : ∀ (R : Reg), HasPhi s R → .ite b l r rest ∈ R.subs → ∃ v ∈ s.ops rest.entry, (s.node v).op = .phi
  | .last d, _, h => by simp [Reg.subs] at h
  | .ite d l' r' rest', hp, h => by
    obtain ⟨h0, h1, h2, h3⟩ := hp
    simp only [Reg.subs, List.mem_cons, List.mem_append] at h
    rcases h with h | (h | h) | h
    · cases h; exact h0
    · exact phi_after l' h1 h
    · exact phi_after r' h2 h
    · exact phi_after rest' h3 h
  | .opt d k l' rest', hp, h => by
    simp only [Reg.subs, List.mem_cons, List.mem_append] at h
    rcases h with h | h | h
    · cases h
    · exact phi_after l' hp.1 h
    · exact phi_after rest' hp.2 h

/-- A block with two descendants is the start of a branch. -/
theorem branch_at {anc desc : Nat → List Nat} {d : Nat} : ∀ (R : Reg), Lay anc desc R → (desc R.exit).length ≤ 1 → d ∈ R.blocks → (desc d).length = 2 →
    (∃ l r rest, .ite d l r rest ∈ R.subs) ∨ ∃ k l rest, .opt d k l rest ∈ R.subs
  | .last b, _, hx, hd, h2 => by
    simp only [Reg.blocks, List.mem_singleton] at hd
    simp only [Reg.exit] at hx
    rw [hd] at h2
    omega
  | .ite b l r rest, h, hx, hd, h2 => by
    simp only [Lay] at h
    obtain ⟨_, _, _, l4, l5, _, l7, l8, l9⟩ := h
    simp only [Reg.blocks, List.mem_cons, List.mem_append] at hd
    simp only [Reg.subs, List.mem_cons, List.mem_append]
    rcases hd with rfl | (hd | hd) | hd
    · exact .inl ⟨l, r, rest, .inl rfl⟩
    · rcases branch_at l l7 (by rw [l4]; simp) hd h2 with ⟨l', r', rest', hm⟩ | ⟨k, l', rest', hm⟩
      · exact .inl ⟨l', r', rest', .inr (.inl (.inl hm))⟩
      · exact .inr ⟨k, l', rest', .inr (.inl (.inl hm))⟩
    · rcases branch_at r l8 (by rw [l5]; simp) hd h2 with ⟨l', r', rest', hm⟩ | ⟨k, l', rest', hm⟩
      · exact .inl ⟨l', r', rest', .inr (.inl (.inr hm))⟩
      · exact .inr ⟨k, l', rest', .inr (.inl (.inr hm))⟩
    · rcases branch_at rest l9 hx hd h2 with ⟨l', r', rest', hm⟩ | ⟨k, l', rest', hm⟩
      · exact .inl ⟨l', r', rest', .inr (.inr hm)⟩
      · exact .inr ⟨k, l', rest', .inr (.inr hm)⟩
  | .opt b k l rest, h, hx, hd, h2 => by
    simp only [Lay] at h
    obtain ⟨_, _, l4, _, l7, l9⟩ := h
    simp only [Reg.blocks, List.mem_cons, List.mem_append] at hd
    simp only [Reg.subs, List.mem_cons, List.mem_append]
    rcases hd with rfl | hd | hd
    · exact .inr ⟨k, l, rest, .inl rfl⟩
    · rcases branch_at l l7 (by rw [l4]; simp) hd h2 with ⟨l', r', rest', hm⟩ | ⟨k, l', rest', hm⟩
      · exact .inl ⟨l', r', rest', .inr (.inl hm)⟩
      · exact .inr ⟨k, l', rest', .inr (.inl hm)⟩
    · rcases branch_at rest l9 hx hd h2 with ⟨l', r', rest', hm⟩ | ⟨k, l', rest', hm⟩
      · exact .inl ⟨l', r', rest', .inr (.inr hm)⟩
      · exact .inr ⟨k, l', rest', .inr (.inr hm)⟩

/-- The arms with their block and the outcome of the test that leads to them. -/
def Reg.tests : Reg → List (Nat × Bool × Reg)
  | .last _ => []
  | .ite b l r rest => (b, true, l) :: (b, false, r) :: (l.tests ++ r.tests ++ rest.tests)
  | .opt b _ l rest => (b, true, l) :: (l.tests ++ rest.tests)

theorem Reg.tests_blocks {b : Nat} {x : Bool} {L : Reg} {d : Nat} : ∀ R : Reg, (b, x, L) ∈ R.tests → d ∈ L.blocks → d ∈ R.blocks
  | .last _, h, _ => by simp [tests] at h
  | .ite e l r rest, h, hd => by
    simp only [tests, List.mem_cons, List.mem_append, Prod.mk.injEq] at h
    simp only [blocks, List.mem_cons, List.mem_append]
    rcases h with ⟨_, _, rfl⟩ | ⟨_, _, rfl⟩ | (h | h) | h
    · exact .inr (.inl (.inl hd))
    · exact .inr (.inl (.inr hd))
    · exact .inr (.inl (.inl (tests_blocks l h hd)))
    · exact .inr (.inl (.inr (tests_blocks r h hd)))
    · exact .inr (.inr (tests_blocks rest h hd))
  | .opt e k l rest, h, hd => by
    simp only [tests, List.mem_cons, List.mem_append, Prod.mk.injEq] at h
    simp only [blocks, List.mem_cons, List.mem_append]
    rcases h with ⟨_, _, rfl⟩ | h | h
    · exact .inr (.inl hd)
    · exact .inr (.inl (tests_blocks l h hd))
    · exact .inr (.inr (tests_blocks rest h hd))

theorem Reg.subs_tests {b : Nat} {l r rest : Reg} : ∀ R : Reg, .ite b l r rest ∈ R.subs → (b, true, l) ∈ R.tests ∧ (b, false, r) ∈ R.tests
  | .last d, h => by simp [subs] at h
  | .ite d l' r' rest', h => by
    simp only [subs, List.mem_cons, List.mem_append] at h
    simp only [tests, List.mem_cons, List.mem_append]
    rcases h with h | (h | h) | h
    · cases h; exact ⟨.inl rfl, .inr (.inl rfl)⟩
    · have := subs_tests l' h; tauto
    · have := subs_tests r' h; tauto
    · have := subs_tests rest' h; tauto
  | .opt d k l' rest', h => by
    simp only [subs, List.mem_cons, List.mem_append] at h
    simp only [tests, List.mem_cons, List.mem_append]
    rcases h with h | h | h
    · cases h
    · have := subs_tests l' h; tauto
    · have := subs_tests rest' h; tauto

theorem Reg.opt_tests {b k : Nat} {l rest : Reg} : ∀ R : Reg, .opt b k l rest ∈ R.subs → (b, true, l) ∈ R.tests
  | .last d, h => by simp [subs] at h
  | .ite d l' r' rest', h => by
    simp only [subs, List.mem_cons, List.mem_append] at h
    simp only [tests, List.mem_cons, List.mem_append]
    rcases h with h | (h | h) | h
    · cases h
    · have := opt_tests l' h; tauto
    · have := opt_tests r' h; tauto
    · have := opt_tests rest' h; tauto
  | .opt d k' l' rest', h => by
    simp only [subs, List.mem_cons, List.mem_append] at h
    simp only [tests, List.mem_cons, List.mem_append]
    rcases h with h | h | h
    · cases h; exact .inl rfl
    · have := opt_tests l' h; tauto
    · have := opt_tests rest' h; tauto

/-- A path runs through an arm only if the test has the outcome for it. -/
theorem path_test {t : Nat → Bool} {b d : Nat} {x : Bool} {L : Reg} : ∀ (R : Reg), R.blocks.Nodup → (b, x, L) ∈ R.tests → d ∈ R.path t → d ∈ L.blocks →
    t b = x
  | .last e, _, h, _, _ => by simp [Reg.tests] at h
  | .ite e l r rest, hn, h, hp, hd => by
    simp only [Reg.blocks, List.nodup_cons, List.nodup_append, List.mem_append, not_or] at hn
    obtain ⟨he, ⟨nl, nr, hlr⟩, nrest, hdis⟩ := hn
    simp only [Reg.path, List.mem_cons, List.mem_append] at hp
    simp only [Reg.tests, List.mem_cons, List.mem_append, Prod.mk.injEq] at h
    have hpl : d ∈ (if t e then l.path t else r.path t) → (t e = true ∧ d ∈ l.path t ∧ d ∈ l.blocks) ∨ (t e = false ∧ d ∈ r.path t ∧ d ∈ r.blocks) := by
      intro hm
      by_cases ht : t e = true
      · rw [if_pos ht] at hm; exact .inl ⟨ht, hm, (l.path_sublist t).subset hm⟩
      · rw [if_neg ht] at hm; exact .inr ⟨by simpa using ht, hm, (r.path_sublist t).subset hm⟩
    have hpr : d ∈ rest.path t → d ∈ rest.blocks := fun hm => (rest.path_sublist t).subset hm
    rcases h with ⟨rfl, rfl, rfl⟩ | ⟨rfl, rfl, rfl⟩ | (h | h) | h
    · rcases hp with rfl | hp | hp
      · exact absurd hd he.1.1
      · rcases hpl hp with ⟨e1, _⟩ | ⟨_, _, e2⟩
        · exact e1
        · exact (hlr _ hd _ e2 rfl).elim
      · exact (hdis _ (.inl hd) _ (hpr hp) rfl).elim
    · rcases hp with rfl | hp | hp
      · exact absurd hd he.1.2
      · rcases hpl hp with ⟨_, _, e2⟩ | ⟨e1, _⟩
        · exact (hlr _ e2 _ hd rfl).elim
        · exact e1
      · exact (hdis _ (.inr hd) _ (hpr hp) rfl).elim
    · have hb := Reg.tests_blocks l h hd
      rcases hp with rfl | hp | hp
      · exact absurd hb he.1.1
      · rcases hpl hp with ⟨_, e1, _⟩ | ⟨_, _, e2⟩
        · exact path_test l nl h e1 hd
        · exact (hlr _ hb _ e2 rfl).elim
      · exact (hdis _ (.inl hb) _ (hpr hp) rfl).elim
    · have hb := Reg.tests_blocks r h hd
      rcases hp with rfl | hp | hp
      · exact absurd hb he.1.2
      · rcases hpl hp with ⟨_, _, e2⟩ | ⟨_, e1, _⟩
        · exact (hlr _ e2 _ hb rfl).elim
        · exact path_test r nr h e1 hd
      · exact (hdis _ (.inr hb) _ (hpr hp) rfl).elim
    · have hb := Reg.tests_blocks rest h hd
      rcases hp with rfl | hp | hp
      · exact absurd hb he.2
      · rcases hpl hp with ⟨_, _, e2⟩ | ⟨_, _, e2⟩
        · exact (hdis _ (.inl e2) _ hb rfl).elim
        · exact (hdis _ (.inr e2) _ hb rfl).elim
      · exact path_test rest nrest h hp hd
  | .opt e k l rest, hn, h, hp, hd => by
    simp only [Reg.blocks, List.nodup_cons, List.nodup_append, List.mem_append, not_or] at hn
    obtain ⟨he, nl, nrest, hdis⟩ := hn
    simp only [Reg.path, List.mem_cons, List.mem_append] at hp
    simp only [Reg.tests, List.mem_cons, List.mem_append, Prod.mk.injEq] at h
    have hpl : d ∈ (if t e then l.path t else []) → t e = true ∧ d ∈ l.path t ∧ d ∈ l.blocks := by
      intro hm
      by_cases ht : t e = true
      · rw [if_pos ht] at hm; exact ⟨ht, hm, (l.path_sublist t).subset hm⟩
      · rw [if_neg ht] at hm; simp at hm
    have hpr : d ∈ rest.path t → d ∈ rest.blocks := fun hm => (rest.path_sublist t).subset hm
    rcases h with ⟨rfl, rfl, rfl⟩ | h | h
    · rcases hp with rfl | hp | hp
      · exact absurd hd he.1
      · exact (hpl hp).1
      · exact (hdis _ hd _ (hpr hp) rfl).elim
    · have hb := Reg.tests_blocks l h hd
      rcases hp with rfl | hp | hp
      · exact absurd hb he.1
      · exact path_test l nl h (hpl hp).2.1 hd
      · exact (hdis _ hb _ (hpr hp) rfl).elim
    · have hb := Reg.tests_blocks rest h hd
      rcases hp with rfl | hp | hp
      · exact absurd hb he.2
      · exact (hdis _ (hpl hp).2.2 _ hb rfl).elim
      · exact path_test rest nrest h hp hd

/-- The arm of an optional output. -/
theorem Reg.exits_opt {b k : Nat} : ∀ R : Reg, (b, some k) ∈ R.exits → ∃ d l rest, .opt d k l rest ∈ R.subs ∧ l.exit = b
  | .last d, h => by simp [exits] at h
  | .ite d l r rest, h => by
    obtain ⟨d', l', rest', h1, h2⟩ := exits_opt rest h
    exact ⟨d', l', rest', by simp [subs, h1], h2⟩
  | .opt d k' l rest, h => by
    simp only [exits, List.mem_cons, Prod.mk.injEq, Option.some.injEq] at h
    rcases h with ⟨rfl, rfl⟩ | h
    · exact ⟨d, l, rest, by simp [subs], rfl⟩
    · obtain ⟨d', l', rest', h1, h2⟩ := exits_opt rest h
      exact ⟨d', l', rest', by simp [subs, h1], h2⟩

/-- A value used only at the places `P` is in the arm, if the places `P` are. -/
theorem only_inside (hg : Input g) (h : Inv g usage ternaries s W) (hall : ∀ v ∈ g.ops, s.visited v = true) (hz : Lazy g s W) {P : Nat → Nat → Prop} {L : Reg}
    (hL : L ∈ W.arms) (hdir : ∀ u ∈ g.ops, ∀ j, P u j → s.node u = g.node u → ∃ b ∈ L.blocks, s.parent u = some b)
    (hphi : ∀ u ∈ g.ops, ∀ j, P u j → ∀ b l r rest, .ite b l r rest ∈ W.subs → u ∈ s.ops rest.entry → (s.node u).op = .phi →
      (j = 0 → b ∈ L.blocks) ∧ (j = 1 → l.exit ∈ L.blocks) ∧ (j = 2 → r.exit ∈ L.blocks)) {w : Nat} (hw : OnlyFor g P w) : ∃ b ∈ L.blocks, s.parent w = some b := by
  induction hw with
  | intro w hwg hs _ ih =>
    have hop : ∀ b v, v ∈ s.ops b → v ∈ s.live := fun b v hv => h.live v (by rw [(h.ops b v).1 hv]; simp)
    -- a use by a phi function
    have key : ∀ v ∈ g.ops, ∀ j : Nat, (g.node v).args[j]? = some w → ∀ b l r rest, .ite b l r rest ∈ W.subs → v ∈ s.ops rest.entry → (s.node v).op = .phi →
        (j = 0 → b ∈ L.blocks) ∧ (j = 1 → l.exit ∈ L.blocks) ∧ (j = 2 → r.exit ∈ L.blocks) := by
      intro v hv j hj b l r rest hm hvr hp
      by_cases hPj : P v j
      · exact hphi v hv j hPj b l r rest hm hvr hp
      · obtain ⟨d, hd, hpd⟩ := ih v hv j hj hPj
        rw [(h.ops _ _).1 hvr] at hpd
        cases hpd
        obtain ⟨h1, h2, h3⟩ := Reg.branch_in W h.nodupW hL hm hd
        exact ⟨fun _ => h1, fun _ => h2, fun _ => h3⟩
    have phig : ∀ b v, v ∈ s.ops b → (s.node v).op = .phi → v ∈ g.ops := by
      intro b v hv hp
      by_contra hvg
      rcases (h.made v (hop b v hv) hvg).2 with ⟨_, _, e, _⟩ | ⟨_, _, e, _⟩ | ⟨_, e⟩ | ⟨_, _, e, _⟩ <;> rw [e] at hp <;> cases hp
    refine hz.deep w hwg (hall w hwg) hs L hL fun u hu ha => ?_
    by_cases hug : u ∈ g.ops
    · rcases h.placed u hug (hall u hug) with ⟨e, _⟩ | ⟨x, y, e, hx, hy, _⟩
      · rw [e] at ha
        obtain ⟨j, hj⟩ := List.getElem?_of_mem ha
        by_cases hPj : P u j
        · exact hdir u hug j hPj e
        · exact ih u hug j hj hPj
      · rw [e] at ha
        simp only [List.mem_cons, List.not_mem_nil, or_false] at ha
        rcases ha with rfl | rfl
        · exact absurd hwg hx
        · exact absurd hwg hy
    · obtain ⟨hpu, hm⟩ := h.made u hu hug
      rcases hm with ⟨a, hag, e, _⟩ | ⟨c, hcg, e, _⟩ | ⟨k, e⟩ | ⟨u', k, e, hn, _⟩
      · rw [e] at ha
        have hwa := List.mem_singleton.1 ha
        subst hwa
        obtain ⟨d, v, hv, hp, hav⟩ := hz.copies u hu hug (by rw [e])
        rcases phi_sub hp hv W _ _ h.scope (h.parent v d ((h.ops d v).1 hv)) with ⟨_, hf⟩ | ⟨b, l, r, rest, hmem, hent⟩
        · exact hf.elim
        subst hent
        obtain ⟨c, hbr⟩ := scoped_branch W _ _ h.scope hmem
        obtain ⟨_, x, y, a, b', e1, e2, e3, e4, e5, e6⟩ := hbr.phi v hv hp
        have hvg := phig _ v hv hp
        rw [e1] at hav
        simp only [List.mem_cons, List.not_mem_nil, or_false] at hav
        rcases hav with rfl | rfl
        · rw [e] at e2
          cases e2
          exact ⟨l.exit, (key v hvg 1 (by rw [e4]; rfl) b l r rest hmem hv hp).2.1 rfl, (h.ops _ _).1 e5⟩
        · rw [e] at e3
          cases e3
          exact ⟨r.exit, (key v hvg 2 (by rw [e4]; rfl) b l r rest hmem hv hp).2.2 rfl, (h.ops _ _).1 e6⟩
      · rw [e] at ha
        have hwa := List.mem_singleton.1 ha
        subst hwa
        cases hpd : s.parent u with
        | none => exact absurd hpd hpu
        | some d =>
          have hud := (h.ops d u).2 hpd
          obtain ⟨hlast, hlen⟩ := hz.jumps d u hud (by rw [e])
          rcases branch_at W h.lay (by rw [h.stop]; simp) (h.parent u d hpd) hlen with ⟨l, r, rest, hmem⟩ | ⟨k, l, rest, hmem⟩
          · obtain ⟨c, hbr⟩ := scoped_branch W _ _ h.scope hmem
            obtain ⟨u', hl', e'⟩ := hbr.jumps
            rw [hlast] at hl'
            cases hl'
            rw [e] at e'
            cases e'
            obtain ⟨v, hv, hp⟩ := phi_after W hz.phis hmem
            obtain ⟨_, x, y, a, b', e1, e2, e3, e4, e5, e6⟩ := hbr.phi v hv hp
            exact ⟨d, (key v (phig _ v hv hp) 0 (by rw [e4]; rfl) d l r rest hmem hv hp).1 rfl, rfl⟩
          · obtain ⟨c, ⟨u', hl', e'⟩, hcd, hc⟩ := scoped_opt W _ _ h.scope hmem
            rw [hlast] at hl'
            cases hl'
            rw [e] at e'
            cases e'
            exfalso
            rcases h.placed w hwg (hall w hwg) with ⟨e, _⟩ | ⟨x, y, e, _⟩
            · exact (hg.conv.flat w hwg).2.2 k (by rw [← e, hc])
            · rw [hc] at e; cases e
      · rw [e] at ha; simp at ha
      · rw [e] at ha
        rw [List.mem_singleton.1 ha] at hwg
        exact absurd hwg hn

variable {V : Type} [Arith V]

/-- Conditionals. -/
theorem only_branch (hg : Input g) (h : Inv g usage true s W) (hall : ∀ v ∈ g.ops, s.visited v = true) (hz : Lazy g s W) {I : Interp V} {truth : V → Bool}
    {v c a b w d : Nat} (hv : v ∈ g.ops) (hn : g.node v = ⟨.cond, [c, a, b]⟩) (hd : d ∈ W.path (taken truth s (flowVal I g s))) (hwd : w ∈ s.ops d) :
    (OnlyFor g (fun u j => u = v ∧ j = 1) w → truth (run I g c) = true) ∧ (OnlyFor g (fun u j => u = v ∧ j = 2) w → truth (run I g c) = false) := by
  have hphi : (s.node v).op = .phi := by
    rcases h.placed v hv (hall v hv) with ⟨_, e⟩ | ⟨x, y, e, _⟩
    · exact absurd (by rw [hn]) (e rfl)
    · rw [e]
  have hne : s.node v ≠ g.node v := fun e => by rw [e, hn] at hphi; cases hphi
  cases hpv : s.parent v with
  | none => exact absurd hpv ((h.vis v hv).1 (hall v hv))
  | some q =>
    have hvq := (h.ops q v).2 hpv
    rcases phi_sub hphi hvq W _ _ h.scope (h.parent v q hpv) with ⟨_, hf⟩ | ⟨b0, l, r, rest, hmem, hent⟩
    · exact hf.elim
    subst hent
    obtain ⟨c0, hbr⟩ := scoped_branch W _ _ h.scope hmem
    obtain ⟨_, x, y, a', b', e1, e2, e3, e4, e5, e6⟩ := hbr.phi v hvq hphi
    rw [hn] at e4
    cases e4
    have htk : taken truth s (flowVal I g s) b0 = truth (run I g c) := by
      rw [taken, jumpCondition_of hbr.jumps, Option.getD_some, flowVal_mem I (hg.wf.closed v hv c (by rw [hn]; simp))]
    obtain ⟨al, ar⟩ := Reg.subs_arms W hmem
    obtain ⟨tl, tr⟩ := Reg.subs_tests W hmem
    have same : ∀ b1 l1 r1 rest1, .ite b1 l1 r1 rest1 ∈ W.subs → v ∈ s.ops rest1.entry → l1.exit = l.exit ∧ r1.exit = r.exit := by
      intro b1 l1 r1 rest1 hm1 hv1
      obtain ⟨c1, hbr1⟩ := scoped_branch W _ _ h.scope hm1
      obtain ⟨_, x1, y1, _, _, f1, _, _, _, f5, f6⟩ := hbr1.phi v hv1 hphi
      rw [e1] at f1
      cases f1
      rw [h.ops] at e5 e6 f5 f6
      rw [e5, Option.some.injEq] at f5
      rw [e6, Option.some.injEq] at f6
      exact ⟨f5.symm, f6.symm⟩
    have hpw := (h.ops d w).1 hwd
    constructor
    · intro ho
      obtain ⟨d', hd', hp'⟩ := only_inside hg h hall hz al (fun u _ j hP e => absurd (hP.1 ▸ e) hne) (by
        rintro u _ j ⟨rfl, rfl⟩ b1 l1 r1 rest1 hm1 hv1 _
        refine ⟨(fun h => by omega), (fun _ => ?_), (fun h => by omega)⟩
        rw [(same b1 l1 r1 rest1 hm1 hv1).1]
        exact l.exit_mem) ho
      rw [hpw] at hp'
      cases hp'
      rw [← htk]
      exact path_test W h.nodupW tl hd hd'
    · intro ho
      obtain ⟨d', hd', hp'⟩ := only_inside hg h hall hz ar (fun u _ j hP e => absurd (hP.1 ▸ e) hne) (by
        rintro u _ j ⟨rfl, rfl⟩ b1 l1 r1 rest1 hm1 hv1 _
        refine ⟨(fun h => by omega), (fun h => by omega), (fun _ => ?_)⟩
        rw [(same b1 l1 r1 rest1 hm1 hv1).2]
        exact r.exit_mem) ho
      rw [hpw] at hp'
      cases hp'
      rw [← htk]
      exact path_test W h.nodupW tr hd hd'

/-- Optional outputs. -/
theorem only_optional (hg : Input g) (h : Inv g usage ternaries s W) (hall : ∀ v ∈ g.ops, s.visited v = true) (hz : Lazy g s W) {I : Interp V}
    {truth : V → Bool} {v key w d : Nat} (hv : v ∈ g.ops) (hn : (g.node v).op = .save key) (hu : usage key = .optional)
    (hd : d ∈ W.path (taken truth s (flowVal I g s))) (hwd : w ∈ s.ops d) (ho : OnlyFor g (fun u _ => u = v) w) : truth (I.f (.outputRequired key) []) = true := by
  have hnp : (s.node v).op ≠ .phi := by
    rcases h.placed v hv (hall v hv) with ⟨e, _⟩ | ⟨x, y, e, _, _, hc⟩
    · rw [e, hn]; simp
    · rw [hn] at hc; cases hc
  cases hpv : s.parent v with
  | none => exact absurd hpv ((h.vis v hv).1 (hall v hv))
  | some q =>
    have hex := h.saves v hv key q hn hpv
    rw [if_pos hu] at hex
    obtain ⟨b0, l, rest, hmem, hent⟩ := Reg.exits_opt W hex
    obtain ⟨c0, hj, hcb, hc⟩ := scoped_opt W _ _ h.scope hmem
    have htk : taken truth s (flowVal I g s) b0 = truth (I.f (.outputRequired key) []) := by
      rw [taken, jumpCondition_of hj, Option.getD_some, flowVal_op hg h hall I (by rw [(h.ops _ _).1 hcb]; simp) (by rw [hc]; simp), hc]
      rfl
    obtain ⟨d', hd', hp'⟩ := only_inside hg h hall hz (Reg.subs_opt_arms W hmem) (by
      rintro u _ j rfl _
      exact ⟨q, by rw [← hent]; exact l.exit_mem, hpv⟩) (by
      rintro u _ j rfl b1 l1 r1 rest1 hm1 hv1 hp1
      exact absurd hp1 hnp) ho
    rw [(h.ops d w).1 hwd] at hp'
    cases hp'
    rw [← htk]
    exact path_test W h.nodupW (Reg.opt_tests W hmem) hd hd'

end Wf.Gen
