import Verif.Gen.FlowLazy

/-!
# The loop over the operations that are not conditionals (used in proofs)
-/

namespace Wf.Gen

open Conv

variable {g : Graph} {usage : Nat → Usage} {ternaries : Bool} {s s' : Conv} {W : Reg}

theorem Inv.length_le (h : Inv g usage ternaries s W) : W.blocks.length ≤ s.blocks := by
  have : W.blocks.Subperm (List.range s.blocks) := List.subperm_of_subset h.nodupW fun b hb => List.mem_range.2 ((h.blocks b).1 hb)
  simpa using this.length_le

theorem insertable_iff {fs : List Frame} {R : Reg} (h : Inv g usage ternaries s (plug fs R)) {v : Nat} :
    s.insertable v R.entry = true ↔ Inside s R v := by
  simp only [insertable, consumers, List.all_eq_true, List.mem_filter, decide_eq_true_eq, Inside]
  constructor
  · intro hi u hu ha
    have := hi u ⟨hu, ha⟩
    cases hp : s.parent u with
    | none => simp [hp] at this
    | some b =>
      rw [hp] at this
      exact ⟨b, (dominated_iff h.lay h.root h.nodupW (by have := h.length_le; omega) (h.parent u b hp)).1 this, rfl⟩
  · rintro hi u ⟨hu, ha⟩
    obtain ⟨b, hb, hp⟩ := hi u hu ha
    rw [hp]
    exact (dominated_iff h.lay h.root h.nodupW (by have := h.length_le; omega) (h.parent u b hp)).2 hb

/-- A value that may be placed here or further out. -/
structure Ready (g : Graph) (s : Conv) (q : Nat) : Prop where
  mem : q ∈ g.ops
  all : s.allVisited q = true

theorem Ready.ext {q : Nat} (h : Ready g s q) (he : Ext g s s') : Ready g s' q := ⟨h.mem, he.all q h.mem h.all⟩

/-- Outputs are placed in the block made for them. -/
def SaveAt (g : Graph) (usage : Nat → Usage) (W : Reg) (U q : Nat) : Prop :=
  ∀ k, (g.node q).op = .save k → (U, if usage k = .optional then some k else none) ∈ W.exits

/-- A conditional waiting to be turned into a branch. -/
structure Waiting (g : Graph) (s : Conv) (R : Reg) (c : Nat) : Prop where
  mem : c ∈ g.ops
  not : s.visited c = false
  all : s.allVisited c = true
  cond : (g.node c).op = .cond
  inside : Inside s R c
  due : Due g s R c

/-- Everything that could be placed is known. -/
def Complete (g : Graph) (s : Conv) (pend : List Nat) : Prop := ∀ a ∈ g.ops, s.visited a = false → s.allVisited a = true → a ∈ pend

/-- The turns left in the loop. -/
def turnsLeft (s : Conv) (queue : List Nat) : Nat := queue.length + (s.live.map fun v => if s.visited v then 0 else (s.node v).args.length).sum

theorem turnsLeft_le (s : Conv) (queue : List Nat) : turnsLeft s queue ≤ s.turns queue := by
  unfold turnsLeft turns
  have : ∀ l : List Nat, (l.map fun v => if s.visited v then 0 else (s.node v).args.length).sum ≤ (l.map fun v => (s.node v).args.length).sum := by
    intro l
    induction l with
    | nil => simp
    | cons a l ih =>
      simp only [List.map_cons, List.sum_cons]
      split <;> omega
  have := this s.live
  omega

theorem sum_place {f : Nat → Nat} {vis : Nat → Bool} {v : Nat} (hv : vis v = false) (l : List Nat) :
    (l.map fun u => if updateAt vis v true u then 0 else f u).sum ≤ (l.map fun u => if vis u then 0 else f u).sum ∧
      (v ∈ l → (l.map fun u => if updateAt vis v true u then 0 else f u).sum + f v ≤ (l.map fun u => if vis u then 0 else f u).sum) := by
  induction l with
  | nil => simp
  | cons a l ih =>
    simp only [List.map_cons, List.sum_cons]
    by_cases hav : a = v
    · subst hav
      simp only [updateAt_same, if_true, hv, Bool.false_eq_true, if_false]
      exact ⟨by omega, fun _ => by omega⟩
    · rw [updateAt_ne _ _ hav]
      refine ⟨by omega, fun h => ?_⟩
      have := ih.2 (by simpa [Ne.symm hav] using h)
      omega

/-- What placing operations leaves alone. -/
structure Same (s s' : Conv) : Prop where
  node : s'.node = s.node
  live : s'.live = s.live
  next : s'.next = s.next
  anc : s'.anc = s.anc
  desc : s'.desc = s.desc
  blocks : s'.blocks = s.blocks

theorem Waiting.ext {R : Reg} {c : Nat} (h : Waiting g s R c) (he : Ext g s s') (hs : Same s s') (hn : s'.visited c = false) :
    Waiting g s' R c := by
  refine ⟨h.mem, hn, he.all c h.mem h.all, h.cond, ?_, h.due.ext he⟩
  intro u hu ha
  rw [hs.live] at hu
  rw [hs.node] at ha
  obtain ⟨b, hb, hp⟩ := h.inside u hu ha
  exact ⟨b, hb, he.parent u b hp⟩

theorem drain_ok (hg : Input g) {fs : List Frame} {R : Reg} : ∀ (n : Nat) (s : Conv) (queue deferred conds : List Nat),
    Inv g usage ternaries s (plug fs R) → Lazy g s (plug fs R) → (∀ q ∈ queue, Ready g s q ∧ SaveAt g usage (plug fs R) R.entry q ∧ Due g s R q) →
    (∀ c ∈ conds, Waiting g s R c) → (conds ≠ [] → ternaries = true) → turnsLeft s queue ≤ n →
    ∃ s' d cs, drain ternaries R.entry n s queue deferred conds = .ok (s', deferred ++ d, conds ++ cs) ∧
      (Inv g usage ternaries s' (plug fs R) ∧ Lazy g s' (plug fs R)) ∧ Ext g s s' ∧ Same s s' ∧ (∀ q ∈ d, Ready g s' q ∧ Outside s' R q ∧ HasIn s' R q) ∧
      (∀ c ∈ conds ++ cs, Waiting g s' R c) ∧ (∀ pend, Complete g s (queue ++ pend) → Complete g s' (d ++ cs ++ pend)) ∧
      (conds ++ cs ≠ [] → ternaries = true)
  | n, s, [], deferred, conds, h, hz, _, hc, ht, _ =>
    ⟨s, [], [], by cases n <;> simp [drain], ⟨h, hz⟩, Ext.refl g s, ⟨rfl, rfl, rfl, rfl, rfl, rfl⟩, by simp, by simpa using hc, fun pend hp => by simpa using hp,
      by simpa using ht⟩
  | 0, s, _ :: _, _, _, _, _, _, _, _, hn => by simp [turnsLeft] at hn
  | n + 1, s, top :: queue, deferred, conds, h, hz, hq, hc, ht, hn => by
    have htop := hq top List.mem_cons_self
    have hRn : R.blocks.Nodup := (List.nodup_append.1 (nodup_plug h.nodupW)).1
    have hq' : ∀ q ∈ queue, Ready g s q ∧ SaveAt g usage (plug fs R) R.entry q ∧ Due g s R q := fun q hm => hq q (List.mem_cons_of_mem _ hm)
    have hn' : turnsLeft s queue ≤ n := by
      simp only [turnsLeft, List.length_cons] at hn ⊢
      omega
    unfold drain
    by_cases hv : s.visited top = true
    · rw [if_pos hv]
      obtain ⟨s', d, cs, h1, h2, h3, h4, h5, h6, h7, h8⟩ := drain_ok hg n s queue deferred conds h hz hq' hc ht hn'
      refine ⟨s', d, cs, h1, h2, h3, h4, h5, h6, fun pend hp => h7 pend fun a ha hva hall => ?_, h8⟩
      have := hp a ha hva hall
      rw [List.cons_append, List.mem_cons] at this
      rcases this with rfl | this
      · rw [hv] at hva; cases hva
      · exact this
    · rw [if_neg hv, if_neg (by simp [htop.1.all])]
      rw [Bool.not_eq_true] at hv
      by_cases hi : s.insertable top R.entry = true
      · rw [if_neg (by simp [hi])]
        have hin := (insertable_iff h).1 hi
        have hnode := h.unplaced top htop.1.mem hv
        by_cases hcond : (s.node top).op = .cond ∧ ternaries = true
        · rw [if_pos hcond]
          have hw : ∀ c ∈ conds ++ [top], Waiting g s R c := by
            intro c hm
            rcases List.mem_append.1 hm with hm | hm
            · exact hc c hm
            · rw [List.mem_singleton.1 hm]
              exact ⟨htop.1.mem, hv, htop.1.all, by rw [← hnode]; exact hcond.1, hin, htop.2.2⟩
          obtain ⟨s', d, cs, h1, h2, h3, h4, h5, h6, h7, h8⟩ := drain_ok hg n s queue deferred (conds ++ [top]) h hz hq' hw (fun _ => hcond.2) hn'
          refine ⟨s', d, top :: cs, by simpa using h1, h2, h3, h4, h5, by simpa using h6, fun pend hp => ?_, fun _ => hcond.2⟩
          intro a ha hva hall
          have hp2 : Complete g s (queue ++ (top :: pend)) := fun a ha hva hall => by
            have := hp a ha hva hall
            simp only [List.mem_append, List.mem_cons] at this ⊢
            tauto
          have := h7 _ hp2 a ha hva hall
          simp only [List.mem_append, List.mem_cons] at this ⊢
          tauto
        · rw [if_neg hcond]
          have hext := place_ext h (U := R.entry) htop.1.mem hv
          have hinv := h.place hg htop.1.mem hv htop.1.all hin
            (fun ht hc => hcond ⟨by rw [hnode]; exact hc, ht⟩) htop.2.1
          have hlazy := hz.place hg h htop.1.mem hv htop.2.2
          have hready : ∀ q ∈ (s.place top R.entry).ready top, Ready g (s.place top R.entry) q ∧ (q ∈ (g.node top).args) := by
            intro q hm
            simp only [ready, List.mem_filter, Bool.and_eq_true] at hm
            have hm1 : q ∈ (g.node top).args := by rw [← hnode]; exact hm.1
            exact ⟨⟨hg.wf.closed top htop.1.mem q hm1, hm.2.2⟩, hm1⟩
          have hqs : ∀ q ∈ queue ++ (s.place top R.entry).ready top,
              Ready g (s.place top R.entry) q ∧ SaveAt g usage (plug fs R) R.entry q ∧ Due g (s.place top R.entry) R q := by
            intro q hm
            rcases List.mem_append.1 hm with hm | hm
            · exact ⟨(hq' q hm).1.ext hext, (hq' q hm).2.1, (hq' q hm).2.2.ext hext⟩
            · have hcons : ∃ u ∈ (s.place top R.entry).live, q ∈ ((s.place top R.entry).node u).args ∧
                  ∃ b, (s.place top R.entry).parent u = some b ∧ b = R.entry :=
                ⟨top, h.mem top htop.1.mem, by change q ∈ (s.node top).args; rw [hnode]; exact (hready q hm).2, R.entry, by simp [Conv.place], rfl⟩
              refine ⟨(hready q hm).1, fun k hk => absurd hk (hg.conv.sinks top htop.1.mem q (hready q hm).2 k), fun L hL => ?_, .inr ?_⟩
              · obtain ⟨u, hu, ha, b, hp, rfl⟩ := hcons
                exact ⟨u, hu, ha, _, hp, R.entry_arms hRn L hL⟩
              · obtain ⟨u, hu, ha, b, hp, rfl⟩ := hcons
                exact ⟨u, hu, ha, _, hp, R.entry_mem⟩
          have hsame : Same s (s.place top R.entry) := ⟨rfl, rfl, rfl, rfl, rfl, rfl⟩
          have hws : ∀ c ∈ conds, Waiting g (s.place top R.entry) R c := by
            intro c hm
            refine (hc c hm).ext hext hsame ?_
            have hne : c ≠ top := by
              rintro rfl
              exact hcond ⟨by rw [hnode]; exact (hc _ hm).cond, ht (List.ne_nil_of_mem hm)⟩
            simpa [Conv.place, updateAt_ne _ _ hne] using (hc c hm).not
          have hturn : turnsLeft (s.place top R.entry) (queue ++ (s.place top R.entry).ready top) ≤ n := by
            have h1 := (sum_place (f := fun v => (s.node v).args.length) hv s.live).2 (h.mem top htop.1.mem)
            have h2 : ((s.place top R.entry).ready top).length ≤ (s.node top).args.length := List.length_filter_le _ _
            simp only [turnsLeft, List.length_cons, List.length_append] at hn ⊢
            change queue.length + ((s.place top R.entry).ready top).length +
              (s.live.map fun v => if updateAt s.visited top true v then 0 else (s.node v).args.length).sum ≤ n
            omega
          obtain ⟨s', d, cs, h1, h2, h3, h4, h5, h6, h7, h8⟩ := drain_ok hg n (s.place top R.entry) _ deferred conds hinv hlazy hqs hws ht hturn
          refine ⟨s', d, cs, h1, h2, hext.trans h3, ?_, h5, h6, fun pend hp => ?_, h8⟩
          · exact ⟨h4.node, h4.live, h4.next, h4.anc, h4.desc, h4.blocks⟩
          · apply h7
            intro a ha hva hall
            have hat : a ≠ top := by rintro rfl; simp [Conv.place] at hva
            have hva' : s.visited a = false := by simpa [Conv.place, updateAt_ne _ _ hat] using hva
            by_cases ho : s.allVisited a = true
            · have := hp a ha hva' ho
              simp only [List.cons_append, List.mem_cons, List.mem_append, hat, false_or] at this
              simp only [List.mem_append]
              tauto
            · -- it became ready by this step
              have hmem : a ∈ (s.node top).args := by
                by_contra hna
                apply ho
                rw [allVisited_iff] at hall ⊢
                intro u hu hau
                have hut : u ≠ top := by rintro rfl; exact hna hau
                simpa [Conv.place, updateAt_ne _ _ hut] using hall u hu hau
              have : a ∈ (s.place top R.entry).ready top := by
                simp only [ready, List.mem_filter, Bool.and_eq_true, Bool.not_eq_true']
                exact ⟨hmem, hva, hall⟩
              simp only [List.mem_append]
              tauto
      · rw [if_pos (by simp [hi])]
        obtain ⟨s', d, cs, h1, h2, h3, h4, h5, h6, h7, h8⟩ := drain_ok hg n s queue (deferred ++ [top]) conds h hz hq' hc ht hn'
        have hout : Outside s R top := h.outside_of_not htop.1.all fun hin => hi ((insertable_iff h).2 hin)
        have hhas : HasIn s R top := by
          refine htop.2.2.has.resolve_left ?_
          rintro ⟨k, hk⟩
          obtain ⟨u, hu, ha, _⟩ := hout
          exact h.arg_not_save hg hu htop.1.mem ha k hk
        refine ⟨s', top :: d, cs, by simpa using h1, h2, h3, h4, ?_, h6, fun pend hp => ?_, h8⟩
        · intro q hm
          rcases List.mem_cons.1 hm with rfl | hm
          · exact ⟨htop.1.ext h3, hout.ext h3, hhas.ext h3 fun _ h => h⟩
          · exact h5 q hm
        · have hp2 : Complete g s (queue ++ (top :: pend)) := fun a ha hva hall => by
            have := hp a ha hva hall
            simp only [List.mem_append, List.mem_cons] at this ⊢
            tauto
          intro a ha hva hall
          have := h7 _ hp2 a ha hva hall
          simp only [List.mem_append, List.mem_cons] at this ⊢
          tauto

end Wf.Gen
