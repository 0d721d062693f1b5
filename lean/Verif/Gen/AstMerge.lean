import Verif.Gen.AstModel
import Verif.Gen.FlowRegion
import Verif.Gen.FlowInv
import Mathlib.Tactic.ByContra

/-!
# The search for the block where two arms join (used in proofs)
-/

namespace Wf.Gen

open Conv

variable {desc : Nat → List Nat}

/-- The blocks of the arm with the colour. -/
def Arm (T F : Nat → Prop) (c : Bool) (x : Nat) : Prop := if c then T x else F x

/-- Where a colour may be found: in its arm, at the join, or later if the join has the colour. -/
def Colour (T F Y : Nat → Prop) (M : Nat) (visited : Nat → Option Bool) (c : Bool) (x : Nat) : Prop :=
  Arm T F c x ∨ x = M ∨ (Y x ∧ visited M = some c)

/-- Two arms that join at `M`; `Y` are the blocks after it. -/
structure Join (desc : Nat → List Nat) (w : Nat → Nat) (T F Y : Nat → Prop) (M : Nat) : Prop where
  next : ∀ c x, Arm T F c x → desc x ≠ [] ∧ ∀ d ∈ desc x, Arm T F c d ∨ d = M
  merge : ∀ d ∈ desc M, Y d
  beyond : ∀ x, Y x → ∀ d ∈ desc x, Y d
  disjoint : ∀ x, ¬ (T x ∧ F x)
  notM : ∀ c x, Arm T F c x → x ≠ M ∧ ¬ Y x
  notY : ¬ Y M
  weight : ∀ x, (∃ c, Arm T F c x) ∨ x = M ∨ Y x → ((desc x).map w).sum < w x

theorem mergeLoop_ok {w : Nat → Nat} {T F Y : Nat → Prop} {M : Nat} (h : Join desc w T F Y M) : ∀ (n : Nat) (queue : List (Nat × Bool)) (visited : Nat → Option Bool),
    (queue.map fun p => w p.1).sum ≤ n → (∀ p ∈ queue, Colour T F Y M visited p.2 p.1) → (∀ x c, visited x = some c → Colour T F Y M visited c x) →
    (∀ c, visited M = some c ∨ ∃ x, (x, c) ∈ queue ∧ (x = M ∨ Arm T F c x)) → mergeLoop desc n queue visited = .ok M
  | n, [], visited, _, _, _, h3 => by
    exfalso
    rcases h3 true with h1 | ⟨x, h1, _⟩
    · rcases h3 false with h2 | ⟨x, h2, _⟩
      · rw [h1] at h2; cases h2
      · cases h2
    · cases h1
  | 0, (b, c) :: queue, visited, hw, h1, _, _ => by
    exfalso
    have : ((desc b).map w).sum < w b := by
      refine h.weight b ?_
      rcases h1 (b, c) List.mem_cons_self with hc | hc | hc
      · exact .inl ⟨c, hc⟩
      · exact .inr (.inl hc)
      · exact .inr (.inr hc.1)
    simp only [List.map_cons, List.sum_cons] at hw
    omega
  | n + 1, (b, c) :: queue, visited, hw, h1, h2, h3 => by
    have hb := h1 (b, c) List.mem_cons_self
    have hwt : ((desc b).map w).sum < w b := by
      refine h.weight b ?_
      rcases hb with hc | hc | hc
      · exact .inl ⟨c, hc⟩
      · exact .inr (.inl hc)
      · exact .inr (.inr hc.1)
    have hnext : (visited b = none ∨ visited b = some c) →
        mergeLoop desc n (queue ++ (desc b).map fun d => (d, c)) (updateAt visited b (some c)) = .ok M := by
      intro hv
      have hM : ∀ e, visited M = some e → updateAt visited b (some c) M = some e := by
        intro e he
        by_cases hMb : M = b
        · subst hMb
          rcases hv with hv | hv
          · rw [hv] at he; cases he
          · rw [hv] at he; cases he; simp
        · rw [updateAt_ne _ _ hMb]; exact he
      have hcol : ∀ e x, Colour T F Y M visited e x → Colour T F Y M (updateAt visited b (some c)) e x := by
        rintro e x (h | h | ⟨h, h'⟩)
        · exact .inl h
        · exact .inr (.inl h)
        · exact .inr (.inr ⟨h, hM e h'⟩)
      refine mergeLoop_ok h n _ _ ?_ ?_ ?_ ?_
      · simp only [List.map_cons, List.sum_cons] at hw
        simp only [List.map_append, List.map_map, List.sum_append]
        have : (List.map ((fun p : Nat × Bool => w p.1) ∘ fun d => (d, c)) (desc b)).sum = ((desc b).map w).sum := rfl
        omega
      · intro p hp
        rcases List.mem_append.1 hp with hp | hp
        · exact hcol _ _ (h1 p (List.mem_cons_of_mem _ hp))
        · obtain ⟨d, hd, rfl⟩ := List.mem_map.1 hp
          rcases hb with hb | hb | ⟨hb, hb'⟩
          · rcases (h.next c b hb).2 d hd with h' | h'
            · exact .inl h'
            · exact .inr (.inl h')
          · simp only at hb
            subst hb
            exact .inr (.inr ⟨h.merge d hd, by simp⟩)
          · exact .inr (.inr ⟨h.beyond b hb d hd, hM c hb'⟩)
      · intro x e hx
        by_cases hxb : x = b
        · subst hxb
          simp only [updateAt_same, Option.some.injEq] at hx
          subst hx
          exact hcol _ _ hb
        · rw [updateAt_ne _ _ hxb] at hx
          exact hcol _ _ (h2 x e hx)
      · intro e
        rcases h3 e with he | ⟨x, hx, hx'⟩
        · exact .inl (hM e he)
        · rcases List.mem_cons.1 hx with hx | hx
          · cases hx
            rcases hx' with rfl | hx'
            · exact .inl (by simp)
            · right
              obtain ⟨hne, hd⟩ := h.next c b hx'
              obtain ⟨d, hdm⟩ := List.exists_mem_of_ne_nil _ hne
              exact ⟨d, List.mem_append_right _ (List.mem_map.2 ⟨d, hdm, rfl⟩), (hd d hdm).symm⟩
          · exact .inr ⟨x, List.mem_append_left _ hx, hx'⟩
    rw [mergeLoop]
    cases hv : visited b with
    | none => exact hnext (.inl hv)
    | some c' =>
      simp only
      by_cases hcc : c' = c
      · rw [if_pos hcc]
        have := hnext (.inr (by rw [hv, hcc]))
        have e : updateAt visited b (some c) = visited := by
          funext d
          by_cases hd : d = b
          · subst hd; rw [updateAt_same, hv, hcc]
          · rw [updateAt_ne _ _ hd]
        rw [e] at this
        exact this
      · rw [if_neg hcc]
        congr 1
        by_contra hbM
        have hb' := h2 b c' hv
        have harm : ∀ e e', e ≠ e' → Arm T F e b → ¬ Arm T F e' b := by
          intro e e' hee h4 h5
          cases e <;> cases e' <;> simp only [Arm, if_true, if_false, Bool.false_eq_true] at h4 h5
          · exact hee rfl
          · exact h.disjoint b ⟨h5, h4⟩
          · exact h.disjoint b ⟨h4, h5⟩
          · exact hee rfl
        rcases hb with h4 | h4 | ⟨h4, h4'⟩ <;> rcases hb' with h5 | h5 | ⟨h5, h5'⟩
        · exact harm _ _ hcc h5 h4
        · exact hbM h5
        · exact (h.notM _ _ h4).2 h5
        · exact hbM h4
        · exact hbM h4
        · exact hbM h4
        · exact (h.notM _ _ h5).2 h4
        · exact hbM h5
        · rw [h4'] at h5'
          exact hcc (Option.some.inj h5').symm

/-- Edges lead to later blocks. -/
def Later (desc : Nat → List Nat) : List Nat → Prop
  | [] => True
  | x :: L => (∀ d ∈ desc x, d ∈ L) ∧ (desc x).length ≤ 2 ∧ Later desc L

theorem later_append {anc : Nat → List Nat} : ∀ (R : Reg) (X : List Nat), Lay anc desc R → (∀ d ∈ desc R.exit, d ∈ X) → (desc R.exit).length ≤ 2 → Later desc X →
    Later desc (R.blocks ++ X)
  | .last b, X, _, h1, h2, h3 => ⟨h1, h2, h3⟩
  | .ite b l r rest, X, hl, h1, h2, h3 => by
    simp only [Lay] at hl
    obtain ⟨l1, l2, l3, l4, l5, l6, l7, l8, l9⟩ := hl
    have hrest := later_append rest X l9 h1 h2 h3
    have hr := later_append r _ l8 (by rw [l5]; intro d hd; rw [List.mem_singleton.1 hd]; exact List.mem_append_left _ rest.entry_mem) (by rw [l5]; simp) hrest
    have hl := later_append l _ l7 (by rw [l4]; intro d hd; rw [List.mem_singleton.1 hd]; exact List.mem_append_right _ (List.mem_append_left _ rest.entry_mem))
      (by rw [l4]; simp) hr
    simp only [Reg.blocks, List.cons_append, List.append_assoc]
    refine ⟨?_, by rw [l1]; simp, hl⟩
    rw [l1]
    intro d hd
    simp only [List.mem_cons, List.not_mem_nil, or_false] at hd
    rcases hd with rfl | rfl
    · exact List.mem_append_left _ l.entry_mem
    · exact List.mem_append_right _ (List.mem_append_left _ r.entry_mem)
  | .opt b k l rest, X, hl, h1, h2, h3 => by
    simp only [Lay] at hl
    obtain ⟨l1, l2, l4, l6, l7, l9⟩ := hl
    have hrest := later_append rest X l9 h1 h2 h3
    have hl := later_append l _ l7 (by rw [l4]; intro d hd; rw [List.mem_singleton.1 hd]; exact List.mem_append_left _ rest.entry_mem)
      (by rw [l4]; simp) hrest
    simp only [Reg.blocks, List.cons_append, List.append_assoc]
    refine ⟨?_, by rw [l1]; simp, hl⟩
    rw [l1]
    intro d hd
    simp only [List.mem_cons, List.not_mem_nil, or_false] at hd
    rcases hd with rfl | rfl
    · exact List.mem_append_left _ l.entry_mem
    · exact List.mem_append_right _ (List.mem_append_left _ rest.entry_mem)

/-- How much work a block may cause. -/
def weight (L : List Nat) (x : Nat) : Nat := 2 ^ (L.length - L.idxOf x) - 1

theorem Later.index : ∀ {L : List Nat}, Later desc L → L.Nodup → ∀ {x d : Nat}, x ∈ L → d ∈ desc x → d ∈ L ∧ L.idxOf x < L.idxOf d
  | [], _, _, _, _, hx, _ => by cases hx
  | y :: L, h, hn, x, d, hx, hd => by
    rw [List.nodup_cons] at hn
    by_cases hxy : x = y
    · subst hxy
      have := h.1 d hd
      have hne : x ≠ d := by rintro rfl; exact hn.1 this
      refine ⟨List.mem_cons_of_mem _ this, ?_⟩
      rw [List.idxOf_cons_self, List.idxOf_cons_ne _ hne]
      omega
    · have hx := (List.mem_cons.1 hx).resolve_left hxy
      obtain ⟨h1, h2⟩ := h.2.2.index hn.2 hx hd
      have hne : y ≠ d := by rintro rfl; exact hn.1 h1
      refine ⟨List.mem_cons_of_mem _ h1, ?_⟩
      rw [List.idxOf_cons_ne _ hne, List.idxOf_cons_ne _ (Ne.symm hxy)]
      omega

theorem Later.two : ∀ {L : List Nat}, Later desc L → ∀ {x : Nat}, x ∈ L → (desc x).length ≤ 2
  | [], _, _, hx => by cases hx
  | y :: L, h, x, hx => by
    rcases List.mem_cons.1 hx with rfl | hx
    · exact h.2.1
    · exact h.2.2.two hx

theorem Later.weight {L : List Nat} (h : Later desc L) (hn : L.Nodup) {x : Nat} (hx : x ∈ L) : ((desc x).map (weight L)).sum < weight L x := by
  have hlt := List.idxOf_lt_length_iff.2 hx
  obtain ⟨k, hk⟩ : ∃ k, L.length - L.idxOf x = k + 1 := ⟨L.length - L.idxOf x - 1, by omega⟩
  have hle : ∀ d ∈ desc x, Wf.Gen.weight L d ≤ 2 ^ k - 1 := by
    intro d hd
    obtain ⟨_, h2⟩ := h.index hn hx hd
    have : 2 ^ (L.length - L.idxOf d) ≤ 2 ^ k := Nat.pow_le_pow_right (by decide) (by omega)
    unfold Wf.Gen.weight
    omega
  have h2 := h.two hx
  have hx : Wf.Gen.weight L x = 2 ^ k * 2 - 1 := by rw [Wf.Gen.weight, hk, Nat.pow_succ]
  have hpos : 1 ≤ 2 ^ k := Nat.one_le_two_pow
  rw [hx]
  match hd : desc x, h2 with
  | [], _ => simp; omega
  | [a], _ =>
    have := hle a (by rw [hd]; simp)
    simp; omega
  | [a, b], _ =>
    have h3 := hle a (by rw [hd]; simp)
    have h4 := hle b (by rw [hd]; simp)
    simp; omega

theorem weight_le (L : List Nat) (x : Nat) : weight L x ≤ 2 ^ L.length - 1 := by
  have : 2 ^ (L.length - L.idxOf x) ≤ 2 ^ L.length := Nat.pow_le_pow_right (by decide) (by omega)
  unfold weight
  omega

/-- The blocks of an arm lead to blocks of the arm or to the join. -/
theorem arm_next {anc : Nat → List Nat} {m : Nat} : ∀ (R : Reg), Lay anc desc R → desc R.exit = [m] → ∀ x ∈ R.blocks, desc x ≠ [] ∧ ∀ d ∈ desc x, d ∈ R.blocks ∨ d = m
  | .last b, _, h, x, hx => by
    have : x = b := by simpa [Reg.blocks] using hx
    subst this
    have h : desc x = [m] := h
    rw [h]
    exact ⟨by simp, fun d hd => .inr (List.mem_singleton.1 hd)⟩
  | .ite b l r rest, hl, h, x, hx => by
    simp only [Lay] at hl
    obtain ⟨l1, l2, l3, l4, l5, l6, l7, l8, l9⟩ := hl
    simp only [Reg.blocks, List.mem_cons, List.mem_append] at hx ⊢
    rcases hx with rfl | (hx | hx) | hx
    · rw [l1]
      refine ⟨by simp, fun d hd => .inl ?_⟩
      simp only [List.mem_cons, List.not_mem_nil, or_false] at hd
      rcases hd with rfl | rfl
      · exact .inr (.inl (.inl l.entry_mem))
      · exact .inr (.inl (.inr r.entry_mem))
    · obtain ⟨h1, h2⟩ := arm_next l l7 l4 x hx
      refine ⟨h1, fun d hd => .inl ?_⟩
      rcases h2 d hd with h | rfl
      · exact .inr (.inl (.inl h))
      · exact .inr (.inr rest.entry_mem)
    · obtain ⟨h1, h2⟩ := arm_next r l8 l5 x hx
      refine ⟨h1, fun d hd => .inl ?_⟩
      rcases h2 d hd with h | rfl
      · exact .inr (.inl (.inr h))
      · exact .inr (.inr rest.entry_mem)
    · obtain ⟨h1, h2⟩ := arm_next rest l9 h x hx
      exact ⟨h1, fun d hd => (h2 d hd).imp (fun h => .inr (.inr h)) id⟩
  | .opt b k l rest, hl, h, x, hx => by
    simp only [Lay] at hl
    obtain ⟨l1, l2, l4, l6, l7, l9⟩ := hl
    simp only [Reg.blocks, List.mem_cons, List.mem_append] at hx ⊢
    rcases hx with rfl | hx | hx
    · rw [l1]
      refine ⟨by simp, fun d hd => .inl ?_⟩
      simp only [List.mem_cons, List.not_mem_nil, or_false] at hd
      rcases hd with rfl | rfl
      · exact .inr (.inl l.entry_mem)
      · exact .inr (.inr rest.entry_mem)
    · obtain ⟨h1, h2⟩ := arm_next l l7 l4 x hx
      refine ⟨h1, fun d hd => .inl ?_⟩
      rcases h2 d hd with h | rfl
      · exact .inr (.inl h)
      · exact .inr (.inr rest.entry_mem)
    · obtain ⟨h1, h2⟩ := arm_next rest l9 h x hx
      exact ⟨h1, fun d hd => (h2 d hd).imp (fun h => .inr (.inr h)) id⟩

/-- Two arms, of which the second may be empty. -/
theorem merge_join {s : Conv} {l rest : Reg} {rb X : List Nat} {re : Nat} (hl : Lay s.anc s.desc l) (hdl : s.desc l.exit = [rest.entry])
    (hr : ∀ x ∈ rb, s.desc x ≠ [] ∧ ∀ d ∈ s.desc x, d ∈ rb ∨ d = rest.entry) (hre : re ∈ rb ∨ re = rest.entry)
    (hrest : rest.blocks = rest.entry :: rest.blocks.tail) (hlater : Later s.desc (l.blocks ++ (rb ++ (rest.blocks ++ X))))
    (hn : (l.blocks ++ (rb ++ (rest.blocks ++ X))).Nodup) (hlen : (l.blocks ++ (rb ++ (rest.blocks ++ X))).length ≤ s.blocks) :
    s.mergePoint l.entry re = .ok rest.entry := by
  have hlater' : Later s.desc (rest.blocks ++ X) := by
    have : ∀ (A B : List Nat), Later s.desc (A ++ B) → Later s.desc B := by
      intro A
      induction A with
      | nil => exact fun B h => h
      | cons a A ih => exact fun B h => ih B h.2.2
    exact this rb _ (this l.blocks _ hlater)
  have hn0 := hn
  rw [List.nodup_append] at hn
  obtain ⟨_, hn1, hd1⟩ := hn
  rw [List.nodup_append] at hn1
  obtain ⟨_, hn2, hd2⟩ := hn1
  have hMmem : rest.entry ∈ rest.blocks ++ X := List.mem_append_left _ rest.entry_mem
  have hY : ∀ x ∈ rest.blocks ++ X, ∀ d ∈ s.desc x, d ∈ rest.blocks ++ X ∧ d ≠ rest.entry := by
    intro x hx d hd
    obtain ⟨h1, h2⟩ := hlater'.index hn2 hx hd
    refine ⟨h1, ?_⟩
    rintro rfl
    rw [hrest, List.cons_append, List.idxOf_cons_self] at h2
    omega
  have hall : ∀ x, (x ∈ l.blocks ∨ x ∈ rb ∨ x ∈ rest.blocks ++ X) → x ∈ l.blocks ++ (rb ++ (rest.blocks ++ X)) := by
    intro x hx
    simp only [List.mem_append] at hx ⊢
    exact hx
  have hjoin : Join s.desc (weight (l.blocks ++ (rb ++ (rest.blocks ++ X)))) (· ∈ l.blocks) (· ∈ rb) (fun y => y ∈ rest.blocks ++ X ∧ y ≠ rest.entry)
      rest.entry := by
    refine ⟨?_, ?_, ?_, ?_, ?_, ?_, ?_⟩
    · intro c x hx
      cases c with
      | true => exact arm_next l hl hdl x hx
      | false => exact hr x hx
    · exact fun d hd => hY _ hMmem d hd
    · exact fun x hx d hd => hY x hx.1 d hd
    · rintro x ⟨h1, h2⟩
      exact hd1 x h1 x (List.mem_append_left _ h2) rfl
    · intro c x hx
      cases c with
      | true =>
        refine ⟨?_, fun h => hd1 x hx x (List.mem_append_right _ h.1) rfl⟩
        rintro rfl
        exact hd1 _ hx _ (List.mem_append_right _ hMmem) rfl
      | false =>
        refine ⟨?_, fun h => hd2 x hx x h.1 rfl⟩
        rintro rfl
        exact hd2 _ hx _ hMmem rfl
    · exact fun h => h.2 rfl
    · intro x hx
      refine Later.weight hlater hn0 (hall x ?_)
      rcases hx with ⟨c, hc⟩ | rfl | hx
      · cases c with
        | true => exact .inl hc
        | false => exact .inr (.inl hc)
      · exact .inr (.inr hMmem)
      · exact .inr (.inr hx.1)
  refine mergeLoop_ok hjoin _ _ _ ?_ ?_ ?_ ?_
  · have h1 := weight_le (l.blocks ++ (rb ++ (rest.blocks ++ X))) l.entry
    have h2 := weight_le (l.blocks ++ (rb ++ (rest.blocks ++ X))) re
    have h3 : 2 ^ (l.blocks ++ (rb ++ (rest.blocks ++ X))).length ≤ 2 ^ s.blocks := Nat.pow_le_pow_right (by decide) hlen
    have h4 : 2 ^ (s.blocks + 2) = 2 ^ s.blocks * 4 := by rw [Nat.pow_add]
    simp only [List.map_cons, List.map_nil, List.sum_cons, List.sum_nil]
    omega
  · intro p hp
    simp only [List.mem_cons, List.not_mem_nil, or_false] at hp
    rcases hp with rfl | rfl
    · exact .inl l.entry_mem
    · rcases hre with h | h
      · exact .inl h
      · exact .inr (.inl h)
  · exact fun x c h => nomatch h
  · intro c
    right
    cases c with
    | true => exact ⟨l.entry, by simp, .inr l.entry_mem⟩
    | false => exact ⟨re, by simp, hre.symm⟩

theorem Reg.blocks_cons (R : Reg) : R.blocks = R.entry :: R.blocks.tail := by cases R <;> rfl

end Wf.Gen
