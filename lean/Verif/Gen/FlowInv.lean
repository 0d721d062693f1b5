import Verif.Gen.FlowScope

/-!
# The invariant of the conversion (used in proofs)
-/

namespace Wf.Gen

open Conv

/-- The input. -/
structure Input (g : Graph) : Prop where
  wf : WF g
  order : InOrder g
  conv : Convertible g

theorem Input.not_self {g : Graph} (hg : Input g) {v : Nat} (hv : v ∈ g.ops) : v ∉ (g.node v).args := by
  intro ha
  obtain ⟨l, l', h⟩ := List.append_of_mem hv
  have h1 := hg.order l v l' h v ha
  have h2 := hg.wf.nodup
  rw [h, List.nodup_append] at h2
  exact h2.2.2 v h1 v List.mem_cons_self rfl

/-- Values made by the conversion: copies of input values, jumps and the question whether an output is wanted. -/
def Made (g : Graph) (s : Conv) (v : Nat) : Prop :=
  s.parent v ≠ none ∧
    ((∃ a ∈ g.ops, s.node v = ⟨.copy, [a]⟩ ∧ s.visited v = true ∧ ∀ k, (g.node a).op ≠ .save k) ∨
      (∃ c ∈ g.ops, s.node v = ⟨.jump, [c]⟩ ∧ s.visited v = true ∧ ∀ k, (g.node c).op ≠ .save k) ∨
      (∃ k, s.node v = ⟨.outputRequired k, []⟩) ∨ (∃ u k, s.node v = ⟨.jump, [u]⟩ ∧ u ∉ g.ops ∧ s.node u = ⟨.outputRequired k, []⟩))

/-- A conditional that became a phi function after a branch on its condition. -/
def PhiOf (g : Graph) (s : Conv) (c l r v : Nat) : Prop :=
  s.parent v ≠ none ∧ ∃ x y a b, s.node v = ⟨.phi, [x, y]⟩ ∧ s.node x = ⟨.copy, [a]⟩ ∧ s.node y = ⟨.copy, [b]⟩ ∧ g.node v = ⟨.cond, [c, a, b]⟩ ∧
    x ∈ s.ops l ∧ y ∈ s.ops r

structure Inv (g : Graph) (usage : Nat → Usage) (ternaries : Bool) (s : Conv) (W : Reg) : Prop where
  mem : ∀ v ∈ g.ops, v ∈ s.live
  lt : ∀ v ∈ s.live, v < s.next
  closed : ∀ v ∈ s.live, ∀ a ∈ (s.node v).args, a ∈ s.live
  made : ∀ v ∈ s.live, v ∉ g.ops → Made g s v
  unplaced : ∀ v ∈ g.ops, s.visited v = false → s.node v = g.node v
  placed : ∀ v ∈ g.ops, s.visited v = true → (s.node v = g.node v ∧ (ternaries = true → (g.node v).op ≠ .cond)) ∨
    (∃ x y, s.node v = ⟨.phi, [x, y]⟩ ∧ x ∉ g.ops ∧ y ∉ g.ops ∧ (g.node v).op = .cond)
  vis : ∀ v ∈ g.ops, (s.visited v = true ↔ s.parent v ≠ none)
  live : ∀ v, s.parent v ≠ none → v ∈ s.live
  ops : ∀ b v, v ∈ s.ops b ↔ s.parent v = some b
  nodup : ∀ b, (s.ops b).Nodup
  up : ∀ a ∈ g.ops, s.visited a = true → s.allVisited a = true
  blocks : ∀ b, b ∈ W.blocks ↔ b < s.blocks
  nodupW : W.blocks.Nodup
  parent : ∀ v b, s.parent v = some b → b ∈ W.blocks
  lay : Lay s.anc s.desc W
  root : s.anc W.entry = []
  stop : s.desc W.exit = []
  scope : Scoped s (PhiOf g s) (fun a => s.parent a = none) (fun _ => False) W
  saves : ∀ v ∈ g.ops, ∀ k b, (g.node v).op = .save k → s.parent v = some b → (b, if usage k = .optional then some k else none) ∈ W.exits

/-- What later steps keep. -/
structure Ext (g : Graph) (s s' : Conv) : Prop where
  visited : ∀ v, s.visited v = true → s'.visited v = true
  parent : ∀ v b, s.parent v = some b → s'.parent v = some b
  node : ∀ v, s.parent v ≠ none → s'.node v = s.node v
  live : ∀ v ∈ s.live, v ∈ s'.live
  ops : ∀ b, ∀ v ∈ s.ops b, v ∈ s'.ops b
  all : ∀ a ∈ g.ops, s.allVisited a = true → s'.allVisited a = true
  blocks : s.blocks ≤ s'.blocks

variable {g : Graph} {usage : Nat → Usage} {ternaries : Bool} {s s' s'' : Conv} {W : Reg}

theorem Ext.refl (g : Graph) (s : Conv) : Ext g s s :=
  ⟨fun _ h => h, fun _ _ h => h, fun _ _ => rfl, fun _ h => h, fun _ _ h => h, fun _ _ h => h, le_rfl⟩

theorem Ext.trans (h : Ext g s s') (h' : Ext g s' s'') : Ext g s s'' where
  visited v hv := h'.visited v (h.visited v hv)
  parent v b hv := h'.parent v b (h.parent v b hv)
  node v hv := by
    cases hp : s.parent v with
    | none => exact absurd hp hv
    | some b =>
      rw [h'.node v (by rw [h.parent v b hp]; simp), h.node v hv]
  live v hv := h'.live v (h.live v hv)
  ops b v hv := h'.ops b v (h.ops b v hv)
  all a ha hv := h'.all a ha (h.all a ha hv)
  blocks := h.blocks.trans h'.blocks

theorem allVisited_iff {v : Nat} : s.allVisited v = true ↔ ∀ u ∈ s.live, v ∈ (s.node u).args → s.visited u = true := by
  simp only [allVisited, consumers, List.all_eq_true, List.mem_filter, decide_eq_true_eq]
  exact ⟨fun h u hu ha => h u ⟨hu, ha⟩, fun h u hu => h u hu.1 hu.2⟩

theorem PhiOf.mono (h : Inv g usage ternaries s W) (he : Ext g s s') {c l r v : Nat} (hp : PhiOf g s c l r v) : PhiOf g s' c l r v := by
  obtain ⟨h0, x, y, a, b, h1, h2, h3, h4, h5, h6⟩ := hp
  have hx : s.parent x ≠ none := by rw [(h.ops _ _).1 h5]; simp
  have hy : s.parent y ≠ none := by rw [(h.ops _ _).1 h6]; simp
  refine ⟨?_, x, y, a, b, ?_, ?_, ?_, h4, he.ops _ _ h5, he.ops _ _ h6⟩
  · cases hp : s.parent v with
    | none => exact absurd hp h0
    | some b => rw [he.parent v b hp]; simp
  · rw [he.node v h0]; exact h1
  · rw [he.node x hx]; exact h2
  · rw [he.node y hy]; exact h3

@[simp] theorem updateAt_same {α : Type} (f : Nat → α) (i : Nat) (x : α) : updateAt f i x i = x := by simp [updateAt]

theorem updateAt_ne {α : Type} (f : Nat → α) {i j : Nat} (x : α) (h : j ≠ i) : updateAt f i x j = f j := by simp [updateAt, h]

/-- A value that is not visited is not placed. -/
theorem Inv.parent_none (h : Inv g usage ternaries s W) {v : Nat} (hv : v ∈ g.ops) (hn : s.visited v = false) : s.parent v = none := by
  by_contra hc
  rw [(h.vis v hv).2 hc] at hn
  exact absurd hn (by decide)

/-- The operands of a value that is not visited are not visited. -/
theorem Inv.arg_unvisited (h : Inv g usage ternaries s W) {u a : Nat} (hu : u ∈ s.live) (hn : s.visited u = false) (ha : a ∈ (s.node u).args)
    (hag : a ∈ g.ops) : s.visited a = false := by
  by_contra hc
  rw [Bool.not_eq_false] at hc
  have := allVisited_iff.1 (h.up a hag hc) u hu ha
  rw [hn] at this
  exact absurd this (by decide)

section Place

variable {v : Nat}

theorem place_ext (h : Inv g usage ternaries s W) {U : Nat} (hv : v ∈ g.ops) (hn : s.visited v = false) : Ext g s (s.place v U) := by
  have hp := h.parent_none hv hn
  refine ⟨fun u hu => ?_, fun u b hu => ?_, fun _ _ => rfl, fun _ h => h, fun b u hu => ?_, fun a _ hall => ?_, le_rfl⟩
  · by_cases huv : u = v
    · subst huv; simp [place]
    · simpa [place, updateAt_ne _ _ huv] using hu
  · have huv : u ≠ v := by rintro rfl; rw [hp] at hu; cases hu
    simpa [place, updateAt_ne _ _ huv] using hu
  · by_cases hb : b = U
    · subst hb; simp [place, hu]
    · simpa [place, updateAt_ne _ _ hb] using hu
  · rw [allVisited_iff] at hall ⊢
    intro u hu ha
    by_cases huv : u = v
    · subst huv; simp [place]
    · simpa [place, updateAt_ne _ _ huv] using hall u hu ha

theorem Inv.place (hg : Input g) {fs : List Frame} {R : Reg} (h : Inv g usage ternaries s (plug fs R)) (hv : v ∈ g.ops)
    (hn : s.visited v = false) (hall : s.allVisited v = true)
    (hin : ∀ u ∈ s.live, v ∈ (s.node u).args → ∃ b ∈ R.blocks, s.parent u = some b) (hc : ternaries = true → (g.node v).op ≠ .cond)
    (hs : ∀ k, (g.node v).op = .save k → (R.entry, if usage k = .optional then some k else none) ∈ (plug fs R).exits) :
    Inv g usage ternaries (s.place v R.entry) (plug fs R) := by
  have hp := h.parent_none hv hn
  have he := place_ext h (U := R.entry) hv hn
  have hnode : s.node v = g.node v := h.unplaced v hv hn
  have hctx : ∀ b ∈ ctxBlocks fs, b ∉ R.blocks := by
    intro b hb hb'
    have := nodup_plug h.nodupW
    rw [List.nodup_append] at this
    exact this.2.2 b hb' b hb rfl
  have hRn : R.blocks.Nodup := by
    have := nodup_plug h.nodupW
    rw [List.nodup_append] at this
    exact this.1
  have hvU : ∀ b, v ∉ s.ops b := by
    intro b hb
    rw [h.ops, hp] at hb
    cases hb
  refine ⟨h.mem, h.lt, h.closed, ?_, ?_, ?_, ?_, ?_, ?_, ?_, ?_, h.blocks, h.nodupW, ?_, h.lay, h.root, h.stop, ?_, ?_⟩
  · intro u hu hug
    have huv : u ≠ v := fun e => hug (e ▸ hv)
    have := h.made u hu hug
    simpa [Made, Conv.place, updateAt_ne _ _ huv] using this
  · intro u hu hnu
    have huv : u ≠ v := by rintro rfl; simp [Conv.place] at hnu
    exact h.unplaced u hu (by simpa [Conv.place, updateAt_ne _ _ huv] using hnu)
  · intro u hu hvu
    by_cases huv : u = v
    · subst huv
      exact .inl ⟨hnode, hc⟩
    · exact h.placed u hu (by simpa [Conv.place, updateAt_ne _ _ huv] using hvu)
  · intro u hu
    by_cases huv : u = v
    · subst huv; simp [Conv.place]
    · simpa [Conv.place, updateAt_ne _ _ huv] using h.vis u hu
  · intro u hu
    by_cases huv : u = v
    · subst huv; exact h.mem _ hv
    · exact h.live u (by simpa [Conv.place, updateAt_ne _ _ huv] using hu)
  · intro b u
    by_cases huv : u = v
    · subst huv
      by_cases hb : b = R.entry
      · subst hb; simp [Conv.place]
      · simp [Conv.place, updateAt_ne _ _ hb, hvU b, Ne.symm hb]
    · by_cases hb : b = R.entry
      · subst hb; simp [Conv.place, updateAt_ne _ _ huv, huv, h.ops]
      · simp [Conv.place, updateAt_ne _ _ hb, updateAt_ne _ _ huv, h.ops]
  · intro b
    by_cases hb : b = R.entry
    · subst hb
      simpa [Conv.place] using ⟨hvU _, h.nodup _⟩
    · simpa [Conv.place, updateAt_ne _ _ hb] using h.nodup b
  · intro a ha hva
    by_cases hav : a = v
    · subst hav; exact he.all a ha hall
    · exact he.all a ha (h.up a ha (by simpa [Conv.place, updateAt_ne _ _ hav] using hva))
  · intro u b hu
    by_cases huv : u = v
    · subst huv
      simp only [Conv.place, updateAt_same, Option.some.injEq] at hu
      subst hu
      exact mem_plug.2 (.inl R.entry_mem)
    · exact h.parent u b (by simpa [Conv.place, updateAt_ne _ _ huv] using hu)
  · refine scoped_plug (X := fun a => a = v) (fun c l r u hφ => hφ.mono h he) fs R R _ _ ?_ ?_ rfl ?_ h.scope
    · intro b hb
      have hbne : b ≠ R.entry := fun e => hctx b hb (e ▸ R.entry_mem)
      refine ⟨by simp [Conv.place, updateAt_ne _ _ hbne], fun u hu => ⟨rfl, ?_⟩⟩
      rintro a ha _ rfl
      have hpu := (h.ops _ _).1 hu
      obtain ⟨b', hb', hpu'⟩ := hin u (h.live u (by rw [hpu]; simp)) ha
      rw [hpu] at hpu'
      cases hpu'
      exact hctx b hb hb'
    · intro a ha
      by_cases hav : a = v
      · exact .inl hav
      · exact .inr (by simpa [Conv.place, updateAt_ne _ _ hav] using ha)
    · intro B B' hB hB' hBB hsc
      refine scoped_front (s := s) (s' := s.place v R.entry) (Φ := PhiOf g s) (X := [v]) (fun c l r u hφ => hφ.mono h he) R (by simp [Conv.place]) ?_ (fun _ _ _ _ => rfl) ⟨?_, trivial⟩ ?_
        (fun _ h => h) hsc
      · intro b hb
        have hbne : b ≠ R.entry := by
          rintro rfl
          rw [R.blocks_eq, List.nodup_cons] at hRn
          exact hRn.1 hb
        simp [Conv.place, updateAt_ne _ _ hbne]
      · have hop : ((s.place v R.entry).node v).op ≠ .phi := by
          change (s.node v).op ≠ .phi
          rw [hnode]
          exact (hg.conv.flat v hv).1
        rw [if_neg hop]
        intro a ha
        change a ∈ (s.node v).args at ha
        have hag : a ∈ g.ops := hg.wf.closed v hv a (by rw [← hnode]; exact ha)
        refine hB' a ?_
        have hav : a ≠ v := by rintro rfl; rw [hnode] at ha; exact hg.not_self hv ha
        have := h.parent_none hag (h.arg_unvisited (h.mem v hv) hn ha hag)
        simpa [Conv.place, updateAt_ne _ _ hav] using this
      · intro a ha
        rcases hBB a ha with h | h
        · exact .inr (List.mem_singleton.2 h)
        · exact .inl h
  · intro u hu k b hk hpu
    by_cases huv : u = v
    · subst huv
      simp only [Conv.place, updateAt_same, Option.some.injEq] at hpu
      subst hpu
      exact hs k hk
    · exact h.saves u hu k b hk (by simpa [Conv.place, updateAt_ne _ _ huv] using hpu)

end Place

end Wf.Gen
