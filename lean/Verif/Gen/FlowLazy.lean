import Verif.Gen.FlowInv

/-!
# Values are computed as late as possible (used in proofs)
-/

namespace Wf.Gen

open Conv

/-- The arms of all branches. -/
def Reg.arms : Reg → List Reg
  | .last _ => []
  | .ite _ l r rest => l :: r :: (l.arms ++ r.arms ++ rest.arms)
  | .opt _ _ l rest => l :: (l.arms ++ rest.arms)

theorem Reg.arms_blocks {L : Reg} {b : Nat} : ∀ R : Reg, L ∈ R.arms → b ∈ L.blocks → b ∈ R.blocks
  | .last d, h, _ => by simp [arms] at h
  | .ite d l r rest, h, hb => by
    simp only [arms, List.mem_cons, List.mem_append] at h
    simp only [blocks, List.mem_cons, List.mem_append]
    rcases h with rfl | rfl | (h | h) | h
    · exact .inr (.inl (.inl hb))
    · exact .inr (.inl (.inr hb))
    · exact .inr (.inl (.inl (arms_blocks l h hb)))
    · exact .inr (.inl (.inr (arms_blocks r h hb)))
    · exact .inr (.inr (arms_blocks rest h hb))
  | .opt d k l rest, h, hb => by
    simp only [arms, List.mem_cons, List.mem_append] at h
    simp only [blocks, List.mem_cons, List.mem_append]
    rcases h with rfl | h | h
    · exact .inr (.inl hb)
    · exact .inr (.inl (arms_blocks l h hb))
    · exact .inr (.inr (arms_blocks rest h hb))

theorem mem_arms_put {f : Frame} {R L : Reg} (h : L ∈ R.arms) : L ∈ (f.put R).arms := by
  cases f <;> simp [Frame.put, Reg.arms, h]

theorem self_arms_put (f : Frame) (R : Reg) : R ∈ (f.put R).arms := by
  cases f <;> simp [Frame.put, Reg.arms]

theorem mem_arms_plug {L : Reg} : ∀ (fs : List Frame) {R : Reg}, L ∈ R.arms → L ∈ (plug fs R).arms
  | [], _, h => h
  | _ :: fs, _, h => mem_arms_plug fs (mem_arms_put h)

theorem put_arms {f : Frame} {R L : Reg} (h : L ∈ (f.put R).arms) : L ∈ R.arms ∨ L = R ∨ ((∀ R', L ∈ (f.put R').arms) ∧ ∀ b ∈ L.blocks, b ∈ f.blocks) := by
  cases f with
  | left d r rest =>
    simp only [Frame.put, Reg.arms, List.mem_cons, List.mem_append, Frame.blocks] at h ⊢
    rcases h with rfl | rfl | (h | h) | h
    · exact .inr (.inl rfl)
    · exact .inr (.inr ⟨fun _ => .inr (.inl rfl), fun b hb => .inr (.inl hb)⟩)
    · exact .inl h
    · exact .inr (.inr ⟨fun _ => .inr (.inr (.inl (.inr h))), fun b hb => .inr (.inl (Reg.arms_blocks _ h hb))⟩)
    · exact .inr (.inr ⟨fun _ => .inr (.inr (.inr h)), fun b hb => .inr (.inr (Reg.arms_blocks _ h hb))⟩)
  | right d l rest =>
    simp only [Frame.put, Reg.arms, List.mem_cons, List.mem_append, Frame.blocks] at h ⊢
    rcases h with rfl | rfl | (h | h) | h
    · exact .inr (.inr ⟨fun _ => .inl rfl, fun b hb => .inr (.inl hb)⟩)
    · exact .inr (.inl rfl)
    · exact .inr (.inr ⟨fun _ => .inr (.inr (.inl (.inl h))), fun b hb => .inr (.inl (Reg.arms_blocks _ h hb))⟩)
    · exact .inl h
    · exact .inr (.inr ⟨fun _ => .inr (.inr (.inr h)), fun b hb => .inr (.inr (Reg.arms_blocks _ h hb))⟩)
  | arm d k rest =>
    simp only [Frame.put, Reg.arms, List.mem_cons, List.mem_append, Frame.blocks] at h ⊢
    rcases h with rfl | h | h
    · exact .inr (.inl rfl)
    · exact .inl h
    · exact .inr (.inr ⟨fun _ => .inr (.inr h), fun b hb => .inr (Reg.arms_blocks _ h hb)⟩)

/-- An arm is inside the piece, contains it or is apart from it. -/
theorem arms_plug {L : Reg} : ∀ (fs : List Frame) (R : Reg), (plug fs R).blocks.Nodup → L ∈ (plug fs R).arms →
    L ∈ R.arms ∨ (∀ b ∈ R.blocks, b ∈ L.blocks) ∨ ∀ b ∈ R.blocks, b ∉ L.blocks
  | [], _, _, h => .inl h
  | f :: fs, R, hn, h => by
    have hsub : ∀ b ∈ R.blocks, b ∈ (f.put R).blocks := fun b hb => (f.blocks_put R).symm.subset (List.mem_append_left _ hb)
    rcases arms_plug fs (f.put R) hn h with h1 | h1 | h1
    · rcases put_arms h1 with h2 | rfl | ⟨_, h2⟩
      · exact .inl h2
      · exact .inr (.inl fun _ h => h)
      · refine .inr (.inr fun b hb hL => ?_)
        have := List.nodup_append.1 (nodup_plug (fs := fs) (R := f.put R) hn)
        have := List.nodup_append.1 ((f.blocks_put R).nodup_iff.1 this.1)
        exact this.2.2 b hb b (h2 b hL) rfl
    · exact .inr (.inl fun b hb => h1 b (hsub b hb))
    · exact .inr (.inr fun b hb => h1 b (hsub b hb))

/-- Every arm was there before, apart from new blocks, or belongs to the new piece. -/
theorem arms_grow {N : Nat} : ∀ (fs : List Frame) (R R' : Reg), (∀ b ∈ R.blocks, b ∈ R'.blocks) → (∀ b ∈ R'.blocks, b ∈ R.blocks ∨ N ≤ b) →
    ∀ L' ∈ (plug fs R').arms, L' ∈ R'.arms ∨ ∃ L ∈ (plug fs R).arms, (∀ b ∈ L.blocks, b ∈ L'.blocks) ∧ ∀ b ∈ L'.blocks, b ∈ L.blocks ∨ N ≤ b
  | [], _, _, _, _, L', h => .inl h
  | f :: fs, R, R', h1, h2, L', h => by
    have e : ∀ (R : Reg) b, b ∈ (f.put R).blocks ↔ b ∈ R.blocks ∨ b ∈ f.blocks := fun R b => by rw [(f.blocks_put R).mem_iff, List.mem_append]
    rcases arms_grow (N := N) fs (f.put R) (f.put R') (fun b hb => by
        rw [e] at hb ⊢
        exact hb.imp (h1 b) id) (fun b hb => by
        rw [e] at hb ⊢
        rcases hb with hb | hb
        · exact (h2 b hb).imp .inl id
        · exact .inl (.inr hb)) L' h with h3 | h3
    · rcases put_arms h3 with h4 | rfl | ⟨h4, _⟩
      · exact .inl h4
      · exact .inr ⟨R, mem_arms_plug fs (self_arms_put f R), h1, h2⟩
      · exact .inr ⟨L', mem_arms_plug fs (h4 R), fun _ h => h, fun _ h => .inl h⟩
    · exact .inr h3

variable {g : Graph} {usage : Nat → Usage} {ternaries : Bool} {s s' : Conv} {W : Reg}

/-- Every consumer is in the piece. -/
def Inside (s : Conv) (R : Reg) (v : Nat) : Prop := ∀ u ∈ s.live, v ∈ (s.node u).args → ∃ b ∈ R.blocks, s.parent u = some b

/-- A consumer is outside the piece. -/
def Outside (s : Conv) (R : Reg) (q : Nat) : Prop := ∃ u ∈ s.live, q ∈ (s.node u).args ∧ ∃ b, s.parent u = some b ∧ b ∉ R.blocks

/-- A consumer is in the piece. -/
def HasIn (s : Conv) (R : Reg) (q : Nat) : Prop := ∃ u ∈ s.live, q ∈ (s.node u).args ∧ ∃ b, s.parent u = some b ∧ b ∈ R.blocks

theorem Outside.ext {R : Reg} {q : Nat} (h : Outside s R q) (he : Ext g s s') : Outside s' R q := by
  obtain ⟨u, hu, ha, b, hp, hb⟩ := h
  exact ⟨u, he.live u hu, by rw [he.node u (by rw [hp]; simp)]; exact ha, b, he.parent u b hp, hb⟩

theorem HasIn.ext {R R' : Reg} {q : Nat} (h : HasIn s R q) (he : Ext g s s') (hR : ∀ b ∈ R.blocks, b ∈ R'.blocks) : HasIn s' R' q := by
  obtain ⟨u, hu, ha, b, hp, hb⟩ := h
  exact ⟨u, he.live u hu, by rw [he.node u (by rw [hp]; simp)]; exact ha, b, he.parent u b hp, hR b hb⟩

theorem HasIn.outside {R R' : Reg} {q : Nat} (h : HasIn s R q) (hR : ∀ b ∈ R.blocks, b ∉ R'.blocks) : Outside s R' q := by
  obtain ⟨u, hu, ha, b, hp, hb⟩ := h
  exact ⟨u, hu, ha, b, hp, hR b hb⟩

theorem Outside.not_inside {R : Reg} {q : Nat} (h : Outside s R q) : ¬ Inside s R q := by
  obtain ⟨u, hu, ha, b, hp, hb⟩ := h
  intro hi
  obtain ⟨b', hb', hp'⟩ := hi u hu ha
  rw [hp] at hp'
  cases hp'
  exact hb hb'

theorem Outside.sub {R R' : Reg} {q : Nat} (h : Outside s R q) (hR : ∀ b ∈ R'.blocks, b ∈ R.blocks) : Outside s R' q := by
  obtain ⟨u, hu, ha, b, hp, hb⟩ := h
  exact ⟨u, hu, ha, b, hp, fun h => hb (hR b h)⟩

/-- Visited values are placed. -/
theorem Inv.visited_placed (h : Inv g usage ternaries s W) {u : Nat} (hu : u ∈ s.live) (hv : s.visited u = true) : s.parent u ≠ none := by
  by_cases hg : u ∈ g.ops
  · exact (h.vis u hg).1 hv
  · exact (h.made u hu hg).1

theorem Inv.outside_of_not (h : Inv g usage ternaries s W) {R : Reg} {q : Nat} (hall : s.allVisited q = true) (hn : ¬ Inside s R q) : Outside s R q := by
  simp only [Inside, not_forall] at hn
  obtain ⟨u, hu, ha, hb⟩ := hn
  have hvis := allVisited_iff.1 hall u hu ha
  cases hp : s.parent u with
  | none => exact absurd hp (h.visited_placed hu hvis)
  | some b => exact ⟨u, hu, ha, b, hp, fun hm => hb ⟨b, hm, hp⟩⟩

/-- The first block is in no arm. -/
theorem Reg.entry_arms (R : Reg) (hn : R.blocks.Nodup) (L : Reg) (hL : L ∈ R.arms) : R.entry ∉ L.blocks := by
  intro h
  cases R with
  | last d => simp [Reg.arms] at hL
  | ite d l r rest =>
    simp only [Reg.blocks, List.nodup_cons, List.mem_append, not_or] at hn
    simp only [Reg.arms, List.mem_cons, List.mem_append] at hL
    change d ∈ L.blocks at h
    rcases hL with rfl | rfl | (hL | hL) | hL
    · exact hn.1.1.1 h
    · exact hn.1.1.2 h
    · exact hn.1.1.1 (Reg.arms_blocks _ hL h)
    · exact hn.1.1.2 (Reg.arms_blocks _ hL h)
    · exact hn.1.2 (Reg.arms_blocks _ hL h)
  | opt d k l rest =>
    simp only [Reg.blocks, List.nodup_cons, List.mem_append, not_or] at hn
    simp only [Reg.arms, List.mem_cons, List.mem_append] at hL
    change d ∈ L.blocks at h
    rcases hL with rfl | hL | hL
    · exact hn.1.1 h
    · exact hn.1.1 (Reg.arms_blocks _ hL h)
    · exact hn.1.2 (Reg.arms_blocks _ hL h)

/-- Outputs are nobody's operand. -/
theorem Inv.arg_not_save (hg : Input g) {W : Reg} (h : Inv g usage ternaries s W) {u q : Nat} (hu : u ∈ s.live) (hq : q ∈ g.ops)
    (ha : q ∈ (s.node u).args) (k : Nat) : (g.node q).op ≠ .save k := by
  by_cases hug : u ∈ g.ops
  · by_cases hv : s.visited u = true
    · rcases h.placed u hug hv with ⟨e, _⟩ | ⟨x, y, e, hx, hy, _⟩
      · rw [e] at ha; exact hg.conv.sinks u hug q ha k
      · rw [e] at ha
        simp only [List.mem_cons, List.not_mem_nil, or_false] at ha
        rcases ha with rfl | rfl
        · exact absurd hq hx
        · exact absurd hq hy
    · rw [h.unplaced u hug (by simpa using hv)] at ha
      exact hg.conv.sinks u hug q ha k
  · rcases (h.made u hu hug).2 with ⟨a, _, e, _, hn⟩ | ⟨a, _, e, _, hn⟩ | ⟨k', e⟩ | ⟨u', k', e, hn, _⟩
    · rw [e] at ha; rw [List.mem_singleton.1 ha]; exact hn k
    · rw [e] at ha; rw [List.mem_singleton.1 ha]; exact hn k
    · rw [e] at ha; simp at ha
    · rw [e] at ha; rw [List.mem_singleton.1 ha] at hq; exact absurd hq hn

/-- A value that belongs in this piece or further out, not in an arm. -/
structure Due (g : Graph) (s : Conv) (R : Reg) (q : Nat) : Prop where
  arms : ∀ L ∈ R.arms, Outside s L q
  has : (∃ k, (g.node q).op = .save k) ∨ HasIn s R q

theorem Due.ext {R : Reg} {q : Nat} (h : Due g s R q) (he : Ext g s s') : Due g s' R q :=
  ⟨fun L hL => (h.arms L hL).ext he, h.has.imp id fun h => h.ext he fun _ h => h⟩

/-- There is a phi function after every branch. -/
def HasPhi (s : Conv) : Reg → Prop
  | .last _ => True
  | .ite _ l r rest => (∃ v ∈ s.ops rest.entry, (s.node v).op = .phi) ∧ HasPhi s l ∧ HasPhi s r ∧ HasPhi s rest
  | .opt _ _ l rest => HasPhi s l ∧ HasPhi s rest

theorem HasPhi.ext (h : Inv g usage ternaries s W) (he : Ext g s s') : ∀ R : Reg, HasPhi s R → HasPhi s' R
  | .last _, _ => trivial
  | .ite _ l r rest, hp => by
    obtain ⟨⟨v, hv, hphi⟩, h1, h2, h3⟩ := hp
    refine ⟨⟨v, he.ops _ v hv, ?_⟩, HasPhi.ext h he l h1, HasPhi.ext h he r h2, HasPhi.ext h he rest h3⟩
    rw [he.node v (by rw [(h.ops _ _).1 hv]; simp)]
    exact hphi
  | .opt _ _ l rest, hp => ⟨HasPhi.ext h he l hp.1, HasPhi.ext h he rest hp.2⟩

theorem HasPhi.put {f : Frame} {R R' : Reg} (h : HasPhi s (f.put R)) (hR : HasPhi s R → HasPhi s R') : HasPhi s (f.put R') := by
  cases f <;> simp only [Frame.put, HasPhi] at h ⊢ <;> tauto

theorem HasPhi.plug : ∀ (fs : List Frame) {R R' : Reg}, HasPhi s (plug fs R) → (HasPhi s R → HasPhi s R') → HasPhi s (plug fs R')
  | [], _, _, h, hR => hR h
  | _ :: fs, _, _, h, hR => HasPhi.plug fs h fun h => h.put hR

/-- A placed value is in every arm that contains all its consumers; operands of the input stay operands; copies belong to phi functions. -/
structure Lazy (g : Graph) (s : Conv) (W : Reg) : Prop where
  deep : ∀ w ∈ g.ops, s.visited w = true → (∀ k, (g.node w).op ≠ .save k) → ∀ L ∈ W.arms, Inside s L w → ∃ b ∈ L.blocks, s.parent w = some b
  used : ∀ w ∈ g.ops, (∀ k, (g.node w).op ≠ .save k) → ∃ u ∈ s.live, w ∈ (s.node u).args
  copies : ∀ x ∈ s.live, x ∉ g.ops → (s.node x).op = .copy → ∃ b, ∃ v ∈ s.ops b, (s.node v).op = .phi ∧ x ∈ (s.node v).args
  phis : HasPhi s W
  jumps : ∀ b, ∀ v ∈ s.ops b, (s.node v).op = .jump → (s.ops b).getLast? = some v ∧ (s.desc b).length = 2

/-- A step keeps the places of the values placed before. -/
theorem Lazy.deep_ext {W' : Reg} (h : Inv g usage ternaries s W) (hz : Lazy g s W) (he : Ext g s s')
    (harms : ∀ L' ∈ W'.arms, (∀ b ∈ L'.blocks, s.blocks ≤ b) ∨ ∃ L ∈ W.arms, (∀ b ∈ L.blocks, b ∈ L'.blocks) ∧ ∀ b ∈ L'.blocks, b ∈ L.blocks ∨ s.blocks ≤ b)
    {w : Nat} (hw : w ∈ g.ops) (hv : s.visited w = true) (hs : ∀ k, (g.node w).op ≠ .save k) {L' : Reg} (hL' : L' ∈ W'.arms) (hi : Inside s' L' w) :
    ∃ b ∈ L'.blocks, s'.parent w = some b := by
  have hcons : ∀ u ∈ s.live, w ∈ (s.node u).args → ∃ b, s.parent u = some b ∧ b ∈ L'.blocks ∧ b < s.blocks := by
    intro u hu ha
    have hp := h.visited_placed hu (allVisited_iff.1 (h.up w hw hv) u hu ha)
    cases hpu : s.parent u with
    | none => exact absurd hpu hp
    | some b =>
      obtain ⟨b', hb', hp'⟩ := hi u (he.live u hu) (by rw [he.node u hp]; exact ha)
      rw [he.parent u b hpu] at hp'
      cases hp'
      exact ⟨b, rfl, hb', (h.blocks b).1 (h.parent u b hpu)⟩
  rcases harms L' hL' with hf | ⟨L, hL, h1, h2⟩
  · obtain ⟨u, hu, ha⟩ := hz.used w hw hs
    obtain ⟨b, _, hb, hlt⟩ := hcons u hu ha
    have := hf b hb
    omega
  · have hin : Inside s L w := by
      intro u hu ha
      obtain ⟨b, hp, hb, hlt⟩ := hcons u hu ha
      rcases h2 b hb with h3 | h3
      · exact ⟨b, h3, hp⟩
      · omega
    obtain ⟨b, hb, hp⟩ := hz.deep w hw hv hs L hL hin
    exact ⟨b, h1 b hb, he.parent w b hp⟩

/-- Placing a value that is due. -/
theorem getLast?_front {l l' : List Nat} {v : Nat} (h : l.getLast? = some v) : (l' ++ l).getLast? = some v := by
  rw [List.getLast?_append, h]; rfl

theorem Lazy.place (hg : Input g) {fs : List Frame} {R : Reg} (h : Inv g usage ternaries s (plug fs R)) (hz : Lazy g s (plug fs R)) {v : Nat} (hv : v ∈ g.ops)
    (hn : s.visited v = false) (hd : Due g s R v) : Lazy g (s.place v R.entry) (plug fs R) := by
  have he := place_ext h (U := R.entry) hv hn
  refine ⟨?_, hz.used, ?_, hz.phis.ext h he, ?_⟩
  · intro w hw hvw hs L hL hi
    by_cases hwv : w = v
    · subst hwv
      have hh : HasIn s R w := hd.has.resolve_left fun ⟨k, hk⟩ => hs k hk
      rcases arms_plug fs R h.nodupW hL with h1 | h1 | h1
      · exact absurd hi ((hd.arms L h1).ext he).not_inside
      · exact ⟨R.entry, h1 _ R.entry_mem, by simp [Conv.place]⟩
      · exact absurd hi (((hh.ext he fun _ h => h).outside h1)).not_inside
    · have hvw' : s.visited w = true := by simpa [Conv.place, updateAt_ne _ _ hwv] using hvw
      exact hz.deep_ext h he (fun L hL => .inr ⟨L, hL, fun _ h => h, fun _ h => .inl h⟩) hw hvw' hs hL hi
  · intro x hx hxg hc
    obtain ⟨b, u, hu, hphi, ha⟩ := hz.copies x hx hxg hc
    exact ⟨b, u, he.ops b u hu, hphi, ha⟩
  · intro b u hu hj
    change (s.node u).op = .jump at hj
    have huv : u ≠ v := by
      rintro rfl
      rw [h.unplaced u hv hn] at hj
      exact (hg.conv.flat u hv).2.1 hj
    by_cases hb : b = R.entry
    · subst hb
      simp only [Conv.place, updateAt_same, List.mem_cons, huv, false_or] at hu ⊢
      obtain ⟨h1, h2⟩ := hz.jumps _ u hu hj
      exact ⟨getLast?_front (l' := [v]) h1, h2⟩
    · simp only [Conv.place, updateAt_ne _ _ hb] at hu ⊢
      exact hz.jumps b u hu hj

end Wf.Gen
