import Verif.Gen.FlowSpec
import Mathlib.Data.List.Perm.Basic

/-!
# The shape of a converted program (used in proofs)

The blocks made so far always form a tree of branches. `Reg` describes it, and `Frame` the part around the piece under construction.
-/

namespace Wf.Gen

/-- One block; a block with two arms; a block with an arm that may be left out. The arms join at the entry of the rest. -/
inductive Reg
  | last (b : Nat)
  | ite (b : Nat) (l r rest : Reg)
  | opt (b key : Nat) (l rest : Reg)

namespace Reg

def entry : Reg → Nat
  | last b => b
  | ite b _ _ _ => b
  | opt b _ _ _ => b

def exit : Reg → Nat
  | last b => b
  | ite _ _ _ rest => rest.exit
  | opt _ _ _ rest => rest.exit

def blocks : Reg → List Nat
  | last b => [b]
  | ite b l r rest => b :: (l.blocks ++ r.blocks ++ rest.blocks)
  | opt b _ l rest => b :: (l.blocks ++ rest.blocks)

/-- The last blocks of the whole program and of the arms for optional outputs. -/
def exits : Reg → List (Nat × Option Nat)
  | last b => [(b, none)]
  | ite _ _ _ rest => rest.exits
  | opt _ key l rest => (l.exit, some key) :: rest.exits

theorem entry_mem (R : Reg) : R.entry ∈ R.blocks := by cases R <;> simp [entry, blocks]

theorem exit_mem : ∀ R : Reg, R.exit ∈ R.blocks
  | last b => by simp [exit, blocks]
  | ite b l r rest => by simp [exit, blocks, exit_mem rest]
  | opt b k l rest => by simp [exit, blocks, exit_mem rest]

end Reg

/-- The edges of the blocks are those of the tree. -/
def Lay (anc desc : Nat → List Nat) : Reg → Prop
  | .last _ => True
  | .ite b l r rest =>
    desc b = [l.entry, r.entry] ∧ anc l.entry = [b] ∧ anc r.entry = [b] ∧ desc l.exit = [rest.entry] ∧ desc r.exit = [rest.entry] ∧
      anc rest.entry = [l.exit, r.exit] ∧ Lay anc desc l ∧ Lay anc desc r ∧ Lay anc desc rest
  | .opt b _ l rest =>
    desc b = [l.entry, rest.entry] ∧ anc l.entry = [b] ∧ desc l.exit = [rest.entry] ∧ anc rest.entry = [l.exit, b] ∧
      Lay anc desc l ∧ Lay anc desc rest

/-- The surroundings of a piece: it is the left or the right arm of a branch, or the arm of an optional output. -/
inductive Frame
  | left (b : Nat) (r rest : Reg)
  | right (b : Nat) (l rest : Reg)
  | arm (b key : Nat) (rest : Reg)

namespace Frame

def put : Frame → Reg → Reg
  | left b r rest, R => .ite b R r rest
  | right b l rest, R => .ite b l R rest
  | arm b key rest, R => .opt b key R rest

def block : Frame → Nat
  | left b _ _ => b
  | right b _ _ => b
  | arm b _ _ => b

def blocks : Frame → List Nat
  | left b r rest => b :: (r.blocks ++ rest.blocks)
  | right b l rest => b :: (l.blocks ++ rest.blocks)
  | arm b _ rest => b :: rest.blocks

theorem blocks_put (f : Frame) (R : Reg) : (f.put R).blocks.Perm (R.blocks ++ f.blocks) := by
  cases f with
  | left b r rest =>
    simp only [put, blocks, Reg.blocks, List.append_assoc]
    exact List.perm_middle.symm
  | right b l rest =>
    simp only [put, blocks, Reg.blocks]
    refine List.Perm.trans ?_ List.perm_middle.symm
    refine List.Perm.cons _ ?_
    rw [← List.append_assoc]
    exact List.Perm.append_right _ List.perm_append_comm
  | arm b k rest =>
    simp only [put, blocks, Reg.blocks]
    exact List.perm_middle.symm

theorem entry_put (f : Frame) (R : Reg) : (f.put R).entry = f.block := by cases f <;> rfl

end Frame

/-- The whole program; the innermost surroundings come first. -/
def plug : List Frame → Reg → Reg
  | [], R => R
  | f :: fs, R => plug fs (f.put R)

def ctxBlocks : List Frame → List Nat
  | [] => []
  | f :: fs => f.blocks ++ ctxBlocks fs

theorem blocks_plug (fs : List Frame) (R : Reg) : (plug fs R).blocks.Perm (R.blocks ++ ctxBlocks fs) := by
  induction fs generalizing R with
  | nil => simp [plug, ctxBlocks]
  | cons f fs ih =>
    simp only [plug, ctxBlocks]
    refine (ih _).trans ?_
    rw [← List.append_assoc]
    exact List.Perm.append_right _ (f.blocks_put R)

theorem mem_plug {fs : List Frame} {R : Reg} {b : Nat} : b ∈ (plug fs R).blocks ↔ b ∈ R.blocks ∨ b ∈ ctxBlocks fs := by
  rw [(blocks_plug fs R).mem_iff, List.mem_append]

theorem nodup_plug {fs : List Frame} {R : Reg} (h : (plug fs R).blocks.Nodup) : (R.blocks ++ ctxBlocks fs).Nodup :=
  (blocks_plug fs R).nodup_iff.1 h

theorem exits_put {f : Frame} {R R' : Reg} (h : R'.exit = R.exit) : (f.put R').exits = (f.put R).exits := by
  cases f <;> simp [Frame.put, Reg.exits, h]

theorem exit_put {f : Frame} {R R' : Reg} (h : R'.exit = R.exit) : (f.put R').exit = (f.put R).exit := by
  cases f <;> simp [Frame.put, Reg.exit]

theorem exits_plug {fs : List Frame} {R R' : Reg} (h : R'.exit = R.exit) (h2 : R'.exits = R.exits) : (plug fs R').exits = (plug fs R).exits := by
  induction fs generalizing R R' with
  | nil => exact h2
  | cons f fs ih => exact ih (exit_put h) (exits_put h)

theorem exit_plug {fs : List Frame} {R R' : Reg} (h : R'.exit = R.exit) : (plug fs R').exit = (plug fs R).exit := by
  induction fs generalizing R R' with
  | nil => exact h
  | cons f fs ih => exact ih (exit_put h)

theorem entry_plug {f : Frame} {fs : List Frame} {R R' : Reg} : (plug (f :: fs) R').entry = (plug (f :: fs) R).entry := by
  induction fs generalizing f R R' with
  | nil => simp [plug, Frame.entry_put]
  | cons f' fs ih =>
    rw [plug, plug]
    exact ih

/-! ## Dominance -/

section Dominance

variable {anc desc : Nat → List Nat}

theorem dominated_mono {up : Nat} : ∀ {n m t : Nat}, n ≤ m → Conv.dominated anc up n t = true → Conv.dominated anc up m t = true
  | 0, _, _, _, h => by simp [Conv.dominated] at h
  | n + 1, 0, _, hm, _ => by omega
  | n + 1, m + 1, t, hm, h => by
    unfold Conv.dominated at h ⊢
    rw [Bool.or_eq_true, Bool.and_eq_true, List.all_eq_true] at h ⊢
    rcases h with h | ⟨h1, h2⟩
    · exact .inl h
    · exact .inr ⟨h1, fun x hx => dominated_mono (by omega) (h2 x hx)⟩

/-- The entry is `up`, or all its ancestors are dominated. -/
def Starts (anc : Nat → List Nat) (up m e : Nat) : Prop :=
  e = up ∨ (anc e ≠ [] ∧ ∀ a ∈ anc e, Conv.dominated anc up m a = true)

theorem Starts.dominated {up m e : Nat} (h : Starts anc up m e) : Conv.dominated anc up (m + 1) e = true := by
  unfold Conv.dominated
  rcases h with h | ⟨h1, h2⟩
  · simp [h]
  · rw [Bool.or_eq_true, Bool.and_eq_true, List.all_eq_true]
    exact .inr ⟨by simpa using h1, h2⟩

theorem dominated_region {up : Nat} : ∀ (R : Reg) (m : Nat), Lay anc desc R → Starts anc up m R.entry → ∀ t ∈ R.blocks,
    Conv.dominated anc up (m + R.blocks.length) t = true
  | .last b, m, _, hs, t, ht => by
    simp only [Reg.blocks, List.mem_singleton] at ht
    subst ht
    exact hs.dominated
  | .ite b l r rest, m, hl, hs, t, ht => by
    simp only [Lay] at hl
    obtain ⟨_, h1, h2, _, _, h3, hl1, hl2, hl3⟩ := hl
    have hb : Conv.dominated anc up (m + 1) b = true := hs.dominated
    have sl : Starts anc up (m + 1) l.entry := .inr ⟨by simp [h1], by simpa [h1] using hb⟩
    have sr : Starts anc up (m + 1) r.entry := .inr ⟨by simp [h2], by simpa [h2] using hb⟩
    have dl := dominated_region l (m + 1) hl1 sl
    have dr := dominated_region r (m + 1) hl2 sr
    have srest : Starts anc up (m + 1 + l.blocks.length + r.blocks.length) rest.entry := by
      refine .inr ⟨by simp [h3], fun a ha => ?_⟩
      rw [h3] at ha
      simp only [List.mem_cons, List.not_mem_nil, or_false] at ha
      rcases ha with ha | ha <;> subst ha
      · exact dominated_mono (by omega) (dl _ l.exit_mem)
      · exact dominated_mono (by omega) (dr _ r.exit_mem)
    have drest := dominated_region rest _ hl3 srest
    simp only [Reg.blocks, List.mem_cons, List.mem_append, List.length_cons, List.length_append] at ht ⊢
    rcases ht with ht | (ht | ht) | ht
    · subst ht
      exact dominated_mono (by omega) hb
    · exact dominated_mono (by omega) (dl _ ht)
    · exact dominated_mono (by omega) (dr _ ht)
    · exact dominated_mono (by omega) (drest _ ht)
  | .opt b k l rest, m, hl, hs, t, ht => by
    simp only [Lay] at hl
    obtain ⟨_, h1, _, h3, hl1, hl3⟩ := hl
    have hb : Conv.dominated anc up (m + 1) b = true := hs.dominated
    have sl : Starts anc up (m + 1) l.entry := .inr ⟨by simp [h1], by simpa [h1] using hb⟩
    have dl := dominated_region l (m + 1) hl1 sl
    have srest : Starts anc up (m + 1 + l.blocks.length) rest.entry := by
      refine .inr ⟨by simp [h3], fun a ha => ?_⟩
      rw [h3] at ha
      simp only [List.mem_cons, List.not_mem_nil, or_false] at ha
      rcases ha with ha | ha <;> subst ha
      · exact dominated_mono (by omega) (dl _ l.exit_mem)
      · exact dominated_mono (by omega) hb
    have drest := dominated_region rest _ hl3 srest
    simp only [Reg.blocks, List.mem_cons, List.mem_append, List.length_cons, List.length_append] at ht ⊢
    rcases ht with ht | ht | ht
    · subst ht
      exact dominated_mono (by omega) hb
    · exact dominated_mono (by omega) (dl _ ht)
    · exact dominated_mono (by omega) (drest _ ht)

/-- There is a path against the edges from the block to a block without ancestors, outside `X`. -/
inductive Escapes (anc : Nat → List Nat) (X : List Nat) : Nat → Prop
  | root {t : Nat} : t ∉ X → anc t = [] → Escapes anc X t
  | step {t p : Nat} : t ∉ X → p ∈ anc t → Escapes anc X p → Escapes anc X t

theorem Escapes.not_mem {X : List Nat} {t : Nat} (h : Escapes anc X t) : t ∉ X := by cases h <;> assumption

theorem Escapes.subset {X Y : List Nat} {t : Nat} (h : Escapes anc X t) (hY : ∀ y ∈ Y, y ∈ X) : Escapes anc Y t := by
  induction h with
  | root h1 h2 => exact .root (fun h => h1 (hY _ h)) h2
  | step h1 h2 _ ih => exact .step (fun h => h1 (hY _ h)) h2 ih

theorem Escapes.not_dominated {X : List Nat} {up : Nat} (hup : up ∈ X) {t : Nat} (h : Escapes anc X t) :
    ∀ n, Conv.dominated anc up n t = false := by
  induction h with
  | root h1 h2 =>
    intro n
    cases n with
    | zero => rfl
    | succ n =>
      unfold Conv.dominated
      rw [h2]
      simp only [List.isEmpty_nil, Bool.not_true, Bool.false_and, Bool.or_false, beq_eq_false_iff_ne]
      rintro rfl
      exact h1 hup
  | step h1 h2 _ ih =>
    intro n
    cases n with
    | zero => rfl
    | succ n =>
      unfold Conv.dominated
      rw [Bool.or_eq_false_iff, Bool.and_eq_false_iff]
      refine ⟨?_, .inr ?_⟩
      · simp only [beq_eq_false_iff_ne]
        rintro rfl
        exact h1 hup
      · rw [List.all_eq_false]
        exact ⟨_, h2, by simp [ih n]⟩

/-- Within a region there is a path up to its entry. -/
theorem escapes_region {X : List Nat} : ∀ (R : Reg), Lay anc desc R → (∀ b ∈ R.blocks, b ∉ X) → Escapes anc X R.entry →
    ∀ t ∈ R.blocks, Escapes anc X t
  | .last b, _, _, he, t, ht => by
    simp only [Reg.blocks, List.mem_singleton] at ht
    subst ht
    exact he
  | .ite b l r rest, hl, hX, he, t, ht => by
    simp only [Lay] at hl
    obtain ⟨_, h1, h2, _, _, h3, hl1, hl2, hl3⟩ := hl
    simp only [Reg.blocks, List.mem_cons, List.mem_append] at hX ht
    have hXl : ∀ b ∈ l.blocks, b ∉ X := fun b hb => hX b (.inr (.inl (.inl hb)))
    have hXr : ∀ b ∈ r.blocks, b ∉ X := fun b hb => hX b (.inr (.inl (.inr hb)))
    have hXrest : ∀ b ∈ rest.blocks, b ∉ X := fun b hb => hX b (.inr (.inr hb))
    have el := escapes_region l hl1 hXl (.step (hXl _ l.entry_mem) (by rw [h1]; exact List.mem_singleton.2 rfl) he)
    have er := escapes_region r hl2 hXr (.step (hXr _ r.entry_mem) (by rw [h2]; exact List.mem_singleton.2 rfl) he)
    have erest := escapes_region rest hl3 hXrest (.step (hXrest _ rest.entry_mem) (by rw [h3]; exact List.mem_cons_self) (el _ l.exit_mem))
    rcases ht with ht | (ht | ht) | ht
    · subst ht
      exact he
    · exact el _ ht
    · exact er _ ht
    · exact erest _ ht
  | .opt b k l rest, hl, hX, he, t, ht => by
    simp only [Lay] at hl
    obtain ⟨_, h1, _, h3, hl1, hl3⟩ := hl
    simp only [Reg.blocks, List.mem_cons, List.mem_append] at hX ht
    have hXl : ∀ b ∈ l.blocks, b ∉ X := fun b hb => hX b (.inr (.inl hb))
    have hXrest : ∀ b ∈ rest.blocks, b ∉ X := fun b hb => hX b (.inr (.inr hb))
    have el := escapes_region l hl1 hXl (.step (hXl _ l.entry_mem) (by rw [h1]; exact List.mem_singleton.2 rfl) he)
    have erest := escapes_region rest hl3 hXrest
      (.step (hXrest _ rest.entry_mem) (by rw [h3]; exact List.mem_cons_self) (el _ l.exit_mem))
    rcases ht with ht | ht | ht
    · subst ht
      exact he
    · exact el _ ht
    · exact erest _ ht

/-- The ancestors of the entry of a piece. -/
def entryAnc : List Frame → List Nat
  | [] => []
  | f :: _ => [f.block]

theorem lay_put {f : Frame} {R : Reg} (h : Lay anc desc (f.put R)) : Lay anc desc R ∧ anc R.entry = [f.block] := by
  cases f <;> simp only [Frame.put, Lay, Frame.block] at h ⊢ <;> tauto

theorem lay_plug {fs : List Frame} {R : Reg} (h : Lay anc desc (plug fs R)) : Lay anc desc R := by
  induction fs generalizing R with
  | nil => exact h
  | cons f fs ih => exact (lay_put (ih h)).1

theorem anc_entry {fs : List Frame} {R : Reg} (h : Lay anc desc (plug fs R)) (hr : anc (plug fs R).entry = []) : anc R.entry = entryAnc fs := by
  cases fs with
  | nil => exact hr
  | cons f fs => exact (lay_put (lay_plug (fs := fs) h)).2

/-- Every block outside a piece has a path to the first block that avoids the piece. -/
theorem escapes_outside {fs : List Frame} {R : Reg} (h : Lay anc desc (plug fs R)) (hr : anc (plug fs R).entry = [])
    (hn : (plug fs R).blocks.Nodup) : ∀ t ∈ ctxBlocks fs, Escapes anc R.blocks t := by
  induction fs generalizing R with
  | nil => intro t ht; simp [ctxBlocks] at ht
  | cons f fs ih =>
    have hn1 := nodup_plug (fs := f :: fs) hn
    have hn2 := nodup_plug (fs := fs) (R := f.put R) hn
    have hout : ∀ t ∈ ctxBlocks fs, Escapes anc R.blocks t := fun t ht =>
      (ih (R := f.put R) h hr hn t ht).subset fun y hy => (f.blocks_put R).mem_iff.2 (List.mem_append_left _ hy)
    have hdis : ∀ b ∈ f.blocks, b ∉ R.blocks := by
      intro b hb hb'
      rw [ctxBlocks, List.nodup_append] at hn1
      exact hn1.2.2 b hb' b (List.mem_append_left _ hb) rfl
    -- the frame's own block
    have hb : Escapes anc R.blocks f.block := by
      have hm : f.block ∈ f.blocks := by cases f <;> simp [Frame.block, Frame.blocks]
      have ha := anc_entry (fs := fs) (R := f.put R) h hr
      rw [Frame.entry_put] at ha
      cases fs with
      | nil => exact .root (hdis _ hm) ha
      | cons f' fs =>
        refine .step (hdis _ hm) (p := f'.block) (by rw [ha]; simp [entryAnc]) (hout _ ?_)
        have : f'.block ∈ f'.blocks := by cases f' <;> simp [Frame.block, Frame.blocks]
        exact List.mem_append_left _ this
    have hL : Lay anc desc (f.put R) := lay_plug (fs := fs) h
    intro t ht
    rw [ctxBlocks, List.mem_append] at ht
    rcases ht with ht | ht
    · cases f with
      | left b r rest =>
        simp only [Frame.put, Lay] at hL
        obtain ⟨_, h1, h2, _, _, h3, hl1, hl2, hl3⟩ := hL
        simp only [Frame.blocks, Frame.block, List.mem_cons, List.mem_append] at ht hdis hb
        have er := escapes_region r hl2 (fun b hb => hdis b (.inr (.inl hb)))
          (.step (hdis _ (.inr (.inl r.entry_mem))) (by rw [h2]; exact List.mem_singleton.2 rfl) hb)
        have erest := escapes_region rest hl3 (fun b hb => hdis b (.inr (.inr hb)))
          (.step (hdis _ (.inr (.inr rest.entry_mem))) (by rw [h3]; exact List.mem_cons_of_mem _ List.mem_cons_self) (er _ r.exit_mem))
        rcases ht with ht | ht | ht
        · subst ht; exact hb
        · exact er _ ht
        · exact erest _ ht
      | right b l rest =>
        simp only [Frame.put, Lay] at hL
        obtain ⟨_, h1, h2, _, _, h3, hl1, hl2, hl3⟩ := hL
        simp only [Frame.blocks, Frame.block, List.mem_cons, List.mem_append] at ht hdis hb
        have er := escapes_region l hl1 (fun b hb => hdis b (.inr (.inl hb)))
          (.step (hdis _ (.inr (.inl l.entry_mem))) (by rw [h1]; exact List.mem_singleton.2 rfl) hb)
        have erest := escapes_region rest hl3 (fun b hb => hdis b (.inr (.inr hb)))
          (.step (hdis _ (.inr (.inr rest.entry_mem))) (by rw [h3]; exact List.mem_cons_self) (er _ l.exit_mem))
        rcases ht with ht | ht | ht
        · subst ht; exact hb
        · exact er _ ht
        · exact erest _ ht
      | arm b k rest =>
        simp only [Frame.put, Lay] at hL
        obtain ⟨_, h1, _, h3, hl1, hl3⟩ := hL
        simp only [Frame.blocks, Frame.block, List.mem_cons] at ht hdis hb
        have erest := escapes_region rest hl3 (fun b hb => hdis b (.inr hb))
          (.step (hdis _ (.inr rest.entry_mem)) (by rw [h3]; exact List.mem_cons_of_mem _ List.mem_cons_self) hb)
        rcases ht with ht | ht
        · subst ht; exact hb
        · exact erest _ ht
    · exact hout t ht

/-- Dominance by the entry of a piece is membership in the piece. -/
theorem dominated_iff {fs : List Frame} {R : Reg} (h : Lay anc desc (plug fs R)) (hr : anc (plug fs R).entry = [])
    (hn : (plug fs R).blocks.Nodup) {n : Nat} (hlen : (plug fs R).blocks.length ≤ n) {t : Nat} (ht : t ∈ (plug fs R).blocks) :
    Conv.dominated anc R.entry n t = true ↔ t ∈ R.blocks := by
  constructor
  · intro hd
    by_contra hc
    rcases mem_plug.1 ht with h1 | h1
    · exact hc h1
    · have := (escapes_outside h hr hn t h1).not_dominated R.entry_mem n
      rw [hd] at this
      exact absurd this (by decide)
  · intro hm
    have := dominated_region (up := R.entry) R 0 (lay_plug h) (.inl rfl) t hm
    refine dominated_mono ?_ this
    have := (blocks_plug fs R).length_eq
    rw [List.length_append] at this
    omega

end Dominance

end Wf.Gen
