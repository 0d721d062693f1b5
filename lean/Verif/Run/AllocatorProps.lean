import Verif.Run.AllocatorModel
import Mathlib.Tactic.Linarith
import Mathlib.Algebra.Order.Ring.Nat

/-! # C46: the stack allocator -/

namespace Wf.Run

/-- A block in use: start address and requested size. -/
structure Block where
  ptr : Nat
  n : Nat
deriving DecidableEq

/-- Operations a program performs. Frees name a block obtained earlier and not yet freed, with the size it was requested with. -/
inductive Op
  | alloc (n : Nat)
  | free (i : Nat)

/-- Program state: allocator and blocks in use. -/
structure Prog where
  s : StackAlloc
  live : List Block

def Prog.step (g : Prog) : Op → Prog
  | .alloc n =>
    match g.s.allocate n with
    | (some ptr, s') => ⟨s', ⟨ptr, n⟩ :: g.live⟩
    | (none, s') => ⟨s', g.live⟩
  | .free i =>
    match g.live[i]? with
    | some b => ⟨g.s.deallocate b.ptr b.n, g.live.eraseIdx i⟩
    | none => g

def Prog.run (g : Prog) (ops : List Op) : Prog := ops.foldl Prog.step g

/-- The arena: positive alignment, start aligned, and room below the top of the address space for the largest request (`limit` bytes,
already rounded up) beyond the end of the arena. -/
structure Arena (capacity alignment data limit : Nat) : Prop where
  align_pos : 0 < alignment
  aligned : alignment ∣ data
  fits : data + capacity + limit + alignment < word

/-- Requests are at most `limit` bytes. -/
def SmallRequests (limit : Nat) (ops : List Op) : Prop := ∀ n, Op.alloc n ∈ ops → n ≤ limit

/-- Two blocks share no byte. -/
def Disjoint (a b : Block) : Prop := a.ptr + a.n ≤ b.ptr ∨ b.ptr + b.n ≤ a.ptr

theorem round_spec {a n limit : Nat} (ha : 0 < a) (hn : n ≤ limit) (hl : limit + a < word) :
    a ∣ roundToAlignment a n ∧ n ≤ roundToAlignment a n ∧ roundToAlignment a n < n + a := by
  unfold roundToAlignment
  simp only
  have hlt := Nat.mod_lt n ha
  split
  · rename_i h
    have hw : n + (a - n % a) < word := by omega
    rw [Nat.mod_eq_of_lt hw]
    refine ⟨?_, by omega, by omega⟩
    have h1 := Nat.div_add_mod n a
    refine ⟨n / a + 1, ?_⟩
    rw [Nat.mul_add, Nat.mul_one]; omega
  · rename_i h
    exact ⟨Nat.dvd_of_mod_eq_zero (by omega), Nat.le_refl _, by omega⟩

/-- The invariant. Extents are rounded up, so that disjointness survives frees. -/
structure Inv (capacity alignment data limit : Nat) (g : Prog) : Prop where
  params : g.s.capacity = capacity ∧ g.s.alignment = alignment ∧ g.s.data = data
  low : data ≤ g.s.p
  high : g.s.p ≤ data + capacity
  palign : alignment ∣ g.s.p
  block : ∀ b ∈ g.live, 0 < b.n ∧ b.n ≤ limit ∧ data ≤ b.ptr ∧ b.ptr + roundToAlignment alignment b.n ≤ g.s.p ∧ alignment ∣ b.ptr
  disj : g.live.Pairwise fun a b => a.ptr + roundToAlignment alignment a.n ≤ b.ptr ∨ b.ptr + roundToAlignment alignment b.n ≤ a.ptr

theorem inv_step {capacity alignment data limit : Nat} (A : Arena capacity alignment data limit) (g : Prog)
    (h : Inv capacity alignment data limit g) (op : Op) (hop : ∀ n, op = .alloc n → n ≤ limit) :
    Inv capacity alignment data limit (g.step op) := by
  obtain ⟨⟨p1, p2, p3⟩, hlow, hhigh, hpa, hblock, hdisj⟩ := h
  have hfit := A.fits
  cases op with
  | alloc n =>
    have hn := hop n rfl
    obtain ⟨r1, r2, r3⟩ := round_spec A.align_pos hn (by omega : limit + alignment < word)
    simp only [Prog.step, StackAlloc.allocate]
    by_cases h0 : n = 0
    · simp only [h0, if_true]
      exact ⟨⟨p1, p2, p3⟩, hlow, hhigh, hpa, hblock, hdisj⟩
    · simp only [h0, if_false]
      rw [p2, p3, p1, Nat.mod_eq_of_lt (by omega : g.s.p + roundToAlignment alignment n < word)]
      by_cases hc : g.s.p + roundToAlignment alignment n > data + capacity
      · simp only [hc, if_true]
        exact ⟨⟨p1, p2, p3⟩, hlow, hhigh, hpa, hblock, hdisj⟩
      · simp only [hc, if_false]
        refine ⟨⟨rfl, rfl, rfl⟩, ?_, ?_, ?_, ?_, ?_⟩
        · simp only; omega
        · simp only; omega
        · exact (Nat.dvd_add_right hpa).mpr r1
        · intro b hb
          simp only [List.mem_cons] at hb
          rcases hb with rfl | hb
          · exact ⟨by simp only; omega, hn, hlow, Nat.le_refl _, hpa⟩
          · obtain ⟨a1, a2, a3, a4, a5⟩ := hblock b hb
            exact ⟨a1, a2, a3, by simp only; omega, a5⟩
        · refine List.pairwise_cons.mpr ⟨?_, hdisj⟩
          intro b hb
          right
          exact (hblock b hb).2.2.2.1
  | free i =>
    simp only [Prog.step]
    cases hi : g.live[i]? with
    | none => exact ⟨⟨p1, p2, p3⟩, hlow, hhigh, hpa, hblock, hdisj⟩
    | some b =>
      simp only
      have hb : b ∈ g.live := List.mem_of_getElem? hi
      obtain ⟨b1, b2, b3, b4, b5⟩ := hblock b hb
      have hsub := List.eraseIdx_sublist (l := g.live) (k := i)
      have hother : ∀ c ∈ g.live.eraseIdx i, c.ptr + roundToAlignment alignment c.n ≤ b.ptr ∨ b.ptr + roundToAlignment alignment b.n ≤ c.ptr := by
        intro c hc
        rw [List.mem_eraseIdx_iff_getElem?] at hc
        obtain ⟨j, hj, hcj⟩ := hc
        obtain ⟨hil, hib⟩ := List.getElem?_eq_some_iff.mp hi
        obtain ⟨hjl, hjc⟩ := List.getElem?_eq_some_iff.mp hcj
        have := List.pairwise_iff_getElem.mp hdisj
        rcases Nat.lt_or_gt_of_ne hj with hlt | hgt
        · have := this j i hjl hil hlt; rw [hjc, hib] at this; exact this
        · have := this i j hil hjl hgt; rw [hjc, hib] at this; exact this.symm
      unfold StackAlloc.deallocate
      rw [p2, Nat.mod_eq_of_lt (by omega : b.ptr + roundToAlignment alignment b.n < word)]
      by_cases hc : b.ptr + roundToAlignment alignment b.n = g.s.p
      · rw [if_pos hc]
        refine ⟨⟨p1, rfl, p3⟩, b3, by simp only; omega, b5, ?_, hdisj.sublist hsub⟩
        intro c hcm
        obtain ⟨a1, a2, a3, a4, a5⟩ := hblock c (hsub.subset hcm)
        obtain ⟨r1, r2, r3⟩ := round_spec A.align_pos a2 (by omega : limit + alignment < word)
        obtain ⟨_, s2, _⟩ := round_spec A.align_pos b2 (by omega : limit + alignment < word)
        refine ⟨a1, a2, a3, ?_, a5⟩
        simp only
        rcases hother c hcm with h | h
        · exact h
        · omega
      · rw [if_neg hc]
        exact ⟨⟨p1, p2, p3⟩, hlow, hhigh, hpa, fun c hcm => hblock c (hsub.subset hcm), hdisj.sublist hsub⟩

theorem inv_run {capacity alignment data limit : Nat} (A : Arena capacity alignment data limit) (ops : List Op) (hops : SmallRequests limit ops)
    (g : Prog) (h : Inv capacity alignment data limit g) : Inv capacity alignment data limit (g.run ops) := by
  induction ops generalizing g with
  | nil => exact h
  | cons op ops ih =>
    apply ih (fun n hn => hops n (List.mem_cons_of_mem _ hn))
    exact inv_step A g h op (fun n hn => hops n (by rw [← hn]; exact List.mem_cons_self))

theorem inv_new {capacity alignment data limit : Nat} (A : Arena capacity alignment data limit) :
    Inv capacity alignment data limit ⟨StackAlloc.new capacity alignment data, []⟩ :=
  ⟨⟨rfl, rfl, rfl⟩, Nat.le_refl _, by simp [StackAlloc.new], A.aligned, by simp, List.Pairwise.nil⟩

/-- Whatever is allocated and freed, in any order: blocks in use do not overlap, lie inside the arena, are aligned, and the
allocator recognises them as its own. -/
theorem C46_no_overlap (capacity alignment data limit : Nat) (A : Arena capacity alignment data limit) (ops : List Op)
    (hops : SmallRequests limit ops) :
    let g := (Prog.mk (StackAlloc.new capacity alignment data) []).run ops
    g.live.Pairwise Disjoint ∧
    ∀ b ∈ g.live, data ≤ b.ptr ∧ b.ptr + b.n ≤ data + capacity ∧ alignment ∣ b.ptr ∧ g.s.owns b.ptr = true := by
  intro g
  have h := inv_run A ops hops _ (inv_new A)
  have hfit := A.fits
  have hb : ∀ b ∈ g.live, b.n ≤ roundToAlignment alignment b.n := fun b hb =>
    (round_spec A.align_pos (h.block b hb).2.1 (by omega : limit + alignment < word)).2.1
  refine ⟨?_, ?_⟩
  · have := h.disj
    refine List.Pairwise.imp_of_mem ?_ this
    intro a b ha hb' hab
    have h1 := hb a ha
    have h2 := hb b hb'
    unfold Disjoint
    omega
  · intro b hbm
    obtain ⟨a1, a2, a3, a4, a5⟩ := h.block b hbm
    have h1 := hb b hbm
    have hh := h.high
    refine ⟨a3, by omega, a5, ?_⟩
    obtain ⟨p1, p2, p3⟩ := h.params
    unfold StackAlloc.owns
    rw [p1, p3]
    simp only [Bool.and_eq_true, decide_eq_true_eq]
    omega

/-- Freeing in the opposite order of allocation restores the allocator: allocate then free is the identity on the state. -/
theorem C46_last_in_first_out (capacity alignment data limit : Nat) (A : Arena capacity alignment data limit) (ops : List Op)
    (hops : SmallRequests limit ops) (g : Prog) (hg : g = (Prog.mk (StackAlloc.new capacity alignment data) []).run ops)
    (n : Nat) (hn : n ≤ limit) (ptr : Nat) (s' : StackAlloc)
    (ha : g.s.allocate n = (some ptr, s')) : s'.deallocate ptr n = g.s := by
  obtain ⟨⟨p1, p2, p3⟩, hlow, hhigh, hpa, _, _⟩ : Inv capacity alignment data limit g := hg ▸ inv_run A ops hops _ (inv_new A)
  have hfit := A.fits
  obtain ⟨r1, r2, r3⟩ := round_spec A.align_pos hn (by omega : limit + alignment < word)
  unfold StackAlloc.allocate at ha
  by_cases h0 : n = 0
  · simp [h0] at ha
  · simp only [h0, if_false] at ha
    split at ha
    · simp at ha
    · simp only [Prod.mk.injEq, Option.some.injEq] at ha
      obtain ⟨rfl, rfl⟩ := ha
      unfold StackAlloc.deallocate
      simp only
      rw [p2, Nat.mod_eq_of_lt (by omega), if_pos rfl, ← p2]

/-- An allocation fails only for zero bytes or when the rounded size does not fit in what is left. -/
theorem C46_fails_only_when_full (capacity alignment data limit : Nat) (A : Arena capacity alignment data limit) (ops : List Op)
    (hops : SmallRequests limit ops) (g : Prog) (hg : g = (Prog.mk (StackAlloc.new capacity alignment data) []).run ops)
    (n : Nat) (hn : n ≤ limit) :
    (g.s.allocate n).1 = none ↔ n = 0 ∨ g.s.usedBytes + roundToAlignment alignment n > capacity := by
  obtain ⟨⟨p1, p2, p3⟩, hlow, hhigh, hpa, _, _⟩ : Inv capacity alignment data limit g := hg ▸ inv_run A ops hops _ (inv_new A)
  have hfit := A.fits
  obtain ⟨r1, r2, r3⟩ := round_spec A.align_pos hn (by omega : limit + alignment < word)
  unfold StackAlloc.allocate StackAlloc.usedBytes
  by_cases h0 : n = 0
  · simp [h0]
  · simp only [h0, if_false, false_or]
    rw [p2, p3, p1, Nat.mod_eq_of_lt (by omega : g.s.p + roundToAlignment alignment n < word)]
    split <;> simp <;> omega

/-- Disagreement outside the stated range: a request close to `2^64` bytes is rounded up to zero and "succeeds", so two blocks in use
start at the same address. -/
theorem C46_huge_request_overlaps :
    ∃ s : StackAlloc, s = StackAlloc.new 64 8 4096 ∧
      (s.allocate (2 ^ 64 - 1)).1 = some 4096 ∧ ((s.allocate (2 ^ 64 - 1)).2.allocate 8).1 = some 4096 :=
  ⟨_, rfl, by decide, by decide⟩

/-! Non-vacuity: an arena, and a history with a free out of order. -/
example : Arena 64 8 4096 1000 := ⟨by decide, by decide, by decide⟩
example : ((Prog.mk (StackAlloc.new 64 8 4096) []).run [.alloc 5, .alloc 16, .free 1, .alloc 8, .free 0, .free 0, .alloc 3]).live
    = [⟨4104, 3⟩] := by decide
example : SmallRequests 1000 [.alloc 5, .alloc 16, .free 1] := by intro n hn; simp at hn; omega

end Wf.Run
