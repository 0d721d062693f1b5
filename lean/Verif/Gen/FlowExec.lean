import Verif.Gen.FlowConvert
import Verif.Gen.FlowSpec
import Verif.Gen.GraphLemmas

/-!
# Running the blocks of the tree (used in proofs)
-/

namespace Wf.Gen

open Conv

variable {V : Type} [Arith V]

/-- What follows after the operations of a block. -/
def after (I : Interp V) (truth : V → Bool) (s : Conv) (n b : Nat) (m : Machine V) : Option (Machine V) :=
  match s.desc b with
  | [] => some m
  | [d] => exec I truth s n (some b) d m
  | [d, e] =>
    match (jumpCondition s b).bind m.env with
    | some x => exec I truth s n (some b) (if truth x then d else e) m
    | none => none
  | _ => none

theorem exec_succ (I : Interp V) (truth : V → Bool) (s : Conv) (n : Nat) (pred : Option Nat) (b : Nat) (m : Machine V) :
    exec I truth s (n + 1) pred b m = match execOps I s pred b (s.ops b) m with
      | none => none
      | some m => after I truth s n b m := rfl

/-- The value is computed and right. -/
def Known (val : Nat → V) (m : Machine V) (a : Nat) : Prop := m.env a = some (val a)

theorem mapM_known {val : Nat → V} {env : Nat → Option V} : ∀ (l : List Nat), (∀ a ∈ l, env a = some (val a)) → l.mapM env = some (l.map val)
  | [], _ => rfl
  | a :: l, h => by
    rw [List.mapM_cons, h a List.mem_cons_self, mapM_known l fun x hx => h x (List.mem_cons_of_mem _ hx)]
    rfl

/-- Running operations in a right order computes their values. -/
theorem execOps_ok {I : Interp V} {s : Conv} {val : Nat → V} {P : Nat → Prop} {pred : Option Nat} {b : Nat} :
    ∀ (ops : List Nat) (A : Nat → Prop) (m : Machine V), OpsOk s P A ops → (∀ a, A a → Known val m a) →
      (∀ v ∈ ops, (s.node v).op ≠ .phi → val v = I.f (s.node v).op ((s.node v).args.map val)) →
      (∀ v ∈ ops, P v → (s.node v).op = .phi → ∀ m2 : Machine V, (∀ a, Known val m a → Known val m2 a) → opValue I s pred b m2.env v = some (val v)) →
      ∃ m', execOps I s pred b ops m = some m' ∧ m'.done = m.done ++ ops ∧ (∀ a, Known val m a → Known val m' a) ∧ (∀ a ∈ ops, Known val m' a) ∧
        (∀ v ∈ ops, (s.node v).op ≠ .phi → ∀ a ∈ (s.node v).args, Known val m' a) ∧ (∀ a, a ∉ ops → m'.env a = m.env a)
  | [], A, m, _, _, _, _ => ⟨m, rfl, by simp, fun _ h => h, by simp, by simp, fun _ _ => rfl⟩
  | v :: vs, A, m, ho, hA, hv, hp => by
    obtain ⟨h1, h2⟩ := ho
    have hval : opValue I s pred b m.env v = some (val v) := by
      by_cases hphi : (s.node v).op = .phi
      · rw [if_pos hphi] at h1
        exact hp v List.mem_cons_self h1 hphi m fun _ h => h
      · rw [if_neg hphi] at h1
        rw [opValue, if_neg hphi, mapM_known _ fun a ha => hA a (h1 a ha), hv v List.mem_cons_self hphi]
        rfl
    have hmono : ∀ a, Known val m a → Known val ⟨updateAt m.env v (some (val v)), m.done ++ [v]⟩ a := by
      intro a ha
      by_cases hav : a = v
      · subst hav; simp [Known]
      · simpa [Known, updateAt_ne _ _ hav] using ha
    obtain ⟨m', e, hd, hk, hops, hargs, hother⟩ := execOps_ok (I := I) (pred := pred) (b := b) vs (fun a => A a ∨ a = v) ⟨updateAt m.env v (some (val v)), m.done ++ [v]⟩ h2
      (by
        rintro a (ha | rfl)
        · exact hmono a (hA a ha)
        · simp [Known])
      (fun u hu => hv u (List.mem_cons_of_mem _ hu))
      (fun u hu hPu hphi m2 hm2 => hp u (List.mem_cons_of_mem _ hu) hPu hphi m2 fun a ha => hm2 a (hmono a ha))
    refine ⟨m', ?_, by rw [hd]; simp, fun a ha => hk a (hmono a ha), ?_, ?_, ?_⟩
    · rw [execOps, hval]; exact e
    · intro a ha
      rcases List.mem_cons.1 ha with rfl | ha
      · exact hk a (by simp [Known])
      · exact hops a ha
    · intro u hu hphi a ha
      rcases List.mem_cons.1 hu with rfl | hu
      · rw [if_neg hphi] at h1
        exact hk a (hmono a (hA a (h1 a ha)))
      · exact hargs u hu hphi a ha
    · intro a ha
      rw [List.mem_cons, not_or] at ha
      rw [hother a ha.2]
      simp [updateAt_ne _ _ ha.1]

/-- The blocks that are run, when `t b` says whether the jump of block `b` is taken. -/
def Reg.path (t : Nat → Bool) : Reg → List Nat
  | .last b => [b]
  | .ite b l r rest => b :: ((if t b then l.path t else r.path t) ++ rest.path t)
  | .opt b _ l rest => b :: ((if t b then l.path t else []) ++ rest.path t)

theorem Reg.exit_path (t : Nat → Bool) : ∀ R : Reg, R.exit ∈ R.path t
  | .last b => by simp [Reg.exit, Reg.path]
  | .ite b l r rest => by simp [Reg.exit, Reg.path, exit_path t rest]
  | .opt b _ l rest => by simp [Reg.exit, Reg.path, exit_path t rest]

theorem Reg.path_sublist (t : Nat → Bool) : ∀ R : Reg, (R.path t).Sublist R.blocks
  | .last b => by simp [Reg.path, Reg.blocks]
  | .ite b l r rest => by
    simp only [Reg.path, Reg.blocks]
    refine List.Sublist.cons_cons b (List.Sublist.append ?_ (path_sublist t rest))
    split
    · exact (path_sublist t l).trans (List.sublist_append_left _ _)
    · exact (path_sublist t r).trans (List.sublist_append_right _ _)
  | .opt b _ l rest => by
    simp only [Reg.path, Reg.blocks]
    refine List.Sublist.cons_cons b (List.Sublist.append ?_ (path_sublist t rest))
    split
    · exact path_sublist t l
    · exact List.nil_sublist _

/-- The test at the end of a block. -/
def taken (truth : V → Bool) (s : Conv) (val : Nat → V) (b : Nat) : Bool := truth (val ((jumpCondition s b).getD 0))

theorem jumpCondition_of {s : Conv} {b c : Nat} (h : Jumps s b c) : jumpCondition s b = some c := by
  obtain ⟨u, h1, h2⟩ := h
  simp [jumpCondition, h1, h2]

/-- What the machine has done after the region. -/
structure Ran (I : Interp V) (truth : V → Bool) (s : Conv) (val : Nat → V) (pred : Option Nat) (R : Reg) (m m' : Machine V) (k : Nat) : Prop where
  len : k ≤ R.blocks.length
  run : ∀ n, exec I truth s (n + k) pred R.entry m = after I truth s n R.exit m'
  done : m'.done = m.done ++ (R.path (taken truth s val)).flatMap s.ops
  mono : ∀ a, Known val m a → Known val m' a
  known : ∀ b ∈ R.path (taken truth s val), ∀ a ∈ s.ops b, Known val m' a
  args : ∀ b ∈ R.path (taken truth s val), ∀ v ∈ s.ops b, (s.node v).op ≠ .phi → ∀ a ∈ (s.node v).args, Known val m' a
  other : ∀ a, (∀ b ∈ R.path (taken truth s val), a ∉ s.ops b) → m'.env a = m.env a

section Region

variable {I : Interp V} {truth : V → Bool} {s : Conv} {val : Nat → V} {Φ : Nat → Nat → Nat → Nat → Prop}

theorem region_ok (hΦ : ∀ c l r v, Φ c l r v → ∃ x y, s.node v = ⟨.phi, [x, y]⟩ ∧ x ∈ s.ops l ∧ y ∈ s.ops r ∧ val v = if truth (val c) then val x else val y)
    (hval : ∀ b, ∀ v ∈ s.ops b, (s.node v).op ≠ .phi → val v = I.f (s.node v).op ((s.node v).args.map val)) :
    ∀ (R : Reg) (A P : Nat → Prop) (pred : Option Nat) (m : Machine V), Lay s.anc s.desc R → R.blocks.Nodup → Scoped s Φ A P R →
      (∀ a, A a → Known val m a) →
      (∀ v, P v → (s.node v).op = .phi → ∀ m2 : Machine V, (∀ a, Known val m a → Known val m2 a) → opValue I s pred R.entry m2.env v = some (val v)) →
      ∃ m' len, Ran I truth s val pred R m m' len
  | .last b, A, P, pred, m, _, _, hs, hA, hP => by
    obtain ⟨m', e, hd, hk, hops, hargs, ho⟩ := execOps_ok (I := I) (pred := pred) (b := b) (s.ops b) A m hs hA (hval b) fun v _ => hP v
    refine ⟨m', 1, ?_, ?_, ?_, hk, ?_, ?_, ?_⟩
    · simp [Reg.blocks]
    · intro n
      change exec I truth s (n + 1) pred b m = _
      rw [exec_succ, e]
      rfl
    · simp [Reg.path, hd]
    · simpa [Reg.path] using hops
    · simpa [Reg.path] using hargs
    · simpa [Reg.path] using ho
  | .ite b l r rest, A, P, pred, m, hl, hn, hs, hA, hP => by
    simp only [Lay] at hl
    simp only [Scoped] at hs
    obtain ⟨l1, l2, l3, l4, l5, l6, l7, l8, l9⟩ := hl
    obtain ⟨ho, c, hj, sl, sr, srest⟩ := hs
    simp only [Reg.blocks, List.nodup_cons, List.nodup_append, List.mem_append, not_or] at hn
    obtain ⟨_, ⟨nl, nr, nlr⟩, nrest, _⟩ := hn
    obtain ⟨m1, e1, d1, k1, o1, a1, x1⟩ := execOps_ok (I := I) (pred := pred) (b := b) (s.ops b) A m ho hA (hval b) fun v _ => hP v
    have hA1 : ∀ a, A a ∨ a ∈ s.ops b → Known val m1 a := by
      rintro a (ha | ha)
      · exact k1 a (hA a ha)
      · exact o1 a ha
    have hc : m1.env c = some (val c) := by
      obtain ⟨u, hu, hun⟩ := hj
      exact a1 u (List.mem_of_getLast? hu) (by rw [hun]; simp) c (by rw [hun]; simp)
    have htk : taken truth s val b = truth (val c) := by simp [taken, jumpCondition_of hj]
    have hstep : ∀ n, exec I truth s (n + 1) pred b m = exec I truth s n (some b) (if truth (val c) then l.entry else r.entry) m1 := by
      intro n
      rw [exec_succ, e1]
      simp only [after, l1, jumpCondition_of hj, Option.bind_some, hc]
    -- either arm, then the rest
    have harm : ∀ arm : Reg, (arm = if truth (val c) then l else r) →
        (∃ m2 len2, Ran I truth s val (some b) arm m1 m2 len2) → s.desc arm.exit = [rest.entry] →
        arm.blocks.length ≤ l.blocks.length + r.blocks.length → ∃ m' len, Ran I truth s val pred (.ite b l r rest) m m' len := by
      rintro arm harm ⟨m2, len2, r2⟩ da lena
      have hent : arm.entry = if truth (val c) then l.entry else r.entry := by rw [harm]; split <;> rfl
      obtain ⟨m3, len3, r3⟩ := region_ok hΦ hval rest _ _ (some arm.exit) m2 l9 nrest srest (fun a ha => r2.mono a (hA1 a ha)) (by
        intro v hv hphi mm hmm
        obtain ⟨x, y, hnode, hx, hy, hvv⟩ := hΦ _ _ _ _ hv
        rw [opValue, if_pos hphi, hnode, l6]
        by_cases ht : truth (val c) = true
        · rw [if_pos ht] at harm hvv
          subst harm
          have hkx : Known val m2 x := r2.known _ (Reg.exit_path _ _) x hx
          simp only [Option.bind_some, List.idxOf_cons_self, List.getElem?_cons_zero]
          rw [hvv]
          exact hmm x hkx
        · rw [if_neg ht] at harm hvv
          subst harm
          have hky : Known val m2 y := r2.known _ (Reg.exit_path _ _) y hy
          have hne : l.exit ≠ arm.exit := nlr _ l.exit_mem _ arm.exit_mem
          have hidx : [l.exit, arm.exit].idxOf arm.exit = 1 := by simp [List.idxOf_cons, hne]
          simp only [Option.bind_some, hidx]
          rw [hvv]
          exact hmm y hky)
      have hpath : (Reg.ite b l r rest).path (taken truth s val) = b :: (arm.path (taken truth s val) ++ rest.path (taken truth s val)) := by
        simp only [Reg.path, htk, harm]
        split <;> rfl
      refine ⟨m3, len3 + len2 + 1, ?_, ?_, ?_, fun a ha => r3.mono a (r2.mono a (k1 a ha)), ?_, ?_, ?_⟩
      · have h2 := r2.len
        have h3 := r3.len
        simp only [Reg.blocks, List.length_cons, List.length_append]
        omega
      · intro n
        change exec I truth s (n + (len3 + len2) + 1) pred b m = _
        rw [hstep, ← hent, ← Nat.add_assoc, r2.run]
        simp only [after, da]
        exact r3.run n
      · rw [r3.done, r2.done, d1, hpath]
        simp
      · intro d hd a ha
        rw [hpath, List.mem_cons, List.mem_append] at hd
        rcases hd with rfl | hd | hd
        · exact r3.mono a (r2.mono a (o1 a ha))
        · exact r3.mono a (r2.known d hd a ha)
        · exact r3.known d hd a ha
      · intro d hd v hv hphi a ha
        rw [hpath, List.mem_cons, List.mem_append] at hd
        rcases hd with rfl | hd | hd
        · exact r3.mono a (r2.mono a (a1 v hv hphi a ha))
        · exact r3.mono a (r2.args d hd v hv hphi a ha)
        · exact r3.args d hd v hv hphi a ha
      · intro a ha
        rw [hpath] at ha
        simp only [List.mem_cons, List.mem_append] at ha
        rw [r3.other a fun d hd => ha d (.inr (.inr hd)), r2.other a fun d hd => ha d (.inr (.inl hd)), x1 a (ha b (.inl rfl))]
    by_cases ht : truth (val c) = true
    · exact harm l (by rw [if_pos ht]) (region_ok hΦ hval l _ _ (some b) m1 l7 nl sl hA1 fun _ h => h.elim) l4 (by omega)
    · exact harm r (by rw [if_neg ht]) (region_ok hΦ hval r _ _ (some b) m1 l8 nr sr hA1 fun _ h => h.elim) l5 (by omega)
  | .opt b k l rest, A, P, pred, m, hl, hn, hs, hA, hP => by
    simp only [Lay] at hl
    simp only [Scoped] at hs
    obtain ⟨l1, l2, l4, l6, l7, l9⟩ := hl
    obtain ⟨ho, c, hj, _, sl, srest⟩ := hs
    simp only [Reg.blocks, List.nodup_cons, List.nodup_append, List.mem_append, not_or] at hn
    obtain ⟨_, nl, nrest, _⟩ := hn
    obtain ⟨m1, e1, d1, k1, o1, a1, x1⟩ := execOps_ok (I := I) (pred := pred) (b := b) (s.ops b) A m ho hA (hval b) fun v _ => hP v
    have hA1 : ∀ a, A a ∨ a ∈ s.ops b → Known val m1 a := by
      rintro a (ha | ha)
      · exact k1 a (hA a ha)
      · exact o1 a ha
    have hc : m1.env c = some (val c) := by
      obtain ⟨u, hu, hun⟩ := hj
      exact a1 u (List.mem_of_getLast? hu) (by rw [hun]; simp) c (by rw [hun]; simp)
    have htk : taken truth s val b = truth (val c) := by simp [taken, jumpCondition_of hj]
    have hstep : ∀ n, exec I truth s (n + 1) pred b m = exec I truth s n (some b) (if truth (val c) then l.entry else rest.entry) m1 := by
      intro n
      rw [exec_succ, e1]
      simp only [after, l1, jumpCondition_of hj, Option.bind_some, hc]
    by_cases ht : truth (val c) = true
    · obtain ⟨m2, len2, r2⟩ := region_ok hΦ hval l _ _ (some b) m1 l7 nl sl hA1 (fun _ h => h.elim)
      obtain ⟨m3, len3, r3⟩ := region_ok hΦ hval rest _ _ (some l.exit) m2 l9 nrest srest (fun a ha => r2.mono a (hA1 a ha)) (fun _ h => h.elim)
      have hpath : (Reg.opt b k l rest).path (taken truth s val) = b :: (l.path (taken truth s val) ++ rest.path (taken truth s val)) := by
        simp only [Reg.path, htk, ht, if_true]
      refine ⟨m3, len3 + len2 + 1, ?_, ?_, ?_, fun a ha => r3.mono a (r2.mono a (k1 a ha)), ?_, ?_, ?_⟩
      · have h2 := r2.len
        have h3 := r3.len
        simp only [Reg.blocks, List.length_cons, List.length_append]
        omega
      · intro n
        change exec I truth s (n + (len3 + len2) + 1) pred b m = _
        rw [hstep, if_pos ht, ← Nat.add_assoc, r2.run]
        simp only [after, l4]
        exact r3.run n
      · rw [r3.done, r2.done, d1, hpath]
        simp
      · intro d hd a ha
        rw [hpath, List.mem_cons, List.mem_append] at hd
        rcases hd with rfl | hd | hd
        · exact r3.mono a (r2.mono a (o1 a ha))
        · exact r3.mono a (r2.known d hd a ha)
        · exact r3.known d hd a ha
      · intro d hd v hv hphi a ha
        rw [hpath, List.mem_cons, List.mem_append] at hd
        rcases hd with rfl | hd | hd
        · exact r3.mono a (r2.mono a (a1 v hv hphi a ha))
        · exact r3.mono a (r2.args d hd v hv hphi a ha)
        · exact r3.args d hd v hv hphi a ha
      · intro a ha
        rw [hpath] at ha
        simp only [List.mem_cons, List.mem_append] at ha
        rw [r3.other a fun d hd => ha d (.inr (.inr hd)), r2.other a fun d hd => ha d (.inr (.inl hd)), x1 a (ha b (.inl rfl))]
    · obtain ⟨m3, len3, r3⟩ := region_ok hΦ hval rest _ _ (some b) m1 l9 nrest srest hA1 (fun _ h => h.elim)
      have hpath : (Reg.opt b k l rest).path (taken truth s val) = b :: rest.path (taken truth s val) := by
        simp only [Reg.path, htk, ht]; rfl
      refine ⟨m3, len3 + 1, ?_, ?_, ?_, fun a ha => r3.mono a (k1 a ha), ?_, ?_, ?_⟩
      · have h3 := r3.len
        simp only [Reg.blocks, List.length_cons, List.length_append]
        omega
      · intro n
        change exec I truth s (n + len3 + 1) pred b m = _
        rw [hstep, if_neg ht]
        exact r3.run n
      · rw [r3.done, d1, hpath]
        simp
      · intro d hd a ha
        rw [hpath, List.mem_cons] at hd
        rcases hd with rfl | hd
        · exact r3.mono a (o1 a ha)
        · exact r3.known d hd a ha
      · intro d hd v hv hphi a ha
        rw [hpath, List.mem_cons] at hd
        rcases hd with rfl | hd
        · exact r3.mono a (a1 v hv hphi a ha)
        · exact r3.args d hd v hv hphi a ha
      · intro a ha
        rw [hpath] at ha
        simp only [List.mem_cons] at ha
        rw [r3.other a fun d hd => ha d (.inr hd), x1 a (ha b (.inl rfl))]

end Region

end Wf.Gen
