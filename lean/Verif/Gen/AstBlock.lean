import Verif.Gen.AstTarget

/-!
# The statements of one block (used in proofs)
-/

namespace Wf.Gen

open Conv

variable {V : Type} [Arith V]

theorem runAll_returned {I : Interp V} {truth : V → Bool} {m : Store V} (h : m.returned = true) : ∀ ss : List Stmt, runAll I truth ss m = some m
  | [] => rfl
  | st :: ss => by
    change (if m.returned then some m else _) = _
    rw [if_pos h]

theorem runAll_append {I : Interp V} {truth : V → Bool} : ∀ (ss ts : List Stmt) (m : Store V), runAll I truth (ss ++ ts) m = (runAll I truth ss m).bind (runAll I truth ts)
  | [], ts, m => rfl
  | st :: ss, ts, m => by
    change (if m.returned then some m else match st.run I truth m with | some m' => runAll I truth (ss ++ ts) m' | none => none) =
      (if m.returned then some m else match st.run I truth m with | some m' => runAll I truth ss m' | none => none).bind (runAll I truth ts)
    cases hr : m.returned with
    | true =>
      simp only [if_true, Option.bind_some]
      rw [runAll_returned hr]
    | false =>
      simp only [Bool.false_eq_true, if_false]
      cases st.run I truth m with
      | none => rfl
      | some m' => exact runAll_append ss ts m'

theorem runAll_cons {I : Interp V} {truth : V → Bool} {st : Stmt} {ss : List Stmt} {m m' : Store V} (hr : m.returned = false) (h : st.run I truth m = some m') :
    runAll I truth (st :: ss) m = runAll I truth ss m' := by
  change (if m.returned then some m else match st.run I truth m with | some m' => runAll I truth ss m' | none => none) = _
  rw [if_neg (by simp [hr]), h]

section

variable {info : AstInfo} {g : Graph} {I : Interp V} {truth : V → Bool} {val : Nat → V} {W : Reg} {s : Conv}

theorem Holds.mono {A B : Nat → Prop} {vars : Nat → Option (Option V)} (h : Holds info s val B vars) (hAB : ∀ a, A a → B a) : Holds info s val A vars :=
  fun a ha hd => h a (hAB a ha) hd

/-- The turn of the loop for one operation. -/
theorem Fine.visitOne_ok (h : Fine info g I truth val W s) {A : Nat → Prop} {d : Nat → Bool} (hA : Closed s A) (hd : Declared info s A d) {b v : Nat}
    (hv : v ∈ s.ops b) (hs : silent (s.node v).op = false) (ha : ∀ a ∈ (s.node v).args, A a) :
    ∃ (phis : List Nat) (e : AExpr), phis.Nodup ∧ (∀ t, t ∈ phis ↔ Target s v t) ∧ (∀ vars, Holds info s val A vars → e.eval I vars = some (val v)) ∧
      s.visitOne info (s.live.length + 1) d v = .ok (if declares info s v then (updateAt d v true, [.decl v e], phis.map fun p => (p, .ref v))
        else (d, [], phis.map fun p => (p, e))) := by
  obtain ⟨phis, hp⟩ := h.targets_live hv
  have hr := h.rank_lt' hv
  obtain ⟨inl, hi⟩ := h.inlined_ok (s.live.length + 1) b v hv (by omega)
  have hphi : (s.node v).op ≠ .phi := by intro e; rw [e] at hs; cases hs
  have hdec : declares info s v = s.needsDeclaration info v phis inl := by
    rw [declares, not_isPhi.2 hphi, hs, hp, hi]
    rfl
  by_cases hn : declares info s v = true
  · have hd1 : Declared info s A (updateAt d v true) := by
      refine ⟨fun a hda => ?_, fun a hAa hda => ?_⟩
      · by_cases hav : a = v
        · rw [hav]; exact hn
        · rw [updateAt_ne _ _ hav] at hda
          exact hd.1 a hda
      · by_cases hav : a = v
        · rw [hav, updateAt_same]
        · rw [updateAt_ne _ _ hav]
          exact hd.2 a hAa hda
    obtain ⟨e, he, hev⟩ := h.visitValue_ok hA hd1 (s.live.length + 1) b v hv hs ha (by omega)
    refine ⟨phis, e, h.targets_nodup _ _ _ _ hv hp, mem_targets _ _ _ hp, hev, ?_⟩
    rw [visitOne, hp]
    simp only [hi]
    rw [if_pos (by rw [← hdec]; exact hn), he, if_pos hn]
  · obtain ⟨e, he, hev⟩ := h.visitValue_ok hA hd (s.live.length + 1) b v hv hs ha (by omega)
    refine ⟨phis, e, h.targets_nodup _ _ _ _ hv hp, mem_targets _ _ _ hp, hev, ?_⟩
    rw [visitOne, hp]
    simp only [hi]
    rw [if_neg (by rw [← hdec]; exact hn), he, if_neg hn]

theorem silent_declares {v : Nat} (hs : silent (s.node v).op = true) (hp : (s.node v).op ≠ .phi) : declares info s v = false := by
  rw [declares, not_isPhi.2 hp, hs]
  rfl

/-- What the loop over operations gives. -/
structure Visited (info : AstInfo) (I : Interp V) (truth : V → Bool) (val : Nat → V) (s : Conv) (A : Nat → Prop) (l : List Nat) (d d' : Nat → Bool)
    (ss : List Stmt) (asg : List (Nat × AExpr)) : Prop where
  closed : Closed s (fun a => A a ∨ a ∈ l)
  declared : Declared info s (fun a => A a ∨ a ∈ l) d'
  grow : ∀ a, d a = true → d' a = true
  run : ∀ m : Store V, m.returned = false → Holds info s val A m.vars →
    (∀ v ∈ l, (s.node v).op = .phi → declares info s v = true → m.vars v = some (some (val v))) → (∀ v ∈ l, (s.node v).op ≠ .phi → m.vars v = none) →
    ∃ vars, runAll I truth ss m = some { m with vars := vars } ∧ Holds info s val (fun a => A a ∨ a ∈ l) vars ∧
      ∀ a, a ∉ l ∨ (s.node a).op = .phi → vars a = m.vars a
  right : ∀ p ∈ asg, ∃ x ∈ l, silent (s.node x).op = false ∧ Target s x p.1 ∧
    ∀ vars, Holds info s val (fun a => A a ∨ a ∈ l) vars → p.2.eval I vars = some (val x)
  all : ∀ x ∈ l, silent (s.node x).op = false → ∀ t, Target s x t → ∃ p ∈ asg, p.1 = t
  keys : (asg.map (·.1)).Nodup

theorem Fine.visitOps_ok (h : Fine info g I truth val W s) {b : Nat} {P : Nat → Prop} : ∀ (l : List Nat) (A : Nat → Prop) (d : Nat → Bool), OpsOk s P A l →
    (∀ v ∈ l, v ∈ s.ops b) → l.Nodup → Closed s A → Declared info s A d → (∀ v ∈ l, (s.node v).op = .phi → declares info s v = true → d v = true) →
    ∃ d' ss asg, s.visitOps info (s.live.length + 1) d l = .ok (d', ss, asg) ∧ Visited info I truth val s A l d d' ss asg
  | [], A, d, _, _, _, hA, hd, _ => by
    have e : (fun a => A a ∨ a ∈ ([] : List Nat)) = A := by funext a; simp
    refine ⟨d, [], [], rfl, by rw [e]; exact hA, by rw [e]; exact hd, fun _ h => h, fun m hr hh _ _ => ⟨m.vars, rfl, by rw [e]; exact hh, fun _ _ => rfl⟩,
      by simp, by simp, by simp⟩
  | v :: vs, A, d, ho, hl, hn, hA, hd, hp => by
    have hv := hl v List.mem_cons_self
    have hnv := (List.nodup_cons.1 hn).1
    have hAv : ∀ {A' : Nat → Prop}, A' = (fun a => A a ∨ a = v) → (fun a => A' a ∨ a ∈ vs) = fun a => A a ∨ a ∈ v :: vs := by
      rintro A' rfl
      funext a
      simp [or_assoc]
    have hclosed : Closed s (fun a => A a ∨ a = v) := by
      rintro a (ha | rfl)
      · exact ⟨(hA a ha).1, fun hph x hx => .inl ((hA a ha).2 hph x hx)⟩
      · refine ⟨⟨b, hv⟩, fun hph x hx => .inl ?_⟩
        have h1 := ho.1
        rw [if_neg hph] at h1
        exact h1 x hx
    by_cases hs : silent (s.node v).op = true
    · have hd1 : Declared info s (fun a => A a ∨ a = v) d := by
        refine ⟨hd.1, ?_⟩
        rintro a (ha | rfl) hda
        · exact hd.2 a ha hda
        · refine hp a List.mem_cons_self ?_ hda
          by_contra hph
          rw [silent_declares hs hph] at hda
          cases hda
      obtain ⟨d', ss, asg, e, r⟩ := h.visitOps_ok vs _ d ho.2 (fun u hu => hl u (List.mem_cons_of_mem _ hu)) (List.nodup_cons.1 hn).2 hclosed hd1
        (fun u hu => hp u (List.mem_cons_of_mem _ hu))
      refine ⟨d', ss, asg, by rw [visitOps, if_pos hs]; exact e, ?_, ?_, r.grow, ?_, ?_, ?_, r.keys⟩
      · rw [← hAv rfl]; exact r.closed
      · rw [← hAv rfl]; exact r.declared
      · intro m hr hh hph hfresh
        obtain ⟨vars, h1, h2, h3⟩ := r.run m hr (by
          rintro a (ha | rfl) hda
          · exact hh a ha hda
          · refine hph a List.mem_cons_self ?_ hda
            by_contra hph
            rw [silent_declares hs hph] at hda
            cases hda) (fun u hu => hph u (List.mem_cons_of_mem _ hu)) (fun u hu => hfresh u (List.mem_cons_of_mem _ hu))
        refine ⟨vars, h1, by rw [← hAv rfl]; exact h2, fun a ha => h3 a ?_⟩
        exact ha.imp_left fun ha hm => ha (List.mem_cons_of_mem _ hm)
      · intro p hpm
        obtain ⟨x, hx, h1, h2, h3⟩ := r.right p hpm
        exact ⟨x, List.mem_cons_of_mem _ hx, h1, h2, by rw [← hAv rfl]; exact h3⟩
      · intro x hx hsx
        rcases List.mem_cons.1 hx with rfl | hx
        · rw [hs] at hsx; cases hsx
        · exact r.all x hx hsx
    · rw [Bool.not_eq_true] at hs
      have hph : (s.node v).op ≠ .phi := by intro e; rw [e] at hs; cases hs
      have hargs : ∀ a ∈ (s.node v).args, A a := by
        have h1 := ho.1
        rw [if_neg hph] at h1
        exact h1
      obtain ⟨phis, rhs, hnd, ht, hev, e1⟩ := h.visitOne_ok hA hd hv hs hargs
      have hkeys : ∀ (f : Nat → AExpr) (asg : List (Nat × AExpr)), (asg.map (·.1)).Nodup → (∀ p ∈ asg, ∃ x ∈ vs, Target s x p.1) →
          ((phis.map (fun p => (p, f p)) ++ asg).map (·.1)).Nodup := by
        intro f asg h1 h2
        rw [List.map_append, List.map_map, List.nodup_append]
        refine ⟨by simpa [Function.comp_def] using hnd, h1, ?_⟩
        intro t htm t' htm'
        rintro rfl
        obtain ⟨p, hpm, hpt⟩ := List.mem_map.1 htm
        obtain ⟨q, hqm, hqt⟩ := List.mem_map.1 htm'
        obtain ⟨x, hx, hxt⟩ := h2 q hqm
        have := h.target_unique ((ht p).1 hpm) hv (hl x (List.mem_cons_of_mem _ hx)) (by
          have e : p = q.1 := hpt.trans hqt.symm
          rw [e]; exact hxt)
        subst this
        exact hnv hx
      by_cases hdv : declares info s v = true
      · rw [if_pos hdv] at e1
        have hd1 : Declared info s (fun a => A a ∨ a = v) (updateAt d v true) := by
          refine ⟨fun a hda => ?_, ?_⟩
          · by_cases hav : a = v
            · rw [hav]; exact hdv
            · rw [updateAt_ne _ _ hav] at hda
              exact hd.1 a hda
          · intro a ha hda
            by_cases hav : a = v
            · rw [hav, updateAt_same]
            · rw [updateAt_ne _ _ hav]
              exact hd.2 a (ha.resolve_right hav) hda
        obtain ⟨d', ss, asg, e, r⟩ := h.visitOps_ok vs _ (updateAt d v true) ho.2 (fun u hu => hl u (List.mem_cons_of_mem _ hu)) (List.nodup_cons.1 hn).2
          hclosed hd1 (fun u hu hup hud => by
            have huv : u ≠ v := by rintro rfl; exact hnv hu
            rw [updateAt_ne _ _ huv]
            exact hp u (List.mem_cons_of_mem _ hu) hup hud)
        refine ⟨d', .decl v rhs :: ss, phis.map (fun p => (p, .ref v)) ++ asg, ?_, ?_, ?_, ?_, ?_, ?_, ?_, hkeys (fun _ => .ref v) _ r.keys fun p hpm => by
          obtain ⟨x, hx, _, h2, _⟩ := r.right p hpm
          exact ⟨x, hx, h2⟩⟩
        · rw [visitOps, if_neg (by simp [hs]), e1]
          simp only [e]
          rfl
        · rw [← hAv rfl]; exact r.closed
        · rw [← hAv rfl]; exact r.declared
        · intro a ha
          refine r.grow a ?_
          by_cases hav : a = v
          · rw [hav, updateAt_same]
          · rw [updateAt_ne _ _ hav]; exact ha
        · intro m hr hh hphis hfresh
          have hstep : (Stmt.decl v rhs).run I truth m = some { m with vars := updateAt m.vars v (some (some (val v))) } := by
            change (if (m.vars v).isSome then none else match rhs.eval I m.vars with | some x => some { m with vars := updateAt m.vars v (some (some x)) } | none => none) = _
            rw [hfresh v List.mem_cons_self hph, if_neg (by simp), hev m.vars hh]
          obtain ⟨vars, h1, h2, h3⟩ := r.run { m with vars := updateAt m.vars v (some (some (val v))) } hr (by
              intro a ha hda
              by_cases hav : a = v
              · rw [hav]; simp
              · change updateAt m.vars v _ a = _
                rw [updateAt_ne _ _ hav]
                exact hh a (ha.resolve_right hav) hda)
            (fun u hu hup hud => by
              have huv : u ≠ v := by rintro rfl; exact hnv hu
              change updateAt m.vars v _ u = _
              rw [updateAt_ne _ _ huv]
              exact hphis u (List.mem_cons_of_mem _ hu) hup hud)
            (fun u hu hup => by
              have huv : u ≠ v := by rintro rfl; exact hnv hu
              change updateAt m.vars v _ u = _
              rw [updateAt_ne _ _ huv]
              exact hfresh u (List.mem_cons_of_mem _ hu) hup)
          refine ⟨vars, by rw [runAll_cons hr hstep]; exact h1, by rw [← hAv rfl]; exact h2, fun a ha => ?_⟩
          have hav : a ≠ v := by
            rintro rfl
            rcases ha with ha | ha
            · exact ha List.mem_cons_self
            · exact hph ha
          rw [h3 a (ha.imp_left fun ha hm => ha (List.mem_cons_of_mem _ hm))]
          exact updateAt_ne _ _ hav
        · intro p hpm
          rcases List.mem_append.1 hpm with hpm | hpm
          · obtain ⟨t, htm, rfl⟩ := List.mem_map.1 hpm
            refine ⟨v, List.mem_cons_self, hs, (ht t).1 htm, fun vars hh => ?_⟩
            change (vars v).join = _
            rw [hh v (.inr List.mem_cons_self) hdv]
            rfl
          · obtain ⟨x, hx, h1, h2, h3⟩ := r.right p hpm
            exact ⟨x, List.mem_cons_of_mem _ hx, h1, h2, by rw [← hAv rfl]; exact h3⟩
        · intro x hx hsx t htx
          rcases List.mem_cons.1 hx with rfl | hx
          · exact ⟨(t, .ref x), List.mem_append_left _ (List.mem_map.2 ⟨t, (ht t).2 htx, rfl⟩), rfl⟩
          · obtain ⟨p, hpm, hpt⟩ := r.all x hx hsx t htx
            exact ⟨p, List.mem_append_right _ hpm, hpt⟩
      · rw [if_neg hdv] at e1
        have hd1 : Declared info s (fun a => A a ∨ a = v) d := by
          refine ⟨hd.1, ?_⟩
          rintro a (ha | rfl) hda
          · exact hd.2 a ha hda
          · exact absurd hda hdv
        obtain ⟨d', ss, asg, e, r⟩ := h.visitOps_ok vs _ d ho.2 (fun u hu => hl u (List.mem_cons_of_mem _ hu)) (List.nodup_cons.1 hn).2
          hclosed hd1 (fun u hu => hp u (List.mem_cons_of_mem _ hu))
        refine ⟨d', ss, phis.map (fun p => (p, rhs)) ++ asg, ?_, ?_, ?_, r.grow, ?_, ?_, ?_, hkeys (fun _ => rhs) _ r.keys fun p hpm => by
          obtain ⟨x, hx, _, h2, _⟩ := r.right p hpm
          exact ⟨x, hx, h2⟩⟩
        · rw [visitOps, if_neg (by simp [hs]), e1]
          simp only [e]
          rfl
        · rw [← hAv rfl]; exact r.closed
        · rw [← hAv rfl]; exact r.declared
        · intro m hr hh hphis hfresh
          obtain ⟨vars, h1, h2, h3⟩ := r.run m hr (by
              rintro a (ha | rfl) hda
              · exact hh a ha hda
              · exact absurd hda hdv) (fun u hu => hphis u (List.mem_cons_of_mem _ hu)) (fun u hu => hfresh u (List.mem_cons_of_mem _ hu))
          exact ⟨vars, h1, by rw [← hAv rfl]; exact h2, fun a ha => h3 a (ha.imp_left fun ha hm => ha (List.mem_cons_of_mem _ hm))⟩
        · intro p hpm
          rcases List.mem_append.1 hpm with hpm | hpm
          · obtain ⟨t, htm, rfl⟩ := List.mem_map.1 hpm
            exact ⟨v, List.mem_cons_self, hs, (ht t).1 htm, fun vars hh => hev vars (hh.mono fun a ha => .inl ha)⟩
          · obtain ⟨x, hx, h1, h2, h3⟩ := r.right p hpm
            exact ⟨x, List.mem_cons_of_mem _ hx, h1, h2, by rw [← hAv rfl]; exact h3⟩
        · intro x hx hsx t htx
          rcases List.mem_cons.1 hx with rfl | hx
          · exact ⟨(t, rhs), List.mem_append_left _ (List.mem_map.2 ⟨t, (ht t).2 htx, rfl⟩), rfl⟩
          · obtain ⟨p, hpm, hpt⟩ := r.all x hx hsx t htx
            exact ⟨p, List.mem_append_right _ hpm, hpt⟩

theorem Target.phi {s : Conv} {v t : Nat} (h : Target s v t) : (s.node t).op = .phi := by
  induction h with
  | own h _ => exact isPhi_iff.1 h
  | step _ _ _ ih => exact ih

theorem Target.declares {info : AstInfo} {s : Conv} {v t : Nat} (h : Target s v t) : declares info s t = true := by
  induction h with
  | own h1 h2 => rw [Gen.declares, if_pos h1, h2]; rfl
  | step _ _ _ ih => exact ih

theorem assign_ok {B : Nat → Prop} : ∀ (l : List (Nat × AExpr)) (m : Store V), m.returned = false → Holds info s val B m.vars → (l.map (·.1)).Nodup →
    (∀ p ∈ l, m.vars p.1 = some none ∧ ∀ vars, Holds info s val B vars → p.2.eval I vars = some (val p.1)) →
    ∃ vars, runAll I truth (l.map fun p => .assign p.1 p.2) m = some { m with vars := vars } ∧ (∀ a, m.vars a = some (some (val a)) → vars a = some (some (val a))) ∧
      (∀ p ∈ l, vars p.1 = some (some (val p.1))) ∧ ∀ a, (∀ p ∈ l, p.1 ≠ a) → vars a = m.vars a
  | [], m, hr, hB, _, hl => ⟨m.vars, rfl, fun _ h => h, by simp, fun _ _ => rfl⟩
  | p :: l, m, hr, hB, hn, hl => by
    obtain ⟨hvis, hev⟩ := hl p List.mem_cons_self
    rw [List.map_cons, List.nodup_cons] at hn
    have hstep : (Stmt.assign p.1 p.2).run I truth m = some { m with vars := updateAt m.vars p.1 (some (some (val p.1))) } := by
      change (match m.vars p.1 with
        | some none => match p.2.eval I m.vars with | some x => some { m with vars := updateAt m.vars p.1 (some (some x)) } | none => none
        | _ => none) = _
      rw [hvis, hev m.vars hB]
    have hkeep : ∀ a, m.vars a = some (some (val a)) → updateAt m.vars p.1 (some (some (val p.1))) a = some (some (val a)) := by
      intro a ha
      by_cases hap : a = p.1
      · rw [hap]; simp
      · rw [updateAt_ne _ _ hap]; exact ha
    obtain ⟨vars, h1, h2, h3, h4⟩ := assign_ok l { m with vars := updateAt m.vars p.1 (some (some (val p.1))) } hr (fun a ha hd => hkeep a (hB a ha hd)) hn.2 (by
      intro q hq
      obtain ⟨hv, he⟩ := hl q (List.mem_cons_of_mem _ hq)
      refine ⟨?_, he⟩
      change updateAt m.vars p.1 _ q.1 = _
      have hqp : q.1 ≠ p.1 := fun e => hn.1 (List.mem_map.2 ⟨q, hq, e⟩)
      rw [updateAt_ne _ _ hqp]; exact hv)
    refine ⟨vars, by rw [List.map_cons, runAll_cons hr hstep]; exact h1, fun a ha => h2 a (hkeep a ha), ?_, fun a ha => ?_⟩
    · intro q hq
      rcases List.mem_cons.1 hq with rfl | hq
      · exact h2 _ (by simp)
      · exact h3 q hq
    · rw [h4 a fun q hq => ha q (List.mem_cons_of_mem _ hq)]
      exact updateAt_ne _ _ (Ne.symm (ha p List.mem_cons_self))

/-- The outputs that a list of operations writes. -/
def written (s : Conv) (val : Nat → V) (l : List Nat) : List (Nat × V) :=
  l.filterMap fun v => match saveKey (s.node v).op, (s.node v).args with
    | some k, [a] => some (k, val a)
    | _, _ => none

theorem length_flatMap_le {α β : Type} {f : α → List β} {v : α} (hv : (f v).length ≤ 1) : ∀ l : List α, l.Nodup → (∀ u ∈ l, u ≠ v → f u = []) → (l.flatMap f).length ≤ 1
  | [], _, _ => by simp
  | u :: l, hn, h => by
    rw [List.flatMap_cons, List.length_append]
    by_cases huv : u = v
    · subst huv
      have : l.flatMap f = [] := by
        rw [List.flatMap_eq_nil_iff]
        intro w hw
        exact h w (List.mem_cons_of_mem _ hw) (by rintro rfl; exact (List.nodup_cons.1 hn).1 hw)
      rw [this]
      exact hv
    · rw [h u List.mem_cons_self huv]
      have := length_flatMap_le hv l (List.nodup_cons.1 hn).2 fun w hw => h w (List.mem_cons_of_mem _ hw)
      simpa using this

theorem visitValue_construct {d : Nat → Bool} {n v t : Nat} {e : AExpr} (ho : (s.node v).op = .construct t) (he : s.visitValue info d n v = .ok e) :
    ∃ es, e = .app (.construct t) es := by
  cases n with
  | zero => cases he
  | succ n =>
    rw [visitValue, ho, if_neg (by simp [silent])] at he
    simp only at he
    rw [if_neg (by simp)] at he
    cases hm : (s.node v).args.mapM fun a => if d a then (.ok (.ref a) : Res AExpr) else visitValue info s d n a with
    | error x => rw [hm] at he; cases he
    | ok es => rw [hm] at he; cases he; exact ⟨es, rfl⟩

theorem declares_construct {a t : Nat} (ho : (s.node a).op = .construct t) (hn : ∀ phis, s.targets (s.live.length + 1) a = .ok phis → s.needsDeclaration info a phis false = false) :
    declares info s a = false := by
  rw [declares, not_isPhi.2 (by rw [ho]; exact fun h => nomatch h), ho]
  have hi : s.inlined info (s.live.length + 1) a = .ok false := by
    rw [inlined, ho]
  rw [hi]
  cases htg : s.targets (s.live.length + 1) a with
  | error e => rfl
  | ok phis => exact hn phis htg

theorem declares_matrix {a t v key : Nat} (ho : (s.node a).op = .construct t) (ht : info.matrix t = true) (hv : v ∈ s.uses a) (hs : (s.node v).op = .save key) :
    declares info s a = false := by
  refine declares_construct ho fun phis _ => ?_
  have : s.outputMatrix info a = true := by
    rw [outputMatrix, ho]
    simp only [ht, Bool.and_true, List.any_eq_true]
    exact ⟨v, hv, by rw [hs]; rfl⟩
  rw [needsDeclaration, this]
  simp

theorem Fine.declares_struct (h : Fine info g I truth val W s) {a t v key b : Nat} (ho : (s.node a).op = .construct t) (hv : v ∈ s.ops b)
    (hs : (s.node v).op = .save key) (hone : ∀ d, ∀ w ∈ s.ops d, a ∈ (s.node w).args → w = v) : declares info s a = false := by
  have huse : ∀ u ∈ s.uses a, u = v := by
    intro u hu
    obtain ⟨d, hd⟩ := h.use hu
    exact hone d u hd (mem_uses.1 hu).2
  have hlen : (s.uses a).length ≤ 1 := by
    refine length_flatMap_le (v := v) ?_ s.live h.live fun u hu huv => ?_
    · rw [List.length_map]
      have := h.clean.unary b v hv (.inr ⟨key, hs⟩)
      have := List.length_filter_le (fun x => decide (x = a)) (s.node v).args
      omega
    · rw [List.map_eq_nil_iff, List.filter_eq_nil_iff]
      intro x hx hxa
      have hxa : x = a := by simpa using hxa
      subst hxa
      exact huv (huse u (mem_uses.2 ⟨hu, hx⟩))
  refine declares_construct ho fun phis htg => ?_
  have hphis : phis = [] := by
    rw [targets] at htg
    have hf : (s.uses a).filter s.isPhi = [] := by
      rw [List.filter_eq_nil_iff]
      intro u hu
      rw [huse u hu, not_isPhi.2 (by rw [hs]; exact fun h => nomatch h)]
      simp
    rw [hf] at htg
    cases htg
    rw [ownTarget, not_isPhi.2 (by rw [ho]; exact fun h => nomatch h)]
    simp
  have h1 : ((s.uses a).filter fun u => !s.isPhi u).length ≤ 1 := Nat.le_trans (List.length_filter_le _ _) hlen
  have hra : s.readsArgument info a = false := by rw [readsArgument, ho]
  rw [needsDeclaration, hra, hphis]
  simp only [List.length_nil, Bool.not_false, Bool.true_and, Bool.false_or]
  rw [decide_eq_false (by omega), decide_eq_false (by omega)]
  rfl

theorem Fine.outputOne_ok (h : Fine info g I truth val W s) {B : Nat → Prop} {d : Nat → Bool} (hB : Closed s B) (hd : Declared info s B d) {b v key a : Nat}
    (hv : v ∈ s.ops b) (hs : (s.node v).op = .save key) (ha : (s.node v).args = [a]) (hBa : B a) :
    ∃ e, (∀ vars, Holds info s val B vars → e.eval I vars = some (val a)) ∧ s.outputOne info (s.live.length + 1) d b key (s.node v).args =
      .ok (if info.usage key = .returnValue then .ret key e else .output key e) := by
  have ham : a ∈ (s.node v).args := by rw [ha]; exact List.mem_singleton.2 rfl
  obtain ⟨⟨c, hc⟩, hlt⟩ := h.arg hv ham
  obtain ⟨e, he, hev⟩ := h.visitArgument_ok hB hd (s.live.length + 1) b v a hv (by rw [hs]; exact fun h => nomatch h) (by rw [hs]; exact fun h => nomatch h) ham hBa (by
    have := h.rank_lt' hc
    omega)
  refine ⟨e, hev, ?_⟩
  rw [ha, outputOne, he]
  simp only
  by_cases hu : info.usage key = .returnValue
  · rw [if_pos hu, if_pos hu, if_pos]
    rw [(h.clean.ret b v hv key hs hu).1]
    exact h.stop
  · rw [if_neg hu, if_neg hu]
    cases hk : info.kind key with
    | scalar => rfl
    | matrix =>
      obtain ⟨t, ho, ht⟩ := h.clean.matrix b v hv key hs hu hk a ham
      have hnd : d a = false := by
        by_contra hda
        have := hd.1 a (by simpa using hda)
        rw [declares_matrix ho ht (h.uses_of hv ham) hs] at this
        cases this
      rw [visitArgument, hnd, if_neg (by simp)] at he
      obtain ⟨es, rfl⟩ := visitValue_construct ho he
      simp [isConstruct, ht]
    | struct =>
      obtain ⟨⟨t, ho, ht⟩, hone⟩ := h.clean.struct b v hv key hs hu hk a ham
      have hnd : d a = false := by
        by_contra hda
        have := hd.1 a (by simpa using hda)
        rw [h.declares_struct ho hv hs hone] at this
        cases this
      rw [visitArgument, hnd, if_neg (by simp)] at he
      obtain ⟨es, rfl⟩ := visitValue_construct ho he
      simp [isConstruct, ht]

theorem saveKey_eq {op : Op} {key : Nat} (h : saveKey op = some key) : op = .save key := by
  cases op <;> simp [saveKey] at h
  rw [h]

theorem Fine.outputs_ok (h : Fine info g I truth val W s) {B : Nat → Prop} {d : Nat → Bool} (hB : Closed s B) (hd : Declared info s B d) {b : Nat}
    (hb : ∀ v ∈ s.ops b, (s.node v).op ≠ .phi → ∀ a ∈ (s.node v).args, B a) : ∀ l pre, s.ops b = pre ++ l →
    ∃ ss, s.outputs info (s.live.length + 1) d b l = .ok ss ∧ ∀ m : Store V, m.returned = false → Holds info s val B m.vars →
      ∃ r, runAll I truth ss m = some { m with out := m.out ++ written s val l, returned := r } ∧ (r = true → s.desc b = [])
  | [], pre, _ => ⟨[], rfl, fun m hr _ => ⟨false, by
      change some m = _
      rw [← hr]
      simp [written], fun h => nomatch h⟩⟩
  | v :: vs, pre, he => by
    obtain ⟨ss, h1, h2⟩ := h.outputs_ok hB hd hb vs (pre ++ [v]) (by rw [he]; simp)
    have hv : v ∈ s.ops b := by rw [he]; simp
    cases hk : saveKey (s.node v).op with
    | none =>
      refine ⟨ss, by rw [outputs, hk]; exact h1, fun m hr hh => ?_⟩
      have : written s val (v :: vs) = written s val vs := by simp [written, hk]
      rw [this]
      exact h2 m hr hh
    | some key =>
      have hs := saveKey_eq hk
      have hone := h.clean.unary b v hv (.inr ⟨key, hs⟩)
      obtain ⟨a, ha⟩ := List.length_eq_one_iff.1 hone
      obtain ⟨e, hev, heq⟩ := h.outputOne_ok hB hd hv hs ha (hb v hv (by rw [hs]; exact fun h => nomatch h) a (by rw [ha]; exact List.mem_singleton.2 rfl))
      have hw : written s val (v :: vs) = (key, val a) :: written s val vs := by
        rw [written, List.filterMap_cons_some (b := (key, val a))]
        · rfl
        · rw [hk, ha]
      by_cases hu : info.usage key = .returnValue
      · rw [if_pos hu] at heq
        refine ⟨.ret key e :: ss, by rw [outputs, hk]; simp only [heq, h1], fun m hr hh => ⟨true, ?_, fun _ => ?_⟩⟩
        · have hnil : vs = [] := by
            have hlast := (h.clean.ret b v hv key hs hu).2
            have hn := h.placed.nodup b
            rw [he] at hlast hn
            by_contra hne
            have h3 : (pre ++ v :: vs).getLast? = vs.getLast? := by
              obtain ⟨w, ws, rfl⟩ := List.exists_cons_of_ne_nil hne
              rw [List.getLast?_append, List.getLast?_cons_cons]
              simp [List.getLast?_cons]
            rw [h3] at hlast
            have := List.mem_of_getLast? hlast
            exact (List.nodup_cons.1 (List.nodup_append.1 hn).2.1).1 this
          have hstep : (Stmt.ret key e).run I truth m = some { m with out := m.out ++ [(key, val a)], returned := true } := by
            change (match e.eval I m.vars with | some x => some { m with out := m.out ++ [(key, x)], returned := true } | none => none) = _
            rw [hev m.vars hh]
          rw [runAll_cons hr hstep, runAll_returned rfl, hw, hnil]
          rfl
        · rw [(h.clean.ret b v hv key hs hu).1]
          exact h.stop
      · rw [if_neg hu] at heq
        refine ⟨.output key e :: ss, by rw [outputs, hk]; simp only [heq, h1], fun m hr hh => ?_⟩
        have hstep : (Stmt.output key e).run I truth m = some { m with out := m.out ++ [(key, val a)] } := by
          change (match e.eval I m.vars with | some x => some { m with out := m.out ++ [(key, x)] } | none => none) = _
          rw [hev m.vars hh]
        obtain ⟨r, h3, h4⟩ := h2 { m with out := m.out ++ [(key, val a)] } hr hh
        refine ⟨r, ?_, h4⟩
        rw [runAll_cons hr hstep, h3, hw]
        simp

/-- What the statements of a block do. -/
structure Body (info : AstInfo) (I : Interp V) (truth : V → Bool) (val : Nat → V) (s : Conv) (A : Nat → Prop) (b : Nat) (d d' : Nat → Bool)
    (ss : List Stmt) : Prop where
  closed : Closed s (fun a => A a ∨ a ∈ s.ops b)
  declared : Declared info s (fun a => A a ∨ a ∈ s.ops b) d'
  grow : ∀ a, d a = true → d' a = true
  run : ∀ m : Store V, m.returned = false → Holds info s val A m.vars →
    (∀ v ∈ s.ops b, (s.node v).op = .phi → declares info s v = true → m.vars v = some (some (val v))) → (∀ v ∈ s.ops b, (s.node v).op ≠ .phi → m.vars v = none) →
    (∀ x ∈ s.ops b, silent (s.node x).op = false → ∀ t, Target s x t → m.vars t = some none ∧ val t = val x) →
    ∃ m', runAll I truth ss m = some m' ∧ m'.out = m.out ++ written s val (s.ops b) ∧ (m'.returned = true → s.desc b = []) ∧
      Holds info s val (fun a => A a ∨ a ∈ s.ops b) m'.vars ∧ (∀ a, m.vars a = some (some (val a)) → m'.vars a = some (some (val a))) ∧
      (∀ x ∈ s.ops b, silent (s.node x).op = false → ∀ t, Target s x t → m'.vars t = some (some (val t))) ∧
      (∀ a, (m.vars a).isSome → (m'.vars a).isSome) ∧ (∀ a, a ∉ s.ops b → m.vars a = none → m'.vars a = none) ∧
      ∀ a, m.vars a = some none → (∀ x ∈ s.ops b, silent (s.node x).op = false → ¬ Target s x a) → m'.vars a = some none

theorem opsOk_args {P : Nat → Prop} : ∀ (l : List Nat) (A : Nat → Prop), OpsOk s P A l → ∀ v ∈ l, (s.node v).op ≠ .phi → ∀ a ∈ (s.node v).args, A a ∨ a ∈ l
  | [], _, _, v, hv, _, _, _ => by cases hv
  | u :: us, A, h, v, hv, hp, a, ha => by
    rcases List.mem_cons.1 hv with rfl | hv
    · have h1 := h.1
      rw [if_neg hp] at h1
      exact .inl (h1 a ha)
    · rcases opsOk_args us _ h.2 v hv hp a ha with (h | rfl) | h
      · exact .inl h
      · exact .inr List.mem_cons_self
      · exact .inr (List.mem_cons_of_mem _ h)

theorem Fine.blockBody_ok (h : Fine info g I truth val W s) {b : Nat} {P A : Nat → Prop} {d : Nat → Bool} (ho : OpsOk s P A (s.ops b)) (hA : Closed s A)
    (hd : Declared info s A d) (hp : ∀ v ∈ s.ops b, (s.node v).op = .phi → declares info s v = true → d v = true) (hne : s.desc b ≠ [] → s.ops b ≠ []) :
    ∃ d' ss, s.blockBody info d b = .ok (d', ss) ∧ Body info I truth val s A b d d' ss := by
  obtain ⟨d', ss, asg, e, r⟩ := h.visitOps_ok (b := b) (s.ops b) A d ho (fun _ h => h) (h.placed.nodup b) hA hd hp
  obtain ⟨os, e2, hos⟩ := h.outputs_ok r.closed r.declared (b := b) (opsOk_args _ _ ho) (s.ops b) [] rfl
  refine ⟨d', ss ++ assignments asg ++ os, ?_, r.closed, r.declared, r.grow, ?_⟩
  · rw [blockBody, if_neg (fun hc => hne hc.1 hc.2), e]
    simp only [e2]
  · intro m hr hh hphi hfresh hchan
    obtain ⟨v1, h1, h2, h3⟩ := r.run m hr hh hphi hfresh
    have hmem : ∀ p, p ∈ asg.insertionSort (fun p q => p.1 ≤ q.1) ↔ p ∈ asg := fun p => List.mem_insertionSort _
    obtain ⟨v2, h4, h5, h6, h7⟩ := assign_ok (info := info) (s := s) (val := val) (I := I) (truth := truth) (B := fun a => A a ∨ a ∈ s.ops b)
      (asg.insertionSort fun p q => p.1 ≤ q.1) { m with vars := v1 } hr h2 (((List.perm_insertionSort _ asg).map _).nodup_iff.2 r.keys) (by
        intro p hpm
        obtain ⟨x, hx, hsx, ht, hev⟩ := r.right p ((hmem p).1 hpm)
        obtain ⟨hvis, hval⟩ := hchan x hx hsx p.1 ht
        refine ⟨?_, fun vars hv => by rw [hev vars hv, hval]⟩
        change v1 p.1 = some none
        rw [h3 p.1 (.inr ht.phi)]
        exact hvis)
    obtain ⟨ret, h8, h9⟩ := hos { m with vars := v2 } hr (fun a ha hda => h5 a (h2 a ha hda))
    refine ⟨{ m with vars := v2, out := m.out ++ written s val (s.ops b), returned := ret }, ?_, rfl, h9, fun a ha hda => h5 a (h2 a ha hda), ?_, ?_, ?_, ?_, ?_⟩
    · rw [runAll_append, runAll_append, h1]
      change (runAll I truth (assignments asg) { m with vars := v1 }).bind _ = _
      rw [assignments, h4]
      exact h8
    · intro a ha
      refine h5 a ?_
      change v1 a = _
      by_cases hc : a ∈ s.ops b ∧ (s.node a).op ≠ .phi
      · rw [hfresh a hc.1 hc.2] at ha; cases ha
      · rw [h3 a]
        · exact ha
        · by_cases hm : a ∈ s.ops b
          · right
            by_contra hph
            exact hc ⟨hm, hph⟩
          · exact .inl hm
    · intro x hx hsx t ht
      obtain ⟨p, hpm, rfl⟩ := r.all x hx hsx t ht
      exact h6 p ((hmem p).2 hpm)
    · intro a ha
      change (v2 a).isSome = true
      by_cases hc : ∃ p ∈ asg, p.1 = a
      · obtain ⟨p, hpm, rfl⟩ := hc
        rw [h6 p ((hmem p).2 hpm)]
        rfl
      · rw [h7 a fun p hpm hpa => hc ⟨p, (hmem p).1 hpm, hpa⟩]
        change (v1 a).isSome = true
        by_cases hc : a ∈ s.ops b ∧ (s.node a).op ≠ .phi
        · rw [hfresh a hc.1 hc.2] at ha; cases ha
        · rw [h3 a]
          · exact ha
          · by_cases hm : a ∈ s.ops b
            · right
              by_contra hph
              exact hc ⟨hm, hph⟩
            · exact .inl hm
    · intro a ha hna
      change v2 a = none
      rw [h7 a]
      · change v1 a = none
        rw [h3 a (.inl ha)]
        exact hna
      · intro p hpm hpa
        obtain ⟨x, hx, hsx, ht, _⟩ := r.right p ((hmem p).1 hpm)
        have := (hchan x hx hsx p.1 ht).1
        rw [hpa, hna] at this
        cases this
    · intro a ha hna
      change v2 a = some none
      rw [h7 a]
      · change v1 a = some none
        rw [h3 a]
        · exact ha
        · by_cases hm : a ∈ s.ops b
          · right
            by_contra hph
            rw [hfresh a hm hph] at ha
            cases ha
          · exact .inl hm
      · intro p hpm hpa
        obtain ⟨x, hx, hsx, ht, _⟩ := r.right p ((hmem p).1 hpm)
        exact hna x hx hsx (by rw [← hpa]; exact ht)

end

end Wf.Gen
