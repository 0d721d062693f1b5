import Verif.Gen.FlowValue

/-!
# Removing useless copies keeps what the program does (used in proofs)
-/

namespace Wf.Gen

open Conv

variable {V : Type} [Arith V]

/-- Remove the value `v`, a copy of `x`, from the program. -/
def Conv.drop (t : Conv) (v x : Nat) : Conv := { t.forward v x with ops := fun b => (t.ops b).filter (· ≠ v) }

/-- Facts about the places of operations. -/
structure Placed (t : Conv) : Prop where
  live : ∀ b, ∀ v ∈ t.ops b, v ∈ t.live
  parent : ∀ b, ∀ v ∈ t.ops b, t.parent v = some b
  nodup : ∀ b, (t.ops b).Nodup
  copy : ∀ b, ∀ v ∈ t.ops b, (t.node v).op = .copy → ∃ x, t.node v = ⟨.copy, [x]⟩
  jump : ∀ b, ∀ v ∈ t.ops b, (t.node v).op = .jump → ∃ x, t.node v = ⟨.jump, [x]⟩
  phi : ∀ b, ∀ v ∈ t.ops b, (t.node v).op = .phi → (t.node v).args.map t.parent = (t.anc b).map some

theorem drop_node {t : Conv} (h : Placed t) {b u v x : Nat} (hu : u ∈ t.ops b) (huv : u ≠ v) : (t.drop v x).node u = replaceArg v x (t.node u) := by
  simp [Conv.drop, forward, huv, h.live b u hu]

theorem mem_drop_ops {t : Conv} {b u v x : Nat} : u ∈ (t.drop v x).ops b ↔ u ∈ t.ops b ∧ u ≠ v := by simp [Conv.drop]

theorem replaceArg_one {v x a : Nat} {op : Op} (h : op.commutative = false) :
    replaceArg v x ⟨op, [a]⟩ = ⟨op, [if a = v then x else a]⟩ := by
  unfold replaceArg
  by_cases hv : v = a
  · subst hv
    simp [mkNode, h]
  · simp [Ne.symm hv, hv]

theorem replaceArg_not_comm {v x : Nat} {n : Node} (h : n.op.commutative = false) :
    (replaceArg v x n).args = n.args.map fun a => if a = v then x else a := by
  unfold replaceArg
  by_cases hv : v ∈ n.args
  · rw [if_pos hv, mkNode_of_not_comm _ h]
  · rw [if_neg hv]
    symm
    refine (List.map_congr_left fun a ha => ?_).trans (List.map_id _)
    rw [if_neg]
    · rfl
    · rintro rfl
      exact hv ha

theorem Placed.drop {t : Conv} (h : Placed t) {v x : Nat} (hp : t.parent x = t.parent v) : Placed (t.drop v x) := by
  have hnode : ∀ b u, u ∈ (t.drop v x).ops b → u ∈ t.ops b ∧ (t.drop v x).node u = replaceArg v x (t.node u) := fun b u hu =>
    ⟨(mem_drop_ops.1 hu).1, drop_node h (mem_drop_ops.1 hu).1 (mem_drop_ops.1 hu).2⟩
  refine ⟨fun b u hu => h.live b u (hnode b u hu).1, fun b u hu => h.parent b u (hnode b u hu).1, fun b => (h.nodup b).filter _, ?_, ?_, ?_⟩
  · intro b u hu ho
    obtain ⟨hu, e⟩ := hnode b u hu
    rw [e, op_replaceArg] at ho
    obtain ⟨y, hy⟩ := h.copy b u hu ho
    exact ⟨_, by rw [e, hy, replaceArg_one rfl]⟩
  · intro b u hu ho
    obtain ⟨hu, e⟩ := hnode b u hu
    rw [e, op_replaceArg] at ho
    obtain ⟨y, hy⟩ := h.jump b u hu ho
    exact ⟨_, by rw [e, hy, replaceArg_one rfl]⟩
  · intro b u hu ho
    obtain ⟨hu, e⟩ := hnode b u hu
    rw [e, op_replaceArg] at ho
    rw [e, replaceArg_not_comm (by rw [ho]; rfl), List.map_map]
    refine Eq.trans (List.map_congr_left fun a _ => ?_) (h.phi b u hu ho)
    simp only [Function.comp_apply]
    change t.parent _ = _
    split
    · rename_i ha; rw [ha, hp]
    · rfl

/-- The machines of the program with and without the copy `v` of `x`. -/
structure Rel (v x : Nat) (m m' : Machine V) : Prop where
  done : m'.done = m.done.filter (· ≠ v)
  env : ∀ u, u ≠ v → m'.env u = m.env u
  mem : ∀ u, m.env u ≠ none → u ∈ m.done
  copy : ∀ y, m.env v = some y → x ≠ v ∧ m.env x = some y

omit [Arith V] in
theorem mapM_getD {env : Nat → Option V} [Zero V] : ∀ (l : List Nat) (ys : List V), l.mapM env = some ys →
    (∀ a ∈ l, env a = some ((env a).getD 0)) ∧ ys = l.map fun a => (env a).getD 0
  | [], ys, h => by
    rw [List.mapM_nil] at h
    cases h
    exact ⟨by simp, rfl⟩
  | a :: l, ys, h => by
    rw [List.mapM_cons] at h
    cases ha : env a with
    | none => rw [ha] at h; cases h
    | some y =>
      rw [ha] at h
      cases hl : l.mapM env with
      | none => rw [hl] at h; cases h
      | some zs =>
        rw [hl] at h
        cases h
        obtain ⟨h1, h2⟩ := mapM_getD l zs hl
        refine ⟨?_, by simp [ha, h2]⟩
        intro c hc
        rcases List.mem_cons.1 hc with rfl | hc
        · simp [ha]
        · exact h1 c hc

theorem opValue_drop {I : Interp V} {t : Conv} (h : Placed t) {pred : Option Nat} {b u v x : Nat} {m m' : Machine V} (hr : Rel v x m m')
    (hu : u ∈ t.ops b) (huv : u ≠ v) {y : V} (hy : opValue I t pred b m.env u = some y) : opValue I (t.drop v x) pred b m'.env u = some y := by
  have hnode : (t.drop v x).node u = replaceArg v x (t.node u) := drop_node h hu huv
  have hanc : (t.drop v x).anc = t.anc := rfl
  rw [opValue, hnode, op_replaceArg, hanc]
  rw [opValue] at hy
  by_cases hphi : (t.node u).op = .phi
  · rw [if_pos hphi] at hy ⊢
    rw [replaceArg_not_comm (by rw [hphi]; rfl)]
    cases pred with
    | none => cases hy
    | some p =>
      simp only [Option.bind_some, List.getElem?_map] at hy ⊢
      cases ha : (t.node u).args[(t.anc b).idxOf p]? with
      | none => rw [ha] at hy; cases hy
      | some a =>
        rw [ha] at hy
        simp only [Option.bind_some, Option.map_some] at hy ⊢
        by_cases hav : a = v
        · subst hav
          rw [if_pos rfl, hr.env x (hr.copy y hy).1]
          exact (hr.copy y hy).2
        · rw [if_neg hav, hr.env a hav, hy]
  · rw [if_neg hphi] at hy ⊢
    cases hm : (t.node u).args.mapM m.env with
    | none => rw [hm] at hy; cases hy
    | some ys =>
      rw [hm] at hy
      obtain ⟨h1, h2⟩ := mapM_getD _ _ hm
      by_cases hv : v ∈ (t.node u).args
      · have hvx := hr.copy _ (h1 v hv)
        have he := eval_replaceArg I (fun a => (m.env a).getD 0) (v := v) (w := x) (by simp only [hvx.2]; rfl) (t.node u)
        rw [mapM_known (val := fun a => (m.env a).getD 0)]
        · rw [op_replaceArg] at he
          simp only [Option.map_some] at hy ⊢
          rw [he, ← h2]
          exact hy
        · intro a ha
          rcases mem_replaceArg ha with ⟨rfl, _⟩ | ⟨ha, hne⟩ | ⟨_, hn⟩
          · rw [hr.env a hvx.1, hvx.2]; rfl
          · rw [hr.env a hne]; exact h1 a ha
          · exact absurd hv hn
      · have e : replaceArg v x (t.node u) = t.node u := by rw [replaceArg, if_neg hv]
        rw [e, mapM_known (val := fun a => (m.env a).getD 0), ← h2]
        · exact hy
        · intro a ha
          rw [hr.env a fun e => hv (e ▸ ha)]
          exact h1 a ha

theorem execOps_done {I : Interp V} {t : Conv} {pred : Option Nat} {b : Nat} : ∀ (ops : List Nat) (m m' : Machine V),
    execOps I t pred b ops m = some m' → m'.done = m.done ++ ops
  | [], m, m', h => by cases h; simp
  | v :: vs, m, m', h => by
    rw [execOps] at h
    cases hv : opValue I t pred b m.env v with
    | none => simp [hv] at h
    | some y =>
      simp only [hv] at h
      rw [execOps_done vs _ _ h]
      simp

theorem exec_done {I : Interp V} {truth : V → Bool} {t : Conv} : ∀ (n : Nat) (pred : Option Nat) (b : Nat) (m m' : Machine V),
    exec I truth t n pred b m = some m' → ∃ l, m'.done = m.done ++ l
  | 0, _, _, _, _, h => by cases h
  | n + 1, pred, b, m, m', h => by
    rw [exec_succ] at h
    cases ho : execOps I t pred b (t.ops b) m with
    | none => simp [ho] at h
    | some m1 =>
      simp only [ho] at h
      have h1 := execOps_done _ _ _ ho
      unfold after at h
      split at h
      · cases h; exact ⟨_, h1⟩
      · obtain ⟨l, hl⟩ := exec_done n _ _ _ _ h
        exact ⟨_, by rw [hl, h1, List.append_assoc]⟩
      · split at h
        · obtain ⟨l, hl⟩ := exec_done n _ _ _ _ h
          exact ⟨_, by rw [hl, h1, List.append_assoc]⟩
        · cases h
      · cases h

theorem execOps_drop {I : Interp V} {t : Conv} (h : Placed t) {pred : Option Nat} {b v x : Nat} (hv : ∀ b, v ∈ t.ops b → t.node v = ⟨.copy, [x]⟩) :
    ∀ (ops : List Nat) (m m' mf : Machine V), (∀ u ∈ ops, u ∈ t.ops b) → Rel v x m m' → execOps I t pred b ops m = some mf → mf.done.Nodup →
      ∃ mf', execOps I (t.drop v x) pred b (ops.filter (· ≠ v)) m' = some mf' ∧ Rel v x mf mf'
  | [], m, m', mf, _, hr, he, _ => by
    cases he
    exact ⟨m', rfl, hr⟩
  | u :: us, m, m', mf, hmem, hr, he, hnd => by
    have hdone := execOps_done _ _ _ he
    rw [execOps] at he
    cases hu : opValue I t pred b m.env u with
    | none => simp [hu] at he
    | some y =>
      simp only [hu] at he
      have hfresh : u ∉ m.done := by
        intro hin
        rw [hdone, List.nodup_append] at hnd
        exact hnd.2.2 u hin u List.mem_cons_self rfl
      have hnone : m.env u = none := by
        by_contra hc
        exact hfresh (hr.mem u hc)
      by_cases huv : u = v
      · subst huv
        have hx : m.env x = some y := by
          rw [opValue, hv b (hmem u List.mem_cons_self)] at hu
          simp only [reduceCtorEq, if_false, List.mapM_cons, List.mapM_nil] at hu
          cases hx : m.env x with
          | none => rw [hx] at hu; cases hu
          | some z =>
            rw [hx] at hu
            simp only [Option.pure_def, Option.bind_eq_bind, Option.bind_some, Option.map_some, I.copy] at hu
            exact hu
        have hxu : x ≠ u := by
          rintro rfl
          rw [hnone] at hx
          cases hx
        have hr2 : Rel u x ⟨updateAt m.env u (some y), m.done ++ [u]⟩ m' := by
          refine ⟨?_, ?_, ?_, ?_⟩
          · simp [hr.done]
          · intro w hw
            simp only [updateAt_ne _ _ hw]
            exact hr.env w hw
          · intro w hw
            by_cases hwu : w = u
            · simp [hwu]
            · simp only [updateAt_ne _ _ hwu] at hw
              exact List.mem_append_left _ (hr.mem w hw)
          · intro z hz
            simp only [updateAt_same] at hz
            cases hz
            exact ⟨hxu, by simp only [updateAt_ne _ _ hxu]; exact hx⟩
        obtain ⟨mf', e', hr'⟩ := execOps_drop h hv us _ m' mf (fun w hw => hmem w (List.mem_cons_of_mem _ hw)) hr2 he hnd
        exact ⟨mf', by simpa using e', hr'⟩
      · have hy' := opValue_drop (I := I) (pred := pred) h hr (hmem u List.mem_cons_self) huv hu
        have hr2 : Rel v x ⟨updateAt m.env u (some y), m.done ++ [u]⟩ ⟨updateAt m'.env u (some y), m'.done ++ [u]⟩ := by
          refine ⟨?_, ?_, ?_, ?_⟩
          · simp [hr.done, huv]
          · intro w hw
            by_cases hwu : w = u
            · simp [hwu]
            · simp only [updateAt_ne _ _ hwu]
              exact hr.env w hw
          · intro w hw
            by_cases hwu : w = u
            · simp [hwu]
            · simp only [updateAt_ne _ _ hwu] at hw
              exact List.mem_append_left _ (hr.mem w hw)
          · intro z hz
            simp only [updateAt_ne _ _ (Ne.symm huv)] at hz
            obtain ⟨h1, h2⟩ := hr.copy z hz
            have hxu : x ≠ u := by
              rintro rfl
              rw [hnone] at h2
              cases h2
            exact ⟨h1, by simp only [updateAt_ne _ _ hxu]; exact h2⟩
        obtain ⟨mf', e', hr'⟩ := execOps_drop h hv us _ _ mf (fun w hw => hmem w (List.mem_cons_of_mem _ hw)) hr2 he hnd
        refine ⟨mf', ?_, hr'⟩
        rw [List.filter_cons_of_pos (by simpa using huv), execOps, hy']
        exact e'

theorem getLast?_filter_ne {l : List Nat} {u v : Nat} (h : l.getLast? = some u) (huv : u ≠ v) : (l.filter (· ≠ v)).getLast? = some u := by
  obtain ⟨l', rfl⟩ := List.getLast?_eq_some_iff.1 h
  rw [List.filter_append]
  simp [huv]

theorem jumpCondition_drop {t : Conv} (h : Placed t) {b v x c : Nat} (hv : ∀ b, v ∈ t.ops b → t.node v = ⟨.copy, [x]⟩) (hc : jumpCondition t b = some c) :
    jumpCondition (t.drop v x) b = some (if c = v then x else c) := by
  unfold jumpCondition at hc
  cases hu : (t.ops b).getLast? with
  | none => rw [hu] at hc; cases hc
  | some u =>
    rw [hu] at hc
    have hmem : u ∈ t.ops b := List.mem_of_getLast? hu
    by_cases hj : (t.node u).op = .jump
    · simp only [hj, if_true] at hc
      have huv : u ≠ v := by
        rintro rfl
        rw [hv b hmem] at hj
        cases hj
      have hu' : ((t.drop v x).ops b).getLast? = some u := getLast?_filter_ne hu huv
      obtain ⟨z, hz⟩ := h.jump b u hmem hj
      have hnode : (t.drop v x).node u = ⟨.jump, [if z = v then x else z]⟩ := by rw [drop_node h hmem huv, hz, replaceArg_one rfl]
      rw [hz] at hc
      cases hc
      simp [jumpCondition, hu', hnode]
    · simp only [hj, if_false] at hc
      cases hc

theorem exec_drop {I : Interp V} {truth : V → Bool} {t : Conv} (h : Placed t) {v x : Nat} (hv : ∀ b, v ∈ t.ops b → t.node v = ⟨.copy, [x]⟩) :
    ∀ (n : Nat) (pred : Option Nat) (b : Nat) (m m' mf : Machine V), Rel v x m m' → exec I truth t n pred b m = some mf → mf.done.Nodup →
      ∃ mf', exec I truth (t.drop v x) n pred b m' = some mf' ∧ Rel v x mf mf'
  | 0, _, _, _, _, _, _, he, _ => by cases he
  | n + 1, pred, b, m, m', mf, hr, he, hnd => by
    rw [exec_succ] at he
    cases ho : execOps I t pred b (t.ops b) m with
    | none => simp [ho] at he
    | some m1 =>
      simp only [ho] at he
      have hnd1 : m1.done.Nodup := by
        have : ∃ l, mf.done = m1.done ++ l := by
          unfold after at he
          split at he
          · cases he; exact ⟨[], by simp⟩
          · exact exec_done n _ _ _ _ he
          · split at he
            · exact exec_done n _ _ _ _ he
            · cases he
          · cases he
        obtain ⟨l, hl⟩ := this
        rw [hl, List.nodup_append] at hnd
        exact hnd.1
      obtain ⟨m1', e1, hr1⟩ := execOps_drop h hv (t.ops b) m m' m1 (fun _ h => h) hr ho hnd1
      have e1' : execOps I (t.drop v x) pred b ((t.drop v x).ops b) m' = some m1' := e1
      rw [exec_succ, e1']
      have hdesc : (t.drop v x).desc = t.desc := rfl
      unfold after at he
      simp only [after, hdesc]
      split at he
      · rename_i hd
        cases he
        exact ⟨m1', by simp, hr1⟩
      · rename_i d hd
        exact exec_drop h hv n _ _ _ _ _ hr1 he hnd
      · rename_i d e hd
        cases hc : jumpCondition t b with
        | none => rw [hc] at he; cases he
        | some c =>
          rw [hc] at he
          cases hy : m1.env c with
          | none => simp only [Option.bind_some, hy] at he; cases he
          | some y =>
            simp only [Option.bind_some, hy] at he
            have hy' : m1'.env (if c = v then x else c) = some y := by
              by_cases hcv : c = v
              · subst hcv
                rw [if_pos rfl, hr1.env x (hr1.copy y hy).1]
                exact (hr1.copy y hy).2
              · rw [if_neg hcv, hr1.env c hcv, hy]
            simp only [jumpCondition_drop h hv hc, Option.bind_some, hy']
            exact exec_drop h hv n _ _ _ _ _ hr1 he hnd
      · cases he

/-- What a run does. -/
def Outcome (I : Interp V) (truth : V → Bool) (t : Conv) (n entry : Nat) (D : Nat → Prop) (S : Nat → V → Prop) : Prop :=
  ∃ m, exec I truth t n none entry .start = some m ∧ m.done.Nodup ∧ (∀ u ∈ m.done, D u ∧ ∃ b, u ∈ t.ops b) ∧
    (∀ u ∈ m.done, (t.node u).op ≠ .phi → ∀ a ∈ (t.node u).args, m.env a ≠ none) ∧ ∀ key y, m.Writes t key y ↔ S key y

theorem Outcome.drop {I : Interp V} {truth : V → Bool} {t : Conv} {n entry v x b0 : Nat} {D : Nat → Prop} {S : Nat → V → Prop} (h : Placed t)
    (hv : v ∈ t.ops b0) (hx : t.node v = ⟨.copy, [x]⟩) (ho : Outcome I truth t n entry D S) : Outcome I truth (t.drop v x) n entry D S := by
  obtain ⟨m, he, hnd, hin, hreads, hw⟩ := ho
  have hr0 : Rel (V := V) v x .start .start := by
    refine ⟨rfl, fun _ _ => rfl, fun u hu => absurd rfl hu, fun y hy => by cases hy⟩
  obtain ⟨m', e', hr⟩ := exec_drop h (fun _ _ => hx) n none entry .start .start m hr0 he hnd
  have hmem : ∀ u, u ∈ m'.done ↔ u ∈ m.done ∧ u ≠ v := by
    intro u
    rw [hr.done]
    simp
  have hnode : ∀ u ∈ m'.done, (t.drop v x).node u = replaceArg v x (t.node u) := by
    intro u hu
    obtain ⟨h1, h2⟩ := (hmem u).1 hu
    obtain ⟨_, b, hb⟩ := hin u h1
    exact drop_node h hb h2
  have hcopy : m.env v ≠ none → x ≠ v ∧ m.env x = m.env v := by
    intro hne
    cases hy : m.env v with
    | none => exact absurd hy hne
    | some y => exact hr.copy y hy
  refine ⟨m', e', ?_, ?_, ?_, ?_⟩
  · rw [hr.done]; exact hnd.filter _
  · intro u hu
    obtain ⟨h1, h2⟩ := (hmem u).1 hu
    obtain ⟨h3, b, hb⟩ := hin u h1
    exact ⟨h3, b, mem_drop_ops.2 ⟨hb, h2⟩⟩
  · intro u hu hp a ha
    rw [hnode u hu] at ha hp
    rw [op_replaceArg] at hp
    obtain ⟨h1, h2⟩ := (hmem u).1 hu
    rcases mem_replaceArg ha with ⟨rfl, hva⟩ | ⟨ha, hne⟩ | ⟨ha, hn⟩
    · have h3 := hreads u h1 hp v hva
      rw [hr.env a (hcopy h3).1, (hcopy h3).2]
      exact h3
    · rw [hr.env a hne]
      exact hreads u h1 hp a ha
    · rw [hr.env a fun e => hn (e ▸ ha)]
      exact hreads u h1 hp a ha
  · intro key y
    rw [← hw key y]
    have key_eq : ∀ u ∈ m.done, u ≠ v → (t.node u).op = .save key → ((t.drop v x).node u).op = .save key ∧
        ((t.drop v x).node u).args.map m'.env = (t.node u).args.map m.env := by
      intro u h1 h2 hs
      rw [hnode u ((hmem u).2 ⟨h1, h2⟩), op_replaceArg, replaceArg_not_comm (by rw [hs]; rfl), List.map_map]
      refine ⟨hs, List.map_congr_left fun a ha => ?_⟩
      simp only [Function.comp_apply]
      have hne := hreads u h1 (by rw [hs]; simp) a ha
      by_cases hav : a = v
      · subst hav
        rw [if_pos rfl, hr.env x (hcopy hne).1, (hcopy hne).2]
      · rw [if_neg hav, hr.env a hav]
    constructor
    · rintro ⟨u, hu, hs, ha⟩
      obtain ⟨h1, h2⟩ := (hmem u).1 hu
      rw [hnode u hu, op_replaceArg] at hs
      exact ⟨u, h1, hs, by rw [← (key_eq u h1 h2 hs).2]; exact ha⟩
    · rintro ⟨u, hu, hs, ha⟩
      have h2 : u ≠ v := by
        rintro rfl
        rw [hx] at hs
        cases hs
      exact ⟨u, (hmem u).2 ⟨hu, h2⟩, (key_eq u hu h2 hs).1, by rw [(key_eq u hu h2 hs).2]; exact ha⟩

/-! ## The loops of `eliminate_useless_copies` -/

/-- What every removal keeps is kept by the loop over one block. -/
theorem dropCopies_keeps {Q : Conv → Prop} (hQ : ∀ t b v x, Placed t → Q t → v ∈ t.ops b → t.node v = ⟨.copy, [x]⟩ → t.parent x = t.parent v → Q (t.drop v x))
    {b : Nat} : ∀ (l kept : List Nat) (s : Conv), Placed { s with ops := updateAt s.ops b (kept ++ l) } → Q { s with ops := updateAt s.ops b (kept ++ l) } →
      Placed { (s.dropCopies l).1 with ops := updateAt (s.dropCopies l).1.ops b (kept ++ (s.dropCopies l).2) } ∧
        Q { (s.dropCopies l).1 with ops := updateAt (s.dropCopies l).1.ops b (kept ++ (s.dropCopies l).2) }
  | [], kept, s, hp, hq => ⟨hp, hq⟩
  | v :: vs, kept, s, hp, hq => by
    rw [dropCopies]
    by_cases hc : (s.node v).op = .copy ∧ s.parent (s.firstOperand v) = s.parent v
    · rw [if_pos hc]
      have hvb : v ∈ updateAt s.ops b (kept ++ v :: vs) b := by simp
      obtain ⟨x, hx⟩ := hp.copy b v hvb hc.1
      have hfirst : s.firstOperand v = x := by
        have : s.node v = ⟨.copy, [x]⟩ := hx
        simp [firstOperand, this]
      rw [hfirst] at hc ⊢
      have hnd : (kept ++ v :: vs).Nodup := by simpa using hp.nodup b
      have heq : Conv.drop { s with ops := updateAt s.ops b (kept ++ v :: vs) } v x =
          { (s.forward v x) with ops := updateAt (s.forward v x).ops b (kept ++ vs) } := by
        have hops : (fun d => (updateAt s.ops b (kept ++ v :: vs) d).filter (· ≠ v)) = updateAt s.ops b (kept ++ vs) := ?_
        · change Conv.mk _ _ _ _ _ (fun d => (updateAt s.ops b (kept ++ v :: vs) d).filter (· ≠ v)) _ _ _ = _
          rw [hops]
          rfl
        funext d
        by_cases hd : d = b
        · subst hd
          simp only [updateAt_same]
          rw [List.nodup_append] at hnd
          obtain ⟨_, h2, h3⟩ := hnd
          rw [List.filter_append, List.filter_cons_of_neg (by simp)]
          rw [List.nodup_cons] at h2
          rw [List.filter_eq_self.2, List.filter_eq_self.2]
          · intro w hw
            simp only [ne_eq, decide_not, Bool.not_eq_true', decide_eq_false_iff_not]
            rintro rfl
            exact h2.1 hw
          · intro w hw
            simp only [ne_eq, decide_not, Bool.not_eq_true', decide_eq_false_iff_not]
            rintro rfl
            exact h3 w hw w List.mem_cons_self rfl
        · simp only [updateAt_ne _ _ hd]
          rw [List.filter_eq_self.2]
          intro w hw
          simp only [ne_eq, decide_not, Bool.not_eq_true', decide_eq_false_iff_not]
          rintro rfl
          have h1 := hp.parent b w hvb
          have h2 := hp.parent d w (by simp only [updateAt_ne _ _ hd]; exact hw)
          rw [h1] at h2
          cases h2
          exact hd rfl
      have hp2 := hp.drop (v := v) (x := x) hc.2
      have hq2 := hQ _ b v x hp hq hvb hx hc.2
      rw [heq] at hp2 hq2
      exact dropCopies_keeps hQ vs kept (s.forward v x) hp2 hq2
    · rw [if_neg hc]
      have e : kept ++ v :: vs = (kept ++ [v]) ++ vs := by simp
      rw [e] at hp hq
      have := dropCopies_keeps hQ vs (kept ++ [v]) s hp hq
      simpa using this

theorem eliminateCopies_keeps {Q : Conv → Prop} (hQ : ∀ t b v x, Placed t → Q t → v ∈ t.ops b → t.node v = ⟨.copy, [x]⟩ → t.parent x = t.parent v → Q (t.drop v x)) :
    ∀ (bs : List Nat) (s : Conv), Placed s → Q s → Placed (s.eliminateCopies bs) ∧ Q (s.eliminateCopies bs)
  | [], _, hp, hq => ⟨hp, hq⟩
  | b :: bs, s, hp, hq => by
    have e : { s with ops := updateAt s.ops b ([] ++ s.ops b) } = s := by
      have : updateAt s.ops b ([] ++ s.ops b) = s.ops := by
        funext d
        by_cases hd : d = b
        · subst hd; simp
        · simp [updateAt_ne _ _ hd]
      rw [this]
    have := dropCopies_keeps hQ (b := b) (s.ops b) [] s (by rw [e]; exact hp) (by rw [e]; exact hq)
    rw [eliminateCopies]
    exact eliminateCopies_keeps hQ bs _ this.1 this.2

end Wf.Gen
