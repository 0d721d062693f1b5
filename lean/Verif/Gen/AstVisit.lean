import Verif.Gen.AstInit
import Verif.Gen.AstMerge
import Verif.Gen.FlowLive

/-!
# The expressions and declarations of one block (used in proofs)
-/

namespace Wf.Gen

open Conv

variable {V : Type} [Arith V]

/-- Everything that is known about the input of the last conversion. -/
structure Fine (info : AstInfo) (g : Graph) (I : Interp V) (truth : V → Bool) (val : Nat → V) (W : Reg) (s : Conv) : Prop where
  clean : Clean info g I truth val W s
  placed : Placed s
  nodup : W.blocks.Nodup
  live : s.live.Nodup
  lay : Lay s.anc s.desc W
  stop : s.desc W.exit = []
  flat : W.Flat
  blocks : W.blocks.length ≤ s.blocks
  get : ∀ i, info.scalarGet i = true → ∀ x, I.f (.get i) [x] = x

/-- The variables that receive the value: phi functions with a consumer that is not a phi function. -/
inductive Target (s : Conv) : Nat → Nat → Prop
  | own {v : Nat} : s.isPhi v = true → s.onlyPhis v = false → Target s v v
  | step {v p t : Nat} : p ∈ s.uses v → s.isPhi p = true → Target s p t → Target s v t

/-- The values that are stored in a variable. -/
def declares (info : AstInfo) (s : Conv) (v : Nat) : Bool :=
  if s.isPhi v then !s.onlyPhis v
  else if silent (s.node v).op then false
  else match s.targets (s.live.length + 1) v, s.inlined info (s.live.length + 1) v with
    | .ok phis, .ok inl => s.needsDeclaration info v phis inl
    | _, _ => false

theorem mem_uses {s : Conv} {v u : Nat} : u ∈ s.uses v ↔ u ∈ s.live ∧ v ∈ (s.node u).args := by
  simp only [uses, List.mem_flatMap, List.mem_map, List.mem_filter, decide_eq_true_eq]
  constructor
  · rintro ⟨w, hw, a, ⟨ha, rfl⟩, rfl⟩
    exact ⟨hw, ha⟩
  · rintro ⟨h1, h2⟩
    exact ⟨u, h1, v, ⟨h2, rfl⟩, rfl⟩

theorem isPhi_iff {s : Conv} {v : Nat} : s.isPhi v = true ↔ (s.node v).op = .phi := by simp [isPhi]

theorem not_isPhi {s : Conv} {v : Nat} : s.isPhi v = false ↔ (s.node v).op ≠ .phi := by simp [isPhi]

theorem onlyPhis_false {s : Conv} {v u : Nat} (hu : u ∈ s.uses v) (hp : (s.node u).op ≠ .phi) : s.onlyPhis v = false := by
  rw [onlyPhis, List.all_eq_false]
  exact ⟨u, hu, by rw [not_isPhi.2 hp]; simp⟩

theorem mem_targets {s : Conv} : ∀ (n v : Nat) (l : List Nat), s.targets n v = .ok l → ∀ t, t ∈ l ↔ Target s v t
  | 0, v, l, h, t => by cases h
  | n + 1, v, l, h, t => by
    rw [targets] at h
    cases hm : ((s.uses v).filter s.isPhi).mapM (targets s n) with
    | error e => rw [hm] at h; cases h
    | ok ls =>
      rw [hm] at h
      cases h
      have key : ∀ (ps : List Nat) (ls : List (List Nat)), ps.mapM (targets s n) = .ok ls → (t ∈ ls.flatten ↔ ∃ p ∈ ps, Target s p t) := by
        intro ps
        induction ps with
        | nil =>
          intro ls h
          cases h
          simp
        | cons p ps ih =>
          intro ls h
          rw [List.mapM_cons] at h
          cases h1 : targets s n p with
          | error e => rw [h1] at h; cases h
          | ok l1 =>
            rw [h1] at h
            change (ps.mapM (targets s n) >>= _) = _ at h
            cases h2 : ps.mapM (targets s n) with
            | error e => rw [h2] at h; cases h
            | ok l2 =>
              rw [h2] at h
              cases h
              rw [List.flatten_cons, List.mem_append, mem_targets n p l1 h1 t, ih l2 h2]
              simp
      rw [List.mem_append, key _ _ hm]
      constructor
      · rintro (⟨p, hp, ht⟩ | ht)
        · rw [List.mem_filter] at hp
          exact .step hp.1 hp.2 ht
        · unfold ownTarget at ht
          by_cases hc : (!s.onlyPhis v && s.isPhi v) = true
          · rw [if_pos hc] at ht
            rw [List.mem_singleton.1 ht]
            simp only [Bool.and_eq_true, Bool.not_eq_true'] at hc
            exact .own hc.2 hc.1
          · rw [if_neg hc] at ht; cases ht
      · intro ht
        cases ht with
        | own h1 h2 => right; simp [ownTarget, h1, h2]
        | step h1 h2 h3 => exact .inl ⟨_, List.mem_filter.2 ⟨h1, h2⟩, h3⟩

theorem mapM_res {α β : Type} {f : α → Res β} : ∀ (l : List α), (∀ a ∈ l, ∃ b, f a = .ok b) → ∃ bs, l.mapM f = .ok bs
  | [], _ => ⟨[], rfl⟩
  | a :: l, h => by
    obtain ⟨b, hb⟩ := h a List.mem_cons_self
    obtain ⟨bs, hbs⟩ := mapM_res l fun x hx => h x (List.mem_cons_of_mem _ hx)
    refine ⟨b :: bs, ?_⟩
    rw [List.mapM_cons, hb]
    change (l.mapM f >>= _) = _
    rw [hbs]
    rfl

section

variable {info : AstInfo} {g : Graph} {I : Interp V} {truth : V → Bool} {val : Nat → V} {W : Reg} {s : Conv}

theorem Fine.count (h : Fine info g I truth val W s) : (W.blocks.flatMap s.ops).length ≤ s.live.length := by
  have hn := Clean.nodup h.placed h.nodup
  refine (List.subperm_of_subset hn fun v hv => ?_).length_le
  obtain ⟨b, _, hb⟩ := List.mem_flatMap.1 hv
  exact h.placed.live b v hb

theorem Fine.rank_lt (h : Fine info g I truth val W s) {b v : Nat} (hv : v ∈ s.ops b) : rank s W v < (W.blocks.flatMap s.ops).length :=
  List.idxOf_lt_length_iff.2 (h.clean.mem hv)

theorem Fine.rank_lt' (h : Fine info g I truth val W s) {b v : Nat} (hv : v ∈ s.ops b) : rank s W v < s.live.length :=
  Nat.lt_of_lt_of_le (h.rank_lt hv) h.count

theorem Fine.arg (h : Fine info g I truth val W s) {b v a : Nat} (hv : v ∈ s.ops b) (ha : a ∈ (s.node v).args) :
    (∃ d, a ∈ s.ops d) ∧ rank s W a < rank s W v := h.clean.rank h.placed h.nodup hv ha

theorem Fine.use (h : Fine info g I truth val W s) {v u : Nat} (hu : u ∈ s.uses v) : ∃ b, u ∈ s.ops b :=
  h.clean.used u (mem_uses.1 hu).1 v (mem_uses.1 hu).2

theorem Fine.uses_of (h : Fine info g I truth val W s) {b v a : Nat} (hv : v ∈ s.ops b) (ha : a ∈ (s.node v).args) : v ∈ s.uses a :=
  mem_uses.2 ⟨h.placed.live b v hv, ha⟩

theorem Fine.targets_ok (h : Fine info g I truth val W s) : ∀ (n b v : Nat), v ∈ s.ops b → (W.blocks.flatMap s.ops).length - rank s W v ≤ n →
    ∃ l, s.targets n v = .ok l
  | 0, b, v, hv, hn => by
    have := h.rank_lt hv
    omega
  | n + 1, b, v, hv, hn => by
    obtain ⟨ls, hls⟩ := mapM_res (f := targets s n) ((s.uses v).filter s.isPhi) (by
      intro p hp
      have hp := (List.mem_filter.1 hp).1
      obtain ⟨d, hd⟩ := h.use hp
      have := (h.arg hd (mem_uses.1 hp).2).2
      have := h.rank_lt hd
      exact h.targets_ok n d p hd (by omega))
    refine ⟨ls.flatten ++ s.ownTarget v, ?_⟩
    rw [targets, hls]

theorem Fine.targets_live (h : Fine info g I truth val W s) {b v : Nat} (hv : v ∈ s.ops b) : ∃ l, s.targets (s.live.length + 1) v = .ok l :=
  h.targets_ok _ b v hv (by have := h.count; omega)

theorem Fine.inlined_ok (h : Fine info g I truth val W s) : ∀ (n b v : Nat), v ∈ s.ops b → rank s W v < n → ∃ i, s.inlined info n v = .ok i
  | 0, b, v, hv, hn => absurd hn (Nat.not_lt_zero _)
  | n + 1, b, v, hv, hn => by
    rw [inlined]
    have hu := h.clean.unary b v hv
    have ha := fun a => h.arg (a := a) hv
    match ho : (s.node v).op, hargs : (s.node v).args with
    | .cast t, [] =>
      rw [ho, hargs] at hu
      exact absurd (hu (.inl ⟨t, rfl⟩)) (by simp)
    | .cast t, a :: as =>
      obtain ⟨⟨d, hd⟩, hlt⟩ := ha a (by rw [hargs]; exact List.mem_cons_self)
      exact h.inlined_ok n d a hd (by omega)
    | .load (.int k), _ => exact ⟨_, rfl⟩
    | .load (.other k), _ => exact ⟨_, rfl⟩
    | .add, _ | .mul, _ | .neg, _ | .div, _ | .compare _, _ | .cond, _ | .callStd _, _ | .callExternal _, _ | .construct _, _ | .get _, _ | .copy, _
    | .save _, _ | .phi, _ | .jump, _ | .outputRequired _, _ => exact ⟨_, rfl⟩

theorem visitValue_app {d : Nat → Bool} {n v : Nat} {es : List AExpr} (hs : silent (s.node v).op = false) (hc : (s.node v).op ≠ .copy)
    (hg : ∀ i, (s.node v).op = .get i → info.scalarGet i = false) (hm : (s.node v).op = .mul → 2 ≤ (s.node v).args.length)
    (he : (s.node v).args.mapM (s.visitArgument info d n) = .ok es) : s.visitValue info d (n + 1) v = .ok (.app (s.node v).op es) := by
  rw [visitValue, hs, if_neg (by simp)]
  change (s.node v).args.mapM (fun a => if d a then .ok (.ref a) else s.visitValue info d n a) = _ at he
  generalize s.node v = nd at *
  obtain ⟨op, args⟩ := nd
  simp only at *
  cases op with
  | get i => simp only [hg i rfl, Bool.false_eq_true, if_false, he]
  | mul =>
    have := hm rfl
    simp only [he]
    rw [if_neg (by omega)]
  | copy => exact absurd rfl hc
  | phi => cases hs
  | jump => cases hs
  | save k => cases hs
  | outputRequired k => cases hs
  | _ => simp [he]

/-- Variables hold the values of the available operations that have one. -/
def Holds (info : AstInfo) (s : Conv) (val : Nat → V) (A : Nat → Prop) (vars : Nat → Option (Option V)) : Prop :=
  ∀ a, A a → declares info s a = true → vars a = some (some (val a))

/-- The available operations. -/
def Closed (s : Conv) (A : Nat → Prop) : Prop := ∀ a, A a → (∃ b, a ∈ s.ops b) ∧ ((s.node a).op ≠ .phi → ∀ x ∈ (s.node a).args, A x)

/-- `declared_values_` contains the available operations with a variable, and only operations with a variable. -/
def Declared (info : AstInfo) (s : Conv) (A : Nat → Prop) (d : Nat → Bool) : Prop :=
  (∀ a, d a = true → declares info s a = true) ∧ ∀ a, A a → declares info s a = true → d a = true

theorem evalAll_ok {vars : Nat → Option (Option V)} {f : Nat → Res AExpr} : ∀ (l : List Nat) (es : List AExpr), l.mapM f = .ok es →
    (∀ a ∈ l, ∀ e, f a = .ok e → e.eval I vars = some (val a)) → evalAll I vars es = some (l.map val)
  | [], es, h, _ => by cases h; rfl
  | a :: l, es, h, hv => by
    rw [List.mapM_cons] at h
    cases h1 : f a with
    | error e => rw [h1] at h; cases h
    | ok e =>
      rw [h1] at h
      change (l.mapM f >>= _) = _ at h
      cases h2 : l.mapM f with
      | error e => rw [h2] at h; cases h
      | ok es' =>
        rw [h2] at h
        cases h
        have h3 := evalAll_ok l es' h2 fun x hx => hv x (List.mem_cons_of_mem _ hx)
        have h4 := hv a List.mem_cons_self e h1
        change (match e.eval I vars, evalAll I vars es' with | some x, some xs => some (x :: xs) | _, _ => none) = _
        rw [h3, h4]
        rfl

/-- An operand of an operation that is not a phi function has an expression with its value. -/
def Expressed (info : AstInfo) (s : Conv) (I : Interp V) (val : Nat → V) (A : Nat → Prop) (a : Nat) (r : Res AExpr) : Prop :=
  ∃ e, r = .ok e ∧ ∀ vars, Holds info s val A vars → e.eval I vars = some (val a)

theorem Fine.phi_declares (h : Fine info g I truth val W s) {b v a : Nat} (hv : v ∈ s.ops b) (hp : (s.node v).op ≠ .phi) (ha : a ∈ (s.node v).args)
    (hph : (s.node a).op = .phi) : declares info s a = true := by
  rw [declares, if_pos (isPhi_iff.2 hph), onlyPhis_false (h.uses_of hv ha) hp]
  rfl

mutual
theorem Fine.visitValue_ok (h : Fine info g I truth val W s) {A : Nat → Prop} {d : Nat → Bool} (hA : Closed s A) (hd : Declared info s A d) :
    ∀ (n b v : Nat), v ∈ s.ops b → silent (s.node v).op = false → (∀ a ∈ (s.node v).args, A a) → rank s W v < n →
      Expressed info s I val A v (s.visitValue info d n v)
  | 0, _, _, _, _, _, hn => absurd hn (Nat.not_lt_zero _)
  | n + 1, b, v, hv, hs, ha, hn => by
    have hphi : (s.node v).op ≠ .phi := by intro e; rw [e] at hs; cases hs
    have hjump : (s.node v).op ≠ .jump := by intro e; rw [e] at hs; cases hs
    have hval := h.clean.value b v hv hphi
    by_cases hc : (s.node v).op = .copy
    · obtain ⟨x, hx⟩ := h.placed.copy b v hv hc
      obtain ⟨e, he, hev⟩ := Fine.visitArgument_ok h hA hd n b v x hv hphi (by rw [hx]; exact fun h => nomatch h) (by rw [hx]; exact List.mem_singleton.2 rfl) (ha x (by rw [hx]; exact List.mem_singleton.2 rfl)) (by
        have := (h.arg hv (a := x) (by rw [hx]; exact List.mem_singleton.2 rfl)).2
        omega)
      refine ⟨e, ?_, fun vars hh => ?_⟩
      · rw [visitValue, hx]
        exact he
      · rw [hev vars hh, hval, hx]
        exact congrArg some (I.copy _).symm
    · by_cases hg : ∃ i, (s.node v).op = .get i ∧ info.scalarGet i = true
      · obtain ⟨i, hi, hsc⟩ := hg
        obtain ⟨a, f, h1, h2⟩ := h.clean.get b v hv i hi hsc
        have ham : a ∈ (s.node v).args := by rw [h1]; exact List.mem_singleton.2 rfl
        obtain ⟨⟨c, hcb⟩, hlt⟩ := h.arg hv ham
        have hA' := hA a (ha a ham)
        obtain ⟨e, he, hev⟩ := Fine.visitValue_ok h hA hd n c a hcb (by rw [h2]; rfl) (hA'.2 (by rw [h2]; exact fun h => nomatch h)) (by omega)
        refine ⟨e, ?_, fun vars hh => ?_⟩
        · rw [visitValue, hs, if_neg (by simp), hi, h1]
          simp only [hsc, if_true]
          exact he
        · rw [hev vars hh, hval, hi, h1]
          exact congrArg some (h.get i hsc _).symm
      · have harg : ∀ a ∈ (s.node v).args, Expressed info s I val A a (s.visitArgument info d n a) := fun a ham =>
          Fine.visitArgument_ok h hA hd n b v a hv hphi hjump ham (ha a ham) (by
            have := (h.arg hv ham).2
            omega)
        obtain ⟨es, hes⟩ := mapM_res (f := s.visitArgument info d n) (s.node v).args fun a ham => by
          obtain ⟨e, he, _⟩ := harg a ham
          exact ⟨e, he⟩
        refine ⟨.app (s.node v).op es, ?_, fun vars hh => ?_⟩
        · refine visitValue_app hs hc (fun i hi => ?_) (h.clean.mul b v hv) hes
          cases hsc : info.scalarGet i with
          | false => rfl
          | true => exact absurd ⟨i, hi, hsc⟩ hg
        · have := evalAll_ok (I := I) (val := val) (vars := vars) _ es hes fun a ham e he => by
            obtain ⟨e', he', hev⟩ := harg a ham
            rw [he] at he'
            cases he'
            exact hev vars hh
          change (evalAll I vars es).map (I.f (s.node v).op) = _
          rw [this, hval]
          rfl

theorem Fine.visitArgument_ok (h : Fine info g I truth val W s) {A : Nat → Prop} {d : Nat → Bool} (hA : Closed s A) (hd : Declared info s A d) :
    ∀ (n b v a : Nat), v ∈ s.ops b → (s.node v).op ≠ .phi → (s.node v).op ≠ .jump → a ∈ (s.node v).args → A a → rank s W a < n →
      Expressed info s I val A a (s.visitArgument info d n a)
  | n, b, v, a, hv, hphi, hjump, ha, hAa, hn => by
    by_cases hda : d a = true
    · refine ⟨.ref a, by rw [visitArgument, if_pos hda], fun vars hh => ?_⟩
      change (vars a).join = _
      rw [hh a hAa (hd.1 a hda)]
      rfl
    · rw [visitArgument, if_neg hda]
      have hap : (s.node a).op ≠ .phi := fun hp => hda (hd.2 a hAa (h.phi_declares hv hphi ha hp))
      have has : silent (s.node a).op = false := by
        cases hs : silent (s.node a).op with
        | false => rfl
        | true =>
          rcases h.clean.args b v hv a ha hs with h' | ⟨h', _⟩
          · exact absurd h' hap
          · exact absurd h' hjump
      obtain ⟨⟨c, hc⟩, hx⟩ := hA a hAa
      exact Fine.visitValue_ok h hA hd n c a hc has (hx hap) hn
end

end

end Wf.Gen
