import Verif.Sym.LowerOutput
import Verif.Sym.PipelineSpec
import Verif.Gen.ShapeLemmas

/-!
# The lowered program is as the later stages assume

The rules of `Gen/ShapeLemmas.lean` hold for every lowered program, whatever the constructors of expressions do.
-/

namespace Wf.Sym
open Wf.Gen (Prim Op Graph AstInfo Shape ValueOf Grow Neutral NewOp LinkOK)

variable {F : Type} [FnOps F] [DecidableEq F] {info : AstInfo}

/-- The rules hold between calls, and the caches hold values that are not outputs. -/
structure LShape (info : AstInfo) (s : Low F) : Prop where
  shape : Shape info s.g
  cache : ∀ c ∈ s.cache, ValueOf s.g c.2
  casts : ∀ c ∈ s.casts, ValueOf s.g c.2

/-- A call made one value. -/
structure LStep (info : AstInfo) (s : Low F) (p : Low F × Nat) : Prop where
  inv : LShape info p.1
  grow : Grow s.g p.1.g
  val : ValueOf p.1.g p.2
  fresh : ∀ v ∈ p.1.g.ops, ∀ k, (p.1.g.node v).op = .save k → v ∈ s.g.ops

/-- A call made several values. -/
structure LSteps (info : AstInfo) (s : Low F) (p : Low F × List Nat) : Prop where
  inv : LShape info p.1
  grow : Grow s.g p.1.g
  vals : ∀ v ∈ p.2, ValueOf p.1.g v
  fresh : ∀ v ∈ p.1.g.ops, ∀ k, (p.1.g.node v).op = .save k → v ∈ s.g.ops

omit [FnOps F] [DecidableEq F] in
theorem fresh_trans {a b c : Graph} (h1 : ∀ v ∈ b.ops, ∀ k, (b.node v).op = .save k → v ∈ a.ops) (hg : Grow b c)
    (h2 : ∀ v ∈ c.ops, ∀ k, (c.node v).op = .save k → v ∈ b.ops) : ∀ v ∈ c.ops, ∀ k, (c.node v).op = .save k → v ∈ a.ops := fun v hv k hk =>
  h1 v (h2 v hv k hk) k (by rw [← hg.op v (h2 v hv k hk)]; exact hk)

/-- A pushed operation other than an output. -/
theorem LShape.pushOp {s : Low F} (h : LShape info s) {op : Op} (t : Prim) {args : List Nat} (hn : NewOp info s.g op args) (hs : ∀ k, op ≠ .save k) :
    LStep info s (s.push op t args) := by
  obtain ⟨h1, h2⟩ := h.shape.pushOp hn
  refine ⟨⟨h1, fun c hc => h2.val (h.cache c hc), fun c hc => h2.val (h.casts c hc)⟩, h2, Gen.val_push hs, fun v hv k hk => ?_⟩
  rcases List.mem_append.1 hv with hv | hv
  · exact hv
  · rw [List.mem_singleton] at hv
    subst hv
    rw [show (s.push op t args).1.g.node s.g.next = Gen.mkNode op args from if_pos rfl] at hk
    exact absurd hk (hs k)

/-- Operations that are pushed with any number of operands. -/
theorem LShape.push {s : Low F} (h : LShape info s) {op : Op} (t : Prim) {args : List Nat} (hop : Neutral op) (ha : ∀ a ∈ args, ValueOf s.g a) :
    LStep info s (s.push op t args) :=
  h.pushOp t ⟨fun a hl => ⟨ha a hl, LinkOK.neutral hop (ha a hl).2⟩, fun hc => absurd hc hop.2.2.1, fun i hi => absurd hi (hop.1 i), hop.2.2.2,
    fun k hk => absurd hk (hop.2.1 k), fun k hk => absurd hk (hop.2.1 k)⟩ hop.2.1

theorem LShape.cond {s : Low F} (h : LShape info s) (t : Prim) {a b c : Nat} (ha : ValueOf s.g a) (hb : ValueOf s.g b) (hc : ValueOf s.g c) :
    LStep info s (s.push .cond t [a, b, c]) := by
  refine h.pushOp t ⟨fun x hx => ?_, fun _ => rfl, (fun i hi => by cases hi), ⟨by decide, by decide, (fun n hn => by cases hn)⟩, (fun k hk => by cases hk),
    (fun k hk => by cases hk)⟩ (fun k hk => by cases hk)
  have hx' : ValueOf s.g x := by
    simp only [List.mem_cons, List.not_mem_nil, or_false] at hx
    rcases hx with rfl | rfl | rfl <;> assumption
  exact ⟨hx', hx'.2, (fun i hi => by cases hi), (fun k hk => by cases hk)⟩

theorem LShape.refl {s : Low F} (h : LShape info s) {v : Nat} (hv : ValueOf s.g v) : LStep info s (s, v) := ⟨h, Grow.refl _, hv, fun _ hv _ _ => hv⟩

theorem LStep.trans {s : Low F} {p q : Low F × Nat} (h : LStep info s p) (h' : LStep info p.1 q) : LStep info s q :=
  ⟨h'.inv, h.grow.trans h'.grow, h'.val, fresh_trans h.fresh h'.grow h'.fresh⟩

theorem LStep.steps {s : Low F} {p : Low F × Nat} {q : Low F × List Nat} (h : LStep info s p) (h' : LSteps info p.1 q) : LSteps info s q :=
  ⟨h'.inv, h.grow.trans h'.grow, h'.vals, fresh_trans h.fresh h'.grow h'.fresh⟩

theorem LSteps.step {s : Low F} {p : Low F × List Nat} {q : Low F × Nat} (h : LSteps info s p) (h' : LStep info p.1 q) : LStep info s q :=
  ⟨h'.inv, h.grow.trans h'.grow, h'.val, fresh_trans h.fresh h'.grow h'.fresh⟩

theorem neutral_std (f : Nat) : Neutral (.callStd f) := by simp [Neutral]
theorem neutral_div : Neutral .div := by simp [Neutral]
theorem neutral_compare (r : Nat) : Neutral (.compare r) := by simp [Neutral]
theorem neutral_construct (t : Nat) : Neutral (.construct t) := by simp [Neutral]

theorem vals_one {g : Graph} {a : Nat} (ha : ValueOf g a) : ∀ x ∈ [a], ValueOf g x := by simpa using ha
theorem vals_two {g : Graph} {a b : Nat} (ha : ValueOf g a) (hb : ValueOf g b) : ∀ x ∈ [a, b], ValueOf g x := by
  intro x hx
  simp only [List.mem_cons, List.not_mem_nil, or_false] at hx
  rcases hx with rfl | rfl <;> assumption

/-- A state that differs only in the leaves or the notes. -/
theorem LShape.same {s s' : Low F} (h : LShape info s) (hg : s'.g = s.g) (hc : s'.cache = s.cache) (hk : s'.casts = s.casts) : LShape info s' :=
  ⟨hg ▸ h.shape, by rw [hc, hg]; exact h.cache, by rw [hk, hg]; exact h.casts⟩

theorem LStep.same {s s' : Low F} {p : Low F × Nat} (h : LStep info s' p) (hg : s'.g = s.g) : LStep info s p :=
  ⟨h.inv, hg ▸ h.grow, h.val, hg ▸ h.fresh⟩

theorem LSteps.same {s s' : Low F} {p : Low F × List Nat} (h : LSteps info s' p) (hg : s'.g = s.g) : LSteps info s p :=
  ⟨h.inv, hg ▸ h.grow, h.vals, hg ▸ h.fresh⟩

theorem LShape.leaves {s : Low F} (h : LShape info s) (l : List (Expr F)) : LShape info { s with leaves := l } := h.same rfl rfl rfl

theorem LShape.notes {s : Low F} (h : LShape info s) (l : List (Note F)) : LShape info { s with notes := l } := h.same rfl rfl rfl

theorem LShape.load {s : Low F} (h : LShape info s) (e : Expr F) (t : Prim) : LStep info s (s.load e t) :=
  LStep.same (s' := { s with leaves := if leafIndex e s.leaves < s.leaves.length then s.leaves else s.leaves ++ [e] })
    ((h.leaves _).push t (args := []) (Gen.neutral_load _) (fun a ha => by cases ha)) rfl

theorem LShape.maybeCast {s : Low F} (h : LShape info s) {v : Nat} (hv : ValueOf s.g v) (t : Prim) : LStep info s (maybeCast s v t) := by
  unfold Sym.maybeCast
  by_cases ht : s.ty v = t
  · rw [if_pos ht]; exact h.refl hv
  · rw [if_neg ht]
    cases hf : s.casts.find? (fun c => c.1 = (v, t)) with
    | some c => exact h.refl (h.casts c (List.mem_of_find?_eq_some hf))
    | none =>
      have k := h.push (op := .cast (primCode t)) t (Gen.neutral_cast _) (vals_one hv)
      refine ⟨⟨k.inv.shape, k.inv.cache, fun c hc => ?_⟩, k.grow, k.val, k.fresh⟩
      rcases List.mem_append.1 hc with hc | hc
      · exact k.grow.val (h.casts c hc)
      · rw [List.mem_singleton] at hc
        subst hc
        exact k.val

theorem LShape.maybeCasts (t : Prim) : ∀ {vs : List Nat} {s : Low F}, LShape info s → (∀ v ∈ vs, ValueOf s.g v) → LSteps info s (maybeCasts s t vs)
  | [], s, h, _ => ⟨h, Grow.refl _, (fun v hv => by cases hv), fun _ hv _ _ => hv⟩
  | v :: vs, s, h, hv => by
    have k := h.maybeCast (hv v List.mem_cons_self) t
    have k2 := LShape.maybeCasts t (vs := vs) k.inv (k.grow.vals fun a ha => hv a (List.mem_cons_of_mem _ ha))
    have k3 := k.steps k2
    refine ⟨k3.inv, k3.grow, fun a ha => ?_, k3.fresh⟩
    rcases List.mem_cons.1 ha with rfl | ha
    · exact k2.grow.val k.val
    · exact k2.vals a ha

theorem LShape.addOrMul {s : Low F} (h : LShape info s) {op : Op} (hop : Neutral op) {vs : List Nat} (hv : ∀ v ∈ vs, ValueOf s.g v) : LStep info s (addOrMul op s vs) := by
  unfold Sym.addOrMul
  have k := h.maybeCasts (vs.foldl (fun t v => primMax t (s.ty v)) .integral) hv
  exact k.step (k.inv.push _ hop k.vals)

theorem LShape.timesBase {s : Low F} (h : LShape info s) {base : Nat} (hb : ValueOf s.g base) {result : Option Nat} (hr : ∀ r ∈ result, ValueOf s.g r) (e : Nat) :
    LShape info (timesBase s base result e).1 ∧ Grow s.g (timesBase s base result e).1.g ∧ (∀ r ∈ (timesBase s base result e).2, ValueOf (timesBase s base result e).1.g r) ∧
      ∀ v ∈ (timesBase s base result e).1.g.ops, ∀ k, ((timesBase s base result e).1.g.node v).op = .save k → v ∈ s.g.ops := by
  unfold Sym.timesBase
  split
  · cases result with
    | none =>
      refine ⟨h, Grow.refl _, fun r hr' => ?_, fun _ hv _ _ => hv⟩
      cases hr'
      exact hb
    | some r =>
      have k := h.push (op := .mul) (s.ty base) Gen.neutral_mul (vals_two (hr r rfl) hb)
      refine ⟨k.inv, k.grow, fun x hx => ?_, k.fresh⟩
      cases hx
      exact k.val
  · exact ⟨h, Grow.refl _, hr, fun _ hv _ _ => hv⟩

theorem LShape.squareLoop : ∀ (k : Nat) {s : Low F} (_ : LShape info s) {base : Nat} (_ : ValueOf s.g base) {result : Option Nat} (_ : ∀ r ∈ result, ValueOf s.g r) (e : Nat),
    LStep info s (squareLoop k s base result e)
  | 0, _, h, _, hb, _, _, _ => h.refl hb
  | k + 1, s, h, base, hb, result, hr, e => by
    unfold Sym.squareLoop
    obtain ⟨h1, h2, h3, h4⟩ := h.timesBase hb hr e
    by_cases he : e / 2 = 0
    · rw [if_pos he]
      refine ⟨h1, h2, ?_, h4⟩
      cases hx : (Sym.timesBase s base result e).2 with
      | none => exact h2.val hb
      | some x => exact h3 x hx
    · rw [if_neg he]
      have p := h1.push (op := .mul) ((Sym.timesBase s base result e).1.ty base) Gen.neutral_mul (vals_two (h2.val hb) (h2.val hb))
      have q := LShape.squareLoop k p.inv p.val (result := (Sym.timesBase s base result e).2) (fun r hr => p.grow.val (h3 r hr)) (e / 2)
      exact ⟨q.inv, h2.trans (p.grow.trans q.grow), q.val, fresh_trans h4 (p.grow.trans q.grow) (fresh_trans p.fresh q.grow q.fresh)⟩

/-- What is assumed of the recursive calls. -/
def RecShape (info : AstInfo) (R : Lowering F) : Prop := ∀ s e p, LShape info s → R s e = .ok p → LStep info s p

variable {R : Lowering F}

theorem lowerList_shape (hR : RecShape info R) : ∀ {es : List (Expr F)} {s : Low F} {p : Low F × List Nat}, LShape info s → lowerList R s es = .ok p → LSteps info s p
  | [], s, p, h, hr => by cases hr; exact ⟨h, Grow.refl _, (fun v hv => by cases hv), fun _ hv _ _ => hv⟩
  | e :: es, s, p, h, hr => by
    unfold lowerList at hr
    obtain ⟨q, hq, hr⟩ := andThen_ok hr
    obtain ⟨q', hq', hr⟩ := andThen_ok hr
    cases hr
    have k := hR s e q h hq
    have k2 := lowerList_shape hR k.inv hq'
    have k3 := k.steps k2
    refine ⟨k3.inv, k3.grow, fun a ha => ?_, k3.fresh⟩
    rcases List.mem_cons.1 ha with rfl | ha
    · exact k2.grow.val k.val
    · exact k2.vals a ha

theorem lowerElements_shape (hR : RecShape info R) : ∀ {es : List (Expr F)} {s : Low F} {p : Low F × List Nat}, LShape info s → lowerElements R s es = .ok p → LSteps info s p
  | [], s, p, h, hr => by cases hr; exact ⟨h, Grow.refl _, (fun v hv => by cases hv), fun _ hv _ _ => hv⟩
  | e :: es, s, p, h, hr => by
    unfold lowerElements at hr
    obtain ⟨q, hq, hr⟩ := andThen_ok hr
    obtain ⟨q', hq', hr⟩ := andThen_ok hr
    cases hr
    have k := hR s e q h hq
    have k1 := k.inv.maybeCast k.val .floating
    have k2 := lowerElements_shape hR k1.inv hq'
    have k3 := (k.trans k1).steps k2
    refine ⟨k3.inv, k3.grow, fun a ha => ?_, k3.fresh⟩
    rcases List.mem_cons.1 ha with rfl | ha
    · exact k2.grow.val k1.val
    · exact k2.vals a ha

theorem powExtract_shape (hR : RecShape info R) {s : Low F} {b e : Expr F} {s' : Low F} {v n : Nat} (h : LShape info s)
    (hr : powExtract R s b e = .ok (some (s', v, n))) : LStep info s (s', v) := by
  unfold powExtract at hr
  split at hr
  · split at hr
    · obtain ⟨p, hp, hr⟩ := andThen_ok hr
      cases hr
      have k := hR s b p h hp
      exact k.trans (k.inv.maybeCast k.val .floating)
    · cases hr
  · split at hr
    · obtain ⟨p, hp, hr⟩ := andThen_ok hr
      cases hr
      have k := hR s b p h hp
      have k1 := k.inv.maybeCast k.val .floating
      exact k.trans (k1.trans (k1.inv.push _ (neutral_std _) (vals_one k1.val)))
    · cases hr
  · cases hr

theorem bySquaring_shape (hR : RecShape info R) {s : Low F} {base e : Nat} {p : Low F × Nat} (h : LShape info s) (hb : ValueOf s.g base)
    (hr : bySquaring R s base e = .ok p) : LStep info s p := by
  unfold bySquaring at hr
  split at hr
  · exact hR s _ p h hr
  · cases hr; exact h.squareLoop e hb (by simp) e

theorem factor_shape (hR : RecShape info R) {s : Low F} {t : Expr F} {p : Low F × List Nat} (h : LShape info s) (hr : factorValues.factor R s t = .ok p) : LSteps info s p := by
  have one : ∀ {p : Low F × List Nat}, (andThen (R s t) fun p => .ok (p.1, [p.2])) = .ok p → LSteps info s p := by
    intro p hr
    obtain ⟨q, hq, hr⟩ := andThen_ok hr
    cases hr
    have k := hR s t q h hq
    exact ⟨k.inv, k.grow, vals_one k.val, k.fresh⟩
  unfold factorValues.factor at hr
  split at hr
  · obtain ⟨x, hx, hr⟩ := andThen_ok hr
    cases x with
    | none => exact one hr
    | some y =>
      obtain ⟨s', v, n⟩ := y
      cases hr
      have k := powExtract_shape hR h hx
      exact ⟨k.inv, k.grow, fun a ha => by rw [(List.mem_replicate.1 ha).2]; exact k.val, k.fresh⟩
  · exact one hr

theorem factorValues_shape (hR : RecShape info R) : ∀ {ts : List (Expr F)} {s : Low F} {p : Low F × List Nat}, LShape info s → factorValues R s ts = .ok p → LSteps info s p
  | [], s, p, h, hr => by cases hr; exact ⟨h, Grow.refl _, (fun v hv => by cases hv), fun _ hv _ _ => hv⟩
  | t :: ts, s, p, h, hr => by
    unfold factorValues at hr
    obtain ⟨q, hq, hr⟩ := andThen_ok hr
    obtain ⟨q', hq', hr⟩ := andThen_ok hr
    cases hr
    have k := factor_shape hR h hq
    have k2 := factorValues_shape hR k.inv hq'
    refine ⟨k2.inv, k.grow.trans k2.grow, fun a ha => ?_, fresh_trans k.fresh k2.grow k2.fresh⟩
    rcases List.mem_append.1 ha with ha | ha
    · exact k2.grow.val (k.vals a ha)
    · exact k2.vals a ha

theorem lowerMul_shape {K : Ctors F} (hR : RecShape info R) {s : Low F} {ts : List (Expr F)} {p : Low F × Nat} (h : LShape info s) (hr : lowerMul K R s ts = .ok p) :
    LStep info s p := by
  unfold lowerMul at hr
  obtain ⟨r, _, hr⟩ := andThen_ok hr
  obtain ⟨q, hq, hr⟩ := andThen_ok hr
  cases hr
  have k := factorValues_shape hR h hq
  exact k.step (k.inv.addOrMul Gen.neutral_mul k.vals)

theorem lowerRecip_shape {K : Ctors F} (hR : RecShape info R) {s : Low F} {b e : Expr F} {p : Low F × Nat} (h : LShape info s) (hr : lowerRecip K R s b e = .ok p) :
    LStep info s p := by
  unfold lowerRecip at hr
  obtain ⟨ne, _, hr⟩ := andThen_ok hr
  obtain ⟨r, _, hr⟩ := andThen_ok hr
  obtain ⟨q, hq, hr⟩ := andThen_ok hr
  obtain ⟨w, hw, hr⟩ := andThen_ok hr
  cases hr
  have k1 : LStep info s q := LStep.same (hR _ _ q (h.notes _) hq) rfl
  have k2 := hR _ _ w k1.inv hw
  have k3 := k2.inv.maybeCast k2.val .floating
  have k4 := k3.inv.maybeCast (k3.grow.val (k2.grow.val k1.val)) .floating
  have k5 := k4.inv.push (op := .div) .floating neutral_div (vals_two (k4.grow.val k3.val) k4.val)
  exact k1.trans (k2.trans (k3.trans (k4.trans k5)))

theorem lowerPowCall_shape (hR : RecShape info R) {s : Low F} {b e : Expr F} {p : Low F × Nat} (h : LShape info s) (hr : lowerPowCall R s b e = .ok p) : LStep info s p := by
  unfold lowerPowCall at hr
  obtain ⟨q, hq, hr⟩ := andThen_ok hr
  obtain ⟨w, hw, hr⟩ := andThen_ok hr
  have k1 := hR _ _ q h hq
  have k2 := k1.inv.maybeCast k1.val .floating
  have k3 := hR _ _ w k2.inv hw
  split at hr
  · cases hr
    exact k1.trans (k2.trans (k3.trans (k3.inv.push _ (neutral_std _) (vals_two (k3.grow.val k2.val) k3.val))))
  · cases hr
    have k4 := k3.inv.maybeCast k3.val .floating
    exact k1.trans (k2.trans (k3.trans (k4.trans (k4.inv.push _ (neutral_std _) (vals_two (k4.grow.val (k3.grow.val k2.val)) k4.val)))))

theorem lowerPow_shape {K : Ctors F} (hR : RecShape info R) {s : Low F} {b e : Expr F} {p : Low F × Nat} (h : LShape info s) (hr : lowerPow K R s b e = .ok p) :
    LStep info s p := by
  unfold lowerPow at hr
  split at hr
  · exact lowerRecip_shape hR h hr
  · obtain ⟨x, hx, hr⟩ := andThen_ok hr
    cases x with
    | none => exact lowerPowCall_shape hR h hr
    | some y =>
      obtain ⟨s', v, n⟩ := y
      have k := powExtract_shape hR h hx
      exact k.trans (bySquaring_shape hR k.inv k.val hr)

theorem lowerFn_shape (hR : RecShape info R) {s : Low F} {f : BuiltIn} {as : List (Expr F)} {p : Low F × Nat} (h : LShape info s) (hr : lowerFn R s f as = .ok p) :
    LStep info s p := by
  unfold lowerFn at hr
  obtain ⟨q, hq, hr⟩ := andThen_ok hr
  obtain ⟨t, _, hr⟩ := andThen_ok hr
  cases hr
  have k : LSteps info s q := LSteps.same (lowerList_shape hR (h.notes _) hq) rfl
  exact k.step (k.inv.push _ (neutral_std _) k.vals)

theorem lowerCond_shape (hR : RecShape info R) {s : Low F} {c a b : Expr F} {p : Low F × Nat} (h : LShape info s) (hr : lowerCond R s c a b = .ok p) : LStep info s p := by
  unfold lowerCond at hr
  obtain ⟨q1, h1, hr⟩ := andThen_ok hr
  obtain ⟨q2, h2, hr⟩ := andThen_ok hr
  obtain ⟨q3, h3, hr⟩ := andThen_ok hr
  cases hr
  have k1 := hR _ _ q1 h h1
  have k2 := hR _ _ q2 k1.inv h2
  have k3 := hR _ _ q3 k2.inv h3
  have k4 := k3.inv.maybeCast (k3.grow.val k2.val) (primMax (q3.1.ty q2.2) (q3.1.ty q3.2))
  have k5 := k4.inv.maybeCast (k4.grow.val k3.val) (primMax (q3.1.ty q2.2) (q3.1.ty q3.2))
  have k6 := k5.inv.cond (primMax (q3.1.ty q2.2) (q3.1.ty q3.2)) (k5.grow.val (k4.grow.val (k3.grow.val (k2.grow.val k1.val)))) (k5.grow.val k4.val) k5.val
  exact k1.trans (k2.trans (k3.trans (k4.trans (k5.trans k6))))

theorem lowerRel_shape (hR : RecShape info R) {s : Low F} {op : RelOp} {a b : Expr F} {p : Low F × Nat} (h : LShape info s) (hr : lowerRel R s op a b = .ok p) :
    LStep info s p := by
  unfold lowerRel at hr
  obtain ⟨q2, h2, hr⟩ := andThen_ok hr
  obtain ⟨q3, h3, hr⟩ := andThen_ok hr
  cases hr
  have k2 := hR _ _ q2 h h2
  have k3 := hR _ _ q3 k2.inv h3
  have k4 := k3.inv.maybeCast (k3.grow.val k2.val) (primMax (q3.1.ty q2.2) (q3.1.ty q3.2))
  have k5 := k4.inv.maybeCast (k4.grow.val k3.val) (primMax (q3.1.ty q2.2) (q3.1.ty q3.2))
  have k6 := k5.inv.push (op := .compare (relCode op)) .boolean (neutral_compare _) (vals_two (k5.grow.val k4.val) k5.val)
  exact k2.trans (k3.trans (k4.trans (k5.trans k6)))

theorem lowerNode_shape {K : Ctors F} (hR : RecShape info R) {s : Low F} {e : Expr F} {p : Low F × Nat} (h : LShape info s) (hr : lowerNode K R s e = .ok p) : LStep info s p := by
  unfold lowerNode at hr
  split at hr
  · split at hr
    · cases hr
    · obtain ⟨q, hq, hr⟩ := andThen_ok hr
      cases hr
      have k := lowerList_shape hR h hq
      exact k.step (k.inv.addOrMul Gen.neutral_add k.vals)
  · split at hr
    · cases hr
    · exact lowerMul_shape hR h hr
  · exact lowerPow_shape hR h hr
  · exact lowerFn_shape hR h hr
  · exact lowerCond_shape hR h hr
  · exact lowerRel_shape hR h hr
  · split at hr
    · obtain ⟨q, hq, hr⟩ := andThen_ok hr
      cases hr
      have k := hR _ _ q h hq
      exact k.trans (k.inv.push _ (Gen.neutral_cast _) (vals_one k.val))
    · cases hr
  · exact hR _ _ p h hr
  · exact hR _ _ p h hr
  · cases hr; exact h.push _ (Gen.neutral_load _) (by simp)
  all_goals first
    | (cases hr; done)
    | (cases hr; exact h.load _ _)

theorem lower_shape (K : Ctors F) : ∀ n, RecShape info (lower K n)
  | 0, _, _, _, _, hr => by cases hr
  | n + 1, s, e, p, h, hr => by
    unfold lower at hr
    cases hf : s.cache.find? (fun c => identical c.1 e) with
    | some c => rw [hf] at hr; cases hr; exact h.refl (h.cache c (List.mem_of_find?_eq_some hf))
    | none =>
      rw [hf] at hr
      obtain ⟨q, hq, hr⟩ := andThen_ok hr
      cases hr
      have k := lowerNode_shape (lower_shape K n) h hq
      refine ⟨⟨k.inv.shape, fun c hc => ?_, k.inv.casts⟩, k.grow, k.val, k.fresh⟩
      rcases List.mem_append.1 hc with hc | hc
      · exact k.inv.cache c hc
      · rw [List.mem_singleton] at hc
        subst hc
        exact k.val

/-! ## Outputs -/

/-- An output is added to a program without it. -/
theorem LShape.save {s : Low F} (h : LShape info s) {key v : Nat} (t : Prim) (hv : ValueOf s.g v) (hl : LinkOK info (.save key) (s.g.node v).op)
    (h1 : ∀ v ∈ s.g.ops, (s.g.node v).op ≠ .save key)
    (h2 : info.usage key = .returnValue → ∀ v ∈ s.g.ops, ∀ key', (s.g.node v).op = .save key' → info.usage key' ≠ .returnValue) :
    LShape info (s.push (.save key) t [v]).1 ∧ Grow s.g (s.push (.save key) t [v]).1.g ∧
      ∀ w ∈ (s.push (.save key) t [v]).1.g.ops, ∀ k, ((s.push (.save key) t [v]).1.g.node w).op = .save k → k = key ∨ w ∈ s.g.ops := by
  obtain ⟨a1, a2⟩ := h.shape.pushOp (op := .save key) (args := [v]) ⟨fun a ha => by rw [List.mem_singleton] at ha; subst ha; exact ⟨hv, hl⟩,
    (fun hc => by cases hc), (fun i hi => by cases hi), ⟨(fun h => by cases h), (fun h => by cases h), (fun n hn => by cases hn)⟩,
    fun k hk => (by cases hk; exact h1), fun k hk => (by cases hk; exact h2)⟩
  refine ⟨⟨a1, fun c hc => a2.val (h.cache c hc), fun c hc => a2.val (h.casts c hc)⟩, a2, fun w hw k hk => ?_⟩
  rcases List.mem_append.1 hw with hw | hw
  · exact Or.inr hw
  · rw [List.mem_singleton] at hw
    subst hw
    rw [show (s.push (.save key) t [v]).1.g.node s.g.next = Gen.mkNode (.save key) [v] from if_pos rfl] at hk
    cases hk
    exact Or.inl rfl

/-- What the rules say about an output: a matrix argument gets a matrix of its type. -/
def Output.Links (info : AstInfo) (key : Nat) : Output F → Prop
  | .scalar _ _ => info.usage key ≠ .returnValue → info.kind key ≠ .matrix
  | .matrix r c _ => info.usage key ≠ .returnValue → info.kind key = .matrix → info.matrix (matrixCode r c) = true

/-- The part of `Signature` that the rules need. -/
structure Linked (info : AstInfo) (outs : List (Nat × Output F)) : Prop where
  links : ∀ o ∈ outs, o.2.Links info o.1
  keys : (outs.map Prod.fst).Nodup
  oneReturn : ∀ o ∈ outs, ∀ o' ∈ outs, info.usage o.1 = .returnValue → info.usage o'.1 = .returnValue → o.1 = o'.1

theorem Signature.linked {outs : List (Nat × Output F)} (h : Signature info outs) : Linked info outs where
  links o ho := by
    have hf := h.fits o ho
    cases ho2 : o.2 with
    | scalar e t => rw [ho2] at hf; intro hu hk; rw [hf hu] at hk; cases hk
    | matrix r c es => rw [ho2] at hf; exact fun _ _ => hf.1
  keys := h.keys
  oneReturn := h.oneReturn

theorem addOutput_shape {K : Ctors F} {m n : Nat} {s s' : Low F} {key : Nat} {o : Output F} (h : LShape info s) (hfit : o.Links info key)
    (h1 : ∀ v ∈ s.g.ops, (s.g.node v).op ≠ .save key)
    (h2 : info.usage key = .returnValue → ∀ v ∈ s.g.ops, ∀ key', (s.g.node v).op = .save key' → info.usage key' ≠ .returnValue)
    (hr : addOutput K m n s key o = .ok s') :
    LShape info s' ∧ Grow s.g s'.g ∧ ∀ w ∈ s'.g.ops, ∀ k, (s'.g.node w).op = .save k → k = key ∨ (w ∈ s.g.ops ∧ (s.g.node w).op = .save k) := by
  have fin : ∀ {p : Low F × Nat}, LStep info s p → LinkOK info (.save key) (p.1.g.node p.2).op →
      LShape info (p.1.push (.save key) .floating [p.2]).1 ∧ Grow s.g (p.1.push (.save key) .floating [p.2]).1.g ∧
      ∀ w ∈ (p.1.push (.save key) .floating [p.2]).1.g.ops, ∀ k, ((p.1.push (.save key) .floating [p.2]).1.g.node w).op = .save k →
        k = key ∨ (w ∈ s.g.ops ∧ (s.g.node w).op = .save k) := by
    intro p k hl
    have back : ∀ v ∈ p.1.g.ops, ∀ x, (p.1.g.node v).op = .save x → v ∈ s.g.ops ∧ (s.g.node v).op = .save x := fun v hv x hx =>
      ⟨k.fresh v hv x hx, by rw [← k.grow.op v (k.fresh v hv x hx)]; exact hx⟩
    obtain ⟨a1, a2, a3⟩ := k.inv.save (key := key) .floating k.val hl (fun v hv hk => h1 v (back v hv key hk).1 (back v hv key hk).2)
      (fun hu v hv key' hk => h2 hu v (back v hv key' hk).1 key' (back v hv key' hk).2)
    refine ⟨a1, k.grow.trans a2, fun w hw x hx => ?_⟩
    rcases a3 w hw x hx with hk | hm
    · exact Or.inl hk
    · exact Or.inr (back w hm x (by rw [← a2.op w hm]; exact hx))
  cases o with
  | scalar e t =>
    unfold addOutput at hr
    obtain ⟨e', _, hr⟩ := andThen_ok hr
    obtain ⟨p, hp, hr⟩ := andThen_ok hr
    cases hr
    have k := lower_shape K n s e' p h hp
    have k2 := k.inv.maybeCast k.val t
    refine fin (k.trans k2) ⟨k2.val.2, (fun i hi => by cases hi), fun x hx hu hm => ?_⟩
    cases hx
    exact absurd hm (hfit hu)
  | matrix r c es =>
    unfold addOutput at hr
    obtain ⟨es', _, hr⟩ := andThen_ok hr
    obtain ⟨p, hp, hr⟩ := andThen_ok hr
    cases hr
    have k := lowerElements_shape (lower_shape K n) h hp
    have k2 := k.inv.push (op := .construct (matrixCode r c)) .floating (neutral_construct _) k.vals
    refine fin (k.step k2) ⟨k2.val.2, (fun i hi => by cases hi), fun x hx hu hm => ⟨matrixCode r c, ?_, ?_⟩⟩
    on_goal 2 => cases hx; exact hfit hu hm
    rw [show (p.1.push (.construct (matrixCode r c)) .floating p.2).1.g.node (p.1.push (.construct (matrixCode r c)) .floating p.2).2 =
      Gen.mkNode (.construct (matrixCode r c)) p.2 from if_pos rfl]
    rfl

theorem lowerFunction_shape {K : Ctors F} {m n : Nat} : ∀ {outs : List (Nat × Output F)} {s s' : Low F}, LShape info s → Linked info outs →
    (∀ v ∈ s.g.ops, ∀ key, (s.g.node v).op = .save key → ∀ o ∈ outs, o.1 ≠ key ∧ ¬ (info.usage o.1 = .returnValue ∧ info.usage key = .returnValue)) →
    lowerFunction K m n s outs = .ok s' → LShape info s'
  | [], s, s', h, _, _, hr => by cases hr; exact h
  | (key, o) :: os, s, s', h, hs, hd, hr => by
    unfold lowerFunction at hr
    obtain ⟨s1, h1, hr⟩ := andThen_ok hr
    have hkeys := hs.keys
    rw [List.map_cons, List.nodup_cons] at hkeys
    obtain ⟨a1, a2, a3⟩ := addOutput_shape h (hs.links _ List.mem_cons_self) (fun v hv hk => (hd v hv key hk _ List.mem_cons_self).1 rfl)
      (fun hu v hv key' hk hu' => (hd v hv key' hk _ List.mem_cons_self).2 ⟨hu, hu'⟩) h1
    refine lowerFunction_shape a1 ⟨fun o ho => hs.links o (List.mem_cons_of_mem _ ho), hkeys.2, fun o ho o' ho' => hs.oneReturn o (List.mem_cons_of_mem _ ho) o' (List.mem_cons_of_mem _ ho')⟩ ?_ hr
    intro v hv k hk o' ho'
    rcases a3 v hv k hk with rfl | ⟨hv', hk'⟩
    · refine ⟨fun he => hkeys.1 (List.mem_map.2 ⟨o', ho', he⟩), fun ⟨u1, u2⟩ => ?_⟩
      have := hs.oneReturn o' (List.mem_cons_of_mem _ ho') _ List.mem_cons_self u1 u2
      exact hkeys.1 (List.mem_map.2 ⟨o', ho', this⟩)
    · exact hd v hv' k hk' o' (List.mem_cons_of_mem _ ho')

theorem LShape.empty : LShape info (Low.empty : Low F) :=
  ⟨⟨by simp [Low.empty], by simp [Low.empty], by simp [Low.empty], by simp [Low.empty], by simp [Low.empty], by simp [Low.empty], by simp [Low.empty],
    by simp [Low.empty], by simp [Low.empty]⟩, by simp [Low.empty], by simp [Low.empty]⟩

/-- A lowered function is as the later stages assume. -/
theorem lowered_shape {K : Ctors F} {m n : Nat} {outs : List (Nat × Output F)} {s : Low F} (hs : Linked info outs)
    (hr : lowerFunction K m n Low.empty outs = .ok s) : Shape info s.g :=
  (lowerFunction_shape LShape.empty hs (by simp [Low.empty]) hr).shape

end Wf.Sym
