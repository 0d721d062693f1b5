import Verif.Sym.LowerLemmas

/-! # The lowered program computes the value of the expression -/

namespace Wf.Sym
open Complex
open Wf.Gen (Prim Interp Op OpOk)

variable {F : Type} [DecidableEq F] [FnSem F]

/-! ## Values of lists -/

theorem sumO_list {f : Expr F → Option ℂ} : ∀ {es : List (Expr F)} {z : ℂ}, sumO (es.map f) = some z →
    ∃ zs, List.Forall₂ (fun e z => f e = some z) es zs ∧ z = zs.sum
  | [], z, h => ⟨[], .nil, by simpa [sumO] using h.symm⟩
  | e :: es, z, h => by
    simp only [List.map_cons, sumO, Option.bind_eq_some_iff, Option.map_eq_some_iff] at h
    obtain ⟨x, hx, y, hy, rfl⟩ := h
    obtain ⟨zs, h1, rfl⟩ := sumO_list hy
    exact ⟨x :: zs, .cons hx h1, by simp⟩

theorem prodO_list {f : Expr F → Option ℂ} : ∀ {es : List (Expr F)} {z : ℂ}, prodO (es.map f) = some z →
    ∃ zs, List.Forall₂ (fun e z => f e = some z) es zs ∧ z = zs.prod
  | [], z, h => ⟨[], .nil, by simpa [prodO] using h.symm⟩
  | e :: es, z, h => by
    simp only [List.map_cons, prodO, Option.bind_eq_some_iff, Option.map_eq_some_iff] at h
    obtain ⟨x, hx, y, hy, rfl⟩ := h
    obtain ⟨zs, h1, rfl⟩ := prodO_list hy
    exact ⟨x :: zs, .cons hx h1, by simp⟩

theorem seqO_list {f : Expr F → Option ℂ} : ∀ {es : List (Expr F)} {zs : List ℂ}, seqO (es.map f) = some zs →
    List.Forall₂ (fun e z => f e = some z) es zs
  | [], zs, h => by simp only [List.map_nil, seqO, Option.some.injEq] at h; subst h; exact .nil
  | e :: es, zs, h => by
    simp only [List.map_cons, seqO, Option.bind_eq_some_iff, Option.map_eq_some_iff] at h
    obtain ⟨x, hx, y, hy, rfl⟩ := h
    exact .cons hx (seqO_list hy)

/-! ## Types of sums and products -/

theorem HasTy.sum {t : Prim} (ht : 1 ≤ primCode t) : ∀ {zs : List ℂ}, (∀ z ∈ zs, HasTy t z) → HasTy t zs.sum
  | [], _ => by
    cases t with
    | boolean => simp [primCode] at ht
    | integral => exact ⟨0, by simp⟩
    | floating => trivial
  | z :: zs, h => by
    have h1 := h z List.mem_cons_self
    have h2 := HasTy.sum ht fun z hz => h z (List.mem_cons_of_mem _ hz)
    cases t with
    | boolean => simp [primCode] at ht
    | integral =>
      obtain ⟨a, rfl⟩ := h1
      obtain ⟨b, hb⟩ := h2
      exact ⟨a + b, by rw [List.sum_cons, hb]; push_cast; rfl⟩
    | floating => trivial

theorem HasTy.prod {t : Prim} (ht : 1 ≤ primCode t) : ∀ {zs : List ℂ}, (∀ z ∈ zs, HasTy t z) → HasTy t zs.prod
  | [], _ => by
    cases t with
    | boolean => simp [primCode] at ht
    | integral => exact ⟨1, by simp⟩
    | floating => trivial
  | z :: zs, h => by
    have h1 := h z List.mem_cons_self
    have h2 := HasTy.prod ht fun z hz => h z (List.mem_cons_of_mem _ hz)
    cases t with
    | boolean => simp [primCode] at ht
    | integral =>
      obtain ⟨a, rfl⟩ := h1
      obtain ⟨b, hb⟩ := h2
      exact ⟨a * b, by rw [List.prod_cons, hb]; push_cast; rfl⟩
    | floating => trivial

theorem promoted_ge (ty : Nat → Prim) : ∀ (vs : List Nat) (t : Prim), primCode t ≤ primCode (vs.foldl (fun t v => primMax t (ty v)) t) ∧
    ∀ v ∈ vs, primCode (ty v) ≤ primCode (vs.foldl (fun t v => primMax t (ty v)) t)
  | [], t => ⟨le_refl _, fun v h => by simp at h⟩
  | v :: vs, t => by
    obtain ⟨h1, h2⟩ := promoted_ge ty vs (primMax t (ty v))
    refine ⟨(le_primMax_left _ _).trans h1, fun u hu => ?_⟩
    rcases List.mem_cons.1 hu with rfl | hu
    · exact (le_primMax_right _ _).trans h1
    · exact h2 u hu

section
variable {ρ : Env F}

theorem AllAre.hasTy {s : Low F} {vs : List Nat} {zs : List ℂ} (h : AllAre ρ s vs zs) (hn : NotesOk ρ s.notes) {t : Prim}
    (ht : ∀ v ∈ vs, primCode (s.ty v) ≤ primCode t) : ∀ z ∈ zs, HasTy t z := by
  unfold AllAre at h
  induction h with
  | nil => simp
  | cons h1 _ ih =>
    intro z hz
    rcases List.mem_cons.1 hz with rfl | hz
    · exact (h1 hn).1.mono (ht _ List.mem_cons_self)
    · exact ih (fun v hv => ht v (List.mem_cons_of_mem _ hv)) z hz

/-- A step from `s` to the state `p.1`, giving the value `p.2`, which is `z` for every `z` that satisfies `P`. -/
structure Step (ρ : Env F) (s : Low F) (p : Low F × Nat) (P : ℂ → Prop) : Prop where
  inv : LInv ρ p.1
  ext : Ext s p.1
  mem : p.2 ∈ p.1.g.ops
  val : ∀ z, P z → Is ρ p.1 p.2 z

theorem addOrMul_ok {s : Low F} (h : LInv ρ s) {op : Op} (hop : op = .add ∨ op = .mul) {vs : List Nat} (hv : ∀ v ∈ vs, v ∈ s.g.ops) (hl : 2 ≤ vs.length) :
    Step ρ s (addOrMul op s vs) fun z => ∃ zs, AllAre ρ s vs zs ∧ z = if op = .add then zs.sum else zs.prod := by
  set t := vs.foldl (fun t v => primMax t (s.ty v)) .integral with ht
  obtain ⟨h1, h2⟩ := promoted_ge s.ty vs .integral
  rw [← ht] at h1 h2
  obtain ⟨c1, c2, c3, c4, c6, c5⟩ := maybeCasts_ok (t := t) h hv
  have hp : Pushed ρ (maybeCasts s t vs).1 op t (maybeCasts s t vs).2 ((maybeCasts s t vs).1.push op t (maybeCasts s t vs).2) :=
    push_ok c1 c3 (OpOk.two_le (by rcases hop with rfl | rfl <;> rfl) (by omega))
      (by rcases hop with rfl | rfl <;> (intro a ha; obtain ⟨v, hv, rfl⟩ := List.mem_map.1 ha; exact c6 v hv)) (by rcases hop with rfl | rfl <;> (intro k h; cases h))
  unfold addOrMul
  rw [← ht]
  refine ⟨hp.inv, c2.trans hp.ext, hp.mem, ?_⟩
  rintro z ⟨zs, hzs, rfl⟩ hn
  have hn1 : NotesOk ρ (maybeCasts s t vs).1.notes := hn.mono hp.ext.notes
  have hn0 : NotesOk ρ s.notes := hn1.mono c2.notes
  have hty := hzs.hasTy hn0 h2
  have hzs' := c5 zs hzs fun _ => hty
  refine ⟨?_, fun I hI => ?_⟩
  · change HasTy (((maybeCasts s t vs).1.push op t (maybeCasts s t vs).2).1.ty ((maybeCasts s t vs).1.push op t (maybeCasts s t vs).2).2) _
    rw [hp.ty]
    split_ifs
    · exact HasTy.sum h1 hty
    · exact HasTy.prod h1 hty
  · change Gen.run I ((maybeCasts s t vs).1.push op t (maybeCasts s t vs).2).1.g ((maybeCasts s t vs).1.push op t (maybeCasts s t vs).2).2 = _
    rw [hp.run I, hzs'.run hn1 (hI.mono hp.ext.leaves)]
    rcases hop with rfl | rfl
    · rw [I.add, if_pos rfl, hI.num.sum]
    · rw [I.mul, if_neg (by decide), hI.num.prod]

/-! ## Powers by squaring -/

theorem mul2_push {s : Low F} (h : LInv ρ s) {t : Prim} {a b : Nat} (ha : a ∈ s.g.ops) (hb : b ∈ s.g.ops) (ht : t = .floating)
    (hta : s.ty a = .floating) (htb : s.ty b = .floating) :
    Pushed ρ s .mul t [a, b] (s.push .mul t [a, b]) ∧ ∀ x y, Is ρ s a x → Is ρ s b y → Is ρ (s.push .mul t [a, b]).1 (s.push .mul t [a, b]).2 (x * y) := by
  have hp : Pushed ρ s .mul t [a, b] (s.push .mul t [a, b]) :=
    push_ok h (by intro v hv; simp at hv; rcases hv with rfl | rfl <;> assumption) (OpOk.two_le rfl (by simp))
      (by intro u hu; simp only [List.map_cons, List.map_nil, List.mem_cons, List.not_mem_nil, or_false] at hu; rcases hu with rfl | rfl <;> simp [hta, htb, ht])
  refine ⟨hp, fun x y hx hy hn => ⟨?_, fun I hI => ?_⟩⟩
  · rw [hp.ty, ht]; trivial
  · have hn' : NotesOk ρ s.notes := hn.mono hp.ext.notes
    have hI' := hI.mono hp.ext.leaves
    rw [hp.run I, I.mul, List.map_cons, List.map_cons, List.map_nil, (hx hn').2 I hI', (hy hn').2 I hI', hI.num.mul]
    simp

theorem squareLoop_ok : ∀ (k : Nat) {s : Low F} {base : Nat} {res : Option Nat} {e : Nat}, LInv ρ s → base ∈ s.g.ops → s.ty base = .floating →
    (∀ r, res = some r → r ∈ s.g.ops ∧ s.ty r = .floating) → 1 ≤ e → e ≤ k →
    Step ρ s (squareLoop k s base res e) fun z => ∃ b w, Is ρ s base b ∧ (∀ r, res = some r → Is ρ s r w) ∧ (res = none → w = 1) ∧ z = w * b ^ e := by
  intro k
  induction k with
  | zero => intro s base res e _ _ _ _ h1 h2; omega
  | succ k ih =>
    intro s base res e h hb hty hres h1 h2
    -- the result after the first half of the turn
    obtain ⟨s1, res1, heq, i1, e1, m1, v1, n1⟩ : ∃ s1 res1, timesBase s base res e = (s1, res1) ∧ LInv ρ s1 ∧ Ext s s1 ∧
        (∀ r, res1 = some r → r ∈ s1.g.ops ∧ s1.ty r = .floating) ∧
        (∀ b w, Is ρ s base b → (∀ r, res = some r → Is ρ s r w) → (res = none → w = 1) →
          ∀ r, res1 = some r → Is ρ s1 r (w * b ^ (e % 2))) ∧ (res1 = none → res = none ∧ e % 2 = 0) := by
      unfold timesBase
      by_cases ho : e % 2 = 1
      · rw [if_pos ho]
        cases res with
        | some r =>
          obtain ⟨hp, hval⟩ := mul2_push h (hres r rfl).1 hb hty (hres r rfl).2 hty
          refine ⟨_, _, rfl, hp.inv, hp.ext, ?_, ?_, fun h => by cases h⟩
          · intro r' hr'; cases hr'; exact ⟨hp.mem, hp.ty.trans hty⟩
          · intro b w hbv hw _ r' hr'
            cases hr'
            rw [ho, pow_one]
            exact hval w b (hw r rfl) hbv
        | none =>
          refine ⟨s, some base, rfl, h, Ext.refl s, ?_, ?_, fun h => by cases h⟩
          · intro r' hr'; cases hr'; exact ⟨hb, hty⟩
          · intro b w hbv _ hw r' hr'
            cases hr'
            rw [ho, pow_one, hw rfl, one_mul]
            exact hbv
      · rw [if_neg ho]
        have h0 : e % 2 = 0 := by omega
        refine ⟨s, res, rfl, h, Ext.refl s, hres, ?_, fun h => ⟨h, h0⟩⟩
        intro b w _ hw _ r hr
        rw [h0, pow_zero, mul_one]
        exact hw r hr
    unfold squareLoop
    simp only [heq]
    by_cases hz : e / 2 = 0
    · rw [if_pos hz]
      have he1 : e = 1 := by omega
      subst he1
      cases res1 with
      | none => exact absurd (n1 rfl).2 (by decide)
      | some r =>
        refine ⟨i1, e1, (m1 r rfl).1, ?_⟩
        rintro z ⟨b, w, hbv, hw, hw1, rfl⟩
        exact v1 b w hbv hw hw1 r rfl
    · rw [if_neg hz]
      have hty1 : s1.ty base = .floating := by rw [e1.ty base hb, hty]
      obtain ⟨hp, hval⟩ := mul2_push i1 (e1.mem base hb) (e1.mem base hb) hty1 hty1 hty1
      have := ih (e := e / 2) (res := res1) hp.inv hp.mem (by rw [hp.ty, hty1]) (fun r hr => ⟨hp.ext.mem r (m1 r hr).1, (hp.ext.ty r (m1 r hr).1).trans (m1 r hr).2⟩) (by omega) (by omega)
      refine ⟨this.inv, e1.trans (hp.ext.trans this.ext), this.mem, ?_⟩
      rintro z ⟨b, w, hbv, hw, hw1, rfl⟩
      have hb1 : Is ρ s1 base b := hbv.ext hb e1
      refine this.val _ ⟨b * b, w * b ^ (e % 2), hval b b hb1 hb1, fun r hr => (v1 b w hbv hw hw1 r hr).ext (m1 r hr).1 hp.ext, fun hr => ?_, ?_⟩
      · obtain ⟨h3, h4⟩ := n1 hr
        rw [hw1 h3, h4]; simp
      · rw [mul_assoc, ← pow_two, ← pow_mul, ← pow_add]
        congr 2
        omega

end

/-! ## Leaves -/

theorem leafIndex_spec (e : Expr F) : ∀ ls : List (Expr F), leafIndex e ls ≤ ls.length ∧ (leafIndex e ls < ls.length → ls[leafIndex e ls]? = some e)
  | [] => ⟨le_refl _, fun h => absurd h (by simp [leafIndex])⟩
  | l :: ls => by
    obtain ⟨h1, h2⟩ := leafIndex_spec e ls
    unfold leafIndex
    by_cases hl : identical l e = true
    · rw [if_pos hl]
      exact ⟨by simp, fun _ => by rw [eq_of_identical hl]; rfl⟩
    · rw [if_neg hl]
      exact ⟨by simpa using h1, fun h => by rw [List.getElem?_cons_succ]; exact h2 (by simpa using h)⟩

section
variable {ρ : Env F}

theorem load_ok {s : Low F} (h : LInv ρ s) (e : Expr F) {t : Prim} (ht : ∀ z, eval ρ e = some z → HasTy t z) :
    Step ρ s (s.load e t) fun z => eval ρ e = some z := by
  obtain ⟨k1, k2⟩ := leafIndex_spec e s.leaves
  set k := leafIndex e s.leaves with hk
  set ls := if k < s.leaves.length then s.leaves else s.leaves ++ [e] with hls
  have hl : ls[k]? = some e := by
    rw [hls]
    split_ifs with hlt
    · exact k2 hlt
    · have : k = s.leaves.length := by omega
      rw [this]; simp
  have hm : ∀ (i : Nat) x, s.leaves[i]? = some x → ls[i]? = some x := by
    intro i x hx
    rw [hls]
    split_ifs
    · exact hx
    · rw [List.getElem?_append_left (by
        by_contra hge
        rw [List.getElem?_eq_none (by omega)] at hx
        cases hx)]
      exact hx
  have he : Ext s { s with leaves := ls } := ⟨⟨fun _ h => h, fun _ _ => rfl, fun _ _ => rfl, hm, fun _ h => h, fun _ _ _ => rfl⟩, [], (List.append_nil _).symm, by simp⟩
  have hi : LInv ρ { s with leaves := ls } := h.ext he h.wf h.inOrder rfl rfl h.typed
  have hp : Pushed ρ { s with leaves := ls } (.load (.other k)) t [] (({ s with leaves := ls } : Low F).push (.load (.other k)) t []) :=
    push_ok hi (by simp) (OpOk.load _) trivial
  refine ⟨hp.inv, he.trans hp.ext, hp.mem, fun z hz hn => ⟨?_, fun I hI => ?_⟩⟩
  · have := hp.ty
    change HasTy ((({ s with leaves := ls } : Low F).push (.load (.other k)) t []).1.ty (({ s with leaves := ls } : Low F).push (.load (.other k)) t []).2) z
    rw [this]
    exact ht z hz
  · have := hp.run I
    refine Eq.trans this ?_
    exact hI.leaf k e z (by rw [← hl]; rfl) hz

/-! ## Calls of the visitor -/

/-- The recursive calls make values for well-formed expressions. -/
def RecOk (ρ : Env F) (R : Lowering F) : Prop := ∀ s e p, Good e → LInv ρ s → R s e = .ok p → Step ρ s p fun z => eval ρ e = some z

theorem lowerList_ok {R : Lowering F} (hR : RecOk ρ R) : ∀ {es : List (Expr F)} {s : Low F} {p : Low F × List Nat}, (∀ e ∈ es, Good e) → LInv ρ s →
    lowerList R s es = .ok p → LInv ρ p.1 ∧ Ext s p.1 ∧ (∀ v ∈ p.2, v ∈ p.1.g.ops) ∧ p.2.length = es.length ∧
      ∀ zs, List.Forall₂ (fun e z => eval ρ e = some z) es zs → AllAre ρ p.1 p.2 zs := by
  intro es
  induction es with
  | nil =>
    intro s p _ h hr
    unfold lowerList at hr
    cases hr
    exact ⟨h, Ext.refl s, by simp, rfl, fun zs hz => by cases hz; exact .nil⟩
  | cons e es ih =>
    intro s p hg h hr
    unfold lowerList at hr
    obtain ⟨q, hq, hr⟩ := andThen_ok hr
    obtain ⟨q', hq', hr⟩ := andThen_ok hr
    cases hr
    have h1 := hR s e q (hg e List.mem_cons_self) h hq
    obtain ⟨i1, i2, i3, i4, i5⟩ := ih (fun t ht => hg t (List.mem_cons_of_mem _ ht)) h1.inv hq'
    refine ⟨i1, h1.ext.trans i2, ?_, by simp [i4], ?_⟩
    · intro v hv
      rcases List.mem_cons.1 hv with rfl | hv
      · exact i2.mem _ h1.mem
      · exact i3 v hv
    · intro zs hz
      cases hz with
      | cons hz1 hz2 => exact .cons ((h1.val _ hz1).ext h1.mem i2) (i5 _ hz2)

theorem powVal_nat {x z : ℂ} {n : ℕ} (hn : 1 ≤ n) (h : powVal x (n : ℂ) = some z) : x ^ n = z := by
  rcases powVal_cases h with ⟨_, rfl⟩ | ⟨rfl, _, rfl⟩
  · rw [cpow_natCast]
  · rw [zero_pow (by omega)]

theorem powVal_half {x z : ℂ} {n : ℕ} (hn : 1 ≤ n) (h : powVal x ((n : ℂ) / 2) = some z) : ∃ y, powVal x (1 / 2) = some y ∧ y ^ n = z := by
  rcases powVal_cases h with ⟨hx, rfl⟩ | ⟨rfl, _, rfl⟩
  · refine ⟨x ^ (1 / 2 : ℂ), powVal_of_ne hx _, ?_⟩
    rw [← cpow_nat_mul]
    congr 1
    ring
  · exact ⟨0, powVal_zero_pos (by norm_num), by rw [zero_pow (by omega)]⟩

/-- What `pow_extract_base_and_integer_exponent` gives. -/
structure Extracted (ρ : Env F) (s : Low F) (b e : Expr F) (s' : Low F) (v n : Nat) : Prop where
  inv : LInv ρ s'
  ext : Ext s s'
  mem : v ∈ s'.g.ops
  ty : s'.ty v = .floating
  pos : 1 ≤ n
  val : ∀ z, powO (eval ρ b) (eval ρ e) = some z → ∃ y, Is ρ s' v y ∧ y ^ n = z

theorem powExtract_ok {R : Lowering F} (hR : RecOk ρ R) {s s' : Low F} {b e : Expr F} {v n : Nat} (hb : Good b) (he : Good e) (h : LInv ρ s)
    (hr : powExtract R s b e = .ok (some (s', v, n))) : Extracted ρ s b e s' v n := by
  unfold powExtract at hr
  split at hr
  · rename_i k
    split_ifs at hr with hk
    · obtain ⟨p, hp, hr⟩ := andThen_ok hr
      cases hr
      have h1 := hR s b p hb h hp
      have h2 := maybeCast_ok h1.inv h1.mem .floating
      refine ⟨h2.inv, h1.ext.trans h2.ext, h2.mem, h2.ty, by omega, ?_⟩
      intro z hz
      obtain ⟨x, y, hx, hy, hz⟩ := powO_eq_some.1 hz
      rw [eval_int] at hy
      cases hy
      refine ⟨x, h2.val x (h1.val x hx) fun _ => trivial, powVal_nat (by omega) ?_⟩
      have : ((k.toNat : ℕ) : ℂ) = (k : ℂ) := by
        have : ((k.toNat : ℕ) : ℤ) = k := Int.toNat_of_nonneg (by omega)
        exact_mod_cast congrArg (fun i : ℤ => (i : ℂ)) this
      rw [this]
      exact hz
    · cases hr
  · rename_i r
    split_ifs at hr with hk
    · obtain ⟨p, hp, hr⟩ := andThen_ok hr
      cases hr
      have h1 := hR s b p hb h hp
      have h2 := maybeCast_ok h1.inv h1.mem .floating
      have h3 : Pushed ρ (maybeCast p.1 p.2 .floating).1 (.callStd Std.sqrt.code) .floating [(maybeCast p.1 p.2 .floating).2]
          ((maybeCast p.1 p.2 .floating).1.push (.callStd Std.sqrt.code) .floating [(maybeCast p.1 p.2 .floating).2]) :=
        push_ok h2.inv (by simpa using h2.mem) (OpOk.free _ rfl) ⟨fun _ => ⟨rfl, by rw [List.map_cons, h2.ty]; rfl⟩, fun h => absurd h (by decide), fun h => absurd h (by decide)⟩
      refine ⟨h3.inv, (h1.ext.trans h2.ext).trans h3.ext, h3.mem, h3.ty, by omega, ?_⟩
      intro z hz
      obtain ⟨x, y, hx, hy, hz⟩ := powO_eq_some.1 hz
      rw [eval_rat] at hy
      cases hy
      have hv : ((r.val : ℚ) : ℂ) = ((r.n.toNat : ℕ) : ℂ) / 2 := by
        have e1 : ((r.n.toNat : ℕ) : ℤ) = r.n := Int.toNat_of_nonneg (by omega)
        have e2 : ((r.n.toNat : ℕ) : ℂ) = ((r.n : ℤ) : ℂ) := by exact_mod_cast congrArg (fun i : ℤ => (i : ℂ)) e1
        rw [e2, RatC.val, hk.2.1]
        push_cast
        rfl
      rw [hv] at hz
      obtain ⟨w, hw, hwz⟩ := powVal_half (by omega) hz
      refine ⟨w, fun hn => ⟨?_, fun I hI => ?_⟩, hwz⟩
      · rw [h3.ty]; trivial
      · have h4 := h2.val x (h1.val x hx) fun _ => trivial
        rw [h3.run I, List.map_cons, List.map_nil, (h4 (hn.mono h3.ext.notes)).2 I (hI.mono h3.ext.leaves)]
        exact hI.sqrt x w hw
    · cases hr
  · cases hr

theorem AllAre.append {s : Low F} {vs vs' : List Nat} {zs zs' : List ℂ} (h : AllAre ρ s vs zs) (h' : AllAre ρ s vs' zs') :
    AllAre ρ s (vs ++ vs') (zs ++ zs') := List.rel_append h h'

theorem AllAre.replicate {s : Low F} {v : Nat} {z : ℂ} (h : Is ρ s v z) : ∀ n, AllAre ρ s (List.replicate n v) (List.replicate n z)
  | 0 => .nil
  | n + 1 => .cons h (AllAre.replicate h n)

theorem factor_ok {R : Lowering F} (hR : RecOk ρ R) {t : Expr F} {s : Low F} {p : Low F × List Nat} (hg : Good t) (h : LInv ρ s)
    (hr : factorValues.factor R s t = .ok p) : LInv ρ p.1 ∧ Ext s p.1 ∧ (∀ v ∈ p.2, v ∈ p.1.g.ops) ∧ 1 ≤ p.2.length ∧
      ∀ z, eval ρ t = some z → ∃ zs, AllAre ρ p.1 p.2 zs ∧ zs.prod = z := by
  have hsingle : ∀ {q : Low F × Nat}, R s t = .ok q → LInv ρ q.1 ∧ Ext s q.1 ∧ (∀ v ∈ [q.2], v ∈ q.1.g.ops) ∧ 1 ≤ [q.2].length ∧
      ∀ z, eval ρ t = some z → ∃ zs, AllAre ρ q.1 [q.2] zs ∧ zs.prod = z := by
    intro q hq
    have h1 := hR s t q hg h hq
    exact ⟨h1.inv, h1.ext, by simpa using h1.mem, by simp, fun z hz => ⟨[z], .cons (h1.val z hz) .nil, by simp⟩⟩
  unfold factorValues.factor at hr
  split at hr
  · rename_i b e
    obtain ⟨x, hx, hr⟩ := andThen_ok hr
    cases x with
    | none =>
      obtain ⟨q, hq, hr⟩ := andThen_ok hr
      cases hr
      exact hsingle hq
    | some x =>
      obtain ⟨s', v, n⟩ := x
      cases hr
      rw [good_pow] at hg
      have h1 := powExtract_ok hR hg.1 hg.2 h hx
      refine ⟨h1.inv, h1.ext, ?_, by rw [List.length_replicate]; exact h1.pos, ?_⟩
      · intro u hu
        rw [List.eq_of_mem_replicate hu]
        exact h1.mem
      · intro z hz
        rw [eval_pow] at hz
        obtain ⟨y, hy, hyz⟩ := h1.val z hz
        exact ⟨List.replicate n y, AllAre.replicate hy n, by rw [List.prod_replicate, hyz]⟩
  · obtain ⟨q, hq, hr⟩ := andThen_ok hr
    cases hr
    exact hsingle hq

theorem factorValues_ok {R : Lowering F} (hR : RecOk ρ R) : ∀ {ts : List (Expr F)} {s : Low F} {p : Low F × List Nat}, (∀ e ∈ ts, Good e) → LInv ρ s →
    factorValues R s ts = .ok p → LInv ρ p.1 ∧ Ext s p.1 ∧ (∀ v ∈ p.2, v ∈ p.1.g.ops) ∧ ts.length ≤ p.2.length ∧
      ∀ z, prodO (ts.map (eval ρ)) = some z → ∃ zs, AllAre ρ p.1 p.2 zs ∧ zs.prod = z := by
  intro ts
  induction ts with
  | nil =>
    intro s p _ h hr
    unfold factorValues at hr
    cases hr
    refine ⟨h, Ext.refl s, by simp, by simp, fun z hz => ⟨[], .nil, ?_⟩⟩
    simpa [prodO] using hz
  | cons t ts ih =>
    intro s p hg h hr
    unfold factorValues at hr
    obtain ⟨q, hq, hr⟩ := andThen_ok hr
    obtain ⟨q', hq', hr⟩ := andThen_ok hr
    cases hr
    obtain ⟨f1, f2, f3, f4, f5⟩ := factor_ok hR (hg t List.mem_cons_self) h hq
    obtain ⟨i1, i2, i3, i4, i5⟩ := ih (fun t ht => hg t (List.mem_cons_of_mem _ ht)) f1 hq'
    refine ⟨i1, f2.trans i2, ?_, ?_, ?_⟩
    · intro v hv
      rcases List.mem_append.1 hv with hv | hv
      · exact i2.mem _ (f3 v hv)
      · exact i3 v hv
    · rw [List.length_append, List.length_cons]; omega
    · intro z hz
      rw [List.map_cons, prodO] at hz
      simp only [Option.bind_eq_some_iff, Option.map_eq_some_iff] at hz
      obtain ⟨x, hx, y, hy, rfl⟩ := hz
      obtain ⟨zs, hzs, rfl⟩ := f5 x hx
      obtain ⟨zs', hzs', rfl⟩ := i5 y hy
      exact ⟨zs ++ zs', (hzs.ext f3 i2).append hzs', by rw [List.prod_append]⟩

variable {lic : Lic F} {K : Ctors F}

theorem negateFirst_ok (hK : Sound lic ρ K) (hL : lic.TrueAt ρ) : ∀ {ts : List (Expr F)} {r : List (Expr F) × Bool}, (∀ t ∈ ts, Good t) →
    negateFirst K ts = .ok r → (∀ t ∈ r.1, Good t) ∧ r.1.length = ts.length ∧
      ∀ z, prodO (ts.map (eval ρ)) = some z → prodO (r.1.map (eval ρ)) = some (if r.2 then -z else z) := by
  intro ts
  induction ts with
  | nil => intro r _ hr; unfold negateFirst at hr; cases hr; exact ⟨by simp, rfl, fun z hz => by simpa using hz⟩
  | cons t ts ih =>
    intro r hg hr
    have hgt := hg t List.mem_cons_self
    have hgs : ∀ u ∈ ts, Good u := fun u hu => hg u (List.mem_cons_of_mem _ hu)
    have hrest : ∀ {q : List (Expr F) × Bool}, negateFirst K ts = .ok q → (∀ u ∈ t :: q.1, Good u) ∧ (t :: q.1).length = (t :: ts).length ∧
        ∀ z, prodO ((t :: ts).map (eval ρ)) = some z → prodO ((t :: q.1).map (eval ρ)) = some (if q.2 then -z else z) := by
      intro q hq
      obtain ⟨h1, h2, h3⟩ := ih hgs hq
      refine ⟨List.forall_mem_cons.2 ⟨hgt, h1⟩, by simp [h2], fun z hz => ?_⟩
      rw [List.map_cons, prodO] at hz ⊢
      simp only [Option.bind_eq_some_iff, Option.map_eq_some_iff] at hz
      obtain ⟨x, hx, y, hy, rfl⟩ := hz
      rw [hx, h3 y hy]
      simp only [Option.bind_some, Option.map_some]
      split_ifs
      · rw [mul_neg]
      · rfl
    unfold negateFirst at hr
    split at hr
    · rename_i n
      split_ifs at hr with hn
      · obtain ⟨t', ht', hr⟩ := andThen_ok hr
        cases hr
        have h1 := negE_ok hK (self_ok (.int n) hgt) ht'
        refine ⟨List.forall_mem_cons.2 ⟨h1.1, hgs⟩, rfl, fun z hz => ?_⟩
        have h2 := h1.2 hL (-(n : ℂ)) (by rw [eval_int]; rfl)
        rw [List.map_cons, prodO] at hz ⊢
        simp only [Option.bind_eq_some_iff, Option.map_eq_some_iff] at hz
        obtain ⟨x, hx, y, hy, rfl⟩ := hz
        rw [eval_int] at hx
        cases hx
        rw [h2, hy]
        simp
      · obtain ⟨q, hq, hr⟩ := andThen_ok hr
        cases hr
        exact hrest hq
    · obtain ⟨q, hq, hr⟩ := andThen_ok hr
      cases hr
      exact hrest hq

theorem lowerMul_ok (hK : Sound lic ρ K) (hL : lic.TrueAt ρ) {R : Lowering F} (hR : RecOk ρ R) {ts : List (Expr F)} {s : Low F} {p : Low F × Nat}
    (hl : 2 ≤ ts.length) (hg : ∀ t ∈ ts, Good t) (h : LInv ρ s) (hr : lowerMul K R s ts = .ok p) :
    Step ρ s p fun z => prodO (ts.map (eval ρ)) = some z := by
  unfold lowerMul at hr
  obtain ⟨r, h1, hr⟩ := andThen_ok hr
  obtain ⟨q, h2, hr⟩ := andThen_ok hr
  cases hr
  obtain ⟨n1, n2, n3⟩ := negateFirst_ok hK hL hg h1
  have hg' : ∀ t ∈ (if r.2 then r.1 ++ [.int (-1)] else r.1), Good t := by
    split_ifs
    · intro t ht
      rcases List.mem_append.1 ht with ht | ht
      · exact n1 t ht
      · rw [List.mem_singleton] at ht; subst ht; exact good_int.2 (inI64_small (by decide) (by decide))
    · exact n1
  obtain ⟨f1, f2, f3, f4, f5⟩ := factorValues_ok hR hg' h h2
  have hlen : 2 ≤ q.2.length := by
    refine le_trans ?_ f4
    split_ifs
    · rw [List.length_append]; omega
    · omega
  have h3 := addOrMul_ok f1 (Or.inr rfl) f3 hlen
  refine ⟨h3.inv, f2.trans h3.ext, h3.mem, fun z hz => ?_⟩
  have h4 : prodO ((if r.2 then r.1 ++ [.int (-1)] else r.1).map (eval ρ)) = some z := by
    have := n3 z hz
    split_ifs with hb
    · rw [if_pos hb] at this
      rw [List.map_append, prodO_append, this]
      simp [prodO]
    · rwa [if_neg hb] at this
  obtain ⟨zs, hzs, rfl⟩ := f5 z h4
  exact h3.val _ ⟨zs, hzs, by rw [if_neg (by decide)]⟩

theorem lowerRecip_ok (hK : Sound lic ρ K) (hL : lic.TrueAt ρ) {R : Lowering F} (hR : RecOk ρ R) {b e : Expr F} {s : Low F} {p : Low F × Nat}
    (hb : Good b) (he : Good e) (h : LInv ρ s) (hr : lowerRecip K R s b e = .ok p) :
    Step ρ s p fun z => powO (eval ρ b) (eval ρ e) = some z := by
  unfold lowerRecip at hr
  obtain ⟨ne, h1, hr⟩ := andThen_ok hr
  obtain ⟨r, h2, hr⟩ := andThen_ok hr
  obtain ⟨q, h3, hr⟩ := andThen_ok hr
  obtain ⟨o, h4, hr⟩ := andThen_ok hr
  cases hr
  have k1 := negE_ok hK (self_ok e he) h1
  have k2 := hK.pow b ne r hb k1.1 h2
  have e0 : Ext s { s with notes := s.notes ++ [.recip b e] } :=
    ⟨⟨fun _ h => h, fun _ _ => rfl, fun _ _ => rfl, fun _ _ h => h, fun _ h => List.mem_append_left _ h, fun _ _ _ => rfl⟩, [], (List.append_nil _).symm, by simp⟩
  have i0 : LInv ρ { s with notes := s.notes ++ [.recip b e] } := h.ext e0 h.wf h.inOrder rfl rfl h.typed
  have k3 := hR _ r q k2.1 i0 h3
  have k4 := hR _ (.int 1) o good_one k3.inv h4
  have k5 := maybeCast_ok k4.inv k4.mem .floating
  have k6 := maybeCast_ok (v := q.2) k5.inv (k5.ext.mem _ (k4.ext.mem _ k3.mem)) .floating
  set c := maybeCast o.1 o.2 .floating with hc
  set d := maybeCast c.1 q.2 .floating with hd
  have k7 : Pushed ρ d.1 .div .floating [c.2, d.2] (d.1.push .div .floating [c.2, d.2]) :=
    push_ok k6.inv (by
      intro v hv
      simp only [List.mem_cons, List.not_mem_nil, or_false] at hv
      rcases hv with rfl | rfl
      · exact k6.ext.mem _ k5.mem
      · exact k6.mem) (OpOk.free _ rfl) ⟨rfl, by rw [List.map_cons, List.map_cons, k6.ext.ty _ k5.mem, k5.ty, k6.ty]; rfl⟩
  refine ⟨k7.inv, e0.trans (k3.ext.trans (k4.ext.trans (k5.ext.trans (k6.ext.trans k7.ext)))), k7.mem, fun z hz hn => ⟨?_, fun I hI => ?_⟩⟩
  · rw [k7.ty]; trivial
  · obtain ⟨x, w, hx, hw, hz⟩ := powO_eq_some.1 hz
    have nd : NotesOk ρ d.1.notes := hn.mono k7.ext.notes
    have nc : NotesOk ρ c.1.notes := nd.mono k6.ext.notes
    have no : NotesOk ρ o.1.notes := nc.mono k5.ext.notes
    have nq : NotesOk ρ q.1.notes := no.mono k4.ext.notes
    have id : AgreesIn _ I ρ d.1.leaves := hI.mono k7.ext.leaves
    -- the base is not zero
    have hx0 : x ≠ 0 := by
      rintro rfl
      have : w.re ≤ 0 := nq.1 b e (k3.ext.notes _ (List.mem_append_right _ (by simp))) w hx hw
      rcases powVal_cases hz with ⟨h, _⟩ | ⟨_, h, _⟩
      · exact h rfl
      · linarith
    have hzv : z = x ^ w := by
      rcases powVal_cases hz with ⟨_, h⟩ | ⟨h, _⟩
      · exact h
      · exact absurd h hx0
    have hne : eval ρ ne = some (-w) := k1.2 hL (-w) (by rw [hw]; rfl)
    have hrv : eval ρ r = some (x ^ (-w)) := k2.2 hL _ (by rw [hx, hne, powO_some, powVal_of_ne hx0])
    have hone : eval ρ (.int 1 : Expr F) = some 1 := by rw [eval_int]; simp
    have m1 : Is ρ d.1 c.2 1 := (k5.val 1 (k4.val 1 hone) fun _ => trivial).ext k5.mem k6.ext
    have m2 : Is ρ d.1 d.2 (x ^ (-w)) :=
      k6.val _ (((k3.val _ hrv).ext k3.mem k4.ext).ext (k4.ext.mem _ k3.mem) k5.ext) fun _ => trivial
    rw [k7.run I, List.map_cons, List.map_cons, List.map_nil, (m1 nd).2 I id, (m2 nd).2 I id, hI.div, hzv, cpow_neg]
    · simp
    · rw [cpow_def_of_ne_zero hx0]; exact exp_ne_zero _

theorem lowerPowCall_ok {R : Lowering F} (hR : RecOk ρ R) {b e : Expr F} {s : Low F} {p : Low F × Nat}
    (hb : Good b) (he : Good e) (h : LInv ρ s) (hr : lowerPowCall R s b e = .ok p) :
    Step ρ s p fun z => powO (eval ρ b) (eval ρ e) = some z := by
  unfold lowerPowCall at hr
  obtain ⟨q, h1, hr⟩ := andThen_ok hr
  have k1 := hR _ b q hb h h1
  have k2 := maybeCast_ok k1.inv k1.mem .floating
  set c := maybeCast q.1 q.2 .floating with hc
  obtain ⟨o, h2, hr⟩ := andThen_ok hr
  have k3 := hR _ e o he k2.inv h2
  by_cases hty : o.1.ty o.2 = .integral
  · rw [if_pos hty] at hr
    cases hr
    have k4 : Pushed ρ o.1 (.callStd Std.powi.code) .floating [c.2, o.2] (o.1.push (.callStd Std.powi.code) .floating [c.2, o.2]) :=
      push_ok k3.inv (by
        intro v hv
        simp only [List.mem_cons, List.not_mem_nil, or_false] at hv
        rcases hv with rfl | rfl
        · exact k3.ext.mem _ k2.mem
        · exact k3.mem) (OpOk.free _ rfl) ⟨fun h => absurd h (by decide), fun h => absurd h (by decide), fun _ => ⟨rfl, by rw [List.map_cons, List.map_cons, k3.ext.ty _ k2.mem, k2.ty, hty]; rfl⟩⟩
    refine ⟨k4.inv, k1.ext.trans (k2.ext.trans (k3.ext.trans k4.ext)), k4.mem, fun z hz hn => ⟨?_, fun I hI => ?_⟩⟩
    · rw [k4.ty]; trivial
    · obtain ⟨x, w, hx, hw, hz⟩ := powO_eq_some.1 hz
      have no : NotesOk ρ o.1.notes := hn.mono k4.ext.notes
      have io : AgreesIn _ I ρ o.1.leaves := hI.mono k4.ext.leaves
      have m1 : Is ρ o.1 c.2 x := (k2.val x (k1.val x hx) fun _ => trivial).ext k2.mem k3.ext
      have m2 := k3.val w hw no
      rw [hty] at m2
      obtain ⟨⟨n, rfl⟩, m2⟩ := m2
      rw [k4.run I, List.map_cons, List.map_cons, List.map_nil, (m1 no).2 I io, m2 I io]
      exact hI.powi x n z hz
  · rw [if_neg hty] at hr
    cases hr
    have k5 := maybeCast_ok k3.inv k3.mem .floating
    set d := maybeCast o.1 o.2 .floating with hd
    have k4 : Pushed ρ d.1 (.callStd Std.powf.code) .floating [c.2, d.2] (d.1.push (.callStd Std.powf.code) .floating [c.2, d.2]) :=
      push_ok k5.inv (by
        intro v hv
        simp only [List.mem_cons, List.not_mem_nil, or_false] at hv
        rcases hv with rfl | rfl
        · exact k5.ext.mem _ (k3.ext.mem _ k2.mem)
        · exact k5.mem) (OpOk.free _ rfl) ⟨fun h => absurd h (by decide), fun _ => ⟨rfl, by
          rw [List.map_cons, List.map_cons, k5.ext.ty _ (k3.ext.mem _ k2.mem), k3.ext.ty _ k2.mem, k2.ty, k5.ty]; rfl⟩, fun h => absurd h (by decide)⟩
    refine ⟨k4.inv, k1.ext.trans (k2.ext.trans (k3.ext.trans (k5.ext.trans k4.ext))), k4.mem, fun z hz hn => ⟨?_, fun I hI => ?_⟩⟩
    · rw [k4.ty]; trivial
    · obtain ⟨x, w, hx, hw, hz⟩ := powO_eq_some.1 hz
      have nd : NotesOk ρ d.1.notes := hn.mono k4.ext.notes
      have id : AgreesIn _ I ρ d.1.leaves := hI.mono k4.ext.leaves
      have m1 : Is ρ d.1 c.2 x := ((k2.val x (k1.val x hx) fun _ => trivial).ext k2.mem k3.ext).ext (k3.ext.mem _ k2.mem) k5.ext
      have m2 : Is ρ d.1 d.2 w := k5.val w (k3.val w hw) fun _ => trivial
      rw [k4.run I, List.map_cons, List.map_cons, List.map_nil, (m1 nd).2 I id, (m2 nd).2 I id]
      exact hI.powf x w z hz

theorem lowerPow_ok (hK : Sound lic ρ K) (hL : lic.TrueAt ρ) {R : Lowering F} (hR : RecOk ρ R) {b e : Expr F} {s : Low F} {p : Low F × Nat}
    (hb : Good b) (he : Good e) (h : LInv ρ s) (hr : lowerPow K R s b e = .ok p) :
    Step ρ s p fun z => powO (eval ρ b) (eval ρ e) = some z := by
  unfold lowerPow at hr
  by_cases hneg : isNegNum (asCoeffMul e).1 = true
  · rw [if_pos hneg] at hr
    exact lowerRecip_ok hK hL hR hb he h hr
  · rw [if_neg hneg] at hr
    obtain ⟨x, hx, hr⟩ := andThen_ok hr
    cases x with
    | none => exact lowerPowCall_ok hR hb he h hr
    | some x =>
      obtain ⟨s', v, n⟩ := x
      have h1 := powExtract_ok hR hb he h hx
      have hpos := h1.pos
      change bySquaring R s' v n = .ok p at hr
      unfold bySquaring at hr
      rw [if_neg (by omega)] at hr
      cases hr
      have h2 := squareLoop_ok n (res := none) h1.inv h1.mem h1.ty (fun r hr => by cases hr) hpos (le_refl _)
      refine ⟨h2.inv, h1.ext.trans h2.ext, h2.mem, fun z hz => ?_⟩
      obtain ⟨y, hy, hyz⟩ := h1.val z hz
      exact h2.val z ⟨y, 1, hy, fun r hr => (by cases hr), fun _ => rfl, by rw [one_mul, hyz]⟩

end

/-! ## Functions, conditionals and relations -/

theorem real_of_im {z : ℂ} (h : z.im = 0) : z = (z.re : ℂ) := Complex.ext (by simp) (by simp [h])

theorem abs_hasTy {t : Prim} {z : ℂ} (h : HasTy t z) : HasTy t ((‖z‖ : ℝ) : ℂ) := by
  cases t with
  | boolean => rcases h with rfl | rfl <;> simp [HasTy]
  | integral =>
    obtain ⟨n, rfl⟩ := h
    refine ⟨|n|, ?_⟩
    rw [Complex.norm_intCast, ← Int.cast_abs, Complex.ofReal_intCast]
  | floating => trivial

theorem floor_hasTy {z : ℂ} (h : z.im = 0) : HasTy .integral (⟨⌊z.re⌋, ⌊z.im⌋⟩ : ℂ) := by
  refine ⟨⌊z.re⌋, Complex.ext ?_ ?_⟩
  · simp
  · simp [h]

theorem signum_hasTy {z : ℂ} (h : z.im = 0) : HasTy .integral (if z = 0 then 0 else z / ‖z‖) := by
  split_ifs with h0
  · exact ⟨0, by simp⟩
  · rw [real_of_im h] at h0 ⊢
    have hr : z.re ≠ 0 := fun e => h0 (by rw [e]; simp)
    rw [Complex.norm_real, Real.norm_eq_abs, ← ofReal_div]
    rcases lt_or_gt_of_ne hr with hr | hr
    · refine ⟨-1, ?_⟩
      rw [abs_of_neg hr, div_neg, div_self hr.ne]
      simp
    · refine ⟨1, ?_⟩
      rw [abs_of_pos hr, div_self hr.ne']
      simp

section
variable {ρ : Env F}

theorem forall2_mem_left {α β : Type} {P : α → β → Prop} {as : List α} {bs : List β} (h : List.Forall₂ P as bs) : ∀ b ∈ bs, ∃ a ∈ as, P a b := by
  induction h with
  | nil => simp
  | cons h1 _ ih =>
    intro b hb
    rcases List.mem_cons.1 hb with rfl | hb
    · exact ⟨_, List.mem_cons_self, h1⟩
    · obtain ⟨a, ha, hab⟩ := ih b hb
      exact ⟨a, List.mem_cons_of_mem _ ha, hab⟩

theorem stdType_ok {s : Low F} {f : BuiltIn} {as : List (Expr F)} {vs : List Nat} {t : Prim} {zs : List ℂ} {z : ℂ} (hn : NotesOk ρ s.notes)
    (hnotes : f = .floor ∨ f = .signum → ∀ a ∈ as, .realArg a ∈ s.notes) (hzs : List.Forall₂ (fun e z => eval ρ e = some z) as zs)
    (hvs : AllAre ρ s vs zs) (ht : stdType s f vs = .ok t) (hz : fnVal f zs = some z) : HasTy t z := by
  have hreal : f = .floor ∨ f = .signum → ∀ x ∈ zs, x.im = 0 := by
    intro hf x hx
    obtain ⟨a, ha, hax⟩ := forall2_mem_left hzs x hx
    exact hn.2 a (hnotes hf a ha) x hax
  unfold stdType at ht
  split at ht
  · cases ht
    unfold AllAre at hvs
    cases hvs with
    | cons h1 h2 =>
      cases h2
      simp only [fnVal, Option.some.injEq] at hz
      subst hz
      exact abs_hasTy (h1 hn).1
  · cases ht
  · cases ht
    rcases zs with _ | ⟨x, _ | ⟨y, l⟩⟩
    · simp [fnVal] at hz
    · simp only [fnVal, Option.some.injEq] at hz
      subst hz
      exact floor_hasTy (hreal (Or.inl rfl) x (by simp))
    · simp [fnVal] at hz
  · cases ht
    rcases zs with _ | ⟨x, _ | ⟨y, l⟩⟩
    · simp [fnVal] at hz
    · have := signum_hasTy (hreal (Or.inr rfl) x (by simp))
      simp only [fnVal] at hz
      split_ifs at hz with h0 <;> cases hz
      · rwa [if_pos h0] at this
      · rwa [if_neg h0] at this
    · simp [fnVal] at hz
  · cases ht; trivial

theorem lowerFn_ok {R : Lowering F} (hR : RecOk ρ R) {f : BuiltIn} {as : List (Expr F)} {s : Low F} {p : Low F × Nat}
    (hg : ∀ t ∈ as, Good t) (h : LInv ρ s) (hr : lowerFn R s f as = .ok p) :
    Step ρ s p fun z => (seqO (as.map (eval ρ))).bind (fnVal f) = some z := by
  unfold lowerFn at hr
  set ns := s.notes ++ (if f = .floor ∨ f = .signum then as.map .realArg else []) with hns
  obtain ⟨q, h1, hr⟩ := andThen_ok hr
  obtain ⟨t, h2, hr⟩ := andThen_ok hr
  cases hr
  have e0 : Ext s { s with notes := ns } :=
    ⟨⟨fun _ h => h, fun _ _ => rfl, fun _ _ => rfl, fun _ _ h => h, fun _ h => List.mem_append_left _ h, fun _ _ _ => rfl⟩, [], (List.append_nil _).symm, by simp⟩
  have i0 : LInv ρ { s with notes := ns } := h.ext e0 h.wf h.inOrder rfl rfl h.typed
  obtain ⟨l1, l2, l3, l4, l5⟩ := lowerList_ok hR hg i0 h1
  have k : Pushed ρ q.1 (.callStd (Std.fn f).code) t q.2 (q.1.push (.callStd (Std.fn f).code) t q.2) :=
    push_ok l1 l3 (OpOk.free _ rfl) (by cases f <;> exact ⟨fun h => absurd h (by decide), fun h => absurd h (by decide), fun h => absurd h (by decide)⟩)
  refine ⟨k.inv, e0.trans (l2.trans k.ext), k.mem, fun z hz hn => ?_⟩
  obtain ⟨zs, hzs, hz⟩ := Option.bind_eq_some_iff.1 hz
  have nq : NotesOk ρ q.1.notes := hn.mono k.ext.notes
  have hf := seqO_list hzs
  have hall := l5 zs hf
  refine ⟨?_, fun I hI => ?_⟩
  · rw [k.ty]
    refine stdType_ok nq (fun hfs a ha => l2.notes _ (List.mem_append_right _ ?_)) hf hall h2 hz
    rw [if_pos hfs]
    exact List.mem_map_of_mem ha
  · rw [k.run I, hall.run nq (hI.mono k.ext.leaves)]
    exact hI.fn f zs z hz

theorem lowerCond_ok {R : Lowering F} (hR : RecOk ρ R) {c a b : Expr F} {s : Low F} {p : Low F × Nat}
    (hc : Good c) (ha : Good a) (hb : Good b) (h : LInv ρ s) (hr : lowerCond R s c a b = .ok p) :
    Step ρ s p fun z => condO (eval ρ c) (eval ρ a) (eval ρ b) = some z := by
  unfold lowerCond at hr
  obtain ⟨u, h1, hr⟩ := andThen_ok hr
  obtain ⟨v, h2, hr⟩ := andThen_ok hr
  obtain ⟨w, h3, hr⟩ := andThen_ok hr
  cases hr
  have k1 := hR _ c u hc h h1
  have k2 := hR _ a v ha k1.inv h2
  have k3 := hR _ b w hb k2.inv h3
  set t := primMax (w.1.ty v.2) (w.1.ty w.2) with ht
  have k4 := maybeCast_ok (v := v.2) k3.inv (k3.ext.mem _ k2.mem) t
  set x := maybeCast w.1 v.2 t with hx
  have k5 := maybeCast_ok (v := w.2) k4.inv (k4.ext.mem _ k3.mem) t
  set y := maybeCast x.1 w.2 t with hy
  have mu : u.2 ∈ y.1.g.ops := k5.ext.mem _ (k4.ext.mem _ (k3.ext.mem _ (k2.ext.mem _ k1.mem)))
  have mx : x.2 ∈ y.1.g.ops := k5.ext.mem _ k4.mem
  have k6 : Pushed ρ y.1 .cond t [u.2, x.2, y.2] (y.1.push .cond t [u.2, x.2, y.2]) :=
    push_ok k5.inv (by
      intro m hm
      simp only [List.mem_cons, List.not_mem_nil, or_false] at hm
      rcases hm with rfl | rfl | rfl
      · exact mu
      · exact mx
      · exact k5.mem) (OpOk.free _ rfl) ⟨_, by rw [List.map_cons, List.map_cons, List.map_cons, k5.ext.ty _ k4.mem, k4.ty, k5.ty]; rfl⟩
  refine ⟨k6.inv, k1.ext.trans (k2.ext.trans (k3.ext.trans (k4.ext.trans (k5.ext.trans k6.ext)))), k6.mem, fun z hz hn => ?_⟩
  have ny : NotesOk ρ y.1.notes := hn.mono k6.ext.notes
  obtain ⟨zc, hzc, hz⟩ := Option.bind_eq_some_iff.1 hz
  have mc : Is ρ y.1 u.2 zc :=
    ((((k1.val zc hzc).ext k1.mem k2.ext).ext (k2.ext.mem _ k1.mem) k3.ext).ext (k3.ext.mem _ (k2.ext.mem _ k1.mem)) k4.ext).ext
      (k4.ext.mem _ (k3.ext.mem _ (k2.ext.mem _ k1.mem))) k5.ext
  have hva : ∀ z, eval ρ a = some z → Is ρ w.1 v.2 z := fun z hz => (k2.val z hz).ext k2.mem k3.ext
  have hcase : (zc = 1 ∧ eval ρ a = some z) ∨ (zc = 0 ∧ eval ρ b = some z) := by
    split_ifs at hz with h1 h0
    · exact Or.inl ⟨h1, hz⟩
    · exact Or.inr ⟨h0, hz⟩
  rcases hcase with ⟨rfl, hza⟩ | ⟨rfl, hzb⟩
  · have m1 := (k4.val z (hva z hza) fun hnw => ((hva z hza) hnw).1.mono (le_primMax_left _ _)).ext k4.mem k5.ext.toExt0
    refine ⟨?_, fun I hI => ?_⟩
    · rw [k6.ty]
      have := (m1 ny).1
      rwa [k5.ext.ty _ k4.mem, k4.ty] at this
    · have iy : AgreesIn _ I ρ y.1.leaves := hI.mono k6.ext.leaves
      rw [k6.run I, List.map_cons, List.map_cons, (mc ny).2 I iy, (m1 ny).2 I iy]
      exact hI.condTrue _ _
  · have hw : Is ρ x.1 w.2 z := (k3.val z hzb).ext k3.mem k4.ext
    have m2 := k5.val z hw fun hnx => by
      have := (hw hnx).1
      rw [k4.ext.ty _ k3.mem] at this
      exact this.mono (le_primMax_right _ _)
    refine ⟨?_, fun I hI => ?_⟩
    · rw [k6.ty]
      have := (m2 ny).1
      rwa [k5.ty] at this
    · have iy : AgreesIn _ I ρ y.1.leaves := hI.mono k6.ext.leaves
      rw [k6.run I, List.map_cons, List.map_cons, List.map_cons, List.map_nil, (mc ny).2 I iy, (m2 ny).2 I iy]
      exact hI.condFalse _ _

theorem relVal_bool {op : RelOp} {a b z : ℂ} (h : relVal op a b = some z) : z = 0 ∨ z = 1 := by
  have hif : ∀ (p : Prop) [Decidable p], (if p then (1 : ℂ) else 0) = 0 ∨ (if p then (1 : ℂ) else 0) = 1 := by
    intro p _; by_cases hp : p <;> simp [hp]
  unfold relVal at h
  split at h
  · split_ifs at h with h1
    all_goals (cases h; simp)
  · split_ifs at h with h1
    all_goals (cases h; simp)
  · cases h; exact hif _

theorem lowerRel_ok {R : Lowering F} (hR : RecOk ρ R) {op : RelOp} {a b : Expr F} {s : Low F} {p : Low F × Nat}
    (ha : Good a) (hb : Good b) (h : LInv ρ s) (hr : lowerRel R s op a b = .ok p) :
    Step ρ s p fun z => relO ρ op a b = some z := by
  unfold lowerRel at hr
  obtain ⟨v, h2, hr⟩ := andThen_ok hr
  obtain ⟨w, h3, hr⟩ := andThen_ok hr
  cases hr
  have k2 := hR _ a v ha h h2
  have k3 := hR _ b w hb k2.inv h3
  set t := primMax (w.1.ty v.2) (w.1.ty w.2) with ht
  have k4 := maybeCast_ok (v := v.2) k3.inv (k3.ext.mem _ k2.mem) t
  set x := maybeCast w.1 v.2 t with hx
  have k5 := maybeCast_ok (v := w.2) k4.inv (k4.ext.mem _ k3.mem) t
  set y := maybeCast x.1 w.2 t with hy
  have k6 : Pushed ρ y.1 (.compare (relCode op)) .boolean [x.2, y.2] (y.1.push (.compare (relCode op)) .boolean [x.2, y.2]) :=
    push_ok k5.inv (by
      intro m hm
      simp only [List.mem_cons, List.not_mem_nil, or_false] at hm
      rcases hm with rfl | rfl
      · exact k5.ext.mem _ k4.mem
      · exact k5.mem) (OpOk.free _ rfl) ⟨rfl, t, by rw [List.map_cons, List.map_cons, k5.ext.ty _ k4.mem, k4.ty, k5.ty]; rfl⟩
  refine ⟨k6.inv, k2.ext.trans (k3.ext.trans (k4.ext.trans (k5.ext.trans k6.ext))), k6.mem, fun z hz hn => ?_⟩
  have ny : NotesOk ρ y.1.notes := hn.mono k6.ext.notes
  obtain ⟨za, hza, hz⟩ := Option.bind_eq_some_iff.1 hz
  obtain ⟨zb, hzb, hz⟩ := Option.bind_eq_some_iff.1 hz
  have hva : Is ρ w.1 v.2 za := (k2.val za hza).ext k2.mem k3.ext
  have m1 := (k4.val za hva fun hnw => (hva hnw).1.mono (le_primMax_left _ _)).ext k4.mem k5.ext.toExt0
  have hw : Is ρ x.1 w.2 zb := (k3.val zb hzb).ext k3.mem k4.ext
  have m2 := k5.val zb hw fun hnx => by
    have := (hw hnx).1
    rw [k4.ext.ty _ k3.mem] at this
    exact this.mono (le_primMax_right _ _)
  refine ⟨?_, fun I hI => ?_⟩
  · rw [k6.ty]; exact relVal_bool hz
  · have iy : AgreesIn _ I ρ y.1.leaves := hI.mono k6.ext.leaves
    rw [k6.run I, List.map_cons, List.map_cons, List.map_nil, (m1 ny).2 I iy, (m2 ny).2 I iy]
    exact hI.rel op za zb z hz

theorem isBoolean_val {c : Expr F} (hc : isBoolean c = true) {z : ℂ} (h : eval ρ c = some z) : z = 0 ∨ z = 1 := by
  obtain ⟨hd, as⟩ := c
  unfold isBoolean at hc
  cases hd <;> first | (cases hc; done) | skip
  · rename_i b
    rw [eval] at h
    cases as with
    | nil =>
      have : some (if b then (1 : ℂ) else 0) = some z := h
      cases this
      cases b <;> simp
    | cons _ _ => cases h
  · rename_i op
    rw [eval, evals_eq] at h
    rcases as with _ | ⟨a, _ | ⟨b, _ | ⟨_, _⟩⟩⟩
    · cases h
    · cases h
    · obtain ⟨za, hza, h⟩ := Option.bind_eq_some_iff.1 h
      obtain ⟨zb, hzb, h⟩ := Option.bind_eq_some_iff.1 h
      exact relVal_bool h
    · cases h

variable {lic : Lic F} {K : Ctors F}

theorem lowerNode_ok (hK : Sound lic ρ K) (hL : lic.TrueAt ρ) (hT : TypedEnv ρ) {R : Lowering F} (hR : RecOk ρ R) {e : Expr F} {s : Low F} {p : Low F × Nat}
    (hg : Good e) (h : LInv ρ s) (hr : lowerNode K R s e = .ok p) : Step ρ s p fun z => eval ρ e = some z := by
  unfold lowerNode at hr
  split at hr <;> first | (cases hr; done) | skip
  · -- sum
    rename_i ts
    split_ifs at hr with hl
    obtain ⟨q, h1, hr⟩ := andThen_ok hr
    cases hr
    obtain ⟨l1, l2, l3, l4, l5⟩ := lowerList_ok hR (good_add.1 hg) h h1
    have k := addOrMul_ok l1 (Or.inl rfl) l3 (by omega)
    refine ⟨k.inv, l2.trans k.ext, k.mem, fun z hz => ?_⟩
    rw [eval_add] at hz
    obtain ⟨zs, hzs, rfl⟩ := sumO_list hz
    exact k.val _ ⟨zs, l5 zs hzs, by rw [if_pos rfl]⟩
  · rename_i ts
    split_ifs at hr with hl
    have k := lowerMul_ok hK hL hR (by omega) (good_mul.1 hg).2 h hr
    exact ⟨k.inv, k.ext, k.mem, fun z hz => k.val z (by rwa [eval_mul] at hz)⟩
  · have k := lowerPow_ok hK hL hR (good_pow.1 hg).1 (good_pow.1 hg).2 h hr
    exact ⟨k.inv, k.ext, k.mem, fun z hz => k.val z (by rwa [eval_pow] at hz)⟩
  · have k := lowerFn_ok hR (good_fn.1 hg) h hr
    exact ⟨k.inv, k.ext, k.mem, fun z hz => k.val z (by rwa [eval_fn] at hz)⟩
  · have hg' := (good_node.1 hg).2
    have k := lowerCond_ok hR (hg' _ (by simp)) (hg' _ (by simp)) (hg' _ (by simp)) h hr
    exact ⟨k.inv, k.ext, k.mem, fun z hz => k.val z (by rwa [eval_cond] at hz)⟩
  · have hg' := (good_node.1 hg).2
    have k := lowerRel_ok hR (hg' _ (by simp)) (hg' _ (by simp)) h hr
    exact ⟨k.inv, k.ext, k.mem, fun z hz => k.val z (by rwa [eval_rel] at hz)⟩
  · rename_i c
    split_ifs at hr with hb
    obtain ⟨q, h1, hr⟩ := andThen_ok hr
    cases hr
    have k1 := hR _ c q ((good_node.1 hg).2 _ (by simp)) h h1
    have k2 : Pushed ρ q.1 (.cast (primCode .integral)) .integral [q.2] (q.1.push (.cast (primCode .integral)) .integral [q.2]) :=
      push_ok k1.inv (by simpa using k1.mem) (OpOk.one rfl) rfl
    refine ⟨k2.inv, k1.ext.trans k2.ext, k2.mem, fun z hz hn => ?_⟩
    rw [eval_iverson] at hz
    have hz01 := isBoolean_val hb hz
    have hti : HasTy .integral z := HasTy.mono (a := .boolean) hz01 (by decide)
    refine ⟨by rw [k2.ty]; exact hti, fun I hI => ?_⟩
    rw [k2.run I, List.map_cons, List.map_nil, (k1.val z hz (hn.mono k2.ext.notes)).2 I (hI.mono k2.ext.leaves)]
    exact cast_val hI hti
  · have k := hR _ _ p ((good_node.1 hg).2 _ (by simp)) h hr
    exact ⟨k.inv, k.ext, k.mem, fun z hz => k.val z (by rwa [eval_uneval] at hz)⟩
  · have k := hR _ _ p ((good_node.1 hg).2 _ (by simp)) h hr
    exact ⟨k.inv, k.ext, k.mem, fun z hz => k.val z (by rwa [eval_stop] at hz)⟩
  · rename_i n
    cases hr
    have k : Pushed ρ s (.load (.int n)) .integral [] (s.push (.load (.int n)) .integral []) := push_ok h (by simp) (OpOk.load _) rfl
    refine ⟨k.inv, k.ext, k.mem, fun z hz hn => ?_⟩
    rw [eval_int] at hz
    cases hz
    exact ⟨by rw [k.ty]; exact ⟨n, rfl⟩, fun I hI => by rw [k.run I, hI.num.int]; exact I.int n⟩
  · cases hr; exact load_ok h _ fun z _ => trivial
  · cases hr; exact load_ok h _ fun z _ => trivial
  · cases hr; exact load_ok h _ fun z _ => trivial
  · cases hr; exact load_ok h _ fun z _ => trivial
  · rename_i n i t
    cases hr
    exact load_ok h _ fun z hz => hT n i t z (by rw [eval] at hz; exact hz)
  · rename_i b
    cases hr
    refine load_ok h _ fun z hz => ?_
    rw [eval_bconst] at hz
    cases hz
    cases b <;> simp [HasTy]

theorem lower_ok (hK : Sound lic ρ K) (hL : lic.TrueAt ρ) (hT : TypedEnv ρ) : ∀ n, RecOk ρ (lower K n) := by
  intro n
  induction n with
  | zero => intro s e p _ _ hr; cases hr
  | succ n ih =>
    intro s e p hg h hr
    unfold lower at hr
    cases hf : s.cache.find? (fun c => identical c.1 e) with
    | some c =>
      simp only [hf] at hr
      cases hr
      have h0 := List.find?_some hf
      have h1 : c.1 = e := eq_of_identical h0
      have h2 := h.cache c (List.mem_of_find?_eq_some hf)
      rw [h1] at h2
      exact ⟨h, Ext.refl s, h2.1, h2.2⟩
    | none =>
      simp only [hf] at hr
      obtain ⟨q, hq, hr⟩ := andThen_ok hr
      cases hr
      have k := lowerNode_ok hK hL hT ih hg h hq
      have e1 : Ext q.1 { q.1 with cache := q.1.cache ++ [(e, q.2)] } :=
        ⟨⟨fun _ h => h, fun _ _ => rfl, fun _ _ => rfl, fun _ _ h => h, fun _ h => h, fun _ _ _ => rfl⟩, [], (List.append_nil _).symm, by simp⟩
      refine ⟨⟨k.inv.wf, k.inv.inOrder, ?_, k.inv.casts, k.inv.typed⟩, k.ext.trans e1, k.mem, fun z hz => k.val z hz⟩
      intro c hc
      rcases List.mem_append.1 hc with hc | hc
      · exact k.inv.cache c hc
      · rw [List.mem_singleton] at hc
        subst hc
        exact ⟨k.mem, fun z hz => k.val z hz⟩

end

end Wf.Sym
