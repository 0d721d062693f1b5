import Verif.Sym.LowerSpec
import Verif.Sym.RebuildLemmas
import Verif.Gen.GraphLemmas

/-! # Lemmas about the lowering of expressions -/

namespace Wf.Gen
variable {V : Type} [Arith V]

theorem runFrom_append (I : Interp V) (g : Graph) : ∀ (l l' : List Nat) (ρ : Nat → V), runFrom I g ρ (l ++ l') = runFrom I g (runFrom I g ρ l) l'
  | [], _, _ => rfl
  | _ :: vs, l', _ => runFrom_append I g vs l' _

theorem runFrom_congr (I : Interp V) {g g' : Graph} : ∀ {l : List Nat} (ρ : Nat → V), (∀ v ∈ l, g'.node v = g.node v) → runFrom I g' ρ l = runFrom I g ρ l
  | [], _, _ => rfl
  | v :: vs, ρ, h => by
    unfold runFrom
    rw [h v List.mem_cons_self]
    exact runFrom_congr I _ fun u hu => h u (List.mem_cons_of_mem _ hu)

/-- The operand count is right. -/
structure OpOk (op : Op) (args : List Nat) : Prop where
  arity : op.commutative = true → 2 ≤ args.length
  unary : op = .neg ∨ op = .copy ∨ (∃ t, op = .cast t) ∨ (∃ k, op = .save k) → args.length = 1
  nullary : ∀ l, op = .load l → args = []

theorem OpOk.one {op : Op} {v : Nat} (h : (op.commutative || match op with | .load _ => true | _ => false) = false) : OpOk op [v] := by
  refine ⟨fun hc => ?_, fun _ => rfl, fun l hl => ?_⟩
  · rw [hc] at h; cases h
  · subst hl; cases h

theorem OpOk.load (l : Load) : OpOk (.load l) [] :=
  ⟨fun h => (by cases h), fun h => (by rcases h with h | h | ⟨_, h⟩ | ⟨_, h⟩ <;> cases h), fun _ _ => rfl⟩

theorem OpOk.two_le {op : Op} {args : List Nat} (h : op.commutative = true) (hl : 2 ≤ args.length) : OpOk op args := by
  refine ⟨fun _ => hl, fun hu => ?_, fun l hl => ?_⟩
  · rcases hu with rfl | rfl | ⟨_, rfl⟩ | ⟨_, rfl⟩ <;> cases h
  · subst hl; cases h

/-- Operations without rules. -/
theorem OpOk.free {op : Op} (args : List Nat)
    (h : (match op with | .div | .cond | .compare _ | .callStd _ | .construct _ => true | _ => false) = true) : OpOk op args := by
  cases op <;> first
    | (cases h; done)
    | exact ⟨fun h => (by cases h), fun h => (by rcases h with h | h | ⟨_, h⟩ | ⟨_, h⟩ <;> cases h), fun l h => (by cases h)⟩

theorem push_node_old {g : Graph} (hw : WF g) (op : Op) (args : List Nat) {v : Nat} (hv : v ∈ g.ops) : (g.push op args).1.node v = g.node v :=
  if_neg (Nat.ne_of_lt (hw.lt v hv))

theorem push_node_new (g : Graph) (op : Op) (args : List Nat) : (g.push op args).1.node g.next = mkNode op args := if_pos rfl

theorem push_wf {g : Graph} (hw : WF g) {op : Op} {args : List Nat} (ha : ∀ a ∈ args, a ∈ g.ops) (ho : OpOk op args) : WF (g.push op args).1 := by
  have hmem : ∀ v, v ∈ (g.push op args).1.ops ↔ v ∈ g.ops ∨ v = g.next := fun v => by simp [Graph.push]
  refine WF.of ?_ ?_ ?_ ?_
  · change (g.ops ++ [g.next]).Nodup
    rw [List.nodup_append]
    refine ⟨hw.nodup, by simp, ?_⟩
    intro a ha b hb
    rw [List.mem_singleton] at hb
    subst hb
    exact Nat.ne_of_lt (hw.lt a ha)
  · intro v hv
    change v < g.next + 1
    rcases (hmem v).1 hv with h | h
    · have := hw.lt v h; omega
    · omega
  · intro v hv a haa
    rcases (hmem v).1 hv with h | rfl
    · rw [push_node_old hw op args h] at haa
      exact (hmem a).2 (Or.inl (hw.closed v h a haa))
    · rw [push_node_new] at haa
      exact (hmem a).2 (Or.inl (ha a (mem_mkNode.1 haa)))
  · intro v hv
    rcases (hmem v).1 hv with h | rfl
    · rw [push_node_old hw op args h]; exact hw.node h
    · rw [push_node_new]
      refine ⟨fun h => ?_, fun h => sorted_mkNode op args h, fun h => ?_, fun l h => ?_⟩
      · rw [length_mkNode]; exact ho.arity h
      · rw [length_mkNode]; exact ho.unary h
      · have := ho.nullary l h
        subst this
        simp [mkNode]

theorem push_inOrder {g : Graph} (hw : WF g) (ho : InOrder g) {op : Op} {args : List Nat} (ha : ∀ a ∈ args, a ∈ g.ops) : InOrder (g.push op args).1 := by
  intro l v l' h a haa
  change g.ops ++ [g.next] = l ++ v :: l' at h
  rcases List.eq_nil_or_concat l' with rfl | ⟨m, x, rfl⟩
  · obtain ⟨rfl, hv⟩ := List.append_inj' h rfl
    rw [List.cons.injEq] at hv
    obtain ⟨rfl, -⟩ := hv
    rw [push_node_new] at haa
    exact ha a (mem_mkNode.1 haa)
  · rw [List.concat_eq_append, ← List.cons_append, ← List.append_assoc] at h
    obtain ⟨h1, -⟩ := List.append_inj' h rfl
    have hv : v ∈ g.ops := by rw [h1]; simp
    rw [push_node_old hw op args hv] at haa
    exact ho l v m h1 a haa

theorem run_push_old (I : Interp V) {g : Graph} (hw : WF g) (op : Op) (args : List Nat) {v : Nat} (hv : v ∈ g.ops) :
    run I (g.push op args).1 v = run I g v := by
  change runFrom I (g.push op args).1 (fun _ => 0) (g.ops ++ [g.next]) v = _
  rw [runFrom_append, runFrom_not_mem, runFrom_congr I _ fun u hu => push_node_old hw op args hu]
  · rfl
  · rw [List.mem_singleton]; exact Nat.ne_of_lt (hw.lt v hv)

theorem run_push_new (I : Interp V) {g : Graph} (hw : WF g) (op : Op) (args : List Nat) :
    run I (g.push op args).1 g.next = I.f op (args.map (run I g)) := by
  change runFrom I (g.push op args).1 (fun _ => 0) (g.ops ++ [g.next]) g.next = _
  rw [runFrom_append, runFrom_congr I _ fun u hu => push_node_old hw op args hu]
  unfold runFrom runFrom
  rw [push_node_new]
  simp only [if_true]
  exact Interp.mkNode I op args _

end Wf.Gen

namespace Wf.Sym
open Complex
open Wf.Gen (Prim Interp Op OpOk)

variable {F : Type} [DecidableEq F] [FnSem F]

/-! ## The state only grows -/

/-- `s'` was reached from `s`: nothing that was there has changed. -/
structure Ext0 (s s' : Low F) : Prop where
  mem : ∀ v ∈ s.g.ops, v ∈ s'.g.ops
  node : ∀ v ∈ s.g.ops, s'.g.node v = s.g.node v
  ty : ∀ v ∈ s.g.ops, s'.ty v = s.ty v
  leaves : ∀ (k : Nat) e, s.leaves[k]? = some e → s'.leaves[k]? = some e
  notes : ∀ n ∈ s.notes, n ∈ s'.notes
  run : ∀ {V : Type} [Gen.Arith V] (I : Interp V), ∀ v ∈ s.g.ops, Gen.run I s'.g v = Gen.run I s.g v

/-- `s'` was reached from `s` without adding an output. -/
structure Ext (s s' : Low F) : Prop extends Ext0 s s' where
  fresh : ∃ l, s'.g.ops = s.g.ops ++ l ∧ ∀ v ∈ l, ∀ k, (s'.g.node v).op ≠ .save k

instance {s s' : Low F} : CoeOut (Ext s s') (Ext0 s s') := ⟨Ext.toExt0⟩

theorem Ext0.refl (s : Low F) : Ext0 s s := ⟨fun _ h => h, fun _ _ => rfl, fun _ _ => rfl, fun _ _ h => h, fun _ h => h, fun _ _ _ => rfl⟩
theorem Ext.refl (s : Low F) : Ext s s := ⟨Ext0.refl s, [], (List.append_nil _).symm, by simp⟩

theorem Ext0.trans {s s' s'' : Low F} (h : Ext0 s s') (h' : Ext0 s' s'') : Ext0 s s'' :=
  ⟨fun v hv => h'.mem v (h.mem v hv), fun v hv => (h'.node v (h.mem v hv)).trans (h.node v hv), fun v hv => (h'.ty v (h.mem v hv)).trans (h.ty v hv),
    fun k e he => h'.leaves k e (h.leaves k e he), fun n hn => h'.notes n (h.notes n hn), fun I v hv => (h'.run I v (h.mem v hv)).trans (h.run I v hv)⟩

theorem Ext.trans {s s' s'' : Low F} (h : Ext s s') (h' : Ext s' s'') : Ext s s'' := by
  obtain ⟨l, h1, h2⟩ := h.fresh
  obtain ⟨l', h1', h2'⟩ := h'.fresh
  refine ⟨h.toExt0.trans h'.toExt0, l ++ l', by rw [h1', h1, List.append_assoc], fun v hv k => ?_⟩
  rcases List.mem_append.1 hv with hv | hv
  · rw [h'.node v (by rw [h1]; exact List.mem_append_right _ hv)]; exact h2 v hv k
  · exact h2' v hv k

theorem NotesOk.mono {ρ : Env F} {l l' : List (Note F)} (h : NotesOk ρ l') (hl : ∀ n ∈ l, n ∈ l') : NotesOk ρ l :=
  ⟨fun b e hb => h.1 b e (hl _ hb), fun x hx => h.2 x (hl _ hx)⟩

section
variable {V : Type} [Gen.Arith V] {ι : ℂ → V}

theorem AgreesIn.mono {I : Interp V} {ρ : Env F} {l l' : List (Expr F)} (h : AgreesIn ι I ρ l') (hl : ∀ (k : Nat) e, l[k]? = some e → l'[k]? = some e) :
    AgreesIn ι I ρ l :=
  ⟨h.num, fun k e z hk => h.leaf k e z (hl k e hk), h.fn, h.sqrt, h.powf, h.powi, h.div, h.condTrue, h.condFalse, h.rel, h.toFloat⟩

theorem Numbers.id : Numbers (id : ℂ → ℂ) := ⟨rfl, rfl, fun _ _ => rfl, fun _ _ => rfl, fun _ => rfl⟩

theorem Agrees.in {I : Interp ℂ} {ρ : Env F} {l : List (Expr F)} (h : Agrees I ρ l) : AgreesIn id I ρ l :=
  ⟨Numbers.id, h.leaf, fun f zs z hz => by rw [List.map_id]; exact h.fn f zs z hz, h.sqrt, h.powf, h.powi, h.div, h.condTrue, h.condFalse, h.rel, h.toFloat⟩

omit [DecidableEq F] [FnSem F] in
theorem Numbers.sum (h : Numbers ι) : ∀ zs : List ℂ, (zs.map ι).sum = ι zs.sum
  | [] => h.zero.symm
  | z :: zs => by rw [List.map_cons, List.sum_cons, List.sum_cons, h.add, h.sum zs]

omit [DecidableEq F] [FnSem F] in
theorem Numbers.prod (h : Numbers ι) : ∀ zs : List ℂ, (zs.map ι).prod = ι zs.prod
  | [] => h.one.symm
  | z :: zs => by rw [List.map_cons, List.prod_cons, List.prod_cons, h.mul, h.prod zs]

end

/-- The value `v` of the program is `z`, a number of its type. -/
def Is (ρ : Env F) (s : Low F) (v : Nat) (z : ℂ) : Prop :=
  NotesOk ρ s.notes → HasTy (s.ty v) z ∧ ∀ {V : Type} [Gen.Arith V] {ι : ℂ → V} (I : Interp V), AgreesIn ι I ρ s.leaves → Gen.run I s.g v = ι z

theorem Is.ext {ρ : Env F} {s s' : Low F} {v : Nat} {z : ℂ} (h : Is ρ s v z) (hv : v ∈ s.g.ops) (he : Ext0 s s') : Is ρ s' v z := by
  intro hn
  obtain ⟨h1, h2⟩ := h (hn.mono he.notes)
  refine ⟨by rw [he.ty v hv]; exact h1, fun I hI => ?_⟩
  rw [he.run I v hv]
  exact h2 I (hI.mono he.leaves)

/-- `v` is the value made for `e`. -/
def Made (ρ : Env F) (s : Low F) (e : Expr F) (v : Nat) : Prop := v ∈ s.g.ops ∧ ∀ z, eval ρ e = some z → Is ρ s v z

theorem Made.ext {ρ : Env F} {s s' : Low F} {e : Expr F} {v : Nat} (h : Made ρ s e v) (he : Ext0 s s') : Made ρ s' e v :=
  ⟨he.mem v h.1, fun z hz => (h.2 z hz).ext h.1 he⟩

/-- What holds of the state between calls. -/
structure LInv (ρ : Env F) (s : Low F) : Prop where
  wf : Gen.WF s.g
  inOrder : Gen.InOrder s.g
  cache : ∀ c ∈ s.cache, Made ρ s c.1 c.2
  casts : ∀ c ∈ s.casts, c.1.1 ∈ s.g.ops ∧ c.2 ∈ s.g.ops ∧ s.ty c.2 = c.1.2 ∧
    ∀ {V : Type} [Gen.Arith V] (I : Interp V), Gen.run I s.g c.2 = I.f (.cast (primCode c.1.2)) [Gen.run I s.g c.1.1]
  typed : WellTyped s

theorem LInv.empty (ρ : Env F) : LInv ρ (Low.empty : Low F) where
  wf := by constructor <;> simp [Low.empty]
  inOrder := by intro l v l' h; simp [Low.empty] at h
  cache := by simp [Low.empty]
  casts := by simp [Low.empty]
  typed := by intro v hv; simp [Low.empty] at hv

/-- The invariant of a state that has the same caches. -/
theorem LInv.ext {ρ : Env F} {s s' : Low F} (h : LInv ρ s) (he : Ext0 s s') (hw : Gen.WF s'.g) (ho : Gen.InOrder s'.g) (hc : s'.cache = s.cache)
    (hk : s'.casts = s.casts) (hty : WellTyped s') : LInv ρ s' where
  wf := hw
  inOrder := ho
  cache := by rw [hc]; exact fun c hc => (h.cache c hc).ext he
  casts := by
    rw [hk]
    intro c hc
    obtain ⟨h1, h2, h3, h4⟩ := h.casts c hc
    exact ⟨he.mem _ h1, he.mem _ h2, by rw [he.ty _ h2, h3], fun I => by rw [he.run I _ h2, he.run I _ h1]; exact h4 I⟩
  typed := hty

/-- The result of pushing an operation. -/
structure Pushed (ρ : Env F) (s : Low F) (op : Op) (t : Prim) (args : List Nat) (p : Low F × Nat) : Prop where
  inv : LInv ρ p.1
  ext : Ext s p.1
  mem : p.2 ∈ p.1.g.ops
  ty : p.1.ty p.2 = t
  run : ∀ {V : Type} [Gen.Arith V] (I : Interp V), Gen.run I p.1.g p.2 = I.f op (args.map (Gen.run I s.g))

theorem push_ext0 {ρ : Env F} {s : Low F} (h : LInv ρ s) (op : Op) (t : Prim) (args : List Nat) : Ext0 s (s.push op t args).1 :=
  ⟨fun _ hv => List.mem_append_left _ hv, fun v hv => if_neg (Nat.ne_of_lt (h.wf.lt v hv)), fun v hv => if_neg (Nat.ne_of_lt (h.wf.lt v hv)),
    fun _ _ h => h, fun _ h => h, fun I _ hv => Gen.run_push_old I h.wf op args hv⟩

theorem tyOk_perm {op : Op} {t : Prim} {ts ts' : List Prim} (hc : op.commutative = true) (hp : ts'.Perm ts) (h : TyOk op t ts) : TyOk op t ts' := by
  cases op <;> first
    | exact fun a ha => h a (hp.mem_iff.1 ha)
    | (cases hc; done)

theorem push_typed {ρ : Env F} {s : Low F} (h : LInv ρ s) {op : Op} {t : Prim} {args : List Nat} (ha : ∀ a ∈ args, a ∈ s.g.ops)
    (ht : TyOk op t (args.map s.ty)) : WellTyped (s.push op t args).1 := by
  have he := push_ext0 h op t args
  intro v hv
  rcases List.mem_append.1 hv with hv | hv
  · rw [he.node v hv, he.ty v hv, List.map_congr_left fun a ha' => he.ty a (h.wf.closed v hv a ha')]
    exact h.typed v hv
  · rw [List.mem_singleton] at hv
    subst hv
    rw [show (s.push op t args).1.g.node s.g.next = Gen.mkNode op args from if_pos rfl,
      show (s.push op t args).1.ty s.g.next = t from if_pos rfl, List.map_congr_left fun a ha' => he.ty a (ha a (Gen.mem_mkNode.1 ha'))]
    change TyOk op t _
    by_cases hc : op.commutative = true
    · exact tyOk_perm hc (((by simp only [Gen.mkNode, hc, if_true]; exact List.perm_insertionSort _ _) : (Gen.mkNode op args).args.Perm args).map _) ht
    · rw [show (Gen.mkNode op args).args = args from if_neg hc]; exact ht

theorem push_inv {ρ : Env F} {s : Low F} (h : LInv ρ s) {op : Op} {t : Prim} {args : List Nat} (ha : ∀ a ∈ args, a ∈ s.g.ops) (ho : OpOk op args)
    (ht : TyOk op t (args.map s.ty)) : LInv ρ (s.push op t args).1 :=
  h.ext (push_ext0 h op t args) (Gen.push_wf h.wf ha ho) (Gen.push_inOrder h.wf h.inOrder ha) rfl rfl (push_typed h ha ht)

theorem push_ok {ρ : Env F} {s : Low F} (h : LInv ρ s) {op : Op} {t : Prim} {args : List Nat} (ha : ∀ a ∈ args, a ∈ s.g.ops) (ho : OpOk op args)
    (ht : TyOk op t (args.map s.ty)) (hs : ∀ k, op ≠ .save k := by intro k h; cases h) : Pushed ρ s op t args (s.push op t args) := by
  refine ⟨push_inv h ha ho ht, ⟨push_ext0 h op t args, [s.g.next], rfl, fun v hv k hk => ?_⟩, List.mem_append_right _ (by simp [Low.push, Gen.Graph.push]),
    if_pos rfl, fun I => Gen.run_push_new I h.wf op args⟩
  rw [List.mem_singleton] at hv
  subst hv
  rw [show (s.push op t args).1.g.node s.g.next = Gen.mkNode op args from if_pos rfl] at hk
  exact hs k hk

/-! ## Types -/

theorem HasTy.mono {a b : Prim} {z : ℂ} (h : HasTy a z) (hab : primCode a ≤ primCode b) : HasTy b z := by
  cases a <;> cases b <;> first | exact h | trivial | (simp [primCode] at hab; done) | skip
  rcases h with rfl | rfl
  · exact ⟨0, by simp⟩
  · exact ⟨1, by simp⟩

theorem le_primMax_left (a b : Prim) : primCode a ≤ primCode (primMax a b) := by unfold primMax; split_ifs <;> omega
theorem le_primMax_right (a b : Prim) : primCode b ≤ primCode (primMax a b) := by unfold primMax; split_ifs <;> omega

theorem cast_val {V : Type} [Gen.Arith V] {ι : ℂ → V} {I : Interp V} {ρ : Env F} {l : List (Expr F)} (hI : AgreesIn ι I ρ l) {t : Prim} {z : ℂ} (h : HasTy t z) :
    I.f (.cast (primCode t)) [ι z] = ι z := by
  have hint : ∀ (n : ℤ) (w : ℂ), w = n → I.f (.cast (primCode t)) [ι w] = ι w := by
    rintro n w rfl
    rw [hI.num.int]
    exact I.cast _ n
  cases t with
  | boolean =>
    rcases h with rfl | rfl
    · exact hint 0 0 (by simp)
    · exact hint 1 1 (by simp)
  | integral => obtain ⟨n, rfl⟩ := h; exact hint n _ rfl
  | floating => exact hI.toFloat z

/-- The result of `maybe_cast`. -/
structure Casted (ρ : Env F) (s : Low F) (v : Nat) (t : Prim) (p : Low F × Nat) : Prop where
  inv : LInv ρ p.1
  ext : Ext s p.1
  mem : p.2 ∈ p.1.g.ops
  ty : p.1.ty p.2 = t
  val : ∀ z, Is ρ s v z → (NotesOk ρ s.notes → HasTy t z) → Is ρ p.1 p.2 z

theorem maybeCast_ok {ρ : Env F} {s : Low F} (h : LInv ρ s) {v : Nat} (hv : v ∈ s.g.ops) (t : Prim) : Casted ρ s v t (maybeCast s v t) := by
  unfold maybeCast
  by_cases ht : s.ty v = t
  · rw [if_pos ht]
    exact ⟨h, Ext.refl s, hv, ht, fun z hz _ => hz⟩
  · rw [if_neg ht]
    cases hf : s.casts.find? (fun c => c.1 = (v, t)) with
    | some c =>
      have h1 := List.find?_some hf
      have h2 := List.mem_of_find?_eq_some hf
      obtain ⟨e1, e2, e3, e4⟩ := h.casts c h2
      simp only [decide_eq_true_eq] at h1
      rw [h1] at e1 e3 e4
      refine ⟨h, Ext.refl s, e2, e3, fun z hz hzt hn => ⟨by rw [e3]; exact hzt hn, fun I hI => ?_⟩⟩
      rw [e4 I, (hz hn).2 I hI]
      exact cast_val hI (hzt hn)
    | none =>
      have hp : Pushed ρ s (.cast (primCode t)) t [v] (s.push (.cast (primCode t)) t [v]) :=
        push_ok h (by simpa using hv) (Gen.OpOk.one rfl) rfl
      refine ⟨⟨hp.inv.wf, hp.inv.inOrder, hp.inv.cache, ?_, hp.inv.typed⟩, ⟨⟨hp.ext.mem, hp.ext.node, hp.ext.ty, hp.ext.leaves, hp.ext.notes, hp.ext.run⟩, hp.ext.fresh⟩, hp.mem, hp.ty, ?_⟩
      · intro c hc
        rcases List.mem_append.1 hc with hc | hc
        · exact hp.inv.casts c hc
        · rw [List.mem_singleton] at hc
          subst hc
          refine ⟨hp.ext.mem v hv, hp.mem, hp.ty, fun I => ?_⟩
          rw [hp.ext.run I v hv]
          exact hp.run I
      · intro z hz hzt hn
        refine ⟨by rw [hp.ty]; exact hzt hn, fun I hI => ?_⟩
        change Gen.run I (s.push (.cast (primCode t)) t [v]).1.g (s.push (.cast (primCode t)) t [v]).2 = _
        rw [hp.run I, List.map_cons, List.map_nil, (hz hn).2 I hI]
        exact cast_val hI (hzt hn)

/-- Several values at once. -/
def AllAre (ρ : Env F) (s : Low F) : List Nat → List ℂ → Prop := List.Forall₂ (Is ρ s)

theorem AllAre.ext {ρ : Env F} {s s' : Low F} {vs : List Nat} {zs : List ℂ} (h : AllAre ρ s vs zs) (hv : ∀ v ∈ vs, v ∈ s.g.ops) (he : Ext0 s s') :
    AllAre ρ s' vs zs := by
  unfold AllAre at *
  induction h with
  | nil => exact .nil
  | cons h1 _ ih => exact .cons (h1.ext (hv _ List.mem_cons_self) he) (ih fun v hv' => hv v (List.mem_cons_of_mem _ hv'))

theorem AllAre.run {ρ : Env F} {s : Low F} {vs : List Nat} {zs : List ℂ} (h : AllAre ρ s vs zs) (hn : NotesOk ρ s.notes)
    {V : Type} [Gen.Arith V] {ι : ℂ → V} {I : Interp V} (hI : AgreesIn ι I ρ s.leaves) : vs.map (Gen.run I s.g) = zs.map ι := by
  unfold AllAre at h
  induction h with
  | nil => rfl
  | cons h1 _ ih => rw [List.map_cons, ih, (h1 hn).2 I hI, List.map_cons]

theorem maybeCasts_ok {ρ : Env F} {t : Prim} : ∀ {vs : List Nat} {s : Low F}, LInv ρ s → (∀ v ∈ vs, v ∈ s.g.ops) →
    LInv ρ (maybeCasts s t vs).1 ∧ Ext s (maybeCasts s t vs).1 ∧ (∀ v ∈ (maybeCasts s t vs).2, v ∈ (maybeCasts s t vs).1.g.ops) ∧
      (maybeCasts s t vs).2.length = vs.length ∧ (∀ v ∈ (maybeCasts s t vs).2, (maybeCasts s t vs).1.ty v = t) ∧
      ∀ zs, AllAre ρ s vs zs → (NotesOk ρ s.notes → ∀ z ∈ zs, HasTy t z) → AllAre ρ (maybeCasts s t vs).1 (maybeCasts s t vs).2 zs := by
  intro vs
  induction vs with
  | nil => intro s h _; exact ⟨h, Ext.refl s, by simp [maybeCasts], rfl, by simp [maybeCasts], fun zs hz _ => hz⟩
  | cons v vs ih =>
    intro s h hv
    have hc := maybeCast_ok h (hv v List.mem_cons_self) t
    obtain ⟨i1, i2, i3, i4, i6, i5⟩ := ih hc.inv fun u hu => hc.ext.mem u (hv u (List.mem_cons_of_mem _ hu))
    unfold maybeCasts
    refine ⟨i1, hc.ext.trans i2, ?_, by simp [i4], ?_, ?_⟩
    · intro u hu
      rcases List.mem_cons.1 hu with rfl | hu
      · exact i2.mem _ hc.mem
      · exact i3 u hu
    · intro u hu
      rcases List.mem_cons.1 hu with rfl | hu
      · exact (i2.ty _ hc.mem).trans hc.ty
      · exact i6 u hu
    · intro zs hz hzt
      unfold AllAre at hz
      cases hz with
      | cons h1 h2 =>
        rename_i z zs'
        refine .cons ((hc.val z h1 fun hn => hzt hn z List.mem_cons_self).ext hc.mem i2) ?_
        refine i5 zs' (AllAre.ext h2 (fun u hu => hv u (List.mem_cons_of_mem _ hu)) hc.ext) fun hn z' hz' => ?_
        exact hzt (hn.mono hc.ext.notes) z' (List.mem_cons_of_mem _ hz')

end Wf.Sym
