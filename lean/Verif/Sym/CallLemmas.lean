import Verif.Sym.CallSpec
import Verif.Sym.PipelineProps
import Verif.Gen.RunProps
import Mathlib.SetTheory.Cardinal.Arithmetic

/-!
# Lemmas for the call of a generated function

The program after all passes, interpretations of its operations in which the matrix constructors are one-to-one, and what two such interpretations say about
the objects of the caller.
-/

namespace Wf.Sym
open Complex
open Wf.Gen (Prim Op Interp Writes WF InOrder AstInfo Graph Stmt Convertible Typed OwnStructs Written Shaped)
open Wf.Gen.Text (Machine Setting Scoping Naming Argument Cell Slot State Fn Rel Tree VarType PyOptions ReturnedAs returnedOutputs find)

variable {F : Type} [DecidableEq F] [FnSem F] {info : AstInfo}

/-! ## The program after all passes -/

/-- What is known of the program. -/
structure Final (info : AstInfo) (ρ : Env F) (s : Low F) (outs : List (Nat × Output F)) (g : Graph) : Prop where
  wf : WF g
  order : InOrder g
  convertible : Convertible g
  typed : Typed info g
  own : OwnStructs info g
  saved : ∀ v ∈ g.ops, ∀ key, (g.node v).op = .save key → key ∈ outs.map Prod.fst
  saves : ∀ key ∈ outs.map Prod.fst, ∃ v ∈ g.ops, (g.node v).op = .save key
  matrix : ∀ key r c es, (key, Output.matrix r c es) ∈ outs → info.usage key ≠ .returnValue → ∀ v ∈ g.ops, (g.node v).op = .save key → ∀ a ∈ (g.node v).args,
    (g.node a).op = .construct (matrixCode r c)
  writes : NotesOk ρ s.notes → ∀ I : Interp ℂ, Agrees I ρ s.leaves → ∀ o ∈ outs, ∀ x, OutputValue I ρ o.2 x → Writes I g o.1 x

omit [DecidableEq F] [FnSem F] in
theorem same_key {outs : List (Nat × Output F)} (hk : (outs.map Prod.fst).Nodup) {o o' : Nat × Output F} (h : o ∈ outs) (h' : o' ∈ outs) (e : o.1 = o'.1) : o = o' :=
  List.inj_on_of_nodup_map hk h h' e

omit [DecidableEq F] [FnSem F] in
/-- The rules for one matrix output only. -/
theorem Signature.only {outs : List (Nat × Output F)} (hs : Signature info outs) {key r c : Nat} {es : List (Expr F)} (ho : (key, Output.matrix r c es) ∈ outs) :
    Linked { info with kind := fun k => if k = key then .matrix else .scalar, matrix := fun t => t == matrixCode r c } outs where
  links o ho' := by
    cases ho2 : o.2 with
    | scalar e t =>
      intro _ hk
      simp only at hk
      by_cases he : o.1 = key
      · have := same_key hs.keys ho' ho he
        rw [this] at ho2
        cases ho2
      · rw [if_neg he] at hk
        cases hk
    | matrix r' c' es' =>
      intro _ hk
      simp only at hk
      by_cases he : o.1 = key
      · have := same_key hs.keys ho' ho he
        rw [this] at ho2
        cases ho2
        simp
      · rw [if_neg he] at hk
        cases hk
  keys := hs.keys
  oneReturn := hs.oneReturn

theorem final_graph {ρ : Env F} (hT : TypedEnv ρ) {nK m n : Nat} {outs : List (Nat × Output F)} (hg : ∀ o ∈ outs, ∀ e ∈ o.2.exprs, Plain e ∧ Good e)
    (hs : Signature info outs) {s : Low F} (h : LawfulLowering ρ nK m n outs s) (opt : Options) (cast : Graph → Nat → Option Nat) :
    ∃ K g, (∀ fuel, K ≤ fuel → s.g.applySimplifications cast opt.passes opt.binarize fuel = .ok g) ∧ Final info ρ s outs g := by
  obtain ⟨h1, h2, h3, h4⟩ := C34_outputs ρ hT nK m n outs hg s h
  obtain ⟨K, g', k1, k2, k3, k4, k5, k6⟩ := Gen.optimise_shape cast opt.passes opt.binarize s.g (lowered_shape hs.linked h.code) h1 h2
  have hkey : ∀ v ∈ g'.ops, ∀ key, (g'.node v).op = .save key → key ∈ outs.map Prod.fst := by
    intro v hv key hk
    obtain ⟨x, hx⟩ := (written_iff k2 (exactInterp ρ s.leaves) key).1 (List.mem_filterMap.2 ⟨v, hv, by rw [hk]; rfl⟩)
    rw [← h3]
    exact (written_iff h1 (exactInterp ρ s.leaves) key).2 ⟨x, (k4 ℂ _ key x).1 hx⟩
  refine ⟨K, g', k1, k2, k3, k6, k5.typed, ?_, hkey, ?_, ?_, ?_⟩
  · intro v hv key hk hu hst
    obtain ⟨o, ho, rfl⟩ := List.mem_map.1 (hkey v hv key hk)
    have hf := hs.fits o ho
    cases ho2 : o.2 with
    | scalar e t => rw [ho2] at hf; rw [hf hu] at hst; cases hst
    | matrix r c es => rw [ho2] at hf; rw [hf.2 hu] at hst; cases hst
  · intro key hk
    rw [← h3] at hk
    obtain ⟨x, hx⟩ := (written_iff h1 (exactInterp ρ s.leaves) key).1 hk
    obtain ⟨v, hv, hop, _⟩ := (k4 ℂ _ key x).2 hx
    exact ⟨v, hv, hop⟩
  · intro key r c es ho hu v hv hop a ha
    obtain ⟨K', g'', j1, _, _, _, j5, _⟩ := Gen.optimise_shape cast opt.passes opt.binarize s.g (lowered_shape (hs.only ho) h.code) h1 h2
    have hgg : g'' = g' := by
      have e1 := k1 (max K K') (Nat.le_max_left _ _)
      have e2 := j1 (max K K') (Nat.le_max_right _ _)
      rw [e1] at e2
      cases e2
      rfl
    subst hgg
    obtain ⟨t, ht, hm⟩ := j5.typed.matrix v hv key hop hu (if_pos rfl) a ha
    rw [ht]
    simp only [beq_iff_eq] at hm
    rw [hm]
  · intro hn I hI o ho x hx
    exact (k4 ℂ I o.1 x).2 (h4 hn I hI o ho x hx).1

/-! ## Interpretations -/

/-- Matrices can be numbered, in two ways that have no number in common. -/
theorem exists_numbering : ∃ num : Bool → Nat → List ℂ → ℂ, ∀ b b' t t' l l', num b t l = num b' t' l' → b = b' ∧ t = t' ∧ l = l' := by
  obtain ⟨φ⟩ := Cardinal.eq.1 (Cardinal.mk_list_eq_mk ℂ)
  refine ⟨fun b t l => φ ((if b then 1 else 0) :: (t : ℂ) :: l), fun b b' t t' l l' h => ?_⟩
  have h := φ.injective h
  rw [List.cons.injEq, List.cons.injEq] at h
  obtain ⟨h1, h2, h3⟩ := h
  refine ⟨?_, by exact_mod_cast h2, h3⟩
  cases b <;> cases b' <;> simp at h1 ⊢

/-- The numbering of matrices, and the outputs that are wanted. -/
noncomputable def callOther (num : Nat → List ℂ → ℂ) (N : Naming) (wanted : String → Bool) : Op → List ℂ → ℂ
  | .construct t, l => num t l
  | .outputRequired key, _ => if wanted (N.output key).name then 1 else 0
  | _, _ => 0

variable {M : Machine ℂ} {S : Setting} {o : PyOptions} {ρ : Env F} {N : Naming} {args : List Argument} {input : String → Cell ℂ} {wanted : String → Bool}
  {leaves : List (Expr F)}

/-- The values of the leaves. -/
def LoadsFit (M : Machine ℂ) (S : Setting) (o : PyOptions) (ρ : Env F) (N : Naming) (args : List Argument) (input : String → Cell ℂ) (wanted : String → Bool)
    (leaves : List (Expr F)) (load : Nat → ℂ) : Prop :=
  (∀ k t, N.leaf k = some t → ∀ I, t.value S.T I (M.con S o) (Gen.Text.startVars S.T args input wanted) = some (load k)) ∧
    ∀ k e z, leaves[k]? = some e → eval ρ e = some z → load k = z

/-- An input argument at the start. -/
theorem find_start_input {T : Scoping} (hd : (Gen.Text.givenNames T args).Nodup) {a : Argument} (h : a ∈ args) (hi : a.direction = .input) :
    find (T.argVar a.name a.type.isMatrix) (Gen.Text.startVars T args input wanted) = some (input a.name) := by
  by_cases hT : T = .python false
  · subst hT
    refine Gen.Text.find_mem (Gen.Text.names_start_sublist.nodup hd) (List.mem_append_left _ (List.mem_map.2 ⟨a, List.mem_filter.2 ⟨h, by simpa using hi⟩, rfl⟩))
  · have := Gen.Text.find_start_out (input := input) (wanted := wanted) hd h hT
    unfold Gen.Text.outVar at this
    rw [this]
    unfold Gen.Text.argCell
    rw [hi]

theorem exists_loads (hl : LeavesFit M S o ρ N args leaves) (hnames : NamesFit S.T N args) (hp : Passed args input) (ha : Assigns ρ args input) :
    ∃ load, LoadsFit M S o ρ N args input wanted leaves load := by
  have key : ∀ k, ∃ x, (∀ t, N.leaf k = some t → ∀ I, t.value S.T I (M.con S o) (Gen.Text.startVars S.T args input wanted) = some x) ∧
      ∀ e z, leaves[k]? = some e → eval ρ e = some z → x = z := by
    intro k
    cases ht : N.leaf k with
    | none =>
      cases he : leaves[k]? with
      | none => exact ⟨0, by simp, by simp⟩
      | some e =>
        refine ⟨(eval ρ e).getD 0, by simp, fun e' z h1 h2 => ?_⟩
        cases h1
        rw [h2]
        rfl
    | some t =>
      obtain ⟨e, he, hte⟩ := hl.text k t ht
      have lit : (∀ n i p, e ≠ .argVar n i p) → (∀ I, t.value S.T I (M.con S o) (Gen.Text.startVars S.T args input wanted) = M.con S o t) →
          ∃ x, (∀ t', some t = some t' → ∀ I, t'.value S.T I (M.con S o) (Gen.Text.startVars S.T args input wanted) = some x) ∧
            ∀ e' z, leaves[k]? = some e' → eval ρ e' = some z → x = z := by
        intro h1 h2
        obtain ⟨x, hx, hz⟩ := hl.literal k t e ht he h1
        refine ⟨x, fun t' h I => ?_, fun e' z h3 h4 => ?_⟩
        · cases h
          rw [h2, hx]
        · rw [he] at h3
          cases h3
          exact (hz z h4).symm
      cases hte with
      | @scalar n p hm =>
        obtain ⟨x, hx⟩ := (hp _ hm rfl).1 _ rfl
        have hf := find_start_input (input := input) (wanted := wanted) hnames.1 hm rfl
        refine ⟨x, fun t' h I => ?_, fun e' z h3 h4 => ?_⟩
        · cases h
          change (find (S.T.argVar n false) _).bind Cell.number = _
          rw [show find (S.T.argVar n false) _ = _ from hf]
          simp only at hx
          rw [hx]
          rfl
        · rw [he] at h3
          cases h3
          have := (ha _ hm rfl).1 p rfl
          rw [show eval ρ (.argVar n 0 p) = ρ.leaf (.argVar n 0 p) from rfl, this] at h4
          unfold argElement at h4
          rw [hx] at h4
          simpa using h4
      | @element n r c i hm hi =>
        obtain ⟨l, hx, hlen⟩ := (hp _ hm rfl).2 r c rfl
        have hf := find_start_input (input := input) (wanted := wanted) hnames.1 hm rfl
        have hc : 0 < c := Nat.pos_of_ne_zero (by rintro rfl; simp at hi)
        have hi' : i < l.length := by omega
        refine ⟨l[i], fun t' h I => ?_, fun e' z h3 h4 => ?_⟩
        · cases h
          change (find (S.T.argVar n true) _).bind (Cell.element (i / c) (i % c)) = _
          rw [show find (S.T.argVar n true) _ = _ from hf]
          simp only at hx
          rw [hx]
          change (if i / c < r ∧ i % c < c then l[i / c * c + i % c]? else none) = _
          rw [if_pos ⟨(Nat.div_lt_iff_lt_mul hc).2 hi, Nat.mod_lt _ hc⟩, Nat.div_add_mod' i c]
          exact List.getElem?_eq_getElem hi'
        · rw [he] at h3
          cases h3
          have := (ha _ hm rfl).2 r c rfl i
          rw [show eval ρ (.argVar n i .floating) = ρ.leaf (.argVar n i .floating) from rfl, this] at h4
          unfold argElement at h4
          rw [hx] at h4
          change l[i]? = some z at h4
          rw [List.getElem?_eq_getElem hi'] at h4
          simpa using h4
      | pi => exact lit (by intro n i p h; cases h) (fun I => rfl)
      | euler => exact lit (by intro n i p h; cases h) (fun I => rfl)
      | bool => exact lit (by intro n i p h; cases h) (fun I => rfl)
      | flt => exact lit (by intro n i p h; cases h) (fun I => rfl)
      | rat => exact lit (by intro n i p h; cases h) (fun I => rfl)
  choose load h1 h2 using key
  exact ⟨load, h1, h2⟩

/-- The operations as the machine computes them. -/
noncomputable def callInterp (hE : Exact M) (load : Nat → ℂ) (num : Nat → List ℂ → ℂ) (N : Naming) (wanted : String → Bool) : Interp ℂ :=
  M.interp hE.int load (callOther num N wanted)

theorem call_agrees (hE : Exact M) {load : Nat → ℂ} {num : Nat → List ℂ → ℂ} (hload : LoadsFit M S o ρ N args input wanted leaves load) :
    Agrees (callInterp hE load num N wanted) ρ leaves where
  leaf := hload.2
  fn f zs z h := by rw [← hE.fn f zs z h]; cases f <;> rfl
  sqrt a z h := hE.sqrt a z h
  powf a b z h := hE.pow a b z h
  powi a n z h := hE.pow a n z h
  div a b h := hE.div a b h
  condTrue a b := by show (if M.truth 1 then a else b) = a; rw [hE.yes]; rfl
  condFalse a b := by show (if M.truth 0 then a else b) = b; rw [hE.no]; rfl
  rel op a b z h := by rw [← hE.cmp op a b z h]; cases op <;> rfl
  toFloat a := hE.float a

variable {outs : List (Nat × Output F)} {s : Low F} {g : Graph}

omit [DecidableEq F] [FnSem F] in
theorem Described.find (hd : Described info N args outs) {key : Nat} (h : key ∈ outs.map Prod.fst) (hu : info.usage key ≠ .returnValue) :
    ∃ o, (key, o) ∈ outs ∧ N.output key ∈ args ∧ (N.output key).direction = (if info.usage key = .optional then .optional else .output) ∧ o.HasType (N.output key).type := by
  obtain ⟨o, ho, rfl⟩ := List.mem_map.1 h
  exact ⟨o.2, ho, hd.output o ho hu⟩

theorem call_named (hE : Exact M) {load : Nat → ℂ} {num : Nat → List ℂ → ℂ} (hload : LoadsFit M S o ρ N args input wanted leaves load) (hnames : NamesFit S.T N args)
    (hd : Described info N args outs) (hf : Final info ρ s outs g) :
    Gen.Text.Named S.T N (callInterp hE load num N wanted) (M.con S o) M.truth args input wanted info.usage (Written g info.usage) where
  distinct := hnames.1
  noClash := hnames.2
  leaf k t h := hload.1 k t h _
  arg key hk := by
    obtain ⟨hu, v, hv, hop⟩ := hk
    obtain ⟨o, _, h1, h2, _⟩ := hd.find (hf.saved v hv key hop) hu
    exact ⟨h1, h2⟩
  retKey key h hk := hk.1 h
  own key key' hk hk' e := by
    obtain ⟨hu, v, hv, hop⟩ := hk
    obtain ⟨hu', v', hv', hop'⟩ := hk'
    obtain ⟨o, ho, rfl⟩ := List.mem_map.1 (hf.saved v hv key hop)
    obtain ⟨o', ho', rfl⟩ := List.mem_map.1 (hf.saved v' hv' key' hop')
    exact hd.own o ho o' ho' hu hu' e
  optional key _ _ := by
    show _ = M.truth (if wanted (N.output key).name then 1 else 0)
    cases wanted (N.output key).name
    · exact hE.no.symm
    · exact hE.yes.symm

theorem call_shaped (hd : Described info N args outs) (hf : Final info ρ s outs g) : Shaped N info.usage g := by
  intro v hv key hop hu r c ht a ha
  obtain ⟨o, ho, _, _, h3⟩ := hd.find (hf.saved v hv key hop) hu
  cases o with
  | scalar e t =>
    change (N.output key).type = .scalar (primText t) at h3
    rw [h3] at ht
    cases ht
  | matrix r' c' es =>
    change (N.output key).type = .matrix r' c' at h3
    rw [h3] at ht
    cases ht
    exact ⟨_, hf.matrix key r c es ho hu v hv hop a ha, (hd.shape _ _ _).2 rfl⟩

omit [DecidableEq F] [FnSem F] in
theorem call_types (hd : Described info N args outs) : ∀ a ∈ args, a.direction ≠ .input → ∀ n, a.type ≠ .custom n := by
  intro a ha hi n hn
  obtain ⟨o, ho, hu, rfl⟩ := hd.all a ha hi
  have h3 := (hd.output o ho hu).2.2
  cases ho2 : o.2 with
  | scalar e t =>
    rw [ho2] at h3
    change (N.output o.1).type = .scalar (primText t) at h3
    rw [h3] at hn
    cases hn
  | matrix r' c' es =>
    rw [ho2] at h3
    change (N.output o.1).type = .matrix r' c' at h3
    rw [h3] at hn
    cases hn

theorem call_all (hd : Described info N args outs) (hf : Final info ρ s outs g) : ∀ a ∈ args, a.direction ≠ .input → ∃ key, Written g info.usage key ∧ N.output key = a := by
  intro a ha hi
  obtain ⟨o, ho, hu, rfl⟩ := hd.all a ha hi
  exact ⟨o.1, ⟨hu, hf.saves o.1 (List.mem_map_of_mem ho)⟩, rfl⟩

/-! ## Two interpretations -/

section two
variable (hE : Exact M) {load : Nat → ℂ} {num : Bool → Nat → List ℂ → ℂ} (hnum : ∀ b b' t t' l l', num b t l = num b' t' l' → b = b' ∧ t = t' ∧ l = l')
include hnum

/-- The value of an output in one of the interpretations. -/
theorem cell_value {out : Output F} {c : Cell ℂ} (hc : CellOf ρ out c) : ∃ x : Bool → ℂ, (∀ b, OutputValue (callInterp hE load (num b) N wanted) ρ out (x b)) ∧
    (∀ (hshape : ∀ t r c, N.shape t = some (r, c) ↔ t = matrixCode r c) d, (∀ b, Gen.Text.Holds N (callInterp hE load (num b) N wanted) (x b) d) → d = c) ∧
    ∀ (hshape : ∀ t r c, N.shape t = some (r, c) ↔ t = matrixCode r c) d, (∀ b, Slot.Holds N (callInterp hE load (num b) N wanted) (x b) d) → SlotIs c d := by
  cases out with
  | scalar e t =>
    obtain ⟨x, h1, h2, rfl⟩ := hc
    refine ⟨fun _ => x, fun b => ⟨h1, h2⟩, fun hshape d hh => ?_, fun hshape d hh => ?_⟩
    · cases d with
      | num y => rw [show y = x from hh true]
      | mat r k l =>
        obtain ⟨t1, _, e1⟩ := hh false
        obtain ⟨t2, _, e2⟩ := hh true
        have := hnum _ _ _ _ _ _ (show num false t1 l = num true t2 l from e1.symm.trans e2)
        exact absurd this.1 (by decide)
      | unset => exact absurd (hh true) id
      | none => exact absurd (hh true) id
      | switch _ => exact absurd (hh true) id
    · cases d with
      | num y => exact hh true
      | mat r k l =>
        obtain ⟨t1, l1, _, _, e1⟩ := hh false
        obtain ⟨t2, l2, _, _, e2⟩ := hh true
        have := hnum _ _ _ _ _ _ (show num false t1 l1 = num true t2 l2 from e1.symm.trans e2)
        exact absurd this.1 (by decide)
  | matrix r k es =>
    obtain ⟨zs, h1, rfl⟩ := hc
    refine ⟨fun b => num b (matrixCode r k) zs, fun b => ⟨zs, h1, rfl⟩, fun hshape d hh => ?_, fun hshape d hh => ?_⟩
    · cases d with
      | num y =>
        have := hnum _ _ _ _ _ _ (show num false (matrixCode r k) zs = num true (matrixCode r k) zs from (hh false).symm.trans (hh true))
        exact absurd this.1 (by decide)
      | mat r' k' l =>
        obtain ⟨t1, e0, e1⟩ := hh false
        obtain ⟨_, e2, e3⟩ := hnum _ _ _ _ _ _ (show num false (matrixCode r k) zs = num false t1 l from e1)
        subst e2 e3
        rw [(hshape _ _ _).2 rfl] at e0
        cases e0
        rfl
      | unset => exact absurd (hh true) id
      | none => exact absurd (hh true) id
      | switch _ => exact absurd (hh true) id
    · cases d with
      | num y =>
        have h2 : some (num false (matrixCode r k) zs) = some (num true (matrixCode r k) zs) := (show y = _ from hh false).symm.trans (hh true)
        have := hnum _ _ _ _ _ _ (Option.some.inj h2)
        exact absurd this.1 (by decide)
      | mat r' k' l =>
        obtain ⟨t1, l1, e0, el, e1⟩ := hh false
        obtain ⟨_, e2, e3⟩ := hnum _ _ _ _ _ _ (show num false (matrixCode r k) zs = num false t1 l1 from e1)
        subst e2 e3
        rw [(hshape _ _ _).2 rfl] at e0
        cases e0
        exact ⟨rfl, rfl, el⟩

end two

/-- A value that is returned for an output is returned in one place. -/
theorem returnedAs_unique {T : Scoping} (hd : (Gen.Text.givenNames T args).Nodup) {n : String} {e : State ℂ} {P Q : Cell ℂ → Prop} (h : ReturnedAs T args n e P)
    (h' : ReturnedAs T args n e Q) : ReturnedAs T args n e fun c => P c ∧ Q c := by
  obtain ⟨b, cs, i, c, h1, h2, h3, h4, h5⟩ := h
  obtain ⟨b', cs', i', c', h1', h2', h3', h4', h5'⟩ := h'
  rw [h1] at h1'
  obtain ⟨_, rfl⟩ := List.append_inj' (Option.some.inj h1') (by omega)
  have hnd : (returnedOutputs T args).Nodup := by
    unfold returnedOutputs
    split
    · rename_i hT
      subst hT
      exact List.Sublist.nodup (List.Sublist.map _ List.filter_sublist) (List.nodup_append.1 hd).1
    · exact List.nodup_nil
  have hi : i = i' := by
    obtain ⟨hi1, hi2⟩ := List.getElem?_eq_some_iff.1 h3
    obtain ⟨hi1', hi2'⟩ := List.getElem?_eq_some_iff.1 h3'
    exact (List.Nodup.getElem_inj_iff hnd).1 (hi2.trans hi2'.symm)
  subst hi
  rw [h4] at h4'
  cases h4'
  exact ⟨b, cs, i, c, h1, h2, h3, h4, h5, h5'⟩

/-- The caller gets all outputs, if it receives them in every interpretation of the matrix constructors. -/
theorem gets_all {T : Scoping} (hE : Exact M) {load : Nat → ℂ} {num : Bool → Nat → List ℂ → ℂ} (hnum : ∀ b b' t t' l l', num b t l = num b' t' l' → b = b' ∧ t = t' ∧ l = l')
    (hT : T = S.T) (hload : LoadsFit M S o ρ N args input wanted s.leaves load) (hnames : NamesFit T N args) (hd : Described info N args outs) (hf : Final info ρ s outs g)
    (hnotes : NotesOk ρ s.notes) {e : State ℂ}
    (h : ∀ b key x, Writes (callInterp hE load (num b) N wanted) g key x → Gen.Text.Received T N (callInterp hE load (num b) N wanted) args info.usage wanted key x e) :
    GetsAll T N info args wanted ρ outs e := by
  intro out ho
  refine ⟨fun hw c hc => ?_, fun hu hw hT' => ?_⟩
  · obtain ⟨x, hx, hcell, hslot⟩ := cell_value (N := N) (wanted := wanted) (load := load) hE hnum hc
    have hr : ∀ b, Gen.Text.Received T N (callInterp hE load (num b) N wanted) args info.usage wanted out.1 (x b) e := fun b =>
      h b out.1 (x b) (hf.writes hnotes _ (call_agrees hE hload) out ho (x b) (hx b))
    have outputIs : (∀ b, Gen.Text.OutputIs T N (callInterp hE load (num b) N wanted) args (N.output out.1).name (x b) e) →
        if T = .python false then ReturnedAs T args (N.output out.1).name e (· = c) else ∃ slot, find (N.output out.1).name e.heap = some slot ∧ SlotIs c slot := by
      intro hr
      unfold Gen.Text.OutputIs at hr
      by_cases hT' : T = .python false
      · simp only [if_pos hT'] at hr ⊢
        obtain ⟨b, cs, i, d, h1, h2, h3, h4, h5, h6⟩ := returnedAs_unique hnames.1 (hr false) (hr true)
        exact ⟨b, cs, i, d, h1, h2, h3, h4, hcell hd.shape d fun b => by cases b <;> assumption⟩
      · simp only [if_neg hT'] at hr ⊢
        obtain ⟨d, h1, h2⟩ := hr false
        obtain ⟨d', h1', h2'⟩ := hr true
        rw [h1] at h1'
        cases h1'
        exact ⟨d, h1, hslot hd.shape d fun b => by cases b <;> assumption⟩
    unfold Obtains
    unfold Gen.Text.Received at hr
    cases hu : info.usage out.1 with
    | returnValue =>
      simp only [hu] at hr
      rw [if_pos rfl]
      obtain ⟨d, cs, h1, h2, h3⟩ := hr false
      obtain ⟨d', cs', h1', h2', h3'⟩ := hr true
      rw [h1] at h1'
      cases h1'
      refine ⟨cs, ?_, h2⟩
      rw [h1, hcell hd.shape d fun b => by cases b <;> assumption]
    | output =>
      simp only [hu] at hr
      rw [if_neg (by simp)]
      exact outputIs hr
    | optional =>
      simp only [hu, hw hu, if_true] at hr
      rw [if_neg (by simp)]
      exact outputIs hr
  · obtain ⟨v, hv, hop⟩ := hf.saves out.1 (List.mem_map_of_mem ho)
    have hwr : ∃ x, Writes (callInterp hE load (num true) N wanted) g out.1 x := by
      obtain ⟨a, ha'⟩ := List.length_eq_one_iff.1 (hf.wf.unary v hv (.inr (.inr (.inr ⟨out.1, hop⟩))))
      exact ⟨_, v, hv, hop, by rw [ha']; rfl⟩
    obtain ⟨x, hx⟩ := hwr
    have hr := h true out.1 x hx
    unfold Gen.Text.Received at hr
    simp only [hu] at hr
    rw [if_neg (by simp [hw])] at hr
    exact hr hT'

end Wf.Sym
