import Verif.Sym.FromIrDefs
import Verif.Sym.CallLemmas
import Verif.Sym.ValueProps
import Verif.Gen.FactorizeProps

/-! # Property C60: expressions from the optimised program -/

namespace Wf.Sym
open Complex
open Wf.Gen (Prim Graph Op Interp Partial Writes)

variable {F : Type} [DecidableEq F] [FnSem F]

/-- `cse_function_description` gives `res` for the outputs: they are lowered to `s`, the program is optimised to `g` (C51), and expressions are made
from that. The power rules used are laws: in lowering under the assignment `ρ`, in making the expressions under `ρ'`. -/
structure LawfulCse (ρ ρ' : Env F) (nK m n : Nat) (cast : Graph → Nat → Option Nat) (passes : Nat) (binarize : Bool) (ty : Nat → Prim) (inter : Bool)
    (outs : List (Nat × Output F)) (s : Low F) (g : Graph) (res : RebuiltOutputs F) : Prop where
  lowered : LawfulLowering ρ nK m n outs s
  optimised : ∃ N, ∀ fuel, N ≤ fuel → s.g.applySimplifications cast passes binarize fuel = .ok g
  rebuilt : LawfulRunOn (· = ρ') nK (fun _ K => rebuildTree K m ty s.leaves inter g) res

section
variable {ρ ρ' : Env F} {nK m n : Nat} {cast : Graph → Nat → Option Nat} {passes : Nat} {binarize : Bool} {ty : Nat → Prim} {inter : Bool}
  {outs : List (Nat × Output F)} {s : Low F} {g : Graph} {res : RebuiltOutputs F}

/-- This is what the whole call gives. -/
theorem LawfulCse.code (h : LawfulCse ρ ρ' nK m n cast passes binarize ty inter outs s g res) :
    ∃ N, ∀ fuel, N ≤ fuel → cseFunction (ctors codeLic nK) m n cast passes binarize fuel ty inter outs = .ok res := by
  obtain ⟨N, hN⟩ := h.optimised
  refine ⟨N, fun fuel hf => ?_⟩
  have h1 := h.lowered.code
  have h2 := h.rebuilt.code
  unfold cseFunction andThen
  simp only [h1, hN fuel hf]
  exact h2

/-- The leaves are leaves of the interface without the intermediate variables. -/
theorem cse_leaves (h : lowerFunction (ctors codeLic nK) m n Low.empty outs = .ok s) (hg : ∀ o ∈ outs, ∀ e ∈ o.2.exprs, Plain e ∧ Good e) {N : List Nat}
    (hN : ∀ v ∈ N, ∀ o ∈ outs, ∀ e ∈ o.2.exprs, Avoids (irVar v) e) : ∀ e ∈ s.leaves, Good e ∧ Over (NameNode N []) e ∧ e.args = [] := by
  have hsound := ctors_sound codeLic ⟨fun _ => none, fun _ _ => none, fun _ _ => none⟩ nK (F := F)
  have hc := ctors_closed (name_basic N []) codeLic nK (F := F)
  intro e he
  have := lowerFunction_leaves (lowerClosed codeLic nK (name_basic N [])) (m := m) (n := n) (fun e r he hr => ?_) (s := Low.empty) (s' := s) (outs := outs)
    (fun o ho e he => ⟨(hg o ho e he).2, name_of_avoids (hg o ho e he).1 fun v hv => hN v hv o ho e he⟩) (fun e he => by cases he) h e he
  · exact ⟨this.1.1, this.1.2, this.2⟩
  · exact ⟨(sortExpr_ok hsound m n e r (over_mono (fun _ _ h => h.1) he.2) he.1 hr).1,
      sortExpr_over (name_basic N []) (fun _ _ h => h.1) (fun ts us _ => ⟨rfl, fun w _ _ hw => by cases hw⟩) hc m n e r he.2 hr⟩
end

/-- The names of the intermediate variables. -/
theorem rebuilt_names {K : Ctors F} {m : Nat} {ty : Nat → Prim} {leaves : List (Expr F)} {inter : Bool} {g : Graph} {res : RebuiltOutputs F}
    (h : rebuildTree K m ty leaves inter g = .ok res) : ∃ N : List Nat, res.intermediate.map Prod.fst = N.map irVar := by
  obtain ⟨fin, hf, h⟩ := andThen_ok h
  obtain ⟨l, hi, h⟩ := andThen_ok h
  have hres := Except.ok.inj h
  exact ⟨fin.vars, by rw [← hres]; exact intermediate_names hi⟩

/-- **C60** (definitions). If no output mentions one of the intermediate variables, these are distinct variables named after values of the program, and the
definition of each mentions no intermediate variable but earlier ones. Without `use_intermediate_values` there are none. -/
theorem C60_definitions (ρ ρ' : Env F) (nK m n : Nat) (cast : Graph → Nat → Option Nat) (passes : Nat) (binarize : Bool) (ty : Nat → Prim) (inter : Bool)
    (outs : List (Nat × Output F)) (s : Low F) (g : Graph) (res : RebuiltOutputs F) (hg : ∀ o ∈ outs, ∀ e ∈ o.2.exprs, Plain e ∧ Good e)
    (h : LawfulCse ρ ρ' nK m n cast passes binarize ty inter outs s g res) (hf : ∀ o ∈ outs, ∀ e ∈ o.2.exprs, ∀ p ∈ res.intermediate, Avoids p.1 e) :
    (inter = false → res.intermediate = []) ∧ (res.intermediate.map Prod.fst).Nodup ∧
    ∀ (i : Nat) p, res.intermediate[i]? = some p → (∃ v ∈ g.ops, p.1 = irVar v) ∧ Plain p.2 ∧ ∀ (j : Nat) q, i ≤ j → res.intermediate[j]? = some q → Avoids q.1 p.2 := by
  obtain ⟨N, hN⟩ := rebuilt_names h.rebuilt.code
  have hm : ∀ v ∈ N, ∃ p ∈ res.intermediate, p.1 = irVar v := fun v hv => by
    have : irVar v ∈ res.intermediate.map Prod.fst := by rw [hN]; exact List.mem_map_of_mem hv
    obtain ⟨p, hp, he⟩ := List.mem_map.1 this
    exact ⟨p, hp, he⟩
  have hl := cse_leaves h.lowered.code hg (N := N) fun v hv o ho e he => by
    obtain ⟨p, hp, hpv⟩ := hm v hv
    rw [← hpv]; exact hf o ho e he p hp
  obtain ⟨h1, h2, h3, _⟩ := rebuildTree_defs h.rebuilt.code fun e he => ⟨over_mono (fun _ _ h => h.1) (hl e he).2.1, fun p hp => by
    have : p.1 ∈ N.map irVar := by rw [← hN]; exact List.mem_map_of_mem hp
    obtain ⟨v, hv, hpv⟩ := List.mem_map.1 this
    rw [← hpv]
    exact avoids_of_name (hl e he).2.1 hv (by simp)⟩
  exact ⟨h1, h2, h3⟩

/-- **C60** (sequence). Giving the intermediate variables the values of their definitions in order gives an assignment in which every variable has the value
of its definition and the other variables keep their values. -/
theorem C60_sequential (ρ ρ' : Env F) (nK m n : Nat) (cast : Graph → Nat → Option Nat) (passes : Nat) (binarize : Bool) (ty : Nat → Prim) (inter : Bool)
    (outs : List (Nat × Output F)) (s : Low F) (g : Graph) (res : RebuiltOutputs F) (hg : ∀ o ∈ outs, ∀ e ∈ o.2.exprs, Plain e ∧ Good e)
    (h : LawfulCse ρ ρ' nK m n cast passes binarize ty inter outs s g res) (hf : ∀ o ∈ outs, ∀ e ∈ o.2.exprs, ∀ p ∈ res.intermediate, Avoids p.1 e) :
    (∀ p ∈ res.intermediate, eval (ρ.bindSeq res.intermediate.reverse) p.1 = eval (ρ.bindSeq res.intermediate.reverse) p.2) ∧
    (ρ.bindSeq res.intermediate.reverse).symfn = ρ.symfn ∧
    ∀ h, (∀ p ∈ res.intermediate, Expr.node h [] ≠ p.1) → (ρ.bindSeq res.intermediate.reverse).leaf h = ρ.leaf h := by
  obtain ⟨_, h2, h3⟩ := C60_definitions ρ ρ' nK m n cast passes binarize ty inter outs s g res hg h hf
  obtain ⟨k1, k2⟩ := bind_defs ρ res.intermediate h2 fun i p hp => by
    obtain ⟨⟨v, _, hv⟩, q2, q3⟩ := h3 i p hp
    exact ⟨⟨v, hv⟩, q2, q3⟩
  exact ⟨k1, bindSeq_symfn ρ _, k2⟩

/-- The output that is returned has the values that the output of the function has. -/
def HasValues (ρ ρ' : Env F) : Output F → Rebuilt F → Prop
  | .scalar e t, r => ∀ z, eval ρ e = some z → HasTy t z → ∃ e', r = .expr e' ∧ eval ρ' e' = some z
  | .matrix a b es, r => ∀ zs, List.Forall₂ (fun e z => eval ρ e = some z) es zs →
      ∃ es', r = .matrix a b es' ∧ List.Forall₂ (fun e z => eval ρ' e = some z) es' zs

theorem writes_some {V : Type} [Gen.Arith V] (I : Interp V) {g : Graph} (hw : Gen.WF g) {key : Nat} (h : key ∈ written g) : ∃ x, Writes I g key x := by
  unfold written at h
  obtain ⟨v, hv, hk⟩ := List.mem_filterMap.1 h
  have hop : (g.node v).op = .save key := by
    unfold savedKey at hk
    split at hk
    · rename_i k hop
      rw [hop, Option.some.inj hk]
    · cases hk
  have hl := hw.unary v hv (.inr (.inr (.inr ⟨key, hop⟩)))
  obtain ⟨a, ha⟩ := List.length_eq_one_iff.1 hl
  exact ⟨Gen.run I g a, v, hv, hop, by rw [ha]; rfl⟩

/-- **C60** (values). In every assignment that gives the intermediate variables the values of their definitions, and agrees with `ρ` on the other variables,
each output that is returned has the value that the output of the function has under `ρ`; a matrix has its dimensions and the values of its
elements. -/
theorem C60_values (ρ ρ' : Env F) (hT : TypedEnv ρ) (nK m n : Nat) (cast : Graph → Nat → Option Nat) (passes : Nat) (binarize : Bool) (ty : Nat → Prim) (inter : Bool)
    (outs : List (Nat × Output F)) (s : Low F) (g : Graph) (res : RebuiltOutputs F) (hg : ∀ o ∈ outs, ∀ e ∈ o.2.exprs, Plain e ∧ Good e)
    (hd : (outs.map Prod.fst).Nodup) (h : LawfulCse ρ ρ' nK m n cast passes binarize ty inter outs s g res) (hn : NotesOk ρ s.notes)
    (hf : ∀ o ∈ outs, ∀ e ∈ o.2.exprs, ∀ p ∈ res.intermediate, Avoids p.1 e)
    (hs : ρ'.symfn = ρ.symfn) (hvars : ∀ h, (∀ p ∈ res.intermediate, Expr.node h [] ≠ p.1) → ρ'.leaf h = ρ.leaf h)
    (hdef : ∀ p ∈ res.intermediate, eval ρ' p.1 = eval ρ' p.2) :
    ∀ o ∈ outs, ∃ r, entry o.1 res.outputs = some r ∧ HasValues ρ ρ' o.2 r := by
  obtain ⟨lic, hlic, hrun⟩ := h.rebuilt.lawful
  have hlic : lic.TrueAt ρ' := hlic ρ' rfl
  obtain ⟨hw, hio, _, hwr, hval⟩ := lawful_ok h.lowered hT hg
  -- the optimised program
  obtain ⟨hw', hio', hsame⟩ : Gen.WF g ∧ Gen.InOrder g ∧ Gen.SameOutputs s.g g := by
    obtain ⟨N, g', k1, k2, k3, k4⟩ := Gen.C51_optimise cast passes binarize s.g hw hio
    obtain ⟨N', hN'⟩ := h.optimised
    have e1 := k1 (max N N') (le_max_left _ _)
    rw [hN' (max N N') (le_max_right _ _)] at e1
    cases e1
    exact ⟨k2, k3, k4⟩
  -- the leaves
  obtain ⟨N, hN⟩ := rebuilt_names h.rebuilt.code
  have hl := cse_leaves h.lowered.code hg (N := N) fun v hv o ho e he => by
    have : irVar v ∈ res.intermediate.map Prod.fst := by rw [hN]; exact List.mem_map_of_mem hv
    obtain ⟨p, hp, hpv⟩ := List.mem_map.1 this
    rw [← hpv]; exact hf o ho e he p hp
  have hleaf : ∀ e ∈ s.leaves, FnOk lic ρ' e (eval ρ e) := by
    intro e he
    obtain ⟨h1, h2, h3⟩ := hl e he
    refine ⟨h1, fun _ z hz => ?_⟩
    rw [← hz]
    obtain ⟨hd, as⟩ := e
    have has : as = [] := h3
    subst has
    obtain ⟨h2, _⟩ := over_node.1 h2
    refine eval_congr hs _ (over_node.2 ⟨⟨h2.1, fun _ _ => hvars hd fun p hp => ?_⟩, by simp⟩)
    have : p.1 ∈ N.map irVar := by rw [← hN]; exact List.mem_map_of_mem hp
    obtain ⟨v, hv, hpv⟩ := List.mem_map.1 this
    rw [← hpv]
    exact h2.2 v hv (by simp)
  have hK := ctors_sound lic ρ' nK
  intro o ho
  -- whatever the program writes is what is returned
  have key : ∀ num : Nat → List ℂ → ℂ, ∀ x, Writes (strictInterp num ρ s.leaves) g o.1 x →
      ∃ r, entry o.1 res.outputs = some r ∧ Stands lic ρ' num x r := by
    intro num x hx
    refine rebuildTree_ok hK hleaf hw' hio' hrun hdef num o.1 hx fun y hy => ?_
    exact writes_unique (hwr ▸ hd) hw.nodup ((hsame (Partial ℂ) _ o.1 y).1 hy) ((hsame (Partial ℂ) _ o.1 x).1 hx)
  have key' : ∀ num : Nat → List ℂ → ℂ, ∀ x, OutputValueIn Partial.num (strictInterp num ρ s.leaves) ρ o.2 x →
      ∃ r, entry o.1 res.outputs = some r ∧ Stands lic ρ' num x r := fun num x hx =>
    key num x ((hsame (Partial ℂ) _ o.1 x).2 (hval hn _ (strict_agrees num ρ s.leaves) o ho x hx))
  have hmem : o.1 ∈ written s.g := hwr ▸ List.mem_map_of_mem ho
  obtain ⟨r, hr⟩ : ∃ r, entry o.1 res.outputs = some r := by
    obtain ⟨x, hx⟩ := writes_some (strictInterp (fun _ _ => 0) ρ s.leaves) hw hmem
    obtain ⟨r, hr, _⟩ := key _ x ((hsame (Partial ℂ) _ o.1 x).2 hx)
    exact ⟨r, hr⟩
  refine ⟨r, hr, ?_⟩
  have key'' : ∀ num : Nat → List ℂ → ℂ, ∀ x, OutputValueIn Partial.num (strictInterp num ρ s.leaves) ρ o.2 x → Stands lic ρ' num x r := by
    intro num x hx
    obtain ⟨r', hr', hs⟩ := key' num x hx
    rw [hr] at hr'
    cases hr'
    exact hs
  obtain ⟨num, hnum⟩ := exists_numbering
  obtain ⟨k, out⟩ := o
  cases out with
  | scalar e t =>
    intro z hz ht
    have hst : ∀ b, Stands lic ρ' (num b) (some z) r := fun b => key'' (num b) (some z) ⟨z, hz, ht, rfl⟩
    cases r with
    | expr e' => exact ⟨e', rfl, (hst true).2 hlic z rfl⟩
    | matrix a b es =>
      exfalso
      obtain ⟨zs, _, h1⟩ := hst true hlic z rfl
      obtain ⟨zs', _, h2⟩ := hst false hlic z rfl
      have := (hnum _ _ _ _ _ _ (h1.symm.trans h2)).1
      cases this
  | matrix a b es =>
    intro zs hzs
    have hst : ∀ q, Stands lic ρ' (num q) (some (num q (matrixCode a b) zs)) r := fun q =>
      key'' (num q) _ ⟨zs, hzs, by
        show some _ = (Partial.all (zs.map Partial.num)).map (num q (matrixCode a b))
        rw [Partial.all_num]; rfl⟩
    cases r with
    | expr e' =>
      exfalso
      have h1 := (hst true).2 hlic _ rfl
      have h2 := (hst false).2 hlic _ rfl
      rw [h1] at h2
      have := (hnum _ _ _ _ _ _ (Option.some.inj h2)).1
      cases this
    | matrix a' b' es' =>
      obtain ⟨zs', h1, h2⟩ := hst true hlic _ rfl
      obtain ⟨_, h3, h4⟩ := hnum _ _ _ _ _ _ h2
      subst h4
      have := Nat.pair_eq_pair.1 h3
      obtain ⟨rfl, rfl⟩ := this
      exact ⟨es', rfl, h1⟩

/-- **C34** with **C51** (definedness). In arithmetic in which an operation is undefined where its name has no value (a division by zero, a logarithm of zero),
and a sum, product or function of something undefined is undefined, the optimised program gives every output that has a value this value: no operation
that contributes to such an output is undefined. -/
theorem C34_defined (ρ : Env F) (hT : TypedEnv ρ) (nK m n : Nat) (outs : List (Nat × Output F)) (hg : ∀ o ∈ outs, ∀ e ∈ o.2.exprs, Plain e ∧ Good e)
    (s : Low F) (h : LawfulLowering ρ nK m n outs s) (hd : (outs.map Prod.fst).Nodup) (hn : NotesOk ρ s.notes) (num : Nat → List ℂ → ℂ)
    (passes : Nat) (binarize : Bool) (cast : Gen.Graph → Nat → Option Nat) :
    ∃ N g', (∀ fuel, N ≤ fuel → s.g.applySimplifications cast passes binarize fuel = .ok g') ∧
    ∀ o ∈ outs, (∀ e t z, o.2 = .scalar e t → eval ρ e = some z → HasTy t z →
        ∀ x, Writes (strictInterp num ρ s.leaves) g' o.1 x ↔ x = Partial.num z) ∧
      ∀ a b es zs, o.2 = .matrix a b es → List.Forall₂ (fun e z => eval ρ e = some z) es zs →
        ∀ x, Writes (strictInterp num ρ s.leaves) g' o.1 x ↔ x = Partial.num (num (matrixCode a b) zs) := by
  obtain ⟨hw, hio, _, hwr, hval⟩ := lawful_ok h hT hg
  obtain ⟨N, g', k1, _, _, k2⟩ := Gen.C51_optimise cast passes binarize s.g hw hio
  have key : ∀ o ∈ outs, ∀ y, OutputValueIn Partial.num (strictInterp num ρ s.leaves) ρ o.2 y → ∀ x, Writes (strictInterp num ρ s.leaves) g' o.1 x ↔ x = y := by
    intro o ho y hy x
    have h1 := hval hn _ (strict_agrees num ρ s.leaves) o ho y hy
    rw [k2 (Partial ℂ)]
    exact ⟨fun hx => writes_unique (hwr ▸ hd) hw.nodup hx h1, fun hx => hx ▸ h1⟩
  refine ⟨N, g', k1, fun o ho => ⟨fun e t z heq hz ht => key o ho _ ?_, fun a b es zs heq hz => key o ho _ ?_⟩⟩
  · rw [heq]; exact ⟨z, hz, ht, rfl⟩
  · rw [heq]
    exact ⟨zs, hz, by
      show some _ = (Partial.all (zs.map Partial.num)).map (num (matrixCode a b))
      rw [Partial.all_num]; rfl⟩

/-! ## Where the code falls short -/

/-- The intermediate variables are called `v0`, `v1`, … even if the function has variables with these names, which are then confused: the function with
the outputs `x` and `v0` gives the outputs `x` and `v0` with `v0 = x` and `v2 = v0`. In every assignment that gives the variables the values of their
definitions the second output has the value of `x`. -/
theorem C60_capture :
    let v0 : Expr ℝ := .var "v0" .unknown
    let outs : List (Nat × Output ℝ) := [(0, .scalar vx .floating), (1, .scalar v0 .floating)]
    ∃ res, cseFunction (ctors codeLic 8) 3 8 (fun _ _ => none) 2 false 1 (fun _ => .floating) true outs = .ok res ∧
      entry 1 res.outputs = some (.expr v0) ∧ res.intermediate = [(irVar 0, vx), (irVar 2, v0)] ∧
      ∀ ρ' : Env ℝ, (∀ p ∈ res.intermediate, eval ρ' p.1 = eval ρ' p.2) → eval ρ' v0 = eval ρ' vx := by
  refine ⟨⟨[(0, .expr vx), (1, .expr (.var "v0" .unknown))], [(irVar 0, vx), (irVar 2, .var "v0" .unknown)]⟩, by decide +kernel, by decide +kernel, rfl, ?_⟩
  intro ρ' h
  exact h (irVar 0, vx) (by simp)

/-- A function that uses a Boolean argument as a number: the cast of the argument to an integer asks for a Boolean expression, but the argument is a
scalar expression. -/
theorem C60_boolean_argument :
    let b : Expr ℝ := .argVar "b" 0 .boolean
    ((lowerFunction (ctors codeLic 8) 3 8 Low.empty [(0, .scalar (.add [b, .int 1]) .integral)]).map fun s =>
      (s.listing.ops.map fun o => (o.2.1.op, o.2.1.args, o.2.2))) =
      .ok [(.load (.int 1), [], .integral), (.load (.other 0), [], .boolean), (.cast 1, [1], .integral), (.add, [0, 2], .integral), (.save 0, [3], .floating)] ∧
    cseFunction (ctors codeLic 8) 3 8 (fun _ _ => none) 2 false 1 (fun v => if v = 1 then .boolean else .integral) true
      [(0, .scalar (.add [b, .int 1]) .integral)] = .error .assertion := by
  exact ⟨by decide +kernel, by decide +kernel⟩

/-! ## The hypotheses can be met -/

/-- `x * y + cos(x * y)` and the row `(x, y ** (1 / 2))`. -/
noncomputable def cseExample : List (Nat × Output ℝ) :=
  [(0, .scalar (.add [.fn .cos [.mul [vx, vy]], .mul [vx, vy]]) .floating), (1, .matrix 1 2 [vx, .pow vy (.rat ⟨1, 2⟩)])]

/-- What the example gives. -/
noncomputable def cseResult : RebuiltOutputs ℝ :=
  ⟨[(0, .expr (.add [irVar 3, irVar 2])), (1, .matrix 1 2 [irVar 0, irVar 6])],
   [(irVar 0, vx), (irVar 1, vy), (irVar 2, .mul [irVar 1, irVar 0]), (irVar 3, .fn .cos [irVar 2]), (irVar 4, .add [irVar 3, irVar 2]),
    (irVar 6, .pow (irVar 1) (.rat ⟨1, 2⟩))]⟩

/-- A call that gives the same without any power rule that needs a licence is lawful under all assignments. -/
theorem cse_of_noLic {nK m n : Nat} {cast : Graph → Nat → Option Nat} {passes fuel : Nat} {ty : Nat → Prim} {inter : Bool} {outs : List (Nat × Output F)}
    {res : RebuiltOutputs F} {ns : List (Note F)}
    (h1 : (lowerFunction (ctors codeLic nK) m n Low.empty outs).map Low.listing = (lowerFunction (ctors noLic nK) m n Low.empty outs).map Low.listing)
    (h2 : (lowerFunction (ctors codeLic nK) m n Low.empty outs).map (fun s => s.notes) = .ok ns)
    (h3 : cseFunction (ctors codeLic nK) m n cast passes false fuel ty inter outs = .ok res)
    (h4 : (andThen (lowerFunction (ctors codeLic nK) m n Low.empty outs) fun s => andThen (s.g.applySimplifications cast passes false fuel) fun g =>
      rebuildTree (ctors noLic nK) m ty s.leaves inter g) = .ok res) (ρ ρ' : Env F) :
    ∃ s g, LawfulCse ρ ρ' nK m n cast passes false ty inter outs s g res ∧ s.notes = ns := by
  obtain ⟨s, hs, hn⟩ := lawful_of_noLic h1 h2 ρ
  obtain ⟨s', e1, h3⟩ := andThen_ok h3
  obtain ⟨s'', e2, h4⟩ := andThen_ok h4
  have a1 := e1.symm.trans hs.code
  have a2 := e2.symm.trans hs.code
  cases a1; cases a2
  obtain ⟨g, e3, h3⟩ := andThen_ok h3
  obtain ⟨g', e4, h4⟩ := andThen_ok h4
  have a3 := e4.symm.trans e3
  cases a3
  exact ⟨s, g, ⟨hs, ⟨0, fun _ _ => e3⟩, ⟨h3, noLic, fun _ _ => noLic_true _, h4⟩⟩, hn⟩

theorem cseExample_lawful (ρ ρ' : Env ℝ) : ∃ s g, LawfulCse ρ ρ' 8 3 8 (fun _ _ => none) 2 false (fun _ => .floating) true cseExample s g cseResult ∧ s.notes = [] :=
  cse_of_noLic (fuel := 1) (by decide +kernel) (by decide +kernel) (by decide +kernel) (by decide +kernel) ρ ρ'

theorem avoids_plainVar {n : String} {t : NSet} {v : Nat} (hn : n.toList.head? ≠ some 'v') : Avoids (irVar v) (.var n t : Expr F) := by
  refine over_node.2 ⟨fun he => ?_, by simp⟩
  unfold irVar at he
  rw [Expr.node.injEq, Head.var.injEq] at he
  apply hn
  rw [he.1.1, String.toList_append]
  rfl

/-- The example gives the values: for `x = 1` and `y = 4`, in the assignment that gives the intermediate variables their values in order. -/
example : ∃ ρ' : Env ℝ, (∀ p ∈ cseResult.intermediate, eval ρ' p.1 = eval ρ' p.2) ∧
    eval ρ' (.add [irVar 3, irVar 2]) = some (Complex.cos 4 + 4) := by
  let ρ : Env ℝ := valuesOf fun n => if n = "x" then 1 else 4
  obtain ⟨s, g, h, hn⟩ := cseExample_lawful ρ (ρ.bindSeq cseResult.intermediate.reverse)
  have gh : Good (.rat ⟨1, 2⟩ : Expr ℝ) := good_node.2 ⟨⟨by simp [RatC.Canonical, InI64_iff], by decide⟩, by simp⟩
  have px : Plain (vx : Expr ℝ) ∧ Good (vx : Expr ℝ) := ⟨plain_node.2 ⟨rfl, by simp⟩, good_node.2 ⟨trivial, by simp⟩⟩
  have py : Plain (vy : Expr ℝ) ∧ Good (vy : Expr ℝ) := ⟨plain_node.2 ⟨rfl, by simp⟩, good_node.2 ⟨trivial, by simp⟩⟩
  have hg : ∀ o ∈ cseExample, ∀ e ∈ o.2.exprs, Plain e ∧ Good e := by
    intro o ho e he
    simp only [cseExample, List.mem_cons, List.not_mem_nil, or_false] at ho
    rcases ho with rfl | rfl <;> simp only [Output.exprs, List.mem_cons, List.not_mem_nil, or_false] at he
    · subst he
      exact ⟨by simp [Plain, Over, Overs, Head.plain, Head.interpreted, Head.isLeaf], by simp [Good, Goods, GoodNode]; decide +kernel⟩
    · rcases he with rfl | rfl
      · exact px
      · exact ⟨plain_node.2 ⟨rfl, by simpa using ⟨py.1, plain_node.2 ⟨rfl, by simp⟩⟩⟩, good_node.2 ⟨trivial, by simpa using ⟨py.2, gh⟩⟩⟩
  have hf : ∀ o ∈ cseExample, ∀ e ∈ o.2.exprs, ∀ p ∈ cseResult.intermediate, Avoids p.1 e := by
    intro o ho e he p hp
    obtain ⟨v, hv⟩ : ∃ v, p.1 = irVar v := by
      simp only [cseResult, List.mem_cons, List.not_mem_nil, or_false] at hp
      rcases hp with rfl | rfl | rfl | rfl | rfl | rfl <;> exact ⟨_, rfl⟩
    rw [hv]
    have ax : Avoids (irVar v) (vx : Expr ℝ) := avoids_plainVar (by decide)
    have ay : Avoids (irVar v) (vy : Expr ℝ) := avoids_plainVar (by decide)
    have nd : ∀ (h : Head ℝ) (as : List (Expr ℝ)), h.isVar = false → (∀ a ∈ as, Avoids (irVar v) a) → Avoids (irVar v) (.node h as) := by
      intro h as hh ha
      refine over_node.2 ⟨fun he => ?_, ha⟩
      cases he
      cases hh
    have am : Avoids (irVar v) (.mul [vx, vy] : Expr ℝ) := nd _ _ rfl (by simpa using ⟨ax, ay⟩)
    simp only [cseExample, List.mem_cons, List.not_mem_nil, or_false] at ho
    rcases ho with rfl | rfl <;> simp only [Output.exprs, List.mem_cons, List.not_mem_nil, or_false] at he
    · subst he
      exact nd _ _ rfl (by simpa using ⟨nd _ _ rfl (by simpa using am), am⟩)
    · rcases he with rfl | rfl
      · exact ax
      · exact nd _ _ rfl (by simpa using ⟨ay, nd _ _ rfl (by simp)⟩)
  obtain ⟨d1, d2, d3⟩ := C60_sequential ρ _ 8 3 8 _ 2 false _ true cseExample s g cseResult hg h hf
  refine ⟨_, d1, ?_⟩
  obtain ⟨r, hr, hv⟩ := C60_values ρ _ (by intro n i t z hz; cases hz) 8 3 8 _ 2 false _ true cseExample s g cseResult hg (by decide) h
    (by rw [hn]; exact ⟨by simp, by simp⟩) hf d2 d3 d1 (0, _) List.mem_cons_self
  have hr' : r = .expr (.add [irVar 3, irVar 2]) := by
    have : entry 0 cseResult.outputs = some (.expr (.add [irVar 3, irVar 2])) := rfl
    rw [this] at hr
    exact (Option.some.inj hr).symm
  subst hr'
  have ex : eval ρ vx = some 1 := by rw [eval_var]; rfl
  have ey : eval ρ vy = some 4 := by rw [eval_var]; rfl
  obtain ⟨e', he', hv⟩ := hv (Complex.cos 4 + 4) (by
    simp only [eval_add, eval_mul, eval_fn1, fn1, List.map_cons, List.map_nil, ex, ey]
    simp [sumO, prodO, fnVal]) trivial
  cases he'
  exact hv

end Wf.Sym
