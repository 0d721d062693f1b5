import Verif.Sym.PipelineModel
import Verif.Sym.PipelineSpec
import Verif.Sym.LowerShape
import Verif.Sym.LowerProps
import Verif.Gen.AstProps

/-!
# C55: the generated statements compute the outputs of the function

The whole way from the expressions to the statements. `LowerSpec.lean` says what an output should be, `PipelineSpec.lean` what the signature declares, `AstSpec.lean` how statements run.
-/

namespace Wf.Sym
open Complex
open Wf.Gen (Prim Op Interp Writes WF InOrder AstInfo Graph Stmt Selects runAll Store)

variable {F : Type} [DecidableEq F] [FnSem F] {info : AstInfo}

theorem wanted_iff {I : Interp ℂ} {truth : ℂ → Bool} {key : Nat} :
    Wanted info I truth key = true ↔ (info.usage key = .optional → truth (I.f (.outputRequired key) []) = true) := by
  unfold Wanted
  cases info.usage key <;> simp

theorem written_iff {g : Graph} (hw : WF g) (I : Interp ℂ) (key : Nat) : key ∈ written g ↔ ∃ x, Writes I g key x := by
  unfold written
  rw [List.mem_filterMap]
  constructor
  · rintro ⟨v, hv, hk⟩
    have hop : (g.node v).op = .save key := by
      cases h : (g.node v).op <;> rw [h] at hk <;> cases hk
      rfl
    obtain ⟨a, ha⟩ := List.length_eq_one_iff.1 (hw.unary v hv (Or.inr (Or.inr (Or.inr ⟨key, hop⟩))))
    exact ⟨_, v, hv, hop, by rw [ha]; rfl⟩
  · rintro ⟨x, v, hv, hop, _⟩
    exact ⟨v, hv, by rw [hop]; rfl⟩

/-- **C55**. If the outputs of a function can be lowered, then the optimisation, the conversion to blocks and the conversion to statements succeed, for all
options. The statements run to their end without using a variable where it is not visible, without declaring one twice and without reading one before it
has a value. They write exactly the outputs of the function (of the optional ones those that are wanted), each once, and to every output whose expression
has a value (of its declared type) that value, in every interpretation of the operations that computes what their names say. -/
theorem C55_transpile (ρ : Env F) (hT : TypedEnv ρ) (nK m n : Nat) (outs : List (Nat × Output F)) (hg : ∀ o ∈ outs, ∀ e ∈ o.2.exprs, Plain e ∧ Good e)
    (hs : Signature info outs) (hget : ∀ i, info.scalarGet i = false) (s : Low F) (h : LawfulLowering ρ nK m n outs s)
    (opt : Options) (cast : Graph → Nat → Option Nat) :
    ∃ N ss, (∀ fuel, N ≤ fuel → transpile (ctors codeLic nK) m n info opt cast fuel outs = .ok ss) ∧
      ∀ (I : Interp ℂ) (truth : ℂ → Bool), Selects I truth →
        ∃ st : Store ℂ, runAll I truth ss .start = some st ∧ (st.out.map Prod.fst).Perm ((outs.map Prod.fst).filter (Wanted info I truth)) ∧
          (NotesOk ρ s.notes → Agrees I ρ s.leaves → ∀ o ∈ outs, Wanted info I truth o.1 = true → ∀ x, OutputValue I ρ o.2 x → (o.1, x) ∈ st.out) := by
  obtain ⟨h1, h2, h3, h4⟩ := C34_outputs ρ hT nK m n outs hg s h
  obtain ⟨N, g', k1, k2, k3, k4, k5, k6⟩ := Gen.optimise_shape cast opt.passes opt.binarize s.g (lowered_shape hs.linked h.code) h1 h2
  have hkey : ∀ v ∈ g'.ops, ∀ key, (g'.node v).op = .save key → key ∈ outs.map Prod.fst := by
    intro v hv key hk
    obtain ⟨x, hx⟩ := (written_iff k2 (exactInterp ρ s.leaves) key).1 (List.mem_filterMap.2 ⟨v, hv, by rw [hk]; rfl⟩)
    rw [← h3]
    exact (written_iff h1 (exactInterp ρ s.leaves) key).2 ⟨x, (k4 ℂ _ key x).1 hx⟩
  have hown : Gen.OwnStructs info g' := by
    intro v hv key hk hu hst
    obtain ⟨o, ho, rfl⟩ := List.mem_map.1 (hkey v hv key hk)
    have hf := hs.fits o ho
    cases ho2 : o.2 with
    | scalar e t => rw [ho2] at hf; rw [hf hu] at hst; cases hst
    | matrix r c es => rw [ho2] at hf; rw [hf.2 hu] at hst; cases hst
  obtain ⟨c, entry, ss, e1, e2, hrun⟩ := Gen.C54_outputs_partial k2 k3 k6 k5.typed hown opt.ternaries
  refine ⟨N, ss, fun fuel hf => ?_, fun I truth hsel => ?_⟩
  · unfold transpile
    rw [h.code]
    show finish info opt cast fuel s.g = _
    unfold finish
    rw [k1 fuel hf]
    show (match Gen.Conv.convert g' info.usage opt.ternaries with | .error e => _ | .ok p => _) = _
    rw [e1]
    exact e2
  · obtain ⟨st, r1, r2, r3⟩ := hrun ℂ I truth hsel (fun i hi => by rw [hget i] at hi; cases hi)
    refine ⟨st, r1, ?_, fun hn hI o ho hw x hx => ?_⟩
    · refine (List.perm_ext_iff_of_nodup r2 (hs.keys.filter _)).2 fun key => ?_
      rw [List.mem_filter, wanted_iff, ← h3, written_iff h1 I]
      constructor
      · intro hm
        obtain ⟨⟨_, x⟩, hx, rfl⟩ := List.mem_map.1 hm
        obtain ⟨a, b⟩ := (r3 _ x).1 hx
        exact ⟨⟨x, (k4 ℂ I _ x).1 a⟩, b⟩
      · rintro ⟨⟨x, hx⟩, hu⟩
        exact List.mem_map.2 ⟨(key, x), (r3 key x).2 ⟨(k4 ℂ I key x).2 hx, hu⟩, rfl⟩
    · exact (r3 o.1 x).2 ⟨(k4 ℂ I o.1 x).2 (h4 hn I hI o ho x hx).1, wanted_iff.1 hw⟩

/-! ## Example -/

/-- The output row `(x, y ** (3 / 2))`, the optional output `x + y` and the return value `x * y if x < y else 1 / y`. -/
noncomputable def pipeExample : List (Nat × Output ℝ) :=
  [(0, .matrix 1 2 [vx, .pow vy (.rat ⟨3, 2⟩)]), (1, .scalar (.add [vx, vy]) .floating),
   (2, .scalar (.cond (.rel .lt vx vy) (.mul [vx, vy]) (.pow vy (.int (-1)))) .floating)]

/-- The signature of the example. -/
def pipeInfo : AstInfo where
  constant := fun _ => false
  argument := fun _ => true
  matrix := fun t => t == 5
  scalarGet := fun _ => false
  usage := fun k => if k = 1 then .optional else if k = 2 then .returnValue else .output
  kind := fun k => if k = 0 then .matrix else .scalar

theorem pipeExample_signature : Signature pipeInfo pipeExample := by
  refine ⟨fun o ho => ?_, by decide, fun o ho o' ho' => ?_⟩
  · simp only [pipeExample, List.mem_cons, List.not_mem_nil, or_false] at ho
    rcases ho with rfl | rfl | rfl
    · exact ⟨by decide, fun _ => rfl⟩
    · exact fun _ => rfl
    · exact fun h => absurd rfl h
  · simp only [pipeExample, List.mem_cons, List.not_mem_nil, or_false] at ho ho'
    rcases ho with rfl | rfl | rfl <;> rcases ho' with rfl | rfl | rfl <;> decide

theorem pipeExample_good : ∀ o ∈ pipeExample, ∀ e ∈ o.2.exprs, Plain e ∧ Good e := by
  intro o ho e he
  simp only [pipeExample, List.mem_cons, List.not_mem_nil, or_false] at ho
  rcases ho with rfl | rfl | rfl <;> simp only [Output.exprs, List.mem_cons, List.not_mem_nil, or_false] at he
  · rcases he with rfl | rfl
    · exact ⟨by simp [Plain, Over, Overs, Head.plain, Head.interpreted, Head.isLeaf], by simp [Good, Goods, GoodNode]⟩
    · exact ⟨by simp [Plain, Over, Overs, Head.plain, Head.interpreted, Head.isLeaf], by
        refine good_node.2 ⟨trivial, ?_⟩
        simp [Good, Goods, GoodNode, RatC.Canonical, InI64_iff]; decide⟩
  · subst he
    exact ⟨by simp [Plain, Over, Overs, Head.plain, Head.interpreted, Head.isLeaf], by simp [Good, Goods, GoodNode]⟩
  · subst he
    exact ⟨by simp [Plain, Over, Overs, Head.plain, Head.interpreted, Head.isLeaf], by simp [Good, Goods, GoodNode, InI64_iff]; decide +kernel⟩

theorem pipeExample_lawful (ρ : Env ℝ) : ∃ s, LawfulLowering ρ 4 1 6 pipeExample s ∧ s.notes = [.recip vy (.int (-1))] :=
  lawful_of_noLic (by decide +kernel) (by decide +kernel) ρ

open Classical in
/-- For `x = 2` and `y = 4` the generated statements return `8` and write the row; the optional output is not written, as it is not wanted. -/
example : ∃ (ss : List Stmt) (fuel : Nat) (s : Low ℝ) (st : Store ℂ),
    transpile (ctors codeLic 4) 1 6 pipeInfo ⟨3, true, true⟩ (fun _ _ => none) fuel pipeExample = .ok ss ∧
    runAll (exactInterp (valuesOf fun n => if n = "x" then 2 else 4) s.leaves) (fun c => decide (c = 1)) ss .start = some st ∧
    (2, 8) ∈ st.out ∧ (st.out.map Prod.fst).Perm [0, 2] := by
  obtain ⟨s, h, hn⟩ := pipeExample_lawful (valuesOf fun n => if n = "x" then 2 else 4)
  obtain ⟨N, ss, h1, h2⟩ := C55_transpile (info := pipeInfo) _ (by intro n i t z hz; cases hz) 4 1 6 pipeExample pipeExample_good pipeExample_signature
    (fun _ => rfl) s h ⟨3, true, true⟩ (fun _ _ => none)
  obtain ⟨st, r1, r2, r3⟩ := h2 (exactInterp (valuesOf fun n => if n = "x" then 2 else 4) s.leaves) (fun c => decide (c = 1))
    (by intro c a b; simp [exactInterp])
  refine ⟨ss, N, s, st, h1 N (le_refl _), r1, r3 ?_ (C34_agreeing _ _) (2, .scalar (.cond (.rel .lt vx vy) (.mul [vx, vy]) (.pow vy (.int (-1)))) .floating)
    (by simp [pipeExample]) rfl 8 ⟨?_, trivial⟩, ?_⟩
  · rw [hn]
    refine ⟨?_, by simp⟩
    intro b e hb w h0 hw
    simp only [List.mem_singleton, Note.recip.injEq] at hb
    obtain ⟨rfl, rfl⟩ := hb
    simp [eval, evals, headVal, valuesOf] at h0
  · simp [eval, evals, headVal, valuesOf, condO, relO, relVal, prodO, powO, powVal]
    norm_num
  · refine r2.trans (List.Perm.of_eq ?_)
    simp [pipeExample, Wanted, pipeInfo, exactInterp]

end Wf.Sym
