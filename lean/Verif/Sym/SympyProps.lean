import Verif.Sym.SympyFromLemmas
import Verif.Sym.ChainWitness
import Verif.Sym.ExampleTools

/-!
# C69: conversion to and from SymPy keeps the value
-/

namespace Wf.Sym
open Complex Filter Topology

section
variable {F : Type} [DecidableEq F] [FnSem F]

/-- The SymPy expression has the value of the expression, wherever that has a value. (`zz` is the value of `0 ** 0` in SymPy: it plays no role,
because powers of zero with exponent zero have no value here.) -/
theorem C69_to_sympy {e : Expr F} {s : Sp F} (he : Over ToSympyNode e) (hs : toSympy e = .ok s) (zz : Option ℂ) {ρ : Env F} {σ : SpEnv} (hC : Calculus ρ)
    (hv : SameValues ρ σ) (z : ℂ) (hz : eval ρ e = some z) : spEval zz s σ = some z := toSympy_ok zz e s he hs ρ σ hC hv z hz

/-- The converted expression is well formed and has the value of the SymPy expression. Partial: `0 ** 0` is not given a value; different symbols
have different names or number sets; substitutions replace one symbol; matrices are not modelled. -/
theorem C69_from_sympy_partial {S : Env F → Prop} {n m : Nat} {A B C : SpSym → Prop} {s : Sp F} {r : Expr F}
    (hr : LawfulRunOn S n (fun _ K => fromSympy K m s) r) (hs : SpOver A B C s) (hA : Apart A) (hB : Allows S B C) :
    Good r ∧ ∀ ρ σ, S ρ → Calculus ρ → SameValuesOn A ρ σ → ∀ z, spEval none s σ = some z → eval ρ r = some z := by
  obtain ⟨lic, hl, hr⟩ := hr.lawful
  have := fromSympy_ok hl hB hA s r hs hr
  exact ⟨this.1, this.2.2⟩

/-! ## Round trip -/

/-- The symbols that expressions are converted to. -/
def OwnSymbol (x : SpSym) : Prop := ∃ n s, PlainName n ∧ x = ⟨n, NSet.asm s⟩

theorem ownSymbol_apart : Apart OwnSymbol := by
  rintro _ _ ⟨n, s, _, rfl⟩ ⟨n', s', _, rfl⟩ h1 h2
  rw [set_asm, set_asm] at h2
  simp only at h1
  rw [h1, h2]

theorem toSympys_over {A B C : SpSym → Prop} {as : List (Expr F)} {ss : List (Sp F)} (hf : List.Forall₂ (fun a s => toSympy a = .ok s) as ss)
    (h : ∀ a ∈ as, ∀ s, toSympy a = .ok s → SpOver A B C s) : ∀ s ∈ ss, SpOver A B C s := by
  induction hf with
  | nil => simp
  | cons h1 _ ih =>
    intro s hs
    rcases List.mem_cons.1 hs with rfl | hs
    · exact h _ (by simp) _ h1
    · exact ih (fun a ha => h a (by simp [ha])) s hs

theorem spOver_plain {A B C : SpSym → Prop} {h : SpHead F} {ss : List (Sp F)} (hn : SpOverNode A B C h ss) (hs : ∀ s ∈ ss, SpOver A B C s) :
    SpOver A B C (.node h ss) := by
  rw [SpOver]
  exact ⟨hn, spOvers_iff.2 hs⟩

theorem toSympy_over {B C : SpSym → Prop} : ∀ (e : Expr F) (s : Sp F), Over ToSympyNode e → Over (ChangesNode B C) e → toSympy e = .ok s →
    SpOver OwnSymbol B C s
  | .node h as, s, ho, hc, hs => by
    obtain ⟨ho1, ho2⟩ := over_node.1 ho
    obtain ⟨hc1, hc2⟩ := over_node.1 hc
    rw [toSympy] at hs
    obtain ⟨ss, h1, hs⟩ := andThen_ok hs
    have hf := toSympys_forall h1
    have hall := toSympys_over hf fun a ha s hs => toSympy_over a s (ho2 a ha) (hc2 a ha) hs
    have int : ∀ k, SpOver OwnSymbol B C (.node (.integer k) [] : Sp F) := fun k => spOver_plain trivial (by simp)
    have tr : SpOver OwnSymbol B C (.node .true [] : Sp F) := spOver_plain trivial (by simp)
    cases h with
    | add => cases hs; exact spOver_plain trivial hall
    | mul => cases hs; exact spOver_plain trivial hall
    | pow => cases hs; exact spOver_plain trivial hall
    | fn f =>
      change (match sympyAttr (sympyName f) with | some g => _ | none => _) = _ at hs
      obtain ⟨g, hg, hm⟩ := sympyAttr_meaning f
      rw [hg] at hs
      cases hs
      exact spOver_plain trivial hall
    | bconst b => cases hs; cases b <;> exact spOver_plain trivial (by simp)
    | zoo => cases hs; exact spOver_plain trivial (by simp)
    | cond =>
      rcases as with _ | ⟨c, _ | ⟨x, _ | ⟨y, _ | ⟨_, _⟩⟩⟩⟩
      · cases hf; cases hs
      · cases ss <;> cases hs
      · cases ss <;> cases hs
      · obtain ⟨c', x', y', rfl, _, _, _⟩ := forall₂_three hf
        have hx := hall x' (by simp)
        have hy := hall y' (by simp)
        have hc := hall c' (by simp)
        change toSympyCond c x y c' x' y' = .ok s at hs
        unfold toSympyCond at hs
        obtain ⟨r, _, hs⟩ := andThen_ok hs
        split at hs
        · cases hs; exact spOver_plain trivial (by simpa using ⟨hx, hy⟩)
        · obtain ⟨r, _, hs⟩ := andThen_ok hs
          split at hs
          · cases hs; exact spOver_plain trivial (by simpa using ⟨hx, hy⟩)
          · cases hs; exact spOver_plain trivial (by simpa using ⟨hx, hc, hy, tr⟩)
      · cases ss <;> cases hs
    | deriv n =>
      rcases as with _ | ⟨f, _ | ⟨x, _ | ⟨_, _⟩⟩⟩
      · cases hf; cases hs
      · obtain _ | ⟨_, ⟨_⟩⟩ := hf; cases hs
      · obtain ⟨f', x', rfl, hf1, hx1⟩ := forall₂_two hf
        cases hs
        obtain ⟨hn, v, hvar, rfl⟩ := ho1
        obtain ⟨nm, st, rfl⟩ := toSympy_isVar hvar hx1
        have hp : PlainName nm := (over_node.1 (ho2 (.var nm st) (by simp))).1
        obtain rfl := toSympy_var hp hx1
        refine spOver_plain ⟨f', [⟨nm, st.asm⟩], rfl, rfl, ?_⟩ hall
        intro x hx
        obtain rfl := List.mem_singleton.1 hx
        exact ⟨⟨nm, st, hp, rfl⟩, hc1 nm st rfl⟩
      · cases ss <;> cases hs
    | flt f => cases hs; exact spOver_plain trivial (by simp)
    | imag => cases hs; exact spOver_plain trivial (by simp)
    | int n => cases hs; exact int n
    | iverson =>
      rcases hf with _ | ⟨_, _ | ⟨_, _⟩⟩
      · cases hs
      · cases hs
        have := hall _ (List.mem_singleton_self _)
        exact spOver_plain trivial (by simpa using ⟨int 1, this, int 0, tr⟩)
      · cases hs
    | rat r => cases hs; exact spOver_plain trivial (by simp)
    | rel op => cases hs; exact spOver_plain trivial hall
    | subst =>
      rcases as with _ | ⟨f, _ | ⟨x, _ | ⟨p, _ | ⟨_, _⟩⟩⟩⟩
      · cases hf; cases hs
      · cases ss <;> cases hs
      · cases ss <;> cases hs
      · obtain ⟨f', x', p', rfl, hf1, hx1, hp1⟩ := forall₂_three hf
        cases hs
        obtain ⟨v, hvar, rfl⟩ := ho1
        obtain ⟨nm, st, rfl⟩ := toSympy_isVar hvar hx1
        have hp : PlainName nm := (over_node.1 (ho2 (.var nm st) (by simp))).1
        obtain rfl := toSympy_var hp hx1
        exact spOver_plain ⟨rfl, f', ⟨nm, st.asm⟩, p', rfl, ⟨nm, st, hp, rfl⟩, hc1 nm st rfl⟩ hall
      · cases ss <;> cases hs
    | const c => cases c <;> (cases hs; exact spOver_plain trivial (by simp))
    | symfn n => cases hs; exact spOver_plain trivial hall
    | undef => cases hs; exact spOver_plain trivial (by simp)
    | uneval => cases hs; exact spOver_plain trivial hall
    | var n st =>
      change andThen (sympySymbols n) _ = _ at hs
      rw [sympySymbols_plain ho1] at hs
      cases hs
      exact spOver_plain ⟨⟨n, st, ho1, by rw [deduce_kwargs]⟩, rfl⟩ (by simp)
    | argVar n i t => cases hs
    | uniq i t => cases hs
    | elem i => cases hs
    | stop => cases hs
    | matrix r c => cases hs
    | call f => cases hs
    | typeArg n t => cases hs
    | construct t => cases hs

/-- The symbols have the values of the variables. -/
def Env.toSympy (ρ : Env F) : SpEnv := ⟨fun x => ρ.leaf x.head, ρ.symfn⟩

theorem sameValues_toSympy (ρ : Env F) : SameValues ρ ρ.toSympy where
  sym n s _ := by
    show ρ.leaf (.var n (SpSym.set ⟨n, s.asm⟩)) = _
    rw [set_asm]
  fn := rfl

/-- An expression that is converted to SymPy and back has its value. -/
theorem C69_round_trip {S : Env F → Prop} {n m : Nat} {B C : SpSym → Prop} {e r : Expr F} {s : Sp F} (he : Over ToSympyNode e) (hc : Over (ChangesNode B C) e)
    (hs : toSympy e = .ok s) (hr : LawfulRunOn S n (fun _ K => fromSympy K m s) r) (hB : Allows S B C) :
    Good r ∧ ∀ ρ, S ρ → Calculus ρ → ∀ z, eval ρ e = some z → eval ρ r = some z := by
  obtain ⟨h1, h2⟩ := C69_from_sympy_partial hr (toSympy_over e s he hc hs) ownSymbol_apart hB
  exact ⟨h1, fun ρ hS hC z hz => h2 ρ ρ.toSympy hS hC ⟨fun _ _ => rfl, rfl⟩ z (C69_to_sympy he hs none hC (sameValues_toSympy ρ) z hz)⟩

/-! ## What is converted -/

theorem converted_mem {as : List (Expr F)} {ss : List (Sp F)} (hf : List.Forall₂ (fun a s => toSympy a = .ok s) as ss) (a : Expr F) (ha : a ∈ as) :
    ∃ t, toSympy a = .ok t := by
  induction hf with
  | nil => cases ha
  | @cons b t _ _ h1 _ ih =>
    by_cases hb : a = b
    · exact ⟨t, by rw [hb]; exact h1⟩
    · rcases List.mem_cons.1 ha with h2 | h2
      · exact absurd h2 hb
      · exact ih h2

/-- Expressions that contain anything that has no counterpart in SymPy are refused. -/
theorem C69_refused : ∀ (e : Expr F) (s : Sp F), toSympy e = .ok s → Over (fun h _ => Exported h) e
  | .node h as, s, hs => by
    rw [toSympy] at hs
    obtain ⟨ss, h1, hs⟩ := andThen_ok hs
    have hf := toSympys_forall h1
    refine over_node.2 ⟨?_, fun a ha => ?_⟩
    · cases h <;> first | trivial | cases hs
    · obtain ⟨t, ht⟩ := converted_mem hf a ha
      exact C69_refused a t ht

/-- All other expressions without conditionals are converted. -/
theorem C69_total : ∀ e : Expr F, Over ToSympyNode e → Over (fun h as => Exported h ∧ h ≠ .cond ∧ ArityNode h as) e → ∃ s, toSympy e = .ok s
  | .node h as, ho, hx => by
    obtain ⟨ho1, ho2⟩ := over_node.1 ho
    obtain ⟨⟨hx1, hx2, hx3⟩, hx4⟩ := over_node.1 hx
    have hall : ∀ a ∈ as, ∃ s, toSympy a = .ok s := fun a ha => C69_total a (ho2 a ha) (hx4 a ha)
    obtain ⟨ss, hss⟩ : ∃ ss, toSympys as = .ok ss := by
      clear ho1 ho2 hx1 hx2 hx3 hx4 ho hx
      induction as with
      | nil => exact ⟨[], by rw [toSympys]⟩
      | cons a as ih =>
        obtain ⟨s, h1⟩ := hall a (by simp)
        obtain ⟨ss, h2⟩ := ih fun b hb => hall b (by simp [hb])
        exact ⟨s :: ss, by rw [toSympys, h1, h2]; rfl⟩
    have hl := (toSympys_forall hss).length_eq
    rw [toSympy, hss]
    show ∃ s, toSympyNode h as ss = .ok s
    cases h with
    | cond => exact absurd rfl hx2
    | fn f =>
      obtain ⟨g, hg, _⟩ := sympyAttr_meaning f
      refine ⟨.node (.fn g) ss, ?_⟩
      show (match sympyAttr (sympyName f) with | some g => Except.ok (Sp.node (.fn g) ss) | none => .error Err.type) = _
      rw [hg]
    | deriv n =>
      obtain ⟨a, b, rfl⟩ := List.length_eq_two.1 hx3
      obtain ⟨c, d, rfl⟩ := List.length_eq_two.1 hl.symm
      exact ⟨_, rfl⟩
    | subst =>
      obtain ⟨a, b, c, rfl⟩ := List.length_eq_three.1 hx3
      obtain ⟨a', b', c', rfl⟩ := List.length_eq_three.1 hl.symm
      exact ⟨_, rfl⟩
    | iverson =>
      obtain ⟨a, rfl⟩ := List.length_eq_one_iff.1 hx3
      obtain ⟨b, rfl⟩ := List.length_eq_one_iff.1 hl.symm
      exact ⟨_, rfl⟩
    | var n st =>
      refine ⟨.node (.symbol ⟨n, .deduce (symbolKwargs st)⟩) [], ?_⟩
      show andThen (sympySymbols n) _ = _
      rw [sympySymbols_plain ho1]
      rfl
    | const c => cases c <;> exact ⟨_, rfl⟩
    | argVar n i t => cases hx1
    | uniq i t => cases hx1
    | elem i => cases hx1
    | stop => cases hx1
    | matrix r c => cases hx1
    | call f => cases hx1
    | typeArg n t => cases hx1
    | construct t => cases hx1
    | _ => exact ⟨_, rfl⟩

end

/-! ## Where the conversions are wrong -/

/-- White space around the name of a variable is lost, so that different variables become one symbol, and a name with a comma, a colon or
white space is refused. -/
theorem C69_names_refuted : (∃ (e : Expr ℝ) (s : Sp ℝ) (ρ : Env ℝ), toSympy e = .ok s ∧ eval ρ e = some 1 ∧ ∀ zz σ z, spEval zz s σ = some z → z = 0) ∧
    ∀ s, toSympy (.var "x y" .real : Expr ℝ) ≠ .ok s := by
  refine ⟨⟨.add [.var " x" .real, .mul [.int (-1), .var "x" .real]],
    .node .add [.node (.symbol ⟨"x", NSet.real.asm⟩) [], .node .mul [.node (.integer (-1)) [], .node (.symbol ⟨"x", NSet.real.asm⟩) []]],
    named fun n => if n = " x" then 1 else 0, rfl, ?_, fun zz σ z hz => ?_⟩, ?_⟩
  · rw [eval_add]
    simp only [List.map_cons, List.map_nil]
    rw [eval_mul, List.map_cons, List.map_cons, List.map_nil, eval_int, show eval (named fun n => if n = " x" then 1 else 0) (.var " x" .real : Expr ℝ) = some 1 by rw [eval]; rfl,
      show eval (named fun n => if n = " x" then 1 else 0) (.var "x" .real : Expr ℝ) = some 0 by rw [eval_var_node rfl]; simp [named]]
    simp [sumO, prodO]
  · rw [spEval_val zz (by simp) (by simp)] at hz
    simp only [List.map_cons, List.map_nil] at hz
    rw [spEval_val zz (h := .mul) (by simp) (by simp), spEval_val zz (h := .symbol _) (by simp) (by simp)] at hz
    simp only [List.map_cons, List.map_nil] at hz
    rw [spEval_val zz (h := .integer _) (by simp) (by simp), spEval_val zz (h := .symbol _) (by simp) (by simp)] at hz
    simp only [List.map_nil, spVal] at hz
    cases hx : σ.sym ⟨"x", NSet.real.asm⟩ with
    | none => simp [hx, sumO] at hz
    | some w => simp [hx, sumO, prodO] at hz; exact hz.symm
  · intro s h
    have : (toSympy (.var "x y" .real : Expr ℝ)) = .error .type := rfl
    rw [this] at h; cases h

/-- A conditional of which a branch is undefined is refused: the test for a maximum makes a relation of the branches. -/
theorem C69_conditional_refuted : toSympy (.cond (.rel .lt vx vy) .undef (.int 1) : Expr ℝ) = .error .type := rfl

/-- Simultaneous replacements are made one after the other: `Subs(f(x, y), (x, y), (y, x))` becomes `f(x, x)` instead of `f(y, x)`. -/
theorem C69_subs_refuted : ∃ (s : Sp ℝ) (r : Expr ℝ) (ρ : Env ℝ) (σ : SpEnv), fromSympy (ctors codeLic 10) 10 s = .ok r ∧ Calculus ρ ∧
    SameValuesOn (fun _ => True) ρ σ ∧ spEval none s σ = some 2 ∧ eval ρ r = some 1 := by
  let x : Expr ℝ := .var "x" .real
  let y : Expr ℝ := .var "y" .real
  let sx : SpSym := ⟨"x", NSet.real.asm⟩
  let sy : SpSym := ⟨"y", NSet.real.asm⟩
  let ρ : Env ℝ := calculusEnv (fun h => match h with | .var n _ => some (if n = "x" then 1 else 2) | _ => none) (fun _ zs => zs.head?)
  have hC : Calculus ρ := calculus_env _ _
  have hx : eval ρ x = some 1 := by rw [eval_var_node rfl]; simp [ρ, calculusEnv]
  refine ⟨.node (.subs 2) [.node (.applied "f" false) [.node (.symbol sx) [], .node (.symbol sy) []], .node (.symbol sx) [], .node (.symbol sy) [],
    .node (.symbol sy) [], .node (.symbol sx) []], .subst (.subst (.symfn "f" [x, y]) x y) y x, ρ, ρ.toSympy, by decide +kernel, hC, ⟨fun _ _ => rfl, rfl⟩, ?_, ?_⟩
  · rw [spEval_node]
    simp only [spNode]
    unfold spSubsNode
    have h1 : spEval none (.node (.symbol sy) [] : Sp ℝ) ρ.toSympy = some 2 := by
      rw [spEval_val none (by simp) (by simp)]
      simp [spVal, Env.toSympy, SpSym.head, sy, ρ, calculusEnv]
    have h2 : spEval none (.node (.symbol sx) [] : Sp ℝ) ρ.toSympy = some 1 := by
      rw [spEval_val none (by simp) (by simp)]
      simp [spVal, Env.toSympy, SpSym.head, sx, ρ, calculusEnv]
    simp only [List.map_cons, List.map_nil, List.tail_cons, List.take, List.drop, symsOf, Option.map_some, seqO, h1, h2, Option.bind_some, List.length_cons, List.length_nil,
      Nat.zero_add, Nat.reduceAdd, and_self, if_true]
    rw [spEval_val none (by simp) (by simp)]
    simp only [List.map_cons, List.map_nil]
    rw [spEval_val none (by simp) (by simp), spEval_val none (by simp) (by simp)]
    simp [spVal, SpEnv.setAll, SpEnv.set, seqO, sx, sy, Env.toSympy, ρ, calculusEnv]
  · have hy1 : eval (ρ.setVar y 1) y = some 1 := by rw [eval]; exact setVar_self 1
    refine eval_subst_val hC rfl hx (eval_subst_val (hC.setVar _ 1) rfl hy1 ?_)
    rw [eval_symfn]
    have h1 : eval ((ρ.setVar y 1).setVar x 1) x = some 1 := by rw [eval]; exact setVar_self 1
    rw [List.map_cons, List.map_cons, List.map_nil]
    erw [h1]
    rfl

/-- Symbols that differ only in assumptions that have no number set here become one variable. -/
theorem C69_symbols_refuted : ∃ (s : Sp ℝ) (σ : SpEnv), fromSympy (ctors codeLic 10) 10 s = .ok (.int 0) ∧ spEval none s σ = some 1 := by
  refine ⟨.node .add [.node (.symbol ⟨"x", ⟨false, false, true, true, 1⟩⟩) [], .node .mul [.node (.integer (-1)) [], .node (.symbol ⟨"x", NSet.real.asm⟩) []]],
    ⟨fun x => some (x.asm.other : ℂ), fun _ _ => none⟩, by decide +kernel, ?_⟩
  rw [spEval_val none (by simp) (by simp)]
  simp only [List.map_cons, List.map_nil]
  rw [spEval_val none (h := .mul) (by simp) (by simp), spEval_val none (h := .symbol _) (by simp) (by simp)]
  simp only [List.map_cons, List.map_nil]
  rw [spEval_val none (h := .integer _) (by simp) (by simp), spEval_val none (h := .symbol _) (by simp) (by simp)]
  simp [spVal, sumO, prodO, NSet.asm]

/-- `0 ** 0` is one in SymPy and undefined here. -/
theorem C69_zero_power_refuted : ∃ s : Sp ℝ, fromSympy (ctors codeLic 10) 10 s = .ok .undef ∧ ∀ σ, spEval (some 1) s σ = some 1 := by
  refine ⟨.node .pow [.node (.integer 0) [], .node (.integer 0) []], by decide +kernel, fun σ => ?_⟩
  rw [spEval_val (some 1) (by simp) (by simp)]
  simp only [List.map_cons, List.map_nil]
  rw [spEval_val (some 1) (by simp) (by simp)]
  simp [spVal, spPow]

/-! ## Non-vacuity -/

section
/-- `f(x)' + max(x, y) * sin(x)`. -/
noncomputable abbrev spExample : Expr ℝ :=
  .add [.deriv (.symfn "f" [vr "x"]) (vr "x") 1, .mul [.cond (.rel .lt (vr "y") (vr "x")) (vr "x") (vr "y"), .fn .sin [vr "x"]]]

/-- The symbol of a real variable. -/
abbrev rs (n : String) : Sp ℝ := .node (.symbol ⟨n, NSet.real.asm⟩) []

/-- The same in SymPy. -/
abbrev spExample' : Sp ℝ :=
  .node .add [.node (.deriv [1]) [.node (.applied "f" false) [rs "x"], rs "x"], .node .mul [.node .max [rs "x", rs "y"], .node (.fn .sin) [rs "x"]]]

theorem spExample_to : toSympy spExample = .ok spExample' := rfl

theorem spExample_over : Over ToSympyNode spExample := by
  have hx : Over ToSympyNode (vr "x" : Expr ℝ) := over_node.2 ⟨⟨by decide, by decide⟩, by simp⟩
  have hy : Over ToSympyNode (vr "y" : Expr ℝ) := over_node.2 ⟨⟨by decide, by decide⟩, by simp⟩
  have hf : Over ToSympyNode (.symfn "f" [vr "x"] : Expr ℝ) := over_node.2 ⟨trivial, by simpa using hx⟩
  have hd : Over ToSympyNode (.deriv (.symfn "f" [vr "x"]) (vr "x") 1 : Expr ℝ) := over_node.2 ⟨⟨by decide, _, rfl, rfl⟩, by simpa using ⟨hf, hx⟩⟩
  have hr : Over ToSympyNode (.rel .lt (vr "y") (vr "x") : Expr ℝ) := over_node.2 ⟨trivial, by simpa using ⟨hy, hx⟩⟩
  have hc : Over ToSympyNode (.cond (.rel .lt (vr "y") (vr "x")) (vr "x") (vr "y") : Expr ℝ) :=
    over_node.2 ⟨(fun b h => by cases h), by simpa using ⟨hr, hx, hy⟩⟩
  have hs : Over ToSympyNode (.fn .sin [vr "x"] : Expr ℝ) := over_node.2 ⟨trivial, by simpa using hx⟩
  exact over_node.2 ⟨trivial, by simpa using ⟨hd, over_node.2 ⟨trivial, by simpa using ⟨hc, hs⟩⟩⟩⟩

theorem spExample_changes : Over (ChangesNode (fun x => x.name = "x") fun _ => False) spExample := by
  have hv : ∀ n, Over (ChangesNode (fun x => x.name = "x") fun _ => False) (vr n : Expr ℝ) := fun n => over_node.2 ⟨trivial, by simp⟩
  have hd : Over (ChangesNode (fun x => x.name = "x") fun _ => False) (.deriv (.symfn "f" [vr "x"]) (vr "x") 1 : Expr ℝ) :=
    over_node.2 ⟨(fun n s h => by cases h; rfl), by simpa using ⟨over_node.2 ⟨trivial, by simpa using hv "x"⟩, hv "x"⟩⟩
  have hc : Over (ChangesNode (fun x => x.name = "x") fun _ => False) (.cond (.rel .lt (vr "y") (vr "x")) (vr "x") (vr "y") : Expr ℝ) :=
    over_node.2 ⟨trivial, by simpa using ⟨over_node.2 ⟨trivial, by simpa using ⟨hv "y", hv "x"⟩⟩, hv "x", hv "y"⟩⟩
  have hs : Over (ChangesNode (fun x => x.name = "x") fun _ => False) (.fn .sin [vr "x"] : Expr ℝ) := over_node.2 ⟨trivial, by simpa using hv "x"⟩
  exact over_node.2 ⟨trivial, by simpa using ⟨hd, over_node.2 ⟨trivial, by simpa using ⟨hc, hs⟩⟩⟩⟩

/-- The example meets the hypotheses of `C69_to_sympy` … -/
example (leaf : Head ℝ → Option ℂ) (f : String → List ℂ → Option ℂ) (z : ℂ) (hz : eval (calculusEnv leaf f) spExample = some z) (zz : Option ℂ) :
    spEval zz spExample' (calculusEnv leaf f).toSympy = some z :=
  C69_to_sympy spExample_over spExample_to zz (calculus_env leaf f) (sameValues_toSympy _) z hz

/-- … and of `C69_round_trip`, and so of `C69_from_sympy_partial`. -/
example : ∃ r : Expr ℝ, Good r ∧ ∀ leaf f z, eval (calculusEnv leaf f) spExample = some z → eval (calculusEnv leaf f) r = some z := by
  have hsame : Same 10 (fun _ K => fromSympy K 10 spExample') := by decide +kernel
  obtain ⟨r, hr⟩ := hsame.runs fun _ => True
  obtain ⟨h1, h2⟩ := C69_round_trip spExample_over spExample_changes spExample_to hr ⟨fun _ _ _ _ _ _ => .of_forall fun _ => trivial, fun _ _ _ _ _ => trivial⟩
  exact ⟨r, h1, fun leaf f z hz => h2 _ trivial (calculus_env leaf f) z hz⟩

/-- A stopped derivative is refused, wherever it is. -/
example : ∀ s, toSympy (.fn .sin [.stop (vr "x")] : Expr ℝ) ≠ .ok s := fun s h => by
  have := over_node.1 ((over_node.1 (C69_refused _ s h)).2 (.stop (vr "x")) (by simp))
  exact this.1

/-- Expressions without conditionals are converted. -/
example : ∃ s, toSympy (.fn .sin [vr "x"] : Expr ℝ) = .ok s :=
  C69_total _ (over_node.2 ⟨trivial, by simpa using over_node.2 ⟨⟨by decide, by decide⟩, by simp⟩⟩)
    (over_node.2 ⟨⟨trivial, by simp, trivial⟩, by simpa using over_node.2 ⟨⟨trivial, by simp, trivial⟩, by simp⟩⟩)
end

end Wf.Sym
