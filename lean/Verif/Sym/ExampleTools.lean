import Verif.Sym.QuatSpec
import Verif.Sym.CseLemmas
import Verif.Sym.ValueProps

/-!
# Tools for examples of runs on quaternions
-/

namespace Wf.Sym

open Geo

section
variable {F : Type} [DecidableEq F] [FnSem F]

/-- The code and the rules without licences give the same result. -/
def Same {α : Type} (n : Nat) (run : Lic F → Ctors F → Res α) : Prop :=
  run codeLic (ctors codeLic n) = run noLic (ctors noLic n) ∧ (run noLic (ctors noLic n)).isOk = true

instance {α : Type} [DecidableEq α] (n : Nat) (run : Lic F → Ctors F → Res α) : Decidable (Same n run) := inferInstanceAs (Decidable (_ ∧ _))

theorem Same.runs {α : Type} {n : Nat} {run : Lic F → Ctors F → Res α} (h : Same n run) (S : Env F → Prop) : ∃ r, LawfulRunOn S n run r := by
  obtain ⟨h1, h2⟩ := h
  cases hr : run noLic (ctors noLic n) with
  | error e => rw [hr] at h2; cases h2
  | ok r => exact ⟨r, by rw [h1, hr], noLic, fun _ _ => noLic_true _, hr⟩

/-- Values of the variables by name. -/
def named (f : String → ℂ) : Env F where
  leaf h := match h with | .var n _ => some (f n) | _ => none
  symfn _ _ := none
  opaq _ _ := none

/-- A real variable. -/
abbrev vr (s : String) : Expr F := .var s .real

/-- A quaternion of variables. -/
abbrev qv : QuatE F := ⟨vr "w", vr "x", vr "y", vr "z"⟩

/-- Another one. -/
abbrev qu : QuatE F := ⟨vr "a", vr "b", vr "c", vr "d"⟩

theorem has_vr (f : String → ℂ) (s : String) : Has (named f) (vr s : Expr F) (f s) := ⟨good_varNode rfl rfl, by rw [eval]; rfl⟩

theorem has_qv (f : String → ℂ) : (qv : QuatE F).Has (named f) ⟨f "w", f "x", f "y", f "z"⟩ :=
  ⟨⟨(has_vr f _).1, (has_vr f _).1, (has_vr f _).1, (has_vr f _).1⟩, (has_vr f _).2, (has_vr f _).2, (has_vr f _).2, (has_vr f _).2⟩

theorem has_qu (f : String → ℂ) : (qu : QuatE F).Has (named f) ⟨f "a", f "b", f "c", f "d"⟩ :=
  ⟨⟨(has_vr f _).1, (has_vr f _).1, (has_vr f _).1, (has_vr f _).1⟩, (has_vr f _).2, (has_vr f _).2, (has_vr f _).2, (has_vr f _).2⟩

end

end Wf.Sym
