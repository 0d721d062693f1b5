import Verif.Sym.DistributeLemmas
import Verif.Sym.ValueProps

/-! # Properties C18, C19: distributing and collecting keep the value -/

namespace Wf.Sym
open Complex

variable {F : Type} [DecidableEq F] [FnSem F]

/-- **C18**. `distribute(e)` has the value of `e` under every assignment where `e` has a value and the power rules used are laws. -/
theorem C18_distribute_value (ρ : Env F) (nK m n : Nat) (e r : Expr F) (he : Plain e) (hg : Good e)
    (h : LawfulRun ρ nK (fun K => distribute K m n e) r) : Good r ∧ ∀ z, eval ρ e = some z → eval ρ r = some z := by
  obtain ⟨lic, hl, hr⟩ := h.lawful
  have := distribute_ok (ctors_sound lic ρ nK) (ctors_closed plain_basic lic nK) m n e r he hg hr
  exact ⟨this.2.1, this.2.2 hl⟩

/-- **C19**. `collect(e, terms)` has the value of `e` under every assignment where `e` has a value and the power rules used are laws. -/
theorem C19_collect_value (ρ : Env F) (nK m n : Nat) (e r : Expr F) (ts : List (Expr F)) (he : Plain e) (hg : Good e) (hts : ∀ t ∈ ts, Good t)
    (h : LawfulRun ρ nK (fun K => collectMany K m n e ts) r) : Good r ∧ ∀ z, eval ρ e = some z → eval ρ r = some z := by
  obtain ⟨lic, hl, hr⟩ := h.lawful
  simp only [collectMany] at hr
  split_ifs at hr
  · cases hr; exact ⟨hg, fun _ hz => hz⟩
  · have := collect_ok (ctors_sound lic ρ nK) m hts n e r he hg hr
    exact ⟨this.1, this.2 hl⟩

/-- Distributing a power of a sum whose exponent distributes to zero fails an assertion: `(x + y) ** (x * (y + 1) - x * y - x)`. -/
theorem C18_zero_exponent :
    distribute (ctors codeLic 8) 1 8 (.pow (.add [vx, vy]) (.add [.mul [vx, .add [.int 1, vy]], .mul [.int (-1), vx, vy], .mul [.int (-1), vx]])) =
      .error .assertion := by decide +kernel

/-- Collecting by a number is refused. -/
theorem C19_rejects_numbers (K : Ctors F) (m n : Nat) (e : Expr F) (ts : List (Expr F)) (h : ∃ t ∈ ts, isNumeric t = true) :
    collectMany K m n e ts = .error .type := by
  obtain ⟨t, ht, hn⟩ := h
  unfold collectMany
  rw [if_neg, if_pos (List.any_eq_true.2 ⟨t, ht, hn⟩)]
  cases ts with
  | nil => cases ht
  | cons => simp

/-! ## Non-vacuity -/

/-- `distribute((x + y) ** 3)` and `distribute((x + 1) * (y + z))` -/
example : LawfulRun (valuesOf fun _ => 2) 8 (fun K => distribute K 1 8 (.pow (.add [vx, vy]) (.int 3)))
      (.add [.mul [.pow vx (.int 2), .int 3, vy], .mul [.pow vy (.int 2), .int 3, vx], .pow vx (.int 3), .pow vy (.int 3)]) ∧
    LawfulRun (valuesOf fun _ => 2) 8 (fun K => distribute K 1 8 (.mul [.add [.int 1, vx], .add [vy, vz]]))
      (.add [.mul [vx, vy], .mul [vx, vz], vy, vz]) :=
  ⟨⟨by decide +kernel, noLic, noLic_true _, by decide +kernel⟩, by decide +kernel, noLic, noLic_true _, by decide +kernel⟩

/-- `collect(x * y + x * z + x ** 2 * y + z + x, [x])` -/
example : LawfulRun (valuesOf fun _ => 2) 8
    (fun K => collectMany K 1 8 (.add [vx, vz, .mul [vx, vy], .mul [vx, vz], .mul [vy, .pow vx (.int 2)]]) [vx])
    (.add [vz, .mul [vx, .add [.int 1, vy, vz]], .mul [.pow vx (.int 2), vy]]) :=
  ⟨by decide +kernel, noLic, noLic_true _, by decide +kernel⟩

end Wf.Sym
