import Verif.Sym.DeclareModel
import Verif.Sym.OrderProps
import Verif.Num.RationalProps

/-! # C83: `sym.rational`, `sym.symbol` and `sym.make_symbols` -/

namespace Wf.Sym.Declare

variable {F : Type}

/-! ## Specification -/

/-- The expression is the constant `q`: an integer, or a fraction in lowest terms with a denominator above one. -/
def IsConstant (e : Expr F) (q : ℚ) : Prop :=
  (∃ k : Int, e = .int k ∧ (k : ℚ) = q) ∨
  (∃ r : RatC, e = .rat r ∧ 1 < r.d ∧ Int.gcd r.n r.d = 1 ∧ (r.n : ℚ) / r.d = q)

/-! ## Rational numbers -/

theorem isConstant_unique {a b : Expr F} {q : ℚ} (ha : IsConstant a q) (hb : IsConstant b q) : a = b := by
  have frac : ∀ r : RatC, 1 < r.d → Int.gcd r.n r.d = 1 → ((r.n : ℚ) / r.d).num = r.n ∧ (((r.n : ℚ) / r.d).den : Int) = r.d :=
    fun r h1 h2 => ⟨Rat.num_div_eq_of_coprime (by omega) h2, Rat.den_div_eq_of_coprime (by omega) h2⟩
  rcases ha with ⟨k, rfl, hk⟩ | ⟨r, rfl, h1, h2, h3⟩ <;> rcases hb with ⟨l, rfl, hl⟩ | ⟨s, rfl, g1, g2, g3⟩
  · rw [← hl] at hk; rw [Int.cast_injective hk]
  · have := (frac s g1 g2).2; rw [g3, ← hk, Rat.den_intCast] at this; omega
  · have := (frac r h1 h2).2; rw [h3, ← hl, Rat.den_intCast] at this; omega
  · have e1 := frac r h1 h2
    have e2 := frac s g1 g2
    rw [h3] at e1; rw [g3] at e2
    obtain ⟨n, d⟩ := r
    obtain ⟨m, c⟩ := s
    have : n = m := e1.1.symm.trans e2.1
    have : d = c := e1.2.symm.trans e2.2
    subst_vars; rfl

theorem isConstant_value {a : Expr F} {p q : ℚ} (hp : IsConstant a p) (hq : IsConstant a q) : p = q := by
  rcases hp with ⟨k, rfl, hk⟩ | ⟨r, rfl, _, _, h3⟩ <;> rcases hq with ⟨l, e, hl⟩ | ⟨s, e, _, _, g3⟩
  · cases e; exact hk.symm.trans hl
  · cases e
  · cases e
  · cases e; exact h3.symm.trans g3

/-- `sym.rational(n, d)` is the number `n / d`, in lowest terms, and an integer if it is one. Missing: -2⁶³ as numerator or denominator
(`C83_rational_refuted`). -/
theorem C83_rational_partial (n d : Int) (hn : InI64 n) (hd : InI64 d) (hn' : n ≠ -2 ^ 63) (hd' : d ≠ -2 ^ 63) (h0 : d ≠ 0) :
    ∃ e : Expr F, fromRational n d = .ok e ∧ IsConstant e ((n : ℚ) / d) := by
  have hm : (-2 ^ 63 : Int) = minI := by decide
  rw [hm] at hn' hd'
  obtain ⟨h1, hc⟩ := ratMk_spec n d hn hd hn' hd' h0
  generalize hr : canon ((n : ℚ) / d) = r at h1 hc
  have hv := (C04_constructed_is_canonical n d hn hd h0 r h1).2
  have ht := C05_try_integer r hc
  unfold fromRational
  rw [if_pos ⟨hn, hd⟩, if_neg h0, h1]
  simp only [andThen, ratExpr, ht]
  by_cases h : r.d = 1
  · refine ⟨.int r.n, by simp [h], Or.inl ⟨r.n, rfl, ?_⟩⟩
    rw [← hv, RatC.val, h]; simp
  · refine ⟨.rat r, by simp [h], Or.inr ⟨r, rfl, ?_, hc.2.2.2, hv⟩⟩
    have := hc.2.2.1; omega

/-- Two rational numbers are identical expressions exactly when they are the same number. -/
theorem C83_rational_identity [FloatCmp F] [DecidableEq F] [LawfulFloat F] (n d m c : Int) (a b : Expr F)
    (hn : InI64 n) (hd : InI64 d) (hm : InI64 m) (hc : InI64 c)
    (ha : fromRational n d = .ok a) (hb : fromRational m c = .ok b) : identical a b = true ↔ n * c = m * d := by
  have key : ∀ (n d : Int) (a : Expr F), InI64 n → InI64 d → fromRational n d = .ok a → d ≠ 0 ∧ IsConstant a ((n : ℚ) / d) := by
    intro n d a hn hd h
    have h0 : d ≠ 0 := by rintro rfl; simp [fromRational, hn, hd] at h
    have hne : ¬ (n = minI ∨ d = minI) := by
      intro hbad
      rw [fromRational, if_pos ⟨hn, hd⟩, if_neg h0, ratMk_ub hbad] at h
      simp [andThen] at h
    have hmin : (-2 ^ 63 : Int) = minI := by decide
    obtain ⟨e, h1, h2⟩ := C83_rational_partial (F := F) n d hn hd (by rw [hmin]; tauto) (by rw [hmin]; tauto) h0
    rw [h] at h1; cases h1; exact ⟨h0, h2⟩
  obtain ⟨d0, h1⟩ := key n d a hn hd ha
  obtain ⟨c0, h2⟩ := key m c b hm hc hb
  have hq : (n : ℚ) / d = (m : ℚ) / c ↔ n * c = m * d := by
    rw [div_eq_div_iff (by exact_mod_cast d0) (by exact_mod_cast c0)]; exact_mod_cast Iff.rfl
  rw [identical_iff, ← hq]
  constructor
  · rintro rfl; exact isConstant_value h1 h2
  · intro e; rw [← e] at h2; exact isConstant_unique h1 h2

/-- A zero denominator is refused. -/
theorem C83_rational_zero (n : Int) (hn : InI64 n) : fromRational (F := F) n 0 = .error .arithmetic := by
  have : InI64 0 := by decide
  simp [fromRational, hn, this]

/-- The smallest integer as numerator or denominator is undefined behaviour (`std::gcd` takes its absolute value), even over one. -/
theorem C83_rational_refuted : InI64 (-2 ^ 63) ∧ fromRational (F := F) (-2 ^ 63) 1 = .error .ub ∧
    fromRational (F := F) 1 (-2 ^ 63) = .error .ub := by
  refine ⟨by decide, ?_, ?_⟩
  · have h : ratMk (-2 ^ 63) 1 = .error .ub := ratMk_ub (Or.inl (by decide))
    rw [fromRational, if_pos (by decide), if_neg (by decide), h]; rfl
  · have h : ratMk 1 (-2 ^ 63) = .error .ub := ratMk_ub (Or.inr (by decide))
    rw [fromRational, if_pos (by decide), if_neg (by decide), h]; rfl

/-! ## Symbols -/

/-- `make_symbols` with a sequence: with an empty name among them it raises, otherwise the variables are those of the names, in order, with the
given number set. -/
theorem C83_make_symbols (set : NSet) (names : List String) :
    makeSymbols (F := F) set names =
      if "" ∈ names then .error .invalidArgument else .ok (names.map fun n => .var n set) := by
  induction names with
  | nil => rfl
  | cons n ns ih =>
    by_cases h : n = ""
    · subst h; simp [makeSymbols, symbol, bind, Except.bind]
    · have h' : ¬ "" = n := fun e => h e.symm
      by_cases g : "" ∈ ns <;> simp [makeSymbols, symbol, h, h', g, ih, bind, Except.bind, pure, Except.pure]

/-- `make_symbols` with arguments: strings are as in a sequence; an argument that is not a string never gives a result. -/
theorem C83_make_symbols_args (set : NSet) (names : List String) (args : List (Option String)) :
    makeSymbolsArgs (F := F) set (names.map some) = makeSymbols set names ∧
    (none ∈ args → makeSymbolsArgs (F := F) set args = .error .type ∨ makeSymbolsArgs (F := F) set args = .error .invalidArgument) := by
  constructor
  · induction names with
    | nil => rfl
    | cons n ns ih => simp [makeSymbolsArgs, makeSymbols, ih]
  · induction args with
    | nil => intro h; cases h
    | cons a as ih =>
      intro h
      cases a with
      | none => exact Or.inl rfl
      | some n =>
        have hm : none ∈ as := by simpa using h
        by_cases hn : n = ""
        · subst hn; right; simp [makeSymbolsArgs, symbol, bind, Except.bind]
        · rcases ih hm with e | e <;> simp [makeSymbolsArgs, symbol, hn, e, bind, Except.bind]

/-- Symbols are identical exactly when they have the same name and the same number set. -/
theorem C83_symbol_identity [FloatCmp F] [DecidableEq F] [LawfulFloat F] (n m : String) (s t : NSet) (a b : Expr F)
    (ha : symbol n s = .ok a) (hb : symbol m t = .ok b) : identical a b = true ↔ n = m ∧ s = t := by
  unfold symbol at ha hb
  split_ifs at ha hb
  cases ha; cases hb
  rw [identical_iff]
  constructor
  · intro h; cases h; exact ⟨rfl, rfl⟩
  · rintro ⟨rfl, rfl⟩; rfl

/-! ## Non-vacuity -/

example : fromRational (F := Int) 6 (-4) = .ok (.rat ⟨-3, 2⟩) ∧ fromRational (F := Int) (-8) (-4) = .ok (.int 2) ∧
    makeSymbols (F := Int) .real ["x", "y"] = .ok [.var "x" .real, .var "y" .real] ∧
    makeSymbols (F := Int) .real ["x", ""] = .error .invalidArgument ∧
    makeSymbolsArgs (F := Int) .real [some "x", none] = .error .type := by
  decide +kernel

example : identical (F := Int) (.rat ⟨-3, 2⟩) (.rat ⟨-3, 2⟩) = true ↔ (6 : Int) * 2 = -3 * -4 :=
  C83_rational_identity 6 (-4) (-3) 2 _ _ (by decide) (by decide) (by decide) (by decide) (by decide +kernel) (by decide +kernel)

end Wf.Sym.Declare
