import Verif.Sym.OnceModel
import Verif.Sym.SubstituteLemmas

/-!
# What a user of `sym.unique_symbols` expects

From the documentation, `wrapper/pywrenfold/docs/scalar_wrapper.h:234-248`: the symbols "have unique identities that can never be accidentally
re-used"; one symbol is returned for the count one, and a list for larger counts.
-/

namespace Wf.Sym.Once

variable {F : Type}

/-- The number set that the flags describe: the smallest one that is asked for. `complex` excludes the others. -/
def Flags.meaning (f : Flags) : Option NSet :=
  match f.complex, f.positive, f.nonnegative, f.real with
  | true, false, false, false => some .complex
  | true, _, _, _ => none
  | false, true, _, _ => some .positive
  | false, false, true, _ => some .nonNegative
  | false, false, false, true => some .real
  | false, false, false, false => some .unknown

/-- `e` is a unique variable of the set `s`. -/
def UniqueOf (s : NSet) (e : Expr F) : Prop := ∃ k, e = .uniq k s

/-- The result that a call should have. -/
def Answers : Request → Res (Made F) → Prop
  | .unique count f, r =>
    match f.meaning, count with
    | none, _ => r = .error .invalidArgument
    | some _, 0 => r = .error .invalidArgument
    | some s, 1 => ∃ e, r = .ok (.one e) ∧ UniqueOf s e
    | some s, n => ∃ es, r = .ok (.many es) ∧ es.length = n ∧ ∀ e ∈ es, UniqueOf s e
  | .derivative s, r => ∃ e, r = .ok (.one e) ∧ UniqueOf s e

/-- The variables that a result has. -/
def resultSymbols : Res (Made F) → List (Expr F)
  | .ok m => m.symbols
  | .error _ => []

/-- The variables that thread `i` has been given, in this order. -/
def given (w : World F) (i : Nat) : List (Expr F) := (w.threads i).done.flatMap resultSymbols

/-- All unique variables in `e` have been given to a thread. -/
def Known (w : World F) (e : Expr F) : Prop :=
  Over (fun h as => ∀ k s, h = .uniq k s → ∃ i, Expr.node h as ∈ given w i) e

/-- The steps that a call takes: one for the start, one for each variable, and one for the return. -/
def callSteps : Request → Nat
  | .unique count _ => count + 2
  | .derivative _ => 3

end Wf.Sym.Once
