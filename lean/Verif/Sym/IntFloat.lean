import Verif.Sym.FunctionSpec

/-!
# Real numbers with computable integers, as exact floats

A second instance of `FnSem`, in which the kernel can compute with float constants that are integers. It is used in examples only.
-/

namespace Wf.Sym
open Complex

/-- A real number, given as an integer if it is one. -/
inductive ZReal where
  | int (n : Int)
  | other (x : {x : ℝ // ∀ n : ℤ, x ≠ n})

noncomputable section

namespace ZReal

def toReal : ZReal → ℝ
  | .int n => n
  | .other x => x

open Classical in
def mk (x : ℝ) : ZReal := if h : ∃ n : ℤ, x = n then .int h.choose else .other ⟨x, fun n hn => h ⟨n, hn⟩⟩

theorem toReal_mk (x : ℝ) : (mk x).toReal = x := by
  unfold mk
  split_ifs with h
  · exact h.choose_spec.symm
  · rfl

theorem toReal_inj : ∀ {a b : ZReal}, a.toReal = b.toReal → a = b
  | .int n, .int m, h => by
    have : (n : ℝ) = m := h
    rw [Int.cast_inj.1 this]
  | .int n, .other x, h => absurd h.symm (x.2 n)
  | .other x, .int n, h => absurd h (x.2 n)
  | .other x, .other y, h => by rw [Subtype.ext (show x.1 = y.1 from h)]

instance : DecidableEq ZReal
  | .int n, .int m => decidable_of_iff (n = m) (by simp)
  | .int n, .other x => .isFalse nofun
  | .other x, .int n => .isFalse nofun
  | .other x, .other y => Classical.dec _

def lt : ZReal → ZReal → Bool
  | .int n, .int m => decide (n < m)
  | a, b => decide (a.toReal < b.toReal)

def add : ZReal → ZReal → ZReal
  | .int n, .int m => .int (n + m)
  | a, b => mk (a.toReal + b.toReal)

def mul : ZReal → ZReal → ZReal
  | .int n, .int m => .int (n * m)
  | a, b => mk (a.toReal * b.toReal)

theorem lt_iff' : ∀ a b : ZReal, lt a b = true ↔ a.toReal < b.toReal
  | .int n, .int m => by simp [lt, toReal]
  | .int n, .other x => by simp [lt]
  | .other x, .int n => by simp [lt]
  | .other x, .other y => by simp [lt]

theorem toReal_add : ∀ a b : ZReal, (add a b).toReal = a.toReal + b.toReal
  | .int n, .int m => by simp [add, toReal]
  | .int n, .other x => by simp [add, toReal_mk]
  | .other x, .int n => by simp [add, toReal_mk]
  | .other x, .other y => by simp [add, toReal_mk]

theorem toReal_mul : ∀ a b : ZReal, (mul a b).toReal = a.toReal * b.toReal
  | .int n, .int m => by simp [mul, toReal]
  | .int n, .other x => by simp [mul, toReal_mk]
  | .other x, .int n => by simp [mul, toReal_mk]
  | .other x, .other y => by simp [mul, toReal_mk]

end ZReal

open ZReal

instance : FloatSem ZReal where
  eq a b := decide (a = b)
  lt := ZReal.lt
  bits _ := 0
  add := ZReal.add
  mul := ZReal.mul
  pow a b := mk (a.toReal ^ b.toReal)
  ofInt n := .int n
  ofRat r := mk (r.val : ℝ)
  isNan _ := false
  isInf _ := false
  absLtOne a := decide (|a.toReal| < 1)
  complexFn f a b := (mk ((fnVal f [⟨a.toReal, b.toReal⟩]).getD 0).re, mk ((fnVal f [⟨a.toReal, b.toReal⟩]).getD 0).im)
  eq_iff a b := by simp
  lt_irrefl a := by rw [Bool.eq_false_iff, Ne, lt_iff']; exact lt_irrefl _
  lt_trans a b c h h' := (lt_iff' a c).2 (((lt_iff' a b).1 h).trans ((lt_iff' b c).1 h'))
  lt_total a b h := by
    rw [lt_iff', lt_iff']
    exact lt_or_gt_of_ne fun e => h (toReal_inj e)
  val a := some a.toReal
  val_ofInt n _ := rfl
  val_ofRat r _ := by rw [toReal_mk]
  val_add a b x y ha hb := by cases ha; cases hb; rw [toReal_add]
  val_mul a b x y ha hb := by cases ha; cases hb; rw [toReal_mul]
  val_pow a b x y ha hb _ := by cases ha; cases hb; rw [toReal_mk]
  finite a x _ := ⟨rfl, rfl⟩
  lt_iff a b x y ha hb := by cases ha; cases hb; exact lt_iff' a b
  absLtOne_iff a x ha := by cases ha; simp
  val_complexFn f a b x y w ha hb hw := by
    cases ha; cases hb
    simp [hw, toReal_mk]

def ZReal.cmp (n : Int) : ZReal → Ordering
  | .int m => if n < m then .lt else if m < n then .gt else .eq
  | .other x => if (n : ℝ) < x then .lt else if x.1 < n then .gt else .eq

instance : FnSem ZReal where
  cmpInt n a := some (a.cmp n)
  atan2 y x := mk (arg ⟨x.toReal, y.toReal⟩)
  floorI64 x := if InI64 ⌊x.toReal⌋ then .ok ⌊x.toReal⌋ else .error .ub
  cmpInt_val n a x _ h := by
    cases h
    cases a with
    | int m => simp only [ZReal.cmp, toReal, Int.cast_lt]
    | other x => rfl
  val_atan2 a b y x h h' := by cases h; cases h'; show some _ = _; rw [toReal_mk]
  floor_val a x h := by cases h; rfl
  floor_fits a n h := by split_ifs at h with h1; cases h; exact h1

end

end Wf.Sym
