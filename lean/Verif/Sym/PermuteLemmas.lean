import Verif.Sym.ClosureLemmas
import Verif.Sym.OrderLemmas2
import Verif.Sym.PermuteSpec
import Mathlib.Data.List.Forall2
import Mathlib.Data.List.Perm.Basic
import Mathlib.Algebra.BigOperators.Group.List.Basic

/-! # The order of the operands of a sum does not matter when there are no floats -/

namespace Wf.Sym
open List (Perm)

variable {F : Type} [DecidableEq F]

/-! ### Sorting -/

theorem orderedInsert_sorted {α : Type _} {r : α → α → Prop} [DecidableRel r] {P : α → Prop} (tot : ∀ a b, P a → P b → r a b ∨ r b a)
    (tr : ∀ a b c, P a → P b → P c → r a b → r b c → r a c) {a : α} {l : List α} (ha : P a) (hl : ∀ b ∈ l, P b) (hs : l.Pairwise r) :
    (List.orderedInsert r a l).Pairwise r := by
  induction l with
  | nil => simp
  | cons b l ih =>
    rw [List.pairwise_cons] at hs
    have hb := hl b (by simp)
    have hl' : ∀ c ∈ l, P c := fun c hc => hl c (by simp [hc])
    by_cases h : r a b
    · rw [List.orderedInsert_cons_of_le _ _ h, List.pairwise_cons, List.pairwise_cons]
      refine ⟨fun c hc => ?_, hs⟩
      rcases List.mem_cons.1 hc with rfl | hc
      · exact h
      · exact tr a b c ha hb (hl' c hc) h (hs.1 c hc)
    · rw [List.orderedInsert_of_not_le _ _ h, List.pairwise_cons]
      refine ⟨fun c hc => ?_, ih hl' hs.2⟩
      rw [List.mem_orderedInsert] at hc
      rcases hc with rfl | hc
      · exact (tot _ b ha hb).resolve_left h
      · exact hs.1 c hc

theorem insertionSort_sorted {α : Type _} {r : α → α → Prop} [DecidableRel r] {P : α → Prop} (tot : ∀ a b, P a → P b → r a b ∨ r b a)
    (tr : ∀ a b c, P a → P b → P c → r a b → r b c → r a c) {l : List α} (hl : ∀ b ∈ l, P b) : (l.insertionSort r).Pairwise r := by
  induction l with
  | nil => simp
  | cons a l ih =>
    rw [List.insertionSort_cons]
    exact orderedInsert_sorted tot tr (hl a (by simp)) (fun b hb => hl b (by simp [(List.mem_insertionSort r).1 hb]))
      (ih fun b hb => hl b (by simp [hb]))

section
variable [FloatSem F]

theorem termLe_total (reg : Registry) (a b : Expr F) (ha : a.Regular reg) (hb : b.Regular reg) : termLe a b = true ∨ termLe b a = true := by
  unfold termLe
  rw [exactOrder_eq, exactOrder_eq]
  by_cases h : hash a < hash b
  · simp [h]
  · by_cases h' : hash b < hash a
    · simp [h']
    · have := (cmpE_total reg).swap a b ha hb
      simp only [h, h', if_false, this]
      cases cmpE a b <;> simp [Ordering.swap]

theorem termLe_trans (reg : Registry) (a b c : Expr F) (ha : a.Regular reg) (hb : b.Regular reg) (hc : c.Regular reg)
    (h1 : termLe a b = true) (h2 : termLe b c = true) : termLe a c = true := by
  unfold termLe at *
  rw [exactOrder_eq] at *
  by_cases hab : hash a < hash b
  · by_cases hbc : hash b < hash c
    · rw [if_pos (UInt64.lt_trans hab hbc)]
    · rw [if_neg hbc] at h2
      by_cases hcb : hash c < hash b
      · rw [if_pos hcb] at h2; cases h2
      · have : hash b = hash c := UInt64.le_antisymm (UInt64.not_lt.1 hcb) (UInt64.not_lt.1 hbc)
        rw [if_pos (this ▸ hab)]
  · rw [if_neg hab] at h1
    by_cases hba : hash b < hash a
    · rw [if_pos hba] at h1; cases h1
    · have e : hash a = hash b := UInt64.le_antisymm (UInt64.not_lt.1 hba) (UInt64.not_lt.1 hab)
      rw [if_neg hba] at h1
      by_cases hbc : hash b < hash c
      · rw [if_pos (e ▸ hbc)]
      · rw [if_neg hbc] at h2
        by_cases hcb : hash c < hash b
        · rw [if_pos hcb] at h2; cases h2
        · rw [if_neg hcb] at h2
          have e' : hash b = hash c := UInt64.le_antisymm (UInt64.not_lt.1 hcb) (UInt64.not_lt.1 hbc)
          have n1 : ¬ hash a < hash c := by rw [e, e']; exact UInt64.lt_irrefl _
          have n2 : ¬ hash c < hash a := by rw [e, e']; exact UInt64.lt_irrefl _
          rw [if_neg n1, if_neg n2]
          have T := cmpE_total (F := F) reg
          cases hx : cmpE a b with
          | gt => rw [hx] at h1; cases h1
          | eq => obtain rfl := (T.eq_iff a b ha hb).1 hx; exact h2
          | lt =>
            cases hy : cmpE b c with
            | gt => rw [hy] at h2; cases h2
            | eq => obtain rfl := (T.eq_iff b c hb hc).1 hy; rw [hx]; rfl
            | lt => rw [T.trans a b c ha hb hc hx hy]; rfl

theorem termLe_antisymm (reg : Registry) (a b : Expr F) (ha : a.Regular reg) (hb : b.Regular reg)
    (h1 : termLe a b = true) (h2 : termLe b a = true) : a = b := by
  unfold termLe at *
  rw [exactOrder_eq] at *
  by_cases hab : hash a < hash b
  · rw [if_neg (UInt64.lt_asymm hab), if_pos hab] at h2; cases h2
  · by_cases hba : hash b < hash a
    · rw [if_neg hab, if_pos hba] at h1; cases h1
    · rw [if_neg hab, if_neg hba] at h1
      rw [if_neg hab, if_neg hba, (cmpE_total reg).swap a b ha hb] at h2
      cases hx : cmpE a b with
      | eq => exact ((cmpE_total reg).eq_iff a b ha hb).1 hx
      | lt => rw [hx] at h2; cases h2
      | gt => rw [hx] at h1; cases h1

/-- Sorting forgets the order of the input. -/
theorem sortTerms_eq_of_perm (reg : Registry) {l l' : List (Expr F)} (h : l.Perm l') (hl : ∀ a ∈ l, a.Regular reg) : sortTerms l = sortTerms l' := by
  have hl' : ∀ a ∈ l', a.Regular reg := fun a ha => hl a (h.mem_iff.2 ha)
  have p1 := sortTerms_perm l
  have p2 := sortTerms_perm l'
  refine List.Perm.eq_of_pairwise (le := fun a b => termLe a b = true) (fun a b ha hb => ?_) ?_ ?_ (p1.trans (h.trans p2.symm))
  · exact termLe_antisymm reg a b (hl a (p1.mem_iff.1 ha)) (hl' b (p2.mem_iff.1 hb))
  · exact insertionSort_sorted (termLe_total reg) (termLe_trans reg) hl
  · exact insertionSort_sorted (termLe_total reg) (termLe_trans reg) hl'

/-! ### Registered expressions -/

/-- Types and functions come from the registry. -/
def Registered (reg : Registry) : Head F → List (Expr F) → Prop
  | .call f, _ => f = reg.fn f.name
  | .typeArg _ t, _ => t = reg.type t.name
  | .construct t, _ => t = reg.type t.name
  | _, _ => True

omit [DecidableEq F] [FloatSem F] in
theorem registered_basic (reg : Registry) : Basic (Registered (F := F) reg) := by
  constructor <;> intros <;> trivial

omit [DecidableEq F] in
theorem all_node {P : Head F → Prop} {h : Head F} {as : List (Expr F)} : Expr.All P (.node h as) ↔ P h ∧ ∀ a ∈ as, Expr.All P a := by
  rw [Expr.All]
  have : ∀ as : List (Expr F), Expr.Alls P as ↔ ∀ a ∈ as, Expr.All P a := by
    intro as
    induction as with
    | nil => simp [Expr.Alls]
    | cons a as ih => simp [Expr.Alls, ih]
  rw [this]

theorem regular_of (reg : Registry) : ∀ e : Expr F, Good e → Over (Registered reg) e → e.Regular reg
  | .node h as => fun hg ho => by
    have h1 := good_node.1 hg
    have h2 := over_node.1 ho
    refine all_node.2 ⟨?_, fun a ha => regular_of reg a (h1.2 a ha) (h2.2 a ha)⟩
    cases h with
    | rat r => exact h1.1.1
    | call f => exact h2.1
    | typeArg i t => exact h2.1
    | construct t => exact h2.1
    | _ => trivial

omit [FloatSem F] in
theorem registered_of (reg : Registry) : ∀ e : Expr F, e.Regular reg → Over (Registered reg) e
  | .node h as => fun hr => by
    have h1 := all_node.1 hr
    refine over_node.2 ⟨?_, fun a ha => registered_of reg a (h1.2 a ha)⟩
    cases h with
    | call f => exact h1.1
    | typeArg i t => exact h1.1
    | construct t => exact h1.1
    | _ => trivial

/-! ### Exact coefficients -/

/-- The value of a coefficient without floats: a rational number, complex infinity or undefined. -/
inductive Cls where
  | num (q : ℚ)
  | zoo
  | undef

/-- The sum of two such values. -/
def Cls.add : Cls → Cls → Cls
  | .undef, _ => .undef
  | _, .undef => .undef
  | .zoo, .zoo => .undef
  | .zoo, _ => .zoo
  | _, .zoo => .zoo
  | .num a, .num b => .num (a + b)

theorem Cls.add_comm (a b : Cls) : a.add b = b.add a := by
  cases a <;> cases b <;> simp [Cls.add, _root_.add_comm]

theorem Cls.add_assoc (a b c : Cls) : (a.add b).add c = a.add (b.add c) := by
  cases a <;> cases b <;> cases c <;> simp [Cls.add, _root_.add_assoc]

theorem Cls.add_zero (a : Cls) : a.add (.num 0) = a := by cases a <;> simp [Cls.add]

/-- The canonical expression of a rational number. -/
def numExpr (q : ℚ) : Expr F := if q.den = 1 then .int q.num else .rat ⟨q.num, q.den⟩

/-- The canonical expression of a value. -/
def Cls.expr : Cls → Expr F
  | .num q => numExpr q
  | .zoo => .zoo
  | .undef => .undef

def Coeff.cls : Coeff F → Cls
  | .int n => .num n
  | .rat r => .num r.val
  | .flt _ => .undef
  | .undef => .undef
  | .zoo => .zoo

/-- A coefficient as the code makes it that is not a float. -/
def Coeff.Exact (c : Coeff F) : Prop := c.Fine ∧ ∀ f, c ≠ .flt f

theorem addCoeff_cls {a b c : Coeff F} (ha : a.Exact) (hb : b.Exact) (h : addCoeff a b = .ok c) : c.Exact ∧ c.cls = a.cls.add b.cls := by
  cases a with
  | flt f => exact absurd rfl (ha.2 f)
  | undef => simp only [addCoeff, Except.ok.injEq] at h; subst h; exact ⟨⟨trivial, by simp⟩, by cases b <;> rfl⟩
  | zoo =>
    cases b with
    | flt f => exact absurd rfl (hb.2 f)
    | _ => simp only [addCoeff, Except.ok.injEq] at h; subst h; exact ⟨⟨trivial, by simp⟩, rfl⟩
  | int m =>
    cases b with
    | flt f => exact absurd rfl (hb.2 f)
    | undef => simp only [addCoeff, Except.ok.injEq] at h; subst h; exact ⟨⟨trivial, by simp⟩, rfl⟩
    | zoo => simp only [addCoeff, Except.ok.injEq] at h; subst h; exact ⟨⟨trivial, by simp⟩, rfl⟩
    | int n =>
      obtain ⟨k, hk, rfl⟩ := intCoeff_ok h
      obtain ⟨rfl, hi⟩ := cadd_ok ha.1 hb.1 hk
      exact ⟨⟨hi, by simp⟩, by simp [Coeff.cls, Cls.add]⟩
    | rat s =>
      obtain ⟨k, hk, rfl⟩ := ratCoeff_ok h
      obtain ⟨hc, hv⟩ := ratAdd_ok hb.1 (canonical_ofInt ha.1) hk
      exact ⟨⟨hc, by simp⟩, by simp [Coeff.cls, Cls.add, hv, ratOfInt_val, _root_.add_comm]⟩
  | rat r =>
    cases b with
    | flt f => exact absurd rfl (hb.2 f)
    | undef => simp only [addCoeff, Except.ok.injEq] at h; subst h; exact ⟨⟨trivial, by simp⟩, rfl⟩
    | zoo => simp only [addCoeff, Except.ok.injEq] at h; subst h; exact ⟨⟨trivial, by simp⟩, rfl⟩
    | int n =>
      obtain ⟨k, hk, rfl⟩ := ratCoeff_ok h
      obtain ⟨hc, hv⟩ := ratAdd_ok ha.1 (canonical_ofInt hb.1) hk
      exact ⟨⟨hc, by simp⟩, by simp [Coeff.cls, Cls.add, hv, ratOfInt_val]⟩
    | rat s =>
      obtain ⟨k, hk, rfl⟩ := ratCoeff_ok h
      obtain ⟨hc, hv⟩ := ratAdd_ok ha.1 hb.1 hk
      exact ⟨⟨hc, by simp⟩, by simp [Coeff.cls, Cls.add, hv]⟩

omit [DecidableEq F] [FloatSem F] in
theorem numExpr_int (n : Int) : (numExpr (n : ℚ) : Expr F) = .int n := by simp [numExpr]

omit [DecidableEq F] [FloatSem F] in
theorem numExpr_canonical {r : RatC} (h : r.Canonical) : (numExpr r.val : Expr F) = if r.d = 1 then .int r.n else .rat r := by
  obtain ⟨_, _, hd, hg⟩ := h
  have hc : Nat.Coprime r.n.natAbs r.d.natAbs := by rw [Int.gcd_eq_natAbs_gcd_natAbs] at hg; exact hg
  have h1 : r.val.num = r.n := Rat.num_div_eq_of_coprime hd hc
  have h2 : (r.val.den : ℤ) = r.d := Rat.den_div_eq_of_coprime hd hc
  unfold numExpr
  rw [h1]
  by_cases hd1 : r.d = 1
  · rw [if_pos hd1, if_pos (by omega)]
  · rw [if_neg hd1, if_neg (by omega), h2]

theorem toExpr_cls {c : Coeff F} {e : Expr F} (hc : c.Exact) (h : c.toExpr = .ok e) : e = c.cls.expr := by
  cases c with
  | int n => cases h; exact (numExpr_int n).symm
  | rat r => rw [(ratExpr_ok hc.1 h).1]; exact (numExpr_canonical hc.1).symm
  | flt f => exact absurd rfl (hc.2 f)
  | undef => cases h; rfl
  | zoo => cases h; rfl

/-- Its value. -/
def numVal : Expr F → ℚ
  | .int n => n
  | .rat r => r.val
  | _ => 0

theorem ExactNum.cases {e : Expr F} (h : ExactNum e) : (∃ n, e = .int n ∧ InI64 n) ∨ ∃ r, e = .rat r ∧ r.Canonical ∧ r.d ≠ 1 := by
  obtain ⟨h1, h2, h3⟩ := h
  rcases isNumeric_cases h2 with ⟨n, rfl⟩ | ⟨r, rfl⟩ | ⟨f, rfl⟩
  · exact Or.inl ⟨n, rfl, good_int.1 h1⟩
  · exact Or.inr ⟨r, rfl, good_rat.1 h1⟩
  · exact absurd rfl (h3 f)

theorem ExactNum.eq {e : Expr F} (h : ExactNum e) : e = numExpr (numVal e) := by
  rcases ExactNum.cases h with ⟨n, rfl, _⟩ | ⟨r, rfl, h1, h2⟩
  · exact (numExpr_int n).symm
  · change _ = numExpr r.val
    rw [numExpr_canonical h1, if_neg h2]

theorem ExactNum.coeff {e : Expr F} (h : ExactNum e) : ∃ c : Coeff F, Coeff.ofExpr e = some c ∧ c.Exact ∧ c.cls = .num (numVal e) := by
  rcases ExactNum.cases h with ⟨n, rfl, hn⟩ | ⟨r, rfl, h1, h2⟩
  · exact ⟨.int n, rfl, ⟨hn, by simp⟩, rfl⟩
  · exact ⟨.rat r, rfl, ⟨h1, by simp⟩, rfl⟩

theorem exactNum_of_cls {c : Coeff F} {e : Expr F} {q : ℚ} (hc : c.Exact) (hq : c.cls = .num q) (h : c.toExpr = .ok e) : ExactNum e ∧ numVal e = q := by
  cases c with
  | int n => cases h; cases hq; exact ⟨⟨good_int.2 hc.1, rfl, by simp⟩, rfl⟩
  | rat r =>
    cases hq
    obtain ⟨he, hg, _, hn⟩ := ratExpr_ok hc.1 h
    refine ⟨⟨hg, hn, fun f hf => ?_⟩, ?_⟩
    · rw [he] at hf; split at hf <;> simp at hf
    · rw [he]; split
      · rename_i h1; simp [numVal, RatC.val, h1]
      · rfl
  | flt f => exact absurd rfl (hc.2 f)
  | undef => cases hq
  | zoo => cases hq

/-- Adding two exact numbers. -/
theorem addTwo_exact {a b r : Expr F} (ha : ExactNum a) (hb : ExactNum b) {o : Option (Expr F)} (h : addTwo a b = .ok o) (hr : ∀ x, o = some x → x = r)
    (hn : o ≠ none) : ExactNum r ∧ numVal r = numVal a + numVal b := by
  obtain ⟨x, hx, ex, vx⟩ := ha.coeff
  obtain ⟨y, hy, ey, vy⟩ := hb.coeff
  unfold addTwo at h
  rw [hx, hy] at h
  cases hc : addCoeff x y with
  | error e => simp only [hc] at h; cases h
  | ok c =>
    simp only [hc] at h
    obtain ⟨ec, vc⟩ := addCoeff_cls ex ey hc
    cases ht : c.toExpr with
    | error e => simp only [ht] at h; cases h
    | ok e =>
      simp only [ht] at h
      cases h
      rw [← hr e rfl]
      exact exactNum_of_cls ec (vc.trans (by rw [vx, vy]; rfl)) ht

theorem addFrom_exact {K : Ctors F} {a b r : Expr F} (ha : ExactNum a) (hb : ExactNum b) (h : addFrom K [a, b] = .ok r) :
    ExactNum r ∧ numVal r = numVal a + numVal b := by
  unfold addFrom at h
  cases hx : addTwo a b with
  | error e => simp only [hx] at h; cases h
  | ok o =>
    cases o with
    | some x =>
      simp only [hx] at h
      cases h
      exact addTwo_exact ha hb hx (fun x h => by cases h; rfl) (by simp)
    | none =>
      obtain ⟨x, hx', _⟩ := ha.coeff
      obtain ⟨y, hy', _⟩ := hb.coeff
      unfold addTwo at hx
      rw [hx', hy'] at hx
      simp only at hx
      split at hx
      · cases hx
      · split at hx <;> cases hx

theorem ctors_addNum (lic : Lic F) {n : Nat} {a b r : Expr F} (ha : ExactNum a) (hb : ExactNum b) (h : (ctors lic n).add [a, b] = .ok r) :
    ExactNum r ∧ numVal r = numVal a + numVal b := by
  cases n with
  | zero => cases h
  | succ n => exact addFrom_exact ha hb h

/-! ### The parts of a sum -/

omit [DecidableEq F] [FloatSem F] in
theorem NoFloats.not_flt {e : Expr F} (h : NoFloats e) (f : F) : e ≠ .flt f := by
  rintro rfl
  exact (all_node.1 h).1 f rfl

theorem exactNum_coeff {t : Expr F} (hg : Good t) (hf : NoFloats t) : ExactNum (asCoeffMul t).1 := by
  obtain ⟨h1, _, h2, _⟩ := asCoeffMul_ok hg
  refine ⟨h1, h2, ?_⟩
  have hs : ∀ ts : List (Expr F), Good (.mul ts) → (∀ s ∈ ts, NoFloats s) → ∀ f, (splitMul ts).1 ≠ .flt f := by
    intro ts hgt hts f
    unfold splitMul
    split
    · simp
    · rename_i h0
      have hlen := ((good_mul.1 hgt).1).2
      rcases hfl : ts.filter isNumeric with _ | ⟨c, _ | ⟨d, l⟩⟩
      · exact absurd hfl h0
      · have : c ∈ ts.filter isNumeric := by rw [hfl]; simp
        exact (hts c (List.mem_filter.1 this).1).not_flt f
      · rw [hfl] at hlen; simp at hlen
  intro f
  unfold asCoeffMul
  split
  · simp
  · simp
  · exact absurd rfl (hf.not_flt _)
  · have hts : ∀ s ∈ _, NoFloats s := (all_node.1 hf).2
    split
    · exact (hts _ (by simp)).not_flt f
    · split
      · exact (hts _ (by simp)).not_flt f
      · exact hs _ hg hts f
  · exact hs _ hg (all_node.1 hf).2 f
  · simp

/-- The sum of the constants among the operands. -/
def constSum : List (Expr F) → Cls
  | [] => .num 0
  | t :: ts =>
    match Coeff.ofExpr t with
    | some c => c.cls.add (constSum ts)
    | none => constSum ts

/-- The operands that are not constants, as a coefficient and the rest. -/
def symPart (t : Expr F) : Option (Expr F × ℚ) :=
  match Coeff.ofExpr t with
  | some _ => none
  | none => some ((asCoeffMul t).2, numVal (asCoeffMul t).1)

/-- The coefficient of a term: the sum over the operands. -/
def coefSum (m : Expr F) (L : List (Expr F)) : ℚ := (((L.filterMap symPart).filter (fun p => p.1 = m)).map Prod.snd).sum

/-- The parts of a sum collect the operands `L`. -/
structure Collects (L : List (Expr F)) (p : AddParts F) : Prop where
  exact : p.coeff.Exact
  const : p.coeff.cls = constSum L
  nodup : (p.terms.map Prod.fst).Nodup
  keys : ∀ m, m ∈ p.terms.map Prod.fst ↔ m ∈ (L.filterMap symPart).map Prod.fst
  vals : ∀ mc ∈ p.terms, ExactNum mc.2 ∧ numVal mc.2 = coefSum mc.1 L

omit [FloatSem F] [DecidableEq F] in
theorem constSum_append (L M : List (Expr F)) : constSum (L ++ M) = (constSum L).add (constSum M) := by
  induction L with
  | nil => rw [List.nil_append, constSum, Cls.add_comm, Cls.add_zero]
  | cons t L ih =>
    rw [List.cons_append, constSum, constSum]
    cases Coeff.ofExpr t with
    | none => exact ih
    | some c => simp only; rw [ih, Cls.add_assoc]

omit [FloatSem F] [DecidableEq F] in
theorem constSum_perm {L L' : List (Expr F)} (h : L.Perm L') : constSum L = constSum L' := by
  induction h with
  | nil => rfl
  | cons t _ ih => rw [constSum, constSum, ih]
  | swap a b l =>
    simp only [constSum]
    cases Coeff.ofExpr a <;> cases Coeff.ofExpr b <;> simp only
    rw [← Cls.add_assoc, ← Cls.add_assoc, Cls.add_comm (Coeff.cls _) (Coeff.cls _)]
  | trans _ _ h1 h2 => exact h1.trans h2

theorem coefSum_perm {L L' : List (Expr F)} (m : Expr F) (h : L.Perm L') : coefSum m L = coefSum m L' :=
  (((h.filterMap symPart).filter _).map _).sum_eq

theorem coefSum_append (m : Expr F) (L M : List (Expr F)) : coefSum m (L ++ M) = coefSum m L + coefSum m M := by
  unfold coefSum
  rw [List.filterMap_append, List.filter_append, List.map_append, List.sum_append]

theorem coefSum_none {m : Expr F} {L : List (Expr F)} (h : m ∉ (L.filterMap symPart).map Prod.fst) : coefSum m L = 0 := by
  unfold coefSum
  rw [List.filter_eq_nil_iff.2, List.map_nil, List.sum_nil]
  intro p hp hm
  exact h (List.mem_map.2 ⟨p, hp, by simpa using hm⟩)

theorem coefSum_singleton {m t : Expr F} (h : Coeff.ofExpr t = none) :
    coefSum m [t] = if (asCoeffMul t).2 = m then numVal (asCoeffMul t).1 else 0 := by
  have : symPart t = some ((asCoeffMul t).2, numVal (asCoeffMul t).1) := by unfold symPart; rw [h]
  unfold coefSum
  rw [List.filterMap_cons, this, List.filterMap_nil]
  by_cases hm : (asCoeffMul t).2 = m
  · simp [hm]
  · simp [hm]

theorem findKey_none_iff {k : Expr F} {l : List (Expr F × Expr F)} : findKey k l = none ↔ k ∉ l.map Prod.fst := by
  induction l with
  | nil => simp [findKey]
  | cons x l ih =>
    obtain ⟨a, v⟩ := x
    rw [findKey]
    by_cases hk : identical a k = true
    · rw [if_pos hk]
      obtain rfl := eq_of_identical hk
      simp
    · rw [if_neg hk, ih]
      have : k ≠ a := by
        rintro rfl
        exact hk ((identical_iff _ _).2 rfl)
      simp [this]

theorem addTerm_collects {lic : Lic F} {n : Nat} {L : List (Expr F)} {p q : AddParts F} {t : Expr F} (hp : Collects L p) (hg : Good t) (hf : NoFloats t)
    (h : addTerm (ctors lic n) p t = .ok q) : Collects (L ++ [t]) q := by
  unfold addTerm at h
  cases hc : Coeff.ofExpr t with
  | some c =>
    simp only [hc] at h
    have hce : c.Exact := by
      rcases ofExpr_cases hc with ⟨n, rfl, rfl⟩ | ⟨r, rfl, rfl⟩ | ⟨f, rfl, rfl⟩ | ⟨rfl, rfl⟩ | ⟨rfl, rfl⟩
      · exact ⟨good_int.1 hg, by simp⟩
      · exact ⟨(good_rat.1 hg).1, by simp⟩
      · exact absurd rfl (hf.not_flt f)
      · exact ⟨trivial, by simp⟩
      · exact ⟨trivial, by simp⟩
    have hs : symPart t = none := by unfold symPart; rw [hc]
    cases ha : addCoeff p.coeff c with
    | error e => simp only [ha] at h; cases h
    | ok c' =>
      simp only [ha] at h
      cases h
      obtain ⟨h1, h2⟩ := addCoeff_cls hp.exact hce ha
      have hL : (L ++ [t]).filterMap symPart = L.filterMap symPart := by simp [hs]
      refine ⟨h1, ?_, hp.nodup, ?_, ?_⟩
      · show c'.cls = _
        rw [h2, constSum_append, hp.const, constSum, hc]
        simp only
        rw [constSum, Cls.add_zero]
      · rw [hL]; exact hp.keys
      · intro mc hmc
        have := hp.vals mc hmc
        unfold coefSum at this ⊢
        rw [hL]; exact this
  | none =>
    simp only [hc] at h
    have hs : symPart t = some ((asCoeffMul t).2, numVal (asCoeffMul t).1) := by unfold symPart; rw [hc]
    have hL : (L ++ [t]).filterMap symPart = L.filterMap symPart ++ [((asCoeffMul t).2, numVal (asCoeffMul t).1)] := by simp [hs]
    have hcs : constSum (L ++ [t]) = constSum L := by
      rw [constSum_append, constSum, hc]; simp only
      rw [constSum, Cls.add_zero]
    have hx := exactNum_coeff hg hf
    cases hk : findKey (asCoeffMul t).2 p.terms with
    | none =>
      simp only [hk] at h
      cases h
      have hk' := findKey_none_iff.1 hk
      refine ⟨hp.exact, by rw [hcs]; exact hp.const, ?_, ?_, ?_⟩
      · show ((p.terms ++ [((asCoeffMul t).2, (asCoeffMul t).1)]).map Prod.fst).Nodup
        rw [List.map_append, List.map_singleton]
        exact List.nodup_append.2 ⟨hp.nodup, by simp, by
          intro a ha b hb
          rw [List.mem_singleton] at hb
          intro e
          rw [e, hb] at ha
          exact hk' ha⟩
      · intro m
        show m ∈ (p.terms ++ [((asCoeffMul t).2, (asCoeffMul t).1)]).map Prod.fst ↔ _
        rw [hL, List.map_append, List.map_append, List.mem_append, List.mem_append, hp.keys m]
        rfl
      · intro mc hmc
        replace hmc : mc ∈ p.terms ++ [((asCoeffMul t).2, (asCoeffMul t).1)] := hmc
        rw [coefSum_append, coefSum_singleton hc]
        rcases List.mem_append.1 hmc with hmc | hmc
        · have hne : (asCoeffMul t).2 ≠ mc.1 := by
            intro e; exact hk' (List.mem_map.2 ⟨mc, hmc, e.symm⟩)
          rw [if_neg hne, add_zero]
          exact hp.vals mc hmc
        · rw [List.mem_singleton] at hmc
          subst hmc
          rw [if_pos rfl, coefSum_none (fun hm => hk' ((hp.keys _).2 hm)), zero_add]
          exact ⟨hx, rfl⟩
    | some c0 =>
      simp only [hk] at h
      cases ha : (ctors lic n).add [c0, (asCoeffMul t).1] with
      | error e => simp only [ha] at h; cases h
      | ok c' =>
        simp only [ha] at h
        cases h
        obtain ⟨l1, l2, hl, hset, _⟩ := findKey_split hk
        have hmem : ((asCoeffMul t).2, c0) ∈ p.terms := by rw [hl]; simp
        obtain ⟨h0, v0⟩ := hp.vals _ hmem
        obtain ⟨h1, v1⟩ := ctors_addNum lic h0 hx ha
        have hkeys : (setKey (asCoeffMul t).2 c' p.terms).map Prod.fst = p.terms.map Prod.fst := setKey_keys _ _ _
        have hmk : (asCoeffMul t).2 ∈ p.terms.map Prod.fst := List.mem_map.2 ⟨_, hmem, rfl⟩
        refine ⟨hp.exact, by rw [hcs]; exact hp.const, ?_, ?_, ?_⟩
        · show ((setKey (asCoeffMul t).2 c' p.terms).map Prod.fst).Nodup
          rw [hkeys]; exact hp.nodup
        · intro m
          show m ∈ (setKey (asCoeffMul t).2 c' p.terms).map Prod.fst ↔ _
          rw [hkeys, hL, List.map_append, List.mem_append, ← hp.keys m]
          constructor
          · exact Or.inl
          · rintro (h | h)
            · exact h
            · simp only [List.map_cons, List.map_nil, List.mem_singleton] at h
              rw [h]; exact hmk
        · intro mc hmc
          replace hmc : mc ∈ setKey (asCoeffMul t).2 c' p.terms := hmc
          have hnd := hp.nodup
          rw [hl, List.map_append, List.map_cons, List.nodup_append, List.nodup_cons] at hnd
          rw [hset] at hmc
          rw [coefSum_append, coefSum_singleton hc]
          rcases List.mem_append.1 hmc with hm | hm
          · rw [if_neg, add_zero]
            · exact hp.vals mc (by rw [hl]; simp [hm])
            · intro e
              exact hnd.2.2 mc.1 (List.mem_map_of_mem hm) _ (by simp) e.symm
          · rcases List.mem_cons.1 hm with rfl | hm
            · rw [if_pos rfl]
              exact ⟨h1, by rw [v1, v0]⟩
            · rw [if_neg, add_zero]
              · exact hp.vals mc (by rw [hl]; simp [hm])
              · intro e
                exact hnd.2.1.1 (List.mem_map.2 ⟨mc, hm, e.symm⟩)

theorem addTerms_collects {lic : Lic F} {n : Nat} {L ts : List (Expr F)} {p q : AddParts F} (hp : Collects L p) (hg : ∀ t ∈ ts, Good t ∧ NoFloats t)
    (h : foldRes (addTerm (ctors lic n)) p ts = .ok q) : Collects (L ++ ts) q := by
  induction ts generalizing p L with
  | nil => cases h; simpa using hp
  | cons t ts ih =>
    unfold foldRes at h
    cases ha : addTerm (ctors lic n) p t with
    | error e => simp only [ha] at h; cases h
    | ok p1 =>
      simp only [ha] at h
      have h1 := addTerm_collects hp (hg t (by simp)).1 (hg t (by simp)).2 ha
      have := ih h1 (fun u hu => hg u (by simp [hu])) h
      simpa using this

theorem collects_nil : Collects ([] : List (Expr F)) ⟨.int 0, []⟩ := by
  refine ⟨⟨inI64_small (by decide) (by decide), by simp⟩, by simp [Coeff.cls, constSum], by simp, by simp, by simp⟩

/-- The parts are the same up to order. -/
theorem collects_perm {L L' : List (Expr F)} {p p' : AddParts F} (h : L.Perm L') (hp : Collects L p) (hp' : Collects L' p') :
    p.coeff.cls = p'.coeff.cls ∧ p.terms.Perm p'.terms := by
  refine ⟨by rw [hp.const, hp'.const, constSum_perm h], ?_⟩
  have hk : ∀ m, m ∈ (L.filterMap symPart).map Prod.fst ↔ m ∈ (L'.filterMap symPart).map Prod.fst :=
    fun m => ((h.filterMap symPart).map Prod.fst).mem_iff
  have key : ∀ {L L' : List (Expr F)} {p p' : AddParts F}, L.Perm L' → Collects L p → Collects L' p' → ∀ mc ∈ p.terms, mc ∈ p'.terms := by
    intro L L' p p' h hp hp' mc hmc
    have h1 : mc.1 ∈ p'.terms.map Prod.fst :=
      (hp'.keys _).2 (((h.filterMap symPart).map Prod.fst).mem_iff.1 ((hp.keys _).1 (List.mem_map_of_mem hmc)))
    obtain ⟨mc', hmc', e⟩ := List.mem_map.1 h1
    obtain ⟨x, vx⟩ := hp.vals mc hmc
    obtain ⟨y, vy⟩ := hp'.vals mc' hmc'
    have : mc.2 = mc'.2 := by rw [x.eq, y.eq, vx, vy, e, coefSum_perm _ h]
    have : mc = mc' := Prod.ext e.symm this
    rw [this]; exact hmc'
  refine (List.perm_ext_iff_of_nodup ?_ ?_).2 fun mc => ⟨key h hp hp' mc, key h.symm hp' hp mc⟩
  · exact List.Nodup.of_map _ hp.nodup
  · exact List.Nodup.of_map _ hp'.nodup

omit [FloatSem F] [DecidableEq F] in
theorem mapRes_perm {α β : Type} {f : α → Res β} {as as' : List α} {bs bs' : List β} (h : as.Perm as') (h1 : mapRes f as = .ok bs)
    (h2 : mapRes f as' = .ok bs') : bs.Perm bs' := by
  have e : ∀ {as : List α} {bs : List β}, mapRes f as = .ok bs → as.map f = bs.map .ok := by
    intro as bs h
    have := mapRes_ok h
    clear h
    induction this with
    | nil => rfl
    | cons hab _ ih => simp [hab, ih]
  have h3 := h.map f
  rw [e h1, e h2] at h3
  exact (List.map_perm_map_iff (fun _ _ h => by cases h; rfl)).1 h3

theorem newSum_perm (reg : Registry) {l l' : List (Expr F)} (h : l.Perm l') (hl : ∀ a ∈ l, a.Regular reg) : newSum l = newSum l' := by
  rcases l with _ | ⟨a, _ | ⟨b, l⟩⟩
  · rw [List.nil_perm] at h; rw [h]
  · rw [List.singleton_perm] at h; rw [h]
  · have hlen := h.length_eq
    rcases l' with _ | ⟨a', _ | ⟨b', l'⟩⟩
    · simp at hlen
    · simp at hlen
    · show Expr.add (sortTerms _) = Expr.add (sortTerms _)
      rw [sortTerms_eq_of_perm reg h hl]

/-! ### Sums -/

omit [DecidableEq F] [FloatSem F] in
theorem flatAdds_perm {ts us : List (Expr F)} (h : ts.Perm us) : (flatAdds ts).Perm (flatAdds us) := by
  have e : ∀ l : List (Expr F), flatAdds l = l.flatMap flatAdd := by
    intro l
    induction l with
    | nil => rfl
    | cons a l ih => rw [flatAdds, ih]; rfl
  rw [e, e]
  exact h.flatMap_right _

mutual
theorem flatAdd_noFloats : ∀ e : Expr F, NoFloats e → ∀ t ∈ flatAdd e, NoFloats t
  | .node h as => by
    intro hg t ht
    rw [flatAdd.eq_def] at ht
    cases h
    case add => exact flatAdds_noFloats as (all_node.1 hg).2 t ht
    all_goals (simp only [List.mem_singleton] at ht; subst ht; exact hg)
theorem flatAdds_noFloats : ∀ es : List (Expr F), (∀ e ∈ es, NoFloats e) → ∀ t ∈ flatAdds es, NoFloats t
  | [] => by intro _ t ht; rw [flatAdds] at ht; simp at ht
  | a :: as => by
    intro hg t ht
    rw [flatAdds, List.mem_append] at ht
    rcases ht with ht | ht
    · exact flatAdd_noFloats a (hg a (by simp)) t ht
    · exact flatAdds_noFloats as (fun e he => hg e (by simp [he])) t ht
end

/-- What the parts of a sum made from regular operands without floats satisfy. -/
theorem sumParts_ok (reg : Registry) {lic : Lic F} {n : Nat} {ts : List (Expr F)} {p : AddParts F} (hg : ∀ t ∈ ts, Good t) (hf : ∀ t ∈ ts, NoFloats t)
    (hr : ∀ t ∈ ts, Over (Registered reg) t) (h : foldRes (addTerm (ctors lic n)) ⟨.int 0, []⟩ (flatAdds ts) = .ok p) :
    Collects (flatAdds ts) p ∧ (∀ mc ∈ p.terms, GoodTerm mc) ∧ OverA (Registered reg) p.terms := by
  refine ⟨?_, ?_, ?_⟩
  · have := addTerms_collects collects_nil (fun t ht => ⟨flatAdds_good ts hg t ht, flatAdds_noFloats ts hf t ht⟩) h
    simpa using this
  · exact (addTerms_ok (ctors_sound lic ⟨fun _ => none, fun _ _ => none, fun _ _ => none⟩ n) fine_zero (flatAdds_good ts hg) h).1.2
  · exact overT_fold (Q := fun p : AddParts F => OverA (Registered reg) p.terms) (R := Over (Registered reg))
      (fun s a s1 => over_addTerm (registered_basic reg) (ctors_closed (registered_basic reg) lic n) s a s1) (by simp [OverA, OverT])
      (over_flatAdds (registered_basic reg) ts hr) h

theorem sumGeneral_perm (reg : Registry) {lic : Lic F} {n : Nat} {ts us : List (Expr F)} {r r' : Expr F} (hp : ts.Perm us) (hg : ∀ t ∈ ts, Good t)
    (hf : ∀ t ∈ ts, NoFloats t) (hr : ∀ t ∈ ts, Over (Registered reg) t) (h : sumGeneral (ctors lic n) ts = .ok r)
    (h' : sumGeneral (ctors lic n) us = .ok r') : r = r' := by
  have hm : ∀ {t}, t ∈ us → t ∈ ts := fun ht => hp.mem_iff.2 ht
  unfold sumGeneral at h h'
  cases hx : foldRes (addTerm (ctors lic n)) ⟨.int 0, []⟩ (flatAdds ts) with
  | error e => simp only [hx] at h; cases h
  | ok p =>
    cases hy : foldRes (addTerm (ctors lic n)) ⟨.int 0, []⟩ (flatAdds us) with
    | error e => simp only [hy] at h'; cases h'
    | ok q =>
      simp only [hx] at h
      simp only [hy] at h'
      obtain ⟨c1, g1, o1⟩ := sumParts_ok reg hg hf hr hx
      obtain ⟨c2, _, _⟩ := sumParts_ok reg (fun t ht => hg t (hm ht)) (fun t ht => hf t (hm ht)) (fun t ht => hr t (hm ht)) hy
      obtain ⟨hc, ht⟩ := collects_perm (flatAdds_perm hp) c1 c2
      unfold createSum at h h'
      cases hcx : p.coeff.toExpr with
      | error e => simp only [hcx] at h; cases h
      | ok c =>
        cases hcy : q.coeff.toExpr with
        | error e => simp only [hcy] at h'; cases h'
        | ok d =>
          simp only [hcx] at h
          simp only [hcy] at h'
          have hcd : c = d := by rw [toExpr_cls c1.exact hcx, toExpr_cls c2.exact hcy, hc]
          subst hcd
          by_cases hu : isUndef c = true
          · rw [if_pos hu] at h h'
            cases h; cases h'; rfl
          · rw [if_neg hu] at h h'
            cases hmx : mapRes (sumOperand (ctors lic n)) (p.terms.filter (fun mc => !isInt 0 mc.2)) with
            | error e => simp only [hmx] at h; cases h
            | ok xs =>
              cases hmy : mapRes (sumOperand (ctors lic n)) (q.terms.filter (fun mc => !isInt 0 mc.2)) with
              | error e => simp only [hmy] at h'; cases h'
              | ok ys =>
                simp only [hmx] at h
                simp only [hmy] at h'
                cases h; cases h'
                have hxy : xs.Perm ys := mapRes_perm (ht.filter _) hmx hmy
                have hgood := (sumOperands_ok (ctors_sound lic ⟨fun _ => none, fun _ _ => none, fun _ _ => none⟩ n)
                  (fun mc hmc => g1 mc (List.mem_filter.1 hmc).1) (mapRes_ok hmx)).1
                have hover := over_mapRes (P := Registered reg) hmx fun mc hmc b hb =>
                  over_sumOperand (registered_basic reg) (ctors_closed (registered_basic reg) lic n) (o1.1 mc (List.mem_filter.1 hmc).1)
                    (o1.2 mc (List.mem_filter.1 hmc).1)
                    (fun h0 => by have := (List.mem_filter.1 hmc).2; rw [isInt_iff.2 h0] at this; cases this) hb
                have hreg : ∀ a ∈ xs, a.Regular reg := fun a ha => regular_of reg a (hgood a ha) (hover a ha)
                have hgc := (toExpr_ok c1.exact.1 hcx ⟨fun _ => none, fun _ _ => none, fun _ _ => none⟩).1
                by_cases h0 : isInt 0 c = true
                · rw [if_pos h0, if_pos h0]
                  exact newSum_perm reg hxy hreg
                · rw [if_neg h0, if_neg h0]
                  refine newSum_perm reg (hxy.cons c) fun a ha => ?_
                  rcases List.mem_cons.1 ha with rfl | ha
                  · exact regular_of reg _ hgc (over_toExpr (registered_basic reg) hcx)
                  · exact hreg a ha

theorem addTwo_swap {a b : Expr F} {o o' : Option (Expr F)} (ha : Good a) (hb : Good b) (fa : NoFloats a) (fb : NoFloats b) (h : addTwo a b = .ok o)
    (h' : addTwo b a = .ok o') : o = o' := by
  have hex : ∀ {e : Expr F} {c : Coeff F}, Good e → NoFloats e → Coeff.ofExpr e = some c → c.Exact := by
    intro e c hg hf hc
    rcases ofExpr_cases hc with ⟨n, rfl, rfl⟩ | ⟨r, rfl, rfl⟩ | ⟨f, rfl, rfl⟩ | ⟨rfl, rfl⟩ | ⟨rfl, rfl⟩
    · exact ⟨good_int.1 hg, by simp⟩
    · exact ⟨(good_rat.1 hg).1, by simp⟩
    · exact absurd rfl (hf.not_flt f)
    · exact ⟨trivial, by simp⟩
    · exact ⟨trivial, by simp⟩
  unfold addTwo at h h'
  cases hx : Coeff.ofExpr a with
  | none =>
    cases hy : Coeff.ofExpr b with
    | none => rw [hx, hy] at h h'; cases h; cases h'; rfl
    | some y => rw [hx, hy] at h h'; cases y <;> (cases h; cases h'; rfl)
  | some x =>
    cases hy : Coeff.ofExpr b with
    | none => rw [hx, hy] at h h'; cases x <;> (cases h; cases h'; rfl)
    | some y =>
      rw [hx, hy] at h h'
      simp only at h h'
      have ex := hex ha fa hx
      have ey := hex hb fb hy
      cases h1 : addCoeff x y with
      | error e => simp only [h1] at h; cases h
      | ok c =>
        cases h2 : addCoeff y x with
        | error e => simp only [h2] at h'; cases h'
        | ok d =>
          simp only [h1] at h
          simp only [h2] at h'
          obtain ⟨e1, v1⟩ := addCoeff_cls ex ey h1
          obtain ⟨e2, v2⟩ := addCoeff_cls ey ex h2
          cases h3 : c.toExpr with
          | error e => simp only [h3] at h; cases h
          | ok u =>
            cases h4 : d.toExpr with
            | error e => simp only [h4] at h'; cases h'
            | ok v =>
              simp only [h3] at h
              simp only [h4] at h'
              cases h; cases h'
              rw [toExpr_cls e1 h3, toExpr_cls e2 h4, v1, v2, Cls.add_comm]

theorem addFrom_perm (reg : Registry) {lic : Lic F} {n : Nat} {ts us : List (Expr F)} {r r' : Expr F} (hp : ts.Perm us) (hg : ∀ t ∈ ts, Good t)
    (hf : ∀ t ∈ ts, NoFloats t) (hr : ∀ t ∈ ts, Over (Registered reg) t) (h : addFrom (ctors lic n) ts = .ok r)
    (h' : addFrom (ctors lic n) us = .ok r') : r = r' := by
  have hlen := hp.length_eq
  rcases ts with _ | ⟨a, _ | ⟨b, _ | ⟨c, l⟩⟩⟩
  · cases h
  · rw [List.singleton_perm] at hp
    subst hp
    cases h; cases h'; rfl
  · rcases us with _ | ⟨a', _ | ⟨b', _ | ⟨c', l'⟩⟩⟩ <;> simp at hlen
    have hsw : (a' = a ∧ b' = b) ∨ (a' = b ∧ b' = a) := by
      have ha : a' ∈ [a, b] := hp.mem_iff.2 (by simp)
      rcases List.mem_cons.1 ha with rfl | ha
      · rw [List.perm_cons, List.singleton_perm] at hp
        cases hp; exact Or.inl ⟨rfl, rfl⟩
      · rw [List.mem_singleton] at ha
        subst ha
        have h2 := (List.Perm.swap _ _ _).trans hp
        rw [List.perm_cons, List.singleton_perm] at h2
        cases h2; exact Or.inr ⟨rfl, rfl⟩
    rcases hsw with ⟨rfl, rfl⟩ | ⟨rfl, rfl⟩
    · rw [h] at h'; cases h'; rfl
    · unfold addFrom at h h'
      cases h1 : addTwo b' a' with
      | error e => simp only [h1] at h; cases h
      | ok o =>
        cases h2 : addTwo a' b' with
        | error e => simp only [h2] at h'; cases h'
        | ok o' =>
          have := addTwo_swap (hg _ (by simp)) (hg _ (by simp)) (hf _ (by simp)) (hf _ (by simp)) h1 h2
          subst this
          cases o with
          | some x =>
            simp only [h1] at h
            simp only [h2] at h'
            cases h; cases h'; rfl
          | none =>
            simp only [h1] at h
            simp only [h2] at h'
            exact sumGeneral_perm reg hp hg hf hr h h'
  · rcases us with _ | ⟨a', _ | ⟨b', _ | ⟨c', l'⟩⟩⟩ <;> simp at hlen
    exact sumGeneral_perm reg hp hg hf hr h h'

/-! ### Products -/

/-- The product of two coefficient values. -/
def Cls.mul : Cls → Cls → Cls
  | .undef, _ => .undef
  | _, .undef => .undef
  | .zoo, .zoo => .zoo
  | .zoo, .num b => if b = 0 then .undef else .zoo
  | .num a, .zoo => if a = 0 then .undef else .zoo
  | .num a, .num b => .num (a * b)

theorem Cls.mul_comm (a b : Cls) : a.mul b = b.mul a := by
  cases a <;> cases b <;> simp [Cls.mul, _root_.mul_comm]

theorem Cls.mul_assoc (a b c : Cls) : (a.mul b).mul c = a.mul (b.mul c) := by
  cases a <;> cases b <;> cases c <;> simp only [Cls.mul] <;>
    first
    | rfl
    | (rw [_root_.mul_assoc])
    | (split <;> rfl)
    | (rename_i x y; by_cases hx : x = 0 <;> by_cases hy : y = 0 <;> simp [Cls.mul, hx, hy])
    | (rename_i x; by_cases hx : x = 0 <;> simp [Cls.mul, hx])

theorem Cls.mul_one (a : Cls) : a.mul (.num 1) = a := by cases a <;> simp [Cls.mul]

omit [DecidableEq F] [FloatSem F] in
theorem canonical_zero {r : RatC} (h : r.Canonical) : r.val = 0 ↔ r.n = 0 := by
  have : (r.d : ℚ) ≠ 0 := by have := h.2.2.1; exact_mod_cast this.ne'
  simp [RatC.val, this]

theorem mulCoeff_cls {a b c : Coeff F} (ha : a.Exact) (hb : b.Exact) (h : mulCoeff a b = .ok c) : c.Exact ∧ c.cls = a.cls.mul b.cls := by
  have z1 : ∀ (p : Prop) [Decidable p], (if p then Coeff.undef else Coeff.zoo : Coeff F).Exact := by
    intro p _; split <;> exact ⟨trivial, by simp⟩
  cases a with
  | flt f => exact absurd rfl (ha.2 f)
  | undef => simp only [mulCoeff, Except.ok.injEq] at h; subst h; exact ⟨⟨trivial, by simp⟩, by cases b <;> rfl⟩
  | zoo =>
    cases b with
    | flt f => exact absurd rfl (hb.2 f)
    | int n =>
      simp only [mulCoeff, Except.ok.injEq] at h; subst h
      refine ⟨z1 _, ?_⟩
      by_cases hn : n = 0 <;> simp [Coeff.cls, Cls.mul, hn]
    | rat r =>
      simp only [mulCoeff, Except.ok.injEq] at h; subst h
      refine ⟨z1 _, ?_⟩
      by_cases hn : r.n = 0
      · simp [Coeff.cls, Cls.mul, hn, (canonical_zero hb.1).2 hn]
      · have : ¬ r.val = 0 := fun e => hn ((canonical_zero hb.1).1 e)
        simp [Coeff.cls, Cls.mul, hn, this]
    | _ => simp only [mulCoeff, Except.ok.injEq] at h; subst h; exact ⟨⟨trivial, by simp⟩, rfl⟩
  | int m =>
    cases b with
    | flt f => exact absurd rfl (hb.2 f)
    | undef => simp only [mulCoeff, Except.ok.injEq] at h; subst h; exact ⟨⟨trivial, by simp⟩, rfl⟩
    | zoo =>
      simp only [mulCoeff, Except.ok.injEq] at h; subst h
      refine ⟨z1 _, ?_⟩
      by_cases hn : m = 0 <;> simp [Coeff.cls, Cls.mul, hn]
    | int n =>
      obtain ⟨k, hk, rfl⟩ := intCoeff_ok h
      obtain ⟨rfl, hi⟩ := cmul_ok ha.1 hb.1 hk
      exact ⟨⟨hi, by simp⟩, by simp [Coeff.cls, Cls.mul]⟩
    | rat s =>
      obtain ⟨k, hk, rfl⟩ := ratCoeff_ok h
      obtain ⟨hc, hv⟩ := ratMul_ok hb.1 (canonical_ofInt ha.1) hk
      exact ⟨⟨hc, by simp⟩, by simp [Coeff.cls, Cls.mul, hv, ratOfInt_val, _root_.mul_comm]⟩
  | rat r =>
    cases b with
    | flt f => exact absurd rfl (hb.2 f)
    | undef => simp only [mulCoeff, Except.ok.injEq] at h; subst h; exact ⟨⟨trivial, by simp⟩, rfl⟩
    | zoo =>
      simp only [mulCoeff, Except.ok.injEq] at h; subst h
      refine ⟨z1 _, ?_⟩
      by_cases hn : r.n = 0
      · simp [Coeff.cls, Cls.mul, hn, (canonical_zero ha.1).2 hn]
      · have : ¬ r.val = 0 := fun e => hn ((canonical_zero ha.1).1 e)
        simp [Coeff.cls, Cls.mul, hn, this]
    | int n =>
      obtain ⟨k, hk, rfl⟩ := ratCoeff_ok h
      obtain ⟨hc, hv⟩ := ratMul_ok ha.1 (canonical_ofInt hb.1) hk
      exact ⟨⟨hc, by simp⟩, by simp [Coeff.cls, Cls.mul, hv, ratOfInt_val]⟩
    | rat s =>
      obtain ⟨k, hk, rfl⟩ := ratCoeff_ok h
      obtain ⟨hc, hv⟩ := ratMul_ok ha.1 hb.1 hk
      exact ⟨⟨hc, by simp⟩, by simp [Coeff.cls, Cls.mul, hv]⟩

/-- The product of the constants among the operands. -/
def constProd : List (Expr F) → Cls
  | [] => .num 1
  | t :: ts =>
    match Coeff.ofExpr t with
    | some c => c.cls.mul (constProd ts)
    | none => constProd ts

omit [FloatSem F] [DecidableEq F] in
theorem constProd_append (L M : List (Expr F)) : constProd (L ++ M) = (constProd L).mul (constProd M) := by
  induction L with
  | nil => rw [List.nil_append, constProd, Cls.mul_comm, Cls.mul_one]
  | cons t L ih =>
    rw [List.cons_append, constProd, constProd]
    cases Coeff.ofExpr t with
    | none => exact ih
    | some c => simp only; rw [ih, Cls.mul_assoc]

omit [FloatSem F] [DecidableEq F] in
theorem constProd_perm {L L' : List (Expr F)} (h : L.Perm L') : constProd L = constProd L' := by
  induction h with
  | nil => rfl
  | cons t _ ih => rw [constProd, constProd, ih]
  | swap a b l =>
    simp only [constProd]
    cases Coeff.ofExpr a <;> cases Coeff.ofExpr b <;> simp only
    rw [← Cls.mul_assoc, ← Cls.mul_assoc, Cls.mul_comm (Coeff.cls _) (Coeff.cls _)]
  | trans _ _ h1 h2 => exact h1.trans h2

/-- The powers of one base. -/
def powersOf (b : Expr F) (L : List (Expr F)) : List (Expr F) := ((L.filterMap factorOf).filter (fun p => p.1 = b)).map Prod.snd

/-- `e` is the exponent for the powers with exponents `es` of one base: the sum if all are numbers, and the only one otherwise. -/
def Total (es : List (Expr F)) (e : Expr F) : Prop := es = [e] ∨ (∀ x ∈ es, ExactNum x) ∧ ExactNum e ∧ numVal e = (es.map numVal).sum

theorem Total.unique {es es' : List (Expr F)} {e e' : Expr F} (hp : es.Perm es') (h : Total es e) (h' : Total es' e') : e = e' := by
  rcases h with rfl | ⟨h1, h2, h3⟩
  · rw [List.singleton_perm] at hp
    subst hp
    rcases h' with h' | ⟨h1, h2, h3⟩
    · cases h'; rfl
    · rw [(h1 e (by simp)).eq, h2.eq, h3]; simp
  · rcases h' with rfl | ⟨h1', h2', h3'⟩
    · rw [List.perm_singleton] at hp
      subst hp
      rw [(h1 e' (by simp)).eq, h2.eq, h3]; simp
    · rw [h2.eq, h2'.eq, h3, h3', (hp.map numVal).sum_eq]

/-- The parts of a product collect the factors `L`. -/
structure CollectsP (L : List (Expr F)) (p : MulParts F) : Prop where
  exact : p.coeff.Exact
  const : p.coeff.cls = constProd L
  nodup : (p.terms.map Prod.fst).Nodup
  keys : ∀ b, b ∈ p.terms.map Prod.fst ↔ b ∈ (L.filterMap factorOf).map Prod.fst
  vals : ∀ be ∈ p.terms, Total (powersOf be.1 L) be.2

theorem powersOf_append (b : Expr F) (L M : List (Expr F)) : powersOf b (L ++ M) = powersOf b L ++ powersOf b M := by
  unfold powersOf
  rw [List.filterMap_append, List.filter_append, List.map_append]

theorem powersOf_perm {L L' : List (Expr F)} (b : Expr F) (h : L.Perm L') : (powersOf b L).Perm (powersOf b L') :=
  ((h.filterMap factorOf).filter _).map _

theorem powersOf_none {b : Expr F} {L : List (Expr F)} (h : b ∉ (L.filterMap factorOf).map Prod.fst) : powersOf b L = [] := by
  unfold powersOf
  rw [List.filter_eq_nil_iff.2, List.map_nil]
  intro p hp hm
  exact h (List.mem_map.2 ⟨p, hp, by simpa using hm⟩)

theorem powersOf_singleton {b t : Expr F} (h : Coeff.ofExpr t = none) :
    powersOf b [t] = if (powerOf t).1 = b then [(powerOf t).2] else [] := by
  have : factorOf t = some (powerOf t) := by unfold factorOf; rw [h]
  unfold powersOf
  rw [List.filterMap_cons, this, List.filterMap_nil]
  by_cases hm : (powerOf t).1 = b
  · simp [hm]
  · simp [hm]

theorem powersOf_const {b t : Expr F} {c : Coeff F} (h : Coeff.ofExpr t = some c) : powersOf b [t] = [] := by
  have : factorOf t = none := by unfold factorOf; rw [h]
  unfold powersOf
  rw [List.filterMap_cons, this, List.filterMap_nil]
  rfl

theorem mulTerm_power {K : Ctors F} {lic : Lic F} {p : MulParts F} {t : Expr F} (hc : Coeff.ofExpr t = none) :
    mulTerm K lic p t = insertPower K lic p (powerOf t).1 (powerOf t).2 := by
  unfold mulTerm
  rw [hc]
  simp only
  split
  · rfl
  · rfl
  · rename_i h1 h2
    have : powerOf t = (t, .int 1) := by
      unfold powerOf; split
      · exact absurd rfl (h1 _ _)
      · exact absurd rfl (h2 _)
      · rfl
    rw [this]

theorem mulTerm_collects {lic : Lic F} {n : Nat} {L : List (Expr F)} {p q : MulParts F} {t : Expr F} (hp : CollectsP L p) (hg : Good t) (hf : NoFloats t)
    (hm : Mergeable (L ++ [t])) (hb : Coeff.ofExpr t = none → PlainBase (powerOf t).1) (h : mulTerm (ctors lic n) lic p t = .ok q) :
    CollectsP (L ++ [t]) q := by
  cases hc : Coeff.ofExpr t with
  | some c =>
    unfold mulTerm at h
    simp only [hc] at h
    have hce : c.Exact := by
      rcases ofExpr_cases hc with ⟨n, rfl, rfl⟩ | ⟨r, rfl, rfl⟩ | ⟨f, rfl, rfl⟩ | ⟨rfl, rfl⟩ | ⟨rfl, rfl⟩
      · exact ⟨good_int.1 hg, by simp⟩
      · exact ⟨(good_rat.1 hg).1, by simp⟩
      · exact absurd rfl (hf.not_flt f)
      · exact ⟨trivial, by simp⟩
      · exact ⟨trivial, by simp⟩
    have hs : factorOf t = none := by unfold factorOf; rw [hc]
    cases ha : mulCoeff p.coeff c with
    | error e => simp only [ha] at h; cases h
    | ok c' =>
      simp only [ha] at h
      cases h
      obtain ⟨h1, h2⟩ := mulCoeff_cls hp.exact hce ha
      have hL : (L ++ [t]).filterMap factorOf = L.filterMap factorOf := by simp [hs]
      refine ⟨h1, ?_, hp.nodup, ?_, ?_⟩
      · show c'.cls = _
        rw [h2, constProd_append, hp.const, constProd, hc]
        simp only
        rw [constProd, Cls.mul_one]
      · rw [hL]; exact hp.keys
      · intro be hbe
        rw [powersOf_append, powersOf_const hc, List.append_nil]
        exact hp.vals be hbe
  | none =>
    rw [mulTerm_power hc] at h
    have hs : factorOf t = some (powerOf t) := by unfold factorOf; rw [hc]
    have hL : (L ++ [t]).filterMap factorOf = L.filterMap factorOf ++ [powerOf t] := by simp [hs]
    have hcs : constProd (L ++ [t]) = constProd L := by
      rw [constProd_append, constProd, hc]; simp only
      rw [constProd, Cls.mul_one]
    have hbase := hb hc
    unfold insertPower at h
    cases hk : findKey (powerOf t).1 p.terms with
    | none =>
      simp only [hk] at h
      cases h
      have hk' := findKey_none_iff.1 hk
      refine ⟨hp.exact, by rw [hcs]; exact hp.const, ?_, ?_, ?_⟩
      · show ((p.terms ++ [powerOf t]).map Prod.fst).Nodup
        rw [List.map_append, List.map_singleton]
        exact List.nodup_append.2 ⟨hp.nodup, by simp, by
          intro a ha b hb
          rw [List.mem_singleton] at hb
          intro e
          rw [e, hb] at ha
          exact hk' ha⟩
      · intro m
        show m ∈ (p.terms ++ [powerOf t]).map Prod.fst ↔ _
        rw [hL, List.map_append, List.map_append, List.mem_append, List.mem_append, hp.keys m]
      · intro be hbe
        replace hbe : be ∈ p.terms ++ [powerOf t] := hbe
        rw [powersOf_append, powersOf_singleton hc]
        rcases List.mem_append.1 hbe with hbe | hbe
        · have hne : (powerOf t).1 ≠ be.1 := by
            intro e; exact hk' (List.mem_map.2 ⟨be, hbe, e.symm⟩)
          rw [if_neg hne, List.append_nil]
          exact hp.vals be hbe
        · rw [List.mem_singleton] at hbe
          subst hbe
          rw [if_pos rfl, powersOf_none (fun hm => hk' ((hp.keys _).2 hm))]
          exact Or.inl rfl
    | some e0 =>
      simp only [hk] at h
      cases ha : (ctors lic n).add [e0, (powerOf t).2] with
      | error e => simp only [ha] at h; cases h
      | ok u =>
        simp only [ha] at h
        unfold mergePower at h
        rw [if_neg (by rw [hbase.2.1]; simp)] at h
        cases h
        obtain ⟨l1, l2, hl, hset, _⟩ := findKey_split hk
        have hmem : ((powerOf t).1, e0) ∈ p.terms := by rw [hl]; simp
        have hmk : (powerOf t).1 ∈ p.terms.map Prod.fst := List.mem_map.2 ⟨_, hmem, rfl⟩
        -- every power of this base has a number as exponent
        have hnum : (∀ x ∈ powersOf (powerOf t).1 L, ExactNum x) ∧ ExactNum (powerOf t).2 := by
          unfold Mergeable at hm
          rw [hL, List.pairwise_append] at hm
          constructor
          · intro x hx
            obtain ⟨f, hf1, rfl⟩ := List.mem_map.1 hx
            obtain ⟨hf2, hf3⟩ := List.mem_filter.1 hf1
            exact (hm.2.2 f hf2 (powerOf t) (by simp) (by simpa using hf3)).1
          · obtain ⟨f, hf2, hf3⟩ := List.mem_map.1 ((hp.keys _).1 hmk)
            exact (hm.2.2 f hf2 (powerOf t) (by simp) hf3).2
        have h0 : ExactNum e0 ∧ numVal e0 = ((powersOf (powerOf t).1 L).map numVal).sum := by
          rcases hp.vals _ hmem with he | ⟨_, h2, h3⟩
          · have he' : powersOf (powerOf t).1 L = [e0] := he
            exact ⟨hnum.1 e0 (by rw [he']; simp), by rw [he']; simp⟩
          · exact ⟨h2, h3⟩
        obtain ⟨h1, v1⟩ := ctors_addNum lic h0.1 hnum.2 ha
        have hkeys : (setKey (powerOf t).1 u p.terms).map Prod.fst = p.terms.map Prod.fst := setKey_keys _ _ _
        refine ⟨hp.exact, by rw [hcs]; exact hp.const, ?_, ?_, ?_⟩
        · show ((setKey (powerOf t).1 u p.terms).map Prod.fst).Nodup
          rw [hkeys]; exact hp.nodup
        · intro m
          show m ∈ (setKey (powerOf t).1 u p.terms).map Prod.fst ↔ _
          rw [hkeys, hL, List.map_append, List.mem_append, ← hp.keys m]
          constructor
          · exact Or.inl
          · rintro (h | h)
            · exact h
            · simp only [List.map_cons, List.map_nil, List.mem_singleton] at h
              rw [h]; exact hmk
        · intro be hbe
          replace hbe : be ∈ setKey (powerOf t).1 u p.terms := hbe
          have hnd := hp.nodup
          rw [hl, List.map_append, List.map_cons, List.nodup_append, List.nodup_cons] at hnd
          rw [hset] at hbe
          rw [powersOf_append, powersOf_singleton hc]
          rcases List.mem_append.1 hbe with hm | hm
          · rw [if_neg, List.append_nil]
            · exact hp.vals be (by rw [hl]; simp [hm])
            · intro e
              exact hnd.2.2 be.1 (List.mem_map_of_mem hm) _ (by simp) e.symm
          · rcases List.mem_cons.1 hm with rfl | hm
            · rw [if_pos rfl]
              refine Or.inr ⟨fun x hx => ?_, h1, ?_⟩
              · rcases List.mem_append.1 hx with hx | hx
                · exact hnum.1 x hx
                · rw [List.mem_singleton] at hx; rw [hx]; exact hnum.2
              · rw [v1, h0.2, List.map_append, List.sum_append]; simp
            · rw [if_neg, List.append_nil]
              · exact hp.vals be (by rw [hl]; simp [hm])
              · intro e
                exact hnd.2.1.1 (List.mem_map.2 ⟨be, hm, e.symm⟩)

theorem Mergeable.left {L M : List (Expr F)} (h : Mergeable (L ++ M)) : Mergeable L := by
  unfold Mergeable at *
  rw [List.filterMap_append, List.pairwise_append] at h
  exact h.1

theorem mergeable_perm {L L' : List (Expr F)} (hp : L.Perm L') (h : Mergeable L) : Mergeable L' :=
  (List.Perm.pairwise_iff (fun hxy e => (hxy e.symm).symm) (hp.filterMap factorOf)).1 h

theorem mulTerms_collects {lic : Lic F} {n : Nat} {L ts : List (Expr F)} {p q : MulParts F} (hp : CollectsP L p) (hg : ∀ t ∈ ts, Good t ∧ NoFloats t)
    (hm : Mergeable (L ++ ts)) (hb : ∀ t ∈ ts, Coeff.ofExpr t = none → PlainBase (powerOf t).1)
    (h : foldRes (mulTerm (ctors lic n) lic) p ts = .ok q) : CollectsP (L ++ ts) q := by
  induction ts generalizing p L with
  | nil => cases h; simpa using hp
  | cons t ts ih =>
    unfold foldRes at h
    cases ha : mulTerm (ctors lic n) lic p t with
    | error e => simp only [ha] at h; cases h
    | ok p1 =>
      simp only [ha] at h
      have hm' : Mergeable (L ++ [t] ++ ts) := by simpa using hm
      have h1 := mulTerm_collects hp (hg t (by simp)).1 (hg t (by simp)).2 hm'.left (hb t (by simp)) ha
      have := ih h1 (fun u hu => hg u (by simp [hu])) hm' (fun u hu => hb u (by simp [hu])) h
      simpa using this

theorem collectsP_nil : CollectsP ([] : List (Expr F)) ⟨.int 1, []⟩ := by
  refine ⟨⟨inI64_small (by decide) (by decide), by simp⟩, by simp [Coeff.cls, constProd], by simp, by simp, by simp⟩

theorem collectsP_perm {L L' : List (Expr F)} {p p' : MulParts F} (h : L.Perm L') (hp : CollectsP L p) (hp' : CollectsP L' p') :
    p.coeff.cls = p'.coeff.cls ∧ p.terms.Perm p'.terms := by
  refine ⟨by rw [hp.const, hp'.const, constProd_perm h], ?_⟩
  have key : ∀ {L L' : List (Expr F)} {p p' : MulParts F}, L.Perm L' → CollectsP L p → CollectsP L' p' → ∀ mc ∈ p.terms, mc ∈ p'.terms := by
    intro L L' p p' h hp hp' mc hmc
    have h1 : mc.1 ∈ p'.terms.map Prod.fst :=
      (hp'.keys _).2 (((h.filterMap factorOf).map Prod.fst).mem_iff.1 ((hp.keys _).1 (List.mem_map_of_mem hmc)))
    obtain ⟨mc', hmc', e⟩ := List.mem_map.1 h1
    have h2 := hp'.vals mc' hmc'
    rw [e] at h2
    have : mc = mc' := Prod.ext e.symm (Total.unique (powersOf_perm _ h) (hp.vals mc hmc) h2)
    rw [this]; exact hmc'
  refine (List.perm_ext_iff_of_nodup ?_ ?_).2 fun mc => ⟨key h hp hp' mc, key h.symm hp' hp mc⟩
  · exact List.Nodup.of_map _ hp.nodup
  · exact List.Nodup.of_map _ hp'.nodup

/-- What a power of a plain base becomes. -/
theorem powCreate_plain {K : Ctors F} {lic : Lic F} {b e r : Expr F} (hb : PlainBase b) (h : powCreate K lic b e = .ok r) :
    (r = .undef ∧ (e = .undef ∨ e = .zoo)) ∨ (e = .int 0 ∧ r = .int 1) ∨ (e = .int 1 ∧ r = b) ∨ (e ≠ .int 1 ∧ r = .pow b e) := by
  obtain ⟨h1, h2, h3, h4, h5⟩ := hb
  unfold powCreate powSimplify at h
  have hn : powNumeric K lic b e = .ok (if isUndef e then some .undef else none) := by
    unfold powNumeric
    rw [h1]
    cases hc : Coeff.ofExpr e with
    | none =>
      have : isUndef e = false := by
        cases hu : isUndef e with
        | false => rfl
        | true => rw [isUndef_iff.1 hu] at hc; cases hc
      rw [this]; rfl
    | some c =>
      rcases ofExpr_cases hc with ⟨n, rfl, rfl⟩ | ⟨r, rfl, rfl⟩ | ⟨f, rfl, rfl⟩ | ⟨rfl, rfl⟩ | ⟨rfl, rfl⟩ <;> rfl
  rw [hn] at h
  by_cases hu : isUndef e = true
  · rw [if_pos hu] at h; cases h; exact Or.inl ⟨rfl, Or.inl (isUndef_iff.1 hu)⟩
  · rw [if_neg hu] at h
    simp only at h
    have hi : (isInt 1 b || isInt (-1) b) = false := by
      cases x : isInt 1 b
      · cases y : isInt (-1) b
        · rfl
        · rw [isInt_iff.1 y] at h1; cases h1
      · rw [isInt_iff.1 x] at h1; cases h1
    have hpi : powImag b e = .ok none := by unfold powImag; rw [h3]; rfl
    have hs : powSymbolic K lic b e = powNested K lic b e := by
      unfold powSymbolic
      rw [hi, hpi, h4]; rfl
    have ht : powNested K lic b e = powTail K lic b e := by
      unfold powNested
      split
      · cases h2
      · exact absurd rfl (h5 _)
      · rfl
    rw [hs, ht] at h
    unfold powTail at h
    by_cases hz : isZoo e = true
    · rw [if_pos hz] at h; cases h; exact Or.inl ⟨rfl, Or.inr (isZoo_iff.1 hz)⟩
    · rw [if_neg hz] at h
      by_cases h0 : isInt 0 e = true
      · rw [if_pos h0] at h; cases h; exact Or.inr (Or.inl ⟨isInt_iff.1 h0, rfl⟩)
      · rw [if_neg h0] at h
        by_cases h1' : isInt 1 e = true
        · rw [if_pos h1'] at h; cases h; exact Or.inr (Or.inr (Or.inl ⟨isInt_iff.1 h1', rfl⟩))
        · rw [if_neg h1'] at h
          split at h
          · cases h
          · rename_i r' hr
            split at hr
            · cases h2
            · cases h2
            · cases hr
          · cases h; exact Or.inr (Or.inr (Or.inr ⟨fun e1 => h1' (isInt_iff.2 e1), rfl⟩))

theorem ctors_pow_plain {lic : Lic F} {n : Nat} {b e r : Expr F} (hb : PlainBase b) (he : isInt 0 e = false) (h : (ctors lic n).pow b e = .ok r) :
    hasNumericCoeff r = false := by
  cases n with
  | zero => cases h
  | succ n =>
    rcases powCreate_plain hb h with ⟨rfl, _⟩ | ⟨rfl, _⟩ | ⟨_, rfl⟩ | ⟨_, rfl⟩
    · rfl
    · cases he
    · have h1 := hb.1
      have h2 := hb.2.1
      unfold hasNumericCoeff
      split
      · cases h1
      · cases h1
      · cases h1
      · cases h2
      · rfl
    · rfl

/-- The powers of a product, in order. -/
theorem createSteps_plain {lic : Lic F} {n : Nat} {l : List (Expr F × Expr F)} {st st' : CreateSt F} (hb : ∀ be ∈ l, PlainBase be.1 ∧ isInt 0 be.2 = false)
    (h : foldRes (createStep (ctors lic n)) st l = .ok st') :
    ∃ ps, mapRes (fun be => (ctors lic n).pow be.1 be.2) l = .ok ps ∧ st' = (st.1, st.2 ++ ps) := by
  induction l generalizing st with
  | nil => cases h; exact ⟨[], rfl, by simp⟩
  | cons be l ih =>
    unfold foldRes at h
    unfold createStep at h
    cases hp : (ctors lic n).pow be.1 be.2 with
    | error e => simp only [hp] at h; cases h
    | ok pw =>
      simp only [hp] at h
      have hn := ctors_pow_plain (hb be (by simp)).1 (hb be (by simp)).2 hp
      have hc : collectPower st pw = .ok (st.1, st.2 ++ [pw]) := by
        unfold collectPower; rw [hn]; rfl
      rw [hc] at h
      obtain ⟨ps, h1, h2⟩ := ih (fun x hx => hb x (by simp [hx])) h
      refine ⟨pw :: ps, ?_, by rw [h2]; simp⟩
      unfold mapRes
      simp only [hp, h1]

theorem maybeNewMul_perm (reg : Registry) {l l' : List (Expr F)} (h : l.Perm l') (hl : ∀ a ∈ l, a.Regular reg) : maybeNewMul l = maybeNewMul l' := by
  rcases l with _ | ⟨a, _ | ⟨b, l⟩⟩
  · rw [List.nil_perm] at h; rw [h]
  · rw [List.singleton_perm] at h; rw [h]
  · have hlen := h.length_eq
    rcases l' with _ | ⟨a', _ | ⟨b', l'⟩⟩
    · simp at hlen
    · simp at hlen
    · show Expr.mul (sortTerms _) = Expr.mul (sortTerms _)
      rw [sortTerms_eq_of_perm reg h hl]

theorem finishProduct_perm (reg : Registry) {K : Ctors F} {c : Expr F} {l l' : List (Expr F)} (h : l.Perm l') (hl : ∀ a ∈ l, a.Regular reg)
    (hc : c.Regular reg) : finishProduct K c l = finishProduct K c l' := by
  by_cases h1 : ∃ a, l = [a]
  · obtain ⟨a, rfl⟩ := h1
    rw [List.singleton_perm] at h
    rw [h]
  · have h2 : ¬ ∃ a, l' = [a] := by
      rintro ⟨a, rfl⟩
      rw [List.perm_singleton] at h
      exact h1 ⟨a, h⟩
    have h3 : maybeNewMul l = maybeNewMul l' := maybeNewMul_perm reg h hl
    have h4 : maybeNewMul (l ++ [c]) = maybeNewMul (l' ++ [c]) := maybeNewMul_perm reg (h.append_right _) (by
      intro a ha
      rcases List.mem_append.1 ha with ha | ha
      · exact hl a ha
      · rw [List.mem_singleton] at ha; rw [ha]; exact hc)
    have e : ∀ {l : List (Expr F)}, (¬ ∃ a, l = [a]) → finishProduct K c l =
        if isInt 0 c || isUndef c then .ok c else if isInt 1 c then .ok (maybeNewMul l) else .ok (maybeNewMul (l ++ [c])) := by
      intro l hl
      unfold finishProduct
      split
      · rfl
      · split
        · exact absurd ⟨_, rfl⟩ hl
        · rename_i hb; rw [hb]; rfl
        · rename_i hb; rw [hb]; rfl
    rw [e h1, e h2, h3, h4]

omit [FloatSem F] [DecidableEq F] in
theorem foldRes_append {σ α : Type} {f : σ → α → Res σ} (as bs : List α) (s : σ) :
    foldRes f s (as ++ bs) = match foldRes f s as with | .error e => .error e | .ok s' => foldRes f s' bs := by
  induction as generalizing s with
  | nil => rfl
  | cons a as ih =>
    rw [List.cons_append, foldRes, foldRes]
    cases f s a with
    | error e => rfl
    | ok s1 => exact ih s1

theorem mulVisits_flat {K : Ctors F} {lic : Lic F} (ts : List (Expr F)) (p : MulParts F) :
    foldRes (mulVisit K lic) p ts = foldRes (mulTerm K lic) p (flatMuls ts) := by
  induction ts generalizing p with
  | nil => rfl
  | cons t ts ih =>
    rw [foldRes, flatMuls, foldRes_append]
    unfold mulVisit
    cases foldRes (mulTerm K lic) p (flatMul t) with
    | error e => rfl
    | ok q => exact ih q

omit [DecidableEq F] [FloatSem F] in
theorem flatMuls_perm {ts us : List (Expr F)} (h : ts.Perm us) : (flatMuls ts).Perm (flatMuls us) := by
  have e : ∀ l : List (Expr F), flatMuls l = l.flatMap flatMul := by
    intro l
    induction l with
    | nil => rfl
    | cons a l ih => rw [flatMuls, ih]; rfl
  rw [e, e]
  exact h.flatMap_right _

mutual
theorem flatMul_noFloats : ∀ e : Expr F, NoFloats e → ∀ t ∈ flatMul e, NoFloats t
  | .node h as => by
    intro hg t ht
    rw [flatMul.eq_def] at ht
    cases h
    case mul => exact flatMuls_noFloats as (all_node.1 hg).2 t ht
    all_goals (simp only [List.mem_singleton] at ht; subst ht; exact hg)
theorem flatMuls_noFloats : ∀ es : List (Expr F), (∀ e ∈ es, NoFloats e) → ∀ t ∈ flatMuls es, NoFloats t
  | [] => by intro _ t ht; rw [flatMuls] at ht; simp at ht
  | a :: as => by
    intro hg t ht
    rw [flatMuls, List.mem_append] at ht
    rcases ht with ht | ht
    · exact flatMul_noFloats a (hg a (by simp)) t ht
    · exact flatMuls_noFloats as (fun e he => hg e (by simp [he])) t ht
end

theorem productGeneral_perm (reg : Registry) {lic : Lic F} {n : Nat} {ts us : List (Expr F)} {r r' : Expr F} (hp : ts.Perm us) (hg : ∀ t ∈ ts, Good t)
    (hf : ∀ t ∈ ts, NoFloats t) (hr : ∀ t ∈ ts, Over (Registered reg) t) (hm : Mergeable (flatMuls ts))
    (hb : ∀ t ∈ flatMuls ts, Coeff.ofExpr t = none → PlainBase (powerOf t).1) (h : productGeneral (ctors lic n) lic ts = .ok r)
    (h' : productGeneral (ctors lic n) lic us = .ok r') : r = r' := by
  have hfp := flatMuls_perm hp
  unfold productGeneral at h h'
  rw [mulVisits_flat] at h h'
  cases hx : foldRes (mulTerm (ctors lic n) lic) ⟨.int 1, []⟩ (flatMuls ts) with
  | error e => simp only [hx] at h; cases h
  | ok p =>
    cases hy : foldRes (mulTerm (ctors lic n) lic) ⟨.int 1, []⟩ (flatMuls us) with
    | error e => simp only [hy] at h'; cases h'
    | ok q =>
      simp only [hx] at h
      simp only [hy] at h'
      have c1 : CollectsP (flatMuls ts) p := by
        have := mulTerms_collects collectsP_nil (fun t ht => ⟨flatMuls_good ts hg t ht, flatMuls_noFloats ts hf t ht⟩) (by simpa using hm) hb hx
        simpa using this
      have c2 : CollectsP (flatMuls us) q := by
        have := mulTerms_collects collectsP_nil (fun t ht => ⟨flatMuls_good us (fun t ht => hg t (hp.mem_iff.2 ht)) t ht,
          flatMuls_noFloats us (fun t ht => hf t (hp.mem_iff.2 ht)) t ht⟩) (by simpa using mergeable_perm hfp hm)
          (fun t ht => hb t (hfp.mem_iff.2 ht)) hy
        simpa using this
      obtain ⟨hc, ht⟩ := collectsP_perm hfp c1 c2
      have hfine := (mulTerms_ok (ctors_sound lic ⟨fun _ => none, fun _ _ => none, fun _ _ => none⟩ n)
        (p := ⟨.int 1, []⟩) ⟨inI64_small (by decide) (by decide), by simp⟩ (flatMuls_good ts hg) hx).1
      have hover : OverT (Registered reg) p.terms :=
        overT_fold (Q := fun p : MulParts F => OverT (Registered reg) p.terms) (R := Over (Registered reg))
          (fun s a s1 => over_mulTerm (registered_basic reg) (ctors_closed (registered_basic reg) lic n) s a s1) (by simp [OverT])
          (over_flatMuls (registered_basic reg) ts hr) hx
      have hplain : ∀ be ∈ p.terms, PlainBase be.1 := by
        intro be hbe
        obtain ⟨f, hf1, hf2⟩ := List.mem_map.1 ((c1.keys _).1 (List.mem_map_of_mem hbe))
        obtain ⟨t, ht1, ht2⟩ := List.mem_filterMap.1 hf1
        cases hct : Coeff.ofExpr t with
        | some c => unfold factorOf at ht2; rw [hct] at ht2; cases ht2
        | none =>
          unfold factorOf at ht2; rw [hct] at ht2
          simp only [Option.some.injEq] at ht2
          rw [← hf2, ← ht2]
          exact hb t ht1 hct
      unfold createProduct at h h'
      cases hsx : foldRes (createStep (ctors lic n)) (p.coeff, []) (p.terms.filter (fun be => !isInt 0 be.2)) with
      | error e => simp only [hsx] at h; cases h
      | ok s1 =>
        cases hsy : foldRes (createStep (ctors lic n)) (q.coeff, []) (q.terms.filter (fun be => !isInt 0 be.2)) with
        | error e => simp only [hsy] at h'; cases h'
        | ok s2 =>
          simp only [hsx] at h
          simp only [hsy] at h'
          obtain ⟨ps, hps, rfl⟩ := createSteps_plain (fun be hbe => ⟨hplain be (List.mem_filter.1 hbe).1, by simpa using (List.mem_filter.1 hbe).2⟩) hsx
          obtain ⟨qs, hqs, rfl⟩ := createSteps_plain (fun be hbe => ⟨hplain be (ht.mem_iff.2 (List.mem_filter.1 hbe).1),
            by simpa using (List.mem_filter.1 hbe).2⟩) hsy
          have hpq : ps.Perm qs := mapRes_perm (ht.filter _) hps hqs
          have hreg : ∀ a ∈ ps, a.Regular reg := by
            intro a ha
            obtain ⟨be, hbe, hbe2⟩ : ∃ be ∈ p.terms.filter (fun be => !isInt 0 be.2), (ctors lic n).pow be.1 be.2 = .ok a := by
              have := mapRes_ok hps
              obtain ⟨i, hi, rfl⟩ := List.getElem_of_mem ha
              have hl := this.length_eq
              exact ⟨_, List.getElem_mem (by omega), List.Forall₂.get this (by omega) hi⟩
            have hmem := (List.mem_filter.1 hbe).1
            exact regular_of reg a ((ctors_sound lic ⟨fun _ => none, fun _ _ => none, fun _ _ => none⟩ n).pow _ _ _ (hfine.2 be hmem).1 (hfine.2 be hmem).2 hbe2).1
              ((ctors_closed (registered_basic reg) lic n).pow _ _ _ (hover be hmem).1 (hover be hmem).2 hbe2)
          simp only [List.nil_append] at h h'
          cases hcx : p.coeff.toExpr with
          | error e => simp only [hcx] at h; cases h
          | ok c =>
            cases hcy : q.coeff.toExpr with
            | error e => simp only [hcy] at h'; cases h'
            | ok d =>
              simp only [hcx] at h
              simp only [hcy] at h'
              have hcd : c = d := by rw [toExpr_cls c1.exact hcx, toExpr_cls c2.exact hcy, hc]
              subst hcd
              have hgc := (toExpr_ok c1.exact.1 hcx ⟨fun _ => none, fun _ _ => none, fun _ _ => none⟩).1
              have := finishProduct_perm reg (K := ctors lic n) hpq hreg (regular_of reg _ hgc (over_toExpr (registered_basic reg) hcx))
              rw [this, h'] at h
              cases h; rfl

theorem mulFrom_perm (reg : Registry) {lic : Lic F} {n : Nat} {ts us : List (Expr F)} {r r' : Expr F} (hp : ts.Perm us) (hg : ∀ t ∈ ts, Good t)
    (hf : ∀ t ∈ ts, NoFloats t) (hr : ∀ t ∈ ts, Over (Registered reg) t) (hm : Mergeable (flatMuls ts))
    (hb : ∀ t ∈ flatMuls ts, Coeff.ofExpr t = none → PlainBase (powerOf t).1) (h : mulFrom (ctors lic n) lic ts = .ok r)
    (h' : mulFrom (ctors lic n) lic us = .ok r') : r = r' := by
  have hlen := hp.length_eq
  rcases ts with _ | ⟨a, _ | ⟨b, _ | ⟨c, l⟩⟩⟩
  · cases h
  · rw [List.singleton_perm] at hp
    subst hp
    cases h; cases h'; rfl
  · rcases us with _ | ⟨a', _ | ⟨b', _ | ⟨c', l'⟩⟩⟩ <;> simp at hlen
    have hsw : (a' = a ∧ b' = b) ∨ (a' = b ∧ b' = a) := by
      have ha : a' ∈ [a, b] := hp.mem_iff.2 (by simp)
      rcases List.mem_cons.1 ha with rfl | ha
      · rw [List.perm_cons, List.singleton_perm] at hp
        cases hp; exact Or.inl ⟨rfl, rfl⟩
      · rw [List.mem_singleton] at ha
        subst ha
        have h2 := (List.Perm.swap _ _ _).trans hp
        rw [List.perm_cons, List.singleton_perm] at h2
        cases h2; exact Or.inr ⟨rfl, rfl⟩
    rcases hsw with ⟨rfl, rfl⟩ | ⟨rfl, rfl⟩
    · rw [h] at h'; cases h'; rfl
    · change mulTwo (ctors lic n) lic b' a' = .ok r at h
      change mulTwo (ctors lic n) lic a' b' = .ok r' at h'
      have key : ∀ {x y : Expr F}, (∃ ts, x = .add ts ∧ isNumeric y = true ∧ mulTwo (ctors lic n) lic x y = mulIntoAdd (ctors lic n) ts y ∧
            mulTwo (ctors lic n) lic y x = mulIntoAdd (ctors lic n) ts y) ∨
          (∃ ts, y = .add ts ∧ isNumeric x = true ∧ mulTwo (ctors lic n) lic x y = mulIntoAdd (ctors lic n) ts x ∧
            mulTwo (ctors lic n) lic y x = mulIntoAdd (ctors lic n) ts x) ∨
          (mulTwo (ctors lic n) lic x y = productGeneral (ctors lic n) lic [x, y] ∧
            mulTwo (ctors lic n) lic y x = productGeneral (ctors lic n) lic [y, x]) := by
        have num : ∀ {y : Expr F}, isNumeric y = true → ∀ ts, y ≠ .add ts := by
          intro y hy ts e; rw [e] at hy; cases hy
        have one : ∀ (ts : List (Expr F)) (y : Expr F), isNumeric y = true → mulTwo (ctors lic n) lic (.add ts) y = mulIntoAdd (ctors lic n) ts y ∧
            mulTwo (ctors lic n) lic y (.add ts) = mulIntoAdd (ctors lic n) ts y := by
          intro ts y hy
          constructor
          · unfold mulTwo; simp only; rw [if_pos hy]
          · rcases isNumeric_cases hy with ⟨k, rfl⟩ | ⟨k, rfl⟩ | ⟨k, rfl⟩ <;> rfl
        have gen : ∀ x y : Expr F, ¬ (∃ ts, x = .add ts ∧ isNumeric y = true) → ¬ (∃ ts, y = .add ts ∧ isNumeric x = true) →
            mulTwo (ctors lic n) lic x y = productGeneral (ctors lic n) lic [x, y] := by
          intro x y h1 h2
          unfold mulTwo
          split
          · rw [if_neg fun hy => h1 ⟨_, rfl, hy⟩]
          · rw [if_neg fun hx => h2 ⟨_, rfl, hx⟩]
          · rfl
        intro x y
        by_cases h1 : ∃ ts, x = .add ts ∧ isNumeric y = true
        · obtain ⟨ts, rfl, hy⟩ := h1
          exact Or.inl ⟨ts, rfl, hy, one ts y hy⟩
        · by_cases h2 : ∃ ts, y = .add ts ∧ isNumeric x = true
          · obtain ⟨ts, rfl, hx⟩ := h2
            exact Or.inr (Or.inl ⟨ts, rfl, hx, (one ts x hx).2, (one ts x hx).1⟩)
          · exact Or.inr (Or.inr ⟨gen x y h1 h2, gen y x h2 h1⟩)
      rcases key (x := b') (y := a') with ⟨ts, _, _, e1, e2⟩ | ⟨ts, _, _, e1, e2⟩ | ⟨e1, e2⟩
      · rw [e1] at h; rw [e2, h] at h'; cases h'; rfl
      · rw [e1] at h; rw [e2, h] at h'; cases h'; rfl
      · rw [e1] at h; rw [e2] at h'
        exact productGeneral_perm reg hp hg hf hr hm hb h h'
  · rcases us with _ | ⟨a', _ | ⟨b', _ | ⟨c', l'⟩⟩⟩ <;> simp at hlen
    exact productGeneral_perm reg hp hg hf hr hm hb h h'

/-! ### The shape of sums -/

theorem sortTerms_sorted (reg : Registry) {l : List (Expr F)} (hl : ∀ a ∈ l, a.Regular reg) : (sortTerms l).Pairwise fun a b => termLe a b = true :=
  insertionSort_sorted (termLe_total reg) (termLe_trans reg) hl

theorem sorted_eq (reg : Registry) {l l' : List (Expr F)} (h : l.Perm l') (hl : ∀ a ∈ l, a.Regular reg) (s : l.Pairwise fun a b => termLe a b = true)
    (s' : l'.Pairwise fun a b => termLe a b = true) : l = l' :=
  List.Perm.eq_of_pairwise (fun a b ha hb => termLe_antisymm reg a b (hl a ha) (hl b (h.mem_iff.2 hb))) s s' h

theorem plain_not_numeric {f : Expr F} (h : PlainFactor f) : isNumeric f = false := not_numeric_of_not_const h.1

/-- Multiplying a sorted product of powers of different plain bases by a number adds the number to the factors. -/
theorem mul_coeff_plain {lic : Lic F} {n : Nat} {fs : List (Expr F)} {c r : Expr F} (hfs : ∀ f ∈ fs, PlainFactor f)
    (hnd : (fs.map fun f => (powerOf f).1).Nodup) (hlen : 2 ≤ fs.length) (hc : ExactNum c) (h0 : isInt 0 c = false) (h1 : isInt 1 c = false)
    (h : (ctors lic n).mul [.mul fs, c] = .ok r) : r = .mul (sortTerms (fs ++ [c])) := by
  cases n with
  | zero => cases h
  | succ n =>
    obtain ⟨k, hk, hke, hkc⟩ := hc.coeff
    have hflat : flatMuls [.mul fs, c] = fs ++ [c] := by
      have e1 : flatMul c = [c] := by
        rcases ExactNum.cases hc with ⟨n, rfl, _⟩ | ⟨q, rfl, _⟩ <;> rfl
      have e2 : flatMul (.mul fs) = flatMuls fs := by rw [flatMul.eq_def]
      have e3 : ∀ l : List (Expr F), (∀ f ∈ l, PlainFactor f) → flatMuls l = l := by
        intro l hl
        induction l with
        | nil => rfl
        | cons f l ih =>
          rw [flatMuls, ih fun g hg => hl g (by simp [hg])]
          have : flatMul f = [f] := by
            have := (hl f (by simp)).2.1
            obtain ⟨hd, as⟩ := f
            rw [flatMul.eq_def]
            cases hd <;> first | rfl | exact absurd rfl this
          rw [this]; rfl
      rw [flatMuls, flatMuls, flatMuls, e1, e2, e3 fs hfs]; rfl
    have htwo : (ctors lic (n + 1)).mul [.mul fs, c] = productGeneral (ctors lic n) lic [.mul fs, c] := by
      show mulTwo (ctors lic n) lic (.mul fs) c = _
      rcases ExactNum.cases hc with ⟨n, rfl, _⟩ | ⟨q, rfl, _⟩ <;> rfl
    rw [htwo] at h
    unfold productGeneral at h
    rw [mulVisits_flat, hflat, foldRes_append] at h
    -- the factors go in one by one
    have hfold : ∀ (l : List (Expr F)) (p : MulParts F), (∀ f ∈ l, PlainFactor f) → ((p.terms.map Prod.fst) ++ l.map fun f => (powerOf f).1).Nodup →
        foldRes (mulTerm (ctors lic n) lic) p l = .ok ⟨p.coeff, p.terms ++ l.map powerOf⟩ := by
      intro l
      induction l with
      | nil => intro p _ _; simp [foldRes]
      | cons f l ih =>
        intro p hp hn
        have hf := hp f (by simp)
        have hnone : findKey (powerOf f).1 p.terms = none := by
          rw [findKey_none_iff]
          intro hm
          rw [List.map_cons, List.nodup_append] at hn
          exact hn.2.2 _ hm _ (by simp) rfl
        rw [foldRes, mulTerm_power hf.1]
        unfold insertPower
        rw [hnone]
        simp only
        rw [ih _ (fun g hg => hp g (by simp [hg]))]
        · simp
        · simpa using hn
    rw [hfold fs ⟨.int 1, []⟩ hfs (by simpa using hnd)] at h
    simp only [List.nil_append] at h
    cases hmk : mulCoeff (.int 1) k with
    | error e =>
      rw [foldRes] at h
      unfold mulTerm at h
      simp only [hk, hmk] at h
      cases h
    | ok k' =>
      obtain ⟨x1, x2⟩ := mulCoeff_cls (a := .int 1) ⟨inI64_small (by decide) (by decide), by simp⟩ hke hmk
      have hkk : k'.cls = .num (numVal c) := by
        rw [x2, Cls.mul_comm, ← hkc]
        exact Cls.mul_one _
      have hlast : foldRes (mulTerm (ctors lic n) lic) ⟨.int 1, fs.map powerOf⟩ [c] = .ok ⟨k', fs.map powerOf⟩ := by
        rw [foldRes]
        unfold mulTerm
        simp only [hk, hmk]
        rfl
      rw [hlast] at h
      simp only at h
      unfold createProduct at h
      simp only at h
      have hne : ∀ f ∈ fs, isInt 0 (powerOf f).2 = false := by
        intro f hf
        cases hz : isInt 0 (powerOf f).2 with
        | false => rfl
        | true =>
          exfalso
          have hp := hfs f hf
          by_cases hpow : ∃ b e, f = .pow b e
          · obtain ⟨b, e, rfl⟩ := hpow
            exact (hp.2.2.2 b e rfl).1 (isInt_iff.1 hz)
          · have hb := hp.2.2.1
            unfold powerOf at hz hb
            split at hz
            · exact hpow ⟨_, _, rfl⟩
            · cases hb.2.2.2.1
            · cases hz
      have hfilter : (fs.map powerOf).filter (fun be => !isInt 0 be.2) = fs.map powerOf := by
        rw [List.filter_eq_self]
        intro be hbe
        obtain ⟨f, hf, rfl⟩ := List.mem_map.1 hbe
        rw [hne f hf]; rfl
      rw [hfilter] at h
      cases hs : foldRes (createStep (ctors lic n)) (k', []) (fs.map powerOf) with
      | error e => simp only [hs] at h; cases h
      | ok st =>
        simp only [hs] at h
        obtain ⟨ps, hps, rfl⟩ := createSteps_plain (fun be hbe => by
          obtain ⟨f, hf, rfl⟩ := List.mem_map.1 hbe
          exact ⟨(hfs f hf).2.2.1, hne f hf⟩) hs
        have hpfs : ps = fs := by
          have := mapRes_ok hps
          clear hps hs hfilter hlast h hfold hflat htwo hnd hlen
          generalize hl : fs.map powerOf = l at this
          induction this generalizing fs with
          | nil => rw [List.map_eq_nil_iff] at hl; rw [hl]
          | cons hab _ ih =>
            rcases fs with _ | ⟨f, fs⟩
            · cases hl
            · rw [List.map_cons, List.cons.injEq] at hl
              obtain ⟨rfl, hl⟩ := hl
              have hp := hfs f (by simp)
              rw [ih (fun g hg => hfs g (by simp [hg])) (fun g hg => hne g (by simp [hg])) hl]
              congr 1
              cases n with
              | zero => cases hab
              | succ n =>
                have hb := hp.2.2.1
                by_cases hpow : ∃ b e, f = .pow b e
                · obtain ⟨b, e, rfl⟩ := hpow
                  have he := hp.2.2.2 b e rfl
                  rcases powCreate_plain hb hab with hr | ⟨h2, _⟩ | ⟨h2, _⟩ | hr
                  · exact absurd hr (by
                      intro hr
                      rcases hr.2 with h | h
                      · exact he.2.2.2 h
                      · exact he.2.2.1 h)
                  · exact absurd h2 he.1
                  · exact absurd h2 he.2.1
                  · exact hr.2
                · have hpf : powerOf f = (f, .int 1) := by
                    unfold powerOf at hb ⊢
                    split
                    · exact absurd ⟨_, _, rfl⟩ hpow
                    · cases hb.2.2.2.1
                    · rfl
                  rw [hpf] at hab hb
                  rcases powCreate_plain hb hab with hr | ⟨h2, _⟩ | ⟨_, hr⟩ | hr
                  · rcases hr.2 with h | h <;> cases h
                  · cases h2
                  · exact hr
                  · exact absurd rfl hr.1
        subst hpfs
        simp only [List.nil_append] at h
        cases ht : k'.toExpr with
        | error e => simp only [ht] at h; cases h
        | ok d =>
          simp only [ht] at h
          have hd : d = c := by
            rw [toExpr_cls x1 ht, hkk]
            exact hc.eq.symm
          subst hd
          unfold finishProduct at h
          have hu : isUndef d = false := by
            rcases ExactNum.cases hc with ⟨n, rfl, _⟩ | ⟨q, rfl, _⟩ <;> rfl
          rw [h0, hu] at h
          rcases ps with _ | ⟨a, _ | ⟨b, l⟩⟩
          · simp at hlen
          · simp at hlen
          · simp only [h1] at h
            cases h
            rfl

theorem exact_not_int {c : Expr F} {n : Int} (h : isInt n c = false) : c ≠ .int n := fun e => by rw [isInt_iff.2 e] at h; cases h

/-- The operand made from a coefficient and a plain rest gives them back. -/
theorem sumOperand_split (reg : Registry) {lic : Lic F} {n : Nat} {m c t : Expr F} (hg : Good m) (hr : Over (Registered reg) m) (hm : PlainRest m) (hc : ExactNum c)
    (h0 : isInt 0 c = false) (h : sumOperand (ctors lic n) (m, c) = .ok t) :
    Coeff.ofExpr t = none ∧ t.head ≠ .add ∧ (asCoeffMul t).2 = m := by
  obtain ⟨m1, m2, m3⟩ := hm
  have mn := not_numeric_of_not_const m1
  unfold sumOperand at h
  simp only at h
  by_cases h1 : isInt 1 c = true
  · rw [if_pos h1] at h
    cases h
    refine ⟨m1, m2, ?_⟩
    by_cases hmm : ∃ fs, m = .mul fs
    · obtain ⟨fs, rfl⟩ := hmm
      have hnil : fs.filter isNumeric = [] := by
        rw [List.filter_eq_nil_iff]
        intro f hf
        rw [plain_not_numeric ((m3 fs rfl).2.1 f hf)]; simp
      have hs : splitMul fs = (.int 1, .mul fs) := by unfold splitMul; rw [if_pos hnil]
      unfold asCoeffMul
      split
      · rename_i he; cases he
      · rename_i he; cases he
      · rename_i he; cases he
      · rename_i a b he
        cases he
        rw [List.filter_eq_nil_iff] at hnil
        have ha : isNumeric a = false := by simpa using hnil a (by simp)
        have hb : isNumeric b = false := by simpa using hnil b (by simp)
        rw [ha, hb]
        simp [hs]
      · rename_i he; cases he; rw [hs]
      · rfl
    · rw [asCoeffMul_other (fun ts e => hmm ⟨ts, e⟩) mn]
  · rw [if_neg h1] at h
    have h1' : isInt 1 c = false := by simpa using h1
    by_cases hmm : ∃ fs, m = .mul fs
    · obtain ⟨fs, rfl⟩ := hmm
      obtain ⟨q1, q2, q3⟩ := m3 fs rfl
      have hlen := ((good_mul.1 hg).1).1
      have hK : (ctors lic n).mul [.mul fs, c] = .ok t := h
      have ht := mul_coeff_plain q2 q3 hlen hc h0 h1' hK
      subst ht
      refine ⟨rfl, by simp [Expr.mul, Expr.head], ?_⟩
      have hreg : ∀ a ∈ fs ++ [c], a.Regular reg := by
        intro a ha
        rcases List.mem_append.1 ha with ha | ha
        · exact regular_of reg a ((good_mul.1 hg).2 a ha) ((over_node.1 hr).2 a ha)
        · rw [List.mem_singleton] at ha; subst ha
          refine regular_of reg _ hc.1 ?_
          rcases ExactNum.cases hc with ⟨n, rfl, _⟩ | ⟨q, rfl, _⟩
          · exact (registered_basic reg).oint _
          · exact (registered_basic reg).orat _
      have hperm := sortTerms_perm (fs ++ [c])
      have hnum : (sortTerms (fs ++ [c])).filter isNumeric ≠ [] := by
        intro e
        rw [List.filter_eq_nil_iff] at e
        exact e c (hperm.mem_iff.2 (by simp)) hc.2.1
      have hrest : (sortTerms (fs ++ [c])).filter (fun t => !isNumeric t) = fs := by
        have hp2 : ((sortTerms (fs ++ [c])).filter (fun t => !isNumeric t)).Perm fs := by
          refine (hperm.filter _).trans ?_
          rw [List.filter_append, List.filter_eq_self.2 (fun f hf => by rw [plain_not_numeric (q2 f hf)]; rfl)]
          simp [hc.2.1]
        refine sorted_eq reg hp2 (fun a ha => hreg a (hperm.mem_iff.1 (List.mem_filter.1 ha).1)) ?_ q1
        exact (sortTerms_sorted reg hreg).filter _
      have hsplit : (splitMul (sortTerms (fs ++ [c]))).2 = .mul fs := by
        unfold splitMul
        rw [if_neg hnum]
        simp only
        rw [hrest]
        rcases fs with _ | ⟨a, _ | ⟨b, l⟩⟩
        · simp at hlen
        · simp at hlen
        · show Expr.mul (sortTerms _) = _
          have := sorted_eq reg (sortTerms_perm (a :: b :: l)) (fun x hx => hreg x (List.mem_append.2 (Or.inl ((sortTerms_perm _).mem_iff.1 hx))))
            (sortTerms_sorted reg fun x hx => hreg x (List.mem_append.2 (Or.inl hx))) q1
          rw [this]
      have hl3 : 3 ≤ (sortTerms (fs ++ [c])).length := by rw [hperm.length_eq]; simp; omega
      rcases hx : sortTerms (fs ++ [c]) with _ | ⟨a, _ | ⟨b, _ | ⟨d, l⟩⟩⟩
      · rw [hx] at hl3; simp at hl3
      · rw [hx] at hl3; simp at hl3
      · rw [hx] at hl3; simp at hl3
      · rw [hx] at hsplit; exact hsplit
    · have ht : t = newMul2 c m := by
        have hh : ∀ m : Expr F, (¬ ∃ fs, m = .mul fs) → m.head ≠ .mul := by
          intro m hm e
          obtain ⟨hd, as⟩ := m
          exact hm ⟨as, by rw [show hd = .mul from e]⟩
        have hmh := hh m hmm
        have hch : c.head ≠ .mul := hh c (by
          rintro ⟨fs, rfl⟩
          cases hc.2.1)
        split at h
        · rename_i e; exact absurd e hmh
        · exact absurd (by assumption) hch
        · cases h; rfl
      subst ht
      refine ⟨rfl, by simp [newMul2, Expr.mul, Expr.head], ?_⟩
      have hperm := sortTerms_perm [c, m]
      unfold newMul2
      have hl2 := hperm.length_eq
      rcases hx : sortTerms [c, m] with _ | ⟨a, _ | ⟨b, _ | ⟨d, l⟩⟩⟩
      · rw [hx] at hl2; simp at hl2
      · rw [hx] at hl2; simp at hl2
      · rw [hx] at hperm
        have ha : a ∈ [c, m] := hperm.mem_iff.1 (by simp)
        have hcn := hc.2.1
        rcases List.mem_cons.1 ha with rfl | ha
        · rw [List.perm_cons, List.singleton_perm] at hperm
          cases hperm
          show (if isNumeric _ && !isNumeric _ then _ else _ : Expr F × Expr F).2 = _
          rw [hcn, mn]; rfl
        · rw [List.mem_singleton] at ha
          subst ha
          have h2 := hperm.trans (List.Perm.swap _ _ _)
          rw [List.perm_cons, List.singleton_perm] at h2
          cases h2
          show (if isNumeric _ && !isNumeric _ then _ else if !isNumeric _ && isNumeric _ then _ else _ : Expr F × Expr F).2 = _
          rw [hcn, mn]; rfl
      · rw [hx] at hl2; simp at hl2

theorem sumGeneral_shape (reg : Registry) {lic : Lic F} {n : Nat} {ts : List (Expr F)} {r : Expr F} (hg : ∀ t ∈ ts, Good t)
    (hf : ∀ t ∈ ts, NoFloats t) (hr : ∀ t ∈ ts, Over (Registered reg) t) (hm : ∀ t ∈ flatAdds ts, Coeff.ofExpr t = none → PlainRest (asCoeffMul t).2)
    (h : sumGeneral (ctors lic n) ts = .ok r) : SumShape r := by
  unfold sumGeneral at h
  cases hx : foldRes (addTerm (ctors lic n)) ⟨.int 0, []⟩ (flatAdds ts) with
  | error e => simp only [hx] at h; cases h
  | ok p =>
    simp only [hx] at h
    obtain ⟨c1, g1, o1⟩ := sumParts_ok reg hg hf hr hx
    have hplain : ∀ mc ∈ p.terms, PlainRest mc.1 := by
      intro mc hmc
      obtain ⟨f, hf1, hf2⟩ := List.mem_map.1 ((c1.keys _).1 (List.mem_map_of_mem hmc))
      obtain ⟨t, ht1, ht2⟩ := List.mem_filterMap.1 hf1
      cases hct : Coeff.ofExpr t with
      | some c => unfold symPart at ht2; rw [hct] at ht2; cases ht2
      | none =>
        unfold symPart at ht2; rw [hct] at ht2
        simp only [Option.some.injEq] at ht2
        rw [← hf2, ← ht2]
        exact hm t ht1 hct
    unfold createSum at h
    cases hcx : p.coeff.toExpr with
    | error e => simp only [hcx] at h; cases h
    | ok c =>
      simp only [hcx] at h
      by_cases hu : isUndef c = true
      · rw [if_pos hu] at h
        cases h
        intro rs e; cases e
      · rw [if_neg hu] at h
        cases hmx : mapRes (sumOperand (ctors lic n)) (p.terms.filter (fun mc => !isInt 0 mc.2)) with
        | error e => simp only [hmx] at h; cases h
        | ok xs =>
          simp only [hmx] at h
          cases h
          have hsp : List.Forall₂ (fun mc t => Coeff.ofExpr t = none ∧ t.head ≠ .add ∧ (asCoeffMul t).2 = mc.1)
              (p.terms.filter (fun mc => !isInt 0 mc.2)) xs := by
            have h1 := mapRes_ok hmx
            have h2 : ∀ mc ∈ p.terms.filter (fun mc => !isInt 0 mc.2), mc ∈ p.terms ∧ isInt 0 mc.2 = false :=
              fun mc hmc => ⟨(List.mem_filter.1 hmc).1, by simpa using (List.mem_filter.1 hmc).2⟩
            clear hmx
            generalize p.terms.filter (fun mc => !isInt 0 mc.2) = l at h1 h2
            induction h1 with
            | nil => exact .nil
            | cons hab _ ih =>
              refine .cons ?_ (ih fun mc hmc => h2 mc (by simp [hmc]))
              obtain ⟨k1, k2⟩ := h2 _ List.mem_cons_self
              exact sumOperand_split reg (g1 _ k1).1 (o1.1 _ k1).1 (hplain _ k1) (c1.vals _ k1).1 k2 hab
          have hall : ∀ t ∈ xs, Coeff.ofExpr t = none ∧ t.head ≠ .add := by
            intro t ht
            clear hmx
            generalize p.terms.filter (fun mc => !isInt 0 mc.2) = l at hsp
            induction hsp with
            | nil => cases ht
            | cons hab _ ih =>
              rcases List.mem_cons.1 ht with rfl | ht
              · exact ⟨hab.1, hab.2.1⟩
              · exact ih ht
          have hmap : xs.map (fun t => (asCoeffMul t).2) = (p.terms.filter (fun mc => !isInt 0 mc.2)).map Prod.fst := by
            clear hmx hall
            generalize p.terms.filter (fun mc => !isInt 0 mc.2) = l at hsp
            induction hsp with
            | nil => rfl
            | cons hab _ ih => rw [List.map_cons, List.map_cons, ih, hab.2.2]
          have hnd : (xs.map (fun t => (asCoeffMul t).2)).Nodup := by
            rw [hmap]
            exact c1.nodup.sublist (List.Sublist.map _ List.filter_sublist)
          have hcc : (Coeff.ofExpr c).isSome = true := (toExpr_ok c1.exact.1 hcx ⟨fun _ => none, fun _ _ => none, fun _ _ => none⟩).2.1
          have hca : c.head ≠ .add := by
            cases hk : Coeff.ofExpr c with
            | none => rw [hk] at hcc; cases hcc
            | some k =>
              rcases ofExpr_cases hk with ⟨n, rfl, rfl⟩ | ⟨r, rfl, rfl⟩ | ⟨f, rfl, rfl⟩ | ⟨rfl, rfl⟩ | ⟨rfl, rfl⟩ <;>
                simp [Expr.int, Expr.rat, Expr.flt, Expr.undef, Expr.zoo, Expr.head]
          have hsome : xs.filter (fun t => (Coeff.ofExpr t).isSome) = [] := by
            rw [List.filter_eq_nil_iff]
            intro t ht
            rw [(hall t ht).1]; simp
          have hnone : xs.filter (fun t => (Coeff.ofExpr t).isNone) = xs := by
            rw [List.filter_eq_self]
            intro t ht
            rw [(hall t ht).1]; rfl
          have shape : ∀ l : List (Expr F), (∀ t ∈ l, t.head ≠ .add) → (l.filter fun t => (Coeff.ofExpr t).isSome).length ≤ 1 →
              ((l.filter fun t => (Coeff.ofExpr t).isNone).map fun t => (asCoeffMul t).2).Nodup → SumShape (newSum l) := by
            intro l l1 l2 l3
            rcases l with _ | ⟨a, _ | ⟨b, l⟩⟩
            · intro rs e; cases e
            · intro rs e
              have e : a = .add rs := e
              have := l1 a (by simp)
              rw [e] at this
              exact absurd rfl this
            · intro rs e
              have e : Expr.add (sortTerms (a :: b :: l)) = .add rs := e
              injection e with _ e
              subst e
              have hp := sortTerms_perm (a :: b :: l)
              refine ⟨fun t ht => l1 t (hp.mem_iff.1 ht), ?_, ?_⟩
              · rw [(hp.filter _).length_eq]; exact l2
              · exact (((hp.filter _).map _).nodup_iff).2 l3
          split
          · refine shape xs (fun t ht => (hall t ht).2) (by rw [hsome]; simp) (by rw [hnone]; exact hnd)
          · refine shape (c :: xs) ?_ ?_ ?_
            · intro t ht
              rcases List.mem_cons.1 ht with rfl | ht
              · exact hca
              · exact (hall t ht).2
            · rw [List.filter_cons_of_pos (by simpa using hcc), hsome]; simp
            · rw [List.filter_cons_of_neg (by
                cases hk : Coeff.ofExpr c with
                | none => rw [hk] at hcc; cases hcc
                | some k => simp), hnone]
              exact hnd

theorem addFrom_shape (reg : Registry) {lic : Lic F} {n : Nat} {ts : List (Expr F)} {r : Expr F} (h2 : 2 ≤ ts.length) (hg : ∀ t ∈ ts, Good t)
    (hf : ∀ t ∈ ts, NoFloats t) (hr : ∀ t ∈ ts, Over (Registered reg) t) (hm : ∀ t ∈ flatAdds ts, Coeff.ofExpr t = none → PlainRest (asCoeffMul t).2)
    (h : addFrom (ctors lic n) ts = .ok r) : SumShape r := by
  rcases ts with _ | ⟨a, _ | ⟨b, _ | ⟨c, l⟩⟩⟩
  · simp at h2
  · simp at h2
  · unfold addFrom at h
    cases h1 : addTwo a b with
    | error e => simp only [h1] at h; cases h
    | ok o =>
      cases o with
      | none => simp only [h1] at h; exact sumGeneral_shape reg hg hf hr hm h
      | some x =>
        simp only [h1] at h
        cases h
        have hcon : (Coeff.ofExpr r).isSome = true := by
          let ρ : Env F := ⟨fun _ => none, fun _ _ => none, fun _ _ => none⟩
          unfold addTwo at h1
          cases hx : Coeff.ofExpr a with
          | some x =>
            cases hy : Coeff.ofExpr b with
            | some y =>
              simp only [hx, hy] at h1
              cases hc : addCoeff x y with
              | error e => simp only [hc] at h1; cases h1
              | ok c =>
                simp only [hc] at h1
                cases ht : c.toExpr with
                | error e => simp only [ht] at h1; cases h1
                | ok r' =>
                  simp only [ht] at h1
                  cases h1
                  exact (toExpr_ok (addCoeff_ok (ofExpr_ok (hg a (by simp)) hx ρ).1 (ofExpr_ok (hg b (by simp)) hy ρ).1 hc).1 ht ρ).2.1
            | none =>
              simp only [hx, hy] at h1
              cases x <;> first | (cases h1; rfl) | cases h1
          | none =>
            cases hy : Coeff.ofExpr b with
            | some y =>
              simp only [hx, hy] at h1
              cases y <;> first | (cases h1; rfl) | cases h1
            | none => simp only [hx, hy] at h1; cases h1
        intro rs e
        rw [e] at hcon
        cases hcon
  · exact sumGeneral_shape reg hg hf hr hm h

end

end Wf.Sym
