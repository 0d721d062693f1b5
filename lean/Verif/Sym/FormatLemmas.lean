import Verif.Sym.FormatUnique
import Verif.Sym.ClosureLemmas
import Verif.Sym.LawfulSpec

/-!
# The plain text of an expression is derived by the grammar and denotes its value
-/

namespace Wf.Sym.Plain

/-! ## Reading -/

section
variable {F : Type}

theorem Reads.down {ts : Toks F} {e : T F} {k k' : Nat} (h : Reads k' ts e) (hk : k ≤ k') (h5 : k' ≤ 5) : Reads k ts e := by
  obtain ⟨n, rfl⟩ := Nat.exists_eq_add_of_le hk
  clear hk
  induction n with
  | zero => exact h
  | succ n ih => exact ih (Reads.up (by omega) h) (by omega)

/-- The sequence `/ 1 /` does not occur. -/
def NoUnit (ts : Toks F) : Prop := ¬ [.slash, .int 1, .slash] <:+: ts

theorem NoUnit.left {a b : Toks F} (h : NoUnit (a ++ b)) : NoUnit a := fun h' => h (h'.trans (List.infix_append' [] a b))
theorem NoUnit.right {a b : Toks F} (h : NoUnit (a ++ b)) : NoUnit b := fun h' => h (h'.trans (List.suffix_append a b).isInfix)
theorem NoUnit.tail {a : Tok F} {b : Toks F} (h : NoUnit (a :: b)) : NoUnit b := NoUnit.right (a := [a]) h
theorem NoUnit.paren {ts : Toks F} (h : NoUnit (.lpar :: (ts ++ [.rpar]))) : NoUnit ts := h.tail.left

variable [DecidableEq F] [FloatSem F]

/-- A product may be multiplied from the left. -/
theorem reads_mul {l : Toks F} {a : T F} (hl : Reads 2 l a) {k : Nat} {r : Toks F} {b : T F} (hr : Reads k r b) (hk : k = 2) :
    ∃ t, Reads 2 (l ++ .star :: r) t ∧ ∀ (D : Names F) ρ, t.val D ρ = binOut .mul (a.val D ρ) (b.val D ρ) := by
  induction hr using Reads.rec (motive_2 := fun _ _ _ => True) with
  | @up k ts e _ h _ => subst hk; exact ⟨_, Reads.bin (op := .mul) hl h, fun D ρ => by rw [T.val]⟩
  | @bin op l1 r1 a1 b1 h1 h2 ih _ =>
    have hop : op = .mul ∨ op = .div := by cases op <;> simp_all [BinOp.level]
    have hleft : op.left = 2 := by rcases hop with rfl | rfl <;> rfl
    have hlevel : op.level = 2 := hk
    obtain ⟨t, ht, hv⟩ := ih hleft
    refine ⟨.bin op t b1, ?_, fun D ρ => ?_⟩
    · have := Reads.bin (op := op) (l := l ++ .star :: l1) (by rw [hleft]; exact ht) h2
      rw [hlevel] at this
      simpa using this
    · rw [T.val, hv, T.val]
      rcases hop with rfl | rfl <;> cases a.val D ρ <;> cases a1.val D ρ <;> cases b1.val D ρ <;> simp [binOut, Out.bind, binVal, mul_assoc]
      split_ifs
      · rfl
      · simp [Out.bind, binVal, mul_div_assoc]
  | neg => omega
  | paren => omega
  | name => omega
  | int => omega
  | flt => omega
  | opaq => omega
  | app => omega
  | nil => trivial
  | one => trivial
  | cons => trivial

/-- A minus sign in front of a product. -/
theorem reads_neg {k : Nat} {r : Toks F} {b : T F} (hr : Reads k r b) (hk : k = 2) :
    ∃ t, Reads 2 (.minus :: r) t ∧ ∀ (D : Names F) ρ, t.val D ρ = (b.val D ρ).bind fun x => .val (-x) := by
  induction hr using Reads.rec (motive_2 := fun _ _ _ => True) with
  | @up k ts e _ h _ => subst hk; exact ⟨_, Reads.up (by omega) (Reads.neg h), fun D ρ => by rw [T.val]⟩
  | @bin op l1 r1 a1 b1 h1 h2 ih _ =>
    have hop : op = .mul ∨ op = .div := by cases op <;> simp_all [BinOp.level]
    have hleft : op.left = 2 := by rcases hop with rfl | rfl <;> rfl
    have hlevel : op.level = 2 := hk
    obtain ⟨t, ht, hv⟩ := ih hleft
    refine ⟨.bin op t b1, ?_, fun D ρ => ?_⟩
    · have := Reads.bin (op := op) (l := .minus :: l1) (by rw [hleft]; exact ht) h2
      rw [hlevel] at this
      simpa using this
    · rw [T.val, hv, T.val]
      rcases hop with rfl | rfl <;> cases a1.val D ρ <;> cases b1.val D ρ <;> simp [binOut, Out.bind, binVal]
      split_ifs
      · rfl
      · simp [neg_div]
  | neg => omega
  | paren => omega
  | name => omega
  | int => omega
  | flt => omega
  | opaq => omega
  | app => omega
  | nil => trivial
  | one => trivial
  | cons => trivial

end

/-! ## Values -/

section
variable {F : Type} [DecidableEq F] [FloatSem F]

/-- The text has the value, or a pole. -/
def Near (o' o : Out ℂ) : Prop := o' = o ∨ o' = .pole

theorem Near.refl (o : Out ℂ) : Near o o := .inl rfl

theorem Near.bind {a a' : Out ℂ} (h : Near a' a) {f g : ℂ → Out ℂ} (hf : ∀ z, a = .val z → Near (f z) (g z)) : Near (a'.bind f) (a.bind g) := by
  rcases h with rfl | rfl
  · cases a' with
    | val z => exact hf z rfl
    | pole => exact .inl rfl
    | bad => exact .inl rfl
  · exact .inr rfl

theorem Near.bin {op : BinOp} {a a' b b' : Out ℂ} (h1 : Near a' a) (h2 : Near b' b) : Near (binOut op a' b') (binOut op a b) :=
  h1.bind fun _ _ => h2.bind fun _ _ => .refl _

/-- The text means the expression. -/
def Means (D : Names F) (S : Env F → Prop) (e : Expr F) (t : T F) : Prop := ∀ ρ, S ρ → ∀ z, eval ρ e = some z → Near (t.val D ρ) (.val z)

/-- The level of the text of an expression. -/
def lvl : Expr F → Nat
  | .node .add _ => 1
  | .node .mul _ => 2
  | .node (.rat _) _ => 2
  | .node (.rel _) _ => 0
  | .pow _ e => if e = .int (-1) then 2 else 4
  | .node (.int n) _ => if n < 0 then 3 else 5
  | .node (.flt f) _ => if fltIsNeg f then 3 else 5
  | _ => 5

/-- The expression is a reciprocal. -/
def IsRecip (e : Expr F) : Prop := ∃ b, e = .pow b (.int (-1))

/-- Formatted texts are read as they are meant. -/
def FmtOk (D : Names F) (S : Env F → Prop) (R : Expr F → Res (Toks F)) : Prop :=
  ∀ e ts, Good e → Over D.Knows e → R e = .ok ts → NoUnit ts →
    ∃ t, Reads (lvl e) ts t ∧ (IsRecip e → ∃ us, ts = .int 1 :: .slash :: us) ∧ Means D S e t

theorem lvl_le (e : Expr F) : lvl e ≤ 5 := by
  unfold lvl
  split <;> (try split_ifs) <;> omega

theorem lvl_prec (e : Expr F) : (0 < prec e → 1 ≤ lvl e) ∧ (1 < prec e → 2 ≤ lvl e) ∧ (2 < prec e → IsRecip e ∧ lvl e = 2 ∨ 4 ≤ lvl e) ∧ (3 < prec e → lvl e = 5) := by
  cases e with
  | node h as =>
    cases h
    case pow =>
      rcases as with _ | ⟨b, _ | ⟨x, _ | ⟨y, l⟩⟩⟩ <;> simp [prec, lvl]
      by_cases hx : x = .int (-1)
      · subst hx
        simp [IsRecip]
      · simp [hx]
    case int n => by_cases hn : n < 0 <;> simp [prec, lvl, hn]
    case flt f => by_cases hn : fltIsNeg f <;> simp [prec, lvl, hn]
    all_goals simp [prec, lvl]

variable {D : Names F} {S : Env F → Prop} {R : Expr F → Res (Toks F)}

theorem fmtPrec_ok {p : Nat} {e : Expr F} {ts : Toks F} (hR : FmtOk D S R) (hg : Good e) (hk : Over D.Knows e) (h : fmtPrec R p e = .ok ts) (hu : NoUnit ts) :
    ∃ t, Means D S e t ∧ (Reads 5 ts t ∨ (p < prec e ∧ Reads (lvl e) ts t ∧ (IsRecip e → ∃ us, ts = .int 1 :: .slash :: us))) := by
  unfold fmtPrec at h
  split at h
  · cases h
  · rename_i us hus
    by_cases hp : prec e ≤ p
    · rw [if_pos hp] at h
      cases h
      obtain ⟨t, h1, _, h2⟩ := hR e us hg hk hus hu.paren
      exact ⟨t, h2, .inl (.paren (h1.down (by omega) (lvl_le e)))⟩
    · rw [if_neg hp] at h
      cases h
      obtain ⟨t, h1, h3, h2⟩ := hR e ts hg hk hus hu
      exact ⟨t, h2, .inr ⟨by omega, h1, h3⟩⟩

theorem fmtPrec_one {e : Expr F} {ts : Toks F} (hR : FmtOk D S R) (hg : Good e) (hk : Over D.Knows e) (h : fmtPrec R 1 e = .ok ts) (hu : NoUnit ts) :
    ∃ t, Means D S e t ∧ Reads 2 ts t := by
  obtain ⟨t, h1, h2⟩ := fmtPrec_ok hR hg hk h hu
  refine ⟨t, h1, ?_⟩
  rcases h2 with h2 | ⟨hp, h2, _⟩
  · exact h2.down (by omega) (by omega)
  · exact h2.down ((lvl_prec e).2.1 hp) (lvl_le e)

theorem fmtPrec_zero {e : Expr F} {ts : Toks F} (hR : FmtOk D S R) (hg : Good e) (hk : Over D.Knows e) (h : fmtPrec R 0 e = .ok ts) (hu : NoUnit ts) :
    ∃ t, Means D S e t ∧ Reads 1 ts t := by
  obtain ⟨t, h1, h2⟩ := fmtPrec_ok hR hg hk h hu
  refine ⟨t, h1, ?_⟩
  rcases h2 with h2 | ⟨hp, h2, _⟩
  · exact h2.down (by omega) (by omega)
  · exact h2.down ((lvl_prec e).1 hp) (lvl_le e)

theorem fmtPrec_three {e : Expr F} {ts : Toks F} (hR : FmtOk D S R) (hg : Good e) (hk : Over D.Knows e) (h : fmtPrec R 3 e = .ok ts) (hu : NoUnit ts) :
    ∃ t, Means D S e t ∧ Reads 5 ts t := by
  obtain ⟨t, h1, h2⟩ := fmtPrec_ok hR hg hk h hu
  refine ⟨t, h1, ?_⟩
  rcases h2 with h2 | ⟨hp, h2, _⟩
  · exact h2
  · exact h2.down ((lvl_prec e).2.2.2 hp).ge (lvl_le e)

/-- Below a product or quotient. -/
theorem fmtPrec_two {e : Expr F} {ts : Toks F} (hR : FmtOk D S R) (hg : Good e) (hk : Over D.Knows e) (h : fmtPrec R 2 e = .ok ts) (hu : NoUnit ts) :
    ∃ t, Means D S e t ∧ Reads 2 ts t ∧ (Reads 3 ts t ∨ ∃ us, ts = .int 1 :: .slash :: us) := by
  obtain ⟨t, h1, h2⟩ := fmtPrec_ok hR hg hk h hu
  refine ⟨t, h1, ?_⟩
  rcases h2 with h2 | ⟨hp, h2, h3⟩
  · exact ⟨h2.down (by omega) (by omega), .inl (h2.down (by omega) (by omega))⟩
  · rcases (lvl_prec e).2.2.1 hp with ⟨hr, hl⟩ | hl
    · exact ⟨h2.down hl.ge (lvl_le e), .inr (h3 hr)⟩
    · exact ⟨h2.down (by omega) (lvl_le e), .inl (h2.down (by omega) (lvl_le e))⟩

/-- The outcome of a power. -/
noncomputable def powOut (a b : Option ℂ) : Out ℂ := binOut .pow (.ofOption a) (.ofOption b)

theorem powOut_some {a b : Option ℂ} {z : ℂ} (h : powO a b = some z) : powOut a b = .val z := by
  obtain ⟨x, y, rfl, rfl, hv⟩ := powO_eq_some.1 h
  simp only [powOut, Out.ofOption, binOut, Out.bind, binVal, hv]

theorem fmtPow_ok {b e : Expr F} {ts : Toks F} (hR : FmtOk D S R) (hgb : Good b) (hkb : Over D.Knows b) (hge : Good e) (hke : Over D.Knows e)
    (h : fmtPow R b e = .ok ts) (hu : NoUnit ts) :
    ∃ t, Reads 4 ts t ∧ ∀ ρ, S ρ → ∀ x y, eval ρ b = some x → eval ρ e = some y → Near (t.val D ρ) (powOut (some x) (some y)) := by
  unfold fmtPow at h
  split at h
  · cases h
  · rename_i l hl
    split at h
    · cases h
    · rename_i r hr
      cases h
      obtain ⟨t1, m1, r1⟩ := fmtPrec_three hR hgb hkb hl hu.left
      obtain ⟨t2, m2, r2⟩ := fmtPrec_three hR hge hke hr hu.right.tail
      refine ⟨_, Reads.bin (op := .pow) r1 (r2.down (k := 3) (by omega) (by omega)), fun ρ hρ x y hx hy => ?_⟩
      rw [T.val]
      exact (m1 ρ hρ x hx).bin (m2 ρ hρ y hy)

/-! ## Sums -/

/-- Negating with the constructor of products. -/
def NegOk (D : Names F) (S : Env F → Prop) (K : Ctors F) : Prop :=
  ∀ t u, Good t → Over D.Knows t → K.mul [.int (-1), t] = .ok u → Good u ∧ Over D.Knows u ∧ ∀ ρ, S ρ → ∀ z, eval ρ t = some z → eval ρ u = some (-z)

theorem knows_basic (D : Names F) : Basic D.Knows where
  int _ := trivial
  rat _ := trivial
  flt _ := trivial
  const _ := trivial
  zoo := trivial
  undef := trivial
  imag := trivial
  mul _ _ := trivial
  mulSub _ _ _ _ := trivial
  add _ := trivial
  pow _ := trivial
  fn _ _ := trivial
  rel _ _ := trivial
  cond _ := trivial
  iverson _ := trivial
  bconst _ := trivial
  uneval _ := trivial
  stop _ := trivial
  symfn _ _ _ h := h

theorem ctors_neg (D : Names F) {S : Env F → Prop} {lic : Lic F} (n : Nat) (hS : ∀ ρ, S ρ → lic.TrueAt ρ) : NegOk D S (ctors lic n) := by
  intro t u hg hk h
  have hgs : ∀ a ∈ [(.int (-1) : Expr F), t], Good a := by
    intro a ha
    simp only [List.mem_cons, List.not_mem_nil, or_false] at ha
    rcases ha with rfl | rfl
    · exact good_negOne
    · exact hg
  have hks : ∀ a ∈ [(.int (-1) : Expr F), t], Over D.Knows a := by
    intro a ha
    simp only [List.mem_cons, List.not_mem_nil, or_false] at ha
    rcases ha with rfl | rfl
    · exact (knows_basic D).oint _
    · exact hk
  refine ⟨?_, (ctors_closed (knows_basic D) lic n).mul _ u hks h, fun ρ hρ z hz => ?_⟩
  · exact ((ctors_sound lic ⟨fun _ => none, fun _ _ => none, fun _ _ => none⟩ n).mul _ u hgs h).1
  · refine ((ctors_sound lic ρ n).mul _ u hgs h).2 (hS ρ hρ) _ ?_
    simp only [List.map_cons, List.map_nil, eval_int, hz]
    simp [prodO, mulO]

theorem isInt_eval {n : Int} {e : Expr F} (h : isInt n e = true) (ρ : Env F) : eval ρ e = some (n : ℂ) := by
  rw [isInt_iff.1 h, eval_int]

theorem coeff_eval {t : Expr F} {n : Int} {ρ : Env F} {z : ℂ} (hg : Good t) (h1 : isInt n (asCoeffMul t).1 = true) (hz : eval ρ t = some z) :
    ∃ m, eval ρ (asCoeffMul t).2 = some m ∧ z = n * m := by
  have h := (asCoeffMul_ok hg).2.2.2.2.2 ρ
  rw [hz] at h
  obtain ⟨x, y, hx, hy, h⟩ := mulO_eq_some.1 h
  rw [isInt_eval h1] at hx
  cases hx
  exact ⟨y, hy, h⟩

theorem fmtNegated_ok {K : Ctors F} (hK : NegOk D S K) (hR : FmtOk D S R) {t : Expr F} {ts : Toks F} (hg : Good t) (hk : Over D.Knows t)
    (h : fmtNegated K R t = .ok ts) (hu : NoUnit ts) :
    ∃ u, Reads 2 ts u ∧ ∀ ρ, S ρ → ∀ z, eval ρ t = some z → Near (u.val D ρ) (.val (-z)) := by
  unfold fmtNegated at h
  by_cases h1 : isInt (-1) (asCoeffMul t).1 = true
  · rw [if_pos h1] at h
    obtain ⟨u, m, r⟩ := fmtPrec_one hR (asCoeffMul_ok hg).2.1 (over_asCoeffMul (knows_basic D) hk).2 h hu
    refine ⟨u, r, fun ρ hρ z hz => ?_⟩
    obtain ⟨x, hx, rfl⟩ := coeff_eval hg h1 hz
    have := m ρ hρ x hx
    simpa using this
  · rw [if_neg h1] at h
    split at h
    · cases h
    · rename_i w hw
      obtain ⟨hgw, hkw, hv⟩ := hK t w hg hk hw
      obtain ⟨u, m, r⟩ := fmtPrec_one hR hgw hkw h hu
      exact ⟨u, r, fun ρ hρ z hz => m ρ hρ _ (hv ρ hρ z hz)⟩

theorem fmtPlainTerm_ok (hR : FmtOk D S R) {t : Expr F} {ts : Toks F} (hg : Good t) (hk : Over D.Knows t)
    (h : fmtPlainTerm R t = .ok ts) (hu : NoUnit ts) : ∃ u, Reads 2 ts u ∧ Means D S t u := by
  unfold fmtPlainTerm at h
  by_cases h1 : isInt 1 (asCoeffMul t).1 = true
  · rw [if_pos h1] at h
    obtain ⟨u, m, r⟩ := fmtPrec_one hR (asCoeffMul_ok hg).2.1 (over_asCoeffMul (knows_basic D) hk).2 h hu
    refine ⟨u, r, fun ρ hρ z hz => ?_⟩
    obtain ⟨x, hx, rfl⟩ := coeff_eval hg h1 hz
    have := m ρ hρ x hx
    simpa using this
  · rw [if_neg h1] at h
    obtain ⟨u, m, r⟩ := fmtPrec_one hR hg hk h hu
    exact ⟨u, r, m⟩

/-- A term after others. -/
theorem fmtTerm_ok {K : Ctors F} (hK : NegOk D S K) (hR : FmtOk D S R) {t : Expr F} {ts : Toks F} (hg : Good t) (hk : Over D.Knows t)
    (h : fmtTerm K R false t = .ok ts) (hu : NoUnit ts) {l : Toks F} {a : T F} (hl : Reads 1 l a) :
    ∃ u, Reads 1 (l ++ ts) u ∧ ∀ ρ, S ρ → ∀ z x, Near (a.val D ρ) (.val x) → eval ρ t = some z → Near (u.val D ρ) (.val (x + z)) := by
  unfold fmtTerm at h
  split at h
  · split at h
    · cases h
    · rename_i us hus
      cases h
      obtain ⟨u, r, m⟩ := fmtNegated_ok hK hR hg hk hus hu.tail
      refine ⟨_, Reads.bin (op := .sub) hl r, fun ρ hρ z x ha hz => ?_⟩
      rw [T.val]
      have := Near.bin (op := .sub) ha (m ρ hρ z hz)
      simpa [binOut, Out.bind, binVal] using this
  · split at h
    · cases h
    · rename_i us hus
      cases h
      obtain ⟨u, r, m⟩ := fmtPlainTerm_ok hR hg hk hus hu.tail
      refine ⟨_, Reads.bin (op := .add) hl r, fun ρ hρ z x ha hz => ?_⟩
      rw [T.val]
      have := Near.bin (op := .add) ha (m ρ hρ z hz)
      simpa [binOut, Out.bind, binVal] using this

theorem fmtFirst_ok {K : Ctors F} (hK : NegOk D S K) (hR : FmtOk D S R) {t : Expr F} {ts : Toks F} (hg : Good t) (hk : Over D.Knows t)
    (h : fmtTerm K R true t = .ok ts) (hu : NoUnit ts) : ∃ u, Reads 1 ts u ∧ Means D S t u := by
  unfold fmtTerm at h
  split at h
  · split at h
    · cases h
    · rename_i us hus
      cases h
      obtain ⟨u, r, m⟩ := fmtNegated_ok hK hR hg hk hus hu.tail
      obtain ⟨w, hw, hv⟩ := reads_neg r rfl
      refine ⟨w, hw.down (by omega) (by omega), fun ρ hρ z hz => ?_⟩
      rw [hv]
      have := (m ρ hρ z hz).bind (f := fun x => .val (-x)) (g := fun x => .val (-x)) fun _ _ => .refl _
      simpa [Out.bind] using this
  · split at h
    · cases h
    · rename_i us hus
      cases h
      obtain ⟨u, r, m⟩ := fmtPlainTerm_ok hR hg hk hus hu
      exact ⟨u, r.down (by omega) (by omega), m⟩

theorem fmtTerms_ok {K : Ctors F} (hK : NegOk D S K) (hR : FmtOk D S R) {as : List (Expr F)} {ts : Toks F} (hg : ∀ t ∈ as, Good t) (hk : ∀ t ∈ as, Over D.Knows t)
    (h : fmtTerms K R false as = .ok ts) (hu : NoUnit ts) {l : Toks F} {a : T F} (hl : Reads 1 l a) :
    ∃ u, Reads 1 (l ++ ts) u ∧ ∀ ρ, S ρ → ∀ z x, Near (a.val D ρ) (.val x) → sumO (as.map (eval ρ)) = some z → Near (u.val D ρ) (.val (x + z)) := by
  induction as generalizing ts l a with
  | nil =>
    cases h
    refine ⟨a, by simpa using hl, fun ρ _ z x hx hz => ?_⟩
    cases hz
    simpa using hx
  | cons t as ih =>
    unfold fmtTerms at h
    split at h
    · cases h
    · rename_i l1 h1
      split at h
      · cases h
      · rename_i r1 h2
        cases h
        obtain ⟨u, r, m⟩ := fmtTerm_ok hK hR (hg t (by simp)) (hk t (by simp)) h1 hu.left hl
        obtain ⟨v, r', m'⟩ := ih (fun a ha => hg a (by simp [ha])) (fun a ha => hk a (by simp [ha])) h2 hu.right r
        refine ⟨v, by simpa using r', fun ρ hρ z x hx hz => ?_⟩
        obtain ⟨p, q, hp, hq, rfl⟩ := sumO_cons_some.1 hz
        have := m' ρ hρ q (x + p) (m ρ hρ p x hx hp) hq
        rwa [add_assoc] at this

theorem fmtAdd_ok {K : Ctors F} (hK : NegOk D S K) (hR : FmtOk D S R) {as : List (Expr F)} {ts : Toks F} (hg : ∀ t ∈ as, Good t) (hk : ∀ t ∈ as, Over D.Knows t)
    (h : fmtAdd K R as = .ok ts) (hu : NoUnit ts) : ∃ u, Reads 1 ts u ∧ Means D S (.add as) u := by
  unfold fmtAdd at h
  by_cases hl : as.length < 2
  · rw [if_pos hl] at h; cases h
  · rw [if_neg hl] at h
    have hp := List.perm_insertionSort (fun a b : Expr F => termsLe a b = true) as
    revert h hp
    generalize as.insertionSort (fun a b => termsLe a b = true) = bs
    intro h hp
    have hlen := hp.length_eq
    rcases bs with _ | ⟨t, bs⟩
    · simp at hlen; omega
    · unfold fmtTerms at h
      split at h
      · cases h
      · rename_i l1 h1
        split at h
        · cases h
        · rename_i r1 h2
          cases h
          have hm : ∀ a ∈ t :: bs, a ∈ as := fun a ha => hp.mem_iff.1 ha
          obtain ⟨u, r, m⟩ := fmtFirst_ok hK hR (hg t (hm t (by simp))) (hk t (hm t (by simp))) h1 hu.left
          obtain ⟨v, r', m'⟩ := fmtTerms_ok hK hR (fun a ha => hg a (hm a (by simp [ha]))) (fun a ha => hk a (hm a (by simp [ha]))) h2 hu.right r
          refine ⟨v, r', fun ρ hρ z hz => ?_⟩
          rw [eval_add, ← sumO_perm (hp.map _)] at hz
          obtain ⟨p, q, hp, hq, rfl⟩ := sumO_cons_some.1 hz
          exact m' ρ hρ q p (m ρ hρ p hp) hq

/-! ## Products -/

/-- The outcome of an element. -/
noncomputable def elemOut (ρ : Env F) : Elem F → Out ℂ
  | .int n => .val (n : ℂ)
  | .flt f => .ofOption ((FloatSem.val f).map fun x : ℝ => ((|x| : ℝ) : ℂ))
  | .pow b e => if isInt 1 e then .ofOption (eval ρ b) else powOut (eval ρ b) (eval ρ e)

/-- The outcome of a product. -/
noncomputable def prodOut : List (Out ℂ) → Out ℂ
  | [] => .val 1
  | [a] => a
  | a :: as => binOut .mul a (prodOut as)

def ElemFine (D : Names F) : Elem F → Prop
  | .pow b e => Good b ∧ Over D.Knows b ∧ Good e ∧ Over D.Knows e
  | _ => True

theorem out_cases (o : Out ℂ) : o = .bad ∨ o = .pole ∨ ∃ z, o = .val z := by
  cases o <;> simp

theorem intText_reads (n : Int) : ∃ t : T F, Reads 3 (intText n) t ∧ (0 ≤ n → Reads 5 (intText n) t) ∧ ∀ (D : Names F) ρ, t.val D ρ = .val (n : ℂ) := by
  unfold intText
  by_cases hn : n < 0
  · rw [if_pos hn]
    refine ⟨_, .neg (Reads.int.down (by omega) (by omega)), by omega, fun D ρ => ?_⟩
    rw [T.val, T.val, Out.bind]
    have : ((n.natAbs : ℤ) : ℂ) = ((-n : ℤ) : ℂ) := by congr 1; omega
    rw [← Int.cast_natCast, this]
    simp
  · rw [if_neg hn]
    refine ⟨_, Reads.int.down (by omega) (by omega), fun _ => Reads.int, fun D ρ => ?_⟩
    rw [T.val]
    have : ((n.natAbs : ℤ) : ℂ) = ((n : ℤ) : ℂ) := by congr 1; omega
    rw [← Int.cast_natCast, this]

theorem fmtElem_ok (hR : FmtOk D S R) {x : Elem F} {ts : Toks F} (hx : ElemFine D x) (h : fmtElem R x = .ok ts) (hu : NoUnit ts) :
    ∃ t, Reads 2 ts t ∧ (Reads 3 ts t ∨ ∃ us, ts = .int 1 :: .slash :: us) ∧ ∀ ρ, S ρ → elemOut ρ x ≠ .bad → Near (t.val D ρ) (elemOut ρ x) := by
  cases x with
  | int n =>
    cases h
    obtain ⟨t, h1, _, h2⟩ := intText_reads (F := F) n
    exact ⟨t, h1.down (by omega) (by omega), .inl h1, fun ρ _ _ => .inl (h2 D ρ)⟩
  | flt f =>
    cases h
    exact ⟨.flt f, Reads.flt.down (by omega) (by omega), .inl (Reads.flt.down (by omega) (by omega)), fun ρ _ _ => .inl (by rw [T.val, elemOut])⟩
  | pow b e =>
    obtain ⟨h1, h2, h3, h4⟩ := hx
    change (if isInt 1 e then fmtPrec R 2 b else fmtPow R b e) = _ at h
    by_cases hi : isInt 1 e = true
    · rw [if_pos hi] at h
      obtain ⟨t, m, r, r'⟩ := fmtPrec_two hR h1 h2 h hu
      refine ⟨t, r, r', fun ρ hρ hb => ?_⟩
      rw [elemOut, if_pos hi] at hb ⊢
      cases hz : eval ρ b with
      | none => rw [hz] at hb; exact absurd rfl hb
      | some z => exact m ρ hρ z hz
    · rw [if_neg hi] at h
      obtain ⟨t, r, m⟩ := fmtPow_ok hR h1 h2 h3 h4 h hu
      refine ⟨t, r.down (by omega) (by omega), .inl (r.down (by omega) (by omega)), fun ρ hρ hb => ?_⟩
      rw [elemOut, if_neg hi] at hb ⊢
      cases hz : eval ρ b with
      | none => rw [hz] at hb; exact absurd rfl hb
      | some z =>
        cases hw : eval ρ e with
        | none => rw [hz, hw] at hb; exact absurd rfl hb
        | some w => exact m ρ hρ z w hz hw

theorem prodOut_bad {as : List (Out ℂ)} (h : ∀ a ∈ as, a ≠ .bad) : prodOut as ≠ .bad := by
  induction as with
  | nil => simp [prodOut]
  | cons a as ih =>
    have ha := h a (by simp)
    have := ih fun b hb => h b (by simp [hb])
    rcases as with _ | ⟨b, as⟩
    · exact ha
    · rw [prodOut]
      · rcases out_cases a with rfl | rfl | ⟨z, rfl⟩
        · exact absurd rfl ha
        · simp [binOut, Out.bind]
        · rcases out_cases (prodOut (b :: as)) with hb | hb | ⟨w, hb⟩
          · exact absurd hb this
          · simp [binOut, Out.bind, hb]
          · simp [binOut, Out.bind, hb, binVal]
      · intro h; cases h

theorem fmtElems_ok (hR : FmtOk D S R) {xs : List (Elem F)} {ts : Toks F} (hne : xs ≠ []) (hx : ∀ x ∈ xs, ElemFine D x) (h : fmtElems R xs = .ok ts) (hu : NoUnit ts) :
    ∃ t, Reads 2 ts t ∧ (xs.length = 1 → Reads 3 ts t ∨ ∃ us, ts = .int 1 :: .slash :: us) ∧
      ∀ ρ, S ρ → (∀ x ∈ xs, elemOut ρ x ≠ .bad) → Near (t.val D ρ) (prodOut (xs.map (elemOut ρ))) := by
  induction xs generalizing ts with
  | nil => exact absurd rfl hne
  | cons x xs ih =>
    rcases xs with _ | ⟨y, xs⟩
    · obtain ⟨t, h1, h2, h3⟩ := fmtElem_ok hR (hx x (by simp)) h hu
      exact ⟨t, h1, fun _ => h2, fun ρ hρ hb => h3 ρ hρ (hb x (by simp))⟩
    · unfold fmtElems at h
      split at h
      · cases h
      · rename_i l hl
        split at h
        · cases h
        · rename_i r hr
          cases h
          obtain ⟨t, h1, _, h3⟩ := fmtElem_ok hR (hx x (by simp)) hl hu.left
          obtain ⟨u, g1, _, g3⟩ := ih (by simp) (fun z hz => hx z (List.mem_cons_of_mem _ hz)) hr hu.right.tail
          obtain ⟨v, hv, hv'⟩ := reads_mul h1 g1 rfl
          refine ⟨v, hv, fun h => by simp at h, fun ρ hρ hb => ?_⟩
          rw [hv', List.map_cons, prodOut]
          · exact (h3 ρ hρ (hb x (by simp))).bin (g3 ρ hρ fun z hz => hb z (List.mem_cons_of_mem _ hz))
          · intro h; cases h

/-- The parts have the value `z` of the product, unless a denominator has a pole or is zero. -/
def Parts.Has (ρ : Env F) (p : Parts F) (z : ℂ) : Prop :=
  ∃ P, prodOut (p.num.map (elemOut ρ)) = .val P ∧ (∀ x ∈ p.num, elemOut ρ x ≠ .bad) ∧ (∀ x ∈ p.den, elemOut ρ x ≠ .bad) ∧
    ∀ Q, prodOut (p.den.map (elemOut ρ)) = .val Q → Q ≠ 0 → z = (-1) ^ p.signs * P / Q

theorem prodOut_cons (a : Out ℂ) (as : List (Out ℂ)) : prodOut (a :: as) = binOut .mul a (prodOut as) := by
  rcases as with _ | ⟨b, as⟩
  · rcases out_cases a with rfl | rfl | ⟨z, rfl⟩ <;> simp [prodOut, binOut, Out.bind, binVal]
  · rw [prodOut]
    intro h; cases h

theorem prodOut_snoc (as : List (Out ℂ)) (a : Out ℂ) : prodOut (as ++ [a]) = binOut .mul (prodOut as) a := by
  induction as with
  | nil => rcases out_cases a with rfl | rfl | ⟨z, rfl⟩ <;> simp [prodOut, binOut, Out.bind, binVal]
  | cons b as ih =>
    rw [List.cons_append, prodOut_cons, ih, prodOut_cons]
    cases b <;> cases prodOut as <;> cases a <;> simp [binOut, Out.bind, binVal, mul_assoc]

theorem mul_val {a b : Out ℂ} {z : ℂ} (h : binOut .mul a b = .val z) : ∃ x y, a = .val x ∧ b = .val y ∧ z = x * y := by
  cases a <;> cases b <;> simp [binOut, Out.bind, binVal] at h
  exact ⟨_, _, rfl, rfl, h.symm⟩

/-- A new factor of the numerator, with sign. -/
theorem Parts.Has.num {ρ : Env F} {p : Parts F} {z : ℂ} (h : p.Has ρ z) {x : Elem F} {y w : ℂ} (hx : elemOut ρ x = .val y) (s : Nat)
    (hw : w = (-1) ^ s * y) : Parts.Has ρ ⟨p.num ++ [x], p.den, p.signs + s⟩ (z * w) := by
  obtain ⟨P, h1, h2, h3, h4⟩ := h
  refine ⟨P * y, ?_, ?_, h3, fun Q hQ hQ' => ?_⟩
  · simp [prodOut_snoc, h1, hx, binOut, Out.bind, binVal]
  · intro a ha
    simp only [List.mem_append, List.mem_singleton] at ha
    rcases ha with ha | rfl
    · exact h2 a ha
    · simp [hx]
  · rw [h4 Q hQ hQ', hw, pow_add]
    field_simp

/-- A new sign. -/
theorem Parts.Has.sign {ρ : Env F} {p : Parts F} {z : ℂ} (h : p.Has ρ z) (s : Nat) : Parts.Has ρ ⟨p.num, p.den, p.signs + s⟩ (z * (-1) ^ s) := by
  obtain ⟨P, h1, h2, h3, h4⟩ := h
  refine ⟨P, h1, h2, h3, fun Q hQ hQ' => ?_⟩
  rw [h4 Q hQ hQ', pow_add]
  field_simp

/-- A new factor of the denominator. -/
theorem Parts.Has.den {ρ : Env F} {p : Parts F} {z : ℂ} (h : p.Has ρ z) {x : Elem F} {w : ℂ} (hb : elemOut ρ x ≠ .bad)
    (hx : ∀ y, elemOut ρ x = .val y → y ≠ 0 → w = y⁻¹) : Parts.Has ρ ⟨p.num, p.den ++ [x], p.signs⟩ (z * w) := by
  obtain ⟨P, h1, h2, h3, h4⟩ := h
  refine ⟨P, h1, h2, ?_, fun Q hQ hQ' => ?_⟩
  · intro a ha
    simp only [List.mem_append, List.mem_singleton] at ha
    rcases ha with ha | rfl
    · exact h3 a ha
    · exact hb
  · simp only [List.map_append, List.map_cons, List.map_nil, prodOut_snoc] at hQ
    obtain ⟨q, y, hq, hy, rfl⟩ := mul_val hQ
    have hq0 : q ≠ 0 := left_ne_zero_of_mul hQ'
    have hy0 : y ≠ 0 := right_ne_zero_of_mul hQ'
    rw [h4 q hq hq0, hx y hy hy0]
    field_simp

theorem asBaseExp_ok {t : Expr F} (hg : Good t) (hk : Over D.Knows t) : Good (asBaseExp t).1 ∧ Over D.Knows (asBaseExp t).1 ∧ Good (asBaseExp t).2 ∧ Over D.Knows (asBaseExp t).2 := by
  unfold asBaseExp
  split
  · have h1 := good_pow.1 hg
    have h2 := (over_node.1 hk).2
    exact ⟨h1.1, h2 _ (by simp), h1.2, h2 _ (by simp)⟩
  · exact ⟨hg, hk, good_one, (knows_basic D).oint 1⟩

theorem asBaseExp_val {t : Expr F} {ρ : Env F} {z : ℂ} (hz : eval ρ t = some z) :
    ∃ x y, eval ρ (asBaseExp t).1 = some x ∧ eval ρ (asBaseExp t).2 = some y ∧ powVal x y = some z := by
  unfold asBaseExp
  split
  · rw [eval_pow] at hz
    exact powO_eq_some.1 hz
  · refine ⟨z, 1, hz, ?_, powVal_one z⟩
    rw [eval_int]; simp

theorem elemOut_pow {b e : Expr F} {ρ : Env F} {x y : ℂ} (hx : eval ρ b = some x) (hy : eval ρ e = some y) :
    elemOut ρ (.pow b e) = match powVal x y with | some z => .val z | none => .pole := by
  rw [elemOut]
  by_cases hi : isInt 1 e = true
  · rw [if_pos hi, hx]
    rw [isInt_eval hi] at hy
    cases hy
    simp [Out.ofOption, powVal_one]
  · rw [if_neg hi, hx, hy]
    rfl

theorem powVal_neg {x y z q : ℂ} (h : powVal x y = some z) (h' : powVal x (-y) = some q) : z = q⁻¹ := by
  rcases powVal_cases h with ⟨h0, rfl⟩ | ⟨rfl, h0, rfl⟩
  · rw [powVal_of_ne h0] at h'
    cases h'
    rw [Complex.cpow_neg, inv_inv]
  · rcases powVal_cases h' with ⟨h1, _⟩ | ⟨_, h1, rfl⟩
    · exact absurd rfl h1
    · simp

theorem powerPart_ok {K : Ctors F} (hK : NegOk D S K) {p q : Parts F} {t : Expr F} (hg : Good t) (hk : Over D.Knows t) (h : powerPart K p t = .ok q)
    (hp : ∀ x ∈ p.num ++ p.den, ElemFine D x) :
    (∀ x ∈ q.num ++ q.den, ElemFine D x) ∧ ∀ ρ, S ρ → ∀ z w, p.Has ρ z → eval ρ t = some w → q.Has ρ (z * w) := by
  obtain ⟨g1, g2, g3, g4⟩ := asBaseExp_ok hg hk
  have hfine : ∀ (x : Elem F), ElemFine D x → ∀ y ∈ p.num ++ (p.den ++ [x]), ElemFine D y := by
    intro x hx y hy
    simp only [List.mem_append, List.mem_singleton] at hy hp
    rcases hy with hy | hy | rfl
    · exact hp y (.inl hy)
    · exact hp y (.inr hy)
    · exact hx
  unfold powerPart at h
  split at h
  · by_cases hi : isInt (-1) (asBaseExp t).2 = true
    · rw [if_pos hi] at h
      cases h
      refine ⟨hfine _ ⟨g1, g2, good_one, (knows_basic D).oint 1⟩, fun ρ hρ z w hz hw => ?_⟩
      obtain ⟨x, y, hx, hy, hv⟩ := asBaseExp_val hw
      rw [isInt_eval hi] at hy
      cases hy
      have he : elemOut ρ (.pow (asBaseExp t).1 (.int 1)) = .val x := by
        rw [elemOut_pow hx (eval_int ρ 1)]
        simp [powVal_one]
      refine hz.den (by simp [he]) fun y' hy' _ => ?_
      rw [he] at hy'
      cases hy'
      refine powVal_neg hv ?_
      simp [powVal_one]
    · rw [if_neg hi] at h
      split at h
      · cases h
      · rename_i e he
        cases h
        obtain ⟨k1, k2, k3⟩ := hK _ e g3 g4 he
        refine ⟨hfine _ ⟨g1, g2, k1, k2⟩, fun ρ hρ z w hz hw => ?_⟩
        obtain ⟨x, y, hx, hy, hv⟩ := asBaseExp_val hw
        have he' := elemOut_pow hx (k3 ρ hρ y hy)
        refine hz.den ?_ fun y' hy' _ => ?_
        · rw [he']; split <;> simp
        · rw [he'] at hy'
          split at hy'
          · rename_i q hq
            cases hy'
            exact powVal_neg hv hq
          · cases hy'
  · cases h
    refine ⟨?_, fun ρ hρ z w hz hw => ?_⟩
    · intro y hy
      simp only [List.mem_append, List.mem_singleton] at hy hp
      rcases hy with (hy | rfl) | hy
      · exact hp y (.inl hy)
      · exact ⟨g1, g2, g3, g4⟩
      · exact hp y (.inr hy)
    · obtain ⟨x, y, hx, hy, hv⟩ := asBaseExp_val hw
      have he : elemOut ρ (.pow (asBaseExp t).1 (asBaseExp t).2) = .val w := by rw [elemOut_pow hx hy, hv]
      exact hz.num he 0 (by simp)

theorem val_rel (ρ : Env F) (op : RelOp) (a b : Expr F) : eval ρ (.rel op a b) = (eval ρ a).bind fun x => (eval ρ b).bind fun y => relVal op x y := by
  rw [eval]; rfl
theorem val_cond (ρ : Env F) (c a b : Expr F) : eval ρ (.cond c a b) = condO (eval ρ c) (eval ρ a) (eval ρ b) := by rw [eval]; rfl
theorem val_iverson (ρ : Env F) (c : Expr F) : eval ρ (.iverson c) = eval ρ c := by rw [eval]; rfl
theorem val_symfn (ρ : Env F) (n : String) (as : List (Expr F)) : eval ρ (.symfn n as) = (seqO (as.map (eval ρ))).bind (ρ.symfn n) := by
  rw [eval, evals_eq]; rfl
theorem val_uneval (ρ : Env F) (x : Expr F) : eval ρ (.uneval x) = eval ρ x := by rw [eval]; rfl
theorem val_stop (ρ : Env F) (x : Expr F) : eval ρ (.stop x) = eval ρ x := by rw [eval]; rfl

theorem abs_sign {n a : Int} (hn : InI64 n) (h : cabs n = .ok a) : (n : ℂ) = (-1) ^ (if n < 0 then 1 else 0) * (a : ℂ) ∧ (a = 1 ↔ n = 1 ∨ n = -1) := by
  have := (Wf.cabs_ok hn h).1
  subst this
  by_cases h0 : n < 0
  · rw [if_pos h0, abs_of_neg h0]
    refine ⟨by simp, by omega⟩
  · rw [if_neg h0, abs_of_nonneg (by omega)]
    refine ⟨by simp, by omega⟩

theorem partStep_ok {K : Ctors F} (hK : NegOk D S K) {p q : Parts F} {t : Expr F} (hg : Good t) (hk : Over D.Knows t) (h : partStep K p t = .ok q)
    (hp : ∀ x ∈ p.num ++ p.den, ElemFine D x) :
    (∀ x ∈ q.num ++ q.den, ElemFine D x) ∧ ∀ ρ, S ρ → ∀ z w, p.Has ρ z → eval ρ t = some w → q.Has ρ (z * w) := by
  unfold partStep at h
  split at h
  · rename_i r
    split at h
    · cases h
    · rename_i a ha
      cases h
      obtain ⟨hs, hone⟩ := abs_sign (good_rat.1 hg).1.1 ha
      refine ⟨?_, fun ρ hρ z w hz hw => ?_⟩
      · intro x hx
        simp only [List.mem_append, List.mem_singleton] at hx hp
        rcases hx with hx | hx | rfl
        · split_ifs at hx
          · simp only [List.mem_append, List.mem_singleton] at hx
            rcases hx with hx | rfl
            · exact hp x (.inl hx)
            · trivial
          · exact hp x (.inl hx)
        · exact hp x (.inr hx)
        · trivial
      · rw [eval_rat] at hw
        cases hw
        have hd : (0:Int) < r.d := (good_rat.1 hg).1.2.2.1
        have hval : ((r.val : ℚ) : ℂ) = (r.n : ℂ) * (r.d : ℂ)⁻¹ := by simp [RatC.val, div_eq_mul_inv]
        have h1 : Parts.Has ρ ⟨if a ≠ 1 then p.num ++ [.int a] else p.num, p.den, p.signs + (if r.n < 0 then 1 else 0)⟩ (z * (r.n : ℂ)) := by
          by_cases h1 : a = 1
          · rw [if_neg (by simpa using h1), hs, h1]
            simpa using hz.sign (if r.n < 0 then 1 else 0)
          · rw [if_pos h1]
            exact hz.num (x := .int a) rfl _ hs
        have h2 := h1.den (x := .int r.d) (w := (r.d : ℂ)⁻¹) (by simp [elemOut]) (fun y hy _ => by cases hy; rfl)
        rw [hval, ← mul_assoc]
        by_cases hn : r.n < 0
        · simpa [hn] using h2
        · simpa [hn] using h2
  · rename_i n
    split at h
    · cases h
    · rename_i a ha
      cases h
      obtain ⟨hs, hone⟩ := abs_sign (good_node.1 hg).1 ha
      refine ⟨?_, fun ρ hρ z w hz hw => ?_⟩
      · intro x hx
        simp only [List.mem_append] at hx hp
        rcases hx with hx | hx
        · split_ifs at hx
          · simp only [List.mem_append, List.mem_singleton] at hx
            rcases hx with hx | rfl
            · exact hp x (.inl hx)
            · trivial
          · exact hp x (.inl hx)
        · exact hp x (.inr hx)
      · rw [eval_int] at hw
        cases hw
        have h1 : Parts.Has ρ ⟨if n ≠ 1 ∧ n ≠ -1 then p.num ++ [.int a] else p.num, p.den, p.signs + (if n < 0 then 1 else 0)⟩ (z * (n : ℂ)) := by
          by_cases h1 : a = 1
          · have : ¬ (n ≠ 1 ∧ n ≠ -1) := by have := hone.1 h1; omega
            rw [if_neg this, hs, h1]
            simpa using hz.sign (if n < 0 then 1 else 0)
          · have : n ≠ 1 ∧ n ≠ -1 := by
              have := mt hone.2 h1
              omega
            rw [if_pos this]
            exact hz.num (x := .int a) rfl _ hs
        by_cases hn : n < 0
        · simpa [hn] using h1
        · simpa [hn] using h1
  · rename_i f
    cases h
    refine ⟨?_, fun ρ hρ z w hz hw => ?_⟩
    · intro x hx
      simp only [List.mem_append, List.mem_singleton] at hx hp
      rcases hx with (hx | rfl) | hx
      · exact hp x (.inl hx)
      · trivial
      · exact hp x (.inr hx)
    · rw [eval_flt] at hw
      cases hf : FloatSem.val f with
      | none => rw [hf] at hw; cases hw
      | some x =>
        rw [hf] at hw
        cases hw
        have he : elemOut ρ (.flt f) = .val ((|x| : ℝ) : ℂ) := by rw [elemOut, hf]; rfl
        have hs : (x : ℂ) = (-1) ^ (if fltIsNeg f then 1 else 0) * ((|x| : ℝ) : ℂ) := by
          have := fltIsNeg_val hf
          by_cases hx : x < 0
          · rw [if_pos (this.2 hx), abs_of_neg hx]; simp
          · rw [if_neg (mt this.1 hx), abs_of_nonneg (not_lt.1 hx)]; simp
        have h1 := hz.num he _ hs
        by_cases hn : fltIsNeg f = true
        · simpa [hn] using h1
        · simpa [hn] using h1
  · exact powerPart_ok hK hg hk h hp

theorem parts_ok {K : Ctors F} (hK : NegOk D S K) {ts : List (Expr F)} {p q : Parts F} (hg : ∀ t ∈ ts, Good t) (hk : ∀ t ∈ ts, Over D.Knows t)
    (h : foldRes (partStep K) p ts = .ok q) (hp : ∀ x ∈ p.num ++ p.den, ElemFine D x) :
    (∀ x ∈ q.num ++ q.den, ElemFine D x) ∧ ∀ ρ, S ρ → ∀ z w, p.Has ρ z → prodO (ts.map (eval ρ)) = some w → q.Has ρ (z * w) := by
  induction ts generalizing p with
  | nil =>
    cases h
    refine ⟨hp, fun ρ _ z w hz hw => ?_⟩
    cases hw
    simpa using hz
  | cons t ts ih =>
    unfold foldRes at h
    split at h
    · cases h
    · rename_i s hs
      obtain ⟨h1, h2⟩ := partStep_ok hK (hg t (by simp)) (hk t (by simp)) hs hp
      obtain ⟨h3, h4⟩ := ih (fun a ha => hg a (by simp [ha])) (fun a ha => hk a (by simp [ha])) h h1
      refine ⟨h3, fun ρ hρ z w hz hw => ?_⟩
      obtain ⟨x, y, hx, hy, rfl⟩ := prodO_cons_some.1 hw
      have := h4 ρ hρ _ y (h2 ρ hρ z x hz hx) hy
      rwa [mul_assoc] at this

/-- A numerator and denominator. -/
theorem quotient_ok (hR : FmtOk D S R) {num den : List (Elem F)} {l r : Toks F} (hne : num ≠ []) (hx : ∀ x ∈ num ++ den, ElemFine D x)
    (hl : fmtElems R num = .ok l) (hr : fmtDen R den = .ok r) (hu : NoUnit (l ++ r)) :
    ∃ t, Reads 2 (l ++ r) t ∧ ∀ ρ, S ρ → (∀ x ∈ num ++ den, elemOut ρ x ≠ .bad) → ∀ P, prodOut (num.map (elemOut ρ)) = .val P →
      t.val D ρ = .pole ∨ ∃ Q, prodOut (den.map (elemOut ρ)) = .val Q ∧ Q ≠ 0 ∧ t.val D ρ = .val (P / Q) := by
  obtain ⟨a, a1, _, a3⟩ := fmtElems_ok hR hne (fun x hx' => hx x (by simp [hx'])) hl hu.left
  unfold fmtDen at hr
  split at hr
  · cases hr
  · rename_i us hus
    have hr := (Except.ok.inj hr).symm
    rcases den with _ | ⟨d, den⟩
    · simp only [List.isEmpty_nil, if_true] at hr
      subst hr
      refine ⟨a, by simpa using a1, fun ρ hρ hb P hP => ?_⟩
      rcases a3 ρ hρ (fun x hx' => hb x (by simp [hx'])) with h | h
      · exact .inr ⟨1, rfl, one_ne_zero, by rw [h, hP]; simp⟩
      · exact .inl h
    · have hfin : ∀ (us' : Toks F) b, r = .slash :: us' → Reads 3 us' b →
          (∀ ρ, S ρ → (∀ x ∈ d :: den, elemOut ρ x ≠ .bad) → Near (b.val D ρ) (prodOut ((d :: den).map (elemOut ρ)))) →
          ∃ t, Reads 2 (l ++ r) t ∧ ∀ ρ, S ρ → (∀ x ∈ num ++ d :: den, elemOut ρ x ≠ .bad) → ∀ P, prodOut (num.map (elemOut ρ)) = .val P →
            t.val D ρ = .pole ∨ ∃ Q, prodOut ((d :: den).map (elemOut ρ)) = .val Q ∧ Q ≠ 0 ∧ t.val D ρ = .val (P / Q) := by
        intro us' b hr hb hv
        subst hr
        refine ⟨_, Reads.bin (op := .div) a1 hb, fun ρ hρ hbad P hP => ?_⟩
        rw [T.val]
        have ha := a3 ρ hρ (fun x hx' => hbad x (by simp [hx']))
        have hd := hv ρ hρ (fun x hx' => hbad x (by simp only [List.mem_append]; exact .inr hx'))
        have hdb := prodOut_bad (as := (d :: den).map (elemOut ρ)) (by
          intro o ho
          obtain ⟨x, hx', rfl⟩ := List.mem_map.1 ho
          exact hbad x (by simp only [List.mem_append]; exact .inr hx'))
        rcases ha with ha | ha
        · rw [ha, hP]
          rcases hd with hd | hd
          · rw [hd]
            rcases out_cases (prodOut ((d :: den).map (elemOut ρ))) with h | h | ⟨Q, h⟩
            · exact absurd h hdb
            · rw [h]; exact .inl rfl
            · rw [h]
              by_cases hQ : Q = 0
              · left; simp [binOut, Out.bind, binVal, hQ]
              · right; exact ⟨Q, rfl, hQ, by simp [binOut, Out.bind, binVal, hQ]⟩
          · rw [hd]; exact .inl rfl
        · rw [ha]; exact .inl rfl
      simp only [List.isEmpty_cons, Bool.false_eq_true, if_false] at hr
      by_cases hlen : 1 < (d :: den).length
      · rw [if_pos hlen] at hr
        have hu' : NoUnit us := by rw [hr] at hu; exact hu.right.tail.paren
        obtain ⟨b, b1, _, b3⟩ := fmtElems_ok hR (by simp) (fun x hx' => hx x (by simp only [List.mem_append]; exact .inr hx')) hus hu'
        exact hfin _ b hr ((Reads.paren (b1.down (by omega) (by omega))).down (by omega) (by omega)) b3
      · rw [if_neg hlen] at hr
        have hu' : NoUnit us := by rw [hr] at hu; exact hu.right.tail
        obtain ⟨b, b1, b2, b3⟩ := fmtElems_ok hR (by simp) (fun x hx' => hx x (by simp only [List.mem_append]; exact .inr hx')) hus hu'
        rcases b2 (by simp at hlen ⊢; simpa using hlen) with b2 | ⟨vs, rfl⟩
        · exact hfin _ b hr b2 b3
        · subst hr
          exact absurd ⟨l, vs, by simp⟩ hu

theorem fmtMul_ok {K : Ctors F} (hK : NegOk D S K) (hR : FmtOk D S R) {as : List (Expr F)} {ts : Toks F} (hg : ∀ t ∈ as, Good t) (hk : ∀ t ∈ as, Over D.Knows t)
    (h : fmtMul K R as = .ok ts) (hu : NoUnit ts) : ∃ u, Reads 2 ts u ∧ Means D S (.mul as) u := by
  unfold fmtMul at h
  by_cases hl : as.length < 2
  · rw [if_pos hl] at h; cases h
  · rw [if_neg hl] at h
    split at h
    · cases h
    · rename_i p hp
      split at h
      · cases h
      · rename_i l hnum
        split at h
        · cases h
        · rename_i r hden
          cases h
          have hperm := List.perm_insertionSort (fun a b : Expr F => factorsLe a b = true) as
          obtain ⟨h1, h2⟩ := parts_ok hK (fun a ha => hg a (hperm.mem_iff.1 ha)) (fun a ha => hk a (hperm.mem_iff.1 ha)) hp (by simp)
          have hne : p.numerator ≠ [] := by
            unfold Parts.numerator
            split
            · simp
            · rename_i hh; intro h0; rw [h0] at hh; simp at hh
          have hfine : ∀ x ∈ p.numerator ++ p.den, ElemFine D x := by
            intro x hx
            simp only [List.mem_append] at hx h1
            rcases hx with hx | hx
            · unfold Parts.numerator at hx
              split at hx
              · simp only [List.mem_singleton] at hx; subst hx; trivial
              · exact h1 x (.inl hx)
            · exact h1 x (.inr hx)
          obtain ⟨t, t1, t2⟩ := quotient_ok hR hne hfine hnum hden hu.right
          have hval : ∀ ρ, S ρ → ∀ z, eval ρ (.mul as) = some z → t.val D ρ = .pole ∨ ∃ v, t.val D ρ = .val v ∧ z = (-1) ^ p.signs * v := by
            intro ρ hρ z hz
            rw [eval_mul, ← prodO_perm (hperm.map _)] at hz
            have hhas : Parts.Has ρ (⟨[], [], 0⟩ : Parts F) 1 := by
              refine ⟨1, rfl, by simp, by simp, fun Q hQ _ => ?_⟩
              cases hQ; simp
            obtain ⟨P, k1, k2, k3, k4⟩ := h2 ρ hρ 1 z hhas hz
            have hP : prodOut (p.numerator.map (elemOut ρ)) = .val P := by
              unfold Parts.numerator
              split
              · rename_i hh
                rw [List.isEmpty_iff.1 hh] at k1
                rw [← k1]
                simp [prodOut, elemOut]
              · exact k1
            have hb : ∀ x ∈ p.numerator ++ p.den, elemOut ρ x ≠ .bad := by
              intro x hx
              simp only [List.mem_append] at hx
              rcases hx with hx | hx
              · unfold Parts.numerator at hx
                split at hx
                · simp only [List.mem_singleton] at hx; subst hx; simp [elemOut]
                · exact k2 x hx
              · exact k3 x hx
            rcases t2 ρ hρ hb P hP with h | ⟨Q, hQ, hQ0, hv⟩
            · exact .inl h
            · refine .inr ⟨_, hv, ?_⟩
              have := k4 Q hQ hQ0
              rw [one_mul] at this
              rw [this]; ring
          by_cases hs : p.signs % 2 = 1
          · rw [if_pos hs]
            obtain ⟨w, hw, hw'⟩ := reads_neg t1 rfl
            refine ⟨w, hw, fun ρ hρ z hz => ?_⟩
            rw [hw']
            rcases hval ρ hρ z hz with h | ⟨v, hv, rfl⟩
            · rw [h]; exact .inr rfl
            · rw [hv, (Nat.odd_iff.2 hs).neg_one_pow]
              left; simp [Out.bind]
          · rw [if_neg hs]
            refine ⟨t, t1, fun ρ hρ z hz => ?_⟩
            rcases hval ρ hρ z hz with h | ⟨v, hv, rfl⟩
            · exact .inr h
            · rw [hv, (Nat.even_iff.2 (by omega)).neg_one_pow]
              left; simp

/-! ## All nodes -/

theorem fmtPower_ok (hR : FmtOk D S R) {b e : Expr F} {ts : Toks F} (hg : Good (.pow b e)) (hk : Over D.Knows (.pow b e)) (h : fmtPower R b e = .ok ts) (hu : NoUnit ts) :
    ∃ t, Reads (lvl (.pow b e)) ts t ∧ (IsRecip (.pow b e) → ∃ us, ts = .int 1 :: .slash :: us) ∧ Means D S (.pow b e) t := by
  have h1 := good_pow.1 hg
  have h2 := (over_node.1 hk).2
  unfold fmtPower at h
  by_cases hi : isInt (-1) e = true
  · rw [if_pos hi] at h
    have he := isInt_iff.1 hi
    subst he
    split at h
    · cases h
    · rename_i us hus
      cases h
      obtain ⟨t, m, r, r'⟩ := fmtPrec_two hR h1.1 (h2 _ (by simp)) hus hu.tail.tail
      have hr : Reads 3 us t := by
        rcases r' with r' | ⟨vs, rfl⟩
        · exact r'
        · exact absurd ⟨[.int 1], vs, by simp⟩ hu
      have hl : lvl (.pow b (.int (-1)) : Expr F) = 2 := by simp [lvl]
      rw [hl]
      refine ⟨_, Reads.bin (op := .div) (l := [.int 1]) (Reads.int.down (by decide) (by omega)) hr, fun _ => ⟨us, rfl⟩, fun ρ hρ z hz => ?_⟩
      rw [eval_pow, eval_int] at hz
      obtain ⟨x, y, hx, hy, hv⟩ := powO_eq_some.1 hz
      cases hy
      have hz' : z = x⁻¹ := powVal_neg hv (by simp [powVal_one])
      rw [T.val, T.val]
      rcases m ρ hρ x hx with hm | hm
      · rw [hm]
        by_cases h0 : x = 0
        · right; simp [binOut, Out.bind, binVal, h0]
        · left; simp [binOut, Out.bind, binVal, h0, hz']
      · rw [hm]; exact .inr rfl
  · rw [if_neg hi] at h
    have hne : e ≠ .int (-1) := fun h => hi (isInt_iff.2 h)
    have hl : lvl (.pow b e) = 4 := by simp [lvl, hne]
    rw [hl]
    obtain ⟨t, r, m⟩ := fmtPow_ok hR h1.1 (h2 _ (by simp)) h1.2 (h2 _ (by simp)) h hu
    refine ⟨t, r, fun ⟨b', hb⟩ => absurd (by simpa using congrArg (fun x => match x with | .pow _ y => y | x => x) hb) hne, fun ρ hρ z hz => ?_⟩
    rw [eval_pow] at hz
    obtain ⟨x, y, hx, hy, hv⟩ := powO_eq_some.1 hz
    rw [← powOut_some hz, hx, hy]
    exact m ρ hρ x y hx hy

theorem fmtArgs_ok (hR : FmtOk D S R) {as : List (Expr F)} {ts : Toks F} (hg : ∀ t ∈ as, Good t) (hk : ∀ t ∈ as, Over D.Knows t)
    (h : fmtArgs R as = .ok ts) (hu : NoUnit ts) :
    ∃ l, ReadsArgs ts l ∧ l.length = as.length ∧ List.Forall₂ (Means D S) as l := by
  induction as generalizing ts with
  | nil => cases h; exact ⟨[], .nil, rfl, .nil⟩
  | cons a as ih =>
    rcases as with _ | ⟨b, as⟩
    · obtain ⟨t, r, _, m⟩ := hR a ts (hg a (by simp)) (hk a (by simp)) h hu
      exact ⟨[t], .one (r.down (by omega) (lvl_le a)), rfl, .cons m .nil⟩
    · unfold fmtArgs at h
      split at h
      · cases h
      · rename_i l hl
        split at h
        · cases h
        · rename_i r hr
          cases h
          obtain ⟨t, r1, _, m1⟩ := hR a l (hg a (by simp)) (hk a (by simp)) hl hu.left
          obtain ⟨ls, r2, hlen, m2⟩ := ih (fun t ht => hg t (List.mem_cons_of_mem _ ht)) (fun t ht => hk t (List.mem_cons_of_mem _ ht)) hr hu.right.tail
          exact ⟨t :: ls, .cons (r1.down (by omega) (lvl_le a)) r2 (by intro h; rw [h] at hlen; simp at hlen), by simp [hlen], .cons m1 m2⟩

theorem fmtCall_ok (hR : FmtOk D S R) {f : String} {as : List (Expr F)} {ts : Toks F} (hg : ∀ t ∈ as, Good t) (hk : ∀ t ∈ as, Over D.Knows t)
    (h : fmtCall R f as = .ok ts) (hu : NoUnit ts) : ∃ l, Reads 5 ts (.app f l) ∧ List.Forall₂ (Means D S) as l := by
  unfold fmtCall at h
  split at h
  · cases h
  · rename_i us hus
    cases h
    obtain ⟨l, r, _, m⟩ := fmtArgs_ok hR hg hk hus hu.tail.paren
    exact ⟨l, .app r, m⟩

theorem seqOut_ok {as : List (Expr F)} {l : List (T F)} (h : List.Forall₂ (Means D S) as l) {ρ : Env F} (hρ : S ρ) {zs : List ℂ}
    (hz : seqO (as.map (eval ρ)) = some zs) : seqOut (valList D ρ l) = .val zs ∨ seqOut (valList D ρ l) = .pole := by
  induction h generalizing zs with
  | nil => cases hz; exact .inl (by simp [valList, seqOut])
  | @cons a t as l h1 h2 ih =>
    simp only [List.map_cons] at hz
    cases ha : eval ρ a with
    | none => rw [ha] at hz; cases hz
    | some x =>
      rw [ha] at hz
      simp only [seqO, Option.bind_some, Option.map_eq_some_iff] at hz
      obtain ⟨ws, hw, rfl⟩ := hz
      rw [valList, seqOut]
      rcases h1 ρ hρ x ha with h | h
      · rw [h]
        rcases ih hw with h' | h'
        · rw [h']; exact .inl rfl
        · rw [h']; exact .inr rfl
      · rw [h]; exact .inr rfl

/-- A call of a function that gets the values of its arguments. -/
theorem call_strict {as : List (Expr F)} {l : List (T F)} (h : List.Forall₂ (Means D S) as l) {ρ : Env F} (hρ : S ρ) {g : List ℂ → Option ℂ} {z : ℂ}
    (hz : (seqO (as.map (eval ρ))).bind g = some z) : Near ((seqOut (valList D ρ l)).bind fun zs => .ofOption (g zs)) (.val z) := by
  obtain ⟨zs, hs, hg⟩ := Option.bind_eq_some_iff.1 hz
  rcases seqOut_ok h hρ hs with h' | h'
  · rw [h']; left; simp [Out.bind, hg, Out.ofOption]
  · rw [h']; exact .inr rfl

theorem forall2_one {P : Expr F → T F → Prop} {a : Expr F} {l : List (T F)} (h : List.Forall₂ P [a] l) : ∃ t, l = [t] ∧ P a t := by
  cases h with
  | cons h1 h2 => cases h2; exact ⟨_, rfl, h1⟩

theorem fmtRel_ok (hR : FmtOk D S R) {op : RelOp} {a b : Expr F} {ts : Toks F} (hga : Good a) (hka : Over D.Knows a) (hgb : Good b) (hkb : Over D.Knows b)
    (h : fmtRel R op a b = .ok ts) (hu : NoUnit ts) : ∃ t, Reads 0 ts t ∧ Means D S (.rel op a b) t := by
  unfold fmtRel at h
  split at h
  · cases h
  · rename_i l hl
    split at h
    · cases h
    · rename_i r hr
      cases h
      obtain ⟨t, m1, r1⟩ := fmtPrec_zero hR hga hka hl hu.left
      obtain ⟨u, m2, r2⟩ := fmtPrec_zero hR hgb hkb hr hu.right.tail
      have key : ∀ bop : BinOp, bop.left = 1 → bop.right = 1 → bop.level = 0 → bop.tok = RelOp.tok (F := F) op →
          (∀ x y, binVal bop x y = .ofOption (relVal op x y)) → ∃ t, Reads 0 (l ++ RelOp.tok op :: r) t ∧ Means D S (.rel op a b) t := by
        intro bop e1 e2 e3 e4 e5
        have := Reads.bin (op := bop) (l := l) (r := r) (by rw [e1]; exact r1) (by rw [e2]; exact r2)
        rw [e3, e4] at this
        refine ⟨_, this, fun ρ hρ z hz => ?_⟩
        rw [val_rel] at hz
        obtain ⟨x, hx, hz⟩ := Option.bind_eq_some_iff.1 hz
        obtain ⟨y, hy, hz⟩ := Option.bind_eq_some_iff.1 hz
        rw [T.val]
        have hn := Near.bin (op := bop) (m1 ρ hρ x hx) (m2 ρ hρ y hy)
        simpa [binOut, Out.bind, e5, hz, Out.ofOption] using hn
      cases op
      · exact key .lt rfl rfl rfl rfl fun _ _ => rfl
      · exact key .le rfl rfl rfl rfl fun _ _ => rfl
      · exact key .eq rfl rfl rfl rfl fun _ _ => rfl

theorem name_ok (h : Head F) (hD : D.leaf (leafText h) = some h) : ∃ t, Reads 5 [.name (leafText h)] t ∧ Means D S (.node h []) t := by
  refine ⟨_, .name, fun ρ _ z hz => .inl ?_⟩
  rw [T.val, hD, nameVal, hz]
  rfl

theorem fltText_ok (f : F) : ∃ t : T F, Reads (if fltIsNeg f then 3 else 5) (fltText f) t ∧ Means D S (.flt f) t := by
  unfold fltText
  by_cases hn : fltIsNeg f = true
  · rw [if_pos hn, if_pos hn]
    refine ⟨_, .neg (Reads.flt.down (by omega) (by omega)), fun ρ _ z hz => .inl ?_⟩
    rw [eval_flt] at hz
    obtain ⟨x, hx, rfl⟩ := Option.map_eq_some_iff.1 hz
    rw [T.val, T.val, hx]
    simp [Out.ofOption, Out.bind, abs_of_neg ((fltIsNeg_val hx).1 hn)]
  · rw [if_neg hn, if_neg hn]
    refine ⟨_, Reads.flt, fun ρ _ z hz => .inl ?_⟩
    rw [eval_flt] at hz
    obtain ⟨x, hx, rfl⟩ := Option.map_eq_some_iff.1 hz
    rw [T.val, hx]
    simp [Out.ofOption, abs_of_nonneg (not_lt.1 (mt (fltIsNeg_val hx).2 hn))]

theorem ratText_ok {r : RatC} (hg : Good (.rat r : Expr F)) : ∃ t : T F, Reads 2 (intText r.n ++ .slash :: intText r.d) t ∧ Means D S (.rat r) t := by
  have hd : (0:Int) < r.d := (good_rat.1 hg).1.2.2.1
  obtain ⟨t, r1, _, v1⟩ := intText_reads (F := F) r.n
  obtain ⟨u, r2, _, v2⟩ := intText_reads (F := F) r.d
  refine ⟨_, Reads.bin (op := .div) (r1.down (k := 2) (by omega) (by omega)) r2, fun ρ _ z hz => .inl ?_⟩
  rw [eval_rat] at hz
  cases hz
  have : (r.d : ℂ) ≠ 0 := by exact_mod_cast hd.ne'
  rw [T.val, v1, v2]
  simp [binOut, Out.bind, binVal, this, RatC.val]

theorem not_recip {h : Head F} {as : List (Expr F)} (hh : h ≠ .pow) : ¬ IsRecip (.node h as) := by
  rintro ⟨b, hb⟩
  cases hb
  exact hh rfl

theorem eval_elem_opaq (ρ : Env F) (as : List (Expr F)) :
    (∀ i, eval ρ (.node (.elem i) as) = ρ.opaq ρ.leaf (.node (.elem i) as)) ∧ (∀ n, eval ρ (.node (.deriv n) as) = ρ.opaq ρ.leaf (.node (.deriv n) as)) ∧
    eval ρ (.node .subst as) = ρ.opaq ρ.leaf (.node .subst as) :=
  ⟨fun _ => by rw [eval]; rfl, fun _ => by rw [eval]; rfl, by rw [eval]; rfl⟩

theorem opaq_ok {e : Expr F} (h : ∀ ρ, eval ρ e = ρ.opaq ρ.leaf e) : ∃ t, Reads 5 [.opaq e] t ∧ Means D S e t := by
  refine ⟨_, .opaq, fun ρ _ z hz => .inl ?_⟩
  rw [T.val, ← h, hz]
  rfl

theorem fmtNode_ok (hD : D.Usual) {K : Ctors F} (hK : NegOk D S K) (hR : FmtOk D S R) : FmtOk D S (fmtNode K R) := by
  intro e ts hg hk h hu
  have wrap : ∀ {h : Head F} {as : List (Expr F)} {k : Nat}, h ≠ .pow → lvl (.node h as) = k → (∃ t, Reads k ts t ∧ Means D S (.node h as) t) →
      ∃ t, Reads (lvl (.node h as)) ts t ∧ (IsRecip (.node h as) → ∃ us, ts = .int 1 :: .slash :: us) ∧ Means D S (.node h as) t := by
    intro h as k hh hl ⟨t, r, m⟩
    exact ⟨t, by rw [hl]; exact r, fun hr => absurd hr (not_recip hh), m⟩
  unfold fmtNode at h
  split at h
  · rename_i n
    cases h
    refine wrap (by simp) (k := if n < 0 then 3 else 5) (by simp [lvl]) ?_
    obtain ⟨t, r1, r2, v⟩ := intText_reads (F := F) n
    refine ⟨t, ?_, fun ρ _ z hz => .inl ?_⟩
    · by_cases hn : n < 0
      · rw [if_pos hn]; exact r1
      · rw [if_neg hn]; exact r2 (by omega)
    · rw [eval_int] at hz
      cases hz
      exact v D ρ
  · cases h
    exact wrap (by simp) rfl (fltText_ok _)
  · cases h
    exact wrap (by simp) rfl (ratText_ok hg)
  · cases h
    exact wrap (by simp) rfl (name_ok _ (hD.leaf _ (.inl ⟨_, rfl⟩)))
  · cases h
    exact wrap (by simp) rfl (name_ok _ (hD.leaf _ (by simp)))
  · cases h
    exact wrap (by simp) rfl (name_ok _ (hD.leaf _ (by simp)))
  · cases h
    exact wrap (by simp) rfl (name_ok _ (hD.leaf _ (by simp)))
  · cases h
    exact wrap (by simp) rfl (name_ok _ (hD.leaf _ (by simp)))
  · cases h
    exact wrap (by simp) rfl (name_ok _ (over_node.1 hk).1)
  · cases h
    exact wrap (by simp) rfl (name_ok _ (over_node.1 hk).1)
  · cases h
    exact wrap (by simp) rfl (name_ok _ (over_node.1 hk).1)
  · exact wrap (by simp) rfl (fmtMul_ok hK hR (good_mul.1 hg).2 (over_node.1 hk).2 h hu)
  · exact wrap (by simp) rfl (fmtAdd_ok hK hR (good_add.1 hg) (over_node.1 hk).2 h hu)
  · exact fmtPower_ok hR hg hk h hu
  · rename_i f as
    obtain ⟨l, r, m⟩ := fmtCall_ok hR (good_fn.1 hg) (over_node.1 hk).2 h hu
    refine wrap (by simp) rfl ⟨_, r, fun ρ hρ z hz => ?_⟩
    rw [eval_fn] at hz
    rw [T.val, hD.builtIn, callVal]
    exact call_strict m hρ hz
  · rename_i f as
    obtain ⟨l, r, m⟩ := fmtCall_ok hR (good_node.1 hg).2 (over_node.1 hk).2 h hu
    refine wrap (by simp) rfl ⟨_, r, fun ρ hρ z hz => ?_⟩
    have hc : D.callee f = some (.user f) := (over_node.1 hk).1
    rw [val_symfn] at hz
    rw [T.val, hc, callVal]
    exact call_strict m hρ hz
  · rename_i a
    unfold fmtParen at h
    split at h
    · cases h
    · rename_i us hus
      cases h
      obtain ⟨t, r, _, m⟩ := hR a us ((good_node.1 hg).2 a (by simp)) ((over_node.1 hk).2 a (by simp)) hus hu.paren
      refine wrap (by simp) rfl ⟨t, .paren (r.down (by omega) (lvl_le a)), fun ρ hρ z hz => m ρ hρ z ?_⟩
      rwa [val_uneval] at hz
  · rename_i c a b
    obtain ⟨l, r, m⟩ := fmtCall_ok hR (as := [c, a, b]) (good_node.1 hg).2 (over_node.1 hk).2 h hu
    refine wrap (by simp) rfl ⟨_, r, fun ρ hρ z hz => ?_⟩
    cases m with
    | cons m1 m =>
      obtain _ | ⟨m2, m⟩ := m
      obtain ⟨t3, rfl, m3⟩ := forall2_one m
      rw [T.val, hD.choice, valList, valList, valList, valList, callVal]
      rw [val_cond] at hz
      cases hc : eval ρ c with
      | none => rw [hc] at hz; cases hz
      | some v =>
        rw [hc] at hz
        change (if v = 1 then eval ρ a else if v = 0 then eval ρ b else none) = some z at hz
        rcases m1 ρ hρ v hc with hv | hv
        · rw [hv]
          change Near (if v = 1 then _ else if v = 0 then _ else _) _
          by_cases h1 : v = 1
          · rw [if_pos h1] at hz ⊢
            exact m2 ρ hρ z hz
          · rw [if_neg h1] at hz ⊢
            by_cases h0 : v = 0
            · rw [if_pos h0] at hz ⊢
              exact m3 ρ hρ z hz
            · rw [if_neg h0] at hz; cases hz
        · rw [hv]; exact .inr rfl
  · rename_i c
    obtain ⟨l, r, m⟩ := fmtCall_ok hR (as := [c]) (good_node.1 hg).2 (over_node.1 hk).2 h hu
    refine wrap (by simp) rfl ⟨_, r, fun ρ hρ z hz => ?_⟩
    obtain ⟨t, rfl, m1⟩ := forall2_one m
    rw [val_iverson] at hz
    rw [T.val, hD.iverson, valList, valList, callVal]
    exact m1 ρ hρ z hz
  · rename_i c
    obtain ⟨l, r, m⟩ := fmtCall_ok hR (as := [c]) (good_node.1 hg).2 (over_node.1 hk).2 h hu
    refine wrap (by simp) rfl ⟨_, r, fun ρ hρ z hz => ?_⟩
    obtain ⟨t, rfl, m1⟩ := forall2_one m
    rw [val_stop] at hz
    rw [T.val, hD.stop, valList, valList, callVal]
    exact m1 ρ hρ z hz
  · rename_i op a b
    exact wrap (by simp) rfl (fmtRel_ok hR ((good_node.1 hg).2 a (by simp)) ((over_node.1 hk).2 a (by simp)) ((good_node.1 hg).2 b (by simp))
      ((over_node.1 hk).2 b (by simp)) h hu)
  · cases h
    exact wrap (by simp) rfl (opaq_ok fun ρ => (eval_elem_opaq ρ _).1 _)
  · cases h
    exact wrap (by simp) rfl (opaq_ok fun ρ => (eval_elem_opaq ρ _).2.1 _)
  · cases h
    exact wrap (by simp) rfl (opaq_ok fun ρ => (eval_elem_opaq ρ _).2.2)
  · cases h

theorem plainText_ok (hD : D.Usual) {K : Ctors F} (hK : NegOk D S K) : ∀ n, FmtOk D S (plainText K n)
  | 0 => fun _ _ _ _ h => (by cases h)
  | n + 1 => fmtNode_ok hD hK (plainText_ok hD hK n)

end

end Wf.Sym.Plain
