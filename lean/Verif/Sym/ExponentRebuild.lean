import Verif.Sym.ExponentFns
import Verif.Sym.DistributeModel
import Verif.Sym.CseModel
import Verif.Sym.SubstituteLemmas

/-!
# Rewriting that asks no sign question

Substituting variables, distributing, collecting and common sub-expression elimination, for expressions whose exponents are integers.
-/

namespace Wf.Sym

variable {F : Type} [DecidableEq F] [FnSem F] {K K' : Ctors F}

/-- No base is allowed with an exponent other than an integer. -/
abbrev NB : Expr F → Prop := fun _ => False

local notation "O" => Over (ExpNode (NB (F := F)))

theorem nb_exp {b e : Expr F} (h : PowArgs NB b e) : IntExp e := by
  rcases h with h | h
  · exact h
  · exact h.1.elim

theorem nb_term {b e : Expr F} (h : IntExp e) : TermArgs NB b e := Or.inl (Or.inl h)

/-- A visitor leaves integers alone. -/
def KeepsInts (R : Expr F → Res (Expr F)) : Prop := ∀ (n : Int) (r : Expr F), R (.int n) = .ok r → r = .int n

variable {R R' : Expr F → Res (Expr F)}

theorem keeps_exp (hi : KeepsInts R) {e e' : Expr F} (he : IntExp e) (h : R e = .ok e') : IntExp e' := by
  obtain ⟨n, rfl, hn⟩ := he
  exact ⟨n, hi n _ h, hn⟩

/-- `Tr` for results that are lists. -/
def TrAll (x x' : Res (List (Expr F))) : Prop := ∀ r, x = .ok r → x' = .ok r ∧ ∀ t ∈ r, O t

theorem tr_mapRes {α : Type} {f f' : α → Res (Expr F)} {as : List α} (h : ∀ a ∈ as, Tr NB (f a) (f' a)) : TrAll (mapRes f as) (mapRes f' as) :=
  fun _ hr => g_mapRes (B := NB) hr h

theorem trAll_match {x x' : Res (List (Expr F))} (hx : TrAll x x') {f f' : List (Expr F) → Res (Expr F)} (hf : ∀ a, (∀ t ∈ a, O t) → Tr NB (f a) (f' a)) :
    Tr NB (match (generalizing := false) x with | .error e => .error e | .ok a => f a) (match (generalizing := false) x' with | .error e => .error e | .ok a => f' a) := by
  cases x with
  | error e => exact tr_error
  | ok a =>
    obtain ⟨h1, h2⟩ := hx a rfl
    rw [h1]
    exact hf a h2

section
variable (hK : Agree NB K K')
include hK

theorem tr_descend (m : Nat) {e : Expr F} (he : O e) (hi : KeepsInts R) (hR : ∀ x, O x → Tr NB (R x) (R' x)) : Tr NB (descend K m R e) (descend K' m R' e) := by
  obtain ⟨h, as⟩ := e
  refine tr_ite (tr_ok he) (tr_mapChildren hK (fun x hx => hR x ((over_node.1 he).2 x hx)) fun b e b' e' hh has _ hee _ _ => ?_)
  subst hh has
  exact nb_term (keeps_exp hi (nb_exp (oPow.1 he).2) hee)

/-! ## Substituting variables -/

omit hK in
theorem o_findKey {σ : List (Expr F × Expr F)} {e r : Expr F} (hσ : ∀ p ∈ σ, O p.2) (h : findKey e σ = some r) : O r := by
  exact hσ _ (findKey_mem h)

theorem tr_substVars (m : Nat) {σ : List (Expr F × Expr F)} (hσ : ∀ p ∈ σ, O p.2) (hint : ∀ n, findKey (.int n) σ = none) :
    ∀ n {e : Expr F}, O e → Tr NB (substVars K m n σ e) (substVars K' m n σ e)
  | 0, _, _ => tr_error
  | n + 1, e, he => by
    change Tr NB (substVarsBody K m σ (substVars K m n σ) e) (substVarsBody K' m σ (substVars K' m n σ) e)
    unfold substVarsBody
    cases hf : findKey e σ with
    | some r => exact tr_ok (o_findKey hσ hf)
    | none =>
      refine tr_descend hK m he (fun k r hr => ?_) fun x hx => tr_substVars m hσ hint n hx
      cases n with
      | zero => cases hr
      | succ n =>
        change substVarsBody K m σ _ _ = _ at hr
        unfold substVarsBody at hr
        rw [hint k] at hr
        cases hr
        rfl

omit hK in
theorem int_not_target {σ : List (Expr F × Expr F)} (h : ∀ p ∈ σ, p.1.head.isVar = true ∨ isVarOrElem p.1 = true) (n : Int) : findKey (.int n) σ = none := by
  cases hf : findKey (.int n) σ with
  | none => rfl
  | some r =>
    rcases h _ (findKey_mem hf) with h | h <;> cases h

theorem tr_substSeq {lic lic' : Lic F} (m n : Nat) : ∀ (pairs : List (Expr F × Expr F)) {e : Expr F}, (∀ p ∈ pairs, (p.1.head.isVar = true ∨ isVarOrElem p.1 = true) ∧ O p.2) →
    O e → Tr NB (substSeq K lic m n e pairs) (substSeq K' lic' m n e pairs)
  | [], _, _, he => tr_ok he
  | (t, s) :: ps, e, hp, he => by
    have h1 := hp (t, s) (by simp)
    unfold substSeq foldRes
    rw [substSingle_var h1.1, substSingle_var h1.1]
    have h2 := tr_substVars hK m (σ := [(t, s)]) (by simpa using h1.2) (int_not_target (by simpa using h1.1)) n he
    intro r hr
    cases hx : substVars K m n [(t, s)] e with
    | error x => simp [hx] at hr
    | ok x =>
      obtain ⟨h3, h4⟩ := h2 x hx
      simp only [hx] at hr
      simp only [h3]
      exact tr_substSeq m n ps (fun p hp' => hp p (by simp [hp'])) h4 r hr

theorem tr_substAny {lic lic' : Lic F} (m n : Nat) (force : Bool) (pairs : List (Expr F × Expr F)) {e : Expr F}
    (hp : ∀ p ∈ pairs, (p.1.head.isVar = true ∨ isVarOrElem p.1 = true) ∧ O p.2) (he : O e) :
    Tr NB (substAny K lic m n force e pairs) (substAny K' lic' m n force e pairs) := by
  unfold substAny
  refine tr_ite ?_ (tr_substSeq hK m n pairs hp he)
  cases hu : unorderedPairs force [] pairs with
  | none => exact tr_substSeq hK m n pairs hp he
  | some σ =>
    obtain ⟨h1, _⟩ := unorderedPairs_eq hu
    rw [List.nil_append] at h1
    subst h1
    exact tr_substVars hK m (fun p h => (hp p h).2) (int_not_target fun p h => (hp p h).1) n he

/-! ## Distributing -/

omit hK in
theorem o_termsOf {e : Expr F} (he : O e) : ∀ t ∈ termsOf e, O t := by
  unfold termsOf
  split
  · exact oAdd.1 he
  · simpa using he

variable (hR : ∀ x, Over (ExpNode (NB (F := F))) x → Tr NB (R x) (R' x))
include hR

theorem tr_distTerm {xy : Expr F × Expr F} (h1 : O xy.1) (h2 : O xy.2) : Tr NB (distTerm K R xy) (distTerm K' R' xy) := by
  have h3 := tr_mul hK (o2 h1 h2)
  unfold distTerm
  cases hm : K.mul [xy.1, xy.2] with
  | error e => exact tr_error
  | ok p =>
    obtain ⟨h4, h5⟩ := h3 p hm
    rw [h4]
    split
    · rename_i heq; cases heq
    · rename_i heq
      cases heq
      exact tr_ite (hR _ h5) (tr_ok h5)
    · rename_i heq
      cases heq
      exact tr_ok h5

theorem tr_distTwo {a b : Expr F} (ha : O a) (hb : O b) : Tr NB (distTwo K R a b) (distTwo K' R' a b) := by
  unfold distTwo
  refine trAll_match (tr_mapRes fun xy hxy => ?_) fun ts ht => tr_add hK ht
  simp only [List.mem_flatMap, List.mem_map] at hxy
  obtain ⟨x, hx, y, hy, rfl⟩ := hxy
  exact tr_distTerm hK hR (o_termsOf ha x hx) (o_termsOf hb y hy)

theorem tr_distMany : ∀ {as : List (Expr F)}, (∀ a ∈ as, O a) → Tr NB (distMany K R as) (distMany K' R' as)
  | [], _ => tr_error
  | [a], h => tr_ok (h a (by simp))
  | a :: b :: as, h => tr_match (tr_distMany fun x hx => h x (List.mem_cons_of_mem _ hx)) fun _ ht => tr_distTwo hK hR (h a (by simp)) ht

theorem tr_distLoop : ∀ (fuel k : Nat) {result base : Expr F}, O result → O base → Tr NB (distLoop K R fuel k result base) (distLoop K' R' fuel k result base)
  | 0, _, _, _, _, _ => tr_error
  | fuel + 1, k, result, base, hr, hb => by
    have h1 : Tr NB (distBit K R (k % 2 == 1) result base) (distBit K' R' (k % 2 == 1) result base) := tr_ite (tr_distTwo hK hR hr hb) (tr_ok hr)
    exact tr_match h1 fun r' hr' => tr_ite (tr_ok hr') (tr_match (tr_distTwo hK hR hb hb) fun b' hb' => tr_distLoop fuel (k / 2) hr' hb')

theorem tr_distPower (k : Nat) {base : Expr F} (hb : O base) : Tr NB (distPower K R base k) (distPower K' R' base k) :=
  tr_ite tr_error (tr_distLoop hK hR k k (oInt 1) hb)

theorem tr_distPow {b e : Expr F} (hb : O b) (he : IntExp e) : Tr NB (distPow K R b e) (distPow K' R' b e) := by
  obtain ⟨n, rfl, hn⟩ := he
  have h0 : Tr NB (K.pow b (.int n)) (K'.pow b (.int n)) := tr_pow hK hb (oInt n) (nb_term ⟨n, rfl, hn⟩)
  refine tr_ite ?_ h0
  have h1 : ∀ k, Tr NB (match (generalizing := false) distPower K R b k with | .error e => .error e | .ok d => distSign K n d)
      (match (generalizing := false) distPower K' R' b k with | .error e => .error e | .ok d => distSign K' n d) := fun k =>
    tr_match (tr_distPower hK hR k hb) fun d hd => tr_ite (tr_ok hd) (tr_pow hK hd (oInt _) (nb_term ⟨-1, rfl, by decide⟩))
  intro r hr
  cases hk : cabs n with
  | error e => simp [distPowSum, hk] at hr
  | ok k =>
    have h2 := h1 k.toNat r
    simp only [distPowSum, hk] at hr ⊢
    cases hp : distPower K R b k.toNat with
    | error e => simp [hp] at hr
    | ok d =>
      simp only [hp] at hr h2
      cases hs : distSign K n d with
      | error e => simp [hs, Except.map] at hr
      | ok s =>
        simp only [hs, Except.map, Except.ok.injEq] at hr
        subst hr
        obtain ⟨h3, h4⟩ := h2 hs
        refine ⟨?_, h4⟩
        cases hp' : distPower K' R' b k.toNat with
        | error e => simp [hp'] at h3
        | ok d' =>
          simp only [hp'] at h3
          simp [h3, Except.map]

theorem tr_distBody (m : Nat) (hi : KeepsInts R) {e : Expr F} (he : O e) : Tr NB (distBody K m R e) (distBody K' m R' e) := by
  unfold distBody
  split
  · exact trAll_match (tr_mapRes fun a ha => hR a (oMul.1 he a ha)) fun us hu => tr_distMany hK hR hu
  · rename_i b x
    obtain ⟨⟨h1, h2⟩, h3⟩ := oPow.1 he
    refine tr_match (hR b h1) fun b' hb' => ?_
    intro r hr
    cases hx : R x with
    | error e => simp [hx] at hr
    | ok x' =>
      simp only [hx] at hr
      rw [(hR x h2 x' hx).1]
      exact tr_distPow hK hR hb' (keeps_exp hi (nb_exp h3) hx) r hr
  · exact tr_descend hK m he hi hR

omit hR in
theorem tr_distribute (m : Nat) : ∀ n {e : Expr F}, O e → Tr NB (distribute K m n e) (distribute K' m n e)
  | 0, _, _ => tr_error
  | n + 1, e, he => by
    refine tr_distBody hK (R := distribute K m n) (R' := distribute K' m n) (fun x hx => tr_distribute m n hx) m (fun k r hr => ?_) he
    cases n with
    | zero => cases hr
    | succ n => cases hr; rfl

/-! ## Collecting -/

omit hK hR in
theorem o_baseAndExp {e : Expr F} (he : O e) : IntExp (baseAndExp e).2 := by
  unfold baseAndExp
  split
  · exact nb_exp (oPow.1 he).2
  · exact ⟨1, rfl, by decide⟩

omit hK hR in
theorem o_splitFactor (t : Expr F) : ∀ {fs : List (Expr F)} {x : Expr F} {rest : List (Expr F)}, (∀ f ∈ fs, O f) → splitFactor t fs = some (x, rest) →
    IntExp x ∧ ∀ f ∈ rest, O f
  | [], _, _, _, h => by cases h
  | a :: as, x, rest, hf, h => by
    unfold splitFactor at h
    split at h
    · cases h; exact ⟨o_baseAndExp (hf a (by simp)), fun f h => hf f (by simp [h])⟩
    · cases hs : splitFactor t as with
      | none => simp [hs] at h
      | some p =>
        obtain ⟨y, ys⟩ := p
        simp only [hs, Option.some.injEq, Prod.mk.injEq] at h
        obtain ⟨rfl, rfl⟩ := h
        obtain ⟨h1, h2⟩ := o_splitFactor t (fun f h => hf f (by simp [h])) hs
        refine ⟨h1, fun f hh => ?_⟩
        rcases List.mem_cons.1 hh with rfl | hh
        · exact hf _ (by simp)
        · exact h2 f hh

omit hR in
theorem g_collectTerm (t : Expr F) {c : Expr F} (hc : O c) {o : Option (Expr F × Expr F)} (h : collectTerm K t c = .ok o) :
    collectTerm K' t c = .ok o ∧ ∀ p, o = some p → IntExp p.1 ∧ O p.2 := by
  unfold collectTerm at h ⊢
  split at h
  · rename_i fs
    cases hs : splitFactor t fs with
    | none =>
      simp only [hs] at h ⊢
      cases h
      exact ⟨rfl, fun _ hp => by cases hp⟩
    | some p =>
      obtain ⟨x, rest⟩ := p
      obtain ⟨h1, h2⟩ := o_splitFactor t (oMul.1 hc) hs
      simp only [hs] at h ⊢
      cases hm : K.mul rest with
      | error e => simp [hm] at h
      | ok k =>
        simp only [hm] at h
        obtain ⟨h3, h4⟩ := tr_mul hK h2 k hm
        rw [h3]
        cases h
        exact ⟨rfl, fun _ hp => by cases hp; exact ⟨h1, h4⟩⟩
  · refine ⟨h, fun p hp => ?_⟩
    subst hp
    split at h
    · cases h; exact ⟨o_baseAndExp hc, oInt 1⟩
    · cases h

/-- The exponents are integers and the coefficients are as required. -/
def OPs (ps : Powers F) : Prop := ∀ p ∈ ps, IntExp p.1 ∧ ∀ c ∈ p.2, Over (ExpNode (NB (F := F))) c

omit hK hR in
theorem o_pushCoeff {x c : Expr F} (hx : IntExp x) (hc : O c) : ∀ {ps : Powers F}, OPs ps → OPs (pushCoeff x c ps)
  | [], _ => by
    intro p hp
    rw [pushCoeff, List.mem_singleton] at hp
    subst hp
    exact ⟨hx, by simpa using hc⟩
  | (y, cs) :: rest, h => by
    unfold pushCoeff
    have hr : OPs rest := fun p hp => h p (by simp [hp])
    split
    · intro p hp
      rcases List.mem_cons.1 hp with rfl | hp
      · obtain ⟨h1, h2⟩ := h (y, cs) (by simp)
        refine ⟨h1, fun d hd => ?_⟩
        rcases List.mem_append.1 hd with hd | hd
        · exact h2 d hd
        · rw [List.mem_singleton] at hd; subst hd; exact hc
      · exact hr p hp
    · intro p hp
      rcases List.mem_cons.1 hp with rfl | hp
      · exact h _ (by simp)
      · exact o_pushCoeff hx hc hr p hp

omit hR in
theorem g_collectSplit (t : Expr F) : ∀ {cs : List (Expr F)} {ps : Powers F} {r : Powers F × List (Expr F)}, (∀ c ∈ cs, O c) → OPs ps → collectSplit K t ps cs = .ok r →
    collectSplit K' t ps cs = .ok r ∧ OPs r.1 ∧ ∀ c ∈ r.2, O c
  | [], ps, r, _, hp, h => by cases h; exact ⟨rfl, hp, by simp⟩
  | c :: cs, ps, r, hc, hp, h => by
    have hcs : ∀ c ∈ cs, O c := fun x hx => hc x (by simp [hx])
    unfold collectSplit at h ⊢
    cases ht : collectTerm K t c with
    | error e => simp [ht] at h
    | ok o =>
      obtain ⟨h1, h2⟩ := g_collectTerm hK t (hc c (by simp)) ht
      rw [h1]
      rw [ht] at h
      cases o with
      | none =>
        simp only at h ⊢
        cases hs : collectSplit K t ps cs with
        | error e => simp [hs] at h
        | ok q =>
          obtain ⟨h3, h4, h5⟩ := g_collectSplit t hcs hp hs
          rw [h3]
          simp only [hs] at h
          cases h
          refine ⟨rfl, h4, fun x hx => ?_⟩
          rcases List.mem_cons.1 hx with rfl | hx
          · exact hc _ (by simp)
          · exact h5 x hx
      | some p =>
        obtain ⟨x, k⟩ := p
        obtain ⟨h3, h4⟩ := h2 _ rfl
        exact g_collectSplit t hcs (o_pushCoeff h3 h4 hp) h

omit hR in
theorem tr_collectPower1 {f f' : List (Expr F) → Res (Expr F)} (hf : ∀ cs, (∀ c ∈ cs, O c) → Tr NB (f cs) (f' cs)) {t : Expr F} (ht : O t)
    {p : Expr F × List (Expr F)} (hp : IntExp p.1 ∧ ∀ c ∈ p.2, O c) : Tr NB (collectPower1 K f t p) (collectPower1 K' f' t p) := by
  obtain ⟨⟨n, hn, hi⟩, h2⟩ := hp
  refine tr_match (tr_pow hK ht (by rw [hn]; exact oInt n) (nb_term ⟨n, hn, hi⟩)) fun q hq => tr_match (hf _ h2) fun c hc => tr_mul hK (o2 hq hc)

omit hK hR in
theorem trAll_collectRest {f f' : List (Expr F) → Res (Expr F)} (hf : ∀ cs, (∀ c ∈ cs, O c) → Tr NB (f cs) (f' cs)) (more : Bool) {rest : List (Expr F)}
    (hr : ∀ c ∈ rest, O c) : TrAll (collectRest f more rest) (collectRest f' more rest) := by
  intro r h
  unfold collectRest at h ⊢
  by_cases hm : (more && !rest.isEmpty) = true
  · rw [if_pos hm] at h ⊢
    cases hx : f rest with
    | error e => simp [hx] at h
    | ok x =>
      obtain ⟨h1, h2⟩ := hf rest hr x hx
      rw [h1]
      simp only [hx] at h
      cases h
      exact ⟨rfl, by simpa using h2⟩
  · rw [if_neg hm] at h ⊢
    cases h
    exact ⟨rfl, hr⟩

omit hR in
theorem tr_collectTerms : ∀ (ts : List (Expr F)) {cs : List (Expr F)}, (∀ t ∈ ts, O t) → (∀ c ∈ cs, O c) → Tr NB (collectTerms K ts cs) (collectTerms K' ts cs)
  | [], _, _, hc => tr_add hK hc
  | t :: ts, cs, ht, hc => by
    have ih : ∀ cs, (∀ c ∈ cs, O c) → Tr NB (collectTerms K ts cs) (collectTerms K' ts cs) := fun cs hc => tr_collectTerms ts (fun x hx => ht x (by simp [hx])) hc
    unfold collectTerms
    cases hs : collectSplit K t [] cs with
    | error e => exact tr_error
    | ok q =>
      obtain ⟨ps, rest⟩ := q
      obtain ⟨h1, h2, h3⟩ := g_collectSplit hK t hc (ps := []) (fun p hp => absurd hp (by simp)) hs
      rw [h1]
      refine trAll_match (trAll_collectRest ih _ h3) fun rest' hr' => trAll_match (tr_mapRes fun p hp => ?_) fun qs hq => tr_add hK fun x hx => ?_
      · exact tr_collectPower1 hK ih (ht t (by simp)) (h2 p hp)
      · rcases List.mem_append.1 hx with hx | hx
        · exact hr' x hx
        · exact hq x hx

omit hR in
theorem tr_collectVisit (m : Nat) {ts : List (Expr F)} (ht : ∀ t ∈ ts, O t) : ∀ n {e : Expr F}, O e →
    Tr NB (visitor (collectBody K m ts) n e) (visitor (collectBody K' m ts) n e)
  | 0, _, _ => tr_error
  | n + 1, e, he => by
    have ih : ∀ x, O x → Tr NB (visitor (collectBody K m ts) n x) (visitor (collectBody K' m ts) n x) := fun x hx => tr_collectVisit m ht n hx
    have hi : KeepsInts (visitor (collectBody K m ts) n) := by
      intro k r hr
      cases n with
      | zero => cases hr
      | succ n => cases hr; rfl
    revert ih hi
    generalize hV : visitor (collectBody K m ts) n = V
    generalize hV' : visitor (collectBody K' m ts) n = V'
    intro ih hi
    change Tr NB (collectBody K m ts (visitor (collectBody K m ts) n) e) (collectBody K' m ts (visitor (collectBody K' m ts) n) e)
    rw [hV, hV']
    unfold collectBody
    split
    · exact trAll_match (tr_mapRes fun a ha => ih a (oAdd.1 he a ha)) fun cs hc => tr_collectTerms hK ts ht hc
    · exact tr_descend hK m he hi ih

omit hR in
theorem tr_collectMany (m n : Nat) {ts : List (Expr F)} (ht : ∀ t ∈ ts, O t) {e : Expr F} (he : O e) :
    Tr NB (collectMany K m n e ts) (collectMany K' m n e ts) :=
  tr_ite (tr_ok he) (tr_ite tr_error (tr_collectVisit hK m ht n he))

end

/-! ## Common sub-expressions -/

/-- The results in the cache are as required, and integers stand for themselves. -/
structure CseOk (s : CseSt F) : Prop where
  cache : ∀ p ∈ s.cache, Over (ExpNode (NB (F := F))) p.2 ∧ ∀ n : Int, p.1 = .int n → p.2 = .int n
  repl : ∀ p ∈ s.repl, Over (ExpNode (NB (F := F))) p.2

/-- `Tr` for a step of the visitor from a state. -/
def TrS (x x' : Res (Expr F × CseSt F)) : Prop := ∀ r, x = .ok r → x' = .ok r ∧ Over (ExpNode (NB (F := F))) r.1 ∧ CseOk r.2

section
variable {C C' : CseCfg F} (hK : Agree NB C.K C'.K) (hm : C'.m = C.m) (hw : C'.counts = C.counts ∧ C'.var = C.var ∧ C'.min = C.min)
  (hv : ∀ i, ∃ h : Head F, C.var i = .node h [] ∧ h ≠ .pow)
include hw

omit [FnSem F] in
theorem cseReplace_eq [FnOps F] (e x : Expr F) (s : CseSt F) : cseReplace C' e x s = cseReplace C e x s := by
  obtain ⟨h1, h2, h3⟩ := hw
  unfold cseReplace CseCfg.wants
  rw [h1, h2, h3]

include hv
omit hw in
theorem o_cseReplace (e : Expr F) {x : Expr F} {s : CseSt F} (hx : O x) (hs : CseOk s) : O (cseReplace C e x s).1 ∧ CseOk (cseReplace C e x s).2 := by
  unfold cseReplace
  split
  · obtain ⟨h, h1, h2⟩ := hv s.repl.length
    refine ⟨by rw [h1]; exact oLeaf h2, hs.cache, fun p hp => ?_⟩
    rcases List.mem_append.1 hp with hp | hp
    · exact hs.repl p hp
    · rw [List.mem_singleton] at hp; subst hp; exact hx
  · exact ⟨hx, hs⟩

include hK hm
theorem trs_cseVisit {h : Head F} {as : List (Expr F)} {cond cond' : CseSt F → Res (Expr F × CseSt F)}
    {kids kids' : CseSt F → Res (List (Expr F) × CseSt F)} {s : CseSt F} (he : O (.node h as)) (hs : CseOk s)
    (hc : h = .cond → TrS (cond s) (cond' s))
    (hk : ∀ r, kids s = .ok r → kids' s = .ok r ∧ (∀ t ∈ r.1, O t) ∧ CseOk r.2 ∧ ∀ b e, h = .pow → r.1 = [b, e] → IntExp e) :
    TrS (cseVisit C h as cond kids s) (cseVisit C' h as cond' kids' s) := by
  intro r hr
  unfold cseVisit at hr ⊢
  by_cases hl : h.isLeaf = true
  · rw [if_pos hl] at hr ⊢
    cases hr
    exact ⟨rfl, he, hs⟩
  · rw [if_neg hl] at hr ⊢
    by_cases hcd : h = .cond
    · rw [if_pos hcd] at hr ⊢
      cases h1 : cond s with
      | error e => simp [h1] at hr
      | ok p =>
        obtain ⟨h2, h3, h4⟩ := hc hcd p h1
        simp only [h1] at hr
        cases hr
        rw [h2]
        exact ⟨by simp only [cseReplace_eq hw], o_cseReplace hv _ h3 h4⟩
    · rw [if_neg hcd] at hr ⊢
      cases h1 : kids s with
      | error e => simp [h1] at hr
      | ok p =>
        obtain ⟨bs, s1⟩ := p
        obtain ⟨h2, h3, h4, h5⟩ := hk _ h1
        simp only [h1] at hr
        cases h6 : rebuild C.K C.m h bs with
        | error e => simp [h6] at hr
        | ok x =>
          simp only [h6] at hr
          cases hr
          obtain ⟨h7, h8⟩ := tr_rebuild hK (m := C.m) h3 (fun b e hh hb => nb_term (h5 b e hh hb)) x h6
          rw [h2]
          simp only [hm, h7]
          exact ⟨by simp only [cseReplace_eq hw], o_cseReplace hv _ h8 h4⟩

mutual
theorem trs_cseE : ∀ (e : Expr F) (s : CseSt F), O e → CseOk s → TrS (cseE C e s) (cseE C' e s) ∧ ∀ (n : Int) r, e = .int n → cseE C e s = .ok r → r.1 = .int n
  | .node h as, s, he, hs => by
    unfold cseE
    cases hf : findKey (.node h as) s.cache with
    | some r =>
      obtain ⟨h1, h2⟩ := hs.cache _ (findKey_mem hf)
      refine ⟨fun q hq => by cases hq; exact ⟨rfl, h1, hs⟩, fun n q hn hq => ?_⟩
      cases hq
      exact h2 n hn
    | none =>
      have hkid : ∀ a ∈ as, O a := (over_node.1 he).2
      have h1 : TrS (cseVisit C h as (cseCond C as) (cseKids C as) s) (cseVisit C' h as (cseCond C' as) (cseKids C' as) s) := by
        refine trs_cseVisit hK hm hw hv he hs (fun _ => trs_cseCond as s hkid hs) fun q hq => ?_
        obtain ⟨h2, h3, h4, h5⟩ := trs_cseKids as s hkid hs q hq
        refine ⟨h2, h3, h4, fun b e hh hb => ?_⟩
        subst hh
        obtain ⟨b0, e0, rfl, hp⟩ := (over_node.1 he).1 rfl
        obtain ⟨n, rfl, hn⟩ := nb_exp hp
        rw [hb] at h5
        exact ⟨n, h5 1 n (by simp) e (by simp), hn⟩
      constructor
      · intro q hq
        cases h2 : cseVisit C h as (cseCond C as) (cseKids C as) s with
        | error e => simp [h2] at hq
        | ok p =>
          obtain ⟨x, s1⟩ := p
          obtain ⟨h3, h4, h5⟩ := h1 _ h2
          simp only [h2] at hq
          cases hq
          rw [h3]
          refine ⟨rfl, h4, ?_, h5.repl⟩
          intro p hp
          rcases List.mem_cons.1 hp with rfl | hp
          · refine ⟨h4, fun n hn => ?_⟩
            cases hn
            cases h2
            rfl
          · exact h5.cache p hp
      · intro n q hn hq
        cases hn
        cases hq
        rfl
theorem trs_cseCond : ∀ (as : List (Expr F)) (s : CseSt F), (∀ a ∈ as, O a) → CseOk s → TrS (cseCond C as s) (cseCond C' as s)
  | [], _, _, _ => fun r hr => by cases hr
  | [_], _, _, _ => fun r hr => by cases hr
  | [_, _], _, _, _ => fun r hr => by cases hr
  | _ :: _ :: _ :: _ :: _, _, _, _ => fun r hr => by cases hr
  | [c, a, b], s, ha, hs => fun r hr => by
    unfold cseCond at hr ⊢
    cases h1 : cseE C c s with
    | error e => simp [h1] at hr
    | ok p =>
      obtain ⟨c', s1⟩ := p
      obtain ⟨h2, h3, h4⟩ := (trs_cseE c s (ha c (by simp)) hs).1 _ h1
      simp only [h1] at hr
      simp only [h2]
      by_cases ht : identical c' (.bconst true) = true
      · rw [if_pos ht] at hr ⊢
        exact (trs_cseE a s1 (ha a (by simp)) h4).1 r hr
      · rw [if_neg ht] at hr ⊢
        by_cases hf : identical c' (.bconst false) = true
        · rw [if_pos hf] at hr ⊢
          exact (trs_cseE b s1 (ha b (by simp)) h4).1 r hr
        · rw [if_neg hf] at hr ⊢
          cases h5 : cseE C a s1 with
          | error e => simp [h5] at hr
          | ok q =>
            obtain ⟨a', s2⟩ := q
            obtain ⟨h6, h7, h8⟩ := (trs_cseE a s1 (ha a (by simp)) h4).1 _ h5
            simp only [h5] at hr
            simp only [h6]
            cases h9 : cseE C b s2 with
            | error e => simp [h9] at hr
            | ok q =>
              obtain ⟨b', s3⟩ := q
              obtain ⟨h10, h11, h12⟩ := (trs_cseE b s2 (ha b (by simp)) h8).1 _ h9
              simp only [h9] at hr
              simp only [h10]
              cases hr
              exact ⟨rfl, o_condCreate h3 h7 h11, h12⟩
theorem trs_cseKids : ∀ (as : List (Expr F)) (s : CseSt F), (∀ a ∈ as, O a) → CseOk s → ∀ r, cseKids C as s = .ok r →
    cseKids C' as s = .ok r ∧ (∀ t ∈ r.1, O t) ∧ CseOk r.2 ∧ ∀ (i : Nat) (n : Int), as[i]? = some (.int n : Expr F) → ∀ x, r.1[i]? = some x → x = .int n
  | [], s, _, hs, r, h => by cases h; exact ⟨rfl, by simp, hs, by simp⟩
  | a :: as, s, ha, hs, r, h => by
    unfold cseKids at h ⊢
    cases h1 : cseE C a s with
    | error e => simp [h1] at h
    | ok p =>
      obtain ⟨b, s1⟩ := p
      obtain ⟨⟨h2, h3, h4⟩, h5⟩ := And.intro ((trs_cseE a s (ha a (by simp)) hs).1 _ h1) fun n hn => (trs_cseE a s (ha a (by simp)) hs).2 n _ hn h1
      simp only [h1] at h
      simp only [h2]
      cases h6 : cseKids C as s1 with
      | error e => simp [h6] at h
      | ok q =>
        obtain ⟨bs, s2⟩ := q
        obtain ⟨h7, h8, h9, h10⟩ := trs_cseKids as s1 (fun x hx => ha x (by simp [hx])) h4 _ h6
        simp only [h6] at h
        simp only [h7]
        cases h
        refine ⟨rfl, ?_, h9, fun i n hi x hx => ?_⟩
        · intro t ht
          rcases List.mem_cons.1 ht with rfl | ht
          · exact h3
          · exact h8 t ht
        · cases i with
          | zero =>
            simp only [List.getElem?_cons_zero, Option.some.injEq] at hi hx
            rw [← hx]
            exact h5 n hi
          | succ i =>
            simp only [List.getElem?_cons_succ] at hi hx
            exact h10 i n hi x hx
end
end

/-- The result of common sub-expression elimination does not depend on the answers. -/
theorem gives_cse (hK : Agree NB K K') {m min : Nat} {var : Nat → Expr F} (hv : ∀ i, ∃ h : Head F, var i = .node h [] ∧ h ≠ .pow) {e : Expr F} (he : O e)
    {r : Expr F × List (Expr F × Expr F)} (h : cse K m var min e = .ok r) : cse K' m var min e = .ok r ∧ O r.1 ∧ ∀ p ∈ r.2, O p.2 := by
  obtain ⟨hd, as⟩ := e
  unfold cse at h ⊢
  have hkid : ∀ a ∈ as, O a := (over_node.1 he).2
  have hs : CseOk (F := F) ⟨[], []⟩ := ⟨fun p hp => (nomatch hp), fun p hp => (nomatch hp)⟩
  have h1 : TrS (cseTop ⟨K, m, (countNode (.node hd as) ⟨[], []⟩).counts, var, min⟩ hd as) (cseTop ⟨K', m, (countNode (.node hd as) ⟨[], []⟩).counts, var, min⟩ hd as) := by
    refine trs_cseVisit (C := ⟨K, m, _, var, min⟩) (C' := ⟨K', m, _, var, min⟩) hK rfl ⟨rfl, rfl, rfl⟩ hv he hs
      (fun _ => trs_cseCond (C := ⟨K, m, _, var, min⟩) (C' := ⟨K', m, _, var, min⟩) hK rfl ⟨rfl, rfl, rfl⟩ hv as _ hkid hs) fun q hq => ?_
    obtain ⟨h2, h3, h4, h5⟩ := trs_cseKids (C := ⟨K, m, _, var, min⟩) (C' := ⟨K', m, _, var, min⟩) hK rfl ⟨rfl, rfl, rfl⟩ hv as _ hkid hs q hq
    refine ⟨h2, h3, h4, fun b e hh hb => ?_⟩
    subst hh
    obtain ⟨b0, e0, rfl, hp⟩ := (over_node.1 he).1 rfl
    obtain ⟨n, rfl, hn⟩ := nb_exp hp
    rw [hb] at h5
    exact ⟨n, h5 1 n (by simp) e (by simp), hn⟩
  simp only at h ⊢
  cases h2 : cseTop ⟨K, m, (countNode (.node hd as) ⟨[], []⟩).counts, var, min⟩ hd as with
  | error e => simp [h2] at h
  | ok q =>
    obtain ⟨h3, h4, h5⟩ := h1 q h2
    simp only [h2] at h
    cases h
    rw [h3]
    exact ⟨rfl, h4, h5.repl⟩

end Wf.Sym
