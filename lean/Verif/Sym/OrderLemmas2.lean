import Verif.Sym.OrderLemmas
import Verif.Sym.OrderSpec

namespace Wf.Sym

variable {F : Type}

theorem fltOrder_total [FloatCmp F] [DecidableEq F] [LawfulFloat F] : TotalOrder (orderByComparison (FloatCmp.lt (F := F))) where
  eq_iff a b := by
    unfold orderByComparison
    by_cases e : a = b
    · subst e; simp [LawfulFloat.lt_irrefl]
    · rcases LawfulFloat.lt_total a b e with h | h
      · simp [h, e]
      · have : FloatCmp.lt a b = false := by
          by_contra hc
          have := LawfulFloat.lt_trans _ _ _ (by simpa using hc) h
          simp [LawfulFloat.lt_irrefl] at this
        simp [h, e, this]
  swap a b := by
    unfold orderByComparison
    by_cases h : FloatCmp.lt a b = true
    · have : FloatCmp.lt b a = false := by
        by_contra hc
        have := LawfulFloat.lt_trans _ _ _ h (by simpa using hc)
        simp [LawfulFloat.lt_irrefl] at this
      simp [h, this]
    · by_cases h' : FloatCmp.lt b a = true <;> simp [h, h']
  trans a b c := by
    unfold orderByComparison
    intro h1 h2
    have h1' : FloatCmp.lt a b = true := by
      by_contra hc; rw [if_neg hc] at h1; split at h1 <;> simp at h1
    have h2' : FloatCmp.lt b c = true := by
      by_contra hc; rw [if_neg hc] at h2; split at h2 <;> simp at h2
    simp [LawfulFloat.lt_trans _ _ _ h1' h2']

/-- Comparison of the data of two nodes without overflow. -/
def headCmp [FloatCmp F] (h g : Head F) : Ordering :=
  match headOrder (fun r s => .ok (ratCmp r s)) h g with
  | .ok o => o
  | .error _ => .eq

theorem headOrder_ok [FloatCmp F] (h g : Head F) : headOrder (fun r s => .ok (ratCmp r s)) h g = .ok (headCmp h g) := by
  unfold headCmp
  cases h <;> cases g <;> rfl

theorem SymConst.index_inj {a b : SymConst} (h : a.index = b.index) : a = b := by cases a <;> cases b <;> simp_all [SymConst.index]
theorem NSet.index_inj {a b : NSet} (h : a.index = b.index) : a = b := by cases a <;> cases b <;> simp_all [NSet.index]
theorem RelOp.index_inj {a b : RelOp} (h : a.index = b.index) : a = b := by cases a <;> cases b <;> simp_all [RelOp.index]
theorem primIndex_inj {a b : Wf.Gen.Prim} (h : primIndex a = primIndex b) : a = b := by cases a <;> cases b <;> simp_all [primIndex]
theorem BuiltIn.name_inj {a b : BuiltIn} (h : a.name = b.name) : a = b := by cases a <;> cases b <;> first | rfl | (exact absurd h (by decide))

/-- A key that decides the order of node data: the comparison is that of the keys. -/
def Head.numKey : Head F → Nat × Nat
  | .const c => (c.index, 0)
  | .var _ s => (s.index, 0)
  | .argVar _ i p => (i, primIndex p)
  | .uniq i s => (i, s.index)
  | .elem i => (i, 0)
  | .deriv i => (i, 0)
  | .matrix r c => (r, c)
  | .bconst b => (b.toNat, 0)
  | .rel op => (op.index, 0)
  | _ => (0, 0)

/-- Names in node data. -/
def Head.strKey : Head F → String × String
  | .var n _ => (n, "")
  | .argVar n _ _ => (n, "")
  | .fn f => (f.name, "")
  | .symfn n => (n, "")
  | .call f => (f.name, "")
  | .typeArg n t => (n, t.name)
  | .construct t => (t.name, "")
  | _ => ("", "")

/-- Floating point constant of a node. -/
def Head.fltKey : Head F → Option F
  | .flt f => some f
  | _ => none

/-- Integer constant of a node. -/
def Head.intKey : Head F → Int
  | .int n => n
  | _ => 0

/-- Rational constant of a node. -/
def Head.ratKey : Head F → RatC
  | .rat r => r
  | _ => ⟨0, 1⟩

/-- Comparison of optional floats. -/
def optCmp (c : F → F → Ordering) : Option F → Option F → Ordering
  | none, none => .eq
  | none, some _ => .lt
  | some _, none => .gt
  | some a, some b => c a b

theorem optCmp_total {c : F → F → Ordering} (h : TotalOrder c) : TotalOrder (optCmp c) where
  eq_iff a b := by cases a <;> cases b <;> simp [optCmp, h.eq_iff]
  swap a b := by cases a <;> cases b <;> first | rfl | exact h.swap _ _
  trans a b d := by
    cases a <;> cases b <;> cases d <;> simp [optCmp]
    exact h.trans _ _ _

/-- Comparison of all the keys. -/
def keyCmp [FloatCmp F] (h g : Head F) : Ordering :=
  andThenBy (natOrder h.rank g.rank)
   (andThenBy (optCmp (orderByComparison FloatCmp.lt) h.fltKey g.fltKey)
    (andThenBy (intOrder h.intKey g.intKey)
     (andThenBy (ratCmp h.ratKey g.ratKey)
      (andThenBy (strOrder h.strKey.1 g.strKey.1)
       (andThenBy (strOrder h.strKey.2 g.strKey.2)
        (andThenBy (natOrder h.numKey.1 g.numKey.1) (natOrder h.numKey.2 g.numKey.2)))))))

theorem andThenBy_eq_left (o : Ordering) : andThenBy .eq o = o := by simp [andThenBy]
theorem andThenBy_eq_right (o : Ordering) : andThenBy o .eq = o := by cases o <;> simp [andThenBy]
theorem andThenBy_assoc (a b c : Ordering) : andThenBy (andThenBy a b) c = andThenBy a (andThenBy b c) := by
  cases a <;> simp [andThenBy]

theorem natOrder_self (a : Nat) : natOrder a a = .eq := (natOrder_total.eq_iff a a).mpr rfl
theorem strOrder_self (a : String) : strOrder a a = .eq := (strOrder_total.eq_iff a a).mpr rfl
theorem intOrder_self (a : Int) : intOrder a a = .eq := (intOrder_total.eq_iff a a).mpr rfl
theorem ratCmp_self (a : RatC) : ratCmp a a = .eq := intOrder_self _

theorem headCmp_eq_key [FloatCmp F] (h g : Head F) (hr : h.rank = g.rank) : headCmp h g = keyCmp h g := by
  have ob : ∀ a : F, orderByComparison FloatCmp.lt a a = orderByComparison FloatCmp.lt a a := fun _ => rfl
  cases h <;> cases g <;> first
    | (exact absurd hr (Nat.ne_of_beq_eq_false rfl))
    | simp [headCmp, headOrder, keyCmp, Head.rank, Head.fltKey, Head.intKey, Head.ratKey, Head.strKey, Head.numKey, optCmp,
        natOrder_self, strOrder_self, intOrder_self, ratCmp_self, andThenBy_eq_left, andThenBy_eq_right, andThenBy_assoc]

theorem key_inj (reg : Registry) (h g : Head F) (hh : h.Regular reg) (hg : g.Regular reg) (e0 : h.rank = g.rank) (e1 : h.fltKey = g.fltKey)
    (e2 : h.intKey = g.intKey) (e3 : h.ratKey = g.ratKey) (e4 : h.strKey.1 = g.strKey.1) (e5 : h.strKey.2 = g.strKey.2)
    (e6 : h.numKey.1 = g.numKey.1) (e7 : h.numKey.2 = g.numKey.2) : h = g := by
  cases h <;> cases g <;> first
    | (exact absurd e0 (Nat.ne_of_beq_eq_false rfl))
    | rfl
    | skip
  case flt.flt => rw [Option.some.inj e1]
  case int.int => exact congrArg Head.int e2
  case rat.rat => exact congrArg Head.rat e3
  case symfn.symfn => exact congrArg Head.symfn e4
  case elem.elem => exact congrArg Head.elem e6
  case deriv.deriv => exact congrArg Head.deriv e6
  case matrix.matrix => exact congrArg₂ Head.matrix e6 e7
  case const.const a b => rw [SymConst.index_inj e6]
  case var.var => simp only [Head.strKey, Head.numKey] at *; rw [e4, NSet.index_inj e6]
  case argVar.argVar => simp only [Head.strKey, Head.numKey] at *; rw [e4, e6, primIndex_inj e7]
  case uniq.uniq => simp only [Head.strKey, Head.numKey] at *; rw [e6, NSet.index_inj e7]
  case fn.fn => simp only [Head.strKey, Head.numKey] at *; rw [BuiltIn.name_inj e4]
  case call.call => simp only [Head.strKey, Head.Regular] at *; rw [hh, hg, e4]
  case typeArg.typeArg => simp only [Head.strKey, Head.Regular] at *; rw [hh, hg, e4, e5]
  case construct.construct => simp only [Head.strKey, Head.Regular] at *; rw [hh, hg, e4]
  case bconst.bconst a b => cases a <;> cases b <;> simp_all [Head.numKey]
  case rel.rel => rw [RelOp.index_inj e6]

theorem keyCmp_total [FloatCmp F] [DecidableEq F] [LawfulFloat F] (reg : Registry) : TotalOn (Head.Regular reg) (keyCmp (F := F)) := by
  have c0 : RatC.Canonical ⟨0, 1⟩ := by refine ⟨?_, ?_, ?_, ?_⟩ <;> decide
  have ca : ∀ h : Head F, h.Regular reg → h.ratKey.Canonical := by
    intro h hh
    cases h <;> first | exact hh | exact c0
  -- Compare tuples of keys.
  let key : Head F → Nat × Option F × Int × RatC × String × String × Nat × Nat := fun h =>
    (h.rank, h.fltKey, h.intKey, h.ratKey, h.strKey.1, h.strKey.2, h.numKey.1, h.numKey.2)
  have n1 := TotalOn.chain (P := fun _ : Nat × Nat => True) (TotalOn.of_total natOrder_total fun _ => True)
    (TotalOn.of_total natOrder_total fun _ => True) Prod.fst Prod.snd (fun _ _ => trivial) (fun _ _ => trivial)
    (fun a b _ _ h1 h2 => Prod.ext h1 h2)
  have n2 := TotalOn.chain (P := fun _ : String × Nat × Nat => True) (TotalOn.of_total strOrder_total fun _ => True)
    n1 Prod.fst Prod.snd (fun _ _ => trivial) (fun _ _ => trivial) (fun a b _ _ h1 h2 => Prod.ext h1 h2)
  have n3 := TotalOn.chain (P := fun _ : String × String × Nat × Nat => True) (TotalOn.of_total strOrder_total fun _ => True)
    n2 Prod.fst Prod.snd (fun _ _ => trivial) (fun _ _ => trivial) (fun a b _ _ h1 h2 => Prod.ext h1 h2)
  have n4 := TotalOn.chain (P := fun x : RatC × String × String × Nat × Nat => x.1.Canonical) ratCmp_total
    n3 Prod.fst Prod.snd (fun _ h => h) (fun _ _ => trivial) (fun a b _ _ h1 h2 => Prod.ext h1 h2)
  have n5 := TotalOn.chain (P := fun x : Int × RatC × String × String × Nat × Nat => x.2.1.Canonical)
    (TotalOn.of_total intOrder_total fun _ => True)
    n4 Prod.fst Prod.snd (fun _ _ => trivial) (fun _ h => h) (fun a b _ _ h1 h2 => Prod.ext h1 h2)
  have n6 := TotalOn.chain (P := fun x : Option F × Int × RatC × String × String × Nat × Nat => x.2.2.1.Canonical)
    (TotalOn.of_total (optCmp_total (fltOrder_total (F := F))) fun _ => True)
    n5 Prod.fst Prod.snd (fun _ _ => trivial) (fun _ h => h) (fun a b _ _ h1 h2 => Prod.ext h1 h2)
  have n7 := TotalOn.chain (P := fun x : Nat × Option F × Int × RatC × String × String × Nat × Nat => x.2.2.2.1.Canonical)
    (TotalOn.of_total natOrder_total fun _ => True)
    n6 Prod.fst Prod.snd (fun _ _ => trivial) (fun _ h => h) (fun a b _ _ h1 h2 => Prod.ext h1 h2)
  exact TotalOn.comap n7 key (fun h hh => ca h hh) (by
    intro h g hh hg e
    simp only [key, Prod.mk.injEq] at e
    obtain ⟨e0, e1, e2, e3, e4, e5, e6, e7⟩ := e
    exact key_inj reg h g hh hg e0 e1 e2 e3 e4 e5 e6 e7)

/-! ## Trees -/

mutual
/-- The order without overflow, as a function. -/
def cmpE [FloatCmp F] : Expr F → Expr F → Ordering
  | .node h as, .node g bs =>
    if h.rank < g.rank then .lt
    else if g.rank < h.rank then .gt
    else if h.childrenFirst then andThenBy (cmpEs as bs) (headCmp h g)
    else andThenBy (headCmp h g) (cmpEs as bs)
def cmpEs [FloatCmp F] : List (Expr F) → List (Expr F) → Ordering
  | [], [] => .eq
  | [], _ :: _ => .lt
  | _ :: _, [] => .gt
  | a :: as, b :: bs => andThenBy (cmpE a b) (cmpEs as bs)
end

theorem thenRes_ok (a b : Ordering) : thenRes (.ok a) (fun _ => .ok b) = .ok (andThenBy a b) := by
  cases a <;> rfl

mutual
theorem orderWith_exact [FloatCmp F] : ∀ a b : Expr F, orderWith (fun r s => .ok (ratCmp r s)) a b = .ok (cmpE a b)
  | .node h as, .node g bs => by
    rw [orderWith, cmpE, orderLists_exact as bs, headOrder_ok, thenRes_ok, thenRes_ok]
    split
    · rfl
    · split
      · rfl
      · split <;> rfl
theorem orderLists_exact [FloatCmp F] : ∀ a b : List (Expr F), orderLists (fun r s => .ok (ratCmp r s)) a b = .ok (cmpEs a b)
  | [], [] => by rw [orderLists, cmpEs]
  | [], _ :: _ => by rw [orderLists, cmpEs]
  | _ :: _, [] => by rw [orderLists, cmpEs]
  | a :: as, b :: bs => by rw [orderLists, cmpEs, orderWith_exact a b, orderLists_exact as bs, thenRes_ok]
end

theorem exactOrder_eq [FloatCmp F] (a b : Expr F) : exactOrder a b = cmpE a b := by
  unfold exactOrder; rw [orderWith_exact]

theorem childrenFirst_of_rank {h g : Head F} (hr : h.rank = g.rank) : h.childrenFirst = g.childrenFirst := by
  cases h <;> cases g <;> first | rfl | exact absurd hr (Nat.ne_of_beq_eq_false rfl)

theorem keyCmp_of_rank_lt [FloatCmp F] {h g : Head F} (hr : h.rank < g.rank) : keyCmp h g = .lt := by
  have : natOrder h.rank g.rank = .lt := by simp [natOrder, orderByComparison, hr]
  unfold keyCmp; rw [this]; rfl

theorem keyCmp_of_rank_gt [FloatCmp F] {h g : Head F} (hr : g.rank < h.rank) : keyCmp h g = .gt := by
  have : natOrder h.rank g.rank = .gt := by simp [natOrder, orderByComparison, hr, Nat.not_lt_of_gt hr]
  unfold keyCmp; rw [this]; rfl

/-- The order of two nodes in terms of keys and children. -/
theorem cmpE_node [FloatCmp F] (h g : Head F) (as bs : List (Expr F)) : cmpE (.node h as) (.node g bs) =
    if h.rank < g.rank then .lt else if g.rank < h.rank then .gt
    else if h.childrenFirst then andThenBy (cmpEs as bs) (keyCmp h g) else andThenBy (keyCmp h g) (cmpEs as bs) := by
  rw [cmpE]
  by_cases h1 : h.rank < g.rank
  · rw [if_pos h1, if_pos h1]
  · by_cases h2 : g.rank < h.rank
    · rw [if_neg h1, if_neg h1, if_pos h2, if_pos h2]
    · rw [if_neg h1, if_neg h1, if_neg h2, if_neg h2, headCmp_eq_key h g (by omega)]

theorem natOrder_eq {a b : Nat} (h : natOrder a b = .eq) : a = b := (natOrder_total.eq_iff a b).mp h

theorem andThenBy_eq_iff {a b : Ordering} : andThenBy a b = .eq ↔ a = .eq ∧ b = .eq := by
  cases a <;> simp [andThenBy]

theorem keyCmp_rank [FloatCmp F] {h g : Head F} (e : keyCmp h g = .eq) : h.rank = g.rank :=
  natOrder_eq (andThenBy_eq_iff.mp e).1

mutual
theorem cmpE_eq_iff [FloatCmp F] [DecidableEq F] [LawfulFloat F] (reg : Registry) : ∀ a b : Expr F, a.Regular reg → b.Regular reg →
    (cmpE a b = .eq ↔ a = b)
  | .node h as, .node g bs, ha, hb => by
    have K := (keyCmp_total (F := F) reg).eq_iff h g ha.1 hb.1
    have L := cmpEs_eq_iff reg as bs ha.2 hb.2
    rw [cmpE_node, Expr.node.injEq]
    by_cases h1 : h.rank < g.rank
    · rw [if_pos h1]; simp; intro e; subst e; exact absurd h1 (lt_irrefl _)
    · by_cases h2 : g.rank < h.rank
      · rw [if_neg h1, if_pos h2]; simp; intro e; subst e; exact absurd h2 (lt_irrefl _)
      · rw [if_neg h1, if_neg h2]
        split <;> rw [andThenBy_eq_iff, K, L]
        exact and_comm
theorem cmpEs_eq_iff [FloatCmp F] [DecidableEq F] [LawfulFloat F] (reg : Registry) : ∀ a b : List (Expr F),
    Expr.Alls (Head.Regular reg) a → Expr.Alls (Head.Regular reg) b → (cmpEs a b = .eq ↔ a = b)
  | [], [], _, _ => by simp [cmpEs]
  | [], _ :: _, _, _ => by simp [cmpEs]
  | _ :: _, [], _, _ => by simp [cmpEs]
  | a :: as, b :: bs, ha, hb => by
    rw [cmpEs, andThenBy_eq_iff, cmpE_eq_iff reg a b ha.1 hb.1, cmpEs_eq_iff reg as bs ha.2 hb.2, List.cons.injEq]
end

theorem andThenBy_swap (a b : Ordering) : (andThenBy a b).swap = andThenBy a.swap b.swap := by
  cases a <;> simp [andThenBy, Ordering.swap]

mutual
theorem cmpE_swap [FloatCmp F] [DecidableEq F] [LawfulFloat F] (reg : Registry) : ∀ a b : Expr F, a.Regular reg → b.Regular reg →
    cmpE b a = (cmpE a b).swap
  | .node h as, .node g bs, ha, hb => by
    have K := (keyCmp_total (F := F) reg).swap h g ha.1 hb.1
    have L := cmpEs_swap reg as bs ha.2 hb.2
    rw [cmpE_node, cmpE_node]
    by_cases h1 : h.rank < g.rank
    · rw [if_pos h1, if_neg (by omega), if_pos h1]; rfl
    · by_cases h2 : g.rank < h.rank
      · rw [if_pos h2, if_neg h1, if_pos h2]; rfl
      · rw [if_neg h1, if_neg h2, if_neg h2, if_neg h1, childrenFirst_of_rank (show h.rank = g.rank by omega), K, L]
        split <;> rw [andThenBy_swap]
theorem cmpEs_swap [FloatCmp F] [DecidableEq F] [LawfulFloat F] (reg : Registry) : ∀ a b : List (Expr F),
    Expr.Alls (Head.Regular reg) a → Expr.Alls (Head.Regular reg) b → cmpEs b a = (cmpEs a b).swap
  | [], [], _, _ => by simp [cmpEs]
  | [], _ :: _, _, _ => by simp [cmpEs]
  | _ :: _, [], _, _ => by simp [cmpEs]
  | a :: as, b :: bs, ha, hb => by
    rw [cmpEs, cmpEs, andThenBy_swap, cmpE_swap reg a b ha.1 hb.1, cmpEs_swap reg as bs ha.2 hb.2]
end

/-- Transitivity of two chained comparisons. -/
theorem chain_trans {p q r p' q' r' : Ordering} (t1 : p = .lt → q = .lt → r = .lt) (t2 : p' = .lt → q' = .lt → r' = .lt)
    (e1 : p = .eq → r = q) (e2 : q = .eq → r = p) (h1 : andThenBy p p' = .lt) (h2 : andThenBy q q' = .lt) : andThenBy r r' = .lt := by
  cases p <;> cases q <;> simp_all [andThenBy]

mutual
theorem cmpE_trans [FloatCmp F] [DecidableEq F] [LawfulFloat F] (reg : Registry) : ∀ a b c : Expr F, a.Regular reg → b.Regular reg →
    c.Regular reg → cmpE a b = .lt → cmpE b c = .lt → cmpE a c = .lt
  | .node h as, .node g bs, .node k cs, ha, hb, hc => by
    have T := keyCmp_total (F := F) reg
    have L := cmpEs_trans reg as bs cs ha.2 hb.2 hc.2
    rw [cmpE_node, cmpE_node, cmpE_node]
    intro h1 h2
    have r1 : ¬ g.rank < h.rank := by
      intro hh; rw [if_neg (by omega), if_pos hh] at h1; cases h1
    have r2 : ¬ k.rank < g.rank := by
      intro hh; rw [if_neg (by omega), if_pos hh] at h2; cases h2
    by_cases r3 : h.rank < k.rank
    · rw [if_pos r3]
    · have q1 : h.rank = g.rank := by omega
      have q2 : g.rank = k.rank := by omega
      have q3 : h.rank = k.rank := by omega
      rw [if_neg (by omega), if_neg (by omega)] at h1 h2
      rw [if_neg r3, if_neg (by omega)]
      rw [← childrenFirst_of_rank q1] at h2
      have kt := T.trans h g k ha.1 hb.1 hc.1
      have ke1 : keyCmp h g = .eq → keyCmp h k = keyCmp g k := fun e => by rw [(T.eq_iff h g ha.1 hb.1).mp e]
      have ke2 : keyCmp g k = .eq → keyCmp h k = keyCmp h g := fun e => by rw [(T.eq_iff g k hb.1 hc.1).mp e]
      have le1 : cmpEs as bs = .eq → cmpEs as cs = cmpEs bs cs := fun e => by rw [(cmpEs_eq_iff reg as bs ha.2 hb.2).mp e]
      have le2 : cmpEs bs cs = .eq → cmpEs as cs = cmpEs as bs := fun e => by rw [(cmpEs_eq_iff reg bs cs hb.2 hc.2).mp e]
      by_cases cf : h.childrenFirst = true
      · rw [if_pos cf] at h1 h2; rw [if_pos cf]
        exact chain_trans L kt le1 le2 h1 h2
      · rw [if_neg cf] at h1 h2; rw [if_neg cf]
        exact chain_trans kt L ke1 ke2 h1 h2
theorem cmpEs_trans [FloatCmp F] [DecidableEq F] [LawfulFloat F] (reg : Registry) : ∀ a b c : List (Expr F),
    Expr.Alls (Head.Regular reg) a → Expr.Alls (Head.Regular reg) b → Expr.Alls (Head.Regular reg) c →
    cmpEs a b = .lt → cmpEs b c = .lt → cmpEs a c = .lt
  | [], [], _, _, _, _ => by simp [cmpEs]
  | [], _ :: _, [], _, _, _ => by simp [cmpEs]
  | [], _ :: _, _ :: _, _, _, _ => by simp [cmpEs]
  | _ :: _, [], _, _, _, _ => by simp [cmpEs]
  | _ :: _, _ :: _, [], _, _, _ => by simp [cmpEs]
  | a :: as, b :: bs, c :: cs, ha, hb, hc => by
    rw [cmpEs, cmpEs, cmpEs]
    exact chain_trans (cmpE_trans reg a b c ha.1 hb.1 hc.1) (cmpEs_trans reg as bs cs ha.2 hb.2 hc.2)
      (fun e => by rw [(cmpE_eq_iff reg a b ha.1 hb.1).mp e]) (fun e => by rw [(cmpE_eq_iff reg b c hb.1 hc.1).mp e])
end

/-! ## The order that may overflow -/

theorem ratOrder_exact {a b : RatC} (ha : a.Canonical) (hb : b.Canonical) {o : Ordering} (h : ratOrder a b = .ok o) : ratCmp a b = o := by
  have e1 := C06_order_partial a b ha hb
  rw [h] at e1
  have e2 : ratCmp a b = compare a.val b.val := by
    have q1 : (0 : ℚ) < a.d := by exact_mod_cast ha.2.2.1
    have q2 : (0 : ℚ) < b.d := by exact_mod_cast hb.2.2.1
    have k1 : a.n * b.d < b.n * a.d ↔ a.val < b.val := by
      simp only [RatC.val]; rw [div_lt_div_iff₀ q1 q2]; exact_mod_cast Iff.rfl
    have k2 : b.n * a.d < a.n * b.d ↔ b.val < a.val := by
      simp only [RatC.val]; rw [div_lt_div_iff₀ q2 q1]; exact_mod_cast Iff.rfl
    unfold ratCmp intOrder
    rcases lt_trichotomy a.val b.val with h | h | h
    · rw [if_pos (k1.mpr h)]; exact (compare_lt_iff_lt.mpr h).symm
    · rw [if_neg (fun hh => absurd (k1.mp hh) (by simp [h])), if_neg (fun hh => absurd (k2.mp hh) (by simp [h])), h]; simp
    · rw [if_neg (fun hh => absurd (k1.mp hh) (not_lt.mpr h.le)), if_pos (k2.mpr h)]; exact (compare_gt_iff_gt.mpr h).symm
  rw [e2]
  by_cases c : a.d = b.d ∨ InI64 (a.n * b.d) ∧ InI64 (b.n * a.d)
  · rw [if_pos c, Except.ok.injEq] at e1; exact e1.symm
  · rw [if_neg c] at e1; cases e1

theorem ratOrder_swap {a b : RatC} (ha : a.Canonical) (hb : b.Canonical) : ratOrder b a = (ratOrder a b).map Ordering.swap := by
  rw [C06_order_partial a b ha hb, C06_order_partial b a hb ha]
  by_cases c : a.d = b.d ∨ InI64 (a.n * b.d) ∧ InI64 (b.n * a.d)
  · have c' : b.d = a.d ∨ InI64 (b.n * a.d) ∧ InI64 (a.n * b.d) := c.imp Eq.symm And.symm
    rw [if_pos c, if_pos c']
    show _ = Except.ok _
    rw [← Std.OrientedOrd.eq_swap]
  · have c' : ¬ (b.d = a.d ∨ InI64 (b.n * a.d) ∧ InI64 (a.n * b.d)) := fun h => c (h.imp Eq.symm And.symm)
    rw [if_neg c, if_neg c']; rfl

theorem headOrder_exact [FloatCmp F] (reg : Registry) {h g : Head F} (hh : h.Regular reg) (hg : g.Regular reg) {o : Ordering}
    (e : headOrder ratOrder h g = .ok o) : headCmp h g = o := by
  unfold headCmp
  cases h <;> cases g <;> first
    | (exact Except.ok.inj e)
    | (exact ratOrder_exact hh hg e)

theorem thenRes_ok_iff {a : Res Ordering} {b : Unit → Res Ordering} {o : Ordering} :
    thenRes a b = .ok o ↔ (a = .ok o ∧ o ≠ .eq) ∨ (a = .ok .eq ∧ b () = .ok o) := by
  cases a with
  | error e => simp [thenRes]
  | ok p => cases p <;> cases o <;> simp [thenRes]

theorem thenRes_exact {a : Res Ordering} {b : Unit → Res Ordering} {o p q : Ordering} (ha : ∀ o, a = .ok o → p = o)
    (hb : ∀ o, b () = .ok o → q = o) (h : thenRes a b = .ok o) : andThenBy p q = o := by
  rcases thenRes_ok_iff.mp h with ⟨h1, h2⟩ | ⟨h1, h2⟩
  · rw [ha _ h1]; cases o <;> simp_all [andThenBy]
  · rw [ha _ h1, hb _ h2]; rfl

mutual
theorem order_exact [FloatCmp F] (reg : Registry) : ∀ a b : Expr F, a.Regular reg → b.Regular reg → ∀ o, orderWith ratOrder a b = .ok o →
    cmpE a b = o
  | .node h as, .node g bs, ha, hb, o, e => by
    rw [orderWith] at e
    rw [cmpE]
    have L := orderLists_exact' reg as bs ha.2 hb.2
    have H : ∀ o, headOrder ratOrder h g = .ok o → headCmp h g = o := fun o e => headOrder_exact reg ha.1 hb.1 e
    by_cases h1 : h.rank < g.rank
    · rw [if_pos h1, Except.ok.injEq] at e; rw [if_pos h1]; exact e
    · by_cases h2 : g.rank < h.rank
      · rw [if_neg h1, if_pos h2, Except.ok.injEq] at e; rw [if_neg h1, if_pos h2]; exact e
      · rw [if_neg h1, if_neg h2] at e; rw [if_neg h1, if_neg h2]
        by_cases cf : h.childrenFirst = true
        · rw [if_pos cf] at e; rw [if_pos cf]; exact thenRes_exact L H e
        · rw [if_neg cf] at e; rw [if_neg cf]; exact thenRes_exact H L e
theorem orderLists_exact' [FloatCmp F] (reg : Registry) : ∀ a b : List (Expr F), Expr.Alls (Head.Regular reg) a →
    Expr.Alls (Head.Regular reg) b → ∀ o, orderLists ratOrder a b = .ok o → cmpEs a b = o
  | [], [], _, _, o, e => by rw [orderLists, Except.ok.injEq] at e; rw [cmpEs]; exact e
  | [], _ :: _, _, _, o, e => by rw [orderLists, Except.ok.injEq] at e; rw [cmpEs]; exact e
  | _ :: _, [], _, _, o, e => by rw [orderLists, Except.ok.injEq] at e; rw [cmpEs]; exact e
  | a :: as, b :: bs, ha, hb, o, e => by
    rw [orderLists] at e
    rw [cmpEs]
    exact thenRes_exact (order_exact reg a b ha.1 hb.1) (orderLists_exact' reg as bs ha.2 hb.2) e
end

theorem thenRes_swap {a a' : Res Ordering} {b b' : Unit → Res Ordering} (ha : a' = a.map Ordering.swap) (hb : b' () = (b ()).map Ordering.swap) :
    thenRes a' b' = (thenRes a b).map Ordering.swap := by
  rw [ha]
  cases a with
  | error e => rfl
  | ok p => cases p <;> first | rfl | exact hb

theorem headOrder_swap [FloatCmp F] [DecidableEq F] [LawfulFloat F] (reg : Registry) {h g : Head F} (hh : h.Regular reg) (hg : g.Regular reg)
    (hr : h.rank = g.rank) : headOrder ratOrder g h = (headOrder ratOrder h g).map Ordering.swap := by
  have K := (keyCmp_total (F := F) reg).swap h g hh hg
  rw [← headCmp_eq_key h g hr, ← headCmp_eq_key g h hr.symm] at K
  cases h <;> cases g <;> first
    | (exact absurd hr (Nat.ne_of_beq_eq_false rfl))
    | (exact congrArg Except.ok K)
    | (exact ratOrder_swap hh hg)

mutual
theorem order_swap [FloatCmp F] [DecidableEq F] [LawfulFloat F] (reg : Registry) : ∀ a b : Expr F, a.Regular reg → b.Regular reg →
    orderWith ratOrder b a = (orderWith ratOrder a b).map Ordering.swap
  | .node h as, .node g bs, ha, hb => by
    have L := orderLists_swap reg as bs ha.2 hb.2
    rw [orderWith, orderWith]
    by_cases h1 : h.rank < g.rank
    · rw [if_neg (by omega), if_pos h1, if_pos h1]; rfl
    · by_cases h2 : g.rank < h.rank
      · rw [if_pos h2, if_neg h1, if_pos h2]; rfl
      · have hr : h.rank = g.rank := by omega
        have H := headOrder_swap reg ha.1 hb.1 hr
        rw [if_neg h2, if_neg h1, if_neg h1, if_neg h2, childrenFirst_of_rank hr]
        split
        · exact thenRes_swap L H
        · exact thenRes_swap H L
theorem orderLists_swap [FloatCmp F] [DecidableEq F] [LawfulFloat F] (reg : Registry) : ∀ a b : List (Expr F),
    Expr.Alls (Head.Regular reg) a → Expr.Alls (Head.Regular reg) b →
    orderLists ratOrder b a = (orderLists ratOrder a b).map Ordering.swap
  | [], [], _, _ => by rw [orderLists]; rfl
  | [], _ :: _, _, _ => by rw [orderLists, orderLists]; rfl
  | _ :: _, [], _, _ => by rw [orderLists, orderLists]; rfl
  | a :: as, b :: bs, ha, hb => by
    rw [orderLists, orderLists]
    exact thenRes_swap (order_swap reg a b ha.1 hb.1) (orderLists_swap reg as bs ha.2 hb.2)
end

theorem headOrder_self [FloatCmp F] [DecidableEq F] [LawfulFloat F] (reg : Registry) (h : Head F) (hh : h.Regular reg) :
    headOrder ratOrder h h = .ok .eq := by
  have K := ((keyCmp_total (F := F) reg).eq_iff h h hh hh).mpr rfl
  rw [← headCmp_eq_key h h rfl] at K
  cases h <;> first
    | (exact congrArg Except.ok K)
    | skip
  show ratOrder _ _ = _
  rw [C06_order_partial _ _ hh hh, if_pos (Or.inl rfl)]
  simp

mutual
theorem order_self [FloatCmp F] [DecidableEq F] [LawfulFloat F] (reg : Registry) : ∀ a : Expr F, a.Regular reg →
    orderWith ratOrder a a = .ok .eq
  | .node h as, ha => by
    rw [orderWith, if_neg (lt_irrefl _), if_neg (lt_irrefl _), orderLists_self reg as ha.2, headOrder_self reg h ha.1]
    split <;> rfl
theorem orderLists_self [FloatCmp F] [DecidableEq F] [LawfulFloat F] (reg : Registry) : ∀ a : List (Expr F),
    Expr.Alls (Head.Regular reg) a → orderLists ratOrder a a = .ok .eq
  | [], _ => by rw [orderLists]
  | a :: as, ha => by rw [orderLists, order_self reg a ha.1, orderLists_self reg as ha.2]; rfl
end

theorem headOrder_total [FloatCmp F] (P : RatC → Prop) (hP : ∀ r s, P r → P s → ∃ o, ratOrder r s = .ok o) (h g : Head F)
    (hh : ∀ r, h = .rat r → P r) (hg : ∀ r, g = .rat r → P r) : ∃ o, headOrder ratOrder h g = .ok o := by
  cases h <;> cases g <;> first
    | (exact ⟨_, rfl⟩)
    | (exact hP _ _ (hh _ rfl) (hg _ rfl))

theorem thenRes_total {a : Res Ordering} {b : Unit → Res Ordering} (ha : ∃ o, a = .ok o) (hb : ∃ o, b () = .ok o) :
    ∃ o, thenRes a b = .ok o := by
  obtain ⟨o, rfl⟩ := ha
  cases o <;> first | exact ⟨_, rfl⟩ | exact hb

mutual
theorem order_total [FloatCmp F] (P : RatC → Prop) (hP : ∀ r s, P r → P s → ∃ o, ratOrder r s = .ok o) : ∀ a b : Expr F,
    a.All (fun h => ∀ r, h = .rat r → P r) → b.All (fun h => ∀ r, h = .rat r → P r) → ∃ o, orderWith ratOrder a b = .ok o
  | .node h as, .node g bs, ha, hb => by
    rw [orderWith]
    have L := orderLists_total P hP as bs ha.2 hb.2
    have H := headOrder_total P hP h g ha.1 hb.1
    split
    · exact ⟨_, rfl⟩
    · split
      · exact ⟨_, rfl⟩
      · split
        · exact thenRes_total L H
        · exact thenRes_total H L
theorem orderLists_total [FloatCmp F] (P : RatC → Prop) (hP : ∀ r s, P r → P s → ∃ o, ratOrder r s = .ok o) : ∀ a b : List (Expr F),
    Expr.Alls (fun h => ∀ r, h = .rat r → P r) a → Expr.Alls (fun h => ∀ r, h = .rat r → P r) b → ∃ o, orderLists ratOrder a b = .ok o
  | [], [], _, _ => ⟨_, by rw [orderLists]⟩
  | [], _ :: _, _, _ => ⟨_, by rw [orderLists]⟩
  | _ :: _, [], _, _ => ⟨_, by rw [orderLists]⟩
  | a :: as, b :: bs, ha, hb => by
    rw [orderLists]
    exact thenRes_total (order_total P hP a b ha.1 hb.1) (orderLists_total P hP as bs ha.2 hb.2)
end

/-! ## Identity and hash -/

theorem headIdentical_iff [FloatCmp F] [DecidableEq F] [LawfulFloat F] (h g : Head F) : headIdentical h g = true ↔ h = g := by
  cases h <;> cases g <;> simp [headIdentical, LawfulFloat.eq_iff]

mutual
theorem identical_iff [FloatCmp F] [DecidableEq F] [LawfulFloat F] : ∀ a b : Expr F, identical a b = true ↔ a = b
  | .node h as, .node g bs => by
    rw [identical, Bool.and_eq_true, headIdentical_iff, identicals_iff as bs, Expr.node.injEq]
theorem identicals_iff [FloatCmp F] [DecidableEq F] [LawfulFloat F] : ∀ a b : List (Expr F), identicals a b = true ↔ a = b
  | [], [] => by simp [identicals]
  | [], _ :: _ => by simp [identicals]
  | _ :: _, [] => by simp [identicals]
  | a :: as, b :: bs => by rw [identicals, Bool.and_eq_true, identical_iff a b, identicals_iff as bs, List.cons.injEq]
end

theorem headIdentical_cases [FloatCmp F] [DecidableEq F] {h g : Head F} (e : headIdentical h g = true) :
    h = g ∨ ∃ a b : F, h = .flt a ∧ g = .flt b ∧ FloatCmp.eq a b = true := by
  by_cases hf : ∃ a b : F, h = .flt a ∧ g = .flt b
  · obtain ⟨a, b, rfl, rfl⟩ := hf
    exact Or.inr ⟨a, b, rfl, rfl, e⟩
  · left
    unfold headIdentical at e
    split at e
    · exact absurd ⟨_, _, rfl, rfl⟩ hf
    · simpa using e

theorem headIdentical_data [FloatCmp F] [DecidableEq F] {h g : Head F} (e : headIdentical h g = true)
    (hb : ∀ a b : F, FloatCmp.eq a b = true → FloatCmp.bits a = FloatCmp.bits b) :
    headSeed h = headSeed g ∧ h.typeIndex = g.typeIndex ∧ h.forwardsHash = g.forwardsHash ∧ h.anyChildren = g.anyChildren ∧ h.kind = g.kind := by
  rcases headIdentical_cases e with rfl | ⟨a, b, rfl, rfl, hab⟩
  · exact ⟨rfl, rfl, rfl, rfl, rfl⟩
  · exact ⟨hb _ _ hab, rfl, rfl, rfl, rfl⟩

mutual
theorem hash_eq [FloatCmp F] [DecidableEq F] (hb : ∀ a b : F, FloatCmp.eq a b = true → FloatCmp.bits a = FloatCmp.bits b) :
    ∀ a b : Expr F, identical a b = true → hash a = hash b ∧ a.head.kind = b.head.kind
  | .node h as, .node g bs, e => by
    rw [identical, Bool.and_eq_true] at e
    obtain ⟨e1, e2, e3, e4, e5⟩ := headIdentical_data e.1 hb
    refine ⟨?_, e5⟩
    rw [hash, hash, e1, e2, e3, e4, hashChildren_eq hb as bs e.2]
theorem hashChildren_eq [FloatCmp F] [DecidableEq F] (hb : ∀ a b : F, FloatCmp.eq a b = true → FloatCmp.bits a = FloatCmp.bits b) :
    ∀ (as bs : List (Expr F)), identicals as bs = true → ∀ (f y : Bool) (s : UInt64), hashChildren f y s as = hashChildren f y s bs
  | [], [], _, _, _, _ => rfl
  | [], _ :: _, e, _, _, _ => by simp [identicals] at e
  | _ :: _, [], e, _, _, _ => by simp [identicals] at e
  | a :: as, b :: bs, e, f, y, s => by
    rw [identicals, Bool.and_eq_true] at e
    obtain ⟨e1, e2⟩ := hash_eq hb a b e.1
    rw [hashChildren, hashChildren, e1, e2]
    exact hashChildren_eq hb as bs e.2 f y _
end

theorem cmpE_total [FloatCmp F] [DecidableEq F] [LawfulFloat F] (reg : Registry) : TotalOn (Expr.Regular reg) (cmpE (F := F)) where
  eq_iff := cmpE_eq_iff reg
  swap := cmpE_swap reg
  trans := cmpE_trans reg

end Wf.Sym
