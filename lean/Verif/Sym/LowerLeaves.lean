import Verif.Sym.LowerOutput
import Verif.Sym.CseLemmas

/-!
# Which leaves a lowered program loads

The leaves are leaves of the expressions, or numbers and constants made on the way: lowering invents no variable.
-/

namespace Wf.Sym
open Wf.Gen (Prim Graph Op)

variable {F : Type} [DecidableEq F] [FnSem F] {K : Ctors F} {O : Expr F → Prop}

/-- The leaves are such expressions, and have no children. -/
def LeavesIn (O : Expr F → Prop) (s : Low F) : Prop := ∀ e ∈ s.leaves, O e ∧ e.args = []

/-- What is lowered on the way to such an expression is such an expression. -/
structure LowerClosed (O : Expr F → Prop) (K : Ctors F) : Prop where
  kids : ∀ h as, O (.node h as) → ∀ a ∈ as, O a
  one : O (.int 1)
  negOne : O (.int (-1))
  neg : ∀ x r, O x → negE K x = .ok r → O r
  pow : ∀ b e r, O b → O e → K.pow b e = .ok r → O r

/-- Lowering such expressions keeps the leaves such expressions. -/
def KeepsLeaves (O : Expr F → Prop) (R : Lowering F) : Prop := ∀ s e p, O e → LeavesIn O s → R s e = .ok p → LeavesIn O p.1

omit [FnSem F] in
theorem maybeCast_leaves (s : Low F) (v : Nat) (t : Prim) : (maybeCast s v t).1.leaves = s.leaves := by
  unfold maybeCast
  split
  · rfl
  · split <;> rfl

omit [FnSem F] in
theorem maybeCasts_leaves (t : Prim) : ∀ (vs : List Nat) (s : Low F), (maybeCasts s t vs).1.leaves = s.leaves
  | [], _ => rfl
  | v :: vs, s => (maybeCasts_leaves t vs _).trans (maybeCast_leaves s v t)

omit [FnSem F] in
theorem timesBase_leaves (s : Low F) (b : Nat) (r : Option Nat) (e : Nat) : (timesBase s b r e).1.leaves = s.leaves := by
  unfold timesBase
  split
  · split <;> rfl
  · rfl

omit [FnSem F] in
theorem squareLoop_leaves : ∀ (k : Nat) (s : Low F) (b : Nat) (r : Option Nat) (e : Nat), (squareLoop k s b r e).1.leaves = s.leaves
  | 0, _, _, _, _ => rfl
  | k + 1, s, b, r, e => by
    unfold squareLoop
    split
    · exact timesBase_leaves s b r e
    · exact (squareLoop_leaves k _ _ _ _).trans (timesBase_leaves s b r e)

theorem LeavesIn.of_eq {s s' : Low F} (h : LeavesIn O s) (e : s'.leaves = s.leaves) : LeavesIn O s' := fun x hx => h x (e ▸ hx)

theorem LeavesIn.cast {s : Low F} (h : LeavesIn O s) (v : Nat) (t : Prim) : LeavesIn O (maybeCast s v t).1 := h.of_eq (maybeCast_leaves s v t)

theorem LeavesIn.push {s : Low F} (h : LeavesIn O s) (op : Op) (t : Prim) (args : List Nat) : LeavesIn O (s.push op t args).1 := h

theorem LeavesIn.load {s : Low F} (h : LeavesIn O s) {hd : Head F} (he : O (.node hd [])) (t : Prim) : LeavesIn O (s.load (.node hd []) t).1 := by
  intro x hx
  change x ∈ (if leafIndex (.node hd []) s.leaves < s.leaves.length then s.leaves else s.leaves ++ [.node hd []]) at hx
  split at hx
  · exact h x hx
  · rcases List.mem_append.1 hx with hx | hx
    · exact h x hx
    · rw [List.mem_singleton] at hx
      subst hx
      exact ⟨he, rfl⟩

omit [DecidableEq F] [FnSem F] in
theorem mapRes_mem {α β : Type} {f : α → Res β} {as : List α} {bs : List β} (h : mapRes f as = .ok bs) {b : β} (hb : b ∈ bs) : ∃ a ∈ as, f a = .ok b := by
  have hf := mapRes_forall (P := fun a b => f a = .ok b) h fun a _ b hab => hab
  clear h
  induction hf with
  | nil => cases hb
  | cons h1 _ ih =>
    rcases List.mem_cons.1 hb with rfl | hb
    · exact ⟨_, List.mem_cons_self, h1⟩
    · obtain ⟨a, ha, hr⟩ := ih hb
      exact ⟨a, List.mem_cons_of_mem _ ha, hr⟩

variable {R : Lowering F}

theorem lowerList_leaves (hR : KeepsLeaves O R) : ∀ (es : List (Expr F)) (s : Low F) (p : Low F × List Nat), (∀ e ∈ es, O e) → LeavesIn O s →
    lowerList R s es = .ok p → LeavesIn O p.1
  | [], s, p, _, hs, h => by cases h; exact hs
  | e :: es, s, p, he, hs, h => by
    obtain ⟨q, hq, h⟩ := andThen_ok h
    obtain ⟨w, hw, h⟩ := andThen_ok h
    cases h
    exact lowerList_leaves hR es q.1 w (fun x hx => he x (by simp [hx])) (hR s e q (he e (by simp)) hs hq) hw

theorem lowerElements_leaves (hR : KeepsLeaves O R) : ∀ (es : List (Expr F)) (s : Low F) (p : Low F × List Nat), (∀ e ∈ es, O e) → LeavesIn O s →
    lowerElements R s es = .ok p → LeavesIn O p.1
  | [], s, p, _, hs, h => by cases h; exact hs
  | e :: es, s, p, he, hs, h => by
    obtain ⟨q, hq, h⟩ := andThen_ok h
    obtain ⟨w, hw, h⟩ := andThen_ok h
    cases h
    exact lowerElements_leaves hR es _ w (fun x hx => he x (by simp [hx])) ((hR s e q (he e (by simp)) hs hq).cast _ _) hw

theorem powExtract_leaves (hR : KeepsLeaves O R) {s : Low F} {b e : Expr F} {s' : Low F} {v n : Nat} (hb : O b) (hs : LeavesIn O s)
    (h : powExtract R s b e = .ok (some (s', v, n))) : LeavesIn O s' := by
  unfold powExtract at h
  split at h
  · split at h
    · obtain ⟨p, hp, h⟩ := andThen_ok h
      cases h
      exact (hR s b p hb hs hp).cast _ _
    · cases h
  · split at h
    · obtain ⟨p, hp, h⟩ := andThen_ok h
      cases h
      exact (hR s b p hb hs hp).cast _ _
    · cases h
  · cases h

theorem bySquaring_leaves (hO : LowerClosed O K) (hR : KeepsLeaves O R) {s : Low F} {b e : Nat} {p : Low F × Nat} (hs : LeavesIn O s)
    (h : bySquaring R s b e = .ok p) : LeavesIn O p.1 := by
  unfold bySquaring at h
  split at h
  · exact hR s _ p hO.one hs h
  · cases h
    exact hs.of_eq (squareLoop_leaves _ _ _ _ _)

theorem factor_leaves (hO : LowerClosed O K) (hR : KeepsLeaves O R) {s : Low F} {t : Expr F} {p : Low F × List Nat} (ht : O t) (hs : LeavesIn O s)
    (h : factorValues.factor R s t = .ok p) : LeavesIn O p.1 := by
  unfold factorValues.factor at h
  split at h
  · rename_i b e
    obtain ⟨x, hx, h⟩ := andThen_ok h
    split at h
    · cases h
      exact powExtract_leaves hR (hO.kids _ _ ht b (by simp)) hs hx
    · obtain ⟨q, hq, h⟩ := andThen_ok h
      cases h
      exact hR s _ q ht hs hq
  · obtain ⟨q, hq, h⟩ := andThen_ok h
    cases h
    exact hR s _ q ht hs hq

theorem factorValues_leaves (hO : LowerClosed O K) (hR : KeepsLeaves O R) : ∀ (ts : List (Expr F)) (s : Low F) (p : Low F × List Nat), (∀ t ∈ ts, O t) →
    LeavesIn O s → factorValues R s ts = .ok p → LeavesIn O p.1
  | [], s, p, _, hs, h => by cases h; exact hs
  | t :: ts, s, p, ht, hs, h => by
    obtain ⟨q, hq, h⟩ := andThen_ok h
    obtain ⟨w, hw, h⟩ := andThen_ok h
    cases h
    exact factorValues_leaves hO hR ts q.1 w (fun x hx => ht x (by simp [hx])) (factor_leaves hO hR (ht t (by simp)) hs hq) hw

theorem negateFirst_in (hO : LowerClosed O K) : ∀ (ts : List (Expr F)) (r : List (Expr F) × Bool), (∀ t ∈ ts, O t) → negateFirst K ts = .ok r → ∀ t ∈ r.1, O t
  | [], r, _, h => by cases h; simp
  | t :: ts, r, ht, h => by
    have hts : ∀ x ∈ ts, O x := fun x hx => ht x (by simp [hx])
    unfold negateFirst at h
    split at h
    · rename_i n
      split at h
      · obtain ⟨t', h1, h2⟩ := andThen_ok h
        cases h2
        intro x hx
        rcases List.mem_cons.1 hx with rfl | hx
        · exact hO.neg _ _ (ht _ (by simp)) h1
        · exact hts x hx
      · obtain ⟨q, h1, h2⟩ := andThen_ok h
        cases h2
        intro x hx
        rcases List.mem_cons.1 hx with rfl | hx
        · exact ht _ (by simp)
        · exact negateFirst_in hO ts q hts h1 x hx
    · obtain ⟨q, h1, h2⟩ := andThen_ok h
      cases h2
      intro x hx
      rcases List.mem_cons.1 hx with rfl | hx
      · exact ht _ (by simp)
      · exact negateFirst_in hO ts q hts h1 x hx

theorem lowerNode_leaves (hO : LowerClosed O K) (hR : KeepsLeaves O R) : KeepsLeaves O (lowerNode K R) := by
  intro s e p he hs h
  unfold lowerNode at h
  split at h
  · split at h
    · cases h
    · obtain ⟨q, hq, h⟩ := andThen_ok h
      cases h
      exact (lowerList_leaves hR _ s q (hO.kids _ _ he) hs hq).of_eq (maybeCasts_leaves _ _ _)
  · split at h
    · cases h
    · obtain ⟨r, hr, h⟩ := andThen_ok h
      obtain ⟨q, hq, h⟩ := andThen_ok h
      cases h
      refine (factorValues_leaves hO hR _ s q ?_ hs hq).of_eq (maybeCasts_leaves _ _ _)
      have h1 := negateFirst_in hO _ r (hO.kids _ _ he) hr
      split
      · intro t ht
        rcases List.mem_append.1 ht with ht | ht
        · exact h1 t ht
        · rw [List.mem_singleton] at ht; subst ht; exact hO.negOne
      · exact h1
  · rename_i b x
    have hb : O b := hO.kids _ _ he b (by simp)
    have hx : O x := hO.kids _ _ he x (by simp)
    unfold lowerPow at h
    split at h
    · obtain ⟨ne, hne, h⟩ := andThen_ok h
      obtain ⟨r, hr, h⟩ := andThen_ok h
      obtain ⟨p1, hp1, h⟩ := andThen_ok h
      obtain ⟨q, hq, h⟩ := andThen_ok h
      cases h
      have h1 : LeavesIn O q.1 := hR _ _ q hO.one (hR _ r p1 (hO.pow _ _ _ hb (hO.neg _ _ hx hne) hr) (show LeavesIn O { s with notes := s.notes ++ [.recip b x] } from hs) hp1) hq
      exact ((h1.cast _ _).cast _ _).push _ _ _
    · obtain ⟨y, hy, h⟩ := andThen_ok h
      split at h
      · exact bySquaring_leaves hO hR (powExtract_leaves hR hb hs hy) h
      · obtain ⟨p1, hp1, h⟩ := andThen_ok h
        obtain ⟨q, hq, h⟩ := andThen_ok h
        have h1 : LeavesIn O q.1 := hR _ x q hx ((hR s b p1 hb hs hp1).cast _ _) hq
        split at h
        · cases h
          exact h1.push _ _ _
        · cases h
          exact (h1.cast _ _).push _ _ _
  · obtain ⟨q, hq, h⟩ := andThen_ok h
    obtain ⟨t, ht, h⟩ := andThen_ok h
    cases h
    refine (lowerList_leaves hR _ _ q (hO.kids _ _ he) ?_ hq).push _ _ _
    exact hs
  · rename_i c a b
    obtain ⟨p1, hp1, h⟩ := andThen_ok h
    obtain ⟨p2, hp2, h⟩ := andThen_ok h
    obtain ⟨p3, hp3, h⟩ := andThen_ok h
    cases h
    have h1 : LeavesIn O p3.1 := hR _ b p3 (hO.kids _ _ he b (by simp)) (hR _ a p2 (hO.kids _ _ he a (by simp)) (hR s c p1 (hO.kids _ _ he c (by simp)) hs hp1) hp2) hp3
    exact ((h1.cast _ _).cast _ _).push _ _ _
  · rename_i op a b
    obtain ⟨p2, hp2, h⟩ := andThen_ok h
    obtain ⟨p3, hp3, h⟩ := andThen_ok h
    cases h
    have h1 : LeavesIn O p3.1 := hR _ b p3 (hO.kids _ _ he b (by simp)) (hR _ a p2 (hO.kids _ _ he a (by simp)) hs hp2) hp3
    exact ((h1.cast _ _).cast _ _).push _ _ _
  · split at h
    · obtain ⟨p1, hp1, h⟩ := andThen_ok h
      cases h
      exact (hR s _ p1 (hO.kids _ _ he _ (by simp)) hs hp1).push _ _ _
    · cases h
  · exact hR s _ p (hO.kids _ _ he _ (by simp)) hs h
  · exact hR s _ p (hO.kids _ _ he _ (by simp)) hs h
  · cases h; exact hs.push _ _ _
  all_goals first | (cases h; done) | (cases h; exact hs.load he _)

theorem lower_leaves (hO : LowerClosed O K) : ∀ n, KeepsLeaves O (lower K n)
  | 0 => fun _ _ _ _ _ h => by cases h
  | n + 1 => fun s e p he hs h => by
    unfold lower at h
    split at h
    · cases h; exact hs
    · obtain ⟨q, hq, h⟩ := andThen_ok h
      cases h
      exact (lowerNode_leaves hO (lower_leaves hO n) s e q he hs hq).of_eq rfl

theorem addOutput_leaves (hO : LowerClosed O K) {m n : Nat} (hS : ∀ e r, O e → sortExpr K m n e = .ok r → O r) {s s' : Low F} {key : Nat} {o : Output F}
    (ho : ∀ e ∈ o.exprs, O e) (hs : LeavesIn O s) (h : addOutput K m n s key o = .ok s') : LeavesIn O s' := by
  cases o with
  | scalar e t =>
    obtain ⟨e', he', h⟩ := andThen_ok h
    obtain ⟨p, hp, h⟩ := andThen_ok h
    cases h
    exact ((lower_leaves hO n s e' p (hS e e' (ho e (by simp [Output.exprs])) he') hs hp).cast _ _).push _ _ _
  | matrix r c es =>
    obtain ⟨es', hes, h⟩ := andThen_ok h
    obtain ⟨p, hp, h⟩ := andThen_ok h
    cases h
    have h1 : ∀ e ∈ es', O e := by
      intro e he
      obtain ⟨a, ha, hr⟩ := mapRes_mem hes he
      exact hS a e (ho a (by simpa [Output.exprs] using ha)) hr
    exact (lowerElements_leaves (lower_leaves hO n) es' s p h1 hs hp).of_eq rfl

theorem lowerFunction_leaves (hO : LowerClosed O K) {m n : Nat} (hS : ∀ e r, O e → sortExpr K m n e = .ok r → O r) : ∀ {outs : List (Nat × Output F)} {s s' : Low F},
    (∀ o ∈ outs, ∀ e ∈ o.2.exprs, O e) → LeavesIn O s → lowerFunction K m n s outs = .ok s' → LeavesIn O s'
  | [], s, s', _, hs, h => by cases h; exact hs
  | (key, o) :: os, s, s', ho, hs, h => by
    obtain ⟨s1, h1, h⟩ := andThen_ok h
    exact lowerFunction_leaves hO hS (fun x hx => ho x (by simp [hx])) (addOutput_leaves hO hS (ho (key, o) (by simp)) hs h1) h

/-! ## Expressions of the public interface over a predicate -/

section
variable {P : Head F → List (Expr F) → Prop}

theorem sortExpr_over (hP : Basic P) (hp : ∀ h as, P h as → h.plain = true) (hms : ∀ ts us, P .mul ts → P .mul us) (hK : Closed P K) (m : Nat) :
    ∀ (n : Nat) (e r : Expr F), Over P e → sortExpr K m n e = .ok r → Over P r
  | 0, _, _, _, h => by cases h
  | n + 1, .node hd as, r, he, h => by
    obtain ⟨h1, h2⟩ := over_node.1 he
    change sortBody K m _ _ = _ at h
    unfold sortBody at h
    split at h
    · rename_i heq
      cases heq
      obtain ⟨bs, hb, h⟩ := andThen_ok h
      split at h
      · cases h
      · cases h
        refine hP.oadd.2 fun t ht => ?_
        obtain ⟨a, ha, hr⟩ := mapRes_mem hb ((canonSort_perm bs).mem_iff.1 ht)
        exact sortExpr_over hP hp hms hK m n a t (h2 a ha) hr
    · rename_i heq
      cases heq
      obtain ⟨bs, hb, h⟩ := andThen_ok h
      split at h
      · cases h
      · cases h
        refine over_node.2 ⟨hms _ _ h1, fun t ht => ?_⟩
        obtain ⟨a, ha, hr⟩ := mapRes_mem hb ((canonSort_perm bs).mem_iff.1 ht)
        exact sortExpr_over hP hp hms hK m n a t (h2 a ha) hr
    · rename_i heq
      cases heq
      split at h
      · cases h; exact he
      · rename_i hl
        exact over_mapChildren hP hK (leaf_of_not_interp (hp _ _ h1) (by simpa using hl)) h1 (fun x hx y hy => sortExpr_over hP hp hms hK m n x y (h2 x hx) hy) h

theorem lowerClosed (lic : Lic F) (nK : Nat) (hP : Basic P) : LowerClosed (fun e => Good e ∧ Over P e) (ctors lic nK) := by
  obtain ⟨ρ⟩ : Nonempty (Env F) := ⟨⟨fun _ => none, fun _ _ => none, fun _ _ => none⟩⟩
  have hK := ctors_sound lic ρ nK
  have hC := ctors_closed hP lic nK
  refine ⟨fun h as he a ha => ⟨(good_node.1 he.1).2 a ha, (over_node.1 he.2).2 a ha⟩, ⟨good_node.2 ⟨show InI64 1 by decide, by simp⟩, hP.oint 1⟩,
    ⟨good_node.2 ⟨show InI64 (-1) by decide, by simp⟩, hP.oint (-1)⟩, fun x r hx h => ⟨(negE_ok hK (carries_refl hx.1) h).1, over_negE hP hC hx.2 h⟩,
    fun b e r hb he h => ⟨?_, hC.pow _ _ _ hb.2 he.2 h⟩⟩
  exact (hK.pow b e r hb.1 he.1 h).1
end

end Wf.Sym
