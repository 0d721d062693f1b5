import Verif.Sym.FromIrLemmas
import Verif.Sym.LowerLeaves
import Std.Data.String.ToNat

/-!
# The definitions of the intermediate variables

Each definition mentions only earlier intermediate variables.
-/

namespace Wf.Sym
open Complex
open Wf.Gen (Prim Graph Op Load)

variable {F : Type} [DecidableEq F] [FnSem F]

omit [DecidableEq F] [FnSem F] in
theorem irVar_inj {v w : Nat} (h : (irVar v : Expr F) = irVar w) : v = w := by
  unfold irVar at h
  have h1 : "v" ++ toString v = "v" ++ toString w := by
    injection h with h _
    injection h
  have h2 : (toString v) = toString w := by
    rw [← String.toList_inj] at h1 ⊢
    rw [String.toList_append, String.toList_append] at h1
    exact List.append_cancel_left h1
  exact Nat.repr_injective h2

/-- A node other than the variables `N` that are not in `D`. -/
def NameNode (N D : List Nat) (h : Head F) (as : List (Expr F)) : Prop := h.plain = true ∧ ∀ w ∈ N, w ∉ D → Expr.node h as ≠ irVar w

theorem name_basic (N D : List Nat) : Basic (NameNode (F := F) N D) := by
  have key : ∀ (h : Head F) (as : List (Expr F)), h.plain = true → h.isVar = false → NameNode N D h as := by
    intro h as hp hv
    refine ⟨hp, fun w _ _ he => ?_⟩
    have h1 : (irVar w : Expr F).head.isVar = true := rfl
    rw [← he, show (Expr.node h as).head = h from rfl, hv] at h1
    cases h1
  constructor <;> intros <;> exact key _ _ rfl rfl

theorem name_mono {N D D' : List Nat} (hD : ∀ w ∈ D, w ∈ D') {e : Expr F} (h : Over (NameNode N D) e) : Over (NameNode N D') e :=
  over_mono (fun _ _ h => ⟨h.1, fun w hw hn => h.2 w hw fun hd => hn (hD w hd)⟩) h

theorem name_irVar {N D : List Nat} {v : Nat} (hv : v ∈ D) : Over (NameNode N D) (irVar v : Expr F) := by
  refine over_node.2 ⟨⟨rfl, fun w _ hw he => ?_⟩, by simp⟩
  have := irVar_inj (F := F) he
  exact hw (this ▸ hv)

/-- The expressions of a result. -/
def Rebuilt.exprs : Rebuilt F → List (Expr F)
  | .expr e => [e]
  | .matrix _ _ es => es

section
variable {K : Ctors F} {s : FromIr F} {P : Head F → List (Expr F) → Prop}

/-- The state is over a predicate. -/
structure StateOver (P : Head F → List (Expr F) → Prop) (s : FromIr F) : Prop where
  value : ∀ v r, entry v s.values = some r → ∀ e ∈ r.exprs, Over P e
  var : ∀ v ∈ s.vars, Over P (irVar v)

theorem StateOver.variant (h : StateOver P s) {v : Nat} {r : Rebuilt F} (hr : s.variant v = .ok r) : ∀ e ∈ r.exprs, Over P e := by
  unfold FromIr.variant at hr
  cases he : entry v s.values with
  | none => simp [he] at hr
  | some r' =>
    simp only [he, Except.ok.injEq] at hr
    subst hr
    exact h.value v _ he

theorem StateOver.scalar (h : StateOver P s) {v : Nat} {e : Expr F} (hr : s.scalar v = .ok e) : Over P e := by
  unfold FromIr.scalar at hr
  by_cases hv : v ∈ s.vars
  · rw [if_pos hv] at hr
    cases hr
    exact h.var v hv
  · rw [if_neg hv] at hr
    cases hw : s.variant v with
    | error e => simp [hw] at hr
    | ok r =>
      have := h.variant hw
      cases r with
      | matrix r c es => simp [hw] at hr
      | expr e' =>
        simp only [hw] at hr
        split at hr
        · cases hr
        · cases hr; exact this _ (by simp [Rebuilt.exprs])

theorem StateOver.boolean (h : StateOver P s) {v : Nat} {e : Expr F} (hr : s.boolean v = .ok e) : Over P e := by
  unfold FromIr.boolean at hr
  cases hw : s.variant v with
  | error e => simp [hw] at hr
  | ok r =>
    have := h.variant hw
    cases r with
    | matrix r c es => simp [hw] at hr
    | expr e' =>
      simp only [hw] at hr
      split at hr
      · cases hr; exact this _ (by simp [Rebuilt.exprs])
      · cases hr

theorem StateOver.scalars (h : StateOver P s) {vs : List Nat} {es : List (Expr F)} (hr : mapRes s.scalar vs = .ok es) : ∀ e ∈ es, Over P e := by
  intro e he
  obtain ⟨v, _, hv⟩ := mapRes_mem hr he
  exact h.scalar hv

theorem callOf_over (hP : Basic P) (hK : Closed P K) {m k : Nat} {es : List (Expr F)} {e : Expr F} (he : ∀ x ∈ es, Over P x) (h : callOf K m k es = .ok e) : Over P e := by
  unfold callOf at h
  split at h
  · exact hK.pow _ _ _ (he _ (by simp)) (he _ (by simp)) h
  · exact hK.pow _ _ _ (he _ (by simp)) (he _ (by simp)) h
  · exact hK.pow _ _ _ (he _ (by simp)) (hP.orat _) h
  · exact over_rebuild (as := []) hP hK rfl (hP.fn _ _) he h
  · cases h

theorem convertOp_over (hP : Basic P) (hK : Closed P K) (hs : StateOver P s) {m : Nat} {ty : Nat → Prim} {leaves : List (Expr F)} (hl : ∀ e ∈ leaves, Over P e)
    {op : Op} {args : List Nat} {r : Rebuilt F} (h : convertOp K m ty leaves s op args = .ok r) : ∀ e ∈ r.exprs, Over P e := by
  have ex : ∀ {x : Res (Expr F)} {r : Rebuilt F}, exprRes x = .ok r → (∀ e, x = .ok e → Over P e) → ∀ e ∈ r.exprs, Over P e := by
    intro x r h hx e he
    obtain ⟨e', he', rfl⟩ := exprRes_ok h
    have : e = e' := by simpa [Rebuilt.exprs] using he
    subst this
    exact hx _ he'
  unfold convertOp at h
  split at h
  · refine ex h fun e he => ?_
    obtain ⟨es, h1, h2⟩ := andThen_ok he
    exact hK.add _ _ (hs.scalars h1) h2
  · refine ex h fun e he => ?_
    obtain ⟨es, h1, h2⟩ := andThen_ok he
    exact hK.mul _ _ (hs.scalars h1) h2
  · refine ex h fun e he => ?_
    obtain ⟨es, h1, h2⟩ := andThen_ok he
    exact callOf_over hP hK (hs.scalars h1) h2
  · refine ex h fun e he => ?_
    unfold castOf at he
    split at he
    · obtain ⟨c, h1, h2⟩ := andThen_ok he
      cases h2
      exact over_iversonFn hP (hs.boolean h1)
    · exact hs.scalar he
  · refine ex h fun e he => ?_
    obtain ⟨x, h1, he⟩ := andThen_ok he
    obtain ⟨y, h2, he⟩ := andThen_ok he
    split at he
    · exact over_relCreate hP (hs.scalar h1) (hs.scalar h2) he
    · cases he
  · obtain ⟨es, h1, h⟩ := andThen_ok h
    unfold matrixCreate at h
    split at h
    · cases h
      exact hs.scalars h1
    · cases h
  · refine ex h fun e he => ?_
    obtain ⟨x, h1, he⟩ := andThen_ok he
    obtain ⟨y, h2, he⟩ := andThen_ok he
    obtain ⟨z, h3, he⟩ := andThen_ok he
    cases he
    exact over_condCreate hP (hs.boolean h1) (hs.scalar h2) (hs.scalar h3)
  · exact ex h fun e he => hs.scalar he
  · refine ex h fun e he => ?_
    obtain ⟨x, h1, he⟩ := andThen_ok he
    obtain ⟨y, h2, he⟩ := andThen_ok he
    exact over_divE hP hK (hs.scalar h1) (hs.scalar h2) he
  · refine ex h fun e he => ?_
    obtain ⟨x, h1, he⟩ := andThen_ok he
    exact over_negE hP hK (hs.scalar h1) he
  · split at h
    · cases h
      intro e he
      rw [show e = .int _ from List.mem_singleton.1 he]
      exact hP.oint _
    · cases h
  · rename_i k
    cases hk : leaves[k]? with
    | none => simp [hk] at h
    | some x =>
      simp only [hk, Except.ok.injEq] at h
      subst h
      intro e he
      have : e = x := by simpa [Rebuilt.exprs] using he
      subst this
      exact hl _ (List.mem_of_getElem? hk)
  · cases h
end

/-- What is known about the definitions. -/
structure DefsIn (N : List Nat) (inter : Bool) (s : FromIr F) : Prop where
  value : ∀ v r, entry v s.values = some r → ∀ e ∈ r.exprs, Over (NameNode N s.vars) e
  defs : ∀ (i : Nat) v, s.vars[i]? = some v → ∃ e, entry v s.values = some (.expr e) ∧ Over (NameNode N (s.vars.take i)) e
  nodup : s.vars.Nodup
  none : inter = false → s.vars = []
  outputs : ∀ p ∈ s.outputs, ∀ e ∈ p.2.exprs, Over (NameNode N s.vars) e

theorem DefsIn.over {N : List Nat} {inter : Bool} {s : FromIr F} (h : DefsIn N inter s) : StateOver (NameNode N s.vars) s := ⟨h.value, fun _ hv => name_irVar hv⟩

theorem insert_defs {N : List Nat} {inter : Bool} {s : FromIr F} (h : DefsIn N inter s) {v : Nat} {r : Rebuilt F} (hr : ∀ e ∈ r.exprs, Over (NameNode N s.vars) e) :
    DefsIn N inter (s.insert inter v r) := by
  unfold FromIr.insert
  cases he : entry v s.values with
  | some _ => exact h
  | none =>
    have hv : v ∉ s.vars := by
      intro hv
      obtain ⟨i, hi⟩ := List.getElem?_of_mem hv
      obtain ⟨e, h1, _⟩ := h.defs i v hi
      rw [he] at h1; cases h1
    have hval : ∀ w r', entry w (s.values ++ [(v, r)]) = some r' → ∀ e ∈ r'.exprs, Over (NameNode N s.vars) e := by
      intro w r' hw
      by_cases hwv : w = v
      · subst hwv
        rw [entry_new he] at hw
        cases hw; exact hr
      · rw [entry_other hwv] at hw
        exact h.value w r' hw
    by_cases hb : (inter && r.isScalar) = true
    · simp only [hb, if_true]
      have hsub : ∀ w ∈ s.vars, w ∈ s.vars ++ [v] := fun w hw => List.mem_append_left _ hw
      refine ⟨fun w r' hw e he => name_mono hsub (hval w r' hw e he), fun i w hi => ?_, ?_, fun hf => ?_, fun p hp e he => name_mono hsub (h.outputs p hp e he)⟩
      · by_cases hlt : i < s.vars.length
        · have hi : s.vars[i]? = some w := by rw [← List.getElem?_append_left hlt]; exact hi
          obtain ⟨e, h1, h2⟩ := h.defs i w hi
          exact ⟨e, entry_append h1, by rw [List.take_append_of_le_length (by omega)]; exact h2⟩
        · have hil : i = s.vars.length := by
            by_contra hne
            rw [List.getElem?_eq_none (by simp; omega)] at hi
            cases hi
          subst hil
          have hwv : w = v := by simpa using hi.symm
          subst hwv
          cases r with
          | matrix a b es => simp [Rebuilt.isScalar] at hb
          | expr e => exact ⟨e, entry_new he, by rw [List.take_left']; exact hr e (by simp [Rebuilt.exprs]); rfl⟩
      · rw [List.nodup_append]
        refine ⟨h.nodup, by simp, fun a ha b hb' => ?_⟩
        rw [List.mem_singleton] at hb'
        subst hb'
        rintro rfl
        exact hv ha
      · subst hf; simp at hb
    · simp only [hb, Bool.false_eq_true, if_false]
      refine ⟨hval, fun i w hi => ?_, h.nodup, h.none, h.outputs⟩
      obtain ⟨e, h1, h2⟩ := h.defs i w hi
      exact ⟨e, entry_append h1, h2⟩

theorem loop_defs {K : Ctors F} {N : List Nat} (hK : ∀ D, Closed (NameNode N D) K) {m : Nat} {ty : Nat → Prim} {leaves : List (Expr F)} (hl : ∀ e ∈ leaves, Over (NameNode N []) e)
    {inter : Bool} {g : Graph} : ∀ {vs : List Nat} {s fin : FromIr F}, fromIrLoop K m ty leaves inter g s vs = .ok fin → DefsIn N inter s →
    DefsIn N inter fin ∧ ∀ v ∈ fin.vars, v ∈ s.vars ∨ v ∈ vs
  | [], s, fin, h, hd => by cases h; exact ⟨hd, fun v hv => .inl hv⟩
  | v :: vs, s, fin, h, hd => by
    unfold fromIrLoop at h
    obtain ⟨s1, h1, hrun⟩ := andThen_ok h
    rcases step_cases h1 with ⟨key, a, r, hn, hr, rfl⟩ | ⟨hn, hs1⟩ | ⟨r, hn, hr, rfl⟩
    · obtain ⟨i1, i2⟩ := loop_defs hK hl hrun ⟨hd.value, hd.defs, hd.nodup, hd.none, fun p hp e he => by
        rcases List.mem_append.1 hp with hp | hp
        · exact hd.outputs p hp e he
        · rw [List.mem_singleton] at hp
          subst hp
          exact hd.over.variant hr e he⟩
      exact ⟨i1, fun w hw => (i2 w hw).imp id (List.mem_cons_of_mem _)⟩
    · subst hs1
      obtain ⟨i1, i2⟩ := loop_defs hK hl hrun hd
      exact ⟨i1, fun w hw => (i2 w hw).imp id (List.mem_cons_of_mem _)⟩
    · have ho := convertOp_over (name_basic N s.vars) (hK s.vars) hd.over (fun e he => name_mono (by simp) (hl e he)) hr
      obtain ⟨i1, i2⟩ := loop_defs hK hl hrun (insert_defs (v := v) hd ho)
      refine ⟨i1, fun w hw => ?_⟩
      rcases i2 w hw with hw | hw
      · have : w ∈ s.vars ∨ w = v := by
          unfold FromIr.insert at hw
          split at hw
          · exact .inl hw
          · dsimp only at hw
            split at hw
            · simpa using hw
            · exact .inl hw
        rcases this with hw | rfl
        · exact .inl hw
        · exact .inr List.mem_cons_self
      · exact .inr (List.mem_cons_of_mem _ hw)

theorem defs_nil (N : List Nat) (inter : Bool) : DefsIn N inter (⟨[], [], []⟩ : FromIr F) :=
  ⟨fun v r h => (by cases h), fun i v h => (by simp at h), List.nodup_nil, fun _ => rfl, fun p hp => (by cases hp)⟩

theorem intermediate_defs {s : FromIr F} {l : List (Expr F × Expr F)} {vs : List Nat} (h : s.intermediate vs = .ok l) :
    List.Forall₂ (fun v p => p.1 = irVar v ∧ entry v s.values = some (.expr p.2)) vs l :=
  mapRes_forall h fun v _ p hp => by
    cases he : entry v s.values with
    | none => simp [he] at hp
    | some r =>
      cases r with
      | matrix a b es => simp [he] at hp
      | expr e =>
        simp only [he] at hp
        split at hp
        · cases hp
        · cases hp; exact ⟨rfl, rfl⟩

theorem intermediate_names {s : FromIr F} {l : List (Expr F × Expr F)} {vs : List Nat} (h : s.intermediate vs = .ok l) : l.map Prod.fst = vs.map irVar := by
  have hds := intermediate_defs h
  clear h
  induction hds with
  | nil => rfl
  | cons h1 _ ih => rw [List.map_cons, List.map_cons, h1.1, ih]

theorem avoids_of_name {N D : List Nat} {v : Nat} {e : Expr F} (h : Over (NameNode N D) e) (hN : v ∈ N) (hD : v ∉ D) : Avoids (irVar v) e :=
  over_mono (fun _ _ h => h.2 v hN hD) h

theorem name_of_avoids {N : List Nat} : ∀ {e : Expr F}, Plain e → (∀ v ∈ N, Avoids (irVar v) e) → Over (NameNode N []) e
  | .node _ _, hp, ha => over_node.2 ⟨⟨(plain_node.1 hp).1, fun w hw _ => (over_node.1 (ha w hw)).1⟩,
      fun b hb => name_of_avoids ((plain_node.1 hp).2 b hb) fun v hv => (over_node.1 (ha v hv)).2 b hb⟩

/-- The definitions that `rebuild_expression_tree` returns. -/
theorem rebuildTree_defs {lic : Lic F} {nK m : Nat} {ty : Nat → Prim} {leaves : List (Expr F)} {inter : Bool} {g : Graph} {res : RebuiltOutputs F}
    (h : rebuildTree (ctors lic nK) m ty leaves inter g = .ok res) (hl : ∀ e ∈ leaves, Plain e ∧ ∀ p ∈ res.intermediate, Avoids p.1 e) :
    (inter = false → res.intermediate = []) ∧ (res.intermediate.map Prod.fst).Nodup ∧
    (∀ (i : Nat) p, res.intermediate[i]? = some p → (∃ v ∈ g.ops, p.1 = irVar v) ∧ Plain p.2 ∧ ∀ (j : Nat) q, i ≤ j → res.intermediate[j]? = some q → Avoids q.1 p.2) ∧
    ∀ o ∈ res.outputs, ∀ e ∈ o.2.exprs, Plain e := by
  obtain ⟨fin, hf, h⟩ := andThen_ok h
  obtain ⟨l, hi, h⟩ := andThen_ok h
  cases h
  have hds := intermediate_defs hi
  have hmap := intermediate_names hi
  have hmem : ∀ v ∈ fin.vars, ∃ p ∈ l, p.1 = irVar v := by
    intro v hv
    have : irVar v ∈ l.map Prod.fst := by rw [hmap]; exact List.mem_map_of_mem hv
    obtain ⟨p, hp, he⟩ := List.mem_map.1 this
    exact ⟨p, hp, he⟩
  obtain ⟨hd, hops⟩ := loop_defs (N := fin.vars) (fun D => ctors_closed (name_basic _ D) lic nK) (fun e he => name_of_avoids (hl e he).1 fun v hv => by
    obtain ⟨p, hp, hpv⟩ := hmem v hv
    rw [← hpv]; exact (hl e he).2 p hp) hf (defs_nil _ _)
  refine ⟨fun hin => ?_, ?_, fun i p hp => ?_, fun o ho e he => over_mono (fun _ _ h => h.1) (hd.outputs o ho e he)⟩
  · have := hd.none hin
    rw [this] at hds
    cases hds; rfl
  · rw [hmap]
    exact hd.nodup.map fun a b h => irVar_inj h
  · have get : ∀ {j : Nat} {q : Expr F × Expr F}, l[j]? = some q → ∃ w, fin.vars[j]? = some w ∧ q.1 = irVar w ∧ entry w fin.values = some (.expr q.2) := by
      intro j q hq
      have hlen := hds.length_eq
      obtain ⟨hj, hjq⟩ := List.getElem?_eq_some_iff.1 hq
      have hj' : j < fin.vars.length := by omega
      refine ⟨fin.vars[j], List.getElem?_eq_getElem hj', ?_⟩
      rw [← hjq]
      exact (List.forall₂_iff_get.1 hds).2 j hj' hj
    obtain ⟨v, hv, h1, h2⟩ := get hp
    obtain ⟨e, h3, h4⟩ := hd.defs i v hv
    rw [h2] at h3
    cases h3
    refine ⟨⟨v, ?_, h1⟩, over_mono (fun _ _ h => h.1) h4, fun j q hij hq => ?_⟩
    · rcases hops v (List.mem_of_getElem? hv) with h | h
      · cases h
      · exact h
    · obtain ⟨w, hw, h5, _⟩ := get hq
      rw [h5]
      refine avoids_of_name h4 (List.mem_of_getElem? hw) fun hm => ?_
      obtain ⟨k, hk⟩ := List.getElem?_of_mem hm
      have hki : k < i := by
        by_contra hn
        rw [List.getElem?_eq_none (by simp; omega)] at hk
        cases hk
      rw [List.getElem?_take_of_lt hki] at hk
      have hjl : j < fin.vars.length := (List.getElem?_eq_some_iff.1 hw).1
      have := (List.getElem?_inj (by omega) hd.nodup).1 (hk.trans hw.symm)
      omega

/-! ## Giving the variables their values -/

/-- Binding the variables to their definitions, first to last, gives each the value of its definition and leaves the other variables alone. -/
theorem bind_defs (ρ : Env F) (l : List (Expr F × Expr F)) (hn : (l.map Prod.fst).Nodup)
    (hl : ∀ (i : Nat) p, l[i]? = some p → (∃ v, p.1 = irVar v) ∧ Plain p.2 ∧ ∀ (j : Nat) q, i ≤ j → l[j]? = some q → Avoids q.1 p.2) :
    (∀ p ∈ l, eval (ρ.bindSeq l.reverse) p.1 = eval (ρ.bindSeq l.reverse) p.2) ∧
      ∀ h, (∀ p ∈ l, Expr.node h [] ≠ p.1) → (ρ.bindSeq l.reverse).leaf h = ρ.leaf h := by
  induction l using List.reverseRecOn with
  | nil => exact ⟨by simp, fun _ _ => rfl⟩
  | append_singleton l p ih =>
    have hlast : (l ++ [p])[l.length]? = some p := by simp
    have hlt : ∀ {i : Nat} {q : Expr F × Expr F}, l[i]? = some q → i < l.length ∧ (l ++ [p])[i]? = some q := by
      intro i q hq
      have hi := (List.getElem?_eq_some_iff.1 hq).1
      exact ⟨hi, by rw [List.getElem?_append_left hi]; exact hq⟩
    have hp := hl l.length p hlast
    rw [List.map_append] at hn
    have hnd := List.nodup_append.1 hn
    obtain ⟨ih1, ih2⟩ := ih hnd.1 (fun i q hq => by
      obtain ⟨k1, k2, k3⟩ := hl i q (hlt hq).2
      exact ⟨k1, k2, fun j q' hij hq' => k3 j q' hij (hlt hq').2⟩)
    have hrev : ρ.bindSeq (l ++ [p]).reverse = (ρ.bindSeq l.reverse).bindAll [p] := by rw [List.reverse_append]; rfl
    rw [hrev]
    have same : ∀ e : Expr F, Plain e → Avoids p.1 e → eval ((ρ.bindSeq l.reverse).bindAll [p]) e = eval (ρ.bindSeq l.reverse) e := by
      intro e h1 h2
      refine eval_bindAll h1 ?_
      intro q hq
      rw [List.mem_singleton] at hq
      rw [hq]; exact h2
    refine ⟨fun q hq => ?_, fun h hh => ?_⟩
    · rcases List.mem_append.1 hq with hq | hq
      · obtain ⟨i, hi⟩ := List.getElem?_of_mem hq
        obtain ⟨⟨v, hv⟩, k2, k3⟩ := hl i q (hlt hi).2
        rw [same q.2 k2 (k3 _ p (by have := (hlt hi).1; omega) hlast), same q.1, ih1 q hq]
        · rw [hv]; exact plain_node.2 ⟨rfl, by simp⟩
        · rw [hv]
          refine over_node.2 ⟨fun he => ?_, by simp⟩
          refine hnd.2.2 q.1 (List.mem_map_of_mem hq) p.1 (by simp) ?_
          rw [hv]; exact he
      · rw [List.mem_singleton] at hq
        subst hq
        obtain ⟨⟨v, hv⟩, k2, k3⟩ := hp
        rw [same q.2 k2 (k3 _ q (Nat.le_refl _) hlast), hv]
        have hfind : findKey (irVar v) [q] = some q.2 := by
          rw [findKey_cons, hv, if_pos ((identical_iff _ _).2 rfl)]
        show eval _ (.node (.var _ _) []) = _
        rw [eval_var_node rfl]
        simp only [Env.bindAll]
        change (match findKey (irVar v) [q] with | some r => _ | none => _) = _
        rw [hfind]
    · have hfind : findKey (.node h []) [p] = none := by
        rw [findKey_cons, if_neg]
        · rfl
        · intro hi
          exact hh p (by simp) ((identical_iff _ _).1 hi).symm
      rw [← ih2 h fun q hq => hh q (by simp [hq])]
      simp [Env.bindAll, hfind]

end Wf.Sym
