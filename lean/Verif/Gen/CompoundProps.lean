import Verif.Gen.CompoundModel
import Mathlib.Data.List.Basic

/-!
# C50: struct values
-/

namespace Wf.Gen

variable {T : Type} [DecidableEq T]

/-- Specification: the members of a struct value of a type with `n` members, in order. -/
def membersOf (c : Compound T) (n : Nat) : Res (List (Scalar T)) := (List.range n).mapM (createElement c)

omit [DecidableEq T] in
theorem toList_ofList (l : List (Scalar T)) : (Scalars.ofList l).toList = l := by
  induction l with
  | nil => rfl
  | cons x l ih => show x :: _ = _; rw [ih]

omit [DecidableEq T] in
theorem ofList_toList : (l : Scalars T) → Scalars.ofList l.toList = l
  | .nil => rfl
  | .cons x r => by show Scalars.cons x (Scalars.ofList r.toList) = _; rw [ofList_toList r]

theorem restMatch_iff (c : Compound T) (l : List (Scalar T)) : ∀ i, restMatch c i l = true ↔ l = (List.range l.length).map fun k => Scalar.element c (i + k) := by
  induction l with
  | nil => intro i; simp [restMatch]
  | cons x l ih =>
    intro i
    rw [List.length_cons, List.range_succ_eq_map, List.map_cons, List.map_map]
    cases x with
    | other k => simp [restMatch]
    | element d j =>
      unfold restMatch
      rw [Bool.and_eq_true, Bool.and_eq_true, ih, beq_iff_eq, beq_iff_eq, List.cons.injEq, Nat.add_zero]
      have hf : (fun k => Scalar.element c (i + 1 + k)) = (fun k => Scalar.element c (i + k)) ∘ Nat.succ := by
        funext k; simp only [Function.comp, Nat.succ_eq_add_one]; congr 1; omega
      rw [hf]
      constructor
      · rintro ⟨⟨rfl, rfl⟩, h⟩; exact ⟨rfl, h⟩
      · rintro ⟨h, h'⟩
        cases h
        exact ⟨⟨rfl, rfl⟩, h'⟩

theorem existing_iff (t : T) (l : List (Scalar T)) (c : Compound T) :
    existingCompound t l = some c ↔ l ≠ [] ∧ c.type? = some t ∧ l = (List.range l.length).map (Scalar.element c) := by
  cases l with
  | nil => simp [existingCompound]
  | cons x l =>
    cases x with
    | other k =>
      constructor
      · intro h; cases h
      · rintro ⟨_, _, h⟩
        rw [List.length_cons, List.range_succ_eq_map, List.map_cons] at h
        cases h
    | element d j =>
      cases j with
      | succ j =>
        constructor
        · intro h; cases h
        · rintro ⟨_, _, h⟩
          rw [List.length_cons, List.range_succ_eq_map, List.map_cons] at h
          cases h
      | zero =>
        have hf : (fun k => Scalar.element d (1 + k)) = Scalar.element d ∘ Nat.succ := by
          funext k; simp only [Function.comp, Nat.succ_eq_add_one]; congr 1; omega
        have hm := restMatch_iff d l 1
        rw [hf] at hm
        show (if d.type? = some t then (if restMatch d 1 l then some d else none) else none) = some c ↔ _
        rw [List.length_cons, List.range_succ_eq_map, List.map_cons, List.map_map]
        by_cases ht : d.type? = some t
        · rw [if_pos ht]
          by_cases hr : restMatch d 1 l = true
          · rw [if_pos hr]
            constructor
            · intro h; cases h
              exact ⟨by simp, ht, by rw [← hm.mp hr]⟩
            · rintro ⟨_, _, h⟩
              rw [List.cons.injEq] at h
              obtain ⟨h1, _⟩ := h
              cases h1; rfl
          · rw [if_neg hr]
            constructor
            · intro h; cases h
            · rintro ⟨_, _, h⟩
              rw [List.cons.injEq] at h
              obtain ⟨h1, h2⟩ := h
              cases h1
              exact absurd (hm.mpr h2) hr
        · rw [if_neg ht]
          constructor
          · intro h; cases h
          · rintro ⟨_, h1, h⟩
            rw [List.cons.injEq] at h
            obtain ⟨h2, _⟩ := h
            cases h2
            exact absurd h1 ht

theorem mapM_ok_of {α β : Type} (f : α → Res β) (g : α → β) (l : List α) (h : ∀ a ∈ l, f a = .ok (g a)) : l.mapM f = .ok (l.map g) := by
  induction l with
  | nil => rfl
  | cons a l ih => rw [List.mapM_cons, h a List.mem_cons_self, ih (fun b hb => h b (List.mem_cons_of_mem _ hb))]; rfl

/-- A member list in which struct values are never constructions: the members the API hands out. -/
def NoConstructMembers (args : List (Scalar T)) : Prop := ∀ t as i, Scalar.element (.construct t as) i ∉ args

omit [DecidableEq T] in
/-- `createElement` only ever hands out such members. -/
theorem createElement_members {c : Compound T} {i : Nat} {x : Scalar T} (h : createElement c i = .ok x) :
    (∃ t as, c = .construct t as ∧ x ∈ as.toList) ∨ (x = .element c i ∧ ∀ t as, c ≠ .construct t as) := by
  cases c with
  | call id ret => cases h; exact Or.inr ⟨rfl, by simp⟩
  | argument n t => cases h; exact Or.inr ⟨rfl, by simp⟩
  | construct t as =>
    left
    refine ⟨t, as, rfl, ?_⟩
    unfold createElement at h
    simp only at h
    cases hg : as.toList[i]? with
    | none => rw [hg] at h; cases h
    | some y => rw [hg] at h; cases h; exact List.mem_of_getElem? hg

/-- C50: a call or an argument rebuilt from all its members in order is that value. -/
theorem C50_rebuild (size : T → Nat) (c : Compound T) (t : T) (hc : ∀ t as, c ≠ .construct t as) (ht : c.type? = some t) (hn : 0 < size t) :
    ∃ members, membersOf c (size t) = .ok members ∧ createConstruction size t members = .ok c := by
  refine ⟨(List.range (size t)).map (Scalar.element c), ?_, ?_⟩
  · apply mapM_ok_of
    intro i _
    cases c with
    | call id ret => rfl
    | argument n t => rfl
    | construct t as => exact absurd rfl (hc t as)
  · unfold createConstruction
    rw [(existing_iff t _ c).mpr ⟨by intro h; have := congrArg List.length h; simp at this; omega, ht, by simp⟩]

/-- C50: a construction rebuilt from all its members in order is that value. -/
theorem C50_rebuild_construction (size : T → Nat) (t : T) (args : List (Scalar T)) (ha : NoConstructMembers args) (t' : T) (as : Scalars T)
    (h : createConstruction size t args = .ok (.construct t' as)) :
    ∃ members, membersOf (.construct t' as) (size t') = .ok members ∧ createConstruction size t' members = .ok (.construct t' as) := by
  unfold createConstruction at h
  cases he : existingCompound t args with
  | some c =>
    rw [he] at h; cases h
    obtain ⟨h1, _, h3⟩ := (existing_iff t args _).mp he
    exfalso
    cases args with
    | nil => exact h1 rfl
    | cons x l =>
      rw [List.length_cons, List.range_succ_eq_map, List.map_cons, List.cons.injEq] at h3
      exact ha t' as 0 (by rw [h3.1]; exact List.mem_cons_self)
  | none =>
    rw [he] at h
    by_cases hs : size t = args.length
    · simp only [if_pos hs] at h; cases h
      refine ⟨args, ?_, ?_⟩
      · unfold membersOf
        have h1 : (List.range (size t)).mapM (createElement (.construct t (Scalars.ofList args))) = .ok ((List.range (size t)).map fun i => args.getD i (.other 0)) := by
          apply mapM_ok_of
          intro i hi
          rw [List.mem_range] at hi
          unfold createElement
          simp only [toList_ofList, List.getElem?_eq_getElem (show i < args.length by omega), List.getD_eq_getElem?_getD, Option.getD_some]
        rw [h1]
        congr 1
        apply List.ext_getElem
        · simp [hs]
        · intro i h2 h3; simp [h3]
      · unfold createConstruction
        rw [he]
        simp only [if_pos hs]
    · simp only [if_neg hs] at h; cases h

/-- C50: whatever members are given, if there are as many as the type has, the value made has exactly those members. -/
theorem C50_members (size : T → Nat) (t : T) (args : List (Scalar T)) (ha : NoConstructMembers args) (hs : size t = args.length) :
    ∃ c, createConstruction size t args = .ok c ∧ c.type? = some t ∧ membersOf c (size t) = .ok args := by
  unfold createConstruction
  cases he : existingCompound t args with
  | some c =>
    obtain ⟨h1, h2, h3⟩ := (existing_iff t args c).mp he
    refine ⟨c, rfl, h2, ?_⟩
    have hc : ∀ t as, c ≠ .construct t as := by
      intro t' as hc
      cases args with
      | nil => exact h1 rfl
      | cons x l =>
        rw [List.length_cons, List.range_succ_eq_map, List.map_cons, List.cons.injEq] at h3
        exact ha t' as 0 (by rw [h3.1, hc]; exact List.mem_cons_self)
    conv_rhs => rw [h3, ← hs]
    apply mapM_ok_of
    intro i _
    cases c with
    | call id ret => rfl
    | argument n t => rfl
    | construct t as => exact absurd rfl (hc t as)
  | none =>
    simp only [if_pos hs]
    refine ⟨_, rfl, rfl, ?_⟩
    unfold membersOf
    have h1 : (List.range (size t)).mapM (createElement (.construct t (Scalars.ofList args))) = .ok ((List.range (size t)).map fun i => args.getD i (.other 0)) := by
      apply mapM_ok_of
      intro i hi
      rw [List.mem_range] at hi
      unfold createElement
      simp only [toList_ofList, List.getElem?_eq_getElem (show i < args.length by omega), List.getD_eq_getElem?_getD, Option.getD_some]
    rw [h1]
    congr 1
    apply List.ext_getElem
    · simp [hs]
    · intro i h2 h3; simp [h3]

/-- C50: a list of another length is refused, unless it consists of leading members of one existing value of the type. -/
theorem C50_wrong_length (size : T → Nat) (t : T) (args : List (Scalar T)) (hs : size t ≠ args.length) :
    createConstruction size t args = .error .assertion ∨
      ∃ c, c.type? = some t ∧ args = (List.range args.length).map (Scalar.element c) ∧ createConstruction size t args = .ok c := by
  unfold createConstruction
  cases he : existingCompound t args with
  | some c =>
    obtain ⟨_, h2, h3⟩ := (existing_iff t args c).mp he
    exact Or.inr ⟨c, h2, h3, rfl⟩
  | none => simp only [if_neg hs]; exact Or.inl trivial

/-- The exception is real: the first member of a two-member argument is accepted as the whole value. -/
theorem C50_prefix_accepted : createConstruction (fun _ : Unit => 2) () [.element (.argument "x" ()) 0] = .ok (.argument "x" ()) := rfl

example : createConstruction (fun _ : Unit => 2) () [.element (.argument "x" ()) 0, .element (.argument "x" ()) 1] = .ok (.argument "x" ()) := rfl
example : createConstruction (fun _ : Unit => 2) () [.element (.argument "x" ()) 1, .element (.argument "x" ()) 0] =
    .ok (.construct () (.cons (.element (.argument "x" ()) 1) (.cons (.element (.argument "x" ()) 0) .nil))) := rfl
example : NoConstructMembers [Scalar.element (Compound.argument "x" ()) 0, .other 3] := by intro t as i; simp

end Wf.Gen
