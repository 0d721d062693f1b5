import Verif.Gen.RunExpr
import Verif.Gen.NameSim

/-!
# Lemmas for C58: the variables of the two semantics

The variables of `NameSpec.lean` and of `RunSpec.lean` are both seen as made from one list: an entry with a cell is a variable of both, an entry without one
is a name made by `if let Some(x) = x` of Rust.
-/

namespace Wf.Gen.Text

variable {K : Type}

/-- The variables of both semantics. -/
abbrev Track (K : Type) := List (String × Option (Cell K))

/-- The variables with cells. -/
def left : Track K → Vars K
  | [] => []
  | (n, some c) :: W => (n, c) :: left W
  | (_, none) :: W => left W

/-- The objects, given the names that stand for objects of the caller. -/
def entry (B : String → Option (Obj K)) : String × Option (Cell K) → String × Obj K
  | (n, some c) => (n, (B n).getD (.val c))
  | (n, none) => (n, .ptr n)

def right (B : String → Option (Obj K)) (W : Track K) : List (String × Obj K) := W.map (entry B)

/-- The names, and whether they are variables of both. -/
def shape (W : Track K) : List (String × Bool) := W.map fun p => (p.1, p.2.isSome)

/-- Change a variable of both. -/
def putLeft (n : String) (c : Cell K) : Track K → Track K
  | [] => []
  | (k, some d) :: W => if k = n then (n, some c) :: W else (k, some d) :: putLeft n c W
  | (k, none) :: W => (k, none) :: putLeft n c W

theorem left_append : ∀ (W W' : Track K), left (W ++ W') = left W ++ left W'
  | [], _ => rfl
  | (n, some c) :: W, W' => by rw [List.cons_append, left, left, left_append W W']; rfl
  | (n, none) :: W, W' => by rw [List.cons_append, left, left, left_append W W']

theorem left_putLeft (n : String) (c : Cell K) : ∀ W : Track K, left (putLeft n c W) = put n c (left W)
  | [] => rfl
  | (k, some d) :: W => by
    unfold putLeft
    rw [left, put]
    by_cases h : k = n
    · rw [if_pos h, if_pos h]; rfl
    · rw [if_neg h, if_neg h, left, left_putLeft n c W]
  | (k, none) :: W => by rw [putLeft, left, left, left_putLeft n c W]

theorem shape_putLeft (n : String) (c : Cell K) : ∀ W : Track K, shape (putLeft n c W) = shape W
  | [] => rfl
  | (k, some d) :: W => by
    unfold putLeft
    by_cases h : k = n
    · rw [if_pos h]; subst h; rfl
    · rw [if_neg h]
      show _ :: shape _ = _ :: shape _
      rw [shape_putLeft n c W]
  | (k, none) :: W => by
    show _ :: shape _ = _ :: shape _
    rw [shape_putLeft n c W]

/-- Every variable that is not of both is a name of an object of the caller. -/
def Guarded (B : String → Option (Obj K)) (W : Track K) : Prop := ∀ p ∈ W, p.2 = none → (B p.1).isSome = true

theorem Guarded.tail {B : String → Option (Obj K)} {p : String × Option (Cell K)} {W : Track K} (h : Guarded B (p :: W)) : Guarded B W :=
  fun q hq => h q (List.mem_cons_of_mem _ hq)

theorem mem_putLeft {n : String} {c : Cell K} : ∀ {W : Track K} {p}, p ∈ putLeft n c W → p ∈ W ∨ p = (n, some c) ∧ n ∈ W.map (·.1)
  | [], p, h => by cases h
  | (k, some d) :: W, p, h => by
    unfold putLeft at h
    by_cases e : k = n
    · rw [if_pos e] at h
      rcases List.mem_cons.1 h with rfl | h
      · exact .inr ⟨rfl, by simp [e]⟩
      · exact .inl (List.mem_cons_of_mem _ h)
    · rw [if_neg e] at h
      rcases List.mem_cons.1 h with rfl | h
      · exact .inl List.mem_cons_self
      · rcases mem_putLeft h with h | h
        · exact .inl (List.mem_cons_of_mem _ h)
        · exact .inr ⟨h.1, List.mem_cons_of_mem _ h.2⟩
  | (k, none) :: W, p, h => by
    rcases List.mem_cons.1 h with rfl | h
    · exact .inl List.mem_cons_self
    · rcases mem_putLeft h with h | h
      · exact .inl (List.mem_cons_of_mem _ h)
      · exact .inr ⟨h.1, List.mem_cons_of_mem _ h.2⟩

theorem Guarded.putLeft {B : String → Option (Obj K)} {W : Track K} (h : Guarded B W) (n : String) (c : Cell K) : Guarded B (putLeft n c W) := by
  intro p hp hn
  rcases mem_putLeft hp with hp | hp
  · exact h p hp hn
  · rw [hp.1] at hn; cases hn

/-- The objects of other names change with the cells. -/
theorem right_putLeft {B : String → Option (Obj K)} {n : String} (hb : B n = none) (c : Cell K) : ∀ {W : Track K}, Guarded B W →
    right B (putLeft n c W) = put n (.val c) (right B W)
  | [], _ => rfl
  | (k, some d) :: W, h => by
    have e1 : right B ((k, some d) :: W) = (k, (B k).getD (.val d)) :: right B W := rfl
    unfold Text.putLeft
    rw [e1, put]
    by_cases e : k = n
    · rw [if_pos e, if_pos e]
      show (n, (B n).getD (.val c)) :: _ = _
      rw [hb]; rfl
    · rw [if_neg e, if_neg e, ← right_putLeft hb c h.tail]; rfl
  | (k, none) :: W, h => by
    have hk : k ≠ n := by
      rintro rfl
      have := h (k, none) List.mem_cons_self rfl
      simp [hb] at this
    have e1 : right B ((k, none) :: W) = (k, .ptr k) :: right B W := rfl
    rw [e1, put, if_neg hk, ← right_putLeft hb c h.tail]; rfl

/-- Names of objects of the caller stand for the same objects. -/
theorem right_putLeft_some {B : String → Option (Obj K)} {n : String} {o : Obj K} (hb : B n = some o) (c : Cell K) : ∀ W : Track K,
    right B (putLeft n c W) = right B W
  | [] => rfl
  | (k, some d) :: W => by
    unfold Text.putLeft
    by_cases e : k = n
    · rw [if_pos e]
      subst e
      show (k, (B k).getD (.val c)) :: right B W = (k, (B k).getD (.val d)) :: right B W
      rw [hb]; rfl
    · rw [if_neg e]
      show _ :: right B _ = _ :: right B _
      rw [right_putLeft_some hb c W]
  | (k, none) :: W => by
    show _ :: right B _ = _ :: right B _
    rw [right_putLeft_some hb c W]

theorem find_right {B : String → Option (Obj K)} {n : String} (hb : B n = none) : ∀ {W : Track K}, Guarded B W → find n (right B W) = (find n (left W)).map .val
  | [], _ => rfl
  | (k, some d) :: W, h => by
    have e1 : right B ((k, some d) :: W) = (k, (B k).getD (.val d)) :: right B W := rfl
    rw [e1, left, find, find]
    by_cases e : k = n
    · simp only [e, if_true, hb, Option.map_some]; rfl
    · simp only [e, if_false]; exact find_right hb h.tail
  | (k, none) :: W, h => by
    have hk : k ≠ n := by
      rintro rfl
      have := h (k, none) List.mem_cons_self rfl
      simp [hb] at this
    have e1 : right B ((k, none) :: W) = (k, .ptr k) :: right B W := rfl
    rw [e1, left, find]
    simp only [hk, if_false]
    exact find_right hb h.tail

theorem find_right_some {B : String → Option (Obj K)} {n : String} {o : Obj K} (hb : B n = some o) : ∀ W : Track K,
    find n (right B W) = (find n (shape W)).map fun b => if b then o else .ptr n
  | [] => rfl
  | (k, some d) :: W => by
    have e1 : right B ((k, some d) :: W) = (k, (B k).getD (.val d)) :: right B W := rfl
    have e2 : shape ((k, some d) :: W) = (k, true) :: shape W := rfl
    rw [e1, e2, find, find]
    by_cases e : k = n
    · subst e; simp [hb]
    · simp only [e, if_false]; exact find_right_some hb W
  | (k, none) :: W => by
    have e1 : right B ((k, none) :: W) = (k, .ptr k) :: right B W := rfl
    have e2 : shape ((k, none) :: W) = (k, false) :: shape W := rfl
    rw [e1, e2, find, find]
    by_cases e : k = n
    · subst e; simp
    · simp only [e, if_false]; exact find_right_some hb W

theorem names_left {W : Track K} (h : ∀ p ∈ W, p.2 ≠ none) : names (left W) = W.map (·.1) := by
  induction W with
  | nil => rfl
  | cons p W ih =>
    obtain ⟨n, _ | c⟩ := p
    · exact absurd rfl (h _ List.mem_cons_self)
    · rw [left]
      show n :: names (left W) = n :: _
      rw [ih fun q hq => h q (List.mem_cons_of_mem _ hq)]

theorem names_right (B : String → Option (Obj K)) (W : Track K) : names (right B W) = W.map (·.1) := by
  unfold names right
  rw [List.map_map]
  apply List.map_congr_left
  rintro ⟨n, _ | c⟩ _ <;> rfl

theorem names_left_sub {W : Track K} {n : String} (h : n ∈ names (left W)) : n ∈ W.map (·.1) := by
  induction W with
  | nil => exact h
  | cons p W ih =>
    obtain ⟨k, _ | c⟩ := p
    · exact List.mem_cons_of_mem _ (ih h)
    · rcases List.mem_cons.1 h with rfl | h
      · exact List.mem_cons_self
      · exact List.mem_cons_of_mem _ (ih h)

theorem length_left_shape : ∀ {W W' : Track K}, shape W = shape W' → (left W).length = (left W').length
  | [], [], _ => rfl
  | [], p :: W', h => by cases h
  | p :: W, [], h => by cases h
  | (n, o) :: W, (n', o') :: W', h => by
    have h1 := (List.cons.inj h).2
    have h2 := (Prod.mk.inj (List.cons.inj h).1).2
    have ih := length_left_shape h1
    cases o with
    | none =>
      cases o' with
      | none => exact ih
      | some c' => cases h2
    | some c =>
      cases o' with
      | none => cases h2
      | some c' =>
        show (left W).length + 1 = (left W').length + 1
        rw [ih]

/-- The variables after a block are the ones of the suffix. -/
theorem drop_split {W W' : Track K} {new : List (String × Bool)} (h : shape W' = new ++ shape W) :
    ∃ a W1, W' = a ++ W1 ∧ shape a = new ∧ shape W1 = shape W ∧
      (left W').drop ((left W').length - (left W).length) = left W1 ∧ ∀ B, (right B W').drop ((right B W').length - (right B W).length) = right B W1 := by
  unfold shape at h
  obtain ⟨a, W1, e, h1, h2⟩ := List.map_eq_append_iff.1 h
  subst e
  refine ⟨a, W1, rfl, h1, h2, ?_, ?_⟩
  · rw [left_append, List.length_append, ← length_left_shape h2, Nat.add_sub_cancel, List.drop_left]
  · intro B
    have hl : W1.length = W.length := by simpa using congrArg List.length h2
    unfold right
    rw [List.map_append, List.length_append, List.length_map, List.length_map, List.length_map, hl, Nat.add_sub_cancel]
    have : a.length = (a.map (entry B)).length := by simp
    rw [this, List.drop_left]

end Wf.Gen.Text
