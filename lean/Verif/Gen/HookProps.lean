import Verif.Gen.HookModel
import Mathlib.Algebra.BigOperators.Group.Finset.Basic
import Mathlib.Algebra.Order.BigOperators.Group.Finset
import Mathlib.Data.Fintype.Basic

/-!
# C76: custom code generators
-/

namespace Wf.Gen.Hook

variable {D : Type}

instance : Fintype Kind := Fintype.ofList
  [.add, .assignTemporary, .assignOutputMatrix, .assignOutputScalar, .assignOutputStruct, .booleanLiteral, .branch, .callExternalFunction,
   .callStdFunction, .cast, .comment, .compare, .constructCustomType, .constructMatrix, .declaration, .divide, .floatLiteral, .getArgument,
   .getField, .getMatrixElement, .integerLiteral, .multiply, .negate, .optionalOutputBranch, .parenthetical, .specialConstant, .returnObject,
   .ternary, .variableRef, .functionDefinition, .functionSignature, .customType, .matrixType, .scalarType] (by intro k; cases k <;> decide)

/-! ## Specification -/

/-- A proper part of an element. -/
inductive Below : El D → El D → Prop
  | child {k d cs c} (h : c ∈ cs) : Below c (.node k d cs)
  | deeper {k d cs c e} (h : c ∈ cs) (h' : Below e c) : Below e (.node k d cs)

/-- The three ways to ask for text. -/
inductive Way
  | operator | format | superFormat

/-- Everything that the script asks for is allowed. -/
def Script.Asks (ok : Way → El D → Prop) : Script D → Prop
  | .ret _ => True
  | .operator e k => ok .operator e ∧ ∀ r, (k r).Asks ok
  | .format e k => ok .format e ∧ ∀ r, (k r).Asks ok
  | .superFormat e k => ok .superFormat e ∧ ∀ r, (k r).Asks ok

/-- The methods of the wrapped class ask for parts of the element; those of the Python class ask for parts, and for `super_format` of the
element. -/
structure Structural (g : Generator D) : Prop where
  base : ∀ e, (g.base e).Asks fun _ e' => Below e' e
  override : ∀ e f, g.override e.kind = some f → (f e).Asks fun w e' => Below e' e ∨ (w = .superFormat ∧ e' = e)

/-- The text a script gives, if `all` are the texts of elements and `plain` those that the wrapped class gives to them. -/
def Script.text (all plain : El D → Res String) : Script D → Res String
  | .ret r => r
  | .operator e k => (k (all e)).text all plain
  | .format e k => (k (all e)).text all plain
  | .superFormat e k => (k (plain e)).text all plain

/-- The texts of elements: every element is formatted by the method of the Python class for its kind if there is one, otherwise by the
wrapped class. -/
structure Texts (g : Generator D) (all plain : El D → Res String) : Prop where
  replaced : ∀ e f, g.override e.kind = some f → all e = (f e).text all plain
  kept : ∀ e, g.override e.kind = none → all e = plain e
  plain : ∀ e, plain e = (g.base e).text all plain

mutual
/-- The largest number of elements of a kind on a path downwards from an element. -/
def El.nesting (k : Kind) : El D → Nat
  | .node k' _ cs => (if k' = k then 1 else 0) + nestings k cs
def nestings (k : Kind) : List (El D) → Nat
  | [] => 0
  | c :: cs => max (c.nesting k) (nestings k cs)
end

/-- A generator that has not been used. -/
def zeros : Counters := fun _ => 0

/-! ## Lemmas -/

theorem run_mono (g : Generator D) {n m : Nat} (h : n ≤ m) : ∀ {c : Counters} {s : Script D} {x}, run g n c s = some x → run g m c s = some x := by
  induction n generalizing m with
  | zero => intro c s x hx; cases hx
  | succ n ih =>
    obtain ⟨m, rfl⟩ : ∃ m', m = m' + 1 := ⟨m - 1, by omega⟩
    have hm : n ≤ m := by omega
    intro c s x hx
    cases s with
    | ret r => exact hx
    | operator e k =>
      unfold run at hx ⊢
      dsimp only at hx ⊢
      cases h1 : run g n c (g.script e) with
      | none => rw [h1] at hx; cases hx
      | some y => rw [h1] at hx; rw [ih hm h1]; exact ih hm hx
    | format e k =>
      unfold run at hx ⊢
      dsimp only at hx ⊢
      by_cases hc : c e.kind + 1 = 32
      · rw [if_pos hc] at hx ⊢; exact ih hm hx
      · rw [if_neg hc] at hx ⊢
        cases h1 : run g n (bump c e.kind) (g.script e) with
        | none => rw [h1] at hx; cases hx
        | some y => rw [h1] at hx; rw [ih hm h1]; exact ih hm hx
    | superFormat e k =>
      unfold run at hx ⊢
      dsimp only at hx ⊢
      cases h1 : run g n c (g.base e) with
      | none => rw [h1] at hx; cases hx
      | some y => rw [h1] at hx; rw [ih hm h1]; exact ih hm hx

theorem release_bump (c : Counters) (k : Kind) : release (bump c k) k = c := by
  funext j
  unfold release bump
  by_cases h : j = k <;> simp [h]

theorem run_restores (g : Generator D) (n : Nat) : ∀ (c : Counters) (s : Script D) x, run g n c s = some x → x.2 = c := by
  induction n with
  | zero => intro c s x hx; cases hx
  | succ n ih =>
    intro c s x hx
    cases s with
    | ret r => cases hx; rfl
    | operator e k =>
      unfold run at hx
      dsimp only at hx
      cases h1 : run g n c (g.script e) with
      | none => rw [h1] at hx; cases hx
      | some y => rw [h1] at hx; rw [ih _ _ _ hx, ih _ _ _ h1]
    | format e k =>
      unfold run at hx
      dsimp only at hx
      by_cases hc : c e.kind + 1 = 32
      · rw [if_pos hc] at hx; exact ih _ _ _ hx
      · rw [if_neg hc] at hx
        cases h1 : run g n (bump c e.kind) (g.script e) with
        | none => rw [h1] at hx; cases hx
        | some y => rw [h1] at hx; rw [ih _ _ _ hx, ih _ _ _ h1, release_bump]
    | superFormat e k =>
      unfold run at hx
      dsimp only at hx
      cases h1 : run g n c (g.base e) with
      | none => rw [h1] at hx; cases hx
      | some y => rw [h1] at hx; rw [ih _ _ _ hx, ih _ _ _ h1]

theorem run_same {g : Generator D} {n : Nat} {c : Counters} {s : Script D} {x} (h : run g n c s = some x) : ∃ r, run g n c s = some (r, c) := by
  obtain ⟨r, c'⟩ := x
  have hc' : c' = c := run_restores g n c s _ h
  exact ⟨r, by rw [h, hc']⟩

/-- One request of a script. -/
theorem run_operator {g : Generator D} {c : Counters} {e : El D} {k : Res String → Script D} {r : Res String} {x}
    (h1 : ∃ n, run g n c (g.script e) = some (r, c)) (h2 : ∃ n, run g n c (k r) = some x) : ∃ n, run g n c (.operator e k) = some x := by
  obtain ⟨n, h1⟩ := h1
  obtain ⟨m, h2⟩ := h2
  refine ⟨max n m + 1, ?_⟩
  unfold run
  dsimp only
  rw [run_mono g (Nat.le_max_left n m) h1]
  exact run_mono g (Nat.le_max_right n m) h2

theorem run_super {g : Generator D} {c : Counters} {e : El D} {k : Res String → Script D} {r : Res String} {x}
    (h1 : ∃ n, run g n c (g.base e) = some (r, c)) (h2 : ∃ n, run g n c (k r) = some x) : ∃ n, run g n c (.superFormat e k) = some x := by
  obtain ⟨n, h1⟩ := h1
  obtain ⟨m, h2⟩ := h2
  refine ⟨max n m + 1, ?_⟩
  unfold run
  dsimp only
  rw [run_mono g (Nat.le_max_left n m) h1]
  exact run_mono g (Nat.le_max_right n m) h2

theorem run_format {g : Generator D} {c : Counters} {e : El D} {k : Res String → Script D} {r : Res String} {x} (hc : c e.kind + 1 ≠ 32)
    (h1 : ∃ n, run g n (bump c e.kind) (g.script e) = some (r, bump c e.kind)) (h2 : ∃ n, run g n c (k r) = some x) :
    ∃ n, run g n c (.format e k) = some x := by
  obtain ⟨n, h1⟩ := h1
  obtain ⟨m, h2⟩ := h2
  refine ⟨max n m + 1, ?_⟩
  unfold run
  dsimp only
  rw [if_neg hc, run_mono g (Nat.le_max_left n m) h1]
  dsimp only
  rw [release_bump]
  exact run_mono g (Nat.le_max_right n m) h2

theorem Below.size {e' e : El D} (h : Below e' e) : sizeOf e' < sizeOf e := by
  induction h with
  | child h =>
    have := List.sizeOf_lt_of_mem h
    simp; omega
  | deeper h _ ih =>
    have := List.sizeOf_lt_of_mem h
    simp; omega

theorem nesting_le {k : Kind} {c : El D} {cs : List (El D)} (h : c ∈ cs) : c.nesting k ≤ nestings k cs := by
  induction cs with
  | nil => cases h
  | cons c' cs ih =>
    unfold nestings
    rcases List.mem_cons.1 h with rfl | h
    · exact Nat.le_max_left _ _
    · exact Nat.le_trans (ih h) (Nat.le_max_right _ _)

theorem nesting_eq (k : Kind) (e : El D) : e.nesting k = (if e.kind = k then 1 else 0) + nestings k e.children := by
  cases e with
  | node k' d cs => rw [El.nesting]; rfl

theorem Below.nesting {e' e : El D} (h : Below e' e) (k : Kind) : e'.nesting k ≤ nestings k e.children := by
  induction h with
  | child h => exact nesting_le h
  | deeper h h' ih =>
    refine Nat.le_trans ih (Nat.le_trans ?_ (nesting_le h))
    rw [nesting_eq k]
    omega

theorem Texts.script {g : Generator D} {all plain : El D → Res String} (ht : Texts g all plain) (e : El D) : all e = (g.script e).text all plain := by
  unfold Generator.script
  cases h : g.override e.kind with
  | none => rw [ht.kept e h]; exact ht.plain e
  | some f => exact ht.replaced e f h

/-- A script that only asks for parts for which the texts are known. -/
theorem run_text {g : Generator D} {all plain : El D → Res String} {ok : Way → El D → Prop} (c : Counters)
    (h1 : ∀ e, ok .operator e → ∃ n, run g n c (g.script e) = some (all e, c))
    (h2 : ∀ e, ok .format e → c e.kind + 1 ≠ 32 ∧ ∃ n, run g n (bump c e.kind) (g.script e) = some (all e, bump c e.kind))
    (h3 : ∀ e, ok .superFormat e → ∃ n, run g n c (g.base e) = some (plain e, c)) :
    (s : Script D) → s.Asks ok → ∃ n, run g n c s = some (s.text all plain, c)
  | .ret r, _ => ⟨1, rfl⟩
  | .operator e k, ha => run_operator (h1 e ha.1) (run_text c h1 h2 h3 (k (all e)) (ha.2 _))
  | .format e k, ha => run_format (h2 e ha.1).1 (h2 e ha.1).2 (run_text c h1 h2 h3 (k (all e)) (ha.2 _))
  | .superFormat e k, ha => run_super (h3 e ha.1) (run_text c h1 h2 h3 (k (plain e)) (ha.2 _))

theorem run_element {g : Generator D} (hg : Structural g) {all plain : El D → Res String} (ht : Texts g all plain) :
    ∀ (n : Nat) (e : El D), sizeOf e ≤ n → ∀ c : Counters, (∀ k, c k + nestings k e.children ≤ 31) →
      (∃ m, run g m c (g.base e) = some (plain e, c)) ∧ ∃ m, run g m c (g.script e) = some (all e, c) := by
  intro n
  induction n with
  | zero => intro e he; cases e; simp at he
  | succ n ih =>
    intro e he c hc
    have inner : ∀ e', Below e' e → ∀ k, c k + e'.nesting k ≤ 31 := fun e' h k => by
      have := h.nesting k
      have := hc k
      omega
    have below : ∀ e', Below e' e → (∃ m, run g m c (g.base e') = some (plain e', c)) ∧ ∃ m, run g m c (g.script e') = some (all e', c) := fun e' h => by
      refine ih e' (by have := h.size; omega) c fun k => ?_
      have h1 := inner e' h k
      rw [nesting_eq] at h1
      omega
    have guarded : ∀ e', Below e' e → c e'.kind + 1 ≠ 32 ∧ ∃ m, run g m (bump c e'.kind) (g.script e') = some (all e', bump c e'.kind) := fun e' h => by
      refine ⟨?_, (ih e' (by have := h.size; omega) (bump c e'.kind) fun k => ?_).2⟩
      · have h1 := inner e' h e'.kind
        rw [nesting_eq, if_pos rfl] at h1
        omega
      · have h1 := inner e' h k
        rw [nesting_eq] at h1
        unfold bump
        by_cases hk : k = e'.kind
        · rw [if_pos hk.symm] at h1; rw [if_pos hk]; omega
        · rw [if_neg hk]; omega
    have hbase : ∃ m, run g m c (g.base e) = some (plain e, c) := by
      rw [ht.plain e]
      exact run_text c (fun e' h => (below e' h).2) guarded (fun e' h => (below e' h).1) (g.base e) (hg.base e)
    refine ⟨hbase, ?_⟩
    rw [ht.script e]
    unfold Generator.script
    cases ho : g.override e.kind with
    | none =>
      dsimp only
      exact run_text c (fun e' h => (below e' h).2) guarded (fun e' h => (below e' h).1) (g.base e) (hg.base e)
    | some f =>
      dsimp only
      refine run_text c (fun e' h => ?_) (fun e' h => ?_) (fun e' h => ?_) (f e) (hg.override e f ho)
      · rcases h with h | ⟨h, _⟩
        · exact (below e' h).2
        · cases h
      · rcases h with h | ⟨h, _⟩
        · exact guarded e' h
        · cases h
      · rcases h with h | ⟨_, rfl⟩
        · exact (below e' h).1
        · exact hbase

/-! ## Termination -/

/-- How often `format` can still be nested. -/
def remaining (c : Counters) : Nat := ∑ k : Kind, (31 - c k)

theorem remaining_bump {c : Counters} {k : Kind} (h : c k < 31) : remaining (bump c k) < remaining c := by
  unfold remaining
  refine Finset.sum_lt_sum (fun j _ => ?_) ⟨k, Finset.mem_univ k, ?_⟩
  · unfold bump; by_cases hj : j = k <;> simp [hj]; omega
  · unfold bump; simp; omega

theorem run_ends {g : Generator D} {ok : Way → El D → Prop} (c : Counters)
    (h1 : ∀ e, ok .operator e → ∃ n x, run g n c (g.script e) = some x)
    (h2 : ∀ e, ok .format e → c e.kind + 1 ≠ 32 → ∃ n x, run g n (bump c e.kind) (g.script e) = some x)
    (h3 : ∀ e, ok .superFormat e → ∃ n x, run g n c (g.base e) = some x) :
    (s : Script D) → s.Asks ok → ∃ n x, run g n c s = some x
  | .ret r, _ => ⟨1, _, rfl⟩
  | .operator e k, ha => by
    obtain ⟨n, x, hx⟩ := h1 e ha.1
    obtain ⟨r, hx⟩ := run_same hx
    obtain ⟨m, y, hy⟩ := run_ends c h1 h2 h3 (k r) (ha.2 _)
    obtain ⟨l, hl⟩ := run_operator ⟨n, hx⟩ ⟨m, hy⟩
    exact ⟨l, y, hl⟩
  | .format e k, ha => by
    by_cases hc : c e.kind + 1 = 32
    · obtain ⟨m, y, hy⟩ := run_ends c h1 h2 h3 (k (.error .assertion)) (ha.2 _)
      refine ⟨m + 1, y, ?_⟩
      unfold run
      dsimp only
      rw [if_pos hc]
      exact hy
    · obtain ⟨n, x, hx⟩ := h2 e ha.1 hc
      obtain ⟨r, hx⟩ := run_same hx
      obtain ⟨m, y, hy⟩ := run_ends c h1 h2 h3 (k r) (ha.2 _)
      obtain ⟨l, hl⟩ := run_format hc ⟨n, hx⟩ ⟨m, hy⟩
      exact ⟨l, y, hl⟩
  | .superFormat e k, ha => by
    obtain ⟨n, x, hx⟩ := h3 e ha.1
    obtain ⟨r, hx⟩ := run_same hx
    obtain ⟨m, y, hy⟩ := run_ends c h1 h2 h3 (k r) (ha.2 _)
    obtain ⟨l, hl⟩ := run_super ⟨n, hx⟩ ⟨m, hy⟩
    exact ⟨l, y, hl⟩

theorem run_element_ends {g : Generator D} (hb : ∀ e, (g.base e).Asks fun w e' => w = .format ∨ Below e' e)
    (ho : ∀ e f, g.override e.kind = some f → (f e).Asks fun w e' => w = .format ∨ Below e' e ∨ (w = .superFormat ∧ e' = e)) :
    ∀ (r n : Nat) (e : El D) (c : Counters), remaining c ≤ r → sizeOf e ≤ n → (∀ k, c k ≤ 31) →
      (∃ m x, run g m c (g.base e) = some x) ∧ ∃ m x, run g m c (g.script e) = some x := by
  intro r
  induction r with
  | zero =>
    intro n
    induction n with
    | zero => intro e c _ he; cases e; simp at he
    | succ n ih =>
      intro e c hr he hc
      have stuck : ∀ e' : El D, c e'.kind + 1 ≠ 32 → False := fun e' h => by
        have := remaining_bump (c := c) (k := e'.kind) (by have := hc e'.kind; omega)
        omega
      have below : ∀ e', Below e' e → (∃ m x, run g m c (g.base e') = some x) ∧ ∃ m x, run g m c (g.script e') = some x := fun e' h =>
        ih e' c hr (by have := h.size; omega) hc
      have hbase : ∃ m x, run g m c (g.base e) = some x := by
        refine run_ends c (fun e' h => ?_) (fun e' _ h => (stuck e' h).elim) (fun e' h => ?_) (g.base e) (hb e)
        · rcases h with h | h
          · cases h
          · exact (below e' h).2
        · rcases h with h | h
          · cases h
          · exact (below e' h).1
      refine ⟨hbase, ?_⟩
      unfold Generator.script
      cases hv : g.override e.kind with
      | none => exact hbase
      | some f =>
        dsimp only
        refine run_ends c (fun e' h => ?_) (fun e' _ h => (stuck e' h).elim) (fun e' h => ?_) (f e) (ho e f hv)
        · rcases h with h | h | ⟨h, _⟩
          · cases h
          · exact (below e' h).2
          · cases h
        · rcases h with h | h | ⟨_, rfl⟩
          · cases h
          · exact (below e' h).1
          · exact hbase
  | succ r ihr =>
    intro n
    induction n with
    | zero => intro e c _ he; cases e; simp at he
    | succ n ih =>
      intro e c hr he hc
      have deeper : ∀ e' : El D, c e'.kind + 1 ≠ 32 → ∃ m x, run g m (bump c e'.kind) (g.script e') = some x := fun e' h => by
        have h1 : c e'.kind < 31 := by have := hc e'.kind; omega
        refine (ihr (sizeOf e') e' (bump c e'.kind) (by have := remaining_bump h1; omega) (Nat.le_refl _) fun k => ?_).2
        unfold bump
        by_cases hk : k = e'.kind
        · rw [if_pos hk, hk]; omega
        · rw [if_neg hk]; exact hc k
      have below : ∀ e', Below e' e → (∃ m x, run g m c (g.base e') = some x) ∧ ∃ m x, run g m c (g.script e') = some x := fun e' h =>
        ih e' c hr (by have := h.size; omega) hc
      have hbase : ∃ m x, run g m c (g.base e) = some x := by
        refine run_ends c (fun e' h => ?_) (fun e' _ h => deeper e' h) (fun e' h => ?_) (g.base e) (hb e)
        · rcases h with h | h
          · cases h
          · exact (below e' h).2
        · rcases h with h | h
          · cases h
          · exact (below e' h).1
      refine ⟨hbase, ?_⟩
      unfold Generator.script
      cases hv : g.override e.kind with
      | none => exact hbase
      | some f =>
        dsimp only
        refine run_ends c (fun e' h => ?_) (fun e' _ h => deeper e' h) (fun e' h => ?_) (f e) (ho e f hv)
        · rcases h with h | h | ⟨h, _⟩
          · cases h
          · exact (below e' h).2
          · cases h
        · rcases h with h | h | ⟨_, rfl⟩
          · cases h
          · exact (below e' h).1
          · exact hbase

/-! ## Methods that only call `super_format` -/

/-- The generator without methods in Python. -/
def Generator.wrapped (g : Generator D) : Generator D := ⟨g.base, fun _ => none⟩

theorem wrapped_script (g : Generator D) (e : El D) : g.wrapped.script e = g.base e := rfl

theorem run_of_wrapped {g : Generator D} (ho : ∀ k f, g.override k = some f → ∀ e, f e = .superFormat e .ret) (n : Nat) :
    ∀ (c : Counters) (s : Script D) x, run g.wrapped n c s = some x → ∃ m, run g m c s = some x := by
  have hs : ∀ (c : Counters) (e : El D) r, (∃ m, run g m c (g.base e) = some (r, c)) → ∃ m, run g m c (g.script e) = some (r, c) := fun c e r h => by
    unfold Generator.script
    cases hv : g.override e.kind with
    | none => exact h
    | some f =>
      dsimp only
      rw [ho _ f hv e]
      exact run_super h ⟨1, rfl⟩
  induction n with
  | zero => intro c s x hx; cases hx
  | succ n ih =>
    intro c s x hx
    cases s with
    | ret r => exact ⟨1, hx⟩
    | operator e k =>
      unfold run at hx
      dsimp only at hx
      cases h1 : run g.wrapped n c (g.wrapped.script e) with
      | none => rw [h1] at hx; cases hx
      | some y =>
        rw [h1] at hx
        obtain ⟨r, c'⟩ := y
        have hc' : c' = _ := run_restores _ _ _ _ _ h1
        rw [hc'] at h1 hx
        exact run_operator (hs _ e r (ih _ _ _ h1)) (ih _ _ _ hx)
    | format e k =>
      unfold run at hx
      dsimp only at hx
      by_cases hc : c e.kind + 1 = 32
      · rw [if_pos hc] at hx
        obtain ⟨m, hm⟩ := ih _ _ _ hx
        refine ⟨m + 1, ?_⟩
        unfold run
        dsimp only
        rw [if_pos hc]
        exact hm
      · rw [if_neg hc] at hx
        cases h1 : run g.wrapped n (bump c e.kind) (g.wrapped.script e) with
        | none => rw [h1] at hx; cases hx
        | some y =>
          rw [h1] at hx
          obtain ⟨r, c'⟩ := y
          have hc' : c' = _ := run_restores _ _ _ _ _ h1
          rw [hc'] at h1 hx
          dsimp only at hx
          rw [release_bump] at hx
          exact run_format hc (hs _ e r (ih _ _ _ h1)) (ih _ _ _ hx)
    | superFormat e k =>
      unfold run at hx
      dsimp only at hx
      cases h1 : run g.wrapped n c (g.wrapped.base e) with
      | none => rw [h1] at hx; cases hx
      | some y =>
        rw [h1] at hx
        obtain ⟨r, c'⟩ := y
        have hc' : c' = _ := run_restores _ _ _ _ _ h1
        rw [hc'] at h1 hx
        exact run_super (ih _ _ _ h1) (ih _ _ _ hx)

theorem wrapped_of_run {g : Generator D} (ho : ∀ k f, g.override k = some f → ∀ e, f e = .superFormat e .ret) (n : Nat) :
    ∀ (c : Counters) (s : Script D) x, run g n c s = some x → ∃ m, run g.wrapped m c s = some x := by
  have hs : ∀ (n : Nat) (c : Counters) (e : El D) x, run g n c (g.script e) = some x → run g n c (g.base e) = some x := fun n c e x h => by
    unfold Generator.script at h
    cases hv : g.override e.kind with
    | none => rw [hv] at h; exact h
    | some f =>
      rw [hv] at h
      dsimp only at h
      rw [ho _ f hv e] at h
      cases n with
      | zero => cases h
      | succ n =>
        unfold run at h
        dsimp only at h
        cases h1 : run g n c (g.base e) with
        | none => rw [h1] at h; cases h
        | some y =>
          rw [h1] at h
          cases n with
          | zero => cases h
          | succ n =>
            cases h
            exact run_mono g (Nat.le_succ _) h1
  induction n with
  | zero => intro c s x hx; cases hx
  | succ n ih =>
    intro c s x hx
    cases s with
    | ret r => exact ⟨1, hx⟩
    | operator e k =>
      unfold run at hx
      dsimp only at hx
      cases h1 : run g n c (g.script e) with
      | none => rw [h1] at hx; cases hx
      | some y =>
        rw [h1] at hx
        obtain ⟨r, c'⟩ := y
        have hc' : c' = _ := run_restores _ _ _ _ _ h1
        rw [hc'] at h1 hx
        exact run_operator (ih _ _ _ (hs _ _ _ _ h1)) (ih _ _ _ hx)
    | format e k =>
      unfold run at hx
      dsimp only at hx
      by_cases hc : c e.kind + 1 = 32
      · rw [if_pos hc] at hx
        obtain ⟨m, hm⟩ := ih _ _ _ hx
        refine ⟨m + 1, ?_⟩
        unfold run
        dsimp only
        rw [if_pos hc]
        exact hm
      · rw [if_neg hc] at hx
        cases h1 : run g n (bump c e.kind) (g.script e) with
        | none => rw [h1] at hx; cases hx
        | some y =>
          rw [h1] at hx
          obtain ⟨r, c'⟩ := y
          have hc' : c' = _ := run_restores _ _ _ _ _ h1
          rw [hc'] at h1 hx
          dsimp only at hx
          rw [release_bump] at hx
          exact run_format hc (ih _ _ _ (hs _ _ _ _ h1)) (ih _ _ _ hx)
    | superFormat e k =>
      unfold run at hx
      dsimp only at hx
      cases h1 : run g n c (g.base e) with
      | none => rw [h1] at hx; cases hx
      | some y =>
        rw [h1] at hx
        obtain ⟨r, c'⟩ := y
        have hc' : c' = _ := run_restores _ _ _ _ _ h1
        rw [hc'] at h1 hx
        exact run_super (ih _ _ _ h1) (ih _ _ _ hx)

/-! ## C76 -/

/-- The text of an element is that of the methods: every part is formatted by the method of the Python class for its kind if there is one, and
by the wrapped class otherwise. Partial: parts of one kind are nested at most 31 deep (see `C76_depth_refuted`), and the methods ask for
parts of the element or for `super_format` of it. -/
theorem C76_text_partial (g : Generator D) (hg : Structural g) (all plain : El D → Res String) (ht : Texts g all plain) (e : El D)
    (hd : ∀ k, nestings k e.children ≤ 31) : ∃ n, generate g n zeros e = some (all e, zeros) :=
  run_operator (run_element hg ht (sizeOf e) e (Nat.le_refl _) zeros fun k => by have := hd k; unfold zeros; omega).2 ⟨1, rfl⟩

/-- Whatever the methods do, also if an exception is raised or caught, the counters are back at their values at the end: a generator can be
used again after a failure. -/
theorem C76_reusable (g : Generator D) (n : Nat) (c : Counters) (e : El D) (r : Res String) (c' : Counters) (h : generate g n c e = some (r, c')) : c' = c :=
  run_restores g n c _ _ h

/-- Formatting ends, with text or an exception, even if methods call `format` on the element itself or on others; the wrapped class asks for
parts, and `super_format` is called on the element or its parts. -/
theorem C76_ends (g : Generator D) (hb : ∀ e, (g.base e).Asks fun w e' => w = .format ∨ Below e' e)
    (ho : ∀ e f, g.override e.kind = some f → (f e).Asks fun w e' => w = .format ∨ Below e' e ∨ (w = .superFormat ∧ e' = e)) (e : El D) :
    ∃ n r, generate g n zeros e = some (r, zeros) := by
  obtain ⟨n, x, hx⟩ := (run_element_ends hb ho _ _ e zeros (Nat.le_refl _) (Nat.le_refl _) fun _ => Nat.zero_le _).2
  obtain ⟨r, hx⟩ := run_same hx
  obtain ⟨m, hm⟩ := run_operator ⟨n, hx⟩ (k := .ret) ⟨1, rfl⟩
  exact ⟨m, _, hm⟩

/-- Methods that return `super_format` of their element change nothing. -/
theorem C76_super (g : Generator D) (ho : ∀ k f, g.override k = some f → ∀ e, f e = .superFormat e .ret) (c : Counters) (e : El D) (x : Res String × Counters) :
    (∃ n, generate g n c e = some x) ↔ ∃ n, generate ⟨g.base, fun _ => none⟩ n c e = some x :=
  ⟨fun ⟨n, h⟩ => wrapped_of_run ho n _ _ _ h, fun ⟨n, h⟩ => run_of_wrapped ho n _ _ _ h⟩

/-- The text does not depend on the number of steps. -/
theorem C76_deterministic (g : Generator D) (n m : Nat) (c : Counters) (e : El D) (x y : Res String × Counters) (hx : generate g n c e = some x)
    (hy : generate g m c e = some y) : x = y := by
  have h1 := run_mono g (Nat.le_max_left n m) hx
  have h2 := run_mono g (Nat.le_max_right n m) hy
  rw [h1] at h2
  exact Option.some.inj h2

theorem intercalate_foldl (sep : String) (ts : List String) : ∀ acc, String.intercalate sep (acc :: ts) = (ts.map fun t => sep ++ t).foldl (· ++ ·) acc := by
  induction ts with
  | nil => intro acc; simp
  | cons t ts ih =>
    intro acc
    rw [List.map_cons, List.foldl_cons, ← ih, String.intercalate_cons_cons, String.intercalate_cons_append, String.intercalate_cons_append,
      String.append_assoc]

/-- The text of several definitions is their texts with an empty line between them. -/
theorem C76_multiple (ts : List String) : generateMultiple (ts.map .ok) = .ok (String.intercalate "\n\n" ts) := by
  cases ts with
  | nil => rfl
  | cons t ts =>
    have h : ((ts.map .ok : List (Res String)).mapM fun r => r.map fun t => "\n\n" ++ t) = Except.ok (ts.map fun t => "\n\n" ++ t) := by
      induction ts with
      | nil => rfl
      | cons u us ih =>
        rw [List.map_cons, List.mapM_cons, ih]
        rfl
    show (do let rest ← (ts.map .ok : List (Res String)).mapM fun r => r.map fun t => "\n\n" ++ t; return rest.foldl (· ++ ·) t : Res String) = _
    rw [h]
    rw [intercalate_foldl]
    rfl

/-- Nested branches. -/
def nest : Nat → El Unit
  | 0 => .node .branch () []
  | n + 1 => .node .branch () [nest n]

/-- A generator written in Python, with one method: the text of a branch is that of the branch inside it. -/
def descend : Generator Unit where
  base := unimplemented
  override := fun k => if k = .branch then some fun e => match e with
    | .node _ _ [c] => .format c .ret
    | _ => .ret (.ok "x") else none

/-- The texts of the branches. -/
def descendText : El Unit → Res String
  | .node .branch _ [c] => descendText c
  | .node .branch _ _ => .ok "x"
  | _ => .error .type

theorem descend_structural : Structural descend where
  base := fun _ => trivial
  override := fun e f h => by
    unfold descend at h
    dsimp only at h
    by_cases hk : e.kind = .branch
    · rw [if_pos hk] at h
      cases h
      beta_reduce
      split
      · exact ⟨.inl (.child (by simp)), fun _ => trivial⟩
      · trivial
    · rw [if_neg hk] at h; cases h

theorem descend_texts : Texts descend descendText (fun _ => .error .type) where
  replaced := fun e f h => by
    unfold descend at h
    dsimp only at h
    by_cases hk : e.kind = .branch
    · rw [if_pos hk] at h
      cases h
      cases e with
      | node k d cs =>
        cases hk
        match cs with
        | [] => simp [descendText, Script.text]
        | [c] => simp [descendText, Script.text]
        | _ :: _ :: _ => simp [descendText, Script.text]
    · rw [if_neg hk] at h; cases h
  kept := fun e h => by
    unfold descend at h
    dsimp only at h
    by_cases hk : e.kind = .branch
    · rw [if_pos hk] at h; cases h
    · cases e with
      | node k d cs =>
        unfold descendText
        split
        next heq => cases heq; exact absurd rfl hk
        next heq => cases heq; exact absurd rfl hk
        · rfl
  plain := fun _ => rfl

theorem nest_text (n : Nat) : descendText (nest n) = .ok "x" := by
  induction n with
  | zero => simp [nest, descendText]
  | succ n ih => simp [nest, descendText, ih]

/-- The depth is limited although nothing recurses without end: branches nested 32 deep below a branch have a text, but the generator raises the
exception about methods that call themselves. With 31 it works. -/
theorem C76_depth_refuted : Structural descend ∧ Texts descend descendText (fun _ => .error .type) ∧ descendText (nest 32) = .ok "x" ∧
    (∃ n, generate descend n zeros (nest 32) = some (.error .assertion, zeros)) ∧ ∃ n, generate descend n zeros (nest 31) = some (.ok "x", zeros) := by
  refine ⟨descend_structural, descend_texts, nest_text 32, ?_, ?_⟩
  · obtain ⟨n, r, h⟩ := C76_ends descend (fun _ => trivial) (fun e f h => by
      have h1 := descend_structural.override e f h
      revert h1
      generalize f e = s
      intro h1
      induction s with
      | ret r => trivial
      | operator e' k ih => exact ⟨.inr h1.1, fun r => ih r (h1.2 r)⟩
      | format e' k ih => exact ⟨.inr h1.1, fun r => ih r (h1.2 r)⟩
      | superFormat e' k ih => exact ⟨.inr h1.1, fun r => ih r (h1.2 r)⟩) (nest 32)
    have h2 : ((generate descend 200 zeros (nest 32)).map fun x => decide (x.1 = .error .assertion)) = some true := by decide +kernel
    cases h3 : generate descend 200 zeros (nest 32) with
    | none => rw [h3] at h2; cases h2
    | some x =>
      rw [h3] at h2
      simp at h2
      have := C76_deterministic descend _ _ _ _ _ _ h h3
      subst this
      dsimp only at h2
      subst h2
      exact ⟨n, h⟩
  · have h := C76_text_partial descend descend_structural _ _ descend_texts (nest 31) fun k => by
      revert k; decide +kernel
    rw [nest_text] at h
    exact h

/-- A method that calls `format` on its own element. -/
def looping : Generator Unit := ⟨unimplemented, fun _ => some fun e => .format e .ret⟩

example : ∃ n r, generate looping n zeros (nest 0) = some (r, zeros) :=
  C76_ends looping (fun _ => trivial) (fun e f h => by cases h; exact ⟨.inl rfl, fun _ => trivial⟩) (nest 0)

example (t : String) : generateMultiple [.ok "f", .ok "g", .ok t] = .ok ("f" ++ ("\n\n" ++ "g") ++ ("\n\n" ++ t)) := rfl

end Wf.Gen.Hook
