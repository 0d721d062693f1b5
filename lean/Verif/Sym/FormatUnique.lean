import Verif.Sym.FormatSpec
import Mathlib.Tactic.ByContra

/-!
# A plain text has at most one tree

A deterministic reader of tokens (`Parse`) accepts everything that the grammar derives.
-/

namespace Wf.Sym.Plain

variable {F : Type}

/-- The token goes on with an expression of the level. -/
def continues (k : Nat) : Tok F → Bool
  | .plus | .minus => k = 1
  | .star | .slash => k = 2
  | .dstar => k = 4
  | .lt | .le | .eqeq => k = 0
  | .lpar => k = 5
  | _ => false

/-- No expression of the level goes on here. -/
def Stops (k : Nat) (ts : Toks F) : Prop := ∀ t, ts.head? = some t → continues k t = false

mutual
inductive Parse : Nat → Toks F → T F → Toks F → Prop
  | level {k ts a us e r} : k < 5 → k ≠ 3 → Parse (k + 1) ts a us → Go k a us e r → Parse k ts e r
  | neg {ts e r} : Parse 3 ts e r → Parse 3 (.minus :: ts) (.neg e) r
  | unary {ts e r} : ts.head? ≠ some .minus → Parse 4 ts e r → Parse 3 ts e r
  | paren {ts e r} : Parse 0 ts e (.rpar :: r) → Parse 5 (.lpar :: ts) e r
  | name {s r} : Stops 5 r → Parse 5 (.name s :: r) (.name s) r
  | int {n r} : Parse 5 (.int n :: r) (.int n) r
  | flt {f r} : Parse 5 (.flt f :: r) (.flt f) r
  | opaq {e r} : Parse 5 (.opaq e :: r) (.opaq e) r
  | app {f ts l r} : ParseArgs ts l (.rpar :: r) → Parse 5 (.name f :: .lpar :: ts) (.app f l) r

inductive Go : Nat → T F → Toks F → T F → Toks F → Prop
  | stop {k e ts} : Stops k ts → Go k e ts e ts
  | bin {k} {op : BinOp} {ts a b us e r} : op.level = k → k = 1 ∨ k = 2 → Parse op.right ts b us → Go k (.bin op a b) us e r → Go k a (op.tok :: ts) e r
  | once {k} {op : BinOp} {ts a b r} : op.level = k → k = 0 ∨ k = 4 → Parse op.right ts b r → Go k a (op.tok :: ts) (.bin op a b) r

inductive ParseArgs : Toks F → List (T F) → Toks F → Prop
  | nil {ts} : ts.head? = some .rpar → ParseArgs ts [] ts
  | one {ts e r} : ts.head? ≠ some .rpar → Parse 0 ts e r → r.head? ≠ some .comma → ParseArgs ts [e] r
  | cons {ts e us l r} : ts.head? ≠ some .rpar → Parse 0 ts e (.comma :: us) → ParseArgs us l r → ParseArgs ts (e :: l) r
end

theorem level_eq {op : BinOp} {k : Nat} : continues k (op.tok : Tok F) = true ↔ op.level = k := by
  cases op <;> unfold continues BinOp.tok <;> dsimp only <;> rw [decide_eq_true_eq] <;> exact eq_comm

theorem tok_inj {a b : BinOp} (h : (a.tok : Tok F) = b.tok) : a = b := by cases a <;> cases b <;> first | rfl | cases h

mutual
theorem Parse.det : ∀ {k} {ts : Toks F} {e r e' r'}, Parse k ts e r → Parse k ts e' r' → e = e' ∧ r = r'
  | _, _, _, _, _, _, .level hk hk3 h1 h2, h => by
    cases h with
    | level _ _ h1' h2' =>
      obtain ⟨rfl, rfl⟩ := h1.det h1'
      exact h2.det h2'
    | neg => omega
    | unary => omega
    | _ => omega
  | _, _, _, _, _, _, .neg h1, h => by
    cases h with
    | level _ hk => omega
    | neg h1' => obtain ⟨rfl, rfl⟩ := h1.det h1'; exact ⟨rfl, rfl⟩
    | unary hn => simp at hn
  | _, _, _, _, _, _, .unary hm h1, h => by
    cases h with
    | level _ hk => omega
    | neg => simp at hm
    | unary _ h1' => exact h1.det h1'
  | _, _, _, _, _, _, .paren h1, h => by
    cases h with
    | level hk => omega
    | paren h1' =>
      obtain ⟨rfl, e1⟩ := h1.det h1'
      cases e1
      exact ⟨rfl, rfl⟩
  | _, _, _, _, _, _, .name hs, h => by
    cases h with
    | level hk => omega
    | name => exact ⟨rfl, rfl⟩
    | app => have := hs _ rfl; simp [continues] at this
  | _, _, _, _, _, _, .int, h => by
    cases h with
    | level hk => omega
    | int => exact ⟨rfl, rfl⟩
  | _, _, _, _, _, _, .flt, h => by
    cases h with
    | level hk => omega
    | flt => exact ⟨rfl, rfl⟩
  | _, _, _, _, _, _, .opaq, h => by
    cases h with
    | level hk => omega
    | opaq => exact ⟨rfl, rfl⟩
  | _, _, _, _, _, _, .app h1, h => by
    cases h with
    | level hk => omega
    | name hs => have := hs _ rfl; simp [continues] at this
    | app h1' =>
      obtain ⟨rfl, e1⟩ := h1.det h1'
      cases e1
      exact ⟨rfl, rfl⟩
termination_by structural _ _ _ _ _ _ h _ => h

theorem Go.det : ∀ {k} {a : T F} {ts e r e' r'}, Go k a ts e r → Go k a ts e' r' → e = e' ∧ r = r'
  | _, _, _, _, _, _, _, .stop hs, h => by
    cases h with
    | stop => exact ⟨rfl, rfl⟩
    | bin hl => have := hs _ rfl; rw [level_eq.2 hl] at this; cases this
    | once hl => have := hs _ rfl; rw [level_eq.2 hl] at this; cases this
  | k, a, _, e, r, e', r', .bin (op := op) (ts := ts) hl hk h1 h2, h => by
    generalize hts : op.tok :: ts = us at h
    cases h with
    | stop hs => subst hts; have := hs _ rfl; rw [level_eq.2 hl] at this; cases this
    | bin hl' _ h1' h2' =>
      rw [List.cons.injEq] at hts
      obtain ⟨h3, rfl⟩ := hts
      cases tok_inj h3
      obtain ⟨rfl, rfl⟩ := h1.det h1'
      exact h2.det h2'
    | once _ hk' => omega
  | k, a, _, _, r, e', r', .once (op := op) (ts := ts) hl hk h1, h => by
    generalize hts : op.tok :: ts = us at h
    cases h with
    | stop hs => subst hts; have := hs _ rfl; rw [level_eq.2 hl] at this; cases this
    | bin _ hk' => omega
    | once hl' _ h1' =>
      rw [List.cons.injEq] at hts
      obtain ⟨h3, rfl⟩ := hts
      cases tok_inj h3
      obtain ⟨rfl, rfl⟩ := h1.det h1'
      exact ⟨rfl, rfl⟩
termination_by structural _ _ _ _ _ _ _ h _ => h

theorem ParseArgs.det : ∀ {ts : Toks F} {l r l' r'}, ParseArgs ts l r → ParseArgs ts l' r' → l = l' ∧ r = r'
  | _, _, _, _, _, .nil hc, h => by
    cases h with
    | nil => exact ⟨rfl, rfl⟩
    | one hn => exact absurd hc hn
    | cons hn => exact absurd hc hn
  | _, _, _, _, _, .one hn h1 hc, h => by
    cases h with
    | nil hc => exact absurd hc hn
    | one _ h1' => obtain ⟨rfl, rfl⟩ := h1.det h1'; exact ⟨rfl, rfl⟩
    | cons _ h1' => obtain ⟨_, rfl⟩ := h1.det h1'; simp at hc
  | _, _, _, _, _, .cons hn h1 h2, h => by
    cases h with
    | nil hc => exact absurd hc hn
    | one _ h1' hc => obtain ⟨_, rfl⟩ := h1.det h1'; simp at hc
    | cons _ h1' h2' =>
      obtain ⟨rfl, e1⟩ := h1.det h1'
      cases e1
      obtain ⟨rfl, rfl⟩ := h2.det h2'
      exact ⟨rfl, rfl⟩
termination_by structural _ _ _ _ _ h _ => h
end

/-- Nothing after the expression belongs to it or to an expression of a higher level in it. -/
def Ends (k : Nat) (rest : Toks F) : Prop := (∀ j, k < j → Stops j rest) ∧ (k ≠ 1 → k ≠ 2 → Stops k rest)

theorem Ends.up {k : Nat} {rest : Toks F} (h : Ends k rest) : Ends (k + 1) rest := ⟨fun j hj => h.1 j (by omega), fun _ _ => h.1 _ (by omega)⟩

theorem Stops.cons {k : Nat} {t : Tok F} {ts : Toks F} (h : continues k t = false) : Stops k (t :: ts) := by
  intro t' ht
  cases ht
  exact h

theorem Stops.nil {k : Nat} : Stops k ([] : Toks F) := by intro t ht; cases ht

theorem Stops.three {ts : Toks F} : Stops 3 ts := by intro t _; cases t <;> simp [continues]

theorem Ends.of_closing {k : Nat} {t : Tok F} {ts : Toks F} (h : ∀ j, continues j t = false) : Ends k (t :: ts) :=
  ⟨fun j _ => .cons (h j), fun _ _ => .cons (h k)⟩

theorem Ends.nil {k : Nat} : Ends k ([] : Toks F) := ⟨fun _ _ => .nil, fun _ _ => .nil⟩

theorem stops_op {op : BinOp} {k : Nat} {ts : Toks F} (h : op.level ≠ k) : Stops k (op.tok :: ts) := by
  refine .cons ?_
  by_contra hc
  rw [Bool.not_eq_false] at hc
  exact h (level_eq.1 hc)

/-- An operand does not begin with a minus sign. -/
theorem Reads.head {k : Nat} {ts : Toks F} {e : T F} (h : Reads k ts e) : ts ≠ [] ∧ (4 ≤ k → ts.head? ≠ some .minus) ∧ ts.head? ≠ some .rpar := by
  have app : ∀ {ts us : Toks F}, ts ≠ [] → (ts ++ us).head? = ts.head? := by
    intro ts us h
    cases ts with
    | nil => exact absurd rfl h
    | cons => rfl
  induction h using Reads.rec (motive_2 := fun _ _ _ => True) with
  | up hk _ ih => exact ⟨ih.1, fun h => ih.2.1 (by omega), ih.2.2⟩
  | @bin op l r a b _ _ ih _ =>
    refine ⟨by simp, fun h => ?_, by rw [app ih.1]; exact ih.2.2⟩
    rw [app ih.1]
    exact ih.2.1 (by cases op <;> simp_all [BinOp.level, BinOp.left])
  | neg => exact ⟨by simp, fun h => by omega, by simp⟩
  | paren => simp
  | name => simp
  | int => simp
  | flt => simp
  | opaq => simp
  | app => simp
  | nil => trivial
  | one => trivial
  | cons => trivial

theorem Go.stops {k : Nat} {a e : T F} {ts r : Toks F} (hs : Stops k ts) (h : Go k a ts e r) : e = a ∧ r = ts := h.det (.stop hs)

mutual
theorem Reads.parse : ∀ {k} {ts : Toks F} {e}, Reads k ts e → ∀ {rest e' r}, Ends k rest → Go k e rest e' r → Parse k (ts ++ rest) e' r
  | k, ts, e, .up hk h, rest, e', r, hr, hgo => by
    have hp := h.parse hr.up (.stop (hr.1 _ (by omega)))
    by_cases h3 : k = 3
    · subst h3
      obtain ⟨rfl, rfl⟩ := hgo.stops .three
      obtain ⟨hne, hm, _⟩ := h.head
      have hh : (ts ++ r).head? = ts.head? := by
        cases ts with
        | nil => exact absurd rfl hne
        | cons => rfl
      exact .unary (by rw [hh]; exact hm (by omega)) hp
    · exact .level hk h3 hp hgo
  | _, _, _, .bin (op := op) (l := l) (r := t) hl ht, rest, e', r, hr, hgo => by
    rw [List.append_assoc, List.cons_append]
    have key : ∀ {us : Toks F}, Ends op.left (op.tok :: us) := by
      intro us
      refine ⟨fun j hj => stops_op ?_, fun h1 h2 => stops_op ?_⟩
      · cases op <;> simp [BinOp.level, BinOp.left] at hj ⊢ <;> omega
      · cases op <;> simp_all [BinOp.level, BinOp.left]
    by_cases h12 : op.level = 1 ∨ op.level = 2
    · have he : op.left = op.level ∧ op.right = op.level + 1 := by cases op <;> simp_all [BinOp.level, BinOp.left, BinOp.right]
      have h2 := ht.parse (rest := rest) (by rw [he.2]; exact hr.up) (.stop (by rw [he.2]; exact hr.1 _ (by omega)))
      have h1 := fun {e' r} => hl.parse (rest := op.tok :: (t ++ rest)) (e' := e') (r := r) key
      rw [he.1] at h1
      exact h1 (.bin rfl h12 h2 hgo)
    · have h04 : op.level = 0 ∨ op.level = 4 := by cases op <;> simp_all [BinOp.level]
      obtain ⟨rfl, rfl⟩ := hgo.stops (hr.2 (by omega) (by omega))
      have h2 : Ends op.right r := by
        refine ⟨fun j hj => ?_, fun h1 h2 => ?_⟩
        · by_cases hj' : op.level < j
          · exact hr.1 j hj'
          · have : j = op.level := by cases op <;> simp_all [BinOp.level, BinOp.right] <;> omega
            subst this
            exact hr.2 (by omega) (by omega)
        · have : op.right = 3 := by cases op <;> simp_all [BinOp.right]
          rw [this]
          exact .three
      have h3 : Stops op.right r := by
        by_cases h : op.right = 1
        · have : op.level = 0 := by cases op <;> simp_all [BinOp.level, BinOp.right]
          exact hr.1 _ (by omega)
        · exact h2.2 h (by cases op <;> simp_all [BinOp.level, BinOp.right])
      have h4 := ht.parse h2 (.stop h3)
      have h5 := hl.parse (rest := op.tok :: (t ++ r)) key (.stop (stops_op (by cases op <;> simp_all [BinOp.level, BinOp.left])))
      rw [show op.left = op.level + 1 by cases op <;> simp_all [BinOp.level, BinOp.left]] at h5
      exact .level (by omega) (by omega) h5 (.once rfl h04 h4)
  | _, _, _, .neg h, rest, e', r, hr, hgo => by
    obtain ⟨rfl, rfl⟩ := hgo.stops .three
    exact .neg (h.parse hr (.stop .three))
  | _, _, _, .paren h, rest, e', r, hr, hgo => by
    have hh := hgo.stops (hr.2 (by omega) (by omega))
    rw [hh.1, hh.2]
    simp only [List.cons_append, List.append_assoc, List.nil_append]
    exact .paren (h.parse (.of_closing fun j => rfl) (.stop (.cons rfl)))
  | _, _, _, .name, rest, e', r, hr, hgo => by
    obtain ⟨rfl, rfl⟩ := hgo.stops (hr.2 (by omega) (by omega))
    exact .name (hr.2 (by omega) (by omega))
  | _, _, _, .int, rest, e', r, hr, hgo => by
    obtain ⟨rfl, rfl⟩ := hgo.stops (hr.2 (by omega) (by omega))
    exact .int
  | _, _, _, .flt, rest, e', r, hr, hgo => by
    obtain ⟨rfl, rfl⟩ := hgo.stops (hr.2 (by omega) (by omega))
    exact .flt
  | _, _, _, .opaq, rest, e', r, hr, hgo => by
    obtain ⟨rfl, rfl⟩ := hgo.stops (hr.2 (by omega) (by omega))
    exact .opaq
  | _, _, _, .app ha, rest, e', r, hr, hgo => by
    obtain ⟨rfl, rfl⟩ := hgo.stops (hr.2 (by omega) (by omega))
    simp only [List.cons_append, List.append_assoc, List.nil_append]
    exact .app ha.parse

theorem ReadsArgs.parse : ∀ {ts : Toks F} {l}, ReadsArgs ts l → ∀ {rest}, ParseArgs (ts ++ .rpar :: rest) l (.rpar :: rest)
  | _, _, .nil, rest => .nil rfl
  | ts, _, .one h, rest => by
    obtain ⟨hne, _, h1⟩ := h.head
    have hh : (ts ++ .rpar :: rest).head? = ts.head? := by
      cases ts with
      | nil => exact absurd rfl hne
      | cons => rfl
    exact .one (by rw [hh]; exact h1) (h.parse (.of_closing fun j => rfl) (.stop (.cons rfl))) (by simp)
  | _, _, .cons (ts := ts) h ha _, rest => by
    obtain ⟨hne, _, h1⟩ := h.head
    rw [List.append_assoc, List.cons_append]
    have hh : ∀ us, (ts ++ us).head? = ts.head? := by
      intro us
      cases ts with
      | nil => exact absurd rfl hne
      | cons => rfl
    exact .cons (by rw [hh]; exact h1) (h.parse (.of_closing fun j => rfl) (.stop (.cons rfl))) ha.parse
end

/-- A text has at most one tree. -/
theorem Reads.unique {ts : Toks F} {e e' : T F} (h : Reads 0 ts e) (h' : Reads 0 ts e') : e' = e := by
  have h1 := h.parse (rest := []) .nil (.stop .nil)
  have h2 := h'.parse (rest := []) .nil (.stop .nil)
  exact (h2.det h1).1

end Wf.Sym.Plain
