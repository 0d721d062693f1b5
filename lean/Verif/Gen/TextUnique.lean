import Verif.Gen.TextSpec
import Mathlib.Tactic.ByContra

/-!
# The grammar is unambiguous

A deterministic reader of tokens (`Parse`) accepts everything that the grammar derives.
-/

namespace Wf.Gen.Text

/-- The token goes on with an expression of the level. -/
def continues (L : Lang) (k : Nat) : Tok → Bool
  | .plus | .minus => k = 3
  | .star | .slash => k = 4
  | .lt | .le => k = 2
  | .eqeq => k = BinOp.level L .eq
  | .quest => k = 0 ∧ L = .cpp
  | .kAs => k = 5 ∧ L = .rust
  | .lpar | .dot => k = 7
  | .lbracket => k = 7 ∧ L ≠ .cpp
  | _ => false

/-- No expression of the level goes on here. -/
def Stops (L : Lang) (k : Nat) (ts : Toks) : Prop := ∀ t, ts.head? = some t → continues L k t = false

mutual
inductive Parse (L : Lang) : Nat → Toks → E → Toks → Prop
  | level {k ts a us e r} : k ≤ 5 → Parse L (k + 1) ts a us → Go L k a us e r → Parse L k ts e r
  | neg {ts e r} : Parse L 6 ts e r → Parse L 6 (.minus :: ts) (.neg e) r
  | ref {ts e r} : L = .rust → Parse L 6 ts e r → Parse L 6 (.amp :: ts) (.ref e) r
  | unary {ts e r} : ts.head? ≠ some .minus → ts.head? ≠ some .amp → Parse L 7 ts e r → Parse L 6 ts e r
  | «postfix» {ts a us e r} : Primary L ts a us → Go L 7 a us e r → Parse L 7 ts e r

inductive Primary (L : Lang) : Toks → E → Toks → Prop
  | ifElse {ts c us a vs b r} : L = .rust → Parse L 0 ts c (.lbrace :: us) → Parse L 0 us a (.rbrace :: .kElse :: .lbrace :: vs) →
      Parse L 0 vs b (.rbrace :: r) → Primary L (.kIf :: ts) (.cond c a b) r
  | staticCast {t ts e r} : L = .cpp → Parse L 0 ts e (.rpar :: r) → Primary L (.staticCast t :: .lpar :: ts) (.cast t e) r
  | paren {ts e r} : Parse L 0 ts e (.rpar :: r) → Primary L (.lpar :: ts) e r
  | name {s r} : Primary L (.name s :: r) (.atom s) r
  | int {n s r} : Primary L (.int n s :: r) (.int n s) r

inductive Go (L : Lang) : Nat → E → Toks → E → Toks → Prop
  | stop {k e ts} : Stops L k ts → Go L k e ts e ts
  | bin {k op ts a b us e r} : op.level L = k → Parse L (k + 1) ts b us → Go L k (.bin op a b) us e r → Go L k a (op.tok :: ts) e r
  | cond {ts a us b r c} : L = .cpp → Parse L 0 ts a (.colon :: us) → Parse L 0 us b r → Go L 0 c (.quest :: ts) (.cond c a b) r
  | as {t ts a e r} : L = .rust → Go L 5 (.cast t a) ts e r → Go L 5 a (.kAs :: .ty t :: ts) e r
  | app {ts l us a e r} : ParseArgs L ts l (.rpar :: us) → Go L 7 (.app a l) us e r → Go L 7 a (.lpar :: ts) e r
  | field {s ts a e r} : Go L 7 (.field a s) ts e r → Go L 7 a (.dot :: .name s :: ts) e r
  | index {ts l us a e r} : L = .python → ParseArgs L ts l (.rbracket :: us) → Go L 7 (.index a l) us e r → Go L 7 a (.lbracket :: ts) e r
  | indexTuple {ts l us a e r} : L = .rust → ParseArgs L ts l (.rpar :: .rbracket :: us) → Go L 7 (.index a l) us e r →
      Go L 7 a (.lbracket :: .lpar :: ts) e r

inductive ParseArgs (L : Lang) : Toks → List E → Toks → Prop
  | nil {ts} : ts.head? = some .rpar ∨ ts.head? = some .rbracket → ParseArgs L ts [] ts
  | one {ts e r} : ¬(ts.head? = some .rpar ∨ ts.head? = some .rbracket) → Parse L 0 ts e r → r.head? ≠ some .comma → ParseArgs L ts [e] r
  | cons {ts e us l r} : ¬(ts.head? = some .rpar ∨ ts.head? = some .rbracket) → Parse L 0 ts e (.comma :: us) → ParseArgs L us l r → ParseArgs L ts (e :: l) r
end

theorem level_eq {L : Lang} {op : BinOp} {k : Nat} : continues L k op.tok = true ↔ op.level L = k := by
  cases op <;> unfold continues BinOp.tok <;> dsimp only <;> rw [decide_eq_true_eq] <;> exact eq_comm

theorem tok_inj {a b : BinOp} (h : a.tok = b.tok) : a = b := by cases a <;> cases b <;> first | rfl | cases h

/-- The token of a binary operator. -/
theorem tok_ne {op : BinOp} {t : Tok} {ts us : Toks} (h : t :: ts = op.tok :: us)
    (ht : ∀ op : BinOp, t ≠ op.tok := by intro op; cases op <;> decide) : False := by
  rw [List.cons.injEq] at h
  exact ht op h.1

variable {L : Lang}

mutual
theorem Parse.det : ∀ {k ts e r e' r'}, Parse L k ts e r → Parse L k ts e' r' → e = e' ∧ r = r'
  | _, _, _, _, _, _, .level hk h1 h2, h => by
    cases h with
    | level _ h1' h2' =>
      obtain ⟨rfl, rfl⟩ := h1.det h1'
      exact h2.det h2'
    | neg => omega
    | ref => omega
    | unary => omega
    | «postfix» => omega
  | _, _, _, _, _, _, .neg h1, h => by
    cases h with
    | level hk => omega
    | neg h1' => obtain ⟨rfl, rfl⟩ := h1.det h1'; exact ⟨rfl, rfl⟩
    | unary hn => simp at hn
  | _, _, _, _, _, _, .ref _ h1, h => by
    cases h with
    | level hk => omega
    | ref _ h1' => obtain ⟨rfl, rfl⟩ := h1.det h1'; exact ⟨rfl, rfl⟩
    | unary _ hn => simp at hn
  | _, _, _, _, _, _, .unary hm ha h1, h => by
    cases h with
    | level hk => omega
    | neg => simp at hm
    | ref => simp at ha
    | unary _ _ h1' => exact h1.det h1'
  | _, _, _, _, _, _, .«postfix» h1 h2, h => by
    cases h with
    | level hk => omega
    | «postfix» h1' h2' =>
      obtain ⟨rfl, rfl⟩ := h1.det h1'
      exact h2.det h2'
termination_by structural _ _ _ _ _ _ h _ => h

theorem Primary.det : ∀ {ts e r e' r'}, Primary L ts e r → Primary L ts e' r' → e = e' ∧ r = r'
  | _, _, _, _, _, .ifElse _ h1 h2 h3, h => by
    cases h with
    | ifElse _ h1' h2' h3' =>
      obtain ⟨rfl, e1⟩ := h1.det h1'
      cases e1
      obtain ⟨rfl, e2⟩ := h2.det h2'
      cases e2
      obtain ⟨rfl, e3⟩ := h3.det h3'
      cases e3
      exact ⟨rfl, rfl⟩
  | _, _, _, _, _, .staticCast _ h1, h => by
    cases h with
    | staticCast _ h1' =>
      obtain ⟨rfl, e1⟩ := h1.det h1'
      cases e1
      exact ⟨rfl, rfl⟩
  | _, _, _, _, _, .paren h1, h => by
    cases h with
    | paren h1' =>
      obtain ⟨rfl, e1⟩ := h1.det h1'
      cases e1
      exact ⟨rfl, rfl⟩
  | _, _, _, _, _, .name, h => by cases h; exact ⟨rfl, rfl⟩
  | _, _, _, _, _, .int, h => by cases h; exact ⟨rfl, rfl⟩
termination_by structural _ _ _ _ _ h _ => h

theorem Go.det : ∀ {k a ts e r e' r'}, Go L k a ts e r → Go L k a ts e' r' → e = e' ∧ r = r'
  | _, _, _, _, _, _, _, .stop hs, h => by
    cases h with
    | stop => exact ⟨rfl, rfl⟩
    | bin hl => have := hs _ rfl; rw [level_eq.2 hl] at this; cases this
    | cond hl => have := hs _ rfl; simp [continues, hl] at this
    | as hl => have := hs _ rfl; simp [continues, hl] at this
    | app => have := hs _ rfl; simp [continues] at this
    | field => have := hs _ rfl; simp [continues] at this
    | index hl => have := hs _ rfl; simp [continues, hl] at this
    | indexTuple hl => have := hs _ rfl; simp [continues, hl] at this
  | k, a, _, e, r, e', r', .bin (op := op) (ts := ts) hl h1 h2, h => by
    generalize hts : op.tok :: ts = us at h
    cases h with
    | stop hs => subst hts; have := hs _ rfl; rw [level_eq.2 hl] at this; cases this
    | bin hl' h1' h2' =>
      rw [List.cons.injEq] at hts
      obtain ⟨h3, rfl⟩ := hts
      cases tok_inj h3
      obtain ⟨rfl, rfl⟩ := h1.det h1'
      exact h2.det h2'
    | cond => cases op <;> cases hts
    | as => cases op <;> cases hts
    | app => cases op <;> cases hts
    | field => cases op <;> cases hts
    | index => cases op <;> cases hts
    | indexTuple => cases op <;> cases hts
  | _, _, _, _, _, _, _, .cond hL h1 h2, h => by
    generalize hts : Tok.quest :: _ = us at h
    cases h with
    | stop hs => subst hts; have := hs _ rfl; simp [continues, hL] at this
    | bin => exact (tok_ne hts).elim
    | cond _ h1' h2' =>
      cases hts
      obtain ⟨rfl, e1⟩ := h1.det h1'
      cases e1
      obtain ⟨rfl, rfl⟩ := h2.det h2'
      exact ⟨rfl, rfl⟩
  | _, _, _, _, _, _, _, .as hL h1, h => by
    generalize hts : Tok.kAs :: _ = us at h
    cases h with
    | stop hs => subst hts; have := hs _ rfl; simp [continues, hL] at this
    | bin => exact (tok_ne hts).elim
    | as _ h1' => cases hts; exact h1.det h1'
  | _, _, _, _, _, _, _, .app h1 h2, h => by
    generalize hts : Tok.lpar :: _ = us at h
    cases h with
    | stop hs => subst hts; have := hs _ rfl; simp [continues] at this
    | bin => exact (tok_ne hts).elim
    | app h1' h2' =>
      cases hts
      obtain ⟨rfl, e1⟩ := h1.det h1'
      cases e1
      exact h2.det h2'
    | field => cases hts
    | index => cases hts
    | indexTuple => cases hts
  | _, _, _, _, _, _, _, .field h1, h => by
    generalize hts : Tok.dot :: _ = us at h
    cases h with
    | stop hs => subst hts; have := hs _ rfl; simp [continues] at this
    | bin => exact (tok_ne hts).elim
    | app => cases hts
    | field h1' => cases hts; exact h1.det h1'
    | index => cases hts
    | indexTuple => cases hts
  | _, _, _, _, _, _, _, .index hL h1 h2, h => by
    generalize hts : Tok.lbracket :: _ = us at h
    cases h with
    | stop hs => subst hts; have := hs _ rfl; simp [continues, hL] at this
    | bin => exact (tok_ne hts).elim
    | app => cases hts
    | field => cases hts
    | index _ h1' h2' =>
      cases hts
      obtain ⟨rfl, e1⟩ := h1.det h1'
      cases e1
      exact h2.det h2'
    | indexTuple hL' => rw [hL] at hL'; cases hL'
  | _, _, _, _, _, _, _, .indexTuple hL h1 h2, h => by
    generalize hts : Tok.lbracket :: _ = us at h
    cases h with
    | stop hs => subst hts; have := hs _ rfl; simp [continues, hL] at this
    | bin => exact (tok_ne hts).elim
    | app => cases hts
    | field => cases hts
    | index hL' => rw [hL] at hL'; cases hL'
    | indexTuple _ h1' h2' =>
      cases hts
      obtain ⟨rfl, e1⟩ := h1.det h1'
      cases e1
      exact h2.det h2'
termination_by structural _ _ _ _ _ _ _ h _ => h

theorem ParseArgs.det : ∀ {ts l r l' r'}, ParseArgs L ts l r → ParseArgs L ts l' r' → l = l' ∧ r = r'
  | _, _, _, _, _, .nil hc, h => by
    cases h with
    | nil => exact ⟨rfl, rfl⟩
    | one hn => exact absurd hc hn
    | cons hn => exact absurd hc hn
  | _, _, _, _, _, .one hn h1 hc, h => by
    cases h with
    | nil hc => exact absurd hc hn
    | one _ h1' => obtain ⟨rfl, rfl⟩ := h1.det h1'; exact ⟨rfl, rfl⟩
    | cons _ h1' => obtain ⟨_, rfl⟩ := h1.det h1'; simp at hc
  | _, _, _, _, _, .cons hn h1 h2, h => by
    cases h with
    | nil hc => exact absurd hc hn
    | one _ h1' hc => obtain ⟨_, rfl⟩ := h1.det h1'; simp at hc
    | cons _ h1' h2' =>
      obtain ⟨rfl, e1⟩ := h1.det h1'
      cases e1
      obtain ⟨rfl, rfl⟩ := h2.det h2'
      exact ⟨rfl, rfl⟩
termination_by structural _ _ _ _ _ h _ => h
end

/-- Nothing after the expression belongs to it or to an expression of a higher level in it. -/
def Ends (L : Lang) (k : Nat) (rest : Toks) : Prop := (∀ j, k < j → Stops L j rest) ∧ (k = 0 → Stops L 0 rest)

theorem Ends.up {k : Nat} {rest : Toks} (h : Ends L k rest) : Ends L (k + 1) rest := ⟨fun j hj => h.1 j (by omega), fun h => by omega⟩

theorem Stops.cons {k : Nat} {t : Tok} {ts : Toks} (h : continues L k t = false) : Stops L k (t :: ts) := by
  intro t' ht
  cases ht
  exact h

theorem Stops.nil {k : Nat} : Stops L k [] := by intro t ht; cases ht

/-- A token that never goes on with an expression. -/
theorem Ends.of_closing {k : Nat} {t : Tok} {ts : Toks} (h : ∀ j, continues L j t = false) : Ends L k (t :: ts) :=
  ⟨fun j _ => .cons (h j), fun _ => .cons (h 0)⟩

theorem Ends.nil {k : Nat} : Ends L k [] := ⟨fun _ _ => .nil, fun _ => .nil⟩

theorem ends_op {op : BinOp} {k : Nat} {ts : Toks} (h : op.level L ≤ k) (hk : k ≠ 0) : Ends L k (op.tok :: ts) := by
  refine ⟨fun j hj => .cons ?_, fun h => absurd h hk⟩
  by_contra hc
  rw [Bool.not_eq_false] at hc
  have := level_eq.1 hc
  omega

theorem level_bound (op : BinOp) : 1 ≤ op.level L ∧ op.level L ≤ 4 := by cases op <;> simp [BinOp.level] <;> split <;> omega

/-- An expression of the highest level does not begin with a minus sign. -/
theorem Reads.head {k : Nat} {ts : Toks} {e : E} (h : Reads L k ts e) : ts ≠ [] ∧ (k = 7 → ts.head? ≠ some .minus ∧ ts.head? ≠ some .amp) ∧
    ts.head? ≠ some .rpar ∧ ts.head? ≠ some .rbracket := by
  have app : ∀ {ts us : Toks}, ts ≠ [] → (ts ++ us).head? = ts.head? := by
    intro ts us h
    cases ts with
    | nil => exact absurd rfl h
    | cons => rfl
  induction h using Reads.rec (motive_2 := fun _ _ _ => True) with
  | up hk _ ih => exact ⟨ih.1, fun h => by omega, ih.2.2⟩
  | @bin op l r a b _ _ _ ih _ =>
    refine ⟨by simp, fun h => ?_, ?_⟩
    · have := level_bound (L := L) op; omega
    · rw [app ih.1]; exact ih.2.2
  | cond _ _ _ _ ih => exact ⟨by simp, fun h => by omega, by rw [app ih.1]; exact ih.2.2⟩
  | neg => exact ⟨by simp, fun h => by omega, by simp, by simp⟩
  | ref => exact ⟨by simp, fun h => by omega, by simp, by simp⟩
  | as _ _ ih => exact ⟨by simp, fun h => by omega, by rw [app ih.1]; exact ih.2.2⟩
  | ifElse => simp
  | staticCast => simp
  | paren => simp
  | name => simp
  | int => simp
  | app _ _ ih _ => rw [app ih.1]; exact ⟨by simp, ih.2⟩
  | field _ ih => rw [app ih.1]; exact ⟨by simp, ih.2⟩
  | index _ _ _ ih _ => rw [app ih.1]; exact ⟨by simp, ih.2⟩
  | indexTuple _ _ _ ih _ => rw [app ih.1]; exact ⟨by simp, ih.2⟩
  | nil => trivial
  | one => trivial
  | cons => trivial

theorem Go.six {a e : E} {ts r : Toks} (h : Go L 6 a ts e r) : e = a ∧ r = ts := by
  cases h with
  | stop => exact ⟨rfl, rfl⟩
  | bin h h2 => exact absurd h (by have := level_bound (L := L); intro h'; rename_i op _ _ _ _; have := this op; omega)

theorem Go.zero {a e : E} {ts r : Toks} (hs : Stops L 0 ts) (h : Go L 0 a ts e r) : e = a ∧ r = ts := (h.det (.stop hs))

mutual
theorem Reads.parse : ∀ {k ts e}, Reads L k ts e → ∀ {rest e' r}, Ends L k rest → Go L k e rest e' r → Parse L k (ts ++ rest) e' r
  | k, ts, e, .up hk h, rest, e', r, hr, hgo => by
    have hp := h.parse hr.up (.stop (hr.1 _ (by omega)))
    by_cases h6 : k = 6
    · subst h6
      obtain ⟨rfl, rfl⟩ := hgo.six
      obtain ⟨hne, hm, _⟩ := h.head
      have hh : (ts ++ r).head? = ts.head? := by
        cases ts with
        | nil => exact absurd rfl hne
        | cons => rfl
      exact .unary (by rw [hh]; exact (hm rfl).1) (by rw [hh]; exact (hm rfl).2) hp
    · exact .level (by omega) hp hgo
  | _, _, _, .bin (op := op) (l := l) (r := t) hl ht _, rest, e', r, hr, hgo => by
    have hb := level_bound (L := L) op
    have h2 := ht.parse hr.up (.stop (hr.1 _ (by omega)))
    rw [List.append_assoc, List.cons_append]
    by_cases he : op.left L = op.level L
    · have h1 := fun {e' r} => hl.parse (rest := op.tok :: (t ++ rest)) (e' := e') (r := r) (by rw [he]; exact ends_op (Nat.le_refl _) (by omega))
      rw [he] at h1
      exact h1 (.bin rfl h2 hgo)
    · have he : op.left L = op.level L + 1 := by
        unfold BinOp.left at he ⊢
        split <;> simp_all
      have h1 := fun {e' r} => hl.parse (rest := op.tok :: (t ++ rest)) (e' := e') (r := r) (by rw [he]; exact ends_op (by omega) (by omega))
      rw [he] at h1
      refine .level (by omega) (h1 (.stop (.cons ?_))) (.bin rfl h2 hgo)
      by_contra hc
      rw [Bool.not_eq_false] at hc
      have := level_eq.1 hc
      omega
  | _, _, _, .cond (l := l) (m := m) (r := t) hL hl hm ht, rest, e', r, hr, hgo => by
    obtain ⟨rfl, rfl⟩ := hgo.zero (hr.2 rfl)
    rw [List.append_assoc, List.cons_append, List.append_assoc, List.cons_append]
    refine .level (by omega) (hl.parse ?_ (.stop (.cons (by simp [continues])))) (.cond hL (hm.parse (.of_closing fun j => rfl) (.stop (.cons rfl)))
      (ht.parse hr (.stop (hr.2 rfl))))
    · exact ⟨fun j hj => .cons (by simp [continues]; omega), fun h => by omega⟩
  | _, _, _, .neg h, rest, e', r, hr, hgo => by
    obtain ⟨rfl, rfl⟩ := hgo.six
    exact .neg (h.parse hr (.stop (fun t _ => by cases t <;> simp [continues, BinOp.level] <;> split <;> simp)))
  | _, _, _, .ref hL h, rest, e', r, hr, hgo => by
    obtain ⟨rfl, rfl⟩ := hgo.six
    exact .ref hL (h.parse hr (.stop (fun t _ => by cases t <;> simp [continues, BinOp.level] <;> split <;> simp)))
  | _, _, _, .as hL h, rest, e', r, hr, hgo => by
    rw [List.append_assoc]
    exact h.parse ⟨fun j hj => .cons (by simp [continues]; omega), fun h => by omega⟩ (.as hL hgo)
  | _, _, _, .ifElse hL h1 h2 h3, rest, e', r, hr, hgo => by
    refine .«postfix» ?_ hgo
    simp only [List.cons_append, List.append_assoc, List.nil_append]
    exact .ifElse hL (h1.parse (.of_closing fun j => rfl) (.stop (.cons rfl))) (h2.parse (.of_closing fun j => rfl) (.stop (.cons rfl)))
      (h3.parse (.of_closing fun j => rfl) (.stop (.cons rfl)))
  | _, _, _, .staticCast hL h, rest, e', r, hr, hgo => by
    refine .«postfix» ?_ hgo
    simp only [List.cons_append, List.append_assoc, List.nil_append]
    exact .staticCast hL (h.parse (.of_closing fun j => rfl) (.stop (.cons rfl)))
  | _, _, _, .paren h, rest, e', r, hr, hgo => by
    refine .«postfix» ?_ hgo
    simp only [List.cons_append, List.append_assoc, List.nil_append]
    exact .paren (h.parse (.of_closing fun j => rfl) (.stop (.cons rfl)))
  | _, _, _, .name, rest, e', r, hr, hgo => .«postfix» .name hgo
  | _, _, _, .int _, rest, e', r, hr, hgo => .«postfix» .int hgo
  | _, _, _, .app h ha, rest, e', r, hr, hgo => by
    simp only [List.cons_append, List.append_assoc, List.nil_append]
    exact h.parse ⟨fun j hj => .cons (by simp [continues]; omega), fun h => by omega⟩ (.app (ha.parse (.inl rfl)) hgo)
  | _, _, _, .field h, rest, e', r, hr, hgo => by
    simp only [List.cons_append, List.append_assoc, List.nil_append]
    exact h.parse ⟨fun j hj => .cons (by simp [continues]; omega), fun h => by omega⟩ (.field hgo)
  | _, _, _, .index hL h ha, rest, e', r, hr, hgo => by
    simp only [List.cons_append, List.append_assoc, List.nil_append]
    exact h.parse ⟨fun j hj => .cons (by simp [continues]; omega), fun h => by omega⟩ (.index hL (ha.parse (.inr rfl)) hgo)
  | _, _, _, .indexTuple hL h ha, rest, e', r, hr, hgo => by
    simp only [List.cons_append, List.append_assoc, List.nil_append]
    exact h.parse ⟨fun j hj => .cons (by simp [continues]; omega), fun h => by omega⟩ (.indexTuple hL (ha.parse (.inl rfl)) hgo)

theorem ReadsArgs.parse : ∀ {ts l}, ReadsArgs L ts l → ∀ {t rest}, t = .rpar ∨ t = .rbracket → ParseArgs L (ts ++ t :: rest) l (t :: rest)
  | _, _, .nil, t, rest, ht => .nil (by rcases ht with rfl | rfl <;> simp)
  | ts, _, .one h, t, rest, ht => by
    obtain ⟨hne, _, h1, h2⟩ := h.head
    have hh : (ts ++ t :: rest).head? = ts.head? := by
      cases ts with
      | nil => exact absurd rfl hne
      | cons => rfl
    refine .one (by rw [hh]; exact fun h => h.elim h1 h2) (h.parse (.of_closing ?_) (.stop (.cons ?_))) ?_ <;> rcases ht with rfl | rfl <;> simp [continues]
  | _, _, .cons (ts := ts) h ha _, t, rest, ht => by
    obtain ⟨hne, _, h1, h2⟩ := h.head
    rw [List.append_assoc, List.cons_append]
    have hh : ∀ us, (ts ++ us).head? = ts.head? := by
      intro us
      cases ts with
      | nil => exact absurd rfl hne
      | cons => rfl
    exact .cons (by rw [hh]; exact fun h => h.elim h1 h2) (h.parse (.of_closing fun j => rfl) (.stop (.cons rfl))) (ha.parse ht)
end

/-- A text has at most one tree. -/
theorem Reads.unique {ts : Toks} {e e' : E} (h : Reads L 0 ts e) (h' : Reads L 0 ts e') : e' = e := by
  have h1 := h.parse (rest := []) .nil (.stop .nil)
  have h2 := h'.parse (rest := []) .nil (.stop .nil)
  exact (h2.det h1).1

end Wf.Gen.Text
