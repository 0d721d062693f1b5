import Verif.Gen.TextUnique
import Mathlib.Data.List.Forall2

/-!
# The text of an operation is derived by the grammar: facts that the three languages share
-/

namespace Wf.Gen.Text

variable {L : Lang}

theorem tokens_cons {t : Tok} {ts : Toks} (h : t ≠ .sp) (h' : t ≠ .minus ∨ ts.head? ≠ some .minus ∨ L ≠ .cpp) : tokens L (t :: ts) = t :: tokens L ts := by
  by_cases hm : t = .minus
  · subst hm
    cases ts with
    | nil => rfl
    | cons u ts =>
      by_cases hu : u = .minus
      · subst hu
        have hL : L ≠ .cpp := by rcases h' with h' | h' | h' <;> simp_all
        rw [tokens, if_neg hL]
      · rw [tokens]
        · exact fun h => by cases h
        · intro ts' _ hc; cases hc; exact hu rfl
  · rw [tokens]
    · exact h
    · intro ts' hc; exact absurd hc hm

@[simp] theorem tokens_nil : tokens L [] = [] := rfl
@[simp] theorem tokens_sp (ts : Toks) : tokens L (.sp :: ts) = tokens L ts := rfl
theorem tokens_minus_sp (ts : Toks) : tokens L (.minus :: .sp :: ts) = .minus :: tokens L ts := rfl

theorem tokens_append : ∀ (a b : Toks), b.head? ≠ some .minus → tokens L (a ++ b) = tokens L a ++ tokens L b
  | [], b, _ => rfl
  | [t], b, h => by
    by_cases hs : t = .sp
    · subst hs; simp
    · rw [List.singleton_append, tokens_cons hs (.inr (.inl h)), tokens_cons hs (.inr (.inl (by simp)))]
      rfl
  | t :: u :: a, b, h => by
    by_cases hs : t = .sp
    · subst hs
      exact tokens_append (u :: a) b h
    · by_cases hm : t = .minus ∧ u = .minus
      · obtain ⟨rfl, rfl⟩ := hm
        by_cases hL : L = .cpp
        · simp only [List.cons_append, tokens, if_pos hL]
          rw [tokens_append a b h]
        · rw [tokens_cons hs (.inr (.inr hL)), List.cons_append, tokens_cons hs (.inr (.inr hL)), tokens_append (.minus :: a) b h]
          rfl
      · have h1 : ∀ ts : Toks, t ≠ .minus ∨ (u :: ts).head? ≠ some .minus ∨ L ≠ .cpp := by
          intro ts
          by_cases ht : t = .minus
          · exact .inr (.inl (by simpa using fun hu => hm ⟨ht, hu⟩))
          · exact .inl ht
        rw [tokens_cons hs (h1 _), List.cons_append, List.cons_append, tokens_cons hs (h1 _), ← List.cons_append, tokens_append (u :: a) b h]
        rfl

theorem tokens_append_cons {t : Tok} (a b : Toks) (h : t ≠ .minus) : tokens L (a ++ t :: b) = tokens L a ++ tokens L (t :: b) :=
  tokens_append a _ (by simpa using h)

theorem Reads.down {ts : Toks} {e : E} {k k' : Nat} (h : Reads L k' ts e) (hk : k ≤ k') (h7 : k' ≤ 7) : Reads L k ts e := by
  obtain ⟨n, rfl⟩ := Nat.exists_eq_add_of_le hk
  clear hk
  induction n with
  | zero => exact h
  | succ n ih => exact ih (Reads.up (by omega) h) (by omega)

/-- Sums and products. -/
theorem reads_foldl {op : BinOp} (ho : op = .add ∨ op = .mul) {l : List Toks} {es : List E} (h : List.Forall₂ (fun ts e => Reads L (op.level L + 1) (tokens L ts) e) l es) :
    ∀ {pre : Toks} {a : E}, Reads L (op.level L) pre a → l ≠ [] →
      Reads L (op.level L) (pre ++ op.tok :: tokens L (joinWith [.sp, op.tok, .sp] l)) (es.foldl (.bin op) a) := by
  have hl : op.left L = op.level L := by rcases ho with rfl | rfl <;> simp [BinOp.left]
  have hn : ¬(L = .rust ∧ op = .lt ∧ endsInType ([] : Toks) = true) := by rcases ho with rfl | rfl <;> simp
  have hn' : ∀ ts : Toks, ¬(L = .rust ∧ op = .lt ∧ endsInType ts = true) := by rcases ho with rfl | rfl <;> simp
  have ht : op.tok ≠ .sp ∧ op.tok ≠ .minus := by rcases ho with rfl | rfl <;> simp [BinOp.tok]
  induction h with
  | nil => intro pre a _ h; exact absurd rfl h
  | @cons t e ts es h1 h2 ih =>
    intro pre a ha _
    have hb : Reads L (op.level L) (pre ++ op.tok :: tokens L t) (.bin op a e) := .bin (by rw [hl]; exact ha) h1 (hn' _)
    cases ts with
    | nil => cases h2; exact hb
    | cons u us =>
      have := ih hb (by simp)
      have he : tokens L (joinWith [.sp, op.tok, .sp] (t :: u :: us)) = tokens L t ++ op.tok :: tokens L (joinWith [.sp, op.tok, .sp] (u :: us)) := by
        rw [joinWith, List.append_assoc]
        change tokens L (t ++ .sp :: op.tok :: .sp :: _) = _
        rw [tokens_append_cons _ _ (by simp), tokens_sp, tokens_cons ht.1 (.inl ht.2), tokens_sp]
        · rfl
        · intro h; cases h
      rw [he]
      simpa using this

theorem reads_fold {op : BinOp} (ho : op = .add ∨ op = .mul) {l : List Toks} {es : List E} (h : List.Forall₂ (fun ts e => Reads L (op.level L + 1) (tokens L ts) e) l es)
    (hl : l ≠ []) : Reads L (op.level L) (tokens L (joinWith [.sp, op.tok, .sp] l)) (fold op es) := by
  have hb := level_bound (L := L) op
  cases h with
  | nil => exact absurd rfl hl
  | @cons t e ts es h1 h2 =>
    cases ts with
    | nil => cases h2; exact h1.down (by omega) (by omega)
    | cons u us =>
      have ht : op.tok ≠ .sp ∧ op.tok ≠ .minus := by rcases ho with rfl | rfl <;> simp [BinOp.tok]
      have := reads_foldl ho h2 (h1.down (k := op.level L) (by omega) (by omega)) (by simp)
      have he : tokens L (joinWith [.sp, op.tok, .sp] (t :: u :: us)) = tokens L t ++ op.tok :: tokens L (joinWith [.sp, op.tok, .sp] (u :: us)) := by
        rw [joinWith, List.append_assoc]
        change tokens L (t ++ .sp :: op.tok :: .sp :: _) = _
        rw [tokens_append_cons _ _ (by simp), tokens_sp, tokens_cons ht.1 (.inl ht.2), tokens_sp]
        · rfl
        · intro h; cases h
      rw [he]
      exact this

/-- Argument lists. -/
theorem reads_args {l : List Toks} {es : List E} (h : List.Forall₂ (fun ts e => Reads L 0 (tokens L ts) e) l es) :
    ReadsArgs L (tokens L (joinWith [.comma, .sp] l)) es := by
  induction h with
  | nil => exact .nil
  | @cons t e ts es h1 h2 ih =>
    cases ts with
    | nil => cases h2; exact .one h1
    | cons u us =>
      have he : tokens L (joinWith [.comma, .sp] (t :: u :: us)) = tokens L t ++ .comma :: tokens L (joinWith [.comma, .sp] (u :: us)) := by
        rw [joinWith, List.append_assoc]
        change tokens L (t ++ .comma :: .sp :: _) = _
        rw [tokens_append_cons _ _ (by simp), tokens_cons (by simp) (.inl (by simp)), tokens_sp]
        · rfl
        · intro h; cases h
      rw [he]
      exact .cons h1 ih (by cases h2; simp)

theorem reads_int {n : Int} {s : String} (h : L = .cpp → n.natAbs < 2 ^ 63) : Reads L (if n < 0 then 6 else 7) (tokens L (intToks n s)) (intE n s) := by
  unfold intToks intE
  by_cases hn : n < 0
  · rw [if_pos hn, if_pos hn, if_pos hn]
    exact .neg (.up (by omega) (.int h))
  · rw [if_neg hn, if_neg hn, if_neg hn]
    exact .int h

theorem reads_float {s : Bool} {d : String} : Reads L (if s then 6 else 7) (tokens L (floatToks s d)) (floatE s d) := by
  cases s
  · exact .name
  · exact .neg (.up (by omega) .name)

theorem reads_two {i j : Nat} (h : L = .cpp → i < 2 ^ 63 ∧ j < 2 ^ 63) : ReadsArgs L [.int i "", .comma, .int j ""] [.int i "", .int j ""] :=
  .cons (ts := [.int i ""]) ((Reads.int fun hL => (h hL).1).down (by omega) (by omega)) (.one ((Reads.int fun hL => (h hL).2).down (by omega) (by omega))) (by simp)

/-- The level of the text of an operation. -/
def Tree.level (L : Lang) : Tree → Nat
  | .int n => if n < 0 then 6 else 7
  | .float s _ => if s then 6 else 7
  | .add _ => 3
  | .mul _ => 4
  | .div _ _ => 4
  | .neg _ => 6
  | .cmp op _ _ => (relOp op).level L
  | .cond _ _ _ => if L = .cpp then 0 else 7
  | .cast _ _ => if L = .rust then 5 else 7
  | .std f _ => if f = .signum ∧ L ≠ .python then 3 else if f = .floor ∧ L = .rust then 5 else 7
  | .call _ r _ _ => if L = .rust ∧ r = .scalar .floating then 5 else 7
  | .copy a => a.level L
  | _ => 7

theorem Tree.level_le (t : Tree) : t.level L ≤ 7 := by
  fun_induction Tree.level L t <;> try (first | omega | (split <;> omega) | assumption)
  rename_i op _ _; cases op <;> simp [relOp, BinOp.level]; split <;> omega

/-- An operand that is not in parentheses binds closely enough. -/
theorem Tree.level_operand {t : Tree} {p : Prec} (hr : t.risky L = false) (hp : ¬ t.prec.rank ≤ p.rank) :
    (p = .addition → 4 ≤ t.level L) ∧ (p = .multiplication → 5 ≤ t.level L) := by
  cases t with
  | std f l =>
    simp only [Tree.risky, decide_eq_false_iff_not] at hr
    simp only [Tree.level, if_neg hr]
    split <;> omega
  | call n r p l => simp only [Tree.level]; split <;> omega
  | int n => simp only [Tree.level]; split <;> omega
  | float n => simp only [Tree.level]; split <;> omega
  | cast n => simp only [Tree.level]; split <;> omega
  | copy a => simp [Tree.risky] at hr
  | cond a b c =>
    simp only [Tree.risky, decide_eq_false_iff_not] at hr
    simp [Tree.level, if_neg hr]
  | _ => (constructor <;> rintro rfl) <;> simp_all [Tree.level, Tree.prec, Prec.rank]

theorem Tree.level_neg {t : Tree} (hr : t.riskyNeg L = false) (hp : ¬ t.prec.rank ≤ Prec.multiplication.rank) : 6 ≤ t.level L := by
  cases t with
  | std f l =>
    simp only [Tree.riskyNeg, Tree.risky, Bool.or_eq_false_iff, decide_eq_false_iff_not, Tree.isAs, Bool.and_eq_false_iff] at hr
    simp only [Tree.level, if_neg hr.1]
    rw [if_neg fun h => hr.2.elim (fun h' => h' h.2) (fun h' => h' h.1)]
    omega
  | call n r p l =>
    simp only [Tree.riskyNeg, Tree.risky, Bool.or_eq_false_iff, decide_eq_false_iff_not, Tree.isAs, Bool.and_eq_false_iff] at hr
    simp only [Tree.level]
    rw [if_neg fun h => hr.2.elim (fun h' => h' h.1) (fun h' => h' h.2)]
    omega
  | int n => simp only [Tree.level]; split <;> omega
  | float n => simp only [Tree.level]; split <;> omega
  | cast n => simp_all [Tree.riskyNeg, Tree.risky, Tree.level, Tree.isAs]
  | copy a => simp [Tree.riskyNeg, Tree.risky] at hr
  | cond a b c => simp_all [Tree.riskyNeg, Tree.risky, Tree.level]
  | _ => simp_all [Tree.level, Tree.prec, Prec.rank]

theorem Tree.level_tight : ∀ {t : Tree}, t.isLoose L = false → 3 ≤ t.level L
  | .copy a, hr => Tree.level_tight (t := a) hr
  | .std f l, _ => by simp only [Tree.level]; split <;> (try split) <;> omega
  | .call n r p l, _ => by simp only [Tree.level]; split <;> omega
  | .int n, _ => by simp only [Tree.level]; split <;> omega
  | .float n _, _ => by simp only [Tree.level]; split <;> omega
  | .cast n _, _ => by simp only [Tree.level]; split <;> omega
  | .cond a b c, hr => by simp_all [Tree.isLoose, Tree.level]
  | .cmp a b c, hr => by simp [Tree.isLoose] at hr
  | .var _, _ | .arg _ _, _ | .bool _, _ | .euler, _ | .pi, _ | .add _, _ | .mul _, _ | .div _ _, _ | .neg _, _ | .field _ _, _ | .elem _ _ _, _ => by
    simp [Tree.level]

theorem Tree.level_object : ∀ {t : Tree}, t.isObject = true → t.level L = 7
  | .copy a, hr => Tree.level_object (t := a) hr
  | .call n r p l, hr => by cases r <;> simp_all [Tree.isObject, Tree.level]
  | .std f l, hr | .int n, hr | .float n _, hr | .cast n _, hr | .cond a b c, hr | .cmp a b c, hr | .bool _, hr | .euler, hr | .pi, hr | .add _, hr
  | .mul _, hr | .div _ _, hr | .neg _, hr => by simp [Tree.isObject] at hr
  | .var _, _ | .arg _ _, _ | .field _ _, _ | .elem _ _ _, _ => by simp [Tree.level]

theorem visitList_eq (p : Prec) (l : List Tree) : visitList p l = l.map fun t => wrap p t t.visit := by
  induction l with
  | nil => rfl
  | cons t ts ih => rw [visitList, ih]; rfl

theorem visitAll_eq (l : List Tree) : visitAll l = l.map Tree.visit := by
  induction l with
  | nil => rfl
  | cons t ts ih => rw [visitAll, ih]; rfl

theorem forall₂_of_mem {α β γ : Type} {R : β → γ → Prop} {f : α → β} {g : α → γ} {l : List α} (h : ∀ t ∈ l, R (f t) (g t)) : List.Forall₂ R (l.map f) (l.map g) := by
  induction l with
  | nil => exact .nil
  | cons t ts ih => exact .cons (h t List.mem_cons_self) (ih fun t ht => h t (List.mem_cons_of_mem _ ht))

end Wf.Gen.Text
