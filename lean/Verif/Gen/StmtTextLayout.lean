import Verif.Gen.StmtTextUnique
import Verif.Gen.TextLemmas

/-!
# Layout: spaces, line breaks, indentation and comments
-/

namespace Wf.Gen.Text

variable {L : Lang}

def Tok.isComment : Tok → Bool
  | .comment _ => true
  | _ => false

/-- Line breaks, indentation and comments. -/
def Tok.isLayout : Tok → Bool
  | .comment _ | .nl | .indent _ => true
  | _ => false

def NoComment (ts : Toks) : Prop := ∀ t ∈ ts, t.isComment = false

def NoLayout (ts : Toks) : Prop := ∀ t ∈ ts, t.isLayout = false

theorem NoLayout.noComment {ts : Toks} (h : NoLayout ts) : NoComment ts := fun t ht => by
  have := h t ht
  cases t <;> first | rfl | (exfalso; exact Bool.noConfusion this)

theorem NoComment.nil : NoComment [] := fun _ h => absurd h List.not_mem_nil

theorem NoComment.cons {t : Tok} {ts : Toks} (h' : NoComment ts) (h : t.isComment = false := by rfl) : NoComment (t :: ts) := fun x hx =>
  (List.mem_cons.1 hx).elim (fun e => e ▸ h) (h' x)

theorem NoComment.append {a b : Toks} (h : NoComment a) (h' : NoComment b) : NoComment (a ++ b) := fun x hx => (List.mem_append.1 hx).elim (h x) (h' x)

theorem NoComment.join {s : Toks} (hs : NoComment s) : ∀ {l : List Toks}, (∀ t ∈ l, NoComment t) → NoComment (joinWith s l)
  | [], _ => .nil
  | [t], h => h t List.mem_cons_self
  | t :: u :: l, h => by
    rw [joinWith]
    · exact ((h t List.mem_cons_self).append hs).append (NoComment.join hs fun x hx => h x (List.mem_cons_of_mem _ hx))
    · intro e; cases e

theorem NoComment.indentAfter {n : Nat} : ∀ {ts : Toks}, NoComment ts → NoComment (indentAfter n ts)
  | [], _ => .nil
  | t :: ts, h => by
    have ht := h t List.mem_cons_self
    have ih := NoComment.indentAfter (n := n) (ts := ts) fun x hx => h x (List.mem_cons_of_mem _ hx)
    cases t <;> first
      | exact ih.cons ht
      | (rw [Text.indentAfter]; split
         · exact .cons .nil
         · exact .cons (.cons ih))

theorem NoComment.indented {n : Nat} {a b c : Toks} (ha : NoComment a) (hb : NoComment b) (hc : NoComment c) : NoComment (indented n a b c) :=
  ((ha.append (.cons hc.indentAfter)).append hb)

/-! ## Words -/

theorem plain_append {a b : Toks} (h : NoComment a) : plain false (a ++ b) = plain false a ++ plain false b := by
  induction a with
  | nil => rfl
  | cons t a ih =>
    have ih := ih fun x hx => h x (List.mem_cons_of_mem _ hx)
    have ht := h t List.mem_cons_self
    cases t <;> first | (exfalso; exact Bool.noConfusion ht) | simp only [List.cons_append, plain, ih]

theorem plain_nl (c : Bool) (a b : Toks) : plain c (a ++ .nl :: b) = plain c a ++ .sp :: plain false b := by
  induction a generalizing c with
  | nil => simp [plain]
  | cons t a ih =>
    cases c
    · cases t <;> simp only [List.cons_append, plain, ih]
    · cases t <;> simp only [List.cons_append, plain, ih]

theorem plain_id {a : Toks} (h : NoLayout a) : plain false a = a := by
  induction a with
  | nil => rfl
  | cons t a ih =>
    have ih := ih fun x hx => h x (List.mem_cons_of_mem _ hx)
    have ht := h t List.mem_cons_self
    cases t <;> first | (exfalso; exact Bool.noConfusion ht) | simp only [plain, ih]

/-- Tokens that are kept as they are. -/
def Tok.kept : Tok → Bool
  | .sp | .minus | .nl | .indent _ | .comment _ => false
  | _ => true

theorem plain_kept {t : Tok} (h : t.kept = true) (ts : Toks) : plain false (t :: ts) = t :: plain false ts := by
  cases t <;> first | (exfalso; exact Bool.noConfusion h) | rfl

@[simp] theorem words_nil : words L [] = [] := rfl

theorem words_cons {t : Tok} {ts : Toks} (h : t.kept = true := by rfl) : words L (t :: ts) = t :: words L ts := by
  rw [words, plain_kept h, tokens_cons (by rintro rfl; cases h) (.inl (by rintro rfl; cases h))]
  rfl

theorem words_sp (ts : Toks) : words L (.sp :: ts) = words L ts := rfl

theorem words_newline (ts : Toks) : words L (.nl :: ts) = words L ts := rfl

theorem words_indent (n : Nat) (ts : Toks) : words L (.indent n :: ts) = words L ts := rfl

theorem words_app {a b : Toks} {t : Tok} (h : NoComment a) (ht : t ≠ .minus) : words L (a ++ t :: b) = words L a ++ words L (t :: b) := by
  rw [words, plain_append h, tokens_append]
  · rfl
  · cases t <;> simp_all [plain]

theorem words_nl (a b : Toks) : words L (a ++ .nl :: b) = words L a ++ words L b := by
  rw [words, plain_nl, tokens_append _ _ (by simp)]
  rfl

theorem words_expr {a : Toks} (h : NoLayout a) : words L a = tokens L a := by rw [words, plain_id h]

/-- Equal but for repeated spaces. -/
inductive SpEq : Toks → Toks → Prop
  | nil : SpEq [] []
  | cons {t a b} : SpEq a b → SpEq (t :: a) (t :: b)
  | dup {a b} : SpEq a b → SpEq (.sp :: .sp :: a) (.sp :: b)

theorem SpEq.tokens {a b : Toks} (h : SpEq a b) : tokens L a = tokens L b ∧ tokens L (.minus :: a) = tokens L (.minus :: b) := by
  induction h with
  | nil => exact ⟨rfl, rfl⟩
  | @cons t a b _ ih =>
    by_cases hs : t = .sp
    · subst hs; exact ⟨ih.1, by rw [tokens_minus_sp, tokens_minus_sp, ih.1]⟩
    · by_cases hm : t = .minus
      · subst hm
        refine ⟨ih.2, ?_⟩
        simp only [Text.tokens]
        rw [ih.1, ih.2]
      · have e : ∀ x : Toks, Text.tokens L (t :: x) = t :: Text.tokens L x := fun x => tokens_cons hs (.inl hm)
        have e' : ∀ x : Toks, Text.tokens L (.minus :: t :: x) = .minus :: t :: Text.tokens L x := fun x => by
          rw [tokens_cons (by simp) (.inr (.inl (by simpa using hm))), e]
        exact ⟨by rw [e, e, ih.1], by rw [e', e', ih.1]⟩
  | dup _ ih => exact ⟨ih.1, by rw [tokens_minus_sp, tokens_minus_sp, tokens_sp, ih.1]⟩

theorem SpEq.refl : ∀ a : Toks, SpEq a a
  | [] => .nil
  | _ :: a => .cons (SpEq.refl a)

theorem plain_indentAfter (n : Nat) (c : Bool) (ts : Toks) : SpEq (plain c (indentAfter n ts)) (plain c ts) := by
  induction ts generalizing c with
  | nil => exact .nil
  | cons t ts ih =>
    cases t with
    | nl =>
      rw [indentAfter]
      by_cases h : ts = []
      · rw [if_pos h, h]; exact .refl _
      · rw [if_neg h]
        cases c <;> exact .dup (ih false)
    | indent m => cases c <;> first | exact .cons (ih false) | exact ih true
    | comment s => cases c <;> first | exact .cons (ih true) | exact ih true
    | _ => cases c <;> first | exact .cons (ih false) | exact ih true

theorem words_indentAfter (n : Nat) (ts : Toks) : words L (indentAfter n ts) = words L ts := (plain_indentAfter n false ts).tokens.1

theorem mem_tokens {t : Tok} (h : t ≠ .sp) (h' : t ≠ .minus) {ts : Toks} (ht : t ∈ ts) : t ∈ tokens L ts := by
  obtain ⟨a, b, rfl⟩ := List.append_of_mem ht
  rw [tokens_append_cons _ _ h', tokens_cons h (.inl h')]
  simp

theorem Reads.noLayout {k : Nat} {ts : Toks} {e : E} (h : Reads L k (tokens L ts) e) : NoLayout ts := by
  intro t ht
  cases hl : t.isLayout with
  | false => rfl
  | true =>
    have := h.allowed t (mem_tokens (by rintro rfl; cases hl) (by rintro rfl; cases hl) ht)
    cases t <;> first | (exfalso; exact Bool.noConfusion hl) | (exfalso; exact Bool.noConfusion this)

/-! ## Brackets and layout -/

/-- The brackets of a text. -/
def brackets (ts : Toks) : Toks := ts.filter fun t => t.opens || t.closes

/-- The depth is never zero. -/
def Never : Nat → Toks → Prop
  | d, [] => d ≠ 0
  | d, t :: ts => d ≠ 0 ∧ Never (t.depth d) ts

theorem depth_same {t : Tok} (h : (t.opens || t.closes) = false) (d : Nat) : t.depth d = d := by
  simp only [Bool.or_eq_false_iff] at h
  simp [Tok.depth, h.1, h.2]

theorem Never.ne {d : Nat} {ts : Toks} (h : Never d ts) : d ≠ 0 := by
  cases ts with
  | nil => exact h
  | cons t ts => exact h.1

theorem never_brackets {d : Nat} {ts : Toks} : Never d ts ↔ Never d (brackets ts) := by
  induction ts generalizing d with
  | nil => exact Iff.rfl
  | cons t ts ih =>
    unfold brackets
    cases hb : (t.opens || t.closes) with
    | false =>
      rw [List.filter_cons_of_neg (by simp [hb])]
      simp only [Never, depth_same hb]
      exact ⟨fun h => ih.1 h.2, fun h => ⟨Never.ne h, ih.2 h⟩⟩
    | true =>
      rw [List.filter_cons_of_pos (by simp [hb])]
      simp only [Never]
      exact and_congr Iff.rfl ih

theorem depth_brackets (d : Nat) (ts : Toks) : depthAfter d ts = depthAfter d (brackets ts) := by
  induction ts generalizing d with
  | nil => rfl
  | cons t ts ih =>
    unfold brackets
    cases hb : (t.opens || t.closes) with
    | false =>
      rw [List.filter_cons_of_neg (by simp [hb])]
      simp only [depthAfter, depth_same hb]
      exact ih d
    | true =>
      rw [List.filter_cons_of_pos (by simp [hb])]
      exact ih _

theorem bal_iff {ts : Toks} : Bal ts ↔ (∀ d, depthAfter d ts = d) ∧ ∀ d, Never (d + 1) ts := by
  have h1 : ∀ (ts : Toks) (d : Nat), depthAfter d ts ≠ 0 → splitAt (fun _ => true) d ts = none → Never d ts := by
    intro ts
    induction ts with
    | nil => exact fun d h _ => h
    | cons t ts ih =>
      intro d h hs
      rw [splitAt] at hs
      by_cases hd : d = 0
      · simp [hd] at hs
      · rw [if_neg (fun e => hd e.1), Option.map_eq_none_iff] at hs
        exact ⟨hd, ih _ h hs⟩
  have h2 : ∀ (ts : Toks) (d : Nat) (p : Tok → Bool), Never d ts → splitAt p d ts = none := by
    intro ts
    induction ts with
    | nil => exact fun _ _ _ => rfl
    | cons t ts ih =>
      intro d p h
      rw [splitAt, if_neg (fun e => h.1 e.1), ih _ p h.2]
      rfl
  constructor
  · intro h
    exact ⟨h.depth, fun d => h1 ts (d + 1) (by rw [h.depth]; omega) (h.inside _ d)⟩
  · intro h
    exact ⟨h.1, fun p d => h2 ts (d + 1) p (h.2 d)⟩

theorem bal_brackets {a b : Toks} (h : brackets a = brackets b) : Bal a ↔ Bal b := by
  have e : ∀ c : Toks, Bal c ↔ (∀ d, depthAfter d (brackets c) = d) ∧ ∀ d, Never (d + 1) (brackets c) := fun c => by
    rw [bal_iff]
    simp only [← depth_brackets]
    exact and_congr Iff.rfl (forall_congr' fun d => never_brackets)
  rw [e, e, h]

theorem brackets_append (a b : Toks) : brackets (a ++ b) = brackets a ++ brackets b := List.filter_append ..

theorem brackets_cons {t : Tok} (h : (t.opens || t.closes) = false) (ts : Toks) : brackets (t :: ts) = brackets ts :=
  List.filter_cons_of_neg (by simp [h])

theorem brackets_indentAfter (n : Nat) (ts : Toks) : brackets (indentAfter n ts) = brackets ts := by
  induction ts with
  | nil => rfl
  | cons t ts ih =>
    by_cases h : t = .nl
    · subst h
      rw [indentAfter]
      by_cases he : ts = []
      · rw [if_pos he, he]
      · rw [if_neg he, brackets_cons rfl, brackets_cons rfl, brackets_cons rfl, ih]
    · have e : indentAfter n (t :: ts) = t :: indentAfter n ts := by
        rw [indentAfter]
        exact fun h' => h h'
      rw [e]
      unfold brackets at ih ⊢
      rw [List.filter_cons, List.filter_cons, ih]

theorem brackets_step {t u : Tok} {a b : Toks} (h : brackets a = brackets b) (h1 : t = u ∨ ((t.opens || t.closes) = false ∧ (u.opens || u.closes) = false)) :
    brackets (t :: a) = brackets (u :: b) := by
  rcases h1 with rfl | ⟨h1, h2⟩
  · unfold brackets at *
    rw [List.filter_cons, List.filter_cons, h]
  · rw [brackets_cons h1, brackets_cons h2, h]

theorem brackets_plain {ts : Toks} (h : NoComment ts) : brackets (plain false ts) = brackets ts := by
  induction ts with
  | nil => rfl
  | cons t ts ih =>
    have ih := ih fun x hx => h x (List.mem_cons_of_mem _ hx)
    have ht := h t List.mem_cons_self
    cases t <;> first
      | (exfalso; exact Bool.noConfusion ht)
      | exact brackets_step ih (.inl rfl)
      | exact brackets_step (t := .sp) ih (.inr ⟨rfl, rfl⟩)

theorem brackets_tokens : ∀ ts : Toks, brackets (tokens L ts) = brackets ts
  | [] => rfl
  | [t] => by cases t <;> rfl
  | t :: u :: ts => by
    have ih := brackets_tokens ts
    have ih' := brackets_tokens (u :: ts)
    by_cases hs : t = .sp
    · subst hs; rw [tokens_sp, ih', brackets_cons rfl (u :: ts)]
    · by_cases hm : t = .minus ∧ u = .minus
      · obtain ⟨rfl, rfl⟩ := hm
        simp only [tokens]
        by_cases hL : L = .cpp
        · rw [if_pos hL, brackets_cons rfl, brackets_cons rfl, brackets_cons rfl, ih]
        · rw [if_neg hL, brackets_cons rfl, ih', brackets_cons rfl (.minus :: ts)]
      · rw [tokens_cons hs]
        · unfold brackets at ih' ⊢
          rw [List.filter_cons, List.filter_cons (xs := u :: ts), ih']
        · by_cases ht : t = .minus
          · exact .inr (.inl (by simpa using fun hu => hm ⟨ht, hu⟩))
          · exact .inl ht

theorem brackets_words {ts : Toks} (h : NoComment ts) : brackets (words L ts) = brackets ts := by rw [words, brackets_tokens, brackets_plain h]

theorem bal_words {ts : Toks} (h : NoComment ts) (hb : Bal (words L ts)) : Bal ts := (bal_brackets (brackets_words h)).1 hb

theorem clean_of_mem {p : Tok → Bool} {ts : Toks} (h : ∀ t ∈ ts, p t = false) : Clean p ts := by
  have : ∀ d, splitAt p d ts = none := by
    induction ts with
    | nil => exact fun _ => rfl
    | cons t ts ih =>
      intro d
      rw [splitAt, if_neg (by simp [h t List.mem_cons_self]), ih (fun x hx => h x (List.mem_cons_of_mem _ hx))]
      rfl
  exact this 0

/-! ## Lines -/

/-- Adds a token to the first line. -/
def addFirst (t : Tok) : List Toks → List Toks
  | [] => [[t]]
  | l :: ls => (t :: l) :: ls

theorem splitLines_cons {d : Nat} {t : Tok} (ts : Toks) (h : t ≠ .nl) (h' : d = 0 ∨ ∀ n, t ≠ .indent n) :
    splitLines d (t :: ts) = addFirst t (splitLines (t.depth d) ts) := by
  rw [splitLines]
  · cases splitLines (t.depth d) ts <;> rfl
  · intro _ e; exact h e
  · intro _ _ e; exact h e
  · intro m n e1 e2
    rcases h' with h' | h'
    · omega
    · exact h' n e2

theorem addFirst_ne (t : Tok) (l : List Toks) : addFirst t l ≠ [] := by cases l <;> simp [addFirst]

theorem splitLines_ne (d : Nat) (ts : Toks) : splitLines d ts ≠ [] := by
  induction ts generalizing d with
  | nil => simp [splitLines]
  | cons t ts ih =>
    by_cases hn : t = .nl
    · subst hn
      cases d with
      | zero => simp [splitLines]
      | succ d => exact ih (d + 1)
    · by_cases hi : d = 0 ∨ ∀ n, t ≠ .indent n
      · rw [splitLines_cons _ hn hi]; exact addFirst_ne _ _
      · obtain ⟨hd, n, rfl⟩ : d ≠ 0 ∧ ∃ n, t = .indent n := by
          constructor
          · exact fun e => hi (.inl e)
          · exact Classical.byContradiction fun e => hi (.inr fun n en => e ⟨n, en⟩)
        obtain ⟨d, rfl⟩ : ∃ e, d = e + 1 := ⟨d - 1, by omega⟩
        exact ih (d + 1)

theorem splitLines_append {d : Nat} {a b : Toks} (h : depthAfter d a = 0) : splitLines d (a ++ .nl :: b) = splitLines d a ++ splitLines 0 b := by
  induction a generalizing d with
  | nil => cases h; simp [splitLines]
  | cons t a ih =>
    have ih := ih (d := t.depth d) h
    by_cases hn : t = .nl
    · subst hn
      change splitLines d (a ++ .nl :: b) = splitLines d a ++ splitLines 0 b at ih
      cases d with
      | zero => simp only [List.cons_append, splitLines, ih]
      | succ d => simp only [List.cons_append, splitLines, ih]
    · by_cases hi : d = 0 ∨ ∀ n, t ≠ .indent n
      · rw [List.cons_append, splitLines_cons _ hn hi, splitLines_cons _ hn hi, ih]
        cases hs : splitLines (t.depth d) a with
        | nil => exact absurd hs (splitLines_ne _ _)
        | cons l ls => rfl
      · obtain ⟨hd, n, rfl⟩ : d ≠ 0 ∧ ∃ n, t = .indent n := by
          constructor
          · exact fun e => hi (.inl e)
          · exact Classical.byContradiction fun e => hi (.inr fun n en => e ⟨n, en⟩)
        obtain ⟨d, rfl⟩ : ∃ e, d = e + 1 := ⟨d - 1, by omega⟩
        exact ih

/-- A text and its lines. -/
def HasLines (ts : Toks) (ls : List (Nat × Toks)) : Prop := depthAfter 0 ts = 0 ∧ pyLines ts = ls

theorem HasLines.nil : HasLines [] [] := ⟨rfl, rfl⟩

theorem HasLines.nl {a b : Toks} {la lb : List (Nat × Toks)} (ha : HasLines a la) (hb : HasLines b lb) : HasLines (a ++ .nl :: b) (la ++ lb) := by
  refine ⟨?_, ?_⟩
  · rw [depthAfter_append, ha.1]
    exact hb.1
  · rw [pyLines, splitLines_append ha.1, List.filterMap_append, ← hb.2, ← ha.2]
    rfl

/-- A text that is one line. -/
theorem HasLines.line {ts : Toks} {ws : Toks} {i : Nat} (hc : NoComment ts) (hw : words .python ts = ws) (hb : Bal ws) (hn : Clean (· = .nl) ts)
    (hi : indentation ts = i) (hne : ws ≠ []) : HasLines ts [(i, ws)] := by
  subst hw
  have hbal := bal_words hc hb
  refine ⟨hbal.depth 0, ?_⟩
  have key : ∀ (ts : Toks) (d : Nat), NoComment ts → splitAt (· = .nl) d ts = none →
      ∃ x, splitLines d ts = [x] ∧ words .python x = words .python ts ∧ (d = 0 → indentation x = indentation ts) := by
    intro ts
    induction ts with
    | nil => exact fun d _ _ => ⟨[], rfl, rfl, fun _ => rfl⟩
    | cons t ts ih =>
      intro d hc hs
      rw [splitAt] at hs
      by_cases hd : d = 0 ∧ decide (t = .nl) = true
      · rw [if_pos hd] at hs; cases hs
      rw [if_neg hd, Option.map_eq_none_iff] at hs
      obtain ⟨x, hx, hwx, hix⟩ := ih _ (fun y hy => hc y (List.mem_cons_of_mem _ hy)) hs
      have hw : words .python (t :: x) = words .python (t :: ts) := by
        have ht := hc t List.mem_cons_self
        by_cases hk : t.kept = true
        · rw [words_cons hk, words_cons hk, hwx]
        · cases t with
          | sp => exact hwx
          | nl => exact hwx
          | indent n => exact hwx
          | comment s => cases ht
          | minus =>
            have e : ∀ y : Toks, words .python (.minus :: y) = .minus :: words .python y := fun y => by
              change tokens .python (.minus :: plain false y) = _
              rw [tokens_cons (by simp) (.inr (.inr (by simp)))]; rfl
            rw [e, e, hwx]
          | _ => exact absurd rfl hk
      by_cases hn : t = .nl
      · subst hn
        have hd0 : d ≠ 0 := fun e => hd ⟨e, rfl⟩
        obtain ⟨d, rfl⟩ : ∃ e, d = e + 1 := ⟨d - 1, by omega⟩
        exact ⟨x, hx, by rw [hwx]; rfl, fun e => by omega⟩
      · by_cases hi : d = 0 ∨ ∀ n, t ≠ .indent n
        · refine ⟨t :: x, by rw [splitLines_cons _ hn hi, hx]; rfl, hw, fun e => ?_⟩
          subst e
          cases t with
          | indent n => simp only [indentation]; rw [hix rfl]
          | _ => rfl
        · obtain ⟨hd, n, rfl⟩ : d ≠ 0 ∧ ∃ n, t = .indent n := by
            constructor
            · exact fun e => hi (.inl e)
            · exact Classical.byContradiction fun e => hi (.inr fun n en => e ⟨n, en⟩)
          obtain ⟨d, rfl⟩ : ∃ e, d = e + 1 := ⟨d - 1, by omega⟩
          exact ⟨x, hx, by rw [hwx]; rfl, fun e => by omega⟩
  obtain ⟨x, hx, hwx, hix⟩ := key ts 0 hc hn
  rw [pyLines, hx]
  simp only [List.filterMap_cons, lineOf, hwx, if_neg hne, hix rfl, hi, List.filterMap_nil]

theorem HasLines.comment (s : String) : HasLines [.comment s] [] := ⟨rfl, rfl⟩

theorem HasLines.join : ∀ {l : List Toks} {ls : List (List (Nat × Toks))}, List.Forall₂ HasLines l ls → HasLines (joinWith [.nl] l) ls.flatten
  | _, _, .nil => .nil
  | [t], _, .cons h .nil => by simpa [joinWith] using h
  | t :: u :: l, _, .cons h (.cons h' hr) => by
    have := h.nl (HasLines.join (.cons h' hr))
    rw [joinWith, List.append_assoc]
    · exact this
    · intro e; cases e

/-- The lines of a block are moved to the right. -/
def shift (n : Nat) (x : Nat × Toks) : Nat × Toks := (n + x.1, x.2)

theorem lineOf_indent (n : Nat) (l : Toks) : lineOf (.indent n :: l) = (lineOf l).map (shift n) := by
  unfold lineOf
  rw [words_indent]
  by_cases h : words .python l = []
  · rw [if_pos h, if_pos h]; rfl
  · rw [if_neg h, if_neg h]; rfl

theorem splitLines_indentAfter (n d : Nat) (ts : Toks) : ∃ h t t', splitLines d ts = h :: t ∧ splitLines d (indentAfter n ts) = h :: t' ∧
    t'.filterMap lineOf = (t.filterMap lineOf).map (shift n) := by
  induction ts generalizing d with
  | nil => exact ⟨[], [], [], rfl, rfl, rfl⟩
  | cons t ts ih =>
    by_cases hn : t = .nl
    · subst hn
      rw [indentAfter]
      by_cases he : ts = []
      · rw [if_pos he, he]
        cases d with
        | zero => exact ⟨[], [[]], [[]], rfl, rfl, rfl⟩
        | succ d => exact ⟨[], [], [], rfl, rfl, rfl⟩
      · rw [if_neg he]
        obtain ⟨h, t, t', e1, e2, e3⟩ := ih d
        cases d with
        | zero =>
          refine ⟨[], h :: t, (.indent n :: h) :: t', by simp only [splitLines, e1], ?_, ?_⟩
          · rw [splitLines, splitLines_cons _ (by simp) (.inl rfl)]
            change _ :: addFirst _ (splitLines 0 _) = _
            rw [e2]; rfl
          · rw [List.filterMap_cons, List.filterMap_cons, lineOf_indent, e3]
            cases lineOf h <;> rfl
        | succ d => exact ⟨h, t, t', by rw [splitLines, e1], by rw [splitLines, splitLines, e2], e3⟩
    · have e : indentAfter n (t :: ts) = t :: indentAfter n ts := by
        rw [indentAfter]
        exact fun h' => hn h'
      rw [e]
      by_cases hi : d = 0 ∨ ∀ n, t ≠ .indent n
      · obtain ⟨h, r, r', e1, e2, e3⟩ := ih (t.depth d)
        exact ⟨t :: h, r, r', by rw [splitLines_cons _ hn hi, e1]; rfl, by rw [splitLines_cons _ hn hi, e2]; rfl, e3⟩
      · obtain ⟨hd, m, rfl⟩ : d ≠ 0 ∧ ∃ n, t = .indent n := by
          constructor
          · exact fun e => hi (.inl e)
          · exact Classical.byContradiction fun e => hi (.inr fun n en => e ⟨n, en⟩)
        obtain ⟨d, rfl⟩ : ∃ e, d = e + 1 := ⟨d - 1, by omega⟩
        exact ih (d + 1)

theorem HasLines.indent (n : Nat) {ts : Toks} {ls : List (Nat × Toks)} (h : HasLines ts ls) : HasLines (.indent n :: indentAfter n ts) (ls.map (shift n)) := by
  refine ⟨?_, ?_⟩
  · rw [depth_brackets, brackets_cons rfl, brackets_indentAfter, ← depth_brackets, h.1]
  · obtain ⟨x, t, t', e1, e2, e3⟩ := splitLines_indentAfter n 0 ts
    rw [← h.2, pyLines, pyLines, splitLines_cons _ (by simp) (.inl rfl)]
    change (addFirst _ (splitLines 0 _)).filterMap _ = _
    rw [e1, e2, addFirst, List.filterMap_cons, List.filterMap_cons, lineOf_indent, e3]
    cases lineOf x <;> rfl

end Wf.Gen.Text
