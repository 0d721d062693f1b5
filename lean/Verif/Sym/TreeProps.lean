import Verif.Sym.TreeModel
import Mathlib.Data.List.Sort

/-!
# The printed tree determines the expression (C74)
-/

namespace Wf.Sym.Tree
open Wf.Gen (Prim)

variable {F : Type}

/-! ## Specification -/

mutual
/-- The second expression is the first one with the terms of some sums and the factors of some products in another order. -/
inductive Reorders : Expr F → Expr F → Prop
  | node (h : Head F) (as bs : List (Expr F)) : ReordersAll as bs → Reorders (.node h as) (.node h bs)
  | terms (h : Head F) (as bs cs : List (Expr F)) : h = .add ∨ h = .mul → ReordersAll as bs → bs.Perm cs → Reorders (.node h as) (.node h cs)
inductive ReordersAll : List (Expr F) → List (Expr F) → Prop
  | nil : ReordersAll [] []
  | cons (a b : Expr F) (as bs : List (Expr F)) : Reorders a b → ReordersAll as bs → ReordersAll (a :: as) (b :: bs)
end

mutual
/-- All nodes of an expression. -/
def heads : Expr F → List (Head F)
  | .node h as => h :: headsAll as
def headsAll : List (Expr F) → List (Head F)
  | [] => []
  | a :: as => heads a ++ headsAll as
end

mutual
/-- Constants, variables and arguments have no operands, and all other nodes have some. -/
def Shaped : Expr F → Prop
  | .node h as => (isLeaf h = true ↔ as = []) ∧ ShapedAll as
def ShapedAll : List (Expr F) → Prop
  | [] => True
  | a :: as => Shaped a ∧ ShapedAll as
end

/-- Names contain no line break, and names of arguments no colon. -/
def Plain (digits : F → List Char) : Head F → Prop
  | .flt f => '\n' ∉ digits f
  | .var n _ => '\n' ∉ n.toList
  | .argVar n _ _ => '\n' ∉ n.toList
  | .symfn n => '\n' ∉ n.toList
  | .call f => '\n' ∉ f.name.toList
  | .typeArg n t => '\n' ∉ n.toList ∧ ':' ∉ n.toList ∧ '\n' ∉ t.name.toList
  | .construct t => '\n' ∉ t.name.toList
  | _ => True

/-- External functions and user-defined types with the same name are the same, and floats with the same digits too. -/
def Identified (digits : F → List Char) : Head F → Head F → Prop
  | .flt f, .flt g => digits f = digits g → f = g
  | .call f, .call g => f.name = g.name → f = g
  | .typeArg _ t, .typeArg _ u => t.name = u.name → t = u
  | .construct t, .construct u => t.name = u.name → t = u
  | _, _ => True

/-! ## Lines -/

mutual
/-- The indentations and nodes of the lines. -/
def items (ind : List Bool) : Expr F → List (List Bool × Head F)
  | .node h as => (ind, h) :: itemsAll ind as
def itemsAll (ind : List Bool) : List (Expr F) → List (List Bool × Head F)
  | [] => []
  | a :: as => items (ind ++ [!as.isEmpty]) a ++ itemsAll ind as
end

/-- The text of a line. -/
def lineText (digits : F → List Char) (p : List Bool × Head F) : List Char := indent p.1 ++ label digits p.2

mutual
theorem lines_items (digits : F → List Char) (ind : List Bool) : (e : Expr F) → Shaped e → lines digits ind e = .ok ((items ind e).map (lineText digits))
  | .node h as, hs => by
    unfold lines items
    cases hl : isLeaf h with
    | true =>
      have : as = [] := hs.1.1 hl
      subst this
      rfl
    | false =>
      have hne : as ≠ [] := fun he => by rw [hs.1.2 he] at hl; cases hl
      have : as.isEmpty = false := by cases as with | nil => exact absurd rfl hne | cons _ _ => rfl
      rw [if_neg (by simp), this, if_neg (by simp), linesAll_items digits ind as hs.2]
      rfl
theorem linesAll_items (digits : F → List Char) (ind : List Bool) :
    (as : List (Expr F)) → ShapedAll as → linesAll digits ind as = .ok ((itemsAll ind as).map (lineText digits))
  | [], _ => rfl
  | a :: as, hs => by
    unfold linesAll itemsAll
    rw [lines_items digits _ a hs.1, linesAll_items digits ind as hs.2, List.map_append]
    rfl
end

/-- The next line is not deeper than `ind`. -/
def Low (ind : List Bool) (r : List (List Bool × Head F)) : Prop := ∀ p, r.head? = some p → p.1.length ≤ ind.length

mutual
theorem items_inj (ind : List Bool) : (a b : Expr F) → (r s : List (List Bool × Head F)) → Low ind r → Low ind s →
    items ind a ++ r = items ind b ++ s → a = b ∧ r = s
  | .node h as, .node g bs, r, s, hr, hs, he => by
    unfold items at he
    rw [List.cons_append, List.cons_append] at he
    injection he with h1 h2
    obtain ⟨h3, h4⟩ := itemsAll_inj ind as bs r s hr hs h2
    exact ⟨by rw [(Prod.mk.inj h1).2, h3], h4⟩
theorem itemsAll_inj (ind : List Bool) : (as bs : List (Expr F)) → (r s : List (List Bool × Head F)) → Low ind r → Low ind s →
    itemsAll ind as ++ r = itemsAll ind bs ++ s → as = bs ∧ r = s
  | [], [], r, s, _, _, he => ⟨rfl, he⟩
  | [], .node g xs :: bs, r, s, hr, _, he => by
    have := hr (ind ++ [!bs.isEmpty], g) (by
      have he : r = itemsAll ind (.node g xs :: bs) ++ s := he
      rw [he]; simp [itemsAll, items])
    simp at this
  | .node g xs :: as, [], r, s, _, hs, he => by
    have := hs (ind ++ [!as.isEmpty], g) (by
      have he : itemsAll ind (.node g xs :: as) ++ r = s := he
      rw [← he]; simp [itemsAll, items])
    simp at this
  | a :: as, b :: bs, r, s, hr, hs, he => by
    unfold itemsAll at he
    have hempty : as.isEmpty = bs.isEmpty := by
      cases a; cases b
      unfold items at he
      simp only [List.cons_append] at he
      injection he with h1 _
      have := List.append_cancel_left (Prod.mk.inj h1).1
      simpa using this
    rw [List.append_assoc, List.append_assoc, hempty] at he
    have low : ∀ (cs : List (Expr F)) (t : List (List Bool × Head F)), Low ind t → Low (ind ++ [!bs.isEmpty]) (itemsAll ind cs ++ t) := by
      intro cs t ht p hp
      cases cs with
      | nil => have := ht p hp; simp; omega
      | cons c cs =>
        obtain ⟨g, xs⟩ := c
        simp [itemsAll, items] at hp
        rw [← hp]; simp
    obtain ⟨h1, h2⟩ := items_inj (ind ++ [!bs.isEmpty]) a b _ _ (low as r hr) (low bs s hs) he
    obtain ⟨h3, h4⟩ := itemsAll_inj ind as bs r s hr hs h2
    exact ⟨by rw [h1, h3], h4⟩
end

/-! ## Text of numbers -/

theorem natText_inj {a b : Nat} (h : natText a = natText b) : a = b := by
  have := congrArg (fun l => Nat.ofDigitChars 10 l 0) h
  simpa only [natText, Nat.ofDigitChars_ten_toDigits] using this

theorem natText_digit {n : Nat} {c : Char} (h : c ∈ natText n) : c.isDigit = true := Nat.isDigit_of_mem_toDigits (by decide) (by decide) h

theorem natText_not {n : Nat} (c : Char) (hc : c.isDigit = false) : c ∉ natText n := fun h => by rw [natText_digit h] at hc; cases hc

theorem natText_ne_nil (n : Nat) : natText n ≠ [] := Nat.toDigits_ne_nil

theorem intText_not {n : Int} (c : Char) (hc : c.isDigit = false) (hm : c ≠ '-') : c ∉ intText n := by
  unfold intText
  split
  · simp [hm, natText_not c hc]
  · exact natText_not c hc

theorem intText_inj {a b : Int} (h : intText a = intText b) : a = b := by
  unfold intText at h
  by_cases ha : a < 0 <;> by_cases hb : b < 0
  · rw [if_pos ha, if_pos hb] at h
    have := natText_inj (List.cons.inj h).2
    omega
  · rw [if_pos ha, if_neg hb] at h
    exact absurd (by rw [← h]; simp : '-' ∈ natText b.natAbs) (natText_not _ (by decide))
  · rw [if_neg ha, if_pos hb] at h
    exact absurd (by rw [h]; simp : '-' ∈ natText a.natAbs) (natText_not _ (by decide))
  · rw [if_neg ha, if_neg hb] at h
    have := natText_inj h
    omega

/-! ## Splitting -/

theorem split_first {α : Type} (c : α) : (a b : List α) → (x y : List α) → c ∉ a → c ∉ b → a ++ c :: x = b ++ c :: y → a = b ∧ x = y
  | [], [], x, y, _, _, h => ⟨rfl, (List.cons.inj h).2⟩
  | [], e :: b, x, y, _, hb, h => absurd (by rw [(List.cons.inj h).1]; simp) hb
  | e :: a, [], x, y, ha, _, h => absurd (by rw [← (List.cons.inj h).1]; simp) ha
  | e :: a, f :: b, x, y, ha, hb, h => by
    rw [List.cons_append, List.cons_append] at h
    injection h with h1 h2
    obtain ⟨h3, h4⟩ := split_first c a b x y (fun hh => ha (List.mem_cons_of_mem _ hh)) (fun hh => hb (List.mem_cons_of_mem _ hh)) h2
    exact ⟨by rw [h1, h3], h4⟩

theorem split_last {α : Type} (c : α) (a b x y : List α) (hx : c ∉ x) (hy : c ∉ y) (h : a ++ c :: x = b ++ c :: y) : a = b ∧ x = y := by
  have h' := congrArg List.reverse h
  simp only [List.reverse_append, List.reverse_cons, List.append_assoc, List.cons_append, List.nil_append] at h'
  obtain ⟨h1, h2⟩ := split_first c x.reverse y.reverse a.reverse b.reverse (by simpa using hx) (by simpa using hy) h'
  exact ⟨List.reverse_injective h2, List.reverse_injective h1⟩

theorem String_toList_inj {a b : String} (h : a.toList = b.toList) : a = b := String.toList_inj.1 h

/-! ## Labels -/

/-- The names of the kinds by rank. -/
def kindNames : List String :=
  ["FloatConstant", "IntegerConstant", "RationalConstant", "SymbolicConstant", "ComplexInfinity", "ImaginaryUnit", "Variable",
    "FunctionArgumentVariable", "UniqueVariable", "Multiplication", "Addition", "Power", "BuiltInFunctionInvocation", "SymbolicFunctionInvocation",
    "Unevaluated", "Conditional", "IversonBracket", "CompoundExpressionElement", "Derivative", "Substitution", "StopDerivative", "Undefined", "Matrix",
    "ExternalFunctionInvocation", "CustomTypeArgument", "CustomTypeConstruction", "BooleanConstant", "Relational"]

theorem kindName_get (h : Head F) : kindNames[h.rank]? = some (kindName h) := by
  cases h <;> rfl

theorem kindName_alpha (h : Head F) : ∀ c ∈ (kindName h).toList, c.isAlpha = true := by
  have : ∀ s ∈ kindNames, ∀ c ∈ s.toList, c.isAlpha = true := by decide +kernel
  exact this _ (List.mem_of_getElem? (kindName_get h))

theorem kindName_rank {h g : Head F} (he : kindName h = kindName g) : h.rank = g.rank := by
  have hn : kindNames.Nodup := by decide +kernel
  have h1 := kindName_get h
  rw [he] at h1
  have H := List.nodup_iff_getElem?_ne_getElem?.1 hn
  rcases Nat.lt_trichotomy h.rank g.rank with hl | hl | hl
  · exact absurd (h1.trans (kindName_get g).symm) (H _ _ hl (List.getElem?_eq_some_iff.1 (kindName_get g)).1)
  · exact hl
  · exact absurd ((kindName_get g).trans h1.symm) (H _ _ hl (List.getElem?_eq_some_iff.1 h1).1)

theorem detail_first (digits : F → List Char) (h : Head F) : detail digits h = [] ∨ (∃ l, detail digits h = ':' :: l) ∨ (∃ l, detail digits h = ' ' :: l) := by
  cases h <;> first | exact Or.inr (Or.inr ⟨_, rfl⟩) | exact Or.inr (Or.inl ⟨_, rfl⟩) | exact Or.inl rfl

theorem detail_last (digits : F → List Char) (h : Head F) : detail digits h = [] ∨ ∃ l c, detail digits h = l ++ [c] ∧ isSpace c = false := by
  have e2 : ∀ l : List Char, l ++ [')', ':'] = (l ++ [')']) ++ [':'] := by intro l; simp
  have e3 : ∀ l : List Char, l ++ ['`', ')', ':'] = (l ++ ['`', ')']) ++ [':'] := by intro l; simp
  cases h <;> first
    | exact Or.inr ⟨_, ')', rfl, by decide⟩
    | exact Or.inr ⟨_, ':', e2 _, by decide⟩
    | exact Or.inr ⟨_, ':', e3 _, by decide⟩
    | exact Or.inl rfl
    | exact Or.inr ⟨[], ':', rfl, by decide⟩

/-- The first character after the name of the kind is not a letter. -/
theorem detail_head (digits : F → List Char) (h : Head F) (c : Char) : (detail digits h).head? = some c → c.isAlpha = false := by
  rcases detail_first digits h with e | ⟨l, e⟩ | ⟨l, e⟩ <;> rw [e] <;> intro hc <;> cases hc <;> rfl

theorem label_split (digits : F → List Char) {h g : Head F} (he : label digits h = label digits g) : kindName h = kindName g ∧ detail digits h = detail digits g := by
  have key : ∀ h : Head F, (label digits h).takeWhile Char.isAlpha = (kindName h).toList := by
    intro h
    unfold label
    rw [List.takeWhile_append_of_pos (kindName_alpha h)]
    have : (detail digits h).takeWhile Char.isAlpha = [] := by
      cases hd : detail digits h with
      | nil => rfl
      | cons c l => rw [List.takeWhile_cons, detail_head digits h c (by rw [hd]; rfl)]; rfl
    rw [this, List.append_nil]
  have h1 : kindName h = kindName g := String_toList_inj (by rw [← key h, ← key g, he])
  refine ⟨h1, ?_⟩
  unfold label at he
  rw [h1] at he
  exact List.append_cancel_left he

theorem setName_inj {a b : List Char} {s t : NSet} (h : a ++ [',', ' '] ++ (setName s).toList = b ++ [',', ' '] ++ (setName t).toList) : a = b ∧ s = t := by
  have hs : ∀ s, ' ' ∉ (setName s).toList := by intro s; cases s <;> decide
  have e : ∀ (x y : List Char), x ++ [',', ' '] ++ y = (x ++ [',']) ++ ' ' :: y := by intro x y; simp
  rw [e, e] at h
  obtain ⟨h1, h2⟩ := split_last ' ' _ _ _ _ (hs s) (hs t) h
  refine ⟨List.append_cancel_right h1, ?_⟩
  have h3 := String_toList_inj h2
  revert h3
  cases s <;> cases t <;> decide

theorem head_inj (digits : F → List Char) {h g : Head F} (hi : Identified digits h g) (ph : Plain digits h) (pg : Plain digits g)
    (he : label digits h = label digits g) : h = g := by
  obtain ⟨h1, h2⟩ := label_split digits he
  have hr := kindName_rank h1
  have cut : ∀ (p a b s : List Char), p ++ a ++ s = p ++ b ++ s → a = b := fun p a b s e => List.append_cancel_left (List.append_cancel_right e)
  cases h <;> cases g <;> first | rfl | (exact absurd hr (by simp only [Head.rank]; decide)) | skip
  case flt.flt f f' => rw [hi (cut _ _ _ _ h2)]
  case int.int n m => rw [intText_inj (cut _ _ _ _ h2)]
  case rat.rat r q =>
    have h3 := List.append_cancel_right h2
    simp only [List.append_assoc] at h3
    have h3 := List.append_cancel_left h3
    have e : ∀ (x y : List Char), x ++ ([' ', '/', ' '] ++ y) = (x ++ [' ', '/']) ++ ' ' :: y := by intro x y; simp
    rw [e, e] at h3
    obtain ⟨h4, h5⟩ := split_last ' ' _ _ _ _ (intText_not _ (by decide) (by decide)) (intText_not _ (by decide) (by decide)) h3
    have h6 := intText_inj (List.append_cancel_right h4)
    have h7 := intText_inj h5
    cases r; cases q
    simp only at h6 h7
    rw [h6, h7]
  case const.const c d =>
    have h3 := String_toList_inj (cut _ _ _ _ h2)
    revert h3
    cases c <;> cases d <;> first | (intro _; rfl) | (intro h3; exact absurd h3 (by decide))
  case var.var n s m t =>
    have h3 := List.append_cancel_right h2
    obtain ⟨h4, h5⟩ := setName_inj h3
    rw [h5, String_toList_inj (List.append_cancel_left h4)]
  case argVar.argVar n i t m j u =>
    have h3 := List.append_cancel_right h2
    have hp : ∀ t, ' ' ∉ (primName t).toList := by intro t; cases t <;> decide
    have e : ∀ (x : String) (k : Nat) (y : List Char), [' ', '('] ++ x.toList ++ '[' :: natText k ++ [']', ':', ' '] ++ y =
        ([' ', '('] ++ x.toList ++ '[' :: natText k ++ [']', ':']) ++ ' ' :: y := by intro x k y; simp
    rw [e, e] at h3
    obtain ⟨h4, h5⟩ := split_last ' ' _ _ _ _ (hp t) (hp u) h3
    have h6 := List.append_cancel_right h4
    obtain ⟨h7, h8⟩ := split_last '[' _ _ _ _ (natText_not _ (by decide)) (natText_not _ (by decide)) h6
    have h9 : t = u := by
      have h3 := String_toList_inj h5
      revert h3
      cases t <;> cases u <;> decide
    rw [h9, natText_inj h8, String_toList_inj (List.append_cancel_left h7)]
  case uniq.uniq i s j t =>
    have h3 := List.append_cancel_right h2
    obtain ⟨h4, h5⟩ := setName_inj h3
    rw [h5, natText_inj (List.append_cancel_left h4)]
  case fn.fn f f' =>
    have h3 := String_toList_inj (cut _ _ _ _ h2)
    have : ∀ f g : BuiltIn, f.name = g.name → f = g := by intro f g; cases f <;> cases g <;> decide
    rw [this f f' h3]
  case symfn.symfn n m => rw [String_toList_inj (cut _ _ _ _ h2)]
  case elem.elem i j => rw [natText_inj (cut _ _ _ _ h2)]
  case deriv.deriv i j => rw [natText_inj (cut _ _ _ _ h2)]
  case matrix.matrix r c r' c' =>
    have h3 := List.append_cancel_right h2
    have e : ∀ (x y : List Char), [' ', '('] ++ x ++ [',', ' '] ++ y = ([' ', '('] ++ x ++ [',']) ++ ' ' :: y := by intro x y; simp
    rw [e, e] at h3
    obtain ⟨h4, h5⟩ := split_last ' ' _ _ _ _ (natText_not _ (by decide)) (natText_not _ (by decide)) h3
    rw [natText_inj h5, natText_inj (cut _ _ _ _ h4)]
  case call.call f f' => rw [hi (String_toList_inj (cut _ _ _ _ h2))]
  case typeArg.typeArg n t m u =>
    have h3 := List.append_cancel_right h2
    have e : ∀ (x y : List Char), [' ', '('] ++ x ++ [':', ' '] ++ y = [' ', '('] ++ (x ++ ':' :: ' ' :: y) := by intro x y; simp
    rw [e, e] at h3
    obtain ⟨h4, h5⟩ := split_first ':' _ _ _ _ ph.2.1 pg.2.1 (List.append_cancel_left h3)
    rw [String_toList_inj h4, hi (String_toList_inj (List.cons.inj h5).2)]
  case construct.construct t u => rw [hi (String_toList_inj (cut _ _ _ _ h2))]
  case bconst.bconst b b' =>
    have h3 := String_toList_inj (cut _ _ _ _ h2)
    revert h3
    cases b <;> cases b' <;> first | (intro _; rfl) | (intro h3; exact absurd h3 (by decide))
  case rel.rel o o' =>
    have h3 := String_toList_inj (cut _ _ _ _ h2)
    revert h3
    cases o <;> cases o' <;> first | (intro _; rfl) | (intro h3; exact absurd h3 (by decide))

/-! ## Indentation -/

theorem indent_glyph (bs : List Bool) (l : List Char) (hl : ∀ c, l.head? = some c → c.isAlpha = true) (cs : List Bool) (m : List Char)
    (hm : ∀ c, m.head? = some c → c.isAlpha = true) (hl0 : l ≠ []) (hm0 : m ≠ []) (h : indent bs ++ l = indent cs ++ m) : bs = cs ∧ l = m := by
  have head : ∀ (bs : List Bool) (b : Bool), ∃ x, indent (b :: bs) = x ∧ ∃ c r, x = c :: r ∧ c.isAlpha = false := by
    intro bs b
    refine ⟨_, rfl, ?_⟩
    cases bs with
    | nil => cases b <;> exact ⟨_, _, rfl, by decide⟩
    | cons c bs => cases b <;> exact ⟨_, _, rfl, by decide⟩
  have nohead : ∀ (bs : List Bool) (b : Bool) (l m : List Char), (∀ c, m.head? = some c → c.isAlpha = true) → indent (b :: bs) ++ l ≠ m := by
    intro bs b l m hm he
    obtain ⟨x, hx, c, r, hcr, hc⟩ := head bs b
    rw [hx, hcr] at he
    have := hm c (by rw [← he]; rfl)
    rw [this] at hc; cases hc
  induction bs generalizing cs with
  | nil =>
    cases cs with
    | nil => exact ⟨rfl, h⟩
    | cons c cs => exact absurd h.symm (nohead cs c m l hl)
  | cons b bs ih =>
    cases cs with
    | nil => exact absurd h (nohead bs b l m hm)
    | cons c cs =>
      cases bs with
      | nil =>
        cases cs with
        | nil =>
          cases b <;> cases c
          · exact ⟨rfl, List.append_cancel_left h⟩
          · exact absurd (List.cons.inj h).1 (by decide)
          · exact absurd (List.cons.inj h).1 (by decide)
          · exact ⟨rfl, List.append_cancel_left h⟩
        | cons c' cs =>
          cases b <;> cases c <;> exact absurd (List.cons.inj h).1 (by decide)
      | cons b' bs =>
        cases cs with
        | nil => cases b <;> cases c <;> exact absurd (List.cons.inj h).1 (by decide)
        | cons c' cs =>
          have key : ∀ x : Bool, indent (x :: b' :: bs) = (if x then ['│', ' ', ' '] else [' ', ' ', ' ']) ++ indent (b' :: bs) := fun _ => rfl
          have key' : ∀ x : Bool, indent (x :: c' :: cs) = (if x then ['│', ' ', ' '] else [' ', ' ', ' ']) ++ indent (c' :: cs) := fun _ => rfl
          rw [key, key', List.append_assoc, List.append_assoc] at h
          have hbc : b = c := by
            cases b <;> cases c
            · rfl
            · exact absurd (List.cons.inj h).1 (by decide)
            · exact absurd (List.cons.inj h).1 (by decide)
            · rfl
          subst hbc
          obtain ⟨h1, h2⟩ := ih (c' :: cs) (List.append_cancel_left h)
          exact ⟨by rw [h1], h2⟩

theorem label_first (digits : F → List Char) (h : Head F) : label digits h ≠ [] ∧ ∀ c, (label digits h).head? = some c → c.isAlpha = true := by
  have hk : kindName h ≠ "" := by
    have : ∀ s ∈ kindNames, s ≠ "" := by decide +kernel
    exact this _ (List.mem_of_getElem? (kindName_get h))
  unfold label
  cases hl : (kindName h).toList with
  | nil => exact absurd (String.toList_inj.1 (hl.trans rfl : (kindName h).toList = "".toList)) hk
  | cons c l =>
    refine ⟨by simp, fun d hd => ?_⟩
    cases hd
    exact kindName_alpha h c (by rw [hl]; simp)

theorem lineText_inj (digits : F → List Char) {p q : List Bool × Head F} (hi : Identified digits p.2 q.2) (hp : Plain digits p.2) (hq : Plain digits q.2)
    (h : lineText digits p = lineText digits q) : p = q := by
  obtain ⟨h1, h2⟩ := indent_glyph p.1 _ (label_first digits p.2).2 q.1 _ (label_first digits q.2).2 (label_first digits p.2).1 (label_first digits q.2).1 h
  exact Prod.ext h1 (head_inj digits hi hp hq h2)

/-! ## Lines of a text -/

theorem joined_inj : (xs ys : List (List Char)) → (∀ x ∈ xs, '\n' ∉ x) → (∀ y ∈ ys, '\n' ∉ y) → xs.flatMap (· ++ ['\n']) = ys.flatMap (· ++ ['\n']) → xs = ys
  | [], [], _, _, _ => rfl
  | [], y :: ys, _, _, h => by simp at h
  | x :: xs, [], _, _, h => by simp at h
  | x :: xs, y :: ys, hx, hy, h => by
    rw [List.flatMap_cons, List.flatMap_cons, List.append_assoc, List.append_assoc] at h
    obtain ⟨h1, h2⟩ := split_first '\n' x y _ _ (hx x (by simp)) (hy y (by simp)) h
    rw [h1, joined_inj xs ys (fun z hz => hx z (by simp [hz])) (fun z hz => hy z (by simp [hz])) h2]

/-- The last character of a label is not a space. -/
theorem label_last (digits : F → List Char) (h : Head F) : ∃ l c, label digits h = l ++ [c] ∧ isSpace c = false := by
  rcases detail_last digits h with e | ⟨l, c, e, hc⟩
  · have hne := (label_first digits h).1
    have hl : label digits h = (kindName h).toList := by unfold label; rw [e, List.append_nil]
    rw [hl] at hne ⊢
    refine ⟨_, _, (List.dropLast_append_getLast hne).symm, ?_⟩
    have ha := kindName_alpha h _ (List.getLast_mem hne)
    generalize (kindName h).toList.getLast hne = c at ha
    cases hc : isSpace c with
    | false => rfl
    | true =>
      simp only [isSpace, Bool.or_eq_true, beq_iff_eq] at hc
      rcases hc with ((((h | h) | h) | h) | h) | h <;> rw [h] at ha <;> exact absurd ha (by decide)
  · exact ⟨(kindName h).toList ++ l, c, by unfold label; rw [e, List.append_assoc], hc⟩

theorem rightTrim_last (l : List Char) (c : Char) (hc : isSpace c = false) : rightTrim (l ++ [c] ++ ['\n']) = l ++ [c] := by
  unfold rightTrim
  simp only [List.reverse_append, List.reverse_cons, List.reverse_nil, List.nil_append, List.cons_append]
  rw [List.dropWhile_cons, if_pos (by decide), List.dropWhile_cons, if_neg (by rw [hc]; simp)]
  simp

theorem trimmed (digits : F → List Char) (xs : List (List Bool × Head F)) (hx : xs ≠ []) :
    ∃ t, (xs.map (lineText digits)).flatMap (· ++ ['\n']) = t ++ ['\n'] ∧ rightTrim ((xs.map (lineText digits)).flatMap (· ++ ['\n'])) = t := by
  obtain ⟨ys, p, rfl⟩ : ∃ ys p, xs = ys ++ [p] := ⟨_, _, (List.dropLast_append_getLast hx).symm⟩
  obtain ⟨l, c, h1, h2⟩ := label_last digits p.2
  refine ⟨(ys.map (lineText digits)).flatMap (· ++ ['\n']) ++ indent p.1 ++ l ++ [c], ?_, ?_⟩
  · simp [lineText, h1]
  · have : ((ys ++ [p]).map (lineText digits)).flatMap (· ++ ['\n']) = ((ys.map (lineText digits)).flatMap (· ++ ['\n']) ++ indent p.1 ++ l) ++ [c] ++ ['\n'] := by
      simp [lineText, h1]
    rw [this, rightTrim_last _ _ h2]

theorem indent_no_newline : (bs : List Bool) → '\n' ∉ indent bs
  | [] => by simp [indent]
  | [b] => by cases b <;> decide
  | b :: c :: bs => by
    have ih := indent_no_newline (c :: bs)
    unfold indent
    rw [List.mem_append, not_or]
    exact ⟨by cases b <;> decide, ih⟩

theorem label_no_newline (digits : F → List Char) (h : Head F) (hp : Plain digits h) : '\n' ∉ label digits h := by
  have hk : '\n' ∉ (kindName h).toList := fun hm => absurd (kindName_alpha h _ hm) (by decide)
  have hn : ∀ n, '\n' ∉ natText n := fun n => natText_not _ (by decide)
  have hi : ∀ n, '\n' ∉ intText n := fun n => intText_not _ (by decide) (by decide)
  have hset : ∀ s, '\n' ∉ (setName s).toList := by intro s; cases s <;> decide
  have hprim : ∀ s, '\n' ∉ (primName s).toList := by intro s; cases s <;> decide
  have hconst : ∀ s, '\n' ∉ (constName s).toList := by intro s; cases s <;> decide
  have hrel : ∀ s, '\n' ∉ (relName s).toList := by intro s; cases s <;> decide
  have hfn : ∀ s : BuiltIn, '\n' ∉ s.name.toList := by intro s; cases s <;> decide
  have hb : ∀ b : Bool, '\n' ∉ (if b then "true" else "false").toList := by intro b; cases b <;> decide
  unfold label
  rw [List.mem_append, not_or]
  refine ⟨hk, ?_⟩
  cases h <;> simp only [detail, Plain] at hp ⊢ <;> simp [hn, hi, hset, hprim, hconst, hrel, hfn, hb, hp]

/-! ## The arranged form -/

section arranged
variable [FloatCmp F]

theorem arrangedAll_eq : (as : List (Expr F)) → arrangedAll as = as.map fun a => (a, arranged a)
  | [] => rfl
  | a :: as => by unfold arrangedAll; rw [arrangedAll_eq as]; rfl

theorem sorted_perm (h : Head F) (as : List (Expr F)) : (sorted h (arrangedAll as)).Perm (as.map arranged) := by
  have e : (arrangedAll as).map (·.2) = as.map arranged := by rw [arrangedAll_eq, List.map_map]; rfl
  unfold sorted
  split
  · rw [← e]; exact (List.perm_insertionSort _ _).map _
  · rw [← e]; exact (List.perm_insertionSort _ _).map _
  · rw [e]

theorem sorted_other (h : Head F) (as : List (Expr F)) (h1 : h ≠ .add) (h2 : h ≠ .mul) : sorted h (arrangedAll as) = as.map arranged := by
  have e : (arrangedAll as).map (·.2) = as.map arranged := by rw [arrangedAll_eq, List.map_map]; rfl
  unfold sorted
  split
  · exact absurd rfl h1
  · exact absurd rfl h2
  · exact e

theorem shapedAll_iff : (as : List (Expr F)) → (ShapedAll as ↔ ∀ a ∈ as, Shaped a)
  | [] => by simp [ShapedAll]
  | a :: as => by unfold ShapedAll; rw [shapedAll_iff as]; simp

theorem mem_headsAll (h : Head F) : (as : List (Expr F)) → (h ∈ headsAll as ↔ ∃ a ∈ as, h ∈ heads a)
  | [] => by simp [headsAll]
  | a :: as => by unfold headsAll; rw [List.mem_append, mem_headsAll h as]; simp

mutual
theorem arranged_reorders : (e : Expr F) → Reorders e (arranged e)
  | .node h as => by
    unfold arranged
    have := arrangedAll_reorders as
    by_cases hh : h = .add ∨ h = .mul
    · exact .terms h as _ _ hh this (sorted_perm h as).symm
    · rw [sorted_other h as (fun e => hh (Or.inl e)) (fun e => hh (Or.inr e))]
      exact .node h as _ this
theorem arrangedAll_reorders : (as : List (Expr F)) → ReordersAll as (as.map arranged)
  | [] => .nil
  | a :: as => .cons _ _ _ _ (arranged_reorders a) (arrangedAll_reorders as)
end

mutual
theorem arranged_shaped : (e : Expr F) → Shaped e → Shaped (arranged e)
  | .node h as, hs => by
    unfold arranged
    have hp := sorted_perm h as
    refine ⟨hs.1.trans ⟨fun he => ?_, fun he => ?_⟩, (shapedAll_iff _).2 fun a ha => ?_⟩
    · subst he
      exact List.perm_nil.1 hp
    · rw [he] at hp
      exact List.map_eq_nil_iff.1 (List.nil_perm.1 hp)
    · exact arrangedAll_shaped as hs.2 a (hp.mem_iff.1 ha)
theorem arrangedAll_shaped : (as : List (Expr F)) → ShapedAll as → ∀ a ∈ as.map arranged, Shaped a
  | [], _ => by simp
  | a :: as, hs => by
    intro b hb
    rw [List.map_cons, List.mem_cons] at hb
    rcases hb with rfl | hb
    · exact arranged_shaped a hs.1
    · exact arrangedAll_shaped as hs.2 b hb
end

mutual
theorem arranged_heads (g : Head F) : (e : Expr F) → g ∈ heads (arranged e) → g ∈ heads e
  | .node h as, hg => by
    unfold arranged at hg
    unfold heads at hg ⊢
    rw [List.mem_cons] at hg ⊢
    rcases hg with hg | hg
    · exact Or.inl hg
    · obtain ⟨a, ha, hga⟩ := (mem_headsAll g _).1 hg
      exact Or.inr (arrangedAll_heads g as a ((sorted_perm h as).mem_iff.1 ha) hga)
theorem arrangedAll_heads (g : Head F) : (as : List (Expr F)) → ∀ a ∈ as.map arranged, g ∈ heads a → g ∈ headsAll as
  | [] => by simp
  | a :: as => by
    intro b hb hg
    unfold headsAll
    rw [List.map_cons, List.mem_cons] at hb
    rw [List.mem_append]
    rcases hb with rfl | hb
    · exact Or.inl (arranged_heads g a hg)
    · exact Or.inr (arrangedAll_heads g as b hb hg)
end

mutual
theorem items_heads (ind : List Bool) (p : List Bool × Head F) : (e : Expr F) → p ∈ items ind e → p.2 ∈ heads e
  | .node h as, hp => by
    unfold items at hp
    unfold heads
    rw [List.mem_cons] at hp ⊢
    rcases hp with rfl | hp
    · exact Or.inl rfl
    · exact Or.inr (itemsAll_heads ind p as hp)
theorem itemsAll_heads (ind : List Bool) (p : List Bool × Head F) : (as : List (Expr F)) → p ∈ itemsAll ind as → p.2 ∈ headsAll as
  | [], hp => by simp [itemsAll] at hp
  | a :: as, hp => by
    unfold itemsAll at hp
    unfold headsAll
    rw [List.mem_append] at hp ⊢
    exact hp.imp (items_heads _ p a) (itemsAll_heads ind p as)
end

theorem treeText_items (digits : F → List Char) (e : Expr F) (hs : Shaped e) :
    ∃ t, treeText digits e = .ok t ∧ ((items [] (arranged e)).map (lineText digits)).flatMap (· ++ ['\n']) = t ++ ['\n'] := by
  obtain ⟨t, h1, h2⟩ := trimmed digits (items [] (arranged e)) (by cases arranged e; simp [items])
  refine ⟨t, ?_, h1⟩
  unfold treeText
  rw [lines_items digits [] _ (arranged_shaped e hs)]
  show Except.ok (rightTrim _) = _
  rw [h2]

/-- The tree is printed for every expression whose operations have operands. -/
theorem C74_total_partial (digits : F → List Char) (e : Expr F) (hs : Shaped e) : ∃ t, treeText digits e = .ok t :=
  let ⟨t, h, _⟩ := treeText_items digits e hs
  ⟨t, h⟩

theorem map_inj_on {α β : Type} (f : α → β) : (xs ys : List α) → (∀ x ∈ xs, ∀ y ∈ ys, f x = f y → x = y) → xs.map f = ys.map f → xs = ys
  | [], [], _, _ => rfl
  | [], _ :: _, _, h => by simp at h
  | _ :: _, [], _, h => by simp at h
  | x :: xs, y :: ys, hi, h => by
    rw [List.map_cons, List.map_cons] at h
    injection h with h1 h2
    rw [hi x (by simp) y (by simp) h1, map_inj_on f xs ys (fun a ha b hb => hi a (by simp [ha]) b (by simp [hb])) h2]

/-- Two expressions with the same printed tree are the same, up to the order of terms and factors. Partial: external functions and user-defined
types are printed by name only (`C74_names_refuted`). -/
theorem C74_determines_partial (digits : F → List Char) (a b : Expr F) (ha : Shaped a) (hb : Shaped b)
    (pa : ∀ h ∈ heads a, Plain digits h) (pb : ∀ h ∈ heads b, Plain digits h) (hi : ∀ h ∈ heads a, ∀ g ∈ heads b, Identified digits h g)
    (he : treeText digits a = treeText digits b) : ∃ c, Reorders a c ∧ Reorders b c := by
  obtain ⟨t, h1, h2⟩ := treeText_items digits a ha
  obtain ⟨u, h3, h4⟩ := treeText_items digits b hb
  rw [h1, h3] at he
  cases he
  have mem : ∀ (e : Expr F) (p : List Bool × Head F), p ∈ items [] (arranged e) → p.2 ∈ heads e := fun e p hp => arranged_heads _ e (items_heads [] p _ hp)
  have noNl : ∀ (e : Expr F), (∀ h ∈ heads e, Plain digits h) → ∀ x ∈ (items [] (arranged e)).map (lineText digits), '\n' ∉ x := by
    intro e pe x hx
    obtain ⟨p, hp, rfl⟩ := List.mem_map.1 hx
    unfold lineText
    rw [List.mem_append, not_or]
    exact ⟨indent_no_newline _, label_no_newline digits _ (pe _ (mem e p hp))⟩
  have h5 := joined_inj _ _ (noNl a pa) (noNl b pb) (h2.trans h4.symm)
  have h6 := map_inj_on (lineText digits) _ _ (fun p hp q hq hpq =>
    lineText_inj digits (hi _ (mem a p hp) _ (mem b q hq)) (pa _ (mem a p hp)) (pb _ (mem b q hq)) hpq) h5
  obtain ⟨h7, _⟩ := items_inj [] (arranged a) (arranged b) [] [] (fun p hp => by cases hp) (fun p hp => by cases hp) (by rw [h6])
  exact ⟨arranged a, arranged_reorders a, h7 ▸ arranged_reorders b⟩

/-- Printing a call of an external function without parameters is undefined behaviour, and so is printing an empty matrix. -/
theorem C74_empty_refuted (digits : F → List Char) :
    treeText digits (.node (.elem 0) [.node (.call ⟨"f", [], .scalar .floating⟩) []]) = .error .ub ∧ treeText digits (.node (.matrix 0 3) []) = .error .ub :=
  ⟨rfl, rfl⟩

/-- Calls of different functions with the same name have the same printed tree. -/
theorem C74_names_refuted (digits : F → List Char) (x : Expr F) :
    treeText digits (.node (.call ⟨"f", [("a", .scalar .floating)], .scalar .floating⟩) [x]) =
      treeText digits (.node (.call ⟨"f", [("b", .scalar .floating)], .matrix 2 1⟩) [x]) := rfl

/-! ## Example -/

/-- `2 + x * y`, with the terms and factors in another order. -/
def sampleTree : Expr F := .add [.mul [.var "y" .real, .var "x" .positive], .int 2]

example : letI : FloatCmp Unit := ⟨fun _ _ => true, fun _ _ => false, fun _ => 0⟩
    (treeText (fun _ => []) (sampleTree : Expr Unit)).toOption = some
    "Addition:\n├─ IntegerConstant (2)\n└─ Multiplication:\n   ├─ Variable (x, real_positive)\n   └─ Variable (y, real)".toList := by
  decide +kernel

example (digits : F → List Char) : Shaped (sampleTree : Expr F) ∧ (∀ h ∈ heads (sampleTree : Expr F), Plain digits h) ∧
    (∀ h ∈ heads (sampleTree : Expr F), ∀ g ∈ heads (sampleTree : Expr F), Identified digits h g) := by
  refine ⟨?_, ?_, ?_⟩
  · simp [sampleTree, Shaped, ShapedAll, isLeaf]
  · simp [sampleTree, heads, headsAll, Plain]
  · simp [sampleTree, heads, headsAll, Identified]

end arranged

end Wf.Sym.Tree
