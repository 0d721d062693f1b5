import Verif.Sym.SymbolsModel
import Mathlib.Data.List.SplitOn
import Mathlib.Data.List.Forall2

/-!
# `sym.symbols` returns the names that the text lists (C73)
-/

namespace Wf.Sym

/-! ## Specification -/

/-- White space or a comma. -/
def IsSep (c : UInt8) : Bool := [32, 9, 10, 11, 12, 13, 44].contains c

/-- The names in a text: its maximal parts without separators. -/
def namesIn (bytes : List UInt8) : List (List UInt8) := (bytes.splitOnP IsSep).filter fun s => !s.isEmpty

/-- One name is a symbol, any other number of names a list. -/
def packed : List (List UInt8) → Symbols
  | [name] => .one name
  | names => .many (names.map .one)

/-- The result has the nesting of the argument. -/
inductive Nested : SymArg → Symbols → Prop
  | str (bytes : List UInt8) : Nested (.str bytes) (packed (namesIn bytes))
  | iter (xs : List SymArg) (ys : List Symbols) : List.Forall₂ Nested xs ys → Nested (.iter xs) (.many ys)

mutual
/-- All strings in the argument are ASCII, and there is nothing else in it. -/
def SymArg.Ascii : SymArg → Prop
  | .str bytes => ∀ c ∈ bytes, c < 128
  | .iter xs => asciiAll xs
  | .other => False
def asciiAll : List SymArg → Prop
  | [] => True
  | x :: xs => x.Ascii ∧ asciiAll xs
end

/-! ## Names -/

theorem splitNames_spec : (cs name : List UInt8) → (∀ c ∈ cs, c < 128) →
    splitNames cs name = .ok (((cs.splitOnP IsSep).modifyHead (name ++ ·)).filter fun s => !s.isEmpty)
  | [], name, _ => by
    unfold splitNames
    cases name <;> simp
  | c :: cs, name, h => by
    have hc : c < 128 := h c (by simp)
    have hcs : ∀ d ∈ cs, d < 128 := fun d hd => h d (by simp [hd])
    have hs : isSpaceChar c = .ok (c == 32 || c == 9 || c == 10 || c == 11 || c == 12 || c == 13) := by
      unfold isSpaceChar
      rw [if_neg (by simpa using hc)]
    have hsep : ((c == 32 || c == 9 || c == 10 || c == 11 || c == 12 || c == 13) || c == 44) = IsSep c := by
      simp only [IsSep, List.contains_cons, List.contains_nil, Bool.or_assoc, Bool.or_false]
    unfold splitNames
    rw [hs]
    show (if ((c == 32 || c == 9 || c == 10 || c == 11 || c == 12 || c == 13) || c == 44) = true then _ else splitNames cs (name ++ [c])) = _
    rw [hsep, List.splitOnP_cons]
    have hid : ∀ l : List (List UInt8), l.modifyHead (fun x => [] ++ x) = l := by intro l; cases l <;> simp
    by_cases hp : IsSep c = true
    · rw [if_pos hp, if_pos hp]
      have ih := splitNames_spec cs [] hcs
      rw [hid] at ih
      cases name with
      | nil =>
        show splitNames cs [] = _
        rw [ih]
        simp
      | cons a l =>
        show (splitNames cs []).bind _ = _
        rw [ih]
        simp [Except.bind]
    · rw [if_neg hp, if_neg hp, splitNames_spec cs (name ++ [c]) hcs]
      congr 2
      cases cs.splitOnP IsSep <;> simp

theorem symbolsFromStr_spec (bytes : List UInt8) (h : ∀ c ∈ bytes, c < 128) : symbolsFromStr bytes = .ok (packed (namesIn bytes)) := by
  unfold symbolsFromStr
  rw [splitNames_spec bytes [] h]
  have hid : ∀ l : List (List UInt8), l.modifyHead (fun x => [] ++ x) = l := by intro l; cases l <;> simp
  rw [hid]
  unfold namesIn
  simp only [bind, Except.bind]
  generalize (bytes.splitOnP IsSep).filter (fun s => !s.isEmpty) = names
  rcases names with _ | ⟨a, _ | ⟨b, l⟩⟩ <;> rfl

mutual
theorem symbolsFrom_spec : (x : SymArg) → x.Ascii → ∃ y, symbolsFrom x = .ok y ∧ Nested x y
  | .str bytes, h => ⟨_, symbolsFromStr_spec bytes h, .str bytes⟩
  | .iter xs, h => by
    obtain ⟨ys, h1, h2⟩ := symbolsFromAll_spec xs h
    refine ⟨.many ys, ?_, .iter xs ys h2⟩
    unfold symbolsFrom
    rw [h1]; rfl
  | .other, h => h.elim
theorem symbolsFromAll_spec : (xs : List SymArg) → asciiAll xs → ∃ ys, symbolsFromAll xs = .ok ys ∧ List.Forall₂ Nested xs ys
  | [], _ => ⟨[], rfl, .nil⟩
  | x :: xs, h => by
    obtain ⟨y, h1, h2⟩ := symbolsFrom_spec x h.1
    obtain ⟨ys, h3, h4⟩ := symbolsFromAll_spec xs h.2
    refine ⟨y :: ys, ?_, .cons h2 h4⟩
    unfold symbolsFromAll
    rw [h1, h3]; rfl
end

/-- `symbols` returns, for every string of the argument, the symbol or the symbols that the string lists, in order, and keeps the nesting of
iterables. Partial: the strings are ASCII (`C73_non_ascii_refuted`). -/
theorem C73_symbols_partial (x : SymArg) (h : x.Ascii) : ∃ y, symbolsFrom x = .ok y ∧ Nested x y := symbolsFrom_spec x h

/-- Names without separators, written with commas between them, are the names in the text. -/
theorem C73_listed (names : List (List UInt8)) (hs : ∀ n ∈ names, n ≠ [] ∧ ∀ c ∈ n, IsSep c = false) : namesIn (names.flatMap fun n => n ++ [44, 32]) = names := by
  have drop : ∀ (n rest : List UInt8), (∀ c ∈ n, IsSep c = false) → (n ++ 44 :: rest).splitOnP IsSep = n :: rest.splitOnP IsSep := by
    intro n
    induction n with
    | nil => intro rest _; rw [List.nil_append, List.splitOnP_cons, if_pos (by decide)]
    | cons c n ih =>
      intro rest h
      rw [List.cons_append, List.splitOnP_cons, if_neg (by rw [h c (by simp)]; simp), ih rest fun d hd => h d (by simp [hd])]
      rfl
  induction names with
  | nil => rfl
  | cons n names ih =>
    have hn := hs n (by simp)
    have ih := ih fun m hm => hs m (by simp [hm])
    unfold namesIn at ih ⊢
    rw [List.flatMap_cons, List.append_assoc]
    show ((n ++ 44 :: 32 :: names.flatMap fun n => n ++ [44, 32]).splitOnP IsSep).filter _ = _
    rw [drop n _ hn.2, List.splitOnP_cons, if_pos (by decide), List.filter_cons, if_pos (by cases n with | nil => exact absurd rfl hn.1 | cons _ _ => rfl),
      List.filter_cons, if_neg (by simp), ih]

/-- Text with a byte beyond ASCII passes a negative character to `isspace`, which is undefined. -/
theorem C73_non_ascii_refuted (pre post : List UInt8) (c : UInt8) (hc : 128 ≤ c) (hp : ∀ d ∈ pre, d < 128) : symbolsFromStr (pre ++ c :: post) = .error .ub := by
  have key : ∀ (pre name : List UInt8), (∀ d ∈ pre, d < 128) → splitNames (pre ++ c :: post) name = .error .ub := by
    intro pre
    induction pre with
    | nil =>
      intro name _
      rw [List.nil_append]
      unfold splitNames isSpaceChar
      rw [if_pos hc]; rfl
    | cons d pre ih =>
      intro name h
      have hd : d < 128 := h d (by simp)
      have ih := fun name => ih name fun e he => h e (by simp [he])
      rw [List.cons_append]
      unfold splitNames isSpaceChar
      rw [if_neg (by simpa using hd)]
      simp only [bind, Except.bind, ih]
      split
      · split <;> rfl
      · rfl
  unfold symbolsFromStr
  rw [key pre [] hp]; rfl

/-- The number set: the flags for real sets exclude `complex`; the strongest of them wins. -/
theorem C73_set (real positive nonnegative complex : Bool) :
    (complex = true → (real = true ∨ positive = true ∨ nonnegative = true) → setFromFlags real positive nonnegative complex = .error .invalidArgument) ∧
    (complex = false → positive = true → setFromFlags real positive nonnegative complex = .ok .positive) ∧
    (complex = false → positive = false → nonnegative = true → setFromFlags real positive nonnegative complex = .ok .nonNegative) ∧
    (complex = false → positive = false → nonnegative = false → real = true → setFromFlags real positive nonnegative complex = .ok .real) ∧
    (complex = true → positive = false → nonnegative = false → real = false → setFromFlags real positive nonnegative complex = .ok .complex) ∧
    (complex = false → positive = false → nonnegative = false → real = false → setFromFlags real positive nonnegative complex = .ok .unknown) := by
  cases real <;> cases positive <;> cases nonnegative <;> cases complex <;> simp [setFromFlags]

/-- `symbols([" x, y", "zz"])`, `symbols("θ")`. -/
example : (SymArg.iter [.str [32, 120, 44, 32, 121], .str [122, 122]]).Ascii ∧
    symbolsFrom (.iter [.str [32, 120, 44, 32, 121], .str [122, 122]]) = .ok (.many [.many [.one [120], .one [121]], .one [122, 122]]) ∧
    symbolsFrom (.str [206, 184]) = .error .ub ∧ symbolsFrom (.str [44]) = .ok (.many []) := by
  refine ⟨⟨?_, ?_, trivial⟩, rfl, rfl, rfl⟩
  · show ∀ c ∈ ([32, 120, 44, 32, 121] : List UInt8), c < 128
    decide
  · show ∀ c ∈ ([122, 122] : List UInt8), c < 128
    decide

example : ∀ n ∈ ([[120], [121, 49]] : List (List UInt8)), n ≠ [] ∧ ∀ c ∈ n, IsSep c = false := by decide

end Wf.Sym
