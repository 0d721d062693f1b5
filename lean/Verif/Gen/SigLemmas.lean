import Verif.Gen.SigSpec
import Std.Data.String.ToNat

/-! # Lemmas about reading signatures -/

namespace Wf.Gen.Text

theorem splitLex_cons {l : Lex} {ls : List Lex} (h : l ≠ .sym ",") :
    splitLex (l :: ls) = match splitLex ls with | [] => [[l]] | p :: ps => (l :: p) :: ps := by
  rw [splitLex, if_neg h]
  rfl

theorem splitLex_ne (l : List Lex) : splitLex l ≠ [] := by
  induction l with
  | nil => simp [splitLex]
  | cons l ls ih =>
    by_cases h : l = .sym ","
    · subst h; simp [splitLex]
    · rw [splitLex_cons h]
      split <;> simp

theorem splitLex_append {x : List Lex} (h : .sym "," ∉ x) (ys : List Lex) : splitLex (x ++ .sym "," :: ys) = x :: splitLex ys := by
  induction x with
  | nil => rfl
  | cons l ls ih =>
    rw [List.cons_append, splitLex_cons (fun he => h (he ▸ List.mem_cons_self)), ih fun hm => h (List.mem_cons_of_mem _ hm)]

theorem splitLex_single {x : List Lex} (h : .sym "," ∉ x) : splitLex x = [x] := by
  induction x with
  | nil => rfl
  | cons l ls ih => rw [splitLex_cons (fun he => h (he ▸ List.mem_cons_self)), ih fun hm => h (List.mem_cons_of_mem _ hm)]

theorem splitLex_join {xs : List (List Lex)} (hne : xs ≠ []) (h : ∀ x ∈ xs, .sym "," ∉ x) : splitLex (joinLex xs) = xs := by
  induction xs with
  | nil => exact absurd rfl hne
  | cons x xs ih =>
    cases xs with
    | nil => exact splitLex_single (h x List.mem_cons_self)
    | cons y ys =>
      show splitLex (x ++ .sym "," :: joinLex (y :: ys)) = _
      rw [splitLex_append (h x List.mem_cons_self), ih (by simp) fun z hz => h z (List.mem_cons_of_mem _ hz)]

theorem partsLex_join {xs : List (List Lex)} (h : ∀ x ∈ xs, .sym "," ∉ x ∧ x ≠ []) : partsLex (joinLex xs) = xs := by
  cases xs with
  | nil => rfl
  | cons x xs =>
    have hx : joinLex (x :: xs) ≠ [] := by
      have := (h x List.mem_cons_self).2
      cases xs with
      | nil => exact this
      | cons y ys =>
        show x ++ _ ≠ []
        simp
    unfold partsLex
    rw [if_neg (by simpa using hx), splitLex_join (by simp) fun z hz => (h z hz).1]

theorem mem_joinLex {l : Lex} {xs : List (List Lex)} (h : l ∈ joinLex xs) : l = .sym "," ∨ ∃ x ∈ xs, l ∈ x := by
  induction xs with
  | nil => cases h
  | cons x xs ih =>
    cases xs with
    | nil => exact .inr ⟨x, List.mem_cons_self, h⟩
    | cons y ys =>
      have h : l ∈ x ++ .sym "," :: joinLex (y :: ys) := h
      rcases List.mem_append.1 h with h | h
      · exact .inr ⟨x, List.mem_cons_self, h⟩
      · rcases List.mem_cons.1 h with h | h
        · exact .inl h
        · rcases ih h with h | ⟨z, hz, h⟩
          · exact .inl h
          · exact .inr ⟨z, List.mem_cons_of_mem _ hz, h⟩

theorem breakLex_append {x : Lex} {l : List Lex} (h : x ∉ l) (rest : List Lex) : breakLex x (l ++ x :: rest) = some (l, rest) := by
  induction l with
  | nil => simp [breakLex]
  | cons y ys ih =>
    have hy : y ≠ x := fun he => h (he ▸ List.mem_cons_self)
    simp [breakLex, hy, ih fun hm => h (List.mem_cons_of_mem _ hm)]

theorem readAll_map {α β : Type} {f : List Lex → Option β} {g : α → List Lex} {k : α → β} {l : List α} (h : ∀ a ∈ l, f (g a) = some (k a)) :
    readAll f (l.map g) = some (l.map k) := by
  induction l with
  | nil => rfl
  | cons a as ih =>
    simp only [List.map_cons, readAll, h a List.mem_cons_self, ih fun b hb => h b (List.mem_cons_of_mem _ hb)]

theorem nameOf_word {L : Lang} {s : String} (h : s ∉ keywords L) : nameOf L (.word s) = some s := if_neg h

theorem mem_enumerate {α : Type} {l : List α} {p : Nat × α} (h : p ∈ enumerate l) : p.2 ∈ l := (List.of_mem_zip h).2

theorem enumerate_snd {α : Type} (l : List α) : (enumerate l).map Prod.snd = l := by
  unfold enumerate
  rw [List.map_snd_zip]
  simp

theorem enumerate_map {α β : Type} (l : List α) (f : α → β) : (enumerate l).map (fun p => f p.2) = l.map f := by
  rw [← enumerate_snd l, List.map_map, enumerate_snd]; rfl

theorem bindParams_map {K α : Type} {l : List α} {p : α → Param} {a : α → Actual K} {o : α → Obj K} (h : ∀ x ∈ l, (p x).pass.bind (a x) = some (o x)) :
    bindParams (l.map p) (l.map a) = some (l.map fun x => ((p x).name, o x)) := by
  induction l with
  | nil => rfl
  | cons x xs ih =>
    simp only [List.map_cons, bindParams, h x List.mem_cons_self, ih fun y hy => h y (List.mem_cons_of_mem _ hy)]

theorem typeParam_inj {i j : Nat} (h : typeParam i = typeParam j) : i = j := by
  unfold typeParam at h
  have h2 : (toString i).toList = (toString j).toList := by
    have := congrArg String.toList h
    simpa [String.toList_append] using this
  exact Nat.repr_injective (String.toList_injective h2)

end Wf.Gen.Text
