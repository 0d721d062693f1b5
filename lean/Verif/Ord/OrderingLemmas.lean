import Verif.Ord.OrderingModel

namespace Wf

/-- The laws of a three-way comparison that decides a strict total order: equality is identity, swapping the arguments
swaps the answer, and "less" is transitive. -/
structure TotalOrder {α : Type _} (cmp : α → α → Ordering) : Prop where
  eq_iff : ∀ a b, cmp a b = .eq ↔ a = b
  swap : ∀ a b, cmp b a = (cmp a b).swap
  trans : ∀ a b c, cmp a b = .lt → cmp b c = .lt → cmp a c = .lt

theorem lex_eq_iff {α : Type _} {cmp : α → α → Ordering} : ∀ (l m : List α)
    (_ : ∀ x ∈ l, ∀ y, cmp x y = .eq ↔ x = y), lexOrder cmp l m = .eq ↔ l = m
  | [], [], _ => by simp [lexOrder]
  | [], _ :: _, _ => by simp [lexOrder]
  | _ :: _, [], _ => by simp [lexOrder]
  | a :: as, b :: bs, h => by
    have ih := lex_eq_iff as bs (fun x hx => h x (List.mem_cons_of_mem _ hx))
    have hab := h a List.mem_cons_self b
    simp only [lexOrder, List.cons.injEq]
    cases hc : cmp a b with
    | lt => simp [hc] at hab; simp [hab]
    | gt => simp [hc] at hab; simp [hab]
    | eq => simp [hc] at hab; simp [hab, ih]

theorem lex_swap {α : Type _} {cmp : α → α → Ordering} : ∀ (l m : List α)
    (_ : ∀ x ∈ l, ∀ y, cmp y x = (cmp x y).swap), lexOrder cmp m l = (lexOrder cmp l m).swap
  | [], [], _ => by simp [lexOrder]
  | [], _ :: _, _ => by simp [lexOrder]
  | _ :: _, [], _ => by simp [lexOrder]
  | a :: as, b :: bs, h => by
    have ih := lex_swap as bs (fun x hx => h x (List.mem_cons_of_mem _ hx))
    have hab := h a List.mem_cons_self b
    simp only [lexOrder, hab]
    cases hc : cmp a b <;> simp [Ordering.swap, ih]

/-- Transitivity needs the element laws at the elements of the middle list. -/
theorem lex_trans {α : Type _} {cmp : α → α → Ordering} : ∀ (l m n : List α)
    (_ : ∀ x ∈ l, ∀ y z, cmp x y = .lt → cmp y z = .lt → cmp x z = .lt)
    (_ : ∀ x ∈ l, ∀ y, cmp x y = .eq ↔ x = y)
    (_ : ∀ x ∈ m, ∀ y, cmp x y = .eq ↔ x = y),
    lexOrder cmp l m = .lt → lexOrder cmp m n = .lt → lexOrder cmp l n = .lt
  | [], [], [], _, _, _ => by simp [lexOrder]
  | [], [], _ :: _, _, _, _ => by simp [lexOrder]
  | [], _ :: _, [], _, _, _ => by simp [lexOrder]
  | [], _ :: _, _ :: _, _, _, _ => by simp [lexOrder]
  | _ :: _, [], _, _, _, _ => by simp [lexOrder]
  | _ :: _, _ :: _, [], _, _, _ => by simp [lexOrder]
  | a :: as, b :: bs, c :: cs, ht, he, hm => by
    have ih := lex_trans as bs cs (fun x hx => ht x (List.mem_cons_of_mem _ hx)) (fun x hx => he x (List.mem_cons_of_mem _ hx))
      (fun x hx => hm x (List.mem_cons_of_mem _ hx))
    have ta := ht a List.mem_cons_self b c
    have ea := he a List.mem_cons_self b
    have eb := hm b List.mem_cons_self c
    simp only [lexOrder]
    cases hab : cmp a b with
    | gt => simp
    | eq =>
      have : a = b := ea.mp hab
      subst this
      cases hbc : cmp a c with
      | gt => simp
      | lt => simp
      | eq => simpa using ih
    | lt =>
      cases hbc : cmp b c with
      | gt => simp
      | lt => simp [ta hab hbc]
      | eq =>
        have : b = c := eb.mp hbc
        subst this
        simp [hab]

end Wf
