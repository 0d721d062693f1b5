/-!
# Model of `utility/ordering.h`

`relative_order` (`ordering.h:16-23`) is Lean's `Ordering`.
-/

namespace Wf

/-- `order_by_comparison`, `utility/ordering.h:58-68`, for a type with a Boolean `<`. -/
def orderByComparison {α : Type _} (lt : α → α → Bool) (a b : α) : Ordering :=
  if lt a b then .lt else if lt b a then .gt else .eq

/-- `lexicographical_order`, `utility/ordering.h:70-89`: the loop over two ranges as recursion on two lists.
Also `order_struct<std::string>` (106-112) and `order_struct<std::vector<T>>` (114-120). -/
def lexOrder {α : Type _} (cmp : α → α → Ordering) : List α → List α → Ordering
  | a :: as, b :: bs =>
    match cmp a b with
    | .lt => .lt
    | .gt => .gt
    | .eq => lexOrder cmp as bs
  | [], _ :: _ => .lt
  | _ :: _, [] => .gt
  | [], [] => .eq

/-- `comparison_chain::and_then_by`, `utility/ordering.h:154-167`. -/
def andThenBy (previous next : Ordering) : Ordering :=
  if previous ≠ .eq then previous else next

/-- `order_variant`, `utility/ordering.h:122-141`. The alternatives are a family of types indexed by position. -/
def orderVariant {n : Nat} {T : Fin n → Type _} (cmp : (i : Fin n) → T i → T i → Ordering)
    (a b : (i : Fin n) × T i) : Ordering :=
  if a.1.val < b.1.val then .lt
  else if a.1.val > b.1.val then .gt
  else if h : b.1 = a.1 then cmp a.1 a.2 (h ▸ b.2) else .eq

end Wf
