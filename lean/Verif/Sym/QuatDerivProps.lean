import Verif.Sym.QuatDerivLemmas
import Verif.Sym.QuatProps
import Verif.Geo.QuatCalculus

/-!
# C62: the derivatives of the retraction and of the local coordinates
-/

namespace Wf.Sym

open Geo

set_option maxRecDepth 100000 in
theorem retract_static : retractJacobian (F := ℝ) (ctors codeLic 8) codeLic 3 40 = .ok
    [.mul [own 1, .rat ⟨-1, 2⟩], .mul [own 2, .rat ⟨-1, 2⟩], .mul [own 3, .rat ⟨-1, 2⟩],
     .mul [.rat ⟨1, 2⟩, own 0], .mul [own 3, .rat ⟨-1, 2⟩], .mul [.rat ⟨1, 2⟩, own 2],
     .mul [.rat ⟨1, 2⟩, own 3], .mul [.rat ⟨1, 2⟩, own 0], .mul [own 1, .rat ⟨-1, 2⟩],
     .mul [own 2, .rat ⟨-1, 2⟩], .mul [.rat ⟨1, 2⟩, own 1], .mul [.rat ⟨1, 2⟩, own 0]] := by decide +kernel

set_option maxRecDepth 100000 in
theorem local_static : localJacobian (F := ℝ) (ctors codeLic 8) codeLic 3 40 = .ok
    [.mul [own 1, .int (-2)], .mul [own 0, .int 2], .mul [own 3, .int 2], .mul [own 2, .int (-2)],
     .mul [own 2, .int (-2)], .mul [own 3, .int (-2)], .mul [own 0, .int 2], .mul [own 1, .int 2],
     .mul [own 3, .int (-2)], .mul [own 2, .int 2], .mul [own 1, .int (-2)], .mul [own 0, .int 2]] := by decide +kernel

theorem lin_half (i : Nat) : LinE (.mul [.rat ⟨1, 2⟩, own i]) i (1 / 2) :=
  linE_left (plain_node.2 ⟨rfl, by simp⟩) (good_rat.2 ⟨⟨by decide, by decide, by decide, by decide⟩, by decide⟩) fun ρ => by rw [eval_rat]; simp [RatC.val]

theorem lin_negHalf (i : Nat) : LinE (.mul [own i, .rat ⟨-1, 2⟩]) i (-1 / 2) :=
  linE_right (plain_node.2 ⟨rfl, by simp⟩) (good_rat.2 ⟨⟨by decide, by decide, by decide, by decide⟩, by decide⟩) fun ρ => by rw [eval_rat]; simp [RatC.val]

theorem lin_two (i : Nat) : LinE (.mul [own i, .int 2]) i 2 :=
  linE_right (plain_node.2 ⟨rfl, by simp⟩) (good_int.2 ⟨by decide, by decide⟩) fun ρ => by rw [eval_int]; simp

theorem lin_negTwo (i : Nat) : LinE (.mul [own i, .int (-2)]) i (-2) :=
  linE_right (plain_node.2 ⟨rfl, by simp⟩) (good_int.2 ⟨by decide, by decide⟩) fun ρ => by rw [eval_int]; simp

theorem forall₂_at {α β : Type} {P : α → β → Prop} {as : List α} {bs : List β} (h : List.Forall₂ P as bs) {k : Nat} {b : β} (hb : bs[k]? = some b) :
    ∃ a, as[k]? = some a ∧ P a b := by
  obtain ⟨h1, h2⟩ := List.getElem?_eq_some_iff.1 hb
  have h3 : k < as.length := by rw [h.length_eq]; exact h1
  have := List.forall₂_iff_get.1 h |>.2 k h3 h1
  subst h2
  exact ⟨as[k], List.getElem?_eq_getElem h3, this⟩

/-- **C62**. `right_retract_derivative` is the Jacobian at zero of `v ↦ q * exp(v)`, row by row. (The elements of `q` are interpreted expressions
without the symbols that the function creates for itself.) -/
theorem C62_retract_derivative (ρ : Env ℝ) (nK m n : Nat) (q : QuatE ℝ) (v : Quat ℝ) (r : List (Expr ℝ)) (hq : q.Has ρ v.toC)
    (hp : ∀ e ∈ [q.w, q.x, q.y, q.z], Plain e ∧ ∀ i < 4, Avoids (own i) e)
    (h : LawfulRunOn (fun ρ' => ∃ qs, qs <:+ ownPairs q ∧ ρ' = ρ.bindSeq qs) nK (fun lic K => rightRetractDerivative K lic m n q) r) :
    ∃ D : Matrix (Fin 4) (Fin 3) ℝ, HasFDerivAt (retract v) (LinearMap.toContinuousLinearMap (Matrix.toLin' D)) 0 ∧ r.length = 12 ∧
      ∀ i j, ∃ e, r[3 * i.val + j.val]? = some e ∧ Has ρ e (D i j) := by
  obtain ⟨lic, hl, hr⟩ := h.lawful
  unfold rightRetractDerivative at hr
  rw [retract_static] at hr
  have hf := substOwn_ok hq hp (fun qs hs => hl _ ⟨qs, hs, rfl⟩) (ks := [(1, -1/2), (2, -1/2), (3, -1/2), (0, 1/2), (3, -1/2), (2, 1/2), (3, 1/2), (0, 1/2),
    (1, -1/2), (2, -1/2), (1, 1/2), (0, 1/2)])
    (.cons ⟨by decide, lin_negHalf 1⟩ <| .cons ⟨by decide, lin_negHalf 2⟩ <| .cons ⟨by decide, lin_negHalf 3⟩ <| .cons ⟨by decide, lin_half 0⟩ <| .cons ⟨by decide, lin_negHalf 3⟩ <| .cons ⟨by decide, lin_half 2⟩ <| .cons ⟨by decide, lin_half 3⟩ <| .cons ⟨by decide, lin_half 0⟩ <| .cons ⟨by decide, lin_negHalf 1⟩ <| .cons ⟨by decide, lin_negHalf 2⟩ <| .cons ⟨by decide, lin_half 1⟩ <| .cons ⟨by decide, lin_half 0⟩ <| .nil) hr
  refine ⟨retractMatrix v, retract_hasFDerivAt v, hf.length_eq, ?_⟩
  intro i j
  fin_cases i <;> fin_cases j <;> refine (forall₂_at hf rfl).imp fun e he => ⟨he.1, ?_⟩ <;>
    (have := he.2; convert this using 1; simp [retractMatrix, elemOf, Quat.toC]; try ring)

/-- **C62**. `right_local_coordinates_derivative` is, for a unit quaternion, the Jacobian at zero of `d ↦ log(qᵀ * (q + d))`, row by row. -/
theorem C62_local_derivative (ρ : Env ℝ) (nK m n : Nat) (q : QuatE ℝ) (v : Quat ℝ) (r : List (Expr ℝ)) (hq : q.Has ρ v.toC) (hu : v.squaredNorm = 1)
    (hp : ∀ e ∈ [q.w, q.x, q.y, q.z], Plain e ∧ ∀ i < 4, Avoids (own i) e)
    (h : LawfulRunOn (fun ρ' => ∃ qs, qs <:+ ownPairs q ∧ ρ' = ρ.bindSeq qs) nK (fun lic K => rightLocalDerivative K lic m n q) r) :
    ∃ D : Matrix (Fin 3) (Fin 4) ℝ, HasFDerivAt (localCoordinates v) (LinearMap.toContinuousLinearMap (Matrix.toLin' D)) 0 ∧ r.length = 12 ∧
      ∀ i j, ∃ e, r[4 * i.val + j.val]? = some e ∧ Has ρ e (D i j) := by
  obtain ⟨lic, hl, hr⟩ := h.lawful
  unfold rightLocalDerivative at hr
  rw [local_static] at hr
  have hf := substOwn_ok hq hp (fun qs hs => hl _ ⟨qs, hs, rfl⟩) (ks := [(1, -2), (0, 2), (3, 2), (2, -2), (2, -2), (3, -2), (0, 2), (1, 2), (3, -2), (2, 2), (1, -2), (0, 2)])
    (.cons ⟨by decide, lin_negTwo 1⟩ <| .cons ⟨by decide, lin_two 0⟩ <| .cons ⟨by decide, lin_two 3⟩ <| .cons ⟨by decide, lin_negTwo 2⟩ <| .cons ⟨by decide, lin_negTwo 2⟩ <| .cons ⟨by decide, lin_negTwo 3⟩ <| .cons ⟨by decide, lin_two 0⟩ <| .cons ⟨by decide, lin_two 1⟩ <| .cons ⟨by decide, lin_negTwo 3⟩ <| .cons ⟨by decide, lin_two 2⟩ <| .cons ⟨by decide, lin_negTwo 1⟩ <| .cons ⟨by decide, lin_two 0⟩ <| .nil) hr
  refine ⟨localMatrix v, local_hasFDerivAt v hu, hf.length_eq, ?_⟩
  intro i j
  fin_cases i <;> fin_cases j <;> refine (forall₂_at hf rfl).imp fun e he => ⟨he.1, ?_⟩ <;>
    (have := he.2; convert this using 1; simp [localMatrix, elemOf, Quat.toC])

theorem qv_plain : ∀ e ∈ [(qv : QuatE ℝ).w, (qv : QuatE ℝ).x, (qv : QuatE ℝ).y, (qv : QuatE ℝ).z], Plain e ∧ ∀ i < 4, Avoids (own i) e := by
  intro e he
  simp only [List.mem_cons, List.not_mem_nil, or_false] at he
  rcases he with rfl | rfl | rfl | rfl <;> exact ⟨plain_node.2 ⟨rfl, by simp⟩, fun i _ => over_node.2 ⟨nofun, by simp⟩⟩

set_option maxRecDepth 100000 in
/-- Both derivatives of a quaternion of variables, at a unit quaternion. -/
example : ∃ r s : List (Expr ℝ), ∃ D E, HasFDerivAt (retract ⟨1/2, 1/2, 1/2, 1/2⟩) (LinearMap.toContinuousLinearMap (Matrix.toLin' D)) 0 ∧
    HasFDerivAt (localCoordinates ⟨1/2, 1/2, 1/2, 1/2⟩) (LinearMap.toContinuousLinearMap (Matrix.toLin' E)) 0 ∧ r.length = 12 ∧ s.length = 12 := by
  obtain ⟨r, hr⟩ := Same.runs (F := ℝ) (n := 8) (run := fun lic K => rightRetractDerivative K lic 3 10 qv) (by decide +kernel) fun _ => True
  obtain ⟨s, hs⟩ := Same.runs (F := ℝ) (n := 8) (run := fun lic K => rightLocalDerivative K lic 3 10 qv) (by decide +kernel) fun _ => True
  have hq : (qv : QuatE ℝ).Has (named fun _ => ((1/2 : ℝ) : ℂ)) (⟨1/2, 1/2, 1/2, 1/2⟩ : Quat ℝ).toC :=
    has_qv fun _ => ((1/2 : ℝ) : ℂ)
  obtain ⟨D, h1, h2, _⟩ := C62_retract_derivative _ 8 3 10 qv _ r hq qv_plain ⟨hr.code, hr.lawful.imp fun _ h => ⟨fun ρ _ => h.1 ρ trivial, h.2⟩⟩
  obtain ⟨E, h3, h4, _⟩ := C62_local_derivative _ 8 3 10 qv _ s hq (by norm_num [Quat.squaredNorm]) qv_plain
    ⟨hs.code, hs.lawful.imp fun _ h => ⟨fun ρ _ => h.1 ρ trivial, h.2⟩⟩
  exact ⟨r, s, D, E, h1, h3, h2, h4⟩

end Wf.Sym
