import Verif.Gen.RunRel
import Verif.Gen.StmtTextCpp

/-!
# Lemmas for C58: steps that the languages have in common
-/

namespace Wf.Gen.Text

variable {K : Type} [CommRing K] {M : Machine K} {I : Interp K} {S : Setting} {args : List Argument} {input : String → Cell K} {wanted : String → Bool}

/-- What is assumed of the names. `tmp`: the names of the variables of the generated code. -/
structure NamesOk (M : Machine K) (S : Setting) (args : List Argument) (tmp : String → Prop) : Prop where
  distinct : (givenNames S.T args).Nodup
  plain : ∀ n, n ∈ givenNames S.T args ∨ tmp n → M.lit n = none ∧ S.isLibrary n = false ∧ n ≠ "None"
  apart : ∀ n, tmp n → n ∉ givenNames S.T args
  none : M.lit "None" = none

/-- The names that an expression may contain. -/
def Readable (T : Scoping) (args : List Argument) (input : String → Cell K) (wanted : String → Bool) (tmp : String → Prop) (n : String) : Prop :=
  tmp n ∨ ∃ c, find n (startVars T args input wanted) = some c ∧ c.readable = true

mutual
/-- The names in a statement are used in the right way. `G`: the optional outputs that are known to be wanted. -/
def Stm.Ok (T : Scoping) (args : List Argument) (tmp P : String → Prop) : List String → Stm → Prop
  | _, .comment _ => True
  | _, .declare n _ none => tmp n
  | _, .declare n _ (some (.expr t)) => tmp n ∧ t.Over T P
  | _, .declare _ _ (some _) => False
  | _, .assign n (.expr t) => tmp n ∧ t.Over T P
  | _, .assign _ _ => False
  | G, .output n opt (.expr t) =>
    T ≠ .python true ∧ (∃ p, (⟨n, .scalar p, if opt then .optional else .output⟩ : Argument) ∈ args) ∧ (opt = true → n ∈ G) ∧ t.Over T P
  | _, .output _ _ _ => False
  | G, .outputMatrix n opt r c l => (⟨n, .matrix r c, if opt then .optional else .output⟩ : Argument) ∈ args ∧ (opt = true → n ∈ G) ∧ AllOver T P l
  | _, .ret _ => False
  | G, .branch c t e => c.Over T P ∧ StmsOk T args tmp P G t ∧ StmsOk T args tmp P G e
  | G, .optional n t body => (⟨n, t, .optional⟩ : Argument) ∈ args ∧ n ∉ G ∧ StmsOk T args tmp P (n :: G) body

def StmsOk (T : Scoping) (args : List Argument) (tmp P : String → Prop) : List String → List Stm → Prop
  | _, [] => True
  | G, s :: ss => s.Ok T args tmp P G ∧ StmsOk T args tmp P G ss
end

section

variable {tmp : String → Prop} {G : List String} {W : Track K} {m : Mem K} {s : State K}

theorem NamesOk.handle_tmp (hn : NamesOk M S args tmp) {n : String} (h : tmp n) : handle S.T args input wanted n = Option.none := handle_none (hn.apart n h)

theorem NamesOk.shows (hn : NamesOk M S args tmp) (h : Rel' S.T args input wanted G W m s) : Shows M S (Readable S.T args input wanted tmp) m.vars s where
  plain := fun n hp => hn.plain n (by
    rcases hp with hp | ⟨c, hc, _⟩
    · exact .inr hp
    · exact .inl (mem_start_given (mem_of_find hc)))
  same := fun n c hp hf => by
    have hb : handle S.T args input wanted n = Option.none := by
      rcases hp with hp | ⟨c, hc, hr⟩
      · exact hn.handle_tmp hp
      · exact handle_readable hn.distinct hc hr
    rw [h.find_good hb, hf]; rfl

theorem NamesOk.noNone (hn : NamesOk M S args tmp) (h : Rel' S.T args input wanted G W m s) : find "None" s.vars = Option.none := by
  rw [find_none, h.right, names_right]
  intro hm
  obtain ⟨p, hp, e⟩ := List.mem_map.1 hm
  exact h.plain p hp e

/-- The value of a right hand side that is an expression. -/
theorem cell_expr (hl : M.lit "None" = none) (hf : find "None" s.vars = none) {x : E} {k : K} (h : x.value M S s = some k) : (V.e x).cell M S s = some (.num k) := by
  cases x with
  | atom n =>
    show s.named M S n = _
    unfold State.named
    rw [E.value] at h
    cases e : M.lit n with
    | some y => rw [e] at h; cases h; rfl
    | none =>
      rw [e] at h
      simp only at h ⊢
      have hN : n ≠ "None" := by
        rintro rfl
        rw [hf] at h; cases h
      rw [if_neg fun h' => hN h'.2]
      rw [Option.bind_eq_some_iff] at h
      obtain ⟨o, ho, hk⟩ := h
      rw [ho]
      cases o with
      | val c =>
        cases c with
        | num y => cases hk; rfl
        | _ => cases hk
      | _ => cases hk
  | _ => simp only [V.cell, h, Option.map_some]

theorem test_expr {x : E} {k : K} (h : x.value M S s = some k) : (Cond.e x).test M S s = some (M.truth k, []) := by
  unfold Cond.test
  split
  · rename_i heq; cases heq; rw [h]
  · rename_i heq; cases heq; rw [h]
  · rename_i heq; cases heq
  · rename_i heq; cases heq
  · rename_i heq _ _; cases heq; rw [h]; rfl
  · rename_i a b c d e
    exact absurd rfl (a _)

theorem run_one {outer : Nat} {x : St} (h : s.result = none) : runSts M S outer [x] s = x.run M S outer s := by
  rw [runSts, if_neg (by simp [h])]
  cases x.run M S outer s <;> rfl

theorem runSts_append {outer : Nat} : ∀ (a b : List St) (s : State K), runSts M S outer (a ++ b) s = (runSts M S outer a s).bind (runSts M S outer b)
  | [], b, s => rfl
  | x :: a, b, s => by
    rw [List.cons_append, runSts, runSts]
    by_cases h : s.result.isSome = true
    · rw [if_pos h, if_pos h]
      show _ = runSts M S outer b s
      cases b with
      | nil => rfl
      | cons y b => rw [runSts, if_pos h]
    · rw [if_neg h, if_neg h]
      cases x.run M S outer s with
      | none => rfl
      | some s' => exact runSts_append a b s'

theorem put_put {α : Type} {n : String} {c d : α} : ∀ l : List (String × α), put n c (put n d l) = put n c l
  | [] => rfl
  | p :: l => by
    by_cases h : p.1 = n
    · simp [put, h]
    · simp [put, h, put_put l]

theorem put_self {α : Type} {n : String} {c : α} : ∀ {l : List (String × α)}, find n l = some c → put n c l = l
  | [], h => by cases h
  | p :: l, h => by
    rw [find] at h
    by_cases e : p.1 = n
    · rw [if_pos e] at h
      cases h
      rw [put, if_pos e, ← e]
    · rw [if_neg e] at h
      rw [put, if_neg e, put_self h]

theorem allOver_mem {T : Scoping} {P : String → Prop} : ∀ {l : List Tree}, AllOver T P l → ∀ t ∈ l, t.Over T P
  | [], _, t, h => by cases h
  | x :: l, h, t, ht => by
    rcases List.mem_cons.1 ht with rfl | ht
    · exact h.1
    · exact allOver_mem h.2 t ht

theorem allFine_mem {L : Lang} : ∀ {l : List Tree}, AllFine L l → ∀ t ∈ l, t.Fine L
  | [], _, t, h => by cases h
  | x :: l, h, t, ht => by
    rcases List.mem_cons.1 ht with rfl | ht
    · exact h.1
    · exact allFine_mem h.2 t ht

theorem values_zip {T : Scoping} {con : Tree → Option K} {vars : Vars K} : ∀ {l : List Tree} {xs : List K}, values T I con vars l = some xs →
    ∀ p ∈ l.zip xs, p.1.value T I con vars = some p.2
  | [], xs, h, p, hp => by cases hp
  | t :: ts, xs, h, p, hp => by
    rw [values] at h
    cases h1 : t.value T I con vars with
    | none => simp [h1] at h
    | some x =>
    cases h2 : values T I con vars ts with
    | none => simp [h1, h2] at h
    | some ys =>
    rw [h1, h2] at h
    cases h
    rcases List.mem_cons.1 hp with rfl | hp
    · exact h1
    · exact values_zip h2 p hp

/-- The elements of a matrix are written one after the other. -/
theorem run_matrix {outer : Nat} (f : (Nat × Nat) × Tree → St) (a : String) {r c : Nat} : ∀ (l : List Tree) (xs done : List K) (rest : List (Option K)) (s : State K),
    done.length + l.length = r * c → xs.length = l.length → rest.length = l.length → s.result = none → find a s.heap = some (.mat r c (done.map some ++ rest)) →
    (∀ p ∈ l.zip xs, ∀ (i j : Nat) (s2 : State K), s2.vars = s.vars → s2.result = none →
      (f ((i, j), p.1)).run M S outer s2 = s2.writeElement a [.int i "", .int j ""] (.num p.2)) →
    runSts M S outer ((((List.range' done.length l.length).map (indicesOf c)).zip l).map f) s =
      some { s with heap := put a (.mat r c ((done ++ xs).map some)) s.heap }
  | [], xs, done, rest, s, h1, h2, h3, h4, h5, h6 => by
    have hx : xs = [] := List.length_eq_zero_iff.1 h2
    have hr : rest = [] := List.length_eq_zero_iff.1 h3
    subst hx; subst hr
    rw [List.append_nil] at h5 ⊢
    rw [put_self h5]
    rfl
  | t :: l, [], done, rest, s, h1, h2, h3, h4, h5, h6 => by cases h2
  | t :: l, x :: xs, done, [], s, h1, h2, h3, h4, h5, h6 => by cases h3
  | t :: l, x :: xs, done, e :: rest, s, h1, h2, h3, h4, h5, h6 => by
    have hlt : done.length < r * c := by simp only [List.length_cons] at h1; omega
    have hc : 0 < c := Nat.pos_of_ne_zero (by rintro rfl; simp at hlt)
    have step := h6 (t, x) List.mem_cons_self (done.length / c) (done.length % c) s rfl h4
    have hw : s.writeElement a [.int (done.length / c) "", .int (done.length % c) ""] (.num x) =
        some { s with heap := put a (.mat r c ((done ++ [x]).map some ++ rest)) s.heap } := by
      unfold State.writeElement
      rw [h5]
      simp only [indices]
      have b1 : done.length / c < r := Nat.div_lt_of_lt_mul (by rw [Nat.mul_comm]; exact hlt)
      rw [if_pos ⟨b1, Nat.mod_lt _ hc⟩, Nat.div_add_mod']
      congr 3
      have : done.length = (done.map some).length := by simp
      rw [this, List.set_append_right _ _ (Nat.le_refl _), Nat.sub_self, List.set_cons_zero]
      simp
    rw [hw] at step
    have ih := run_matrix (outer := outer) f a l xs (done ++ [x]) rest { s with heap := put a (.mat r c ((done ++ [x]).map some ++ rest)) s.heap }
      (by simp only [List.length_append, List.length_cons, List.length_nil] at h1 ⊢; omega) (by simpa using h2) (by simpa using h3) h4
      (find_put (find_isSome.1 (by rw [h5]; rfl)))
      (fun p hp i j s2 hv hr => h6 p (List.mem_cons_of_mem _ hp) i j s2 hv hr)
    rw [List.length_append, List.length_singleton] at ih
    have e1 : (((List.range' done.length (t :: l).length).map (indicesOf c)).zip (t :: l)).map f =
        f ((done.length / c, done.length % c), t) :: (((List.range' (done.length + 1) l.length).map (indicesOf c)).zip l).map f := by
      rw [List.length_cons, List.range'_succ]; rfl
    rw [e1, runSts, if_neg (by simp [h4]), step]
    simp only
    rw [ih]
    simp only [put_put, List.append_assoc, List.singleton_append]

/-! ## Running statements with names -/

variable {T : Scoping} {con : Tree → Option K} {truth : K → Bool}

theorem exec_optional_eq {n : String} {t : VarType} {body : List Stm} {m : Mem K} {outer : Nat} : (Stm.optional n t body).exec T I con truth outer m =
    match wants T n t.isMatrix m.vars with
    | some true =>
      match execAll T I con truth m.vars.length body m with
      | some m' => some { m' with vars := leaveBlock T m.vars m'.vars }
      | .none => .none
    | some false =>
      match T with
      | .python false => (setVar T n .none m.vars).map fun vars => { m with vars := vars }
      | _ => some m
    | .none => .none := by
  cases t <;> (unfold Stm.exec; rfl)

theorem exec_optional_inv {n : String} {t : VarType} {body : List Stm} {m m' : Mem K} {outer : Nat} (h : (Stm.optional n t body).exec T I con truth outer m = some m') :
    (wants T n t.isMatrix m.vars = some true ∧ ∃ m1, execAll T I con truth m.vars.length body m = some m1 ∧ m' = { m1 with vars := leaveBlock T m.vars m1.vars }) ∨
      (wants T n t.isMatrix m.vars = some false ∧ (T ≠ .python false → m' = m) ∧
        (T = .python false → ∃ vars, setVar T n .none m.vars = some vars ∧ m' = { m with vars := vars })) := by
  rw [exec_optional_eq] at h
  cases hw : wants T n t.isMatrix m.vars with
  | none => simp [hw] at h
  | some b =>
    rw [hw] at h
    cases b with
    | true =>
      simp only at h
      cases hb : execAll T I con truth m.vars.length body m with
      | none => simp [hb] at h
      | some m1 => rw [hb] at h; cases h; exact .inl ⟨rfl, m1, rfl, rfl⟩
    | false =>
      simp only at h
      refine .inr ⟨rfl, fun hT => ?_, fun hT => ?_⟩
      · rcases T with (_ | _) | _ | (_ | _)
        · cases h; rfl
        · cases h; rfl
        · cases h; rfl
        · exact absurd rfl hT
        · cases h; rfl
      · subst hT
        simp only at h
        rw [Option.map_eq_some_iff] at h
        obtain ⟨vars, h1, h2⟩ := h
        exact ⟨vars, h1, h2.symm⟩

theorem exec_branch_inv {c : Tree} {t e : List Stm} {m m' : Mem K} {outer : Nat} (h : (Stm.branch c t e).exec T I con truth outer m = some m') :
    ∃ x m1, c.value T I con m.vars = some x ∧ execAll T I con truth m.vars.length (if truth x then t else e) m = some m1 ∧
      m' = { m1 with vars := leaveBlock T m.vars m1.vars } := by
  rw [Stm.exec] at h
  cases hc : c.value T I con m.vars with
  | none => simp [hc] at h
  | some x =>
    rw [hc] at h
    simp only at h
    refine ⟨x, ?_⟩
    by_cases ht : truth x = true
    · rw [if_pos ht] at h ⊢
      cases hb : execAll T I con truth m.vars.length t m with
      | none => simp [hb] at h
      | some m1 => rw [hb] at h; cases h; exact ⟨m1, rfl, rfl, rfl⟩
    · rw [if_neg ht] at h ⊢
      cases hb : execAll T I con truth m.vars.length e m with
      | none => simp [hb] at h
      | some m1 => rw [hb] at h; cases h; exact ⟨m1, rfl, rfl, rfl⟩

theorem execAll_cons_inv {x : Stm} {xs : List Stm} {m m' : Mem K} {outer : Nat} (hr : m.result = none) (h : execAll T I con truth outer (x :: xs) m = some m') :
    ∃ m1, x.exec T I con truth outer m = some m1 ∧ execAll T I con truth outer xs m1 = some m' := by
  rw [execAll, if_neg (by simp [hr])] at h
  cases hx : x.exec T I con truth outer m with
  | none => simp [hx] at h
  | some m1 => rw [hx] at h; exact ⟨m1, rfl, h⟩

theorem write_inv (hT : T ≠ .python false) {n : String} {c : Cell K} {vars vars' : Vars K} (h : write T n c vars = some vars') : vars' = put n c vars := by
  rcases T with (_ | _) | _ | (_ | _) <;> first | exact absurd rfl hT | skip
  all_goals
    simp only [write] at h
    split at h
    · cases h
    · cases h
    · cases h; rfl

theorem giveVar_inv (hT : ∀ b, T ≠ .python b) {n : String} {c : Cell K} {vars vars' : Vars K} (h : giveVar T n c vars = some vars') :
    find n vars = some .unset ∧ vars' = put n c vars := by
  unfold giveVar at h
  split at h
  · exact absurd rfl (hT _)
  · rename_i e; cases h; exact ⟨e, rfl⟩
  · cases h

/-- Whether an optional output is wanted. -/
theorem Rel'.wants (hT : T ≠ .python false) {a : Argument} (h : Rel' T args input wanted G W m s) (ha : a ∈ args) (ho : a.direction = .optional) {b : Bool}
    (hw : Text.wants T a.name a.type.isMatrix m.vars = some b) : wanted a.name = b := by
  have e : Text.wants T a.name a.type.isMatrix m.vars =
      match find (outVar T a) m.vars with
      | some .none => some false
      | some _ => some true
      | .none => .none := by
    rcases T with (_ | _) | _ | (_ | _) <;> first | rfl | exact absurd rfl hT
  rw [e] at hw
  cases hwa : wanted a.name with
  | false =>
    rw [h.absent hT a ha ho hwa] at hw
    cases hw; rfl
  | true =>
    obtain ⟨slot, c, _, h2, _, h4⟩ := h.heap hT a ha (by simp [Argument.present, ho, hwa])
    rw [h2] at hw
    cases c with
    | none => exact absurd h4 (by cases slot <;> exact id)
    | _ => cases hw; rfl

end

end Wf.Gen.Text
