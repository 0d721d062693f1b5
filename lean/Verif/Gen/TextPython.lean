import Verif.Gen.TextCpp

/-!
# The Python text of an operation is derived by the grammar
-/

namespace Wf.Gen.Text

theorem pyList_eq (o : PyOptions) (l : List Ast) : pyList o l = l.map (Ast.python o) := by
  induction l with
  | nil => rfl
  | cons t ts ih => rw [pyList, ih]; rfl

theorem pythonEs_eq (o : PyOptions) (l : List Tree) : pythonEs o l = l.map (Tree.pythonE o) := by
  induction l with
  | nil => rfl
  | cons t ts ih => rw [pythonEs, ih]; rfl

theorem reads_pyWrap {o : PyOptions} {t : Tree} {p : Prec} {k : Nat} (h : Reads .python (t.level .python) (tokens .python (t.visit.python o)) (t.pythonE o))
    (hk : k ≤ 7) (hw : ¬ t.prec.rank ≤ p.rank → k ≤ t.level .python) : Reads .python k (tokens .python ((wrap p t t.visit).python o)) (t.pythonE o) := by
  unfold wrap
  by_cases hp : t.prec.rank ≤ p.rank
  · rw [if_pos hp, Ast.python, tokens_paren]
    exact (Reads.paren (h.down (Nat.zero_le _) t.level_le)).down hk (Nat.le_refl _)
  · rw [if_neg hp]
    exact h.down (hw hp) t.level_le

theorem reads_pyCast {o : PyOptions} {t : Prim} {ts : Toks} {e : E} {k : Nat} (h : Reads .python k (tokens .python ts) e) (hk : k ≤ 7) :
    Reads .python 7 (tokens .python (pyCast o t ts)) (pyCastE o t e) := by
  have h0 := h.down (Nat.zero_le _) hk
  unfold pyCast pyCastE
  by_cases ho : o.target = .pytorch
  · rw [if_pos ho, if_pos ho]
    have := reads_name_app (L := .python) (n := o.name "asarray") (l := [ts, [.name ("dtype=" ++ o.name (o.type t))]]) (.cons h0 (.cons (Reads.down (k' := 7) .name (by omega) (by omega)) .nil))
    simpa [joinWith] using this
  · rw [if_neg ho, if_neg ho]
    exact reads_name_app (L := .python) (l := [ts]) (.cons h0 .nil)

theorem reads_pyLiteral {o : PyOptions} {ts : Toks} {e : E} {k : Nat} (h : Reads .python k (tokens .python ts) e) (hk : k ≤ 7) :
    Reads .python k (tokens .python (pyLiteral o ts)) (pyLiteralE o e) := by
  unfold pyLiteral pyLiteralE
  by_cases ho : o.target = .pytorch
  · rwa [if_pos ho, if_pos ho]
  · rw [if_neg ho, if_neg ho]
    exact (reads_pyCast h hk).down hk (Nat.le_refl _)

theorem reads_pyCall {o : PyOptions} {n : String} {r : Returns} {l : List Toks} {es : List E}
    (h : List.Forall₂ (fun ts e => Reads .python 0 (tokens .python ts) e) l es) : Reads .python 7 (tokens .python (pyCall o n r l)) (pyCallE o n r es) := by
  have h0 := reads_name_app (n := n) h
  cases r with
  | scalar p => exact h0
  | custom => exact h0
  | matrix i j =>
    have h1 := reads_name_app (L := .python) (n := o.name "asarray")
      (l := [[.name n, .lpar] ++ joinWith [.comma, .sp] l ++ [.rpar], [.name ("dtype=" ++ o.name (o.type .floating))]])
      (.cons (h0.down (Nat.zero_le _) (by omega)) (.cons (Reads.down (k' := 7) .name (by omega) (by omega)) .nil))
    have h2 := Reads.app (us := [.int i "", .comma, .int j ""]) (Reads.field (s := "reshape") h1) (reads_two fun h => nomatch h)
    have he : ([.name (o.name "asarray"), .lpar] ++ ([.name n, .lpar] ++ joinWith [.comma, .sp] l ++ [.rpar]) ++
      [.comma, .sp, .name ("dtype=" ++ o.name (o.type .floating)), .rpar, .dot, .name "reshape", .lpar, .int i "", .comma, .sp, .int j "", .rpar] : Toks) =
      ([.name (o.name "asarray"), .lpar] ++ joinWith [.comma, .sp] [[.name n, .lpar] ++ joinWith [.comma, .sp] l ++ [.rpar],
        [.name ("dtype=" ++ o.name (o.type .floating))]] ++ [.rpar]) ++ [.dot, .name "reshape", .lpar, .int i "", .comma, .sp, .int j "", .rpar] := by
      simp [joinWith]
    rw [show pyCall o n (.matrix i j) l = _ from he, tokens_append_cons _ _ (by simp)]
    change Reads _ _ _ (.app (.field (.app _ _) _) _)
    simpa [tokens] using h2

theorem tokens_python_minus (ts : Toks) : tokens .python (.minus :: ts) = .minus :: tokens .python ts := tokens_cons (by simp) (.inr (.inr (by simp)))

mutual
/-- The text is derived, with the tree that is meant. -/
theorem reads_python (o : PyOptions) : ∀ (t : Tree), t.Fine .python → Reads .python (t.level .python) (tokens .python (t.visit.python o)) (t.pythonE o)
  | .var s, _ => .name
  | .arg s k, _ => .name
  | .int n, _ => reads_int fun h => nomatch h
  | .float s d, _ => reads_pyLiteral reads_float (Tree.level_le (.float s d))
  | .bool b, _ => .name
  | .euler, _ => reads_pyLiteral (k := 7) .name (Nat.le_refl _)
  | .pi, _ => reads_pyLiteral (k := 7) .name (Nat.le_refl _)
  | .add l, h => by
    have ih := reads_pythons o l h.2.2
    simp only [Tree.visit, Ast.python, Tree.pythonE, pyList_eq, pythonEs_eq, visitList_eq, List.map_map]
    refine reads_fold (op := .add) (.inl rfl) (forall₂_of_mem fun t ht => ?_) (by simpa using h.1)
    exact reads_pyWrap (ih t ht) (by decide) fun hp => (Tree.level_operand (h.2.1 t ht) hp).1 rfl
  | .mul l, h => by
    have ih := reads_pythons o l h.2.2
    simp only [Tree.visit, Ast.python, Tree.pythonE, pyList_eq, pythonEs_eq, visitList_eq, List.map_map]
    refine reads_fold (op := .mul) (.inr rfl) (forall₂_of_mem fun t ht => ?_) (by simpa using h.1)
    exact reads_pyWrap (ih t ht) (by decide) fun hp => (Tree.level_operand (h.2.1 t ht) hp).2 rfl
  | .div a b, h => by
    simp only [Tree.visit, Ast.python, Tree.pythonE]
    rw [tokens_binary _ _ (by simp) (by simp)]
    refine Reads.bin (op := .div) ?_ ?_ (by simp)
    · exact reads_pyWrap (reads_python o a h.2.2.1) (by decide) fun hp => Nat.le_of_succ_le ((Tree.level_operand h.1 hp).2 rfl)
    · exact reads_pyWrap (reads_python o b h.2.2.2) (by decide) fun hp => (Tree.level_operand h.2.1 hp).2 rfl
  | .neg a, h => by
    simp only [Tree.visit, Ast.python, Tree.pythonE]
    rw [List.singleton_append, tokens_python_minus]
    exact .neg (reads_pyWrap (reads_python o a h.2) (by decide) fun hp => Tree.level_neg h.1 hp)
  | .cmp op a b, h => by
    have hl := h.1 (by decide)
    simp only [Tree.visit, Ast.python, Tree.pythonE, Tree.level]
    rw [tokens_binary _ _ (relTok_ne op).1 (relTok_ne op).2, relOp_tok]
    have hb := level_relOp (L := .python) op
    refine Reads.bin ?_ ?_ (by simp)
    · exact (reads_python o a h.2.1).down (Nat.le_trans (left_relOp op) (Tree.level_tight hl.1)) a.level_le
    · exact (reads_python o b h.2.2).down (Nat.le_trans (by omega) (Tree.level_tight hl.2)) b.level_le
  | .cond c a b, h => by
    simp only [Tree.visit, Ast.python, Tree.pythonE, Tree.level]
    rw [if_neg (by simp)]
    have := reads_name_app (L := .python) (n := o.name "where")
      (l := [(wrap .ternary c c.visit).python o, (wrap .ternary a a.visit).python o, (wrap .ternary b b.visit).python o])
      (.cons (reads_pyWrap (reads_python o c h.1) (by decide) fun hp => Nat.zero_le _)
        (.cons (reads_pyWrap (reads_python o a h.2.1) (by decide) fun hp => Nat.zero_le _)
          (.cons (reads_pyWrap (reads_python o b h.2.2.1) (by decide) fun hp => Nat.zero_le _) .nil)))
    simpa [joinWith] using this
  | .cast t a, h => reads_pyCast (reads_python o a h) a.level_le
  | .std f l, h => by
    have ih := reads_pythons o l h.2.1
    simp only [Tree.visit, Ast.python, Tree.pythonE, Tree.level, pyList_eq, pythonEs_eq, visitAll_eq, List.map_map]
    rw [if_neg (by simp), if_neg (by simp)]
    exact reads_name_app (forall₂_of_mem fun t ht => (ih t ht).down (Nat.zero_le _) t.level_le)
  | .call n r p l, h => by
    have ih := reads_pythons o l h.2.1
    simp only [Tree.visit, Ast.python, Tree.pythonE, Tree.level, pyList_eq, pythonEs_eq, visitAll_eq, List.map_map]
    rw [if_neg (by simp)]
    exact reads_pyCall (forall₂_of_mem fun t ht => (ih t ht).down (Nat.zero_le _) t.level_le)
  | .copy a, h => reads_python o a h
  | .field a n, h => by
    simp only [Tree.visit, Ast.python, Tree.pythonE, Tree.level]
    rw [tokens_append_cons _ _ (by simp)]
    refine Reads.field ?_
    have := reads_python o a h.2
    rwa [Tree.level_object h.1] at this
  | .elem a i j, h => by
    have ha := reads_python o a h.2.1
    rw [Tree.level_object h.1] at ha
    simp only [Tree.visit, Ast.python, Tree.pythonE, Tree.level]
    rw [tokens_append_cons _ _ (by simp)]
    exact Reads.index (us := [.int i "", .comma, .int j ""]) rfl ha (reads_two fun _ => h.2.2)

theorem reads_pythons (o : PyOptions) :
    ∀ (l : List Tree), AllFine .python l → ∀ t ∈ l, Reads .python (t.level .python) (tokens .python (t.visit.python o)) (t.pythonE o)
  | [], _ => fun _ h => nomatch h
  | t :: ts, h => fun x hx => (List.mem_cons.mp hx).elim (fun e => e ▸ reads_python o t h.1) (fun hx => reads_pythons o ts h.2 x hx)
end

end Wf.Gen.Text
