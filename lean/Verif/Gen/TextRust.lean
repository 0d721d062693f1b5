import Verif.Gen.TextCpp

/-!
# The Rust text of an operation is derived by the grammar
-/

namespace Wf.Gen.Text

theorem rustList_eq (l : List Ast) : rustList l = l.map Ast.rust := by
  induction l with
  | nil => rfl
  | cons t ts ih => rw [rustList, ih]; rfl

theorem rustEs_eq (l : List Tree) : rustEs l = l.map Tree.rustE := by
  induction l with
  | nil => rfl
  | cons t ts ih => rw [rustEs, ih]; rfl

theorem reads_rustWrap {t : Tree} {p : Prec} {k : Nat} (h : Reads .rust (t.level .rust) (tokens .rust t.visit.rust) t.rustE) (hk : k ≤ 7)
    (hw : ¬ t.prec.rank ≤ p.rank → k ≤ t.level .rust) : Reads .rust k (tokens .rust (wrap p t t.visit).rust) t.rustE := by
  unfold wrap
  by_cases hp : t.prec.rank ≤ p.rank
  · rw [if_pos hp, Ast.rust, tokens_paren]
    exact (Reads.paren (h.down (Nat.zero_le _) t.level_le)).down hk (Nat.le_refl _)
  · rw [if_neg hp]
    exact h.down (hw hp) t.level_le

theorem reads_rustSignum {x : Toks} {e : E} (h : Reads .rust 3 (tokens .rust x) e) (ht : endsInType (tokens .rust x) = false) :
    Reads .rust 3 (tokens .rust (rustStdToks .signum [x])) (rustStdE .signum [e]) := by
  have h0 : Reads .rust 7 [.name "0.0f64"] (.atom "0.0f64") := .name
  have h1 := Reads.bin (L := .rust) (op := .lt) (h0.down (k := 3) (by omega) (by omega)) h (by simp [endsInType])
  have h2 := Reads.bin (L := .rust) (op := .lt) h (h0.down (k := 3) (by omega) (by omega)) (by simp [ht])
  have h1' := Reads.as (t := "i64") rfl ((Reads.paren (h1.down (Nat.zero_le _) (by decide))).down (k := 5) (by omega) (by omega))
  have h2' := Reads.as (t := "i64") rfl ((Reads.paren (h2.down (Nat.zero_le _) (by decide))).down (k := 5) (by omega) (by omega))
  have h3 := Reads.bin (L := .rust) (op := .sub) (h1'.down (k := 3) (by omega) (by omega)) (h2'.down (k := 4) (by omega) (by omega)) (by simp)
  have he : tokens .rust (rustStdToks .signum [x]) = .lpar :: ([.name "0.0f64"] ++ .lt :: tokens .rust x ++ [.rpar]) ++ [.kAs, .ty "i64"] ++
      .minus :: (.lpar :: (tokens .rust x ++ .lt :: [.name "0.0f64"] ++ [.rpar]) ++ [.kAs, .ty "i64"]) := by
    unfold rustStdToks
    simp only [List.append_assoc, List.cons_append, List.nil_append, List.headD_cons]
    simp only [tokens]
    rw [tokens_append_cons _ _ (by simp)]
    simp only [tokens]
    rw [tokens_append_cons _ _ (by simp)]
    simp only [tokens]
  rw [he]
  exact h3

theorem reads_rustFloor {x : Toks} {e : E} (h : Reads .rust 0 (tokens .rust x) e) :
    Reads .rust 5 (tokens .rust (rustStdToks .floor [x])) (rustStdE .floor [e]) := by
  have h1 := Reads.as (t := "i64") rfl ((Reads.app (us := []) (Reads.field (s := "floor") (Reads.paren h)) .nil).down (k := 5) (by omega) (by omega))
  have he : tokens .rust (rustStdToks .floor [x]) = .lpar :: (tokens .rust x ++ [.rpar]) ++ [.dot, .name "floor"] ++ .lpar :: ([] ++ [.rpar]) ++
      [.kAs, .ty "i64"] := by
    unfold rustStdToks
    simp only [List.append_assoc, List.cons_append, List.nil_append, List.headD_cons]
    simp only [tokens]
    rw [tokens_append_cons _ _ (by simp)]
    simp only [tokens]
  rw [he]
  exact h1

theorem reads_rustStd {f : Std} {x : Toks} {e : E} {l : List Toks} {es : List E} (hs : f ≠ .signum) (hf : f ≠ .floor) (h : Reads .rust 0 (tokens .rust x) e)
    (hl : List.Forall₂ (fun ts e => Reads .rust 0 (tokens .rust ts) e) l es) :
    Reads .rust 7 (tokens .rust (rustStdToks f (x :: l))) (rustStdE f (e :: es)) := by
  have h1 := Reads.app (Reads.field (s := rustStd f) (Reads.paren h)) (reads_args hl)
  have he : rustStdToks f (x :: l) = [.lpar] ++ x ++ [.rpar, .dot, .name (rustStd f), .lpar] ++ joinWith [.comma, .sp] l ++ [.rpar] := by
    cases f <;> simp_all [rustStdToks]
  have he' : rustStdE f (e :: es) = .app (.field e (rustStd f)) es := by cases f <;> simp_all [rustStdE]
  have he2 : tokens .rust (rustStdToks f (x :: l)) = .lpar :: (tokens .rust x ++ [.rpar]) ++ [.dot, .name (rustStd f)] ++
      .lpar :: (tokens .rust (joinWith [.comma, .sp] l) ++ [.rpar]) := by
    rw [he]
    simp only [List.append_assoc, List.cons_append, List.nil_append]
    simp only [tokens]
    rw [tokens_append_cons _ _ (by simp)]
    simp only [tokens]
    rw [tokens_append_cons _ _ (by simp)]
    simp only [tokens]
  rw [he2, he']
  exact h1

/-- The argument of a call. -/
theorem visit_isCustomArg : ∀ (t : Tree), t.visit.isCustomArg = t.isCustomArg
  | .copy a => visit_isCustomArg a
  | .arg s k => by cases k <;> rfl
  | .call n r p l | .std f l | .int n | .float n _ | .cast n _ | .cond a b c | .cmp a b c | .bool _ | .euler
  | .pi | .add _ | .mul _ | .div _ _ | .neg _ | .var _ | .field _ _ | .elem _ _ _ => rfl

theorem visit_isArg : ∀ (t : Tree), t.visit.isArg = t.isArg
  | .copy a => visit_isArg a
  | .arg s k | .call n r p l | .std f l | .int n | .float n _ | .cast n _ | .cond a b c | .cmp a b c | .bool _ | .euler
  | .pi | .add _ | .mul _ | .div _ _ | .neg _ | .var _ | .field _ _ | .elem _ _ _ => rfl

/-- Arguments that are borrowed can be the operand of `&`. -/
def BorrowOk (t : Tree) (k : Kind) : Prop := k ≠ .scalar → t.isObject = true

theorem reads_borrow {t : Tree} {k : Kind} (h : Reads .rust (t.level .rust) (tokens .rust t.visit.rust) t.rustE) (ho : BorrowOk t k) :
    Reads .rust 0 (tokens .rust (rustBorrow t.visit k t.visit.rust)) (borrowE t k t.rustE) := by
  unfold rustBorrow borrowE
  rw [visit_isCustomArg]
  by_cases hc : t.isCustomArg = true
  · rw [if_pos hc, if_pos hc]
    exact h.down (Nat.zero_le _) t.level_le
  · rw [if_neg hc, if_neg hc]
    by_cases hk : k = .custom ∨ k = .matrix
    · rw [if_pos hk, if_pos hk]
      have := ho (by rcases hk with rfl | rfl <;> simp)
      rw [Tree.level_object this] at h
      rw [tokens_cons (by simp) (.inl (by simp))]
      exact (Reads.ref rfl (h.down (by omega) (by omega))).down (Nat.zero_le _) (by omega)
    · rw [if_neg hk, if_neg hk]
      exact h.down (Nat.zero_le _) t.level_le

theorem reads_rustParams : ∀ (p : List Kind) (l : List Tree), (∀ t ∈ l, Reads .rust (t.level .rust) (tokens .rust t.visit.rust) t.rustE) →
    (∀ x ∈ p.zip l, x.1 ≠ .scalar → x.2.isObject = true) →
    List.Forall₂ (fun ts e => Reads .rust 0 (tokens .rust ts) e) (rustArgs p (visitAll l)) (rustParams p l)
  | k :: ks, t :: ts, h, ho =>
    .cons (reads_borrow (h t (by simp)) (ho (k, t) (by simp))) (reads_rustParams ks ts (fun t ht => h t (List.mem_cons_of_mem _ ht))
      fun x hx => ho x (by rw [List.zip_cons_cons]; exact List.mem_cons_of_mem _ hx))
  | [], _, _, _ => by simp [rustArgs, rustParams]
  | _ :: _, [], _, _ => by simp [visitAll, rustArgs, rustParams]

theorem tokens_rust_minus (ts : Toks) : tokens .rust (.minus :: ts) = .minus :: tokens .rust ts := tokens_cons (by simp) (.inr (.inr (by simp)))

theorem tokens_rust_cond (c a b : Toks) :
    tokens .rust ([.kIf, .sp] ++ c ++ [.sp, .lbrace, .sp] ++ a ++ [.sp, .rbrace, .sp, .kElse, .sp, .lbrace, .sp] ++ b ++ [.sp, .rbrace]) =
      .kIf :: (tokens .rust c ++ .lbrace :: (tokens .rust a ++ .rbrace :: .kElse :: .lbrace :: (tokens .rust b ++ [.rbrace]))) := by
  simp only [List.append_assoc, List.cons_append, List.nil_append]
  simp only [tokens]
  rw [tokens_append_cons _ _ (by simp)]
  simp only [tokens]
  rw [tokens_append_cons _ _ (by simp)]
  simp only [tokens]
  rw [tokens_append_cons _ _ (by simp)]
  simp only [tokens]

theorem tokens_rust_cmp (a b : Toks) (op : Rel) :
    tokens .rust ([.lpar] ++ a ++ [.rpar, .sp, relTok op, .sp, .lpar] ++ b ++ [.rpar]) =
      .lpar :: (tokens .rust a ++ [.rpar]) ++ relTok op :: (.lpar :: (tokens .rust b ++ [.rpar])) := by
  simp only [List.append_assoc, List.cons_append, List.nil_append]
  simp only [tokens]
  rw [tokens_append_cons _ _ (by simp)]
  simp only [tokens]
  rw [tokens_cons (relTok_ne op).1 (.inl (relTok_ne op).2)]
  simp only [tokens]
  rw [tokens_append_cons _ _ (by simp)]
  simp only [tokens]

theorem tokens_rust_cast (a : Toks) (t : String) :
    tokens .rust ([.lpar] ++ a ++ [.rpar, .sp, .kAs, .sp, .ty t]) = .lpar :: (tokens .rust a ++ [.rpar]) ++ [.kAs, .ty t] := by
  simp only [List.append_assoc, List.cons_append, List.nil_append]
  simp only [tokens]
  rw [tokens_append_cons _ _ (by simp)]
  simp only [tokens]

mutual
/-- The text is derived, with the tree that is meant. -/
theorem reads_rust : ∀ (t : Tree), t.Fine .rust → Reads .rust (t.level .rust) (tokens .rust t.visit.rust) t.rustE
  | .var s, _ => .name
  | .arg s k, _ => .name
  | .int n, _ => reads_int fun h => nomatch h
  | .float s d, _ => reads_float
  | .bool b, _ => .name
  | .euler, _ => .name
  | .pi, _ => .name
  | .add l, h => by
    have ih := reads_rusts l h.2.2
    simp only [Tree.visit, Ast.rust, Tree.rustE, rustList_eq, rustEs_eq, visitList_eq, List.map_map]
    refine reads_fold (op := .add) (.inl rfl) (forall₂_of_mem fun t ht => ?_) (by simpa using h.1)
    exact reads_rustWrap (ih t ht) (by decide) fun hp => (Tree.level_operand (h.2.1 t ht) hp).1 rfl
  | .mul l, h => by
    have ih := reads_rusts l h.2.2
    simp only [Tree.visit, Ast.rust, Tree.rustE, rustList_eq, rustEs_eq, visitList_eq, List.map_map]
    refine reads_fold (op := .mul) (.inr rfl) (forall₂_of_mem fun t ht => ?_) (by simpa using h.1)
    exact reads_rustWrap (ih t ht) (by decide) fun hp => (Tree.level_operand (h.2.1 t ht) hp).2 rfl
  | .div a b, h => by
    simp only [Tree.visit, Ast.rust, Tree.rustE]
    rw [tokens_binary _ _ (by simp) (by simp)]
    refine Reads.bin (op := .div) ?_ ?_ (by simp)
    · exact reads_rustWrap (reads_rust a h.2.2.1) (by decide) fun hp => Nat.le_of_succ_le ((Tree.level_operand h.1 hp).2 rfl)
    · exact reads_rustWrap (reads_rust b h.2.2.2) (by decide) fun hp => (Tree.level_operand h.2.1 hp).2 rfl
  | .neg a, h => by
    simp only [Tree.visit, Ast.rust, Tree.rustE]
    rw [List.singleton_append, tokens_rust_minus]
    exact .neg (reads_rustWrap (reads_rust a h.2) (by decide) fun hp => Tree.level_neg h.1 hp)
  | .cmp op a b, h => by
    simp only [Tree.visit, Ast.rust, Tree.rustE, Tree.level]
    rw [tokens_rust_cmp, relOp_tok]
    have hb := level_relOp (L := .rust) op
    have hl := left_relOp (L := .rust) op
    refine Reads.bin ?_ ?_ ?_
    · exact (Reads.paren ((reads_rust a h.2.1).down (Nat.zero_le _) a.level_le)).down (by omega) (by omega)
    · exact (Reads.paren ((reads_rust b h.2.2).down (Nat.zero_le _) b.level_le)).down (by omega) (by omega)
    · rintro ⟨_, _, h⟩
      rw [endsInType, ← List.cons_append, List.getLast?_append] at h
      simp at h
  | .cond c a b, h => by
    simp only [Tree.visit, Ast.rust, Tree.rustE, Tree.level]
    rw [tokens_rust_cond, if_neg (by simp)]
    refine Reads.ifElse rfl ?_ ?_ ?_
    · exact reads_rustWrap (reads_rust c h.1) (by decide) fun hp => Nat.zero_le _
    · exact reads_rustWrap (reads_rust a h.2.1) (by decide) fun hp => Nat.zero_le _
    · exact reads_rustWrap (reads_rust b h.2.2.1) (by decide) fun hp => Nat.zero_le _
  | .cast t a, h => by
    simp only [Tree.visit, Ast.rust, Tree.rustE, Tree.level, if_true]
    rw [tokens_rust_cast]
    exact .as rfl ((Reads.paren ((reads_rust a h).down (Nat.zero_le _) a.level_le)).down (by omega) (by omega))
  | .std f l, h => by
    have ih := reads_rusts l h.2.1
    simp only [Tree.visit, Ast.rust, Tree.rustE, Tree.level, rustList_eq, rustEs_eq, visitAll_eq, List.map_map]
    by_cases hs : f = .signum
    · subst hs
      rw [if_pos (by decide)]
      match l, h.1 with
      | [x], _ =>
        have hx := ih x (by simp)
        have ht := h.2.2 rfl x (by simp)
        exact reads_rustSignum (hx.down (Tree.level_tight (ht.1 (by decide))) x.level_le) (ht.2 rfl)
    · rw [if_neg fun h => hs h.1]
      have hl : l ≠ [] := by
        intro hl; have := h.1; rw [hl] at this; cases f <;> simp [Std.arity] at this
      match l, hl with
      | x :: xs, _ =>
        have hx := (ih x (by simp)).down (Nat.zero_le _) x.level_le
        by_cases hf : f = .floor
        · subst hf
          rw [if_pos (by decide)]
          match xs, h.1 with
          | [], _ => exact reads_rustFloor hx
        · rw [if_neg fun h => hf h.1]
          exact reads_rustStd hs hf hx (forall₂_of_mem fun t ht => (ih t (List.mem_cons_of_mem _ ht)).down (Nat.zero_le _) t.level_le)
  | .call n r p l, h => by
    have ih := reads_rusts l h.2.1
    have ha := reads_rustParams p l ih h.2.2
    simp only [Tree.visit, Ast.rust, Tree.rustE, Tree.level]
    have h0 := reads_name_app (L := .rust) (n := n) ha
    by_cases hr : r = .scalar .floating
    · rw [if_pos hr, if_pos hr, if_pos ⟨trivial, hr⟩, tokens_append_cons _ _ (by simp)]
      exact .as rfl (h0.down (by omega) (by omega))
    · rw [if_neg hr, if_neg hr, if_neg fun h => hr h.2, List.append_nil]
      exact h0
  | .copy a, h => reads_rust a h
  | .field a n, h => by
    simp only [Tree.visit, Ast.rust, Tree.rustE, Tree.level]
    rw [tokens_append_cons _ _ (by simp)]
    refine Reads.field ?_
    have := reads_rust a h.2
    rwa [Tree.level_object h.1] at this
  | .elem a i j, h => by
    have ha := reads_rust a h.2.1
    rw [Tree.level_object h.1] at ha
    simp only [Tree.visit, Ast.rust, Tree.rustE, Tree.level]
    rw [visit_isArg]
    by_cases hi : a.isArg = true
    · rw [if_pos hi, if_pos hi, tokens_append_cons _ _ (by simp)]
      have := Reads.app (us := [.int i "", .comma, .int j ""]) (Reads.field (s := "get") ha) (reads_two fun _ => h.2.2)
      simpa [tokens] using this
    · rw [if_neg hi, if_neg hi, tokens_append_cons _ _ (by simp)]
      exact Reads.indexTuple (us := [.int i "", .comma, .int j ""]) rfl ha (reads_two fun _ => h.2.2)

theorem reads_rusts : ∀ (l : List Tree), AllFine .rust l → ∀ t ∈ l, Reads .rust (t.level .rust) (tokens .rust t.visit.rust) t.rustE
  | [], _ => fun _ h => nomatch h
  | t :: ts, h => fun x hx => (List.mem_cons.mp hx).elim (fun e => e ▸ reads_rust t h.1) (fun hx => reads_rusts ts h.2 x hx)
end

end Wf.Gen.Text
