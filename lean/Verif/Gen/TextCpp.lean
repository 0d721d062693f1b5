import Verif.Gen.TextLemmas

/-!
# The C++ text of an operation is derived by the grammar
-/

namespace Wf.Gen.Text

theorem cppList_eq (span : Bool) (l : List Ast) : cppList span l = l.map (Ast.cpp span) := by
  induction l with
  | nil => rfl
  | cons t ts ih => rw [cppList, ih]; rfl

theorem cppEs_eq (span : Bool) (l : List Tree) : cppEs span l = l.map (Tree.cppE span) := by
  induction l with
  | nil => rfl
  | cons t ts ih => rw [cppEs, ih]; rfl

theorem tokens_cppCast {L : Lang} (t : String) (ts : Toks) : tokens L (cppCast t ts) = .staticCast t :: .lpar :: (tokens L ts ++ [.rpar]) := by
  unfold cppCast
  simp only [List.append_assoc, List.cons_append, List.nil_append]
  rw [tokens_cons (by simp) (.inl (by simp)), tokens_cons (by simp) (.inl (by simp)), tokens_append_cons _ _ (by simp)]
  rfl

theorem tokens_paren {L : Lang} (ts : Toks) : tokens L ([.lpar] ++ ts ++ [.rpar]) = .lpar :: (tokens L ts ++ [.rpar]) := by
  simp only [List.append_assoc, List.cons_append, List.nil_append]
  rw [tokens_cons (by simp) (.inl (by simp)), tokens_append_cons _ _ (by simp)]
  rfl

theorem reads_cppCast {t : String} {ts : Toks} {e : E} {k : Nat} (h : Reads .cpp k (tokens .cpp ts) e) (hk : k ≤ 7) :
    Reads .cpp 7 (tokens .cpp (cppCast t ts)) (.cast t e) := by
  rw [tokens_cppCast]
  exact .staticCast rfl (h.down (Nat.zero_le _) hk)

/-- An operand in parentheses, or one that needs none. -/
theorem reads_cppWrap {span : Bool} {t : Tree} {p : Prec} {k : Nat} (h : Reads .cpp (t.level .cpp) (tokens .cpp (t.visit.cpp span)) (t.cppE span)) (hk : k ≤ 7)
    (hw : ¬ t.prec.rank ≤ p.rank → k ≤ t.level .cpp) : Reads .cpp k (tokens .cpp ((wrap p t t.visit).cpp span)) (t.cppE span) := by
  unfold wrap
  by_cases hp : t.prec.rank ≤ p.rank
  · rw [if_pos hp, Ast.cpp, tokens_paren]
    exact (Reads.paren (h.down (Nat.zero_le _) t.level_le)).down hk (Nat.le_refl _)
  · rw [if_neg hp]
    exact h.down (hw hp) t.level_le

theorem reads_name_app {L : Lang} {n : String} {l : List Toks} {es : List E} (h : List.Forall₂ (fun ts e => Reads L 0 (tokens L ts) e) l es) :
    Reads L 7 (tokens L ([.name n, .lpar] ++ joinWith [.comma, .sp] l ++ [.rpar])) (.app (.atom n) es) := by
  simp only [List.append_assoc, List.cons_append, List.nil_append]
  rw [tokens_cons (by simp) (.inl (by simp)), tokens_cons (by simp) (.inl (by simp)), tokens_append_cons _ _ (by simp)]
  exact Reads.app (ts := [.name n]) .name (reads_args h)

theorem head?_append_ne {a b : Toks} {t : Tok} (h : a ≠ []) : (a ++ b).head? = some t ↔ a.head? = some t := by
  cases a with
  | nil => exact absurd rfl h
  | cons x xs => simp

/-- The text of a value with parts begins with a name. -/
theorem cpp_object_head (span : Bool) : ∀ {t : Tree}, t.isObject = true → ∃ s ts, t.visit.cpp span = .name s :: ts
  | .var s, _ => ⟨s, [], rfl⟩
  | .arg s k, _ => ⟨cppArg span s k, [], rfl⟩
  | .copy a, h => cpp_object_head span (t := a) h
  | .field a n, h => by
    obtain ⟨s, ts, e⟩ := cpp_object_head span (t := a) h
    exact ⟨s, ts ++ [.dot, .name n], by simp only [Tree.visit, Ast.cpp, e]; rfl⟩
  | .elem a i j, h => by
    obtain ⟨s, ts, e⟩ := cpp_object_head span (t := a) h
    exact ⟨s, ts ++ [.lpar, .int i "", .comma, .sp, .int j "", .rpar], by simp only [Tree.visit, Ast.cpp, e]; rfl⟩
  | .call n (.matrix i j) p l, _ => ⟨n, _, rfl⟩
  | .call n .custom p l, _ => ⟨n, _, rfl⟩
  | .call n (.scalar _) p l, h | .std f l, h | .int n, h | .float n _, h | .cast n _, h | .cond a b c, h | .cmp a b c, h | .bool _, h | .euler, h
  | .pi, h | .add _, h | .mul _, h | .div _ _, h | .neg _, h => by simp [Tree.isObject] at h

/-- The operand of a minus sign does not begin with a minus sign. -/
theorem cpp_neg_head {span : Bool} {t : Tree} (hf : t.Fine .cpp) (hr : t.riskyNeg .cpp = false) :
    ((wrap .multiplication t t.visit).cpp span).head? ≠ some .minus := by
  unfold wrap
  by_cases hp : t.prec.rank ≤ Prec.multiplication.rank
  · rw [if_pos hp]
    simp [Ast.cpp]
  · rw [if_neg hp]
    cases t with
    | copy a => simp [Tree.riskyNeg, Tree.risky] at hr
    | neg a => simp [Tree.riskyNeg, Tree.risky] at hr
    | cond c a b => simp [Tree.riskyNeg, Tree.risky] at hr
    | int n =>
      have hn : ¬ n < 0 := by simpa [Tree.riskyNeg, Tree.risky] using hr
      simp [Tree.visit, Ast.cpp, intToks, if_neg hn]
    | field a n =>
      obtain ⟨s, ts, e⟩ := cpp_object_head span hf.1
      simp [Tree.visit, Ast.cpp, e]
    | elem a i j =>
      obtain ⟨s, ts, e⟩ := cpp_object_head span hf.1
      simp [Tree.visit, Ast.cpp, e]
    | std f l => cases f <;> simp [Tree.visit, Ast.cpp, cppStdToks, cppCast]
    | call n r p l =>
      simp only [Tree.visit, Ast.cpp, cppCall]
      split <;> simp [cppCast]
    | add l => simp [Tree.prec, Prec.rank] at hp
    | mul l => simp [Tree.prec, Prec.rank] at hp
    | div a b => simp [Tree.prec, Prec.rank] at hp
    | cmp o a b => simp [Tree.prec, Prec.rank] at hp
    | _ => simp [Tree.visit, Ast.cpp, cppCast]

theorem tokens_binary {L : Lang} {t : Tok} (a b : Toks) (h : t ≠ .sp) (h' : t ≠ .minus) : tokens L (a ++ [.sp, t, .sp] ++ b) = tokens L a ++ t :: tokens L b := by
  simp only [List.append_assoc, List.cons_append, List.nil_append]
  rw [tokens_append_cons _ _ (by simp), tokens_sp, tokens_cons h (.inl h'), tokens_sp]

theorem level_relOp {L : Lang} (op : Rel) : (relOp op).level L ≤ 2 := by cases op <;> simp [relOp, BinOp.level]; split <;> omega

theorem left_relOp {L : Lang} (op : Rel) : (relOp op).left L ≤ 3 := by
  have := level_relOp (L := L) op
  unfold BinOp.left; split <;> omega

theorem relOp_tok (op : Rel) : relTok op = (relOp op).tok := by cases op <;> rfl

theorem relTok_ne (op : Rel) : relTok op ≠ .sp ∧ relTok op ≠ .minus := by cases op <;> simp [relTok]

theorem headD_map {α β : Type} {l : List α} {f : α → β} {d : β} (h : l.length = 1) : ∃ a, l = [a] ∧ (l.map f).headD d = f a := by
  match l, h with
  | [a], _ => exact ⟨a, rfl, rfl⟩

theorem reads_cppSignum {x : Toks} {e : E} (h : Reads .cpp 3 (tokens .cpp x) e) :
    Reads .cpp 3 (tokens .cpp (cppStdToks .signum [x])) (cppStdE .signum [e]) := by
  have h0 : Reads .cpp 7 (.staticCast "Scalar" :: .lpar :: ([.int 0 ""] ++ [.rpar])) (.cast "Scalar" (.int 0 "")) :=
    .staticCast rfl ((Reads.int fun _ => by decide).down (Nat.zero_le _) (by omega))
  have h1 := Reads.bin (L := .cpp) (op := .lt) (h0.down (k := 2) (by omega) (by omega)) h (by simp)
  have h2 := Reads.bin (L := .cpp) (op := .lt) (h.down (k := 2) (by omega) (by omega)) (h0.down (k := 3) (by omega) (by omega)) (by simp)
  have h3 := Reads.bin (L := .cpp) (op := .sub) ((Reads.paren (h1.down (Nat.zero_le _) (by decide))).down (k := 3) (by omega) (by omega))
    ((Reads.paren (h2.down (Nat.zero_le _) (by decide))).down (k := 4) (by omega) (by omega)) (by simp)
  have he : tokens .cpp (cppStdToks .signum [x]) = .lpar :: (.staticCast "Scalar" :: .lpar :: ([.int 0 ""] ++ [.rpar]) ++ .lt :: tokens .cpp x ++ [.rpar]) ++
      .minus :: .lpar :: (tokens .cpp x ++ .lt :: .staticCast "Scalar" :: .lpar :: ([.int 0 ""] ++ [.rpar]) ++ [.rpar]) := by
    unfold cppStdToks cppCast
    simp only [List.append_assoc, List.cons_append, List.nil_append, List.headD_cons]
    simp only [tokens]
    rw [tokens_append_cons _ _ (by simp)]
    simp only [tokens]
    rw [tokens_append_cons _ _ (by simp)]
    simp only [tokens]
  rw [he]
  exact h3

theorem reads_cppStd {f : Std} {l : List Toks} {es : List E} (hn : f ≠ .signum) (hf : f = .floor → l.length = 1)
    (h : List.Forall₂ (fun ts e => Reads .cpp 0 (tokens .cpp ts) e) l es) : Reads .cpp 7 (tokens .cpp (cppStdToks f l)) (cppStdE f es) := by
  by_cases hfl : f = .floor
  · subst hfl
    cases h with
    | nil => simp at hf
    | @cons t e ts es h1 h2 =>
      cases h2 with
      | cons _ _ => simp at hf
      | nil =>
        unfold cppStdToks cppStdE
        refine reads_cppCast (k := 7) ?_ (Nat.le_refl _)
        exact reads_name_app (n := "std::floor") (l := [t]) (.cons h1 .nil)
  · have h1 : cppStdToks f l = [.name (cppStd f), .lpar] ++ joinWith [.comma, .sp] l ++ [.rpar] := by cases f <;> simp_all [cppStdToks]
    have h2 : cppStdE f es = .app (.atom (cppStd f)) es := by cases f <;> simp_all [cppStdE]
    rw [h1, h2]
    exact reads_name_app h

mutual
/-- The text is derived, with the tree that is meant. -/
theorem reads_cpp (span : Bool) : ∀ (t : Tree), t.Fine .cpp → Reads .cpp (t.level .cpp) (tokens .cpp (t.visit.cpp span)) (t.cppE span)
  | .var s, _ => .name
  | .arg s k, _ => .name
  | .int n, h => reads_int fun _ => by have := h rfl; omega
  | .float s d, _ => by
    have := reads_cppCast (t := "Scalar") (reads_float (L := .cpp) (s := s) (d := d)) (by split <;> omega)
    simp only [Tree.level]
    exact this.down (by split <;> omega) (by omega)
  | .bool b, _ => .name
  | .euler, _ => reads_cppCast (ts := [.name "M_E"]) (k := 7) .name (Nat.le_refl _)
  | .pi, _ => reads_cppCast (ts := [.name "M_PI"]) (k := 7) .name (Nat.le_refl _)
  | .add l, h => by
    have ih := reads_cpps span l h.2.2
    simp only [Tree.visit, Ast.cpp, Tree.cppE, cppList_eq, cppEs_eq, visitList_eq, List.map_map]
    refine reads_fold (op := .add) (.inl rfl) (forall₂_of_mem fun t ht => ?_) (by simpa using h.1)
    exact reads_cppWrap (ih t ht) (by decide) fun hp => (Tree.level_operand (h.2.1 t ht) hp).1 rfl
  | .mul l, h => by
    have ih := reads_cpps span l h.2.2
    simp only [Tree.visit, Ast.cpp, Tree.cppE, cppList_eq, cppEs_eq, visitList_eq, List.map_map]
    refine reads_fold (op := .mul) (.inr rfl) (forall₂_of_mem fun t ht => ?_) (by simpa using h.1)
    exact reads_cppWrap (ih t ht) (by decide) fun hp => (Tree.level_operand (h.2.1 t ht) hp).2 rfl
  | .div a b, h => by
    simp only [Tree.visit, Ast.cpp, Tree.cppE]
    rw [tokens_binary _ _ (by simp) (by simp)]
    refine Reads.bin (op := .div) ?_ ?_ (by simp)
    · exact reads_cppWrap (reads_cpp span a h.2.2.1) (by decide) fun hp => Nat.le_of_succ_le ((Tree.level_operand h.1 hp).2 rfl)
    · exact reads_cppWrap (reads_cpp span b h.2.2.2) (by decide) fun hp => (Tree.level_operand h.2.1 hp).2 rfl
  | .neg a, h => by
    simp only [Tree.visit, Ast.cpp, Tree.cppE]
    rw [List.singleton_append, tokens_cons (by simp) (.inr (.inl (cpp_neg_head h.2 h.1)))]
    exact .neg (reads_cppWrap (reads_cpp span a h.2) (by decide) fun hp => Tree.level_neg h.1 hp)
  | .cmp op a b, h => by
    have hl := h.1 (by decide)
    simp only [Tree.visit, Ast.cpp, Tree.cppE, Tree.level]
    rw [tokens_binary _ _ (relTok_ne op).1 (relTok_ne op).2, relOp_tok]
    have hb := level_relOp (L := .cpp) op
    refine Reads.bin ?_ ?_ (by simp)
    · exact (reads_cpp span a h.2.1).down (Nat.le_trans (left_relOp op) (Tree.level_tight hl.1)) a.level_le
    · exact (reads_cpp span b h.2.2).down (Nat.le_trans (by omega) (Tree.level_tight hl.2)) b.level_le
  | .cond c a b, h => by
    simp only [Tree.visit, Ast.cpp, Tree.cppE, Tree.level, if_true]
    rw [List.append_assoc, List.append_assoc]
    have e1 : tokens .cpp ((wrap .ternary c c.visit).cpp span ++ [.sp, .quest, .sp] ++ ((wrap .ternary a a.visit).cpp span ++
        ([.sp, .colon, .sp] ++ (wrap .ternary b b.visit).cpp span))) = tokens .cpp ((wrap .ternary c c.visit).cpp span) ++ .quest ::
          (tokens .cpp ((wrap .ternary a a.visit).cpp span) ++ .colon :: tokens .cpp ((wrap .ternary b b.visit).cpp span)) := by
      rw [tokens_binary _ _ (by simp) (by simp), ← List.append_assoc, tokens_binary _ _ (by simp) (by simp)]
    rw [e1]
    refine Reads.cond rfl ?_ ?_ ?_
    · refine reads_cppWrap (reads_cpp span c h.1) (by decide) fun hp => ?_
      refine Nat.le_trans (by omega) (Tree.level_tight (L := .cpp) (t := c) ?_)
      cases c with
      | copy x => exact absurd rfl (h.2.2.2 x)
      | cmp _ _ _ => simp [Tree.prec, Prec.rank] at hp
      | cond _ _ _ => simp [Tree.prec] at hp
      | _ => rfl
    · exact reads_cppWrap (reads_cpp span a h.2.1) (by decide) fun hp => Nat.zero_le _
    · exact reads_cppWrap (reads_cpp span b h.2.2.1) (by decide) fun hp => Nat.zero_le _
  | .cast t a, h => reads_cppCast (reads_cpp span a h) a.level_le
  | .std f l, h => by
    have ih := reads_cpps span l h.2.1
    simp only [Tree.visit, Ast.cpp, Tree.cppE, Tree.level, cppList_eq, cppEs_eq, visitAll_eq, List.map_map]
    by_cases hs : f = .signum
    · subst hs
      rw [if_pos (by decide)]
      match l, h.1 with
      | [x], _ =>
        have hx := ih x (by simp)
        have ht := (h.2.2 rfl x (by simp)).1 (by decide)
        exact reads_cppSignum (hx.down (Tree.level_tight ht) x.level_le)
    · rw [if_neg fun h => hs h.1, if_neg (by simp)]
      refine reads_cppStd hs (fun hfl => ?_) (forall₂_of_mem fun t ht => (ih t ht).down (Nat.zero_le _) t.level_le)
      have := h.1
      subst hfl
      simpa [Std.arity] using this
  | .call n r p l, h => by
    have ih := reads_cpps span l h.2.1
    simp only [Tree.visit, Ast.cpp, Tree.cppE, Tree.level, cppList_eq, cppEs_eq, visitAll_eq, List.map_map]
    have h0 := reads_name_app (L := .cpp) (n := n) (forall₂_of_mem (l := l) (f := Ast.cpp span ∘ Tree.visit) (g := Tree.cppE span)
      fun t ht => (ih t ht).down (Nat.zero_le _) t.level_le)
    rw [if_neg (by simp)]
    unfold cppCall
    by_cases hr : r = .scalar .floating
    · rw [if_pos hr, if_pos hr]
      exact reads_cppCast h0 (Nat.le_refl _)
    · rw [if_neg hr, if_neg hr]
      exact h0
  | .copy a, h => reads_cpp span a h
  | .field a n, h => by
    simp only [Tree.visit, Ast.cpp, Tree.cppE, Tree.level]
    rw [tokens_append_cons _ _ (by simp)]
    refine Reads.field ?_
    have := reads_cpp span a h.2
    rwa [Tree.level_object h.1] at this
  | .elem a i j, h => by
    simp only [Tree.visit, Ast.cpp, Tree.cppE, Tree.level]
    rw [tokens_append_cons _ _ (by simp)]
    refine Reads.app (us := [.int i "", .comma, .int j ""]) ?_ (reads_two fun _ => h.2.2)
    have := reads_cpp span a h.2.1
    rwa [Tree.level_object h.1] at this

theorem reads_cpps (span : Bool) : ∀ (l : List Tree), AllFine .cpp l → ∀ t ∈ l, Reads .cpp (t.level .cpp) (tokens .cpp (t.visit.cpp span)) (t.cppE span)
  | [], _ => fun _ h => nomatch h
  | t :: ts, h => fun x hx => (List.mem_cons.mp hx).elim (fun e => e ▸ reads_cpp span t h.1) (fun hx => reads_cpps span ts h.2 x hx)
end

end Wf.Gen.Text
