import Verif.Gen.StmtTextCpp
import Verif.Gen.TextRust

/-!
# The text of Rust statements is derived by the grammar
-/

namespace Wf.Gen.Text

theorem reads_rust_words {t : Tree} (h : t.Fine .rust) : NoLayout t.visit.rust ∧ Reads .rust (t.level .rust) (words .rust t.visit.rust) t.rustE := by
  have h := Text.reads_rust t h
  exact ⟨h.noLayout, by rw [words_expr h.noLayout]; exact h⟩

theorem reads_rust_zero {t : Tree} (h : t.Fine .rust) : Reads .rust 0 (words .rust t.visit.rust) t.rustE :=
  (reads_rust_words h).2.down (Nat.zero_le _) t.level_le

/-- The text of a value with parts begins with a name. -/
theorem rust_object_head : ∀ {t : Tree}, t.isObject = true → ∃ s ts, t.visit.rust = .name s :: ts
  | .var s, _ => ⟨s, [], rfl⟩
  | .arg s k, _ => ⟨s, [], rfl⟩
  | .copy a, h => rust_object_head (t := a) h
  | .field a n, h => by
    obtain ⟨s, ts, e⟩ := rust_object_head (t := a) h
    exact ⟨s, ts ++ [.dot, .name n], by simp only [Tree.visit, Ast.rust, e]; rfl⟩
  | .elem a i j, h => by
    obtain ⟨s, ts, e⟩ := rust_object_head (t := a) h
    simp only [Tree.visit, Ast.rust, e]
    split
    · exact ⟨s, _, rfl⟩
    · exact ⟨s, _, rfl⟩
  | .call n (.matrix i j) p l, _ => ⟨n, _, rfl⟩
  | .call n .custom p l, _ => ⟨n, _, rfl⟩
  | .call n (.scalar _) p l, h | .std f l, h | .int n, h | .float n _, h | .cast n _, h | .cond a b c, h | .cmp a b c, h | .bool _, h | .euler, h
  | .pi, h | .add _, h | .mul _, h | .div _ _, h | .neg _, h => by simp [Tree.isObject] at h

/-! ## Conditions -/

theorem isTest_of_isObject : ∀ {t : Tree}, t.isObject = true → t.isTest = true
  | .copy a, h => isTest_of_isObject (t := a) h
  | .var _, _ | .arg _ _, _ | .field _ _, _ | .elem _ _ _, _ | .call _ _ _ _, _ => rfl
  | .std f l, h | .int n, h | .float n _, h | .cast n _, h | .cond a b c, h | .cmp a b c, h | .bool _, h | .euler, h
  | .pi, h | .add _, h | .mul _, h | .div _ _, h | .neg _, h => by simp [Tree.isObject] at h

theorem clean_group (us : Toks) (h : Bal us) : Bal (.lpar :: (us ++ [.rpar])) ∧ Clean (· = .lbrace) (.lpar :: (us ++ [.rpar])) :=
  ⟨.bracket rfl rfl h, .bracket rfl h rfl⟩

/-- The text of a truth value has no brace outside brackets. -/
theorem clean_test : ∀ {t : Tree}, t.Fine .rust → t.isTest = true → Clean (· = .lbrace) (tokens .rust t.visit.rust)
  | .var s, _, _ => rfl
  | .arg s k, _, _ => rfl
  | .bool b, _, _ => rfl
  | .cmp op a b, h, _ => by
    have ha := clean_group _ (Text.reads_rust a h.2.1).good.1
    have hb := clean_group _ (Text.reads_rust b h.2.2).good.1
    simp only [Tree.visit, Ast.rust]
    rw [tokens_rust_cmp]
    refine .append ha.1 ha.2 (.cons ?_ ?_ ?_ hb.2) <;> cases op <;> rfl
  | .call n r p l, h, _ => by
    have ha := reads_args (reads_rustParams p l (Text.reads_rusts l h.2.1) h.2.2)
    have hg := clean_group _ ha.bal
    simp only [Tree.visit, Ast.rust]
    have e : tokens .rust ([.name n, .lpar] ++ joinWith [.comma, .sp] (rustArgs p (visitAll l)) ++ [.rpar]) =
        .name n :: (.lpar :: (tokens .rust (joinWith [.comma, .sp] (rustArgs p (visitAll l))) ++ [.rpar])) := by
      simp only [List.cons_append, List.nil_append]
      rw [tokens_cons (by simp) (.inl (by simp)), tokens_cons (by simp) (.inl (by simp)), tokens_append_cons _ _ (by simp)]
      rfl
    have hc : Clean (· = .lbrace) (tokens .rust ([.name n, .lpar] ++ joinWith [.comma, .sp] (rustArgs p (visitAll l)) ++ [.rpar])) := by
      rw [e]; exact .cons rfl rfl rfl hg.2
    have hb : Bal (tokens .rust ([.name n, .lpar] ++ joinWith [.comma, .sp] (rustArgs p (visitAll l)) ++ [.rpar])) := by
      rw [e]; exact .cons rfl rfl hg.1
    by_cases hr : r = .scalar .floating
    · rw [if_pos hr, tokens_append_cons _ _ (by simp)]
      exact .append hb hc rfl
    · rw [if_neg hr, List.append_nil]
      exact hc
  | .field a n, h, _ => by
    have ha := clean_test h.2 (isTest_of_isObject h.1)
    simp only [Tree.visit, Ast.rust]
    rw [tokens_append_cons _ _ (by simp)]
    exact .append (Text.reads_rust a h.2).good.1 ha rfl
  | .elem a i j, h, _ => by
    have ha := clean_test h.2.1 (isTest_of_isObject h.1)
    have hb := (Text.reads_rust a h.2.1).good.1
    simp only [Tree.visit, Ast.rust]
    split
    · rw [tokens_append_cons _ _ (by simp)]
      exact .append hb ha rfl
    · rw [tokens_append_cons _ _ (by simp)]
      exact .append hb ha rfl
  | .copy a, h, ht => clean_test (t := a) h ht
  | .std f l, _, h | .int n, _, h | .float n _, _, h | .cast n _, _, h | .cond a b c, _, h | .euler, _, h
  | .pi, _, h | .add _, _, h | .mul _, _, h | .div _ _, _, h | .neg _, _, h => by simp [Tree.isTest] at h

theorem reads_test {t : Tree} (h : t.Fine .rust) (ht : t.isTest = true) : ReadsCond .rust (words .rust t.visit.rust) (.e t.rustE) :=
  .rust rfl (reads_rust_zero h) (by rw [words_expr (reads_rust_words h).1]; exact clean_test h ht)

/-- The condition of a conditional. -/
theorem reads_wrap_test {t : Tree} (h : t.Fine .rust) (ht : t.isTest = true) :
    ReadsCond .rust (tokens .rust (wrap .ternary t t.visit).rust) (.e t.rustE) := by
  refine .rust rfl (reads_rustWrap (Text.reads_rust t h) (by decide) fun _ => Nat.zero_le _) ?_
  unfold wrap
  split
  · rw [Ast.rust, tokens_paren]
    exact (clean_group _ (Text.reads_rust t h).good.1).2
  · exact clean_test h ht

/-! ## The value of a function -/

theorem head_cons {t : Tok} {ts : Toks} (h : t ≠ .kIf) (h' : t ≠ .sp) : (tokens .rust (t :: ts)).head? ≠ some .kIf := by
  rw [tokens_cons h' (.inr (.inr (by simp)))]
  simpa using h

theorem head_branch {t : Tree} (hf : t.Fine .rust) (h : ∀ x, t ≠ .copy x) : (tokens .rust (wrap .ternary t t.visit).rust).head? ≠ some .kIf := by
  unfold wrap
  by_cases hp : t.prec.rank ≤ Prec.ternary.rank
  · rw [if_pos hp, Ast.rust, tokens_paren]
    simp
  · rw [if_neg hp]
    cases t with
    | var s => exact head_cons (by simp) (by simp)
    | arg s k => exact head_cons (by simp) (by simp)
    | bool b => exact head_cons (by simp) (by simp)
    | euler => exact head_cons (by simp) (by simp)
    | pi => exact head_cons (by simp) (by simp)
    | int n =>
      simp only [Tree.visit, Ast.rust, intToks]
      split <;> exact head_cons (by simp) (by simp)
    | float s d =>
      simp only [Tree.visit, Ast.rust, floatToks]
      split <;> exact head_cons (by simp) (by simp)
    | add l => simp [Tree.prec, Prec.rank] at hp
    | mul l => simp [Tree.prec, Prec.rank] at hp
    | div a b => simp [Tree.prec, Prec.rank] at hp
    | cmp op a b => simp [Tree.prec, Prec.rank] at hp
    | cond a b c => simp [Tree.prec, Prec.rank] at hp
    | neg a => exact head_cons (by simp) (by simp)
    | cast t a => exact head_cons (by simp) (by simp)
    | std f l => cases f <;> exact head_cons (by simp) (by simp)
    | call n r p l => exact head_cons (by simp) (by simp)
    | copy a => exact absurd rfl (h a)
    | field a n =>
      obtain ⟨s, ts, e⟩ := rust_object_head hf.1
      simp only [Tree.visit, Ast.rust, e]
      exact head_cons (by simp) (by simp)
    | elem a i j =>
      obtain ⟨s, ts, e⟩ := rust_object_head hf.1
      simp only [Tree.visit, Ast.rust, e]
      split <;> exact head_cons (by simp) (by simp)

mutual
theorem Tree.reads_tail : ∀ t : Tree, t.Fine .rust → t.TailFine → ReadsBlock .rust (tokens .rust t.visit.rust) [t.rustTail]
  | .cond c a b, h, ht => by
    have ha := Tree.reads_branch a h.2.1 ht.2.1
    have hb := Tree.reads_branch b h.2.2.1 ht.2.2
    simp only [Tree.visit, Ast.rust]
    rw [tokens_rust_cond]
    exact .iteElse (us := []) (reads_wrap_test h.1 ht.1) ha hb .nil
  | .copy a, h, ht => Tree.reads_tail a h ht
  | .var s, h, ht => .tail rfl (.expr ((Text.reads_rust _ h).down (Nat.zero_le _) (Tree.level_le _))) ht
  | .arg s k, h, ht => .tail rfl (.expr ((Text.reads_rust _ h).down (Nat.zero_le _) (Tree.level_le _))) ht
  | .bool s, h, ht => .tail rfl (.expr ((Text.reads_rust _ h).down (Nat.zero_le _) (Tree.level_le _))) ht
  | .int s, h, ht => .tail rfl (.expr ((Text.reads_rust _ h).down (Nat.zero_le _) (Tree.level_le _))) ht
  | .float s d, h, ht => .tail rfl (.expr ((Text.reads_rust _ h).down (Nat.zero_le _) (Tree.level_le _))) ht
  | .euler, h, ht => .tail rfl (.expr ((Text.reads_rust _ h).down (Nat.zero_le _) (Tree.level_le _))) ht
  | .pi, h, ht => .tail rfl (.expr ((Text.reads_rust _ h).down (Nat.zero_le _) (Tree.level_le _))) ht
  | .add l, h, ht => .tail rfl (.expr ((Text.reads_rust _ h).down (Nat.zero_le _) (Tree.level_le _))) ht
  | .mul l, h, ht => .tail rfl (.expr ((Text.reads_rust _ h).down (Nat.zero_le _) (Tree.level_le _))) ht
  | .div a b, h, ht => .tail rfl (.expr ((Text.reads_rust _ h).down (Nat.zero_le _) (Tree.level_le _))) ht
  | .neg a, h, ht => .tail rfl (.expr ((Text.reads_rust _ h).down (Nat.zero_le _) (Tree.level_le _))) ht
  | .cmp op a b, h, ht => .tail rfl (.expr ((Text.reads_rust _ h).down (Nat.zero_le _) (Tree.level_le _))) ht
  | .cast t a, h, ht => .tail rfl (.expr ((Text.reads_rust _ h).down (Nat.zero_le _) (Tree.level_le _))) ht
  | .std f l, h, ht => .tail rfl (.expr ((Text.reads_rust _ h).down (Nat.zero_le _) (Tree.level_le _))) ht
  | .call n r p l, h, ht => .tail rfl (.expr ((Text.reads_rust _ h).down (Nat.zero_le _) (Tree.level_le _))) ht
  | .field a n, h, ht => .tail rfl (.expr ((Text.reads_rust _ h).down (Nat.zero_le _) (Tree.level_le _))) ht
  | .elem a i j, h, ht => .tail rfl (.expr ((Text.reads_rust _ h).down (Nat.zero_le _) (Tree.level_le _))) ht
termination_by structural t => t

theorem Tree.reads_branch : ∀ t : Tree, t.Fine .rust → t.BranchFine → ReadsBlock .rust (tokens .rust (wrap .ternary t t.visit).rust) [t.rustBranch]
  | .copy a, h, ht => by
    have := Tree.reads_tail a h ht
    exact this
  | .var s, h, _ => .tail rfl (.expr (reads_rustWrap (Text.reads_rust _ h) (by decide) fun _ => Nat.zero_le _)) (head_branch h (by simp))
  | .arg s k, h, _ => .tail rfl (.expr (reads_rustWrap (Text.reads_rust _ h) (by decide) fun _ => Nat.zero_le _)) (head_branch h (by simp))
  | .bool s, h, _ => .tail rfl (.expr (reads_rustWrap (Text.reads_rust _ h) (by decide) fun _ => Nat.zero_le _)) (head_branch h (by simp))
  | .int s, h, _ => .tail rfl (.expr (reads_rustWrap (Text.reads_rust _ h) (by decide) fun _ => Nat.zero_le _)) (head_branch h (by simp))
  | .float s d, h, _ => .tail rfl (.expr (reads_rustWrap (Text.reads_rust _ h) (by decide) fun _ => Nat.zero_le _)) (head_branch h (by simp))
  | .euler, h, _ => .tail rfl (.expr (reads_rustWrap (Text.reads_rust _ h) (by decide) fun _ => Nat.zero_le _)) (head_branch h (by simp))
  | .pi, h, _ => .tail rfl (.expr (reads_rustWrap (Text.reads_rust _ h) (by decide) fun _ => Nat.zero_le _)) (head_branch h (by simp))
  | .add l, h, _ => .tail rfl (.expr (reads_rustWrap (Text.reads_rust _ h) (by decide) fun _ => Nat.zero_le _)) (head_branch h (by simp))
  | .mul l, h, _ => .tail rfl (.expr (reads_rustWrap (Text.reads_rust _ h) (by decide) fun _ => Nat.zero_le _)) (head_branch h (by simp))
  | .div a b, h, _ => .tail rfl (.expr (reads_rustWrap (Text.reads_rust _ h) (by decide) fun _ => Nat.zero_le _)) (head_branch h (by simp))
  | .neg a, h, _ => .tail rfl (.expr (reads_rustWrap (Text.reads_rust _ h) (by decide) fun _ => Nat.zero_le _)) (head_branch h (by simp))
  | .cmp op a b, h, _ => .tail rfl (.expr (reads_rustWrap (Text.reads_rust _ h) (by decide) fun _ => Nat.zero_le _)) (head_branch h (by simp))
  | .cond c a b, h, _ => .tail rfl (.expr (reads_rustWrap (Text.reads_rust _ h) (by decide) fun _ => Nat.zero_le _)) (head_branch h (by simp))
  | .cast t a, h, _ => .tail rfl (.expr (reads_rustWrap (Text.reads_rust _ h) (by decide) fun _ => Nat.zero_le _)) (head_branch h (by simp))
  | .std f l, h, _ => .tail rfl (.expr (reads_rustWrap (Text.reads_rust _ h) (by decide) fun _ => Nat.zero_le _)) (head_branch h (by simp))
  | .call n r p l, h, _ => .tail rfl (.expr (reads_rustWrap (Text.reads_rust _ h) (by decide) fun _ => Nat.zero_le _)) (head_branch h (by simp))
  | .field a n, h, _ => .tail rfl (.expr (reads_rustWrap (Text.reads_rust _ h) (by decide) fun _ => Nat.zero_le _)) (head_branch h (by simp))
  | .elem a i j, h, _ => .tail rfl (.expr (reads_rustWrap (Text.reads_rust _ h) (by decide) fun _ => Nat.zero_le _)) (head_branch h (by simp))
termination_by structural t => t
end

/-! ## Values and statements -/

mutual
theorem Value.reads_rust : ∀ v : Value, v.Fine .rust → v.hasMatrix = false → NoComment v.rust ∧ ReadsV .rust (words .rust v.rust) v.rustV
  | .expr t, h, _ => ⟨(reads_rust_words h).1.noComment, .expr (reads_rust_zero h)⟩
  | .matrix r c l, _, h => by cases h
  | .struct n fs, h, hm => by
    obtain ⟨h1, h2⟩ := fs.reads_rust h.2 hm
    constructor
    · exact .cons (NoComment.indented (.cons (.cons (.cons .nil))) (.cons (.cons .nil)) (NoComment.join (.cons (.cons .nil)) h1))
    · rw [Value.rust, indented]
      simp only [List.cons_append, List.nil_append]
      rw [words_cons, words_sp, words_cons, words_block, words_cons, words_nil]
      exact .braces (by simp) (h2 h.1)

theorem Fields.reads_rust : ∀ fs : Fields, fs.Fine .rust → fs.hasMatrix = false → (∀ t ∈ fs.rust, NoComment t) ∧
    (fs ≠ .nil → ReadsParts .rust (words .rust (joinWith [.comma, .nl] fs.rust)) fs.rustV)
  | .nil, _, _ => ⟨fun t ht => absurd ht List.not_mem_nil, fun h => absurd rfl h⟩
  | .cons n v fs, h, hm => by
    have hm := Bool.or_eq_false_iff.1 hm
    obtain ⟨h1, h2⟩ := v.reads_rust h.1 hm.1
    obtain ⟨h3, h4⟩ := fs.reads_rust h.2 hm.2
    have hn : NoComment ([.name n, .colon, .sp] ++ v.rust) := .append (.cons (.cons (.cons .nil))) h1
    have hw : words .rust ([.name n, .colon, .sp] ++ v.rust) = .name n :: .colon :: words .rust v.rust := by
      simp only [List.cons_append, List.nil_append]
      rw [words_cons, words_cons, words_sp]
    refine ⟨fun t ht => (List.mem_cons.1 ht).elim (fun e => e ▸ hn) (h3 t), fun _ => ?_⟩
    cases fs with
    | nil =>
      have : ReadsParts .rust ([.name n, .colon] ++ words .rust v.rust) (.cons n v.rustV .nil) := .one (n := n) h2
      rw [Fields.rust, Fields.rust, joinWith, hw]
      exact this
    | cons m w fs =>
      have : ReadsParts .rust ([.name n, .colon] ++ (words .rust v.rust ++ .comma :: words .rust (joinWith [.comma, .nl] (Fields.cons m w fs).rust)))
          (.cons n v.rustV (Fields.cons m w fs).rustV) := .cons (n := n) h2 (h4 (by simp))
      rw [Fields.rust]
      have e : joinWith [.comma, .nl] (([.name n, .colon, .sp] ++ v.rust) :: (Fields.cons m w fs).rust) =
          ([.name n, .colon, .sp] ++ v.rust) ++ .comma :: .nl :: joinWith [.comma, .nl] (Fields.cons m w fs).rust := by
        rw [Fields.rust, join_cons]; rfl
      rw [e, words_app hn (by simp), words_cons, words_newline, hw]
      exact this
end

mutual
theorem Stm.reads_rust : ∀ s : Stm, s.Fine .rust → s.hasMatrix = false → ∀ {us : Toks} {ss : List St}, ReadsBlock .rust us ss →
    ReadsBlock .rust (words .rust s.rust ++ us) (s.rustSt ++ ss)
  | .comment ls, _, _, us, ss, hr => by
    rw [Stm.rust, words_comments]
    exact hr
  | .declare n t none, _, _, us, ss, hr => by
    rw [Stm.rust, words_cons, words_sp, words_cons, words_cons, words_sp, words_cons, words_cons, words_nil]
    exact reads_one (ts := [_, _, _, _]) (.later rfl) (by simp) hr
  | .declare n t (some v), h, hm, us, ss, hr => by
    obtain ⟨h1, h2⟩ := v.reads_rust (h v rfl) (Bool.or_eq_false_iff.1 hm).2
    rw [Stm.rust]
    simp only [List.cons_append, List.nil_append]
    rw [words_cons, words_sp, words_cons, words_cons, words_sp, words_cons, words_sp, words_cons, words_sp, words_app h1 (by simp), words_cons, words_nil]
    exact reads_one (.bind rfl h2) (by simp) hr
  | .assign n v, h, hm, us, ss, hr => by
    obtain ⟨h1, h2⟩ := v.reads_rust h hm
    rw [Stm.rust]
    simp only [List.cons_append, List.nil_append]
    rw [words_cons, words_sp, words_cons, words_sp, words_app h1 (by simp), words_cons, words_nil]
    exact reads_one (.assign (ts := [_]) (.expr .name) h2) (by simp) hr
  | .output n o v, h, hm, us, ss, hr => by
    obtain ⟨h1, h2⟩ := v.reads_rust h hm
    rw [Stm.rust]
    simp only [List.cons_append, List.nil_append]
    rw [words_cons, words_cons, words_sp, words_cons, words_sp, words_app h1 (by simp), words_cons, words_nil]
    exact reads_one (.assign (ts := [_, _]) (.deref (by simp)) h2) (by simp) hr
  | .outputMatrix n o r c l, h, _, us, ss, hr => by
    rw [Stm.rust, Stm.rustSt]
    have e := enumerate_positions h.2.1
    have e2 : ((enumerate l).map fun p =>
          [.name n, .dot, .name "set", .lpar, .int (indicesOf c p.1).1 "", .comma, .sp, .int (indicesOf c p.1).2 "", .comma, .sp] ++ p.2.visit.rust ++
            [.rpar, .semi]) =
        ((positions r c).zip l).map fun q => [.name n, .dot, .name "set", .lpar, .int q.1.1 "", .comma, .sp, .int q.1.2 "", .comma, .sp] ++
          q.2.visit.rust ++ [.rpar, .semi] := by
      rw [← e, List.map_map]; rfl
    rw [e2]
    refine reads_list ?_ hr
    rintro ⟨⟨i, j⟩, t⟩ hp
    have ht := Text.reads_rusts l h.1 t (List.of_mem_zip hp).2
    have hw : Reads .rust 0 (words .rust t.visit.rust) t.rustE := by
      rw [words_expr ht.noLayout]; exact ht.down (Nat.zero_le _) t.level_le
    have hi : ∀ n : Nat, Reads .rust 0 [.int n ""] (.int n "") := fun n => (Reads.int (L := .rust) (by simp)).down (k := 0) (by omega) (by omega)
    have ha := ReadsArgs.cons (hi i) (ReadsArgs.cons (hi j) (.one hw) (by simp)) (by simp)
    have hx := (Reads.app (Reads.field (s := "set") (Reads.name (s := n))) ha).down (k := 0) (by omega) (by omega)
    refine ⟨.name n :: .dot :: .name "set" :: .lpar :: .int i "" :: .comma :: .int j "" :: .comma :: (words .rust t.visit.rust ++ [.rpar]), ?_,
      .expr rfl ?_ (by simp), by simp⟩
    · simp only [List.cons_append, List.nil_append, List.append_assoc]
      rw [words_cons, words_cons, words_cons, words_cons, words_cons, words_cons, words_sp, words_cons, words_cons, words_sp,
        words_app ht.noLayout.noComment (by simp), words_cons, words_cons, words_nil]
    · simpa using hx
  | .branch c t e, h, hm, us, ss, hr => by
    have hm := Bool.or_eq_false_iff.1 hm
    have hc := reads_rust_words h.1
    have ht := stms_reads_rust t h.2.2.1 hm.1 (us := []) .nil
    have he := stms_reads_rust e h.2.2.2.1 hm.2 (us := []) .nil
    simp only [List.append_nil] at ht he
    rw [Stm.rust, Stm.rustSt]
    simp only [List.cons_append, List.nil_append, List.append_assoc]
    rw [words_cons, words_sp, words_app hc.1.noComment (by simp), words_sp, words_if]
    cases e with
    | nil =>
      have := ReadsBlock.ite (reads_test h.1 (h.2.1 rfl)) ht hr
      simpa [stmsRustSt] using this
    | cons s e =>
      have := ReadsBlock.iteElse (reads_test h.1 (h.2.1 rfl)) ht he hr
      have e' := words_else .rust (joinWith [.nl] (stmsRust (s :: e))) []
      rw [List.append_nil] at e'
      simp only [List.isEmpty_cons, Bool.false_eq_true, if_false]
      rw [e']
      simpa using this
  | .optional n t body, h, hm, us, ss, hr => by
    have hb := stms_reads_rust body h.1 hm (us := []) .nil
    simp only [List.append_nil] at hb
    rw [Stm.rust, Stm.rustSt]
    have hi := words_if .rust (joinWith [.nl] (stmsRust body)) []
    rw [List.append_nil] at hi
    simp only [List.cons_append, List.nil_append]
    rw [words_cons, words_sp, words_cons, words_sp, words_cons, words_cons, words_cons, words_cons, words_sp, words_cons, words_sp, words_cons, words_sp, hi]
    have := ReadsBlock.ite (.isSome (x := n) (y := n) rfl) hb hr
    simpa using this
termination_by structural s => s

theorem stms_reads_rust : ∀ l : List Stm, StmsFine .rust l → stmsHaveMatrix l = false → ∀ {us : Toks} {ss : List St}, ReadsBlock .rust us ss →
    ReadsBlock .rust (words .rust (joinWith [.nl] (stmsRust l)) ++ us) (stmsRustSt l ++ ss)
  | [], _, _, us, ss, hr => hr
  | s :: l, h, hm, us, ss, hr => by
    have hm := Bool.or_eq_false_iff.1 hm
    have h1 := Stm.reads_rust s h.1 hm.1 (stms_reads_rust l h.2 hm.2 hr)
    have e : words .rust (joinWith [.nl] (stmsRust (s :: l))) = words .rust s.rust ++ words .rust (joinWith [.nl] (stmsRust l)) := by
      cases l with
      | nil => simp [stmsRust, joinWith]
      | cons t l => rw [stmsRust, stmsRust, join_cons, List.cons_append, List.nil_append, words_nl]
    rw [e, stmsRustSt, List.append_assoc, List.append_assoc]
    exact h1
termination_by structural l => l
end

end Wf.Gen.Text
