import Verif.Gen.StmtTextLayout
import Verif.Gen.TextCpp
import Mathlib.Data.List.Range

/-!
# The text of C++ statements is derived by the grammar
-/

namespace Wf.Gen.Text

variable {L : Lang}

/-! ## What the languages share -/

theorem words_block (n : Nat) (j rest : Toks) : words L (.nl :: .indent n :: (indentAfter n j ++ .nl :: rest)) = words L j ++ words L rest := by
  rw [words_newline, words_indent, words_nl, words_indentAfter]

theorem join_cons {s t u : Toks} {l : List Toks} : joinWith s (t :: u :: l) = t ++ (s ++ joinWith s (u :: l)) := by
  rw [joinWith, List.append_assoc]
  intro e; cases e

theorem range_positions (r c : Nat) : (List.range (r * c)).map (indicesOf c) = positions r c := by
  induction r with
  | zero => simp [positions]
  | succ r ih =>
    rw [Nat.succ_mul, List.range_add, List.map_append, ih]
    unfold positions
    rw [List.range_succ, List.flatMap_append]
    congr 1
    simp only [List.map_map, List.flatMap_cons, List.flatMap_nil, List.append_nil]
    apply List.map_congr_left
    intro j hj
    have hj : j < c := List.mem_range.1 hj
    have hc : 0 < c := by omega
    simp only [Function.comp, indicesOf]
    rw [Nat.add_comm, Nat.add_mul_div_right _ _ hc, Nat.add_mul_mod_self_right, Nat.div_eq_of_lt hj, Nat.mod_eq_of_lt hj, Nat.zero_add]

/-- The elements of a matrix and their positions. -/
theorem enumerate_positions {α : Type} {r c : Nat} {l : List α} (h : l.length = r * c) :
    (enumerate l).map (fun p => (indicesOf c p.1, p.2)) = (positions r c).zip l := by
  unfold enumerate
  rw [h, ← range_positions, List.zip_map_left]
  apply List.map_congr_left
  rintro ⟨a, b⟩ _
  rfl

theorem mem_positions {r c : Nat} {p : Nat × Nat} (h : p ∈ positions r c) : p.1 < r ∧ p.2 < c := by
  unfold positions at h
  simp only [List.mem_flatMap, List.mem_range, List.mem_map] at h
  obtain ⟨i, hi, j, hj, rfl⟩ := h
  exact ⟨hi, hj⟩

/-- Simple statements, one after the other. -/
theorem reads_list {α : Type} {f : α → Toks} {g : α → St} {l : List α}
    (h : ∀ x ∈ l, ∃ ts, words L (f x) = ts ++ [.semi] ∧ ReadsSimple L ts (g x) ∧ ts.head? ≠ some .kIf) {us : Toks} {ss : List St} (hr : ReadsBlock L us ss) :
    ReadsBlock L (words L (joinWith [.nl] (l.map f)) ++ us) (l.map g ++ ss) := by
  induction l with
  | nil => exact hr
  | cons x l ih =>
    obtain ⟨ts, e, h1, h2⟩ := h x List.mem_cons_self
    have ih := ih fun y hy => h y (List.mem_cons_of_mem _ hy)
    have e2 : words L (joinWith [.nl] (f x :: l.map f)) = words L (f x) ++ words L (joinWith [.nl] (l.map f)) := by
      cases l with
      | nil => simp [joinWith]
      | cons y l => rw [List.map_cons, join_cons, List.cons_append, List.nil_append, words_nl]
    rw [List.map_cons, List.map_cons, e2, e]
    have := ReadsBlock.simple h1 h2 ih
    simpa using this

theorem reads_one {ts : Toks} {s : St} (h : ReadsSimple L ts s) (h' : ts.head? ≠ some .kIf) {us : Toks} {ss : List St} (hr : ReadsBlock L us ss) :
    ReadsBlock L ((ts ++ [.semi]) ++ us) ([s] ++ ss) := by
  have := ReadsBlock.simple h h' hr
  simpa using this

theorem words_comments (ls : List String) : words L (commentToks ls) = [] := by
  unfold commentToks
  induction ls with
  | nil => rfl
  | cons s ls ih => exact ih

/-! ## C++ -/

theorem reads_cpp_words (span : Bool) {t : Tree} (h : t.Fine .cpp) :
    NoLayout (t.visit.cpp span) ∧ Reads .cpp (t.level .cpp) (words .cpp (t.visit.cpp span)) (t.cppE span) := by
  have h := Text.reads_cpp span t h
  exact ⟨h.noLayout, by rw [words_expr h.noLayout]; exact h⟩

theorem reads_cpp_zero (span : Bool) {t : Tree} (h : t.Fine .cpp) : Reads .cpp 0 (words .cpp (t.visit.cpp span)) (t.cppE span) :=
  (reads_cpp_words span h).2.down (Nat.zero_le _) t.level_le

theorem cpp_exprs (span : Bool) {l : List Tree} (h : AllFine .cpp l) :
    List.Forall₂ (fun ts e => Reads .cpp 0 (tokens .cpp ts) e) (cppList span (visitAll l)) (l.map (Tree.cppE span)) := by
  rw [cppList_eq, visitAll_eq, List.map_map]
  exact forall₂_of_mem fun t ht => (reads_cpps span l h t ht).down (Nat.zero_le _) t.level_le

theorem NoLayout.join {s : Toks} (hs : NoLayout s) : ∀ {l : List Toks}, (∀ t ∈ l, NoLayout t) → NoLayout (joinWith s l)
  | [], _ => fun _ h => absurd h List.not_mem_nil
  | [t], h => h t List.mem_cons_self
  | t :: u :: l, h => by
    rw [join_cons]
    have ih := NoLayout.join hs (l := u :: l) fun x hx => h x (List.mem_cons_of_mem _ hx)
    intro x hx
    rcases List.mem_append.1 hx with hx | hx
    · exact h t List.mem_cons_self x hx
    · rcases List.mem_append.1 hx with hx | hx
      · exact hs x hx
      · exact ih x hx

theorem noLayout_of_forall₂ {l : List Toks} {es : List E} (h : List.Forall₂ (fun ts e => Reads L 0 (tokens L ts) e) l es) : ∀ t ∈ l, NoLayout t := by
  induction h with
  | nil => exact fun t ht => absurd ht List.not_mem_nil
  | cons h1 _ ih =>
    intro t ht
    rcases List.mem_cons.1 ht with rfl | ht
    · exact h1.noLayout
    · exact ih t ht

theorem noLayout_comma : NoLayout [.comma, .sp] := by
  intro t ht
  rcases List.mem_cons.1 ht with rfl | ht
  · rfl
  · rw [List.mem_singleton.1 ht]; rfl

/-- The elements of a matrix or the arguments of a call, in a text. -/
theorem reads_args_words {l : List Toks} {es : List E} (h : List.Forall₂ (fun ts e => Reads L 0 (tokens L ts) e) l es) :
    NoLayout (joinWith [.comma, .sp] l) ∧ ReadsArgs L (words L (joinWith [.comma, .sp] l)) es := by
  have hn := NoLayout.join noLayout_comma (noLayout_of_forall₂ h)
  exact ⟨hn, by rw [words_expr hn]; exact reads_args h⟩

mutual
theorem Value.reads_cpp (span : Bool) : ∀ v : Value, v.Fine .cpp → NoComment (v.cpp span) ∧ ReadsV .cpp (words .cpp (v.cpp span)) (v.cppV span)
  | .expr t, h => ⟨(reads_cpp_words span h).1.noComment, .expr (reads_cpp_zero span h)⟩
  | .matrix r c l, h => by
    obtain ⟨t, ts, rfl, hl⟩ := h.2 rfl
    have h1 := h.1
    have hf := cpp_exprs span h1
    have ha := reads_args_words hf
    have ht := reads_cpp_words span (t := t) h1.1
    have ht3 := ht.2.down (Tree.level_tight hl) t.level_le
    constructor
    · rw [Value.cpp]
      refine NoComment.append (NoComment.append ?_ ha.1.noComment) ?_
      · exact .cons (.cons (.cons (.cons (.cons (.cons (.cons .nil))))))
      · exact .cons (.cons (.cons (.cons (.cons .nil))))
    · rw [Value.cpp]
      simp only [List.cons_append, List.nil_append]
      rw [words_cons, words_cons, words_cons, words_cons, words_sp, words_cons, words_sp, words_app ha.1.noComment (by simp)]
      rw [words_cons, words_cons, words_cons, words_cons, words_cons, words_nil]
      cases ts with
      | nil => exact .matrixOne rfl ht3
      | cons u us =>
        have hr := reads_args_words (cpp_exprs span h1.2)
        have e : joinWith [Tok.comma, .sp] (cppList span (visitAll (t :: u :: us))) =
            t.visit.cpp span ++ .comma :: .sp :: joinWith [.comma, .sp] (cppList span (visitAll (u :: us))) := by
          simp only [visitAll, cppList]
          rw [join_cons]; rfl
        rw [e, words_app ht.1.noComment (by simp), words_cons, words_sp, List.append_assoc, List.cons_append]
        exact .matrix rfl ht3 hr.2 (by simp)
  | .struct n fs, h => by
    obtain ⟨h1, h2⟩ := fs.reads_cpp span h.2
    constructor
    · exact NoComment.indented (.cons (.cons (.cons .nil))) (.cons (.cons .nil)) (NoComment.join (.cons (.cons .nil)) h1)
    · rw [Value.cpp, indented]
      simp only [List.cons_append, List.nil_append]
      rw [words_cons, words_cons, words_block, words_cons, words_nil]
      exact .braces (by simp) (h2 h.1)

theorem Fields.reads_cpp (span : Bool) : ∀ fs : Fields, fs.Fine .cpp → (∀ t ∈ fs.cpp span, NoComment t) ∧
    (fs ≠ .nil → ReadsParts .cpp (words .cpp (joinWith [.comma, .nl] (fs.cpp span))) (fs.cppV span))
  | .nil, _ => ⟨fun t ht => absurd ht List.not_mem_nil, fun h => absurd rfl h⟩
  | .cons n v fs, h => by
    obtain ⟨h1, h2⟩ := v.reads_cpp span h.1
    obtain ⟨h3, h4⟩ := fs.reads_cpp span h.2
    refine ⟨fun t ht => (List.mem_cons.1 ht).elim (fun e => e ▸ h1) (h3 t), fun _ => ?_⟩
    cases fs with
    | nil => exact .one (n := n) h2
    | cons m w fs =>
      rw [Fields.cpp, Fields.cpp, join_cons]
      simp only [List.cons_append, List.nil_append]
      rw [words_app h1 (by simp), words_cons, words_newline]
      exact .cons (n := n) h2 (h4 (by simp))
end

theorem readsV_head_cpp {ts : Toks} {v : V} (h : ReadsV .cpp ts v) : ts.head? ≠ some .kIf := by
  cases h with
  | expr h =>
    obtain ⟨t, us, rfl, _⟩ := h.starts
    have := h.allowed t List.mem_cons_self
    intro e; cases e; simp [Text.allowed] at this
  | _ => simp

theorem cppElement_words (span : Bool) (n : String) (o : Bool) {i j : Nat} (hi : i < 2 ^ 63) (hj : j < 2 ^ 63) :
    NoComment (cppElement span n o i j) ∧ ReadsPlace .cpp (words .cpp (cppElement span n o i j)) (cppPlace span n o i j) ∧
      (words .cpp (cppElement span n o i j)).head? ≠ some .kIf := by
  have h2 : ReadsArgs .cpp [.int i "", .comma, .int j ""] [.int i "", .int j ""] := reads_two fun _ => ⟨hi, hj⟩
  unfold cppElement cppPlace
  by_cases hs : span = true
  · rw [if_pos hs, if_pos hs]
    exact ⟨.cons (.cons (.cons (.cons (.cons (.cons (.cons .nil)))))), .expr (.app (ts := [_]) .name h2), by simp [words, plain, tokens]⟩
  · rw [if_neg hs, if_neg hs]
    by_cases ho : o = true
    · rw [if_pos ho, if_pos ho]
      exact ⟨.cons (.cons (.cons (.cons (.cons (.cons (.cons (.cons (.cons .nil)))))))), .arrow rfl h2, by simp [words, plain, tokens]⟩
    · rw [if_neg ho, if_neg ho]
      exact ⟨.cons (.cons (.cons (.cons (.cons (.cons (.cons .nil)))))), .expr (.app (ts := [_]) .name h2), by simp [words, plain, tokens]⟩

theorem words_if (L : Lang) (j rest : Toks) : words L (indented 2 [.lbrace, .nl] [.nl, .rbrace] j ++ rest) = .lbrace :: (words L j ++ .rbrace :: words L rest) := by
  rw [indented]
  simp only [List.cons_append, List.nil_append, List.append_assoc]
  rw [words_cons, words_block, words_cons]

theorem words_else (L : Lang) (j rest : Toks) :
    words L (indented 2 [.sp, .kElse, .sp, .lbrace, .nl] [.nl, .rbrace] j ++ rest) = .kElse :: .lbrace :: (words L j ++ .rbrace :: words L rest) := by
  rw [indented]
  simp only [List.cons_append, List.nil_append, List.append_assoc]
  rw [words_sp, words_cons, words_sp, words_cons, words_block, words_cons]

mutual
theorem Stm.reads_cpp (span : Bool) : ∀ s : Stm, s.Fine .cpp → ∀ {us : Toks} {ss : List St}, ReadsBlock .cpp us ss →
    ReadsBlock .cpp (words .cpp (s.cpp span) ++ us) (s.cppSt span ++ ss)
  | .comment ls, _, us, ss, hr => by
    rw [Stm.cpp, words_comments]
    exact hr
  | .declare n t none, _, us, ss, hr => by
    rw [Stm.cpp, words_cons, words_sp, words_cons, words_cons, words_nil]
    exact reads_one (.bare rfl) (by simp) hr
  | .declare n t (some v), h, us, ss, hr => by
    obtain ⟨h1, h2⟩ := v.reads_cpp span (h v rfl)
    rw [Stm.cpp]
    simp only [List.cons_append, List.nil_append]
    rw [words_cons, words_sp, words_cons, words_sp, words_cons, words_sp, words_cons, words_sp, words_app h1 (by simp), words_cons, words_nil]
    exact reads_one (.const rfl h2) (by simp) hr
  | .assign n v, h, us, ss, hr => by
    obtain ⟨h1, h2⟩ := v.reads_cpp span h
    rw [Stm.cpp]
    simp only [List.cons_append, List.nil_append]
    rw [words_cons, words_sp, words_cons, words_sp, words_app h1 (by simp), words_cons, words_nil]
    exact reads_one (.assign (ts := [_]) (.expr .name) h2) (by simp) hr
  | .output n o v, h, us, ss, hr => by
    obtain ⟨h1, h2⟩ := v.reads_cpp span h
    rw [Stm.cpp, Stm.cppSt]
    cases o with
    | true =>
      simp only [if_true, List.cons_append, List.nil_append]
      rw [words_cons, words_cons, words_sp, words_cons, words_sp, words_app h1 (by simp), words_cons, words_nil]
      exact reads_one (.assign (ts := [_, _]) (.deref (by simp)) h2) (by simp) hr
    | false =>
      simp only [Bool.false_eq_true, if_false, List.cons_append, List.nil_append]
      rw [words_cons, words_sp, words_cons, words_sp, words_app h1 (by simp), words_cons, words_nil]
      exact reads_one (.assign (ts := [_]) (.expr .name) h2) (by simp) hr
  | .outputMatrix n o r c l, h, us, ss, hr => by
    rw [Stm.cpp, Stm.cppSt]
    have e := enumerate_positions h.2.1
    have e2 : ((enumerate l).map fun p => cppElement span n o (indicesOf c p.1).1 (indicesOf c p.1).2 ++ [.sp, .assign, .sp] ++ p.2.visit.cpp span ++ [.semi]) =
        ((positions r c).zip l).map fun q => cppElement span n o q.1.1 q.1.2 ++ [.sp, .assign, .sp] ++ q.2.visit.cpp span ++ [.semi] := by
      rw [← e, List.map_map]; rfl
    rw [e2]
    refine reads_list ?_ hr
    rintro ⟨⟨i, j⟩, t⟩ hp
    have hq := mem_positions (List.of_mem_zip hp).1
    have hb := h.2.2 rfl
    simp only at hq
    obtain ⟨h1, h2, h3⟩ := cppElement_words span n o (i := i) (j := j) (by omega) (by omega)
    have ht := Text.reads_cpps span l h.1 t (List.of_mem_zip hp).2
    have hw : Reads .cpp 0 (words .cpp (t.visit.cpp span)) (t.cppE span) := by
      rw [words_expr ht.noLayout]; exact ht.down (Nat.zero_le _) t.level_le
    refine ⟨words .cpp (cppElement span n o i j) ++ .assign :: words .cpp (t.visit.cpp span), ?_, .assign h2 (.expr hw), ?_⟩
    · simp only [List.cons_append, List.nil_append, List.append_assoc]
      rw [words_app h1 (by simp), words_sp, words_cons, words_sp, words_app ht.noLayout.noComment (by simp), words_cons, words_nil]
    · have hne := h2.ne_nil
      cases hw' : words .cpp (cppElement span n o i j) with
      | nil => exact absurd hw' hne
      | cons x y => rw [hw'] at h3; simpa using h3
  | .branch c t e, h, us, ss, hr => by
    have hc := reads_cpp_words span h.1
    have ht := stms_reads_cpp span t h.2.2.1 (us := []) .nil
    have he := stms_reads_cpp span e h.2.2.2.1 (us := []) .nil
    simp only [List.append_nil] at ht he
    rw [Stm.cpp, Stm.cppSt]
    simp only [List.cons_append, List.nil_append, List.append_assoc]
    rw [words_cons, words_sp, words_cons, words_app hc.1.noComment (by simp), words_cons, words_sp, words_if]
    cases e with
    | nil =>
      have := ReadsBlock.ite (.cpp rfl (reads_cpp_zero span h.1)) ht hr
      simpa [stmsCppSt] using this
    | cons s e =>
      have := ReadsBlock.iteElse (.cpp rfl (reads_cpp_zero span h.1)) ht he hr
      have e' := words_else .cpp (joinWith [.nl] (stmsCpp span (s :: e))) []
      rw [List.append_nil] at e'
      simp only [List.isEmpty_cons, Bool.false_eq_true, if_false]
      rw [e']
      simpa using this
  | .optional n t body, h, us, ss, hr => by
    have hb := stms_reads_cpp span body h.1 (us := []) .nil
    simp only [List.append_nil] at hb
    obtain ⟨x, e1, e2⟩ : ∃ x, (Stm.optional n t body).cpp span = [.kIf, .sp, .lpar, .staticCast "bool", .lpar, .name x, .rpar, .rpar, .sp] ++
        indented 2 [.lbrace, .nl] [.nl, .rbrace] (joinWith [.nl] (stmsCpp span body)) ∧
        (Stm.optional n t body).cppSt span = [.ite (.e (.cast "bool" (.atom x))) (stmsCppSt span body) []] := by
      refine ⟨_, rfl, ?_⟩
      cases t <;> cases span <;> rfl
    rw [e1, e2]
    have hi := words_if .cpp (joinWith [.nl] (stmsCpp span body)) []
    rw [List.append_nil] at hi
    simp only [List.cons_append, List.nil_append]
    rw [words_cons, words_sp, words_cons, words_cons, words_cons, words_cons, words_cons, words_cons, words_sp, hi]
    have hcast : Reads .cpp 0 [.staticCast "bool", .lpar, .name x, .rpar] (.cast "bool" (.atom x)) :=
      (Reads.staticCast (ts := [.name x]) rfl (Reads.down (k' := 7) .name (by omega) (by omega))).down (k := 0) (by omega) (by omega)
    have := ReadsBlock.ite (.cpp rfl hcast) hb hr
    simpa using this
termination_by structural s => s

theorem stms_reads_cpp (span : Bool) : ∀ l : List Stm, StmsFine .cpp l → ∀ {us : Toks} {ss : List St}, ReadsBlock .cpp us ss →
    ReadsBlock .cpp (words .cpp (joinWith [.nl] (stmsCpp span l)) ++ us) (stmsCppSt span l ++ ss)
  | [], _, us, ss, hr => hr
  | s :: l, h, us, ss, hr => by
    have h1 := Stm.reads_cpp span s h.1 (stms_reads_cpp span l h.2 hr)
    have e : words .cpp (joinWith [.nl] (stmsCpp span (s :: l))) = words .cpp (s.cpp span) ++ words .cpp (joinWith [.nl] (stmsCpp span l)) := by
      cases l with
      | nil => simp [stmsCpp, joinWith]
      | cons t l => rw [stmsCpp, stmsCpp, join_cons, List.cons_append, List.nil_append, words_nl]
    rw [e, stmsCppSt, List.append_assoc, List.append_assoc]
    exact h1
termination_by structural l => l
end

end Wf.Gen.Text
