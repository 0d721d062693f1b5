import Verif.Gen.StmtTextCpp
import Verif.Gen.TextPython

/-!
# The text of Python statements is derived by the grammar
-/

namespace Wf.Gen.Text

/-- A text with the words `ws` that stays on its line. -/
structure Row (ts ws : Toks) : Prop where
  comment : NoComment ts
  words : Text.words .python ts = ws
  bal : Bal ts
  clean : Clean (· = .nl) ts

theorem Row.nil : Row [] [] := ⟨.nil, rfl, .nil, .nil⟩

theorem Row.cons {t : Tok} {ts ws : Toks} (h : Row ts ws) (hk : t.kept = true := by rfl) (ho : t.opens = false := by rfl) (hc : t.closes = false := by rfl) :
    Row (t :: ts) (t :: ws) := by
  refine ⟨.cons h.comment (by cases t <;> first | rfl | cases hk), by rw [words_cons hk, h.words], .cons ho hc h.bal, .cons ho hc ?_ h.clean⟩
  cases t <;> first | rfl | cases hk

theorem Row.sp {ts ws : Toks} (h : Row ts ws) : Row (.sp :: ts) ws :=
  ⟨.cons h.comment, by rw [words_sp, h.words], .cons rfl rfl h.bal, .cons rfl rfl rfl h.clean⟩

theorem Row.app {a b wa wb : Toks} {t : Tok} (ha : Row a wa) (hb : Row (t :: b) wb) (ht : t ≠ .minus := by simp) : Row (a ++ t :: b) (wa ++ wb) :=
  ⟨ha.comment.append hb.comment, by rw [words_app ha.comment ht, ha.words, hb.words], ha.bal.append hb.bal, .append ha.bal ha.clean hb.clean⟩

theorem Row.group {o c : Tok} {j r ws wr : Toks} (hn : NoComment j) (hw : Text.words .python j = ws) (hb : Bal ws) (hr : Row r wr) (ho : o.opens = true := by rfl)
    (hc : c.closes = true := by rfl) (hc' : c.opens = false := by rfl) (hk : o.kept = true := by rfl) (hk' : c.kept = true := by rfl) :
    Row (o :: (j ++ c :: r)) (o :: (ws ++ c :: wr)) := by
  subst hw
  have hj := bal_words hn hb
  have e : o :: (j ++ c :: r) = (o :: (j ++ [c])) ++ r := by simp
  refine ⟨.cons (hn.append (.cons hr.comment ?_)) ?_, ?_, ?_, ?_⟩
  · cases c <;> first | rfl | cases hk'
  · cases o <;> first | rfl | cases hk
  · rw [words_cons hk, words_app hn (by rintro rfl; cases hk'), words_cons hk', hr.words]
  · rw [e]; exact Bal.append (.bracket ho hc hj hc') hr.bal
  · rw [e]
    refine Clean.append (.bracket ho hc hj hc') (.bracket ho hj ?_) hr.clean
    cases o <;> first | rfl | cases ho

theorem Row.expr {k : Nat} {ts : Toks} {e : E} (h : Reads .python k (tokens .python ts) e) : Row ts (tokens .python ts) := by
  have hn := h.noLayout
  refine ⟨hn.noComment, words_expr hn, (bal_brackets (brackets_tokens ts)).1 h.good.1, clean_of_mem fun t ht => ?_⟩
  have := hn t ht
  cases t <;> first | rfl | cases this

theorem Row.line {ts ws : Toks} (h : Row ts ws) (hne : ws ≠ []) {i : Nat} (hi : indentation ts = i) : HasLines ts [(i, ws)] := by
  refine .line h.comment h.words ?_ h.clean hi hne
  rw [← h.words]
  exact (bal_brackets (brackets_words h.comment)).2 h.bal

/-! ## Values -/

theorem python_expr (o : PyOptions) {t : Tree} (h : t.Fine .python) : Reads .python 0 (tokens .python (t.visit.python o)) (t.pythonE o) :=
  (Text.reads_python o t h).down (Nat.zero_le _) t.level_le

theorem python_exprs (o : PyOptions) {l : List Tree} (h : AllFine .python l) :
    List.Forall₂ (fun ts e => Reads .python 0 (tokens .python ts) e) (pyList o (visitAll l)) (l.map (Tree.pythonE o)) := by
  rw [pyList_eq, visitAll_eq, List.map_map]
  exact forall₂_of_mem fun t ht => (reads_pythons o l h t ht).down (Nat.zero_le _) t.level_le

theorem reads_pyMatrix (o : PyOptions) (r c : Nat) {l : List Tree} (h : AllFine .python l) :
    ∃ ws, Row (pyMatrix o r c l) ws ∧ ReadsV .python ws (.array o.matrixConstructor (l.map (Tree.pythonE o)) r c) := by
  obtain ⟨h1, h2⟩ := reads_args_words (python_exprs o h)
  refine ⟨_, ?_, .array (f := o.matrixConstructor) (r := r) (c := c) rfl h2⟩
  unfold pyMatrix
  simp only [List.cons_append, List.nil_append]
  have hi : Row ([.dot, .name "reshape", .lpar, .int r "", .comma, .sp, .int c "", .rpar] : Toks)
      [.dot, .name "reshape", .lpar, .int r "", .comma, .int c "", .rpar] :=
    .cons (.cons (.group (j := [.int r "", .comma, .sp, .int c ""]) (.cons (.cons (.cons (.cons .nil)))) rfl
      (.cons rfl rfl (.cons rfl rfl (.single rfl rfl))) .nil))
  have hj : NoComment (.lbracket :: (joinWith [.comma, .sp] (pyList o (visitAll l)) ++ [.rbracket])) := .cons (h1.noComment.append (.cons .nil))
  have hw : words .python (.lbracket :: (joinWith [.comma, .sp] (pyList o (visitAll l)) ++ [.rbracket])) =
      .lbracket :: (words .python (joinWith [.comma, .sp] (pyList o (visitAll l))) ++ [.rbracket]) := by
    rw [words_cons, words_app h1.noComment (by simp), words_cons, words_nil]
  have := Row.cons (t := .name o.matrixConstructor) (Row.group (o := .lpar) (c := .rpar) hj hw (.bracket rfl rfl h2.bal) hi)
  simpa using this

mutual
theorem Value.reads_python (o : PyConfig) : ∀ v : Value, v.Fine .python → ∃ ws, Row (v.python o) ws ∧ ReadsV .python ws (v.pythonV o.expr)
  | .expr t, h => ⟨_, .expr (python_expr o.expr h), .expr (python_expr o.expr h)⟩
  | .matrix r c l, h => reads_pyMatrix o.expr r c h.1
  | .struct n fs, h => by
    obtain ⟨h1, ws, h2, h3⟩ := fs.reads_python o h.2 h.1
    refine ⟨_, ?_, .call (T := n) rfl h3⟩
    rw [Value.python, indented]
    simp only [List.cons_append, List.nil_append]
    have hj : NoComment (.nl :: .indent o.indent :: (indentAfter o.indent (joinWith [.comma, .nl] (fs.python o)) ++ [.nl])) :=
      .cons (.cons ((NoComment.join (.cons (.cons .nil)) h1).indentAfter.append (.cons .nil)))
    have hw : words .python (.nl :: .indent o.indent :: (indentAfter o.indent (joinWith [.comma, .nl] (fs.python o)) ++ [.nl])) = ws := by
      rw [words_block, h2, words_nil, List.append_nil]
    have := Row.cons (t := .name n) (Row.group (o := .lpar) (c := .rpar) hj hw h3.bal .nil)
    simpa using this

theorem Fields.reads_python (o : PyConfig) : ∀ fs : Fields, fs.Fine .python → fs ≠ .nil → (∀ t ∈ fs.python o, NoComment t) ∧
    ∃ ws, words .python (joinWith [.comma, .nl] (fs.python o)) = ws ∧ ReadsParts .python ws (fs.pythonV o.expr)
  | .nil, _, h => absurd rfl h
  | .cons n v .nil, h, _ => by
    obtain ⟨ws, h1, h2⟩ := v.reads_python o h.1
    have hr : Row ([.name n, .assign] ++ v.python o) (.name n :: .assign :: ws) := .cons (.cons h1)
    refine ⟨fun t ht => ?_, _, hr.words, .one (n := n) h2⟩
    rw [List.mem_singleton.1 ht]; exact hr.comment
  | .cons n v (.cons m w fs), h, _ => by
    obtain ⟨ws, h1, h2⟩ := v.reads_python o h.1
    obtain ⟨h3, us, h4, h5⟩ := Fields.reads_python o (.cons m w fs) h.2 (by simp)
    have hr : Row ([.name n, .assign] ++ v.python o) (.name n :: .assign :: ws) := .cons (.cons h1)
    refine ⟨fun t ht => ?_, _, ?_, .cons (n := n) h2 h5⟩
    · rcases List.mem_cons.1 ht with rfl | ht
      · exact hr.comment
      · exact h3 t ht
    · have e : joinWith [.comma, .nl] ((Fields.cons n v (.cons m w fs)).python o) =
          ([.name n, .assign] ++ v.python o) ++ .comma :: .nl :: joinWith [.comma, .nl] ((Fields.cons m w fs).python o) := by
        rw [Fields.python, Fields.python, join_cons]; rfl
      rw [e, words_app hr.comment (by simp), words_cons, words_newline, hr.words, h4]
      rfl
end

/-! ## Lines -/

theorem ReadsLines.append {i : Nat} {a b : List (Nat × Toks)} {s t : List St} (h : ReadsLines i a s) (h' : ReadsLines i b t) : ReadsLines i (a ++ b) (s ++ t) := by
  induction h with
  | nil => exact h'
  | simple h _ ih => exact .simple h (ih h')
  | ite hc hj h1 hne _ _ ih =>
    have := ReadsLines.ite hc hj h1 hne (ih h')
    simpa using this
  | iteElse hc hj h1 hne hk h2 hne' _ _ _ ih =>
    have := ReadsLines.iteElse hc hj h1 hne hk h2 hne' (ih h')
    simpa using this

theorem ReadsLines.shift (n : Nat) {i : Nat} {a : List (Nat × Toks)} {s : List St} (h : ReadsLines i a s) : ReadsLines (n + i) (a.map (Text.shift n)) s := by
  induction h with
  | nil => exact .nil
  | simple h _ ih => exact .simple h ih
  | ite hc hj _ hne _ ih1 ih2 =>
    have := ReadsLines.ite hc (Nat.add_lt_add_left hj n) ih1 hne ih2
    simpa [Text.shift] using this
  | iteElse hc hj _ hne hk _ hne' _ ih1 ih2 ih3 =>
    have := ReadsLines.iteElse hc (Nat.add_lt_add_left hj n) ih1 hne (Nat.add_lt_add_left hk n) ih2 hne' ih3
    simpa [Text.shift] using this

/-- A text that is read as the statements, at the left margin. -/
def ReadsText (ts : Toks) (ss : List St) : Prop := ∃ ls, HasLines ts ls ∧ ReadsLines 0 ls ss

theorem ReadsText.nil : ReadsText [] [] := ⟨[], .nil, .nil⟩

theorem ReadsText.of_nil {s : List St} (h : ReadsText [] s) : s = [] := by
  obtain ⟨ls, h1, h2⟩ := h
  exact h2.indents.2.2.1 (h1.2 ▸ rfl)

theorem ReadsText.nl {a b : Toks} {s t : List St} (h : ReadsText a s) (h' : ReadsText b t) : ReadsText (a ++ .nl :: b) (s ++ t) := by
  obtain ⟨la, h1, h2⟩ := h
  obtain ⟨lb, h3, h4⟩ := h'
  exact ⟨la ++ lb, h1.nl h3, h2.append h4⟩

theorem ReadsText.simple {ts ws : Toks} {s : St} (h : Row ts ws) (h' : ReadsSimple .python ws s) (hi : indentation ts = 0 := by rfl) : ReadsText ts [s] :=
  ⟨_, h.line h'.ne_nil hi, .simple h' .nil⟩

theorem reads_name_assign {n : String} {ts ws : Toks} {v : V} (h : Row ts ws) (h' : ReadsV .python ws v) :
    ReadsText ([.name n, .sp, .assign, .sp] ++ ts) [.assign (.e (.atom n)) v] :=
  .simple (.cons (.sp (.cons (.sp h)))) (.assign (ts := [.name n]) (.expr .name) h')

theorem reads_none {n : String} : ReadsText [.name n, .sp, .assign, .sp, .name "None"] [.assign (.e (.atom n)) (.e (.atom "None"))] :=
  reads_name_assign (.cons .nil) (.expr (Reads.down (k' := 7) .name (by omega) (by omega)))

theorem indentAfter_id {n : Nat} {ts : Toks} (h : .nl ∉ ts) : indentAfter n ts = ts := by
  induction ts with
  | nil => rfl
  | cons t ts ih =>
    have ih := ih fun h' => h (List.mem_cons_of_mem _ h')
    have hn : t ≠ .nl := fun e => h (e ▸ List.mem_cons_self)
    cases t <;> first | (exact absurd rfl hn) | (simp only [indentAfter, ih])

/-- A branch. -/
theorem ReadsText.ite {n : Nat} {ts l body : Toks} {c : Cond} {s : List St} (hr : Row ts (.kIf :: (l ++ [.colon]))) (hi : indentation ts = 0)
    (hc : ReadsCond .python l c) (hn : 0 < n) (h : ReadsText body s) (hs : s ≠ []) :
    ReadsText (ts ++ .nl :: .indent n :: indentAfter n body) [.ite c s []] := by
  obtain ⟨lb, h1, h2⟩ := h
  have hl := (hr.line (by simp) hi).nl (h1.indent n)
  refine ⟨_, hl, ?_⟩
  have := ReadsLines.ite (i := 0) (j := n + 0) hc (by omega) (h2.shift n) hs .nil
  simpa using this

theorem ReadsText.iteElse {n : Nat} {ts l body other : Toks} {c : Cond} {s t : List St} (hr : Row ts (.kIf :: (l ++ [.colon]))) (hi : indentation ts = 0)
    (hc : ReadsCond .python l c) (hn : 0 < n) (h : ReadsText body s) (hs : s ≠ []) (h' : ReadsText other t) (ht : t ≠ []) :
    ReadsText (ts ++ .nl :: .indent n :: (indentAfter n body ++ .nl :: .kElse :: .colon :: .nl :: .indent n :: indentAfter n other)) [.ite c s t] := by
  obtain ⟨lb, h1, h2⟩ := h
  obtain ⟨lo, h3, h4⟩ := h'
  have he : HasLines [.kElse, .colon] [(0, [.kElse, .colon])] := Row.line (.cons (.cons .nil)) (by simp) rfl
  have hl := (hr.line (by simp) hi).nl ((h1.indent n).nl (he.nl (h3.indent n)))
  refine ⟨_, hl, ?_⟩
  have := ReadsLines.iteElse (i := 0) (j := n + 0) (k := n + 0) hc (by omega) (h2.shift n) hs (by omega) (h4.shift n) ht .nil
  simpa using this

/-! ## Statements -/

theorem pythonSt_ne (o : PyConfig) {s : Stm} (h : s.Fine .python) (hc : s.isCode = true) : s.pythonSt o ≠ [] := by
  cases s with
  | comment ls => cases hc
  | declare n t v => cases v <;> simp [Stm.pythonSt]
  | ret v => exact h.elim
  | optional n t body =>
    rw [Stm.pythonSt]
    split <;> simp
  | _ => simp [Stm.pythonSt]

theorem stmsFine_mem {L : Lang} {l : List Stm} (h : StmsFine L l) : ∀ s ∈ l, s.Fine L := by
  induction l with
  | nil => exact fun s hs => absurd hs List.not_mem_nil
  | cons t l ih =>
    intro s hs
    rcases List.mem_cons.1 hs with rfl | hs
    · exact h.1
    · exact ih h.2 s hs

theorem stmsPythonSt_ne (o : PyConfig) {l : List Stm} (h : StmsFine .python l) (hc : ∃ s ∈ l, s.isCode = true) : stmsPythonSt o l ≠ [] := by
  obtain ⟨s, hs, hc⟩ := hc
  induction l with
  | nil => exact absurd hs List.not_mem_nil
  | cons t l ih =>
    rw [stmsPythonSt]
    rcases List.mem_cons.1 hs with rfl | hs
    · exact List.append_ne_nil_of_left_ne_nil (pythonSt_ne o h.1 hc) _
    · exact List.append_ne_nil_of_right_ne_nil _ (ih h.2 hs)

theorem reads_comments (ls : List String) : ReadsText (joinWith [.nl] (ls.map fun s => [.comment s])) [] := by
  induction ls with
  | nil => exact .nil
  | cons s ls ih =>
    have h : ReadsText [.comment s] [] := ⟨[], .comment s, .nil⟩
    cases ls with
    | nil => exact h
    | cons t ls =>
      rw [List.map_cons, List.map_cons, join_cons]
      exact h.nl ih

mutual
theorem Stm.reads_python (o : PyConfig) (hn : 0 < o.indent) : ∀ s : Stm, s.Fine .python → ReadsText (s.python o) (s.pythonSt o)
  | .comment ls, _ => reads_comments ls
  | .declare n t none, _ => reads_none
  | .declare n t (some v), h => by
    obtain ⟨ws, h1, h2⟩ := v.reads_python o (h v rfl)
    exact reads_name_assign h1 h2
  | .assign n v, h => by
    obtain ⟨ws, h1, h2⟩ := v.reads_python o h
    exact reads_name_assign h1 h2
  | .output n _ v, h => by
    obtain ⟨ws, h1, h2⟩ := v.reads_python o h
    exact reads_name_assign h1 h2
  | .outputMatrix n _ r c l, h => by
    obtain ⟨ws, h1, h2⟩ := reads_pyMatrix o.expr r c h.1
    rw [Stm.python, Stm.pythonSt]
    by_cases ho : o.outputArguments = true
    · rw [if_pos ho, if_pos ho]
      have hp : Reads .python 7 [.name n, .dot, .name "reshape", .lpar, .int r "", .comma, .int c "", .rpar]
          (.app (.field (.atom n) "reshape") [.int r "", .int c ""]) :=
        Reads.app (us := [.int r "", .comma, .int c ""]) (Reads.field (s := "reshape") (Reads.name (s := n))) (reads_two fun h => nomatch h)
      refine ReadsText.simple (ws := [.name n, .dot, .name "reshape", .lpar, .int r "", .comma, .int c "", .rpar, .lbracket, .colon, .rbracket] ++ .assign :: ws)
        ?_ (.assign (ts := [.name n, .dot, .name "reshape", .lpar, .int r "", .comma, .int c "", .rpar, .lbracket, .colon, .rbracket]) (.slice rfl hp) h2)
      have h3 : Row (.lbracket :: ([.colon] ++ .rbracket :: .sp :: .assign :: .sp :: pyMatrix o.expr r c l))
          (.lbracket :: ([.colon] ++ .rbracket :: .assign :: ws)) := .group (.cons .nil) rfl (.single rfl rfl) (.sp (.cons (.sp h1)))
      exact .cons (.cons (.cons (.group (j := [.int r "", .comma, .sp, .int c ""]) (.cons (.cons (.cons (.cons .nil)))) rfl
        (.cons rfl rfl (.cons rfl rfl (.single rfl rfl))) h3)))
    · rw [if_neg ho, if_neg ho]
      exact reads_name_assign h1 h2
  | .branch c t e, h => by
    have hc := python_expr o.expr h.1
    have ht := stms_reads_python o hn t h.2.2.1
    have he := stms_reads_python o hn e h.2.2.2.1
    have hr : Row ([.kIf, .sp] ++ c.visit.python o.expr ++ [.colon]) (.kIf :: (tokens .python (c.visit.python o.expr) ++ [.colon])) := by
      simp only [List.cons_append, List.nil_append]
      exact .cons (.sp ((Row.expr hc).app (.cons .nil)))
    have hne := stmsPythonSt_ne o h.2.2.1 (h.2.2.2.2 rfl).1
    rw [Stm.python, Stm.pythonSt]
    cases e with
    | nil =>
      have := (ReadsText.ite hr rfl (.python rfl hc) hn ht hne).nl .nil
      simpa [indented, stmsPythonSt] using this
    | cons s e =>
      have hne' := stmsPythonSt_ne o h.2.2.2.1 ((h.2.2.2.2 rfl).2.resolve_left (by simp))
      have := ReadsText.iteElse hr rfl (.python rfl hc) hn ht hne he hne'
      simpa [indented] using this
  | .optional n t body, h => by
    have hb := stms_reads_python o hn body h.1
    have hne := stmsPythonSt_ne o h.1 (h.2 rfl)
    rw [Stm.python, Stm.pythonSt]
    unfold pyOptionalHead
    by_cases ho : o.outputArguments = true
    · simp only [if_pos ho]
      have hr : Row [.kIf, .sp, .name n, .sp, .kIs, .sp, .kNot, .sp, .name "None", .colon] (.kIf :: ([.name n, .kIs, .kNot, .name "None"] ++ [.colon])) :=
        .cons (.sp (.cons (.sp (.cons (.sp (.cons (.sp (.cons (.cons .nil)))))))))
      cases t with
      | scalar p =>
        have := ReadsText.ite hr rfl (.notNone rfl) hn hb hne
        simpa [indented, sizeCheck] using this
      | custom m =>
        have := ReadsText.ite hr rfl (.notNone rfl) hn hb hne
        simpa [indented, sizeCheck] using this
      | matrix r c =>
        have ha : ReadsText [.kAssert, .sp, .name n, .dot, .name "size", .sp, .eqeq, .sp, .int (r * c) "", .comma, .sp, .name "message"]
            (sizeCheck n (.matrix r c)) := by
          have hx : Reads .python 0 ([.name n, .dot, .name "size"] ++ .eqeq :: [.int (r * c) ""]) (.bin .eq (.field (.atom n) "size") (.int (r * c) "")) := by
            have h1 : Reads .python 3 [.name n, .dot, .name "size"] (.field (.atom n) "size") :=
              (Reads.field (s := "size") (Reads.name (s := n))).down (k := 3) (by omega) (by omega)
            have h2 : Reads .python 3 [.int (r * c) ""] (.int (r * c) "") := (Reads.int (L := .python) (by simp)).down (k := 3) (by omega) (by omega)
            exact (Reads.bin (L := .python) (op := .eq) h1 h2 (by simp)).down (k := 0) (by omega) (by decide)
          refine ReadsText.simple (ws := .kAssert :: ([.name n, .dot, .name "size"] ++ .eqeq :: [.int (r * c) ""] ++ [.comma, .name "message"])) ?_
            (.assert rfl hx)
          exact .cons (.sp (.cons (.cons (.cons (.sp (.cons (.sp (.cons (.cons (.sp (.cons .nil)))))))))))
        have hbody := ha.nl hb
        have := ReadsText.ite hr rfl (.notNone rfl) hn hbody (List.append_ne_nil_of_right_ne_nil _ hne)
        have e : ∀ x : Toks, x ≠ [] → indentAfter o.indent ([.kAssert, .sp, .name n, .dot, .name "size", .sp, .eqeq, .sp, .int (r * c) "", .comma, .sp, .name "message"] ++ .nl :: x) =
            [.kAssert, .sp, .name n, .dot, .name "size", .sp, .eqeq, .sp, .int (r * c) "", .comma, .sp, .name "message", .nl, .indent o.indent] ++
              indentAfter o.indent x := by
          intro x hx
          simp [indentAfter, hx]
        rw [e _ fun hx => hne (ReadsText.of_nil (hx ▸ hb))] at this
        simpa [indented] using this
    · simp only [if_neg ho]
      have hr : Row [.kIf, .sp, .name ("compute_" ++ n), .colon] (.kIf :: ([.name ("compute_" ++ n)] ++ [.colon])) :=
        .cons (.sp (.cons (.cons .nil)))
      have hx : Reads .python 0 [.name ("compute_" ++ n)] (.atom ("compute_" ++ n)) := Reads.down (k' := 7) .name (by omega) (by omega)
      have := ReadsText.iteElse hr rfl (.python rfl hx) hn hb hne (reads_none (n := n)) (by simp)
      rw [indentAfter_id (ts := [.name n, .sp, .assign, .sp, .name "None"]) (by simp)] at this
      simpa [indented] using this
termination_by structural s => s

theorem stms_reads_python (o : PyConfig) (hn : 0 < o.indent) : ∀ l : List Stm, StmsFine .python l →
    ReadsText (joinWith [.nl] (stmsPython o l)) (stmsPythonSt o l)
  | [], _ => .nil
  | [s], h => by
    have := Stm.reads_python o hn s h.1
    simpa [stmsPython, joinWith, stmsPythonSt] using this
  | s :: t :: l, h => by
    have h1 := Stm.reads_python o hn s h.1
    have h2 := stms_reads_python o hn (t :: l) h.2
    rw [stmsPython, stmsPython, join_cons, stmsPythonSt]
    exact h1.nl h2
termination_by structural l => l
end

/-! ## Bodies -/

theorem reads_tuple : ∀ {l : List Toks} {vs : List V}, List.Forall₂ (fun ts v => ∃ ws, Row ts ws ∧ ReadsV .python ws v) l vs → 2 ≤ l.length →
    NoComment (joinWith [.comma, .nl] l) ∧ ∃ ws, words .python (joinWith [.comma, .nl] l) = ws ∧ ReadsTuple .python ws vs
  | [a, b], _, .cons ⟨wa, h1, h2⟩ (.cons ⟨wb, h3, h4⟩ .nil), _ => by
    rw [join_cons]
    refine ⟨h1.comment.append (.cons (.cons h3.comment)), _, ?_, .two h2 h4⟩
    change words .python (a ++ .comma :: .nl :: b) = _
    rw [words_app h1.comment (by simp), words_cons, words_newline, h1.words, h3.words]
  | a :: b :: c :: l, _, .cons ⟨wa, h1, h2⟩ hr, _ => by
    obtain ⟨h3, ws, h4, h5⟩ := reads_tuple hr (by simp)
    rw [join_cons]
    refine ⟨h1.comment.append (.cons (.cons h3)), _, ?_, .cons h2 h5⟩
    change words .python (a ++ .comma :: .nl :: joinWith [.comma, .nl] (b :: c :: l)) = _
    rw [words_app h1.comment (by simp), words_cons, words_newline, h1.words, h4]

/-- The line that returns the values. -/
theorem reads_pyReturn (o : PyConfig) {l : List Toks} {vs : List V} (h : List.Forall₂ (fun ts v => ∃ ws, Row ts ws ∧ ReadsV .python ws v) l vs) :
    ∃ ls, HasLines (pyReturn o l) ls ∧ ReadsLines o.indent ls (if vs.isEmpty then [] else [.ret vs]) := by
  match l, vs, h with
  | [], _, .nil => exact ⟨[], .nil, .nil⟩
  | [a], _, .cons ⟨wa, h1, h2⟩ .nil =>
    have hs : ReadsSimple .python (.kReturn :: wa) _ := .ret (by simp) h2
    refine ⟨[(o.indent, .kReturn :: wa)], ?_, .simple hs .nil⟩
    refine HasLines.line (.cons (.cons (.cons h1.comment))) ?_ hs.bal (.cons rfl rfl rfl (.cons rfl rfl rfl (.cons rfl rfl rfl h1.clean))) rfl (by simp)
    change words .python (.indent o.indent :: .kReturn :: .sp :: a) = _
    rw [words_indent, words_cons, words_sp, h1.words]
  | a :: b :: l, v :: vs, h =>
    obtain ⟨h3, ws, h4, h5⟩ := reads_tuple h (by simp)
    have hs : ReadsSimple .python (.kReturn :: .lpar :: (ws ++ [.rpar])) (.ret (v :: vs)) := .tuple rfl h5
    refine ⟨[(o.indent, .kReturn :: .lpar :: (ws ++ [.rpar]))], ?_, .simple hs .nil⟩
    have hj : NoComment (.nl :: .indent (o.indent * 2) :: (indentAfter (o.indent * 2) (joinWith [.comma, .nl] (a :: b :: l)) ++ [.nl, .indent o.indent])) :=
      .cons (.cons (h3.indentAfter.append (.cons (.cons .nil))))
    have hw : words .python (.nl :: .indent (o.indent * 2) :: (indentAfter (o.indent * 2) (joinWith [.comma, .nl] (a :: b :: l)) ++ [.nl, .indent o.indent])) = ws := by
      rw [words_block, h4, words_indent, words_nil, List.append_nil]
    have hr : Row _ (.kReturn :: .lpar :: (ws ++ [.rpar])) := .cons (.sp (Row.group (o := .lpar) (c := .rpar) hj hw h5.bal .nil))
    have hl := HasLines.line (ts := .indent o.indent :: .kReturn :: .sp :: .lpar ::
        (.nl :: .indent (o.indent * 2) :: (indentAfter (o.indent * 2) (joinWith [.comma, .nl] (a :: b :: l)) ++ [.nl, .indent o.indent]) ++ [.rpar]))
      (.cons hr.comment) (by rw [words_indent, hr.words]) hs.bal (.cons rfl rfl rfl hr.clean) rfl (by simp)
    simpa [pyReturn, indented, indentation] using hl

end Wf.Gen.Text
