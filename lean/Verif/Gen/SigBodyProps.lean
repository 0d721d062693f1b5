import Verif.Gen.SigProps
import Verif.Gen.StmtTextProps
import Verif.Gen.RunProps

/-!
# C61: the conversions of arguments

The text after the signature is read as the conversions of arguments and the statements of the body. The conversions turn the arguments, as they are passed,
into what the body starts with (`startState`).
-/

namespace Wf.Gen.Text

variable {K : Type}

/-! ## C++ -/

/-- The views that are meant. -/
def viewsOf (args : List Argument) : List ViewOf :=
  args.filterMap fun a =>
    match a.type with
    | .matrix r c => some ⟨"_" ++ a.name, viewMaker a.direction r c, a.name⟩
    | _ => none

private theorem spanMaker_eq (d : Direction) (r c : Nat) : spanMaker d r c = viewMaker d r c := by
  cases d <;> rfl

private theorem words_view {a : Argument} (h : a.type.isMatrix = true) : ∃ v, viewsOf [a] = [v] ∧ words .cpp (cppView a) = v.toks := by
  obtain ⟨n, t, d⟩ := a
  cases t with
  | matrix r c => exact ⟨_, rfl, by
      show words .cpp [.ty "auto", .sp, .name _, .sp, .assign, .sp, .name (spanMaker d r c), .lpar, .name n, .rpar, .semi] = _
      rw [spanMaker_eq]
      rfl⟩
  | scalar _ => cases h
  | custom _ => cases h

private theorem viewsOf_cons (a : Argument) (as : List Argument) : viewsOf (a :: as) = viewsOf [a] ++ viewsOf as := by
  unfold viewsOf
  rw [← List.filterMap_append]; rfl

private theorem viewsOf_filter (args : List Argument) : viewsOf (args.filter (·.type.isMatrix)) = viewsOf args := by
  induction args with
  | nil => rfl
  | cons a as ih =>
    rw [viewsOf_cons, List.filter_cons]
    cases ht : a.type with
    | matrix r c => rw [if_pos (by rfl), viewsOf_cons, ih]
    | scalar p =>
      rw [if_neg (by simp [VarType.isMatrix]), ih]
      simp [viewsOf, ht]
    | custom n =>
      rw [if_neg (by simp [VarType.isMatrix]), ih]
      simp [viewsOf, ht]

private theorem words_views {ms : List Argument} (h : ∀ a ∈ ms, a.type.isMatrix = true) :
    words .cpp (joinWith [.nl] (ms.map cppView)) = ((viewsOf ms).map ViewOf.toks).flatten := by
  induction ms with
  | nil => rfl
  | cons a as ih =>
    obtain ⟨v, hv, hw⟩ := words_view (h a List.mem_cons_self)
    rw [viewsOf_cons, hv, List.map_append, List.flatten_append, ← ih fun x hx => h x (List.mem_cons_of_mem _ hx)]
    cases as with
    | nil => simp [joinWith, hw]
    | cons b bs =>
      rw [List.map_cons, List.map_cons, join_cons, List.cons_append, List.nil_append, words_nl, hw]
      simp

/-- **C61** (C++). The text after the signature is read as the views of the matrices, in their order, and the statements of the body that are meant. -/
theorem C61_cpp_definition_partial (span : Bool) (args : List Argument) {body : List Stm} {text : Toks} (h : BodyFine .cpp body)
    (ht : cppDefinition span args body = some text) : ViewsReadAs text (if span then viewsOf args else []) (stmsCppSt span body) := by
  unfold cppDefinition at ht
  by_cases hm : (span && stmsHaveMatrix body) = true
  · rw [if_pos hm] at ht; cases ht
  rw [if_neg hm] at ht
  cases ht
  obtain ⟨ts, h1, h2, h3⟩ := C56_cpp_partial span h (text := .nl :: indented 2 [.lbrace, .nl] [.nl, .rbrace] (joinWith [.nl] (stmsCpp span body))) (if_neg hm)
  have hb : words .cpp (indented 2 [] [.nl, .rbrace] (joinWith [.nl] (stmsCpp span body))) = ts ++ [.rbrace] := by
    have e : (.nl :: indented 2 [.lbrace, .nl] [.nl, .rbrace] (joinWith [.nl] (stmsCpp span body)) : Toks) =
        .nl :: .lbrace :: .nl :: indented 2 [] [.nl, .rbrace] (joinWith [.nl] (stmsCpp span body)) := by simp [indented]
    rw [e, words_newline, words_cons, words_newline] at h1
    exact (List.cons.inj h1).2
  refine ⟨ts, ?_, h2, h3⟩
  have key : words .cpp (cppViews span args ++ indented 2 [] [.nl, .rbrace] (joinWith [.nl] (stmsCpp span body))) =
      ((if span then viewsOf args else []).map ViewOf.toks).flatten ++ (ts ++ [.rbrace]) := by
    unfold cppViews
    cases span with
    | false => simpa using hb
    | true =>
      by_cases hms : (args.filter (·.type.isMatrix)).isEmpty = true
      · have hv : viewsOf args = [] := by
          rw [← viewsOf_filter, List.isEmpty_iff.1 hms]; rfl
        simp only [hms, Bool.not_true, Bool.and_false, Bool.false_eq_true, if_false, if_true, hv]
        simpa using hb
      · simp only [hms, Bool.not_false, Bool.and_self, if_true]
        have e : indented 2 [] [.nl] (joinWith [.nl] ((args.filter (·.type.isMatrix)).map cppView)) ++ [.nl] ++
            indented 2 [] [.nl, .rbrace] (joinWith [.nl] (stmsCpp true body)) =
            (.indent 2 :: indentAfter 2 (joinWith [.nl] ((args.filter (·.type.isMatrix)).map cppView))) ++ .nl :: (.nl ::
            indented 2 [] [.nl, .rbrace] (joinWith [.nl] (stmsCpp true body))) := by simp [indented]
        rw [e, words_nl, words_indent, words_indentAfter, words_newline, hb, words_views fun a ha => (List.mem_filter.1 ha).2, viewsOf_filter]
  show words .cpp (.nl :: .lbrace :: .nl :: (cppViews span args ++ _)) = _
  rw [words_newline, words_cons, words_newline, key]

private theorem find_app {α : Type} {n : String} {x : α} {l : List (String × α)} (h : find n l = some x) (m : List (String × α)) : find n (l ++ m) = some x := by
  induction l with
  | nil => cases h
  | cons p l ih =>
    rw [List.cons_append, find]
    rw [find] at h
    by_cases e : p.1 = n
    · rw [if_pos e] at h ⊢; exact h
    · rw [if_neg e] at h ⊢; exact ih h

private theorem find_arg {α : Type} {l : List Argument} {f : Argument → α} {a : Argument} (hd : (l.map (·.name)).Nodup) (ha : a ∈ l) :
    find a.name (l.map fun a => (a.name, f a)) = some (f a) := by
  induction l with
  | nil => cases ha
  | cons b l ih =>
    rw [List.map_cons, find]
    rcases List.mem_cons.1 ha with rfl | ha
    · rw [if_pos rfl]
    · rw [List.map_cons, List.nodup_cons] at hd
      have hne : b.name ≠ a.name := fun e => hd.1 (by rw [e]; exact List.mem_map_of_mem ha)
      rw [if_neg hne, ih hd.2 ha]

private theorem make_views {input : String → Cell K} {wanted : String → Bool} {heap : List (String × Slot K)} {result : Option (List (Cell K))} :
    ∀ {args : List Argument} {vars : List (String × Obj K)}, (∀ a ∈ args, a.type.isMatrix = true → find a.name vars = some (paramObj (.cpp true) input wanted a)) →
    (∀ a ∈ args, a.type.isMatrix = true → "_" ++ a.name ∉ vars.map Prod.fst) → ((args.filter (·.type.isMatrix)).map fun a => "_" ++ a.name).Nodup →
    (∀ a ∈ args, a.present wanted = true → find a.name heap = some a.type.fresh) →
    (∀ a ∈ args, a.direction = .input → ∀ r c, a.type = .matrix r c → ∃ l, input a.name = .mat r c l) →
    runViews (viewsOf args) ⟨vars, heap, result⟩ = some ⟨vars ++ (args.filter (·.type.isMatrix)).map (fun a => ("_" ++ a.name, viewObj input wanted a)), heap, result⟩
  | [], vars, _, _, _, _, _ => by simp [viewsOf, runViews]
  | a :: as, vars, hf, hn, hd, hh, hi => by
    rw [viewsOf_cons]
    by_cases ht : a.type.isMatrix = true
    · rw [List.filter_cons, if_pos ht, List.map_cons] at hd ⊢
      rw [List.nodup_cons] at hd
      have ih := make_views (args := as) (vars := vars ++ [("_" ++ a.name, viewObj input wanted a)]) (heap := heap) (result := result) (input := input) (wanted := wanted)
        (fun b hb h => find_app (hf b (List.mem_cons_of_mem _ hb) h) _) (fun b hb h => by
          rw [List.map_append, List.mem_append]
          rintro (h' | h')
          · exact hn b (List.mem_cons_of_mem _ hb) h h'
          · simp only [List.map_cons, List.map_nil, List.mem_singleton] at h'
            exact hd.1 (h' ▸ List.mem_map.2 ⟨b, List.mem_filter.2 ⟨hb, h⟩, rfl⟩)) hd.2 (fun b hb => hh b (List.mem_cons_of_mem _ hb)) (fun b hb => hi b (List.mem_cons_of_mem _ hb))
      have hfa := hf a List.mem_cons_self ht
      have hna : find ("_" ++ a.name) vars = none := find_absent fun p hp e => hn a List.mem_cons_self ht (e ▸ List.mem_map_of_mem hp)
      have hha := hh a List.mem_cons_self
      have hia := hi a List.mem_cons_self
      obtain ⟨n, t, d⟩ := a
      cases t with
      | scalar _ => cases ht
      | custom _ => cases ht
      | matrix r c =>
        have hmk : makeView ⟨vars, heap, result⟩ (viewMaker d r c) (paramObj (.cpp true) input wanted ⟨n, .matrix r c, d⟩) =
            some (viewObj input wanted ⟨n, .matrix r c, d⟩) := by
          cases d with
          | input =>
            obtain ⟨l, hl⟩ := hia rfl r c rfl
            have hl : input n = .mat r c l := hl
            simp only [paramObj, viewObj, makeView, hl]
            simp
          | output =>
            have := hha rfl
            simp only [paramObj, viewObj, makeView, VarType.fresh] at this ⊢
            rw [this]; simp
          | optional =>
            cases hw : wanted n with
            | true =>
              have := hha hw
              simp only [paramObj, viewObj, hw, if_true, makeView, VarType.fresh] at this ⊢
              rw [this]; simp
            | false =>
              simp only [paramObj, viewObj, hw, Bool.false_eq_true, if_false, makeView]
              rw [if_pos]
              unfold viewMaker
              simp [String.toList_append]
        show (match (find n vars).bind (makeView _ _), find ("_" ++ n) vars with
          | some o, none => runViews (viewsOf as) ⟨vars ++ [("_" ++ n, o)], heap, result⟩
          | _, _ => none) = _
        rw [hfa, hna]
        simp only [Option.bind_some, hmk]
        rw [ih]
        simp
    · have hv : viewsOf [a] = [] := by
        obtain ⟨n, t, d⟩ := a
        cases t with
        | matrix r c => exact absurd rfl ht
        | scalar _ => rfl
        | custom _ => rfl
      rw [hv, List.nil_append, List.filter_cons, if_neg ht]
      rw [List.filter_cons, if_neg ht] at hd
      exact make_views (fun b hb => hf b (List.mem_cons_of_mem _ hb)) (fun b hb => hn b (List.mem_cons_of_mem _ hb)) hd (fun b hb => hh b (List.mem_cons_of_mem _ hb))
        (fun b hb => hi b (List.mem_cons_of_mem _ hb))

/-- **C61** (C++). The views can be made, if the matrices that are passed have the dimensions of the arguments, and the body then starts with what it expects. -/
theorem C61_cpp_views {args : List Argument} {input : String → Cell K} {wanted : String → Bool} (hd : (givenNames (.cpp true) args).Nodup)
    (hi : ∀ a ∈ args, a.direction = .input → ∀ r c, a.type = .matrix r c → ∃ l, input a.name = .mat r c l) :
    runViews (viewsOf args) (boundState (.cpp true) args wanted (args.map fun a => (a.name, paramObj (.cpp true) input wanted a))) =
      some (startState (.cpp true) args input wanted) := by
  have hd : (args.map (·.name) ++ (args.filter (·.type.isMatrix)).map fun a => "_" ++ a.name).Nodup := hd
  obtain ⟨h1, h2, h3⟩ := List.nodup_append.1 hd
  refine make_views (fun a ha _ => find_arg h1 ha) (fun a ha ht h => ?_) h2 (fun a ha hp => ?_) hi
  · have e : List.map Prod.fst (args.map fun a => (a.name, paramObj (.cpp true) input wanted a)) = args.map (·.name) := by rw [List.map_map]; rfl
    rw [e] at h
    exact h3 _ h _ (List.mem_map.2 ⟨a, List.mem_filter.2 ⟨ha, ht⟩, rfl⟩) rfl
  · exact find_arg (f := fun a => a.type.fresh) (h1.sublist (List.Sublist.map _ List.filter_sublist)) (List.mem_filter.2 ⟨ha, hp⟩)

/-! ## Python -/

/-- The conversion of an argument that is meant. -/
def pyConvSt (o : PyConfig) (a : Argument) : List St :=
  match a.direction, a.type with
  | .input, .matrix r c =>
    [.assign (.e (.atom a.name)) (.e (.app (.field (.app (.atom (o.expr.name "asarray")) [.atom a.name, .atom ("dtype=" ++ o.expr.name (o.expr.type .floating))]) "reshape")
      [.int r "", .int c ""]))]
  | .input, .scalar p => [.assign (.e (.atom a.name)) (.e (pyCastE o.expr p (.atom a.name)))]
  | _, _ => []

/-- The conversions that are meant. -/
def pyConvs (o : PyConfig) (args : List Argument) : List St := args.flatMap (pyConvSt o)

private theorem Row.indent {ts ws : Toks} (h : Row ts ws) (n : Nat) : Row (.indent n :: ts) ws :=
  ⟨.cons h.comment, by rw [words_indent, h.words], .cons rfl rfl h.bal, .cons rfl rfl rfl h.clean⟩

private theorem line_conversion (n : Nat) {x : String} {ts : Toks} {e : E} (h : Reads .python 7 (tokens .python ts) e) :
    ∃ ws, HasLines (.indent n :: .name x :: .sp :: .assign :: .sp :: ts) [(n, ws)] ∧ ReadsSimple .python ws (.assign (.e (.atom x)) (.e e)) := by
  have hr : Row (.indent n :: .name x :: .sp :: .assign :: .sp :: ts) (.name x :: .assign :: tokens .python ts) :=
    Row.indent (.cons (.sp (.cons (.sp (Row.expr h))))) n
  exact ⟨_, hr.line (by simp) rfl, .assign (ts := [.name x]) (.expr .name) (.expr (h.down (Nat.zero_le _) (Nat.le_refl _)))⟩

private theorem conversion_reads (o : PyConfig) (a : Argument) :
    (pyConversion o a = [] ∧ pyConvSt o a = []) ∨
      ∃ line ws s, pyConversion o a = line ++ [.nl] ∧ HasLines line [(o.indent, ws)] ∧ ReadsSimple .python ws s ∧ pyConvSt o a = [s] := by
  obtain ⟨n, t, d⟩ := a
  cases d with
  | output => exact .inl ⟨rfl, rfl⟩
  | optional => exact .inl ⟨rfl, rfl⟩
  | input =>
    have hn : Reads .python 7 (tokens .python [.name n]) (.atom n) := .name
    cases t with
    | custom _ => exact .inl ⟨rfl, rfl⟩
    | scalar p =>
      obtain ⟨ws, h1, h2⟩ := line_conversion o.indent (x := n) (reads_pyCast (o := o.expr) (t := p) hn (Nat.le_refl _))
      exact .inr ⟨_, ws, _, rfl, h1, h2, rfl⟩
    | matrix r c =>
      have h1 := reads_name_app (L := .python) (n := o.expr.name "asarray") (l := [[.name n], [.name ("dtype=" ++ o.expr.name (o.expr.type .floating))]])
        (.cons (hn.down (Nat.zero_le _) (Nat.le_refl _)) (.cons (Reads.down (k' := 7) .name (by omega) (by omega)) .nil))
      have h2 := Reads.app (us := [.int r "", .comma, .int c ""]) (Reads.field (s := "reshape") h1) (reads_two fun h => nomatch h)
      have h3 : Reads .python 7 (tokens .python [.name (o.expr.name "asarray"), .lpar, .name n, .comma, .sp, .name ("dtype=" ++ o.expr.name (o.expr.type .floating)), .rpar,
          .dot, .name "reshape", .lpar, .int r "", .comma, .sp, .int c "", .rpar])
          (.app (.field (.app (.atom (o.expr.name "asarray")) [.atom n, .atom ("dtype=" ++ o.expr.name (o.expr.type .floating))]) "reshape") [.int r "", .int c ""]) := by
        simpa [tokens, joinWith] using h2
      obtain ⟨ws, h4, h5⟩ := line_conversion o.indent (x := n) h3
      exact .inr ⟨_, ws, _, rfl, h4, h5, rfl⟩

private theorem conversions_read (o : PyConfig) {t : Toks} {ss : List St} (ht : ReadsLines o.indent (pyLines t) ss) :
    ∀ args : List Argument, ReadsLines o.indent (pyLines ((args.map (pyConversion o)).flatten ++ t)) (pyConvs o args ++ ss)
  | [] => ht
  | a :: as => by
    have ih := conversions_read o ht as
    rw [List.map_cons, List.flatten_cons, List.append_assoc, pyConvs, List.flatMap_cons, List.append_assoc]
    rcases conversion_reads o a with ⟨h1, h2⟩ | ⟨line, ws, s, h1, h2, h3, h4⟩
    · rw [h1, h2]; exact ih
    · rw [h1, h4, List.append_assoc]
      show ReadsLines _ (pyLines (line ++ .nl :: _)) _
      rw [pyLines, splitLines_append h2.1, List.filterMap_append]
      change ReadsLines _ (pyLines line ++ pyLines _) _
      rw [h2.2]
      exact .simple h3 ih

/-- **C61** (Python). A function is refused if there are output arguments and an output is not a matrix. Otherwise its text exists, unless the body is empty or
cannot be written in Python. -/
theorem C61_python_refusals (o : PyConfig) (args : List Argument) (body : List Stm) :
    (o.outputArguments = true → (∃ a ∈ args, a.direction ≠ .input ∧ ∀ r c, a.type ≠ .matrix r c) → pyDefinition o args body = none) ∧
      (pyDefinition o args body = none → body = [] ∨ pyBody o ((args.filter (·.direction ≠ .input)).map (·.name)) body = none ∨
        (o.outputArguments = true ∧ ∃ a ∈ args, a.direction ≠ .input ∧ ∀ r c, a.type ≠ .matrix r c)) := by
  have hm : ∀ t : VarType, (t.isMatrix = false ↔ ∀ r c, t ≠ .matrix r c) := by
    intro t
    cases t <;> simp [VarType.isMatrix]
  constructor
  · rintro hb ⟨a, ha, h1, h2⟩
    unfold pyDefinition
    rw [if_pos]
    have : pyRefuses o args = true := by
      unfold pyRefuses
      rw [hb, Bool.true_and, List.any_eq_true]
      exact ⟨a, ha, by simp [h1, (hm _).2 h2]⟩
    rw [this]; rfl
  · intro h
    unfold pyDefinition at h
    by_cases hr : (pyRefuses o args || body.isEmpty) = true
    · rcases Bool.or_eq_true _ _ ▸ hr with hr | hr
      · unfold pyRefuses at hr
        rw [Bool.and_eq_true, List.any_eq_true] at hr
        obtain ⟨hb, a, ha, h1⟩ := hr
        simp only [Bool.and_eq_true, decide_eq_true_eq, Bool.not_eq_true'] at h1
        exact .inr (.inr ⟨hb, a, ha, h1.1, (hm _).1 h1.2⟩)
      · exact .inl (List.isEmpty_iff.1 hr)
    · rw [if_neg hr] at h
      exact .inr (.inl (Option.map_eq_none_iff.1 h))

/-- **C61** (Python). The text after the signature is read as a block with the conversions of the inputs, in their order, and the statements of the body that
are meant. -/
theorem C61_python_definition_partial {o : PyConfig} {args : List Argument} {body : List Stm} {text : Toks} (hn : 0 < o.indent) (h : BodyFine .python body)
    (ht : pyDefinition o args body = some text) (hne : pyMeant o ((args.filter (·.direction ≠ .input)).map (·.name)) body ≠ []) :
    LinesReadAs o.indent text (pyConvs o args ++ pyMeant o ((args.filter (·.direction ≠ .input)).map (·.name)) body) := by
  unfold pyDefinition at ht
  by_cases hr : (pyRefuses o args || body.isEmpty) = true
  · rw [if_pos hr] at ht; cases ht
  rw [if_neg hr] at ht
  obtain ⟨t, h1, rfl⟩ := Option.map_eq_some_iff.1 ht
  obtain ⟨_, h2, _⟩ := C56_python_partial hn h h1 hne
  have key : ReadsLines o.indent (pyLines (.nl :: ((args.map (pyConversion o)).flatten ++ t)))
      (pyConvs o args ++ pyMeant o ((args.filter (·.direction ≠ .input)).map (·.name)) body) := by
    have := conversions_read o h2 args
    have e : pyLines (.nl :: ((args.map (pyConversion o)).flatten ++ t)) = pyLines ((args.map (pyConversion o)).flatten ++ t) := by
      have h0 := splitLines_append (d := 0) (a := []) (b := (args.map (pyConversion o)).flatten ++ t) rfl
      rw [List.nil_append] at h0
      rw [pyLines, h0]; rfl
    rw [e]; exact this
  exact ⟨fun e => hne (List.append_eq_nil_iff.1 e).2, key, fun ss' h' => key.unique h'⟩

private theorem put_distinct {α : Type} {n : String} {x : α} {l : List (String × α)} (h : (l.map Prod.fst).Nodup) :
    put n x l = l.map fun p => if p.1 = n then (n, x) else p := by
  induction l with
  | nil => rfl
  | cons p l ih =>
    rw [List.map_cons, List.nodup_cons] at h
    rw [put, List.map_cons]
    by_cases e : p.1 = n
    · rw [if_pos e, if_pos e]
      congr 1
      symm
      refine (List.map_congr_left fun q hq => ?_).trans (List.map_id _)
      rw [if_neg]; · rfl
      rintro rfl
      exact h.1 (e ▸ List.mem_map_of_mem hq)
    · rw [if_neg e, if_neg e, ih h.2]

variable {T : Scoping} {args : List Argument} {wanted : String → Bool}

private theorem startObjs_nodup {b : Bool} (hd : (givenNames (.python b) args).Nodup) (input : String → Cell K) :
    ((startObjs (.python b) args input wanted).map Prod.fst).Nodup := by
  cases b with
  | true =>
    have e : (startObjs (.python true) args input wanted).map Prod.fst = args.map (·.name) := by
      show List.map _ (List.map _ _) = _
      rw [List.map_map]; rfl
    rw [e]; exact hd
  | false =>
    refine hd.sublist ?_
    show List.Sublist (List.map _ (List.map _ _ ++ List.map _ _)) (args.map (·.name) ++ List.map _ _)
    rw [List.map_append, List.map_map, List.map_map]
    exact List.Sublist.append (List.Sublist.map _ List.filter_sublist) (List.Sublist.refl _)

private theorem find_distinct {α : Type} {n : String} {x : α} {l : List (String × α)} (h : (l.map Prod.fst).Nodup) (hm : (n, x) ∈ l) : find n l = some x := by
  induction l with
  | nil => cases hm
  | cons p l ih =>
    rw [List.map_cons, List.nodup_cons] at h
    rw [find]
    rcases List.mem_cons.1 hm with rfl | hm
    · rw [if_pos rfl]
    · rw [if_neg (by rintro rfl; exact h.1 (List.mem_map.2 ⟨_, hm, rfl⟩)), ih h.2 hm]

private theorem input_mem {b : Bool} {a : Argument} (ha : a ∈ args) (hi : a.direction = .input) (input : String → Cell K) :
    (a.name, .val (input a.name)) ∈ startObjs (.python b) args input wanted := by
  cases b with
  | true => exact List.mem_map.2 ⟨a, ha, by simp [paramObj, hi]⟩
  | false => exact List.mem_append.2 (.inl (List.mem_map.2 ⟨a, List.mem_filter.2 ⟨ha, by simp [hi]⟩, rfl⟩))

/-- A value of the inputs is replaced. -/
private def setInput (input : String → Cell K) (n : String) (x : Cell K) : String → Cell K := fun m => if m = n then x else input m

private theorem put_input {b : Bool} (hd : (givenNames (.python b) args).Nodup) {a : Argument} (ha : a ∈ args) (hi : a.direction = .input) (input : String → Cell K)
    (x : Cell K) : put a.name (.val x) (startObjs (.python b) args input wanted) = startObjs (.python b) args (setInput input a.name x) wanted := by
  rw [put_distinct (startObjs_nodup hd input)]
  have hnames : ∀ c ∈ args, c.name = a.name → c = a := by
    have h1 : (args.map (·.name)).Nodup := by
      cases b with
      | true => exact hd
      | false => exact (List.nodup_append.1 hd).1
    intro c hc e
    exact List.inj_on_of_nodup_map h1 hc ha e
  cases b with
  | true =>
    show List.map _ (List.map _ args) = List.map _ args
    rw [List.map_map]
    refine List.map_congr_left fun c hc => ?_
    by_cases e : c.name = a.name
    · obtain rfl := hnames c hc e
      simp [paramObj, hi, setInput]
    · have : paramObj (.python true) (setInput input a.name x) wanted c = paramObj (.python true) input wanted c := by
        unfold paramObj
        cases c.direction <;> simp [setInput, e]
      simp [e, this]
  | false =>
    show List.map _ (List.map _ _ ++ List.map _ _) = List.map _ _ ++ List.map _ _
    rw [List.map_append, List.map_map, List.map_map]
    congr 1
    · refine List.map_congr_left fun c hc => ?_
      by_cases e : c.name = a.name
      · simp [e, setInput]
      · simp [e, setInput]
    · refine List.map_congr_left fun c hc => ?_
      have hne : "compute_" ++ c.name ≠ a.name := fun e =>
        (List.nodup_append.1 hd).2.2 a.name (List.mem_map_of_mem ha) _ (List.mem_map.2 ⟨c, hc, rfl⟩) e.symm
      simp [hne]

private theorem startState_congr {b : Bool} {f g : String → Cell K} (h : ∀ a ∈ args, a.direction = .input → f a.name = g a.name) :
    startState (.python b) args f wanted = startState (.python b) args g wanted := by
  have : startObjs (.python b) args f wanted = startObjs (.python b) args g wanted := by
    cases b with
    | true =>
      refine List.map_congr_left fun a ha => ?_
      unfold paramObj
      cases hd : a.direction <;> simp [h a ha, hd]
    | false =>
      show List.map _ _ ++ _ = List.map _ _ ++ _
      congr 1
      refine List.map_congr_left fun a ha => ?_
      obtain ⟨ha, hd⟩ := List.mem_filter.1 ha
      rw [h a ha (by simpa using hd)]
  unfold startState
  rw [this]

section
variable [CommRing K] {M : Machine K}

private theorem convert_step {o : PyConfig} (ho : o.expr.target ≠ .pytorch) {mod : String} (hm : mod = o.expr.module)
    (hd : (givenNames (.python o.outputArguments) args).Nodup) (hp : ∀ a ∈ args, M.lit a.name = none) {a : Argument} (ha : a ∈ args) {input : String → Cell K} {x : Cell K}
    (hx : a.direction = .input → Converted M a.type (input a.name) x) {rest : List St} :
    runConversions M ⟨.python o.outputArguments, mod⟩ (pyConvSt o a ++ rest) (startState (.python o.outputArguments) args input wanted) =
      runConversions M ⟨.python o.outputArguments, mod⟩ rest (startState (.python o.outputArguments) args
        (if a.direction = .input then setInput input a.name x else input) wanted) := by
  cases hdir : a.direction with
  | output => simp [pyConvSt, hdir]
  | optional => simp [pyConvSt, hdir]
  | input =>
    have hx := hx hdir
    have hfind : find a.name (startObjs (.python o.outputArguments) args input wanted) = some (.val (input a.name)) :=
      find_distinct (startObjs_nodup hd input) (input_mem ha hdir input)
    have key : ∀ {e : E} {c : Cell K}, pyConvSt o a = [.assign (.e (.atom a.name)) (.e e)] →
        convCell M ⟨.python o.outputArguments, mod⟩ (startState (.python o.outputArguments) args input wanted) e = some c →
        runConversions M ⟨.python o.outputArguments, mod⟩ (pyConvSt o a ++ rest) (startState (.python o.outputArguments) args input wanted) =
          runConversions M ⟨.python o.outputArguments, mod⟩ rest (startState (.python o.outputArguments) args (setInput input a.name c) wanted) := by
      intro e c h1 h2
      have h3 : setVar (.python o.outputArguments) a.name (.val c) (startObjs (.python o.outputArguments) args input wanted) =
          some (startObjs (.python o.outputArguments) args (setInput input a.name c) wanted) := by
        unfold setVar
        rw [hfind]
        exact congrArg some (put_input hd ha hdir input c)
      rw [h1]
      show (match (convCell M _ _ e).bind fun c => setVar _ a.name (.val c) (startObjs (.python o.outputArguments) args input wanted) with
        | some vars => runConversions M _ rest _
        | none => none) = _
      rw [h2, Option.bind_some, h3]
      rfl
    rw [if_pos rfl]
    generalize hin : input a.name = y at hx hfind
    cases ht : a.type with
    | custom n =>
      rw [ht] at hx
      cases hx
      have e : pyConvSt o a = [] := by simp [pyConvSt, hdir, ht]
      rw [e, List.nil_append, startState_congr (g := setInput input a.name x)]
      intro c _ _
      unfold setInput
      by_cases e : c.name = a.name
      · rw [if_pos e, e, hin]
      · rw [if_neg e]
    | scalar p =>
      rw [ht] at hx
      cases hx with
      | @scalar _ z =>
        refine key (e := pyCastE o.expr p (.atom a.name)) (by simp [pyConvSt, hdir, ht]) ?_
        have hv : (E.atom a.name).value M ⟨.python o.outputArguments, mod⟩ (startState (.python o.outputArguments) args input wanted) = some z := by
          rw [E.value, hp a ha]
          show (find a.name (startObjs (.python o.outputArguments) args input wanted)).bind _ = _
          rw [hfind]; rfl
        have hc := py_cast (S := ⟨.python o.outputArguments, mod⟩) rfl ho hm (p := p) hv
        have e : pyCastE o.expr p (.atom a.name) = .app (.atom (o.expr.name (o.expr.type p))) [.atom a.name] := if_neg ho
        rw [e] at hc ⊢
        show ((E.app (.atom (o.expr.name (o.expr.type p))) [.atom a.name]).value M _ _).map Cell.num = _
        rw [hc]; rfl
    | matrix r c =>
      rw [ht] at hx
      cases hx with
      | @matrix _ _ r' c' xs hrc =>
        refine key (e := .app (.field (.app (.atom (o.expr.name "asarray")) [.atom a.name, .atom ("dtype=" ++ o.expr.name (o.expr.type .floating))]) "reshape")
          [.int r "", .int c ""]) (by simp [pyConvSt, hdir, ht]) ?_
        have hf : find ("dtype=" ++ o.expr.name (o.expr.type .floating)) ((inModule mod (numberTypes .python)).map fun p => ("dtype=" ++ p.1, p.2)) = some .floating := by
          rw [hm]
          unfold PyOptions.name PyOptions.type
          rcases module_cases ho with e | e <;> rw [e] <;> cases o.expr.wide <;> rfl
        show (match find a.name (startObjs (.python o.outputArguments) args input wanted), some (r, c), find ("dtype=" ++ o.expr.name (o.expr.type .floating))
            ((inModule mod (numberTypes .python)).map fun p => ("dtype=" ++ p.1, p.2)) with
          | some (.val (.mat r' c' xs)), some (r, c), some p =>
            if o.expr.name "asarray" = mod ++ ".asarray" ∧ "reshape" = "reshape" ∧ r' * c' = r * c then some (Cell.mat r c (xs.map (M.cast p))) else none
          | _, _, _ => none) = _
        rw [hfind, hf]
        simp only
        rw [if_pos]
        refine ⟨?_, trivial, hrc⟩
        rw [hm]
        unfold PyOptions.name
        rcases module_cases ho with e | e <;> rw [e] <;> rfl

/-- **C61** (Python). The conversions turn the inputs that are passed into numbers and arrays of the types of the arguments (`Converted`), and the body then
starts with what it expects. -/
theorem C61_python_conversions {o : PyConfig} (ho : o.expr.target ≠ .pytorch) (hd : (givenNames (.python o.outputArguments) args).Nodup)
    (hp : ∀ a ∈ args, M.lit a.name = none) {input input' : String → Cell K} (hx : ∀ a ∈ args, a.direction = .input → Converted M a.type (input a.name) (input' a.name)) :
    runConversions M ⟨.python o.outputArguments, o.expr.module⟩ (pyConvs o args)
        (boundState (.python o.outputArguments) args wanted (startObjs (.python o.outputArguments) args input wanted)) =
      some (startState (.python o.outputArguments) args input' wanted) := by
  have hnames : (args.map (·.name)).Nodup := by
    cases hb : o.outputArguments with
    | true => rw [hb] at hd; exact hd
    | false => rw [hb] at hd; exact (List.nodup_append.1 hd).1
  have key : ∀ (l : List Argument) (cur : String → Cell K), (∀ a ∈ l, a ∈ args) → (l.map (·.name)).Nodup →
      (∀ a ∈ l, a.direction = .input → cur a.name = input a.name) → (∀ a ∈ args, a ∉ l → a.direction = .input → cur a.name = input' a.name) →
      runConversions M ⟨.python o.outputArguments, o.expr.module⟩ (pyConvs o l) (startState (.python o.outputArguments) args cur wanted) =
        some (startState (.python o.outputArguments) args input' wanted) := by
    intro l
    induction l with
    | nil =>
      intro cur _ _ _ h
      exact congrArg some (startState_congr fun a ha => h a ha List.not_mem_nil)
    | cons a l ih =>
      intro cur h1 h2 h3 h4
      have ha := h1 a List.mem_cons_self
      rw [List.map_cons, List.nodup_cons] at h2
      rw [pyConvs, List.flatMap_cons, convert_step ho rfl hd hp ha (x := input' a.name) (fun hi => by rw [h3 a List.mem_cons_self hi]; exact hx a ha hi)]
      refine ih _ (fun c hc => h1 c (List.mem_cons_of_mem _ hc)) h2.2 (fun c hc hi => ?_) fun c hc hn hi => ?_
      · have hne : c.name ≠ a.name := fun e => h2.1 (e ▸ List.mem_map_of_mem hc)
        rw [← h3 c (List.mem_cons_of_mem _ hc) hi]
        by_cases hda : a.direction = .input
        · rw [if_pos hda]; exact if_neg hne
        · rw [if_neg hda]
      · by_cases e : c.name = a.name
        · obtain rfl := List.inj_on_of_nodup_map hnames hc ha e
          rw [if_pos hi]; exact if_pos rfl
        · have hca : c ∉ a :: l := fun h => by
            rcases List.mem_cons.1 h with rfl | h
            · exact e rfl
            · exact hn h
          rw [← h4 c hc hca hi]
          by_cases hda : a.direction = .input
          · rw [if_pos hda]; exact if_neg e
          · rw [if_neg hda]
  exact key args input (fun _ h => h) hnames (fun _ _ _ => rfl) fun a ha hn => absurd ha hn

end

/-! ## Examples -/

/-- The views of the example are `_x`, `_z` and `_J`. -/
example : ∃ text, cppDefinition true sigExample.args stmBody = some text ∧ ViewsReadAs text
    [⟨"_x", "wf::make_input_span<2, 1>", "x"⟩, ⟨"_z", "wf::make_output_span<2, 1>", "z"⟩, ⟨"_J", "wf::make_optional_output_span<2, 2>", "J"⟩] (stmsCppSt true stmBody) := by
  obtain ⟨text, ht⟩ : ∃ text, cppDefinition true sigExample.args stmBody = some text := ⟨_, rfl⟩
  exact ⟨text, ht, C61_cpp_definition_partial true sigExample.args (stmBody_fine _) ht⟩

example (wanted : String → Bool) : ∃ s : State ℤ, runViews (viewsOf sigExample.args) (boundState (.cpp true) sigExample.args wanted (sigExample.args.map fun a =>
    (a.name, paramObj (.cpp true) (fun n => if n = "x" then Cell.mat 2 1 [5, 6] else .num 7) wanted a))) = some s ∧ find "_x" s.vars = some (.val (.mat 2 1 [5, 6])) := by
  refine ⟨_, C61_cpp_views (by decide) fun a ha hi r c ht => ?_, rfl⟩
  simp only [sigExample, List.mem_cons, List.not_mem_nil, or_false] at ha
  rcases ha with rfl | rfl | rfl | rfl
  · cases ht; exact ⟨[5, 6], rfl⟩
  · cases ht
  · cases hi
  · cases hi

example (e : PyOptions) : ∃ text, pyDefinition ⟨e, 4, false⟩ sigExample.args stmBody = some text ∧
    LinesReadAs 4 text (pyConvs ⟨e, 4, false⟩ sigExample.args ++ pyMeant ⟨e, 4, false⟩ ["z", "J"] stmBody) ∧ (pyConvs ⟨e, 4, false⟩ sigExample.args).length = 2 := by
  have h : throwPython ⟨e, 4, false⟩ (splitReturn stmBody).1 = false := rfl
  obtain ⟨text, ht⟩ : ∃ text, pyDefinition ⟨e, 4, false⟩ sigExample.args stmBody = some text := ⟨_, by
    unfold pyDefinition
    rw [if_neg (by simp [pyRefuses, stmBody])]
    exact congrArg (Option.map _) (if_neg (by simp [h]))⟩
  exact ⟨text, ht, C61_python_definition_partial (o := ⟨e, 4, false⟩) (Nat.zero_lt_succ 3) (stmBody_fine _) ht
    (by simp [pyMeant, stmBody, splitReturn, stmsPythonSt, Stm.pythonSt]), rfl⟩

/-- A row that is passed for a column is reshaped. -/
example (M : Machine ℤ) (hM : ∀ a ∈ sigExample.args, M.lit a.name = none) (wanted : String → Bool) :
    ∃ s, runConversions M ⟨.python true, "np"⟩ (pyConvs ⟨⟨.numpy, true⟩, 4, true⟩ sigExample.args) (boundState (.python true) sigExample.args wanted
      (startObjs (.python true) sigExample.args (fun n => if n = "x" then Cell.mat 1 2 [5, 6] else .num 7) wanted)) = some s ∧
      find "x" s.vars = some (.val (.mat 2 1 [M.cast .floating 5, M.cast .floating 6])) := by
  refine ⟨_, C61_python_conversions (o := ⟨⟨.numpy, true⟩, 4, true⟩) (by decide) (by decide) hM
    (input' := fun n => if n = "x" then Cell.mat 2 1 [M.cast .floating 5, M.cast .floating 6] else .num (M.cast .floating 7)) fun a ha hi => ?_, rfl⟩
  simp only [sigExample, List.mem_cons, List.not_mem_nil, or_false] at ha
  rcases ha with rfl | rfl | rfl | rfl
  · exact .matrix (xs := [5, 6]) rfl
  · exact .scalar
  · cases hi
  · cases hi

end Wf.Gen.Text
