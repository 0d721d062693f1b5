import Verif.Gen.SigLemmas

/-!
# C61: signatures

The signature that is generated is read as a function with the arguments of the description, in their order; a call binds each of them as the body needs it.
See `SigSpec.lean` for reading signatures and for calls.
-/

namespace Wf.Gen.Text

variable {K : Type}

/-! ## C++ -/

private def cppPass (span : Bool) (a : Argument) : Pass :=
  match a.type, a.direction with
  | .matrix _ _, .input => .constRef
  | .matrix _ _, .output => if span then .forward else .ref
  | .matrix _ _, .optional => if span then .forward else .pointer
  | .scalar _, .input => .value
  | .custom _, .input => .constRef
  | _, .output => .ref
  | _, .optional => .pointer

private theorem read_cppParam (span : Bool) (i : Nat) {a : Argument} (h : a.name ∉ keywords .cpp) :
    readCppParam (cppParam span i a) = some ⟨a.name, cppTypeOf span i a, cppPass span a⟩ := by
  obtain ⟨n, t, d⟩ := a
  have hn := nameOf_word h
  cases t <;> cases d <;> cases span <;> simp [cppParam, readCppParam, cppTypeOf, cppPass, VarType.isMatrix, hn] <;> simpa using hn

private theorem cppParam_plain (span : Bool) (i : Nat) (a : Argument) : .sym "," ∉ cppParam span i a ∧ cppParam span i a ≠ [] ∧ .sym ")" ∉ cppParam span i a := by
  obtain ⟨n, t, d⟩ := a
  cases t <;> cases d <;> cases span <;> simp [cppParam]

private theorem typeParam_plain (i : Nat) : typeParam i ∉ keywords .cpp := by
  intro h
  have h0 : (typeParam i).toList.head? = some 'T' := by
    unfold typeParam
    rw [String.toList_append]; rfl
  have : ∀ k ∈ keywords .cpp, k.toList.head? ≠ some 'T' := by decide
  exact this _ h h0

private theorem cppReturns_eq {span : Bool} {t : Option VarType} {r : String} (h : cppReturns span t = some r) : r = (t.map VarType.cpp).getD "void" := by
  cases t with
  | none => exact (Option.some.inj h).symm
  | some t =>
    dsimp only [cppReturns] at h
    split at h
    · cases h
    · exact (Option.some.inj h).symm

/-- **C61** for C++. The text of the signature is read as a function with the name, the type that is returned, and the arguments with their types in their
order. Values passed in this order are bound as the body needs them: inputs cannot be changed, outputs are objects of the caller, optional outputs can be left
out. Conditions: the names are no keywords, and different from each other and from the parameters of the template. -/
theorem C61_cpp_partial (span : Bool) (s : FnSignature) {text : List Lex} (h : cppSignature span s = some text) (hk : Speakable .cpp s)
    (hd : (cppTypeParams span s.args ++ s.args.map (·.name)).Nodup) :
    ∃ f, readCpp text = some f ∧ f.name = s.name ∧ f.typeParams = cppTypeParams span s.args ∧ f.returns = [.word ((s.returns.map VarType.cpp).getD "void")] ∧
      f.params.map (·.name) = s.args.map (·.name) ∧ f.params.map (·.type) = (enumerate s.args).map (fun p => cppTypeOf span p.1 p.2) ∧
      ∀ (input : String → Cell K) (wanted : String → Bool),
        bindParams f.params (actuals (.cpp span) input wanted s.args) = some (s.args.map fun a => (a.name, paramObj (.cpp span) input wanted a)) := by
  obtain ⟨r, hr, rfl⟩ := Option.map_eq_some_iff.1 h
  let params := (enumerate s.args).map fun p => (⟨p.2.name, cppTypeOf span p.1 p.2, cppPass span p.2⟩ : Param)
  have hnames : params.map (·.name) = s.args.map (·.name) := by
    rw [← enumerate_map s.args (·.name), List.map_map]; rfl
  refine ⟨⟨s.name, cppTypeParams span s.args, [.word r], params⟩, ?_, rfl, rfl, by rw [cppReturns_eq hr], hnames, by rw [List.map_map]; rfl, ?_⟩
  · have e1 : breakLex (.sym ">") (joinLex ((cppTypeParams span s.args).map fun t => [Lex.word "typename", .word t]) ++ .sym ">" :: (.word r :: .word s.name :: .sym "(" ::
        (joinLex ((enumerate s.args).map fun p => cppParam span p.1 p.2) ++ .sym ")" :: []))) = some (_, _) := breakLex_append (by
      intro hm
      rcases mem_joinLex hm with hm | ⟨x, hx, hm⟩
      · exact absurd hm (by decide)
      · obtain ⟨t, _, rfl⟩ := List.mem_map.1 hx
        simp at hm) _
    have e2 : breakLex (.sym ")") (joinLex ((enumerate s.args).map fun p => cppParam span p.1 p.2) ++ .sym ")" :: []) = some (_, _) := breakLex_append (by
      intro hm
      rcases mem_joinLex hm with hm | ⟨x, hx, hm⟩
      · exact absurd hm (by decide)
      · obtain ⟨t, _, rfl⟩ := List.mem_map.1 hx
        exact (cppParam_plain _ _ _).2.2 hm) _
    have e3 : readAll readTypeParam (partsLex (joinLex ((cppTypeParams span s.args).map fun t => [Lex.word "typename", .word t]))) = some (cppTypeParams span s.args) := by
      rw [partsLex_join (by
        intro x hx
        obtain ⟨t, _, rfl⟩ := List.mem_map.1 hx
        simp)]
      have := readAll_map (f := readTypeParam) (g := fun t => [Lex.word "typename", .word t]) (k := id) (l := cppTypeParams span s.args) (by
        intro t ht
        have : t ∉ keywords .cpp := by
          unfold cppTypeParams at ht
          rcases List.mem_cons.1 ht with rfl | ht
          · decide
          · cases span
            · cases ht
            · obtain ⟨p, _, rfl⟩ := List.mem_map.1 ht
              exact typeParam_plain _
        simp [readTypeParam, nameOf_word this])
      simpa using this
    have e4 : readAll readCppParam (partsLex (joinLex ((enumerate s.args).map fun p => cppParam span p.1 p.2))) = some params := by
      rw [partsLex_join (by
        intro x hx
        obtain ⟨t, _, rfl⟩ := List.mem_map.1 hx
        exact ⟨(cppParam_plain _ _ _).1, (cppParam_plain _ _ _).2.1⟩)]
      exact readAll_map fun p hp => read_cppParam span p.1 (hk.2 _ (mem_enumerate hp))
    have e5 : (cppTypeParams span s.args ++ params.map (·.name)).Nodup := by rw [hnames]; exact hd
    have e6 : ∀ a b : List Lex, readCpp (.word "template" :: .sym "<" :: (a ++ .sym ">" :: (.word r :: .word s.name :: .sym "(" :: b))) =
      match breakLex (.sym ">") (a ++ .sym ">" :: (.word r :: .word s.name :: .sym "(" :: b)) with
      | some (ts, .word r :: n :: .sym "(" :: ps) =>
        match breakLex (.sym ")") ps with
        | some (ps, []) =>
          match readAll readTypeParam (partsLex ts), nameOf .cpp n, readAll readCppParam (partsLex ps) with
          | some ts, some n, some ps => if (ts ++ ps.map (·.name)).Nodup then some ⟨n, ts, [.word r], ps⟩ else none
          | _, _, _ => none
        | _ => none
      | _ => none := fun a b => rfl
    have e7 : [Lex.word "template", .sym "<"] ++ joinLex ((cppTypeParams span s.args).map fun t => [Lex.word "typename", .word t]) ++ [.sym ">", .word r, .word s.name, .sym "("] ++
        joinLex ((enumerate s.args).map fun p => cppParam span p.1 p.2) ++ [.sym ")"] =
        .word "template" :: .sym "<" :: (joinLex ((cppTypeParams span s.args).map fun t => [Lex.word "typename", .word t]) ++ .sym ">" :: (.word r :: .word s.name :: .sym "(" ::
        (joinLex ((enumerate s.args).map fun p => cppParam span p.1 p.2) ++ .sym ")" :: []))) := by simp
    rw [e7, e6, e1]
    simp only [e2, e3, e4, nameOf_word hk.1]
    rw [if_pos e5]
  · intro input wanted
    have hb := bindParams_map (K := K) (l := enumerate s.args) (p := fun p => (⟨p.2.name, cppTypeOf span p.1 p.2, cppPass span p.2⟩ : Param))
      (a := fun p => p.2.actual input wanted) (o := fun p => paramObj (.cpp span) input wanted p.2) (by
        rintro ⟨i, n, t, d⟩ _
        cases t <;> cases d <;> cases span <;> simp only [cppPass, Argument.actual, paramObj] <;> first | rfl | (cases wanted n <;> rfl))
    rw [enumerate_map s.args (Argument.actual input wanted)] at hb
    refine hb.trans ?_
    exact congrArg some (enumerate_map s.args fun a => (a.name, paramObj (.cpp span) input wanted a))

/-! ## Rust -/

private def rustPass (a : Argument) : Pass :=
  match a.type, a.direction with
  | .scalar _, .input => .value
  | _, .input => .borrow
  | _, .output => .borrowMut
  | _, .optional => .optionMut

private theorem read_rustParam (i : Nat) {a : Argument} (h : a.name ∉ keywords .rust) :
    readRustParam (rustParam i a) = some ⟨a.name, rustTypeOf i a, rustPass a⟩ := by
  obtain ⟨n, t, d⟩ := a
  have hn := nameOf_word h
  cases t <;> cases d <;> simp [rustParam, readRustParam, rustTypeOf, rustPass, VarType.isMatrix, hn] <;> simpa using hn

private theorem rustParam_plain (i : Nat) (a : Argument) : .sym "," ∉ rustParam i a ∧ rustParam i a ≠ [] ∧ .sym ")" ∉ rustParam i a := by
  obtain ⟨n, t, d⟩ := a
  cases t <;> cases d <;> simp [rustParam]

private theorem typeParam_plain_rust (i : Nat) : typeParam i ∉ keywords .rust := by
  intro h
  have h0 : (typeParam i).toList.head? = some 'T' := by
    unfold typeParam
    rw [String.toList_append]; rfl
  have : ∀ k ∈ keywords .rust, k.toList.head? ≠ some 'T' := by decide
  exact this _ h h0

private theorem splitLex_ended {l : List String} : splitLex ((l.map fun t => [Lex.word t, .sym ","]).flatten) = l.map (fun t => [Lex.word t]) ++ [[]] := by
  induction l with
  | nil => rfl
  | cons t ts ih =>
    rw [List.map_cons, List.flatten_cons]
    refine (splitLex_append (x := [Lex.word t]) (by simp) _).trans ?_
    exact congrArg ([Lex.word t] :: ·) ih

private theorem endedLex_map (l : List String) : endedLex ((l.map fun t => [Lex.word t, .sym ","]).flatten) = some (l.map fun t => [Lex.word t]) := by
  unfold endedLex
  cases l with
  | nil => rfl
  | cons t ts =>
    rw [if_neg (by simp), splitLex_ended, List.reverse_append]
    simp

private def boundOf (p : Nat × Argument) : Bound :=
  match p.2.type with
  | .matrix r c => ⟨typeParam p.1, traitFor p.2.direction, r, c⟩
  | _ => ⟨"", "", 0, 0⟩

private theorem readBounds_map {l : List (Nat × Argument)} (h : ∀ p ∈ l, p.2.type.isMatrix = true) :
    ∀ k, l.length ≤ k → readBounds k ((l.map fun p => rustBound p.1 p.2).flatten) = some (l.map boundOf) := by
  induction l with
  | nil => intro k _; cases k <;> rfl
  | cons p ps ih =>
    intro k hk
    obtain ⟨i, n, t, d⟩ := p
    have ht := h _ List.mem_cons_self
    cases k with
    | zero => cases hk
    | succ k =>
      cases t with
      | matrix r c =>
        have := ih (fun q hq => h q (List.mem_cons_of_mem _ hq)) k (Nat.le_of_succ_le_succ hk)
        rw [List.map_cons, List.flatten_cons]
        show (if _ = _ then (readBounds k _).map _ else none) = _
        rw [if_pos rfl]
        refine (congrArg _ this).trans ?_
        cases d <;> rfl
      | scalar _ => cases ht
      | custom _ => cases ht

private theorem bounds_length {l : List (Nat × Argument)} (h : ∀ p ∈ l, p.2.type.isMatrix = true) :
    l.length ≤ ((l.map fun p => rustBound p.1 p.2).flatten).length := by
  induction l with
  | nil => simp
  | cons p ps ih =>
    have := ih fun q hq => h q (List.mem_cons_of_mem _ hq)
    obtain ⟨i, n, t, d⟩ := p
    have ht := h _ List.mem_cons_self
    cases t with
    | matrix r c =>
      rw [List.map_cons, List.flatten_cons, List.length_append, List.length_cons]
      show _ ≤ 13 + _
      omega
    | scalar _ => cases ht
    | custom _ => cases ht

private theorem matrixArgs_matrix {args : List Argument} {p : Nat × Argument} (h : p ∈ matrixArgs args) : p.2.type.isMatrix = true := (List.mem_filter.1 h).2

private theorem typeParams_nodup (args : List Argument) : ((matrixArgs args).map fun p => typeParam p.1).Nodup := by
  have h1 : ((enumerate args).map Prod.fst).Nodup := by
    unfold enumerate
    rw [List.map_fst_zip (by simp)]
    exact List.nodup_range
  have h2 : ((matrixArgs args).map Prod.fst).Nodup := h1.sublist (List.Sublist.map _ List.filter_sublist)
  have : ((matrixArgs args).map fun p => typeParam p.1) = ((matrixArgs args).map Prod.fst).map typeParam := by rw [List.map_map]; rfl
  rw [this]
  exact List.Pairwise.map _ (fun a b hab he => hab (typeParam_inj he)) h2

private theorem rustReturns_eq {t : Option VarType} {r : List Lex} (h : rustReturns t = some r) :
    r = (t.map fun t => [Lex.word t.rust]).getD [.sym "(", .sym ")"] := by
  cases t with
  | none => exact (Option.some.inj h).symm
  | some t =>
    dsimp only [rustReturns] at h
    split at h
    · cases h
    · exact (Option.some.inj h).symm

/-- **C61** for Rust. The text of the signature is read as a function with the name, the type that is returned, and the arguments with their types in their
order; each matrix has a type of its own, constrained to its rows and columns and to the trait for reading or writing. Values passed in this order are bound as
the body needs them. Conditions: the names are no keywords, and different from each other. -/
theorem C61_rust_partial (s : FnSignature) {text : List Lex} (h : rustSignature s = some text) (hk : Speakable .rust s) (hd : (s.args.map (·.name)).Nodup) :
    ∃ f bs, readRust text = some (f, bs) ∧ f.name = s.name ∧ f.returns = (s.returns.map fun t => [Lex.word t.rust]).getD [.sym "(", .sym ")"] ∧
      f.params.map (·.name) = s.args.map (·.name) ∧ f.params.map (·.type) = (enumerate s.args).map (fun p => rustTypeOf p.1 p.2) ∧ f.typeParams.Nodup ∧
      (∀ i a r c, (i, a) ∈ enumerate s.args → a.type = .matrix r c → ⟨typeParam i, traitFor a.direction, r, c⟩ ∈ bs ∧ typeParam i ∈ f.typeParams) ∧
      ∀ (input : String → Cell K) (wanted : String → Bool),
        bindParams f.params (actuals .rust input wanted s.args) = some (s.args.map fun a => (a.name, paramObj .rust input wanted a)) := by
  obtain ⟨r, hr, rfl⟩ := Option.map_eq_some_iff.1 h
  let params := (enumerate s.args).map fun p => (⟨p.2.name, rustTypeOf p.1 p.2, rustPass p.2⟩ : Param)
  let ts := (matrixArgs s.args).map fun p => typeParam p.1
  let bs := (matrixArgs s.args).map boundOf
  have hnames : params.map (·.name) = s.args.map (·.name) := by
    rw [← enumerate_map s.args (·.name), List.map_map]; rfl
  have hts : ts.Nodup := typeParams_nodup s.args
  have hbs : bs.map (·.type) = ts := by
    show ((matrixArgs s.args).map boundOf).map _ = (matrixArgs s.args).map _
    rw [List.map_map]
    apply List.map_congr_left
    rintro ⟨i, n, t, d⟩ hp
    have ht := matrixArgs_matrix hp
    cases t with
    | matrix r c => rfl
    | scalar _ => cases ht
    | custom _ => cases ht
  refine ⟨⟨s.name, ts, r, params⟩, bs, ?_, rfl, rustReturns_eq hr, hnames, by rw [List.map_map]; rfl, hts, ?_, ?_⟩
  · have e0 : ((matrixArgs s.args).map fun p => [Lex.word (typeParam p.1), .sym ","]).flatten = (ts.map fun t => [Lex.word t, .sym ","]).flatten := by
      show _ = (List.map _ (List.map _ _)).flatten
      rw [List.map_map]; rfl
    let tail := r ++ if (matrixArgs s.args).isEmpty then [] else .word "where" :: ((matrixArgs s.args).map fun p => rustBound p.1 p.2).flatten
    have e1 : breakLex (.sym ">") ((ts.map fun t => [Lex.word t, .sym ","]).flatten ++ .sym ">" :: (.sym "(" ::
        (joinLex ((enumerate s.args).map fun p => rustParam p.1 p.2) ++ .sym ")" :: (.sym "->" :: tail)))) = some (_, _) := breakLex_append (by
      intro hm
      obtain ⟨x, hx, hm⟩ := List.mem_flatten.1 hm
      obtain ⟨t, _, rfl⟩ := List.mem_map.1 hx
      simp at hm) _
    have e2 : breakLex (.sym ")") (joinLex ((enumerate s.args).map fun p => rustParam p.1 p.2) ++ .sym ")" :: (.sym "->" :: tail)) = some (_, _) := breakLex_append (by
      intro hm
      rcases mem_joinLex hm with hm | ⟨x, hx, hm⟩
      · exact absurd hm (by decide)
      · obtain ⟨t, _, rfl⟩ := List.mem_map.1 hx
        exact (rustParam_plain _ _).2.2 hm) _
    have e3 : (endedLex ((ts.map fun t => [Lex.word t, .sym ","]).flatten)).bind (readAll readRustType) = some ts := by
      rw [endedLex_map]
      have := readAll_map (f := readRustType) (g := fun t => [Lex.word t]) (k := id) (l := ts) (by
        intro t ht
        obtain ⟨p, _, rfl⟩ := List.mem_map.1 ht
        exact nameOf_word (typeParam_plain_rust _))
      simpa using this
    have e4 : readAll readRustParam (partsLex (joinLex ((enumerate s.args).map fun p => rustParam p.1 p.2))) = some params := by
      rw [partsLex_join (by
        intro x hx
        obtain ⟨t, _, rfl⟩ := List.mem_map.1 hx
        exact ⟨(rustParam_plain _ _).1, (rustParam_plain _ _).2.1⟩)]
      exact readAll_map fun p hp => read_rustParam p.1 (hk.2 _ (mem_enumerate hp))
    have e5 : readRustEnd (.sym "->" :: tail) = some (r, bs) := by
      have hb := readBounds_map (l := matrixArgs s.args) (fun p hp => matrixArgs_matrix hp) _ (bounds_length fun p hp => matrixArgs_matrix hp)
      have key : r = [.sym "(", .sym ")"] ∨ ∃ t, r = [.word t] := by
        unfold rustReturns at hr
        split at hr
        · exact .inl (Option.some.inj hr).symm
        · split at hr
          · cases hr
          · exact .inr ⟨_, (Option.some.inj hr).symm⟩
      show readRustEnd (.sym "->" :: (r ++ if (matrixArgs s.args).isEmpty then [] else _)) = some (r, (matrixArgs s.args).map boundOf)
      cases hm : matrixArgs s.args with
      | nil => rcases key with rfl | ⟨t, rfl⟩ <;> rfl
      | cons p ps =>
        rw [hm] at hb
        rcases key with rfl | ⟨t, rfl⟩
        · show Option.map _ (readBounds _ _) = _
          rw [hb]; rfl
        · show Option.map _ (readBounds _ _) = _
          rw [hb]; rfl
    have e6 : ∀ (n : String) (a b : List Lex), readRust (.word "pub" :: .word "fn" :: .word n :: .sym "<" :: (a ++ .sym ">" :: (.sym "(" :: b))) =
      match breakLex (.sym ">") (a ++ .sym ">" :: (.sym "(" :: b)) with
      | some (ts, .sym "(" :: ps) =>
        match breakLex (.sym ")") ps with
        | some (ps, rest) =>
          match (endedLex ts).bind (readAll readRustType), nameOf .rust (.word n), readAll readRustParam (partsLex ps), readRustEnd rest with
          | some ts, some n, some ps, some (r, bs) =>
            if ts.Nodup ∧ (ps.map (·.name)).Nodup ∧ bs.map (·.type) = ts then some (⟨n, ts, r, ps⟩, bs) else none
          | _, _, _, _ => none
        | _ => none
      | _ => none := fun n a b => rfl
    have e7 : [Lex.word "pub", .word "fn", .word s.name, .sym "<"] ++ ((matrixArgs s.args).map fun p => [Lex.word (typeParam p.1), .sym ","]).flatten ++ [.sym ">", .sym "("] ++
        joinLex ((enumerate s.args).map fun p => rustParam p.1 p.2) ++ [.sym ")", .sym "->"] ++ r ++
        (if (matrixArgs s.args).isEmpty then [] else .word "where" :: ((matrixArgs s.args).map fun p => rustBound p.1 p.2).flatten) =
        .word "pub" :: .word "fn" :: .word s.name :: .sym "<" :: ((ts.map fun t => [Lex.word t, .sym ","]).flatten ++ .sym ">" :: (.sym "(" ::
        (joinLex ((enumerate s.args).map fun p => rustParam p.1 p.2) ++ .sym ")" :: (.sym "->" :: tail)))) := by rw [e0]; simp [tail]
    rw [e7, e6, e1]
    simp only [e2, e3, e4, e5, nameOf_word hk.1]
    rw [if_pos ⟨hts, by rw [hnames]; exact hd, hbs⟩]
  · intro i a r c hm ht
    have hp : (i, a) ∈ matrixArgs s.args := List.mem_filter.2 ⟨hm, by rw [ht]; rfl⟩
    refine ⟨?_, List.mem_map.2 ⟨_, hp, rfl⟩⟩
    refine List.mem_map.2 ⟨_, hp, ?_⟩
    simp only [boundOf, ht]
  · intro input wanted
    have hb := bindParams_map (K := K) (l := enumerate s.args) (p := fun p => (⟨p.2.name, rustTypeOf p.1 p.2, rustPass p.2⟩ : Param))
      (a := fun p => p.2.actual input wanted) (o := fun p => paramObj .rust input wanted p.2) (by
        rintro ⟨i, n, t, d⟩ _
        cases t <;> cases d <;> simp only [rustPass, Argument.actual, paramObj] <;> first | rfl | (cases wanted n <;> rfl))
    rw [enumerate_map s.args (Argument.actual input wanted)] at hb
    refine hb.trans ?_
    exact congrArg some (enumerate_map s.args fun a => (a.name, paramObj .rust input wanted a))

/-! ## Python -/

private theorem pairwise_all {α : Type} {R : α → α → Prop} {l : List α} (h : ∀ a ∈ l, ∀ b ∈ l, R a b) : l.Pairwise R := by
  induction l with
  | nil => exact .nil
  | cons a l ih =>
    exact .cons (fun b hb => h a List.mem_cons_self b (List.mem_cons_of_mem _ hb))
      (ih fun x hx y hy => h x (List.mem_cons_of_mem _ hx) y (List.mem_cons_of_mem _ hy))

private theorem defaultsLast_iff (l : List Bool) : defaultsLast l = true ↔ l.Pairwise fun a b => a = true → b = true := by
  induction l with
  | nil => simp [defaultsLast]
  | cons b l ih =>
    cases b with
    | false => simp [defaultsLast, ih]
    | true =>
      simp only [defaultsLast, List.all_eq_true, id, List.pairwise_cons, true_implies]
      refine ⟨fun h => ⟨h, ?_⟩, fun h => h.1⟩
      exact pairwise_all fun a _ b hb _ => h b hb

private def pyKept (o : PyConfig) (a : Argument) : Bool := o.outputArguments || decide (a.direction ≠ .output)

private def pyName (o : PyConfig) (a : Argument) : String := if o.outputArguments = false ∧ a.direction = .optional then "compute_" ++ a.name else a.name

private def pyMean (o : PyConfig) (a : Argument) : Param × Bool :=
  (⟨pyName o a, if o.outputArguments = false ∧ a.direction = .optional then "bool" else a.type.python o.expr, .object⟩, o.outputArguments && decide (a.direction = .optional))

private theorem filterMap_kept (o : PyConfig) (args : List Argument) : args.filterMap (pyParam o) = (args.filter (pyKept o)).map fun a => (pyParam o a).getD [] := by
  induction args with
  | nil => rfl
  | cons a as ih =>
    rw [List.filterMap_cons, List.filter_cons, ih]
    obtain ⟨n, t, d⟩ := a
    cases hb : o.outputArguments <;> cases d <;> simp [pyParam, pyKept, hb]

private theorem compute_plain (n : String) : "compute_" ++ n ∉ keywords .python := by
  intro h
  have h0 : ("compute_" ++ n).toList.take 8 = "compute_".toList := by rw [String.toList_append]; rfl
  have : ∀ k ∈ keywords .python, k.toList.take 8 ≠ "compute_".toList := by decide
  exact this _ h h0

private theorem read_pyParam (o : PyConfig) {a : Argument} (h : a.name ∉ keywords .python) (hk : pyKept o a = true) :
    readPyParam ((pyParam o a).getD []) = some (pyMean o a) := by
  obtain ⟨n, t, d⟩ := a
  have hn := nameOf_word h
  have hc := nameOf_word (compute_plain n)
  cases hb : o.outputArguments <;> cases d <;> simp [pyParam, readPyParam, pyMean, pyName, pyKept, hb] at hk ⊢ <;> first | exact hn | exact hc

private theorem pyParam_plain (o : PyConfig) (a : Argument) (hk : pyKept o a = true) :
    .sym "," ∉ (pyParam o a).getD [] ∧ (pyParam o a).getD [] ≠ [] ∧ .sym ")" ∉ (pyParam o a).getD [] := by
  obtain ⟨n, t, d⟩ := a
  cases hb : o.outputArguments <;> cases d <;> simp [pyParam, pyKept, hb] at hk ⊢

private theorem python_parts {o : PyConfig} {s : FnSignature} (hk : Speakable .python s) :
    readPython (pySignature o s) =
      if defaultsLast (((s.args.filter (pyKept o)).map (pyMean o)).map Prod.snd) ∧ (((s.args.filter (pyKept o)).map (pyMean o)).map (·.1.name)).Nodup then
        some ⟨s.name, [], pyReturns o s, ((s.args.filter (pyKept o)).map (pyMean o)).map Prod.fst⟩ else none := by
  have e2 : breakLex (.sym ")") (joinLex (s.args.filterMap (pyParam o)) ++ .sym ")" :: (.sym "->" :: (pyReturns o s ++ [.sym ":"]))) = some (_, _) := breakLex_append (by
    intro hm
    rw [filterMap_kept] at hm
    rcases mem_joinLex hm with hm | ⟨x, hx, hm⟩
    · exact absurd hm (by decide)
    · obtain ⟨a, ha, rfl⟩ := List.mem_map.1 hx
      exact (pyParam_plain _ _ (List.mem_filter.1 ha).2).2.2 hm) _
  have e4 : readAll readPyParam (partsLex (joinLex (s.args.filterMap (pyParam o)))) = some ((s.args.filter (pyKept o)).map (pyMean o)) := by
    rw [filterMap_kept, partsLex_join (by
      intro x hx
      obtain ⟨a, ha, rfl⟩ := List.mem_map.1 hx
      have := pyParam_plain o a (List.mem_filter.1 ha).2
      exact ⟨this.1, this.2.1⟩)]
    exact readAll_map fun a ha => read_pyParam o (hk.2 _ (List.mem_filter.1 ha).1) (List.mem_filter.1 ha).2
  have e6 : ∀ (n : String) (a : List Lex), readPython (.word "def" :: .word n :: .sym "(" :: a) =
    match breakLex (.sym ")") a with
    | some (ps, .sym "->" :: rest) =>
      match nameOf .python (.word n), readAll readPyParam (partsLex ps), rest.getLast? with
      | some n, some ps, some (.sym ":") =>
        if defaultsLast (ps.map Prod.snd) ∧ (ps.map (·.1.name)).Nodup then some ⟨n, [], rest.dropLast, ps.map Prod.fst⟩ else none
      | _, _, _ => none
    | _ => none := fun n a => rfl
  have e7 : pySignature o s = .word "def" :: .word s.name :: .sym "(" :: (joinLex (s.args.filterMap (pyParam o)) ++ .sym ")" :: (.sym "->" ::
    (pyReturns o s ++ [.sym ":"]))) := by simp [pySignature]
  rw [e7, e6, e2]
  simp only [e4, nameOf_word hk.1, List.getLast?_concat, List.dropLast_concat]

private theorem pyNames_nodup {o : PyConfig} {args : List Argument} (hd : (givenNames (.python o.outputArguments) args).Nodup)
    (hin : o.outputArguments = false → InputsFirst args) : ((args.filter (pyKept o)).map (pyName o)).Nodup := by
  cases hb : o.outputArguments with
  | true =>
    rw [hb] at hd
    have e : (args.filter (pyKept o)).map (pyName o) = args.map (·.name) := by
      rw [List.filter_eq_self.2 fun a _ => by simp [pyKept, hb]]
      exact List.map_congr_left fun a _ => by simp [pyName, hb]
    rw [e]; exact hd
  | false =>
    rw [hb] at hd
    obtain ⟨ins, outs, rfl, hi, ho⟩ := hin hb
    have e : ((ins ++ outs).filter (pyKept o)).map (pyName o) =
        ins.map (·.name) ++ (outs.filter (·.direction = .optional)).map fun a => "compute_" ++ a.name := by
      rw [List.filter_append, List.map_append]
      congr 1
      · rw [List.filter_eq_self.2 fun a ha => by simp [pyKept, hi a ha]]
        exact List.map_congr_left fun a ha => by simp [pyName, hi a ha]
      · have : outs.filter (pyKept o) = outs.filter (·.direction = .optional) := List.filter_congr fun a ha => by
          have := ho a ha
          cases hdir : a.direction <;> simp_all [pyKept]
        rw [this]
        refine List.map_congr_left fun a ha => ?_
        have := (List.mem_filter.1 ha).2
        simp only [decide_eq_true_eq] at this
        simp [pyName, hb, this]
    rw [e]
    refine hd.sublist ?_
    show List.Sublist _ ((ins ++ outs).map (·.name) ++ ((ins ++ outs).filter (·.direction = .optional)).map fun a => "compute_" ++ a.name)
    refine List.Sublist.append ?_ ?_
    · rw [List.map_append]; exact List.sublist_append_left _ _
    · rw [List.filter_append]; exact List.Sublist.map _ (List.sublist_append_right _ _)

private theorem matrixType_eq (o : PyOptions) : o.matrixType = arrayName o.target := by
  unfold PyOptions.matrixType arrayName
  cases o.target <;> rfl

private theorem python_eq (o : PyOptions) (t : VarType) : t.python o = className o.target t := by
  unfold VarType.python className
  split <;> first | rfl | exact matrixType_eq o

/-- **C61** for Python. The text of the signature is read as a function with the name, the annotation of what is returned, and the inputs (and outputs, if they
are arguments) in their order, with the annotations of their types. Objects passed in this order are bound as the body needs them. Conditions: the names are no
keywords and different from each other; without output arguments, inputs come first; with output arguments, optional ones come last. -/
theorem C61_python_partial (o : PyConfig) (s : FnSignature) (hk : Speakable .python s) (hd : (givenNames (.python o.outputArguments) s.args).Nodup)
    (hin : o.outputArguments = false → InputsFirst s.args)
    (hlast : o.outputArguments = true → s.args.Pairwise fun a b => a.direction = .optional → b.direction = .optional) :
    ∃ f, readPython (pySignature o s) = some f ∧ f.name = s.name ∧ f.returns = pyReturns o s ∧
      (∀ a ∈ s.args, a.direction = .input ∨ o.outputArguments = true → ⟨a.name, className o.expr.target a.type, .object⟩ ∈ f.params) ∧
      ∀ (input : String → Cell K) (wanted : String → Bool), bindParams f.params (actuals (.python o.outputArguments) input wanted s.args) =
        some (startObjs (.python o.outputArguments) s.args input wanted) := by
  refine ⟨⟨s.name, [], pyReturns o s, ((s.args.filter (pyKept o)).map (pyMean o)).map Prod.fst⟩, ?_, rfl, rfl, ?_, ?_⟩
  · rw [python_parts hk, if_pos]
    refine ⟨?_, ?_⟩
    · rw [defaultsLast_iff, List.pairwise_map, List.pairwise_map]
      cases hb : o.outputArguments with
      | false => exact pairwise_all fun a _ b _ h => by simp [pyMean, hb] at h
      | true =>
        refine ((hlast hb).sublist List.filter_sublist).imp ?_
        intro a b h
        simpa [pyMean, hb] using h
    · rw [List.map_map]
      exact pyNames_nodup hd hin
  · intro a ha h
    refine List.mem_map.2 ⟨pyMean o a, List.mem_map.2 ⟨a, List.mem_filter.2 ⟨ha, ?_⟩, rfl⟩, ?_⟩
    · rcases h with h | h <;> simp [pyKept, h]
    · rcases h with h | h <;> simp [pyMean, pyName, h, python_eq]
  · intro input wanted
    cases hb : o.outputArguments with
    | true =>
      have e : s.args.filter (pyKept o) = s.args := List.filter_eq_self.2 fun a _ => by simp [pyKept, hb]
      have h2 := bindParams_map (K := K) (l := s.args) (p := fun a => (pyMean o a).1) (a := Argument.actual input wanted)
        (o := fun a => paramObj (.python true) input wanted a) (by
          rintro ⟨n, t, d⟩ _
          cases d <;> simp only [pyMean, Argument.actual, paramObj] <;> first | rfl | (cases wanted n <;> rfl))
      rw [e, List.map_map]
      refine h2.trans (congrArg some ?_)
      exact List.map_congr_left fun a _ => by simp [pyMean, pyName, hb]
    | false =>
      obtain ⟨ins, outs, hargs, hi, ho⟩ := hin hb
      let act : Argument → Actual K := fun a => if a.direction = .input then .val (input a.name) else .val (.switch (wanted a.name))
      let obj : Argument → Obj K := fun a => if a.direction = .input then .val (input a.name) else .val (.switch (wanted a.name))
      have e : actuals (.python false) input wanted s.args = (s.args.filter (pyKept o)).map act := by
        show List.filterMap _ s.args = _
        generalize s.args = l
        induction l with
        | nil => rfl
        | cons a as ih =>
          rw [List.filterMap_cons, List.filter_cons, ih]
          cases hdir : a.direction <;> simp [pyKept, hb, hdir, act]
      have h2 := bindParams_map (K := K) (l := s.args.filter (pyKept o)) (p := fun a => (pyMean o a).1) (a := act) (o := obj) (by
          rintro ⟨n, t, d⟩ _
          cases d <;> simp only [pyMean, act, obj] <;> rfl)
      rw [e, List.map_map]
      refine h2.trans (congrArg some ?_)
      show _ = (s.args.filter (·.direction = .input)).map (fun a => (a.name, Obj.val (input a.name))) ++
        (s.args.filter (·.direction = .optional)).map fun a => ("compute_" ++ a.name, Obj.val (.switch (wanted a.name)))
      rw [hargs]
      simp only [List.filter_append, List.map_append]
      have e1 : ins.filter (pyKept o) = ins := List.filter_eq_self.2 fun a ha => by simp [pyKept, hi a ha]
      have e2 : ins.filter (·.direction = .input) = ins := List.filter_eq_self.2 fun a ha => by simp [hi a ha]
      have e3 : ins.filter (·.direction = .optional) = [] := List.filter_eq_nil_iff.2 fun a ha => by simp [hi a ha]
      have e4 : outs.filter (·.direction = .input) = [] := List.filter_eq_nil_iff.2 fun a ha => by simp [ho a ha]
      have e5 : outs.filter (pyKept o) = outs.filter (·.direction = .optional) := List.filter_congr fun a ha => by
        have := ho a ha
        cases hdir : a.direction <;> simp_all [pyKept]
      rw [e1, e2, e3, e4, e5]
      simp only [List.map_nil, List.append_nil, List.nil_append]
      congr 1
      · exact List.map_congr_left fun a ha => by simp [pyMean, pyName, obj, hi a ha]
      · refine List.map_congr_left fun a ha => ?_
        have := (List.mem_filter.1 ha).2
        simp only [decide_eq_true_eq] at this
        simp [pyMean, pyName, obj, hb, this]

private theorem outputTypes_read (o : PyConfig) (args : List Argument) :
    (∀ x ∈ pyOutputTypes o args, .sym "," ∉ x ∧ x ≠ [] ∧ .sym "]" ∉ x) ∧
      readAll readClass (pyOutputTypes o args) =
        some (if o.outputArguments then [] else (args.filter (·.direction ≠ .input)).map fun a => (arrayName o.expr.target, decide (a.direction = .optional))) := by
  unfold pyOutputTypes
  cases o.outputArguments with
  | true => exact ⟨by simp, rfl⟩
  | false =>
    simp only [Bool.false_eq_true, if_false]
    constructor
    · intro x hx
      obtain ⟨a, _, rfl⟩ := List.mem_map.1 hx
      split <;> simp
    · refine readAll_map fun a _ => ?_
      rw [matrixType_eq]
      by_cases h : a.direction = .optional
      · rw [if_pos h]; simp [readClass, h]
      · rw [if_neg h]; simp [readClass, h]

/-- **C61** for Python. What is returned is annotated: the value of the function comes first, then the outputs in their order, if they are not arguments; an
output that is optional may be `None`. A class that is returned must not be called `None`. -/
theorem C61_python_returns (o : PyConfig) (s : FnSignature) (hn : s.returns ≠ some (.custom "None")) : readResults (pyReturns o s) = some (pyResults o s) := by
  obtain ⟨h1, h2⟩ := outputTypes_read o s.args
  have htuple : ∀ l : List (List Lex), (∀ x ∈ l, .sym "," ∉ x ∧ x ≠ [] ∧ .sym "]" ∉ x) →
      readResults ([.word "tuple", .sym "["] ++ joinLex l ++ [.sym "]"]) = readAll readClass l := by
    intro l hl
    have e : breakLex (.sym "]") (joinLex l ++ .sym "]" :: []) = some (joinLex l, []) := breakLex_append (by
      intro hm
      rcases mem_joinLex hm with hm | ⟨x, hx, hm⟩
      · exact absurd hm (by decide)
      · exact (hl x hx).2.2 hm) _
    have e' : readResults (.word "tuple" :: .sym "[" :: (joinLex l ++ .sym "]" :: [])) = match breakLex (.sym "]") (joinLex l ++ .sym "]" :: []) with
        | some (ps, []) => readAll readClass (partsLex ps)
        | _ => none := rfl
    show readResults (.word "tuple" :: .sym "[" :: (joinLex l ++ .sym "]" :: [])) = _
    rw [e', e]
    show readAll readClass (partsLex (joinLex l)) = _
    rw [partsLex_join fun x hx => ⟨(hl x hx).1, (hl x hx).2.1⟩]
  unfold pyResults
  unfold pyReturns
  cases hr : s.returns with
  | none =>
    cases hl : pyOutputTypes o s.args with
    | nil =>
      rw [hl] at h2
      simp only [← Option.some.inj h2]
      rfl
    | cons x xs =>
      show readResults ([.word "tuple", .sym "["] ++ joinLex (x :: xs) ++ [.sym "]"]) = _
      rw [← hl, htuple _ h1, h2]
      rfl
  | some t =>
    cases hl : pyOutputTypes o s.args with
    | nil =>
      rw [hl] at h2
      simp only [← Option.some.inj h2]
      rw [python_eq]
      have hne : className o.expr.target t ≠ "None" := by
        intro e
        cases t with
        | scalar p => cases p <;> revert e <;> simp [className]
        | matrix r c =>
          have e : arrayName o.expr.target = "None" := e
          revert e
          cases o.expr.target <;> decide
        | custom n =>
          have e : n = "None" := e
          exact hn (by rw [hr, e])
      show readResults [.word (className o.expr.target t)] = some [(className o.expr.target t, false)]
      generalize className o.expr.target t = w at hne
      unfold readResults
      split
      · next h => exact absurd (Lex.word.inj (List.cons.inj h).1) hne
      · next h => exact absurd (List.cons.inj h).2 (by simp)
      · rfl
    | cons x xs =>
      show readResults ([.word "tuple", .sym "["] ++ joinLex ([.word (t.python o.expr)] :: (x :: xs)) ++ [.sym "]"]) = _
      rw [← hl, htuple _ (by
        intro y hy
        rcases List.mem_cons.1 hy with rfl | hy
        · simp
        · exact h1 y hy)]
      rw [readAll, h2, python_eq]
      rfl

/-- **C61**. A signature is refused only if a matrix is returned: in C++, if the generator knows spans only, and in Rust. -/
theorem C61_signature_exists (s : FnSignature) :
    (∀ span, (∃ text, cppSignature span s = some text) ↔ ¬ (span = true ∧ ∃ r c, s.returns = some (.matrix r c))) ∧
      ((∃ text, rustSignature s = some text) ↔ ¬ ∃ r c, s.returns = some (.matrix r c)) := by
  constructor
  · intro span
    unfold cppSignature
    rcases hr : s.returns with _ | t
    · simp [cppReturns]
    · cases t <;> cases span <;> simp [cppReturns, VarType.isMatrix]
  · unfold rustSignature
    rcases hr : s.returns with _ | t
    · simp [rustReturns]
    · cases t <;> simp [rustReturns, VarType.isMatrix]

/-- **C61** does not hold for all functions. In Python with output arguments, the signature is a syntax error for every function with an argument that is not
optional after one that is optional. -/
theorem C61_python_order_refuted (o : PyConfig) (s : FnSignature) (hk : Speakable .python s) (hb : o.outputArguments = true)
    (h : ¬ s.args.Pairwise fun a b => a.direction = .optional → b.direction = .optional) : readPython (pySignature o s) = none := by
  rw [python_parts hk, if_neg]
  rintro ⟨h1, _⟩
  refine h ?_
  rw [defaultsLast_iff, List.pairwise_map, List.pairwise_map, List.filter_eq_self.2 fun a _ => by simp [pyKept, hb]] at h1
  exact h1.imp fun {a b} h => by simpa [pyMean, hb] using h

/-! ## Functions that meet the hypotheses -/

/-- A column and a number go in; a column, and a matrix if it is wanted, come out. -/
def sigExample : FnSignature :=
  ⟨"f", some (.scalar .floating), [⟨"x", .matrix 2 1, .input⟩, ⟨"y", .scalar .floating, .input⟩, ⟨"z", .matrix 2 1, .output⟩, ⟨"J", .matrix 2 2, .optional⟩]⟩

theorem sigExample_speakable (L : Lang) : Speakable L sigExample := by
  cases L <;> exact ⟨by decide, by decide⟩

theorem sigExample_inputs : InputsFirst sigExample.args :=
  ⟨[⟨"x", .matrix 2 1, .input⟩, ⟨"y", .scalar .floating, .input⟩], [⟨"z", .matrix 2 1, .output⟩, ⟨"J", .matrix 2 2, .optional⟩], rfl, by decide, by decide⟩

example (span : Bool) : ∃ text f, cppSignature span sigExample = some text ∧ readCpp text = some f ∧ f.params.map (·.name) = ["x", "y", "z", "J"] ∧
    bindParams f.params (actuals (.cpp span) (fun _ => Cell.num (0 : ℤ)) (fun _ => false) sigExample.args) =
      some [("x", .val (.num 0)), ("y", .val (.num 0)), ("z", .alias "z"), ("J", .val .none)] := by
  have hr : ∃ text, cppSignature span sigExample = some text := by cases span <;> exact ⟨_, rfl⟩
  obtain ⟨text, ht⟩ := hr
  obtain ⟨f, h1, _, _, _, h2, _, h3⟩ := C61_cpp_partial (K := ℤ) span sigExample ht (sigExample_speakable _) (by cases span <;> decide)
  refine ⟨text, f, ht, h1, h2, (h3 _ _).trans ?_⟩
  rfl

example : ∃ text f bs, rustSignature sigExample = some text ∧ readRust text = some (f, bs) ∧ f.params.map (·.name) = ["x", "y", "z", "J"] ∧
    (⟨"T3", "wrenfold_traits::OutputSpan2D", 2, 2⟩ : Bound) ∈ bs := by
  obtain ⟨f, bs, h1, _, _, h2, _, _, h3, _⟩ := C61_rust_partial (K := ℤ) sigExample rfl (sigExample_speakable _) (by decide)
  exact ⟨_, f, bs, rfl, h1, h2, (h3 3 ⟨"J", .matrix 2 2, .optional⟩ 2 2 (by decide) rfl).1⟩

example (b : Bool) : ∃ f, readPython (pySignature ⟨⟨.numpy, true⟩, 4, b⟩ sigExample) = some f ∧ (⟨"x", "np.ndarray", .object⟩ : Param) ∈ f.params := by
  obtain ⟨f, h1, _, _, h2, _⟩ := C61_python_partial (K := ℤ) ⟨⟨.numpy, true⟩, 4, b⟩ sigExample (sigExample_speakable _) (by cases b <;> decide) (fun _ => sigExample_inputs)
    (fun _ => by decide)
  exact ⟨f, h1, h2 ⟨"x", .matrix 2 1, .input⟩ (by decide) (.inl rfl)⟩

/-- A value, an array, and an array that may be missing are returned. -/
example : readResults (pyReturns ⟨⟨.numpy, true⟩, 4, false⟩ sigExample) = some [("float", false), ("np.ndarray", false), ("np.ndarray", true)] :=
  C61_python_returns _ _ (by decide)

example : ∃ text, cppSignature true sigExample = some text := ((C61_signature_exists sigExample).1 true).2 (by rintro ⟨_, r, c, h⟩; cases h)

/-! ## Functions that are not accepted -/

/-- A function with an optional output before another output meets the hypotheses of `C61_python_order_refuted`. -/
example : readPython (pySignature ⟨⟨.numpy, true⟩, 4, true⟩ ⟨"f", none, [⟨"x", .scalar .floating, .input⟩, ⟨"J", .matrix 2 2, .optional⟩, ⟨"z", .matrix 2 1, .output⟩]⟩) =
    none := C61_python_order_refuted _ _ ⟨by decide, by decide⟩ rfl (by decide)

/-- A matrix called `T0` has the name of the parameter of the template for its type: the signature is an error in C++, although the names of the arguments are
distinct and no keywords. The same holds for any argument called `Scalar`. -/
theorem C61_cpp_clash_refuted :
    (∃ s text, cppSignature true s = some text ∧ s.args = [⟨"T0", .matrix 2 1, .input⟩] ∧ Speakable .cpp s ∧ readCpp text = none) ∧
    ∀ span, ∃ s text, cppSignature span s = some text ∧ s.args = [⟨"Scalar", .scalar .floating, .input⟩] ∧ Speakable .cpp s ∧ readCpp text = none := by
  refine ⟨⟨⟨"f", none, [⟨"T0", .matrix 2 1, .input⟩]⟩, _, rfl, rfl, ⟨by decide, by decide⟩, by decide⟩, fun span => ?_⟩
  cases span <;> exact ⟨⟨"f", none, [⟨"Scalar", .scalar .floating, .input⟩]⟩, _, rfl, rfl, ⟨by decide, by decide⟩, by decide⟩

/-- Names of arguments that are keywords of the language are not refused, and the signature is an error. -/
theorem C61_keyword_refuted :
    (∃ text, cppSignature false ⟨"f", none, [⟨"double", .scalar .floating, .input⟩]⟩ = some text ∧ readCpp text = none) ∧
    (∃ text, rustSignature ⟨"f", none, [⟨"type", .scalar .floating, .input⟩]⟩ = some text ∧ readRust text = none) ∧
    ∀ b, readPython (pySignature ⟨⟨.numpy, true⟩, 4, b⟩ ⟨"f", none, [⟨"lambda", .scalar .floating, .input⟩]⟩) = none :=
  ⟨⟨_, rfl, by decide⟩, ⟨_, rfl, by decide⟩, fun b => by cases b <;> decide⟩

/-- In Python a function without a return value and with one output is annotated to return a tuple, for every type of the output, but it returns the output
itself. A number is annotated as an array. -/
theorem C61_python_annotation_refuted (o : PyConfig) (hb : o.outputArguments = false) (name n : String) (t : VarType) (body : List Stm) (h : (splitReturn body).2 = none) :
    pyReturns o ⟨name, none, [⟨n, t, .output⟩]⟩ = [.word "tuple", .sym "[", .word o.expr.matrixType, .sym "]"] ∧
      pyMeant o [n] body = stmsPythonSt o (splitReturn body).1 ++ [.ret [.e (.atom n)]] := by
  constructor
  · simp [pyReturns, pyOutputTypes, hb, joinLex]
  · simp [pyMeant, pyReturned, h, hb]

example : ∃ body : List Stm, body ≠ [] ∧ (splitReturn body).2 = none := ⟨[.output "z" false (.expr (.int 1))], by simp, rfl⟩

end Wf.Gen.Text
