import Verif.Gen.RunTrack

/-!
# Lemmas for C58: the relation between the states
-/

namespace Wf.Gen.Text

variable {K : Type} [CommRing K] {T : Scoping} {args : List Argument} {input : String → Cell K} {wanted : String → Bool}

/-- The names that stand for objects of the caller. -/
def handle (T : Scoping) (args : List Argument) (input : String → Cell K) (wanted : String → Bool) (n : String) : Option (Obj K) :=
  match find n (startObjs T args input wanted) with
  | some (.val _) => none
  | o => o

/-- The object of an output. -/
def outObj (T : Scoping) (a : Argument) : Obj K :=
  match T, a.direction, a.type.isMatrix with
  | .cpp _, .output, _ => .alias a.name
  | .cpp true, .optional, true => .alias a.name
  | .rust, .optional, _ => .option a.name
  | _, _, _ => .ptr a.name

/-- The object has the right shape. -/
def Fits : VarType → Slot K → Prop
  | .matrix r c, .mat r' c' l => r' = r ∧ c' = c ∧ l.length = r * c
  | .scalar _, .num _ => True
  | _, _ => False

/-- The object has the contents of the cell. -/
def SlotRel : Cell K → Slot K → Prop
  | .unset, _ => True
  | .num x, .num y => y = some x
  | .mat r c xs, .mat r' c' ys => r' = r ∧ c' = c ∧ ys = xs.map some
  | _, _ => False

/-- The variables of `W` stay, with new ones in front that are not given by the caller. -/
def Grown (T : Scoping) (args : List Argument) (W W' : Track K) : Prop :=
  ∃ new, shape W' = new ++ shape W ∧ ∀ p ∈ new, p.2 = true → p.1 ∉ givenNames T args ∨ T = .python false

theorem Grown.refl (W : Track K) : Grown T args W W := ⟨[], rfl, by simp⟩

theorem Grown.trans {W W' W'' : Track K} (h : Grown T args W W') (h' : Grown T args W' W'') : Grown T args W W'' := by
  obtain ⟨a, e, ha⟩ := h
  obtain ⟨b, e', hb⟩ := h'
  refine ⟨b ++ a, by rw [e', e, List.append_assoc], fun p hp => ?_⟩
  rcases List.mem_append.1 hp with hp | hp
  · exact hb p hp
  · exact ha p hp

theorem Grown.of_eq {W W' : Track K} (h : shape W' = shape W) : Grown T args W W' := ⟨[], h, by simp⟩

theorem Grown.cons {W : Track K} {n : String} {o : Option (Cell K)} (h : o ≠ none → n ∉ givenNames T args ∨ T = .python false) : Grown T args W ((n, o) :: W) :=
  ⟨[(n, o.isSome)], rfl, fun p hp hs => by
    rw [List.mem_singleton.1 hp] at hs ⊢
    exact h (by rintro rfl; cases hs)⟩

/-- The track at the start. -/
def startTrack (T : Scoping) (args : List Argument) (input : String → Cell K) (wanted : String → Bool) : Track K :=
  (startVars T args input wanted).map fun p => (p.1, some p.2)

/-- The states of the two semantics agree. `G`: the optional outputs that are known to be wanted. -/
structure Rel' (T : Scoping) (args : List Argument) (input : String → Cell K) (wanted : String → Bool) (G : List String) (W : Track K) (m : Mem K) (s : State K) :
    Prop where
  left : m.vars = left W
  right : s.vars = right (handle T args input wanted) W
  guards : ∀ p ∈ W, p.2 = none → T = .rust ∧ (handle T args input wanted p.1).isSome = true ∧ p.1 ∈ G
  base : Grown T args (startTrack T args input wanted) W
  plain : ∀ p ∈ W, p.1 ≠ "None"
  inside : T = .rust → ∀ n ∈ G, find n (shape W) = some false
  given : T ≠ .python false → ∀ n ∈ G, ∀ a ∈ args, a.name = n → wanted n = true
  heap : T ≠ .python false → ∀ a ∈ args, a.present wanted = true → ∃ slot c, find a.name s.heap = some slot ∧ find (outVar T a) m.vars = some c ∧
    Fits a.type slot ∧ SlotRel c slot
  absent : T ≠ .python false → ∀ a ∈ args, a.direction = .optional → wanted a.name = false → find (outVar T a) m.vars = some .none
  result : m.result = none ∧ s.result = none

section start

theorem names_startObjs : names (startObjs T args input wanted) = names (startVars T args input wanted) := by
  unfold names
  rcases T with (_ | _) | _ | (_ | _) <;> simp [startObjs, startVars, List.map_map, Function.comp_def]

theorem handle_given {n : String} (h : (handle T args input wanted n).isSome = true) : n ∈ givenNames T args := by
  unfold handle at h
  refine names_start_sublist.subset ?_ (a := n) (l₁ := names (startVars T args input wanted))
  rw [← names_startObjs, ← find_isSome]
  split at h
  · cases h
  · exact h

theorem handle_none {n : String} (h : n ∉ givenNames T args) : handle T args input wanted n = none := by
  cases e : handle T args input wanted n with
  | none => rfl
  | some o => exact absurd (handle_given (by rw [e]; rfl)) h

variable (hd : (givenNames T args).Nodup)
include hd

theorem find_objs {p : String × Obj K} (h : p ∈ startObjs T args input wanted) : find p.1 (startObjs T args input wanted) = some p.2 :=
  find_mem (by rw [names_startObjs]; exact names_start_sublist.nodup hd) h

theorem handle_val {n : String} {c : Cell K} (h : (n, Obj.val c) ∈ startObjs T args input wanted) : handle T args input wanted n = none := by
  unfold handle; rw [find_objs hd h]

theorem handle_obj {n : String} {o : Obj K} (h : (n, o) ∈ startObjs T args input wanted) (ho : ∀ c, o ≠ .val c) : handle T args input wanted n = some o := by
  unfold handle
  rw [find_objs hd h]
  cases o with
  | val c => exact absurd rfl (ho c)
  | _ => rfl

/-- The entries at the start. -/
theorem entry_start {n : String} {o : Obj K} {c : Cell K} (h : (n, o) ∈ startObjs T args input wanted) (hc : ∀ d, o = .val d → d = c) :
    entry (handle T args input wanted) (n, some c) = (n, o) := by
  show (n, (handle T args input wanted n).getD (.val c)) = _
  cases o with
  | val d => rw [handle_val hd h, hc d rfl]; rfl
  | _ => rw [handle_obj hd h (by simp)]; rfl

theorem paramObj_val {a : Argument} {d : Cell K} (h : paramObj T input wanted a = .val d) : d = argCell input wanted a := by
  unfold paramObj at h
  unfold argCell
  split at h
  · rename_i e; rw [e]; cases h; rfl
  · cases h
  · cases h
  · rename_i e; rw [e]; simp only
    split at h
    · cases h
    · rename_i hw; rw [if_neg hw]; cases h; rfl
  · rename_i e _; rw [e]; simp only
    split at h
    · cases h
    · rename_i hw; rw [if_neg hw]; cases h; rfl

theorem viewObj_val {a : Argument} {d : Cell K} (h : viewObj input wanted a = .val d) : d = argCell input wanted a := by
  unfold viewObj at h
  unfold argCell
  split at h
  · rename_i e; rw [e]; cases h; rfl
  · cases h
  · rename_i e; rw [e]; simp only
    split at h
    · cases h
    · rename_i hw; rw [if_neg hw]; cases h; rfl

theorem right_start : right (handle T args input wanted) (startTrack T args input wanted) = startObjs T args input wanted := by
  unfold right startTrack
  rw [List.map_map]
  have key : ∀ {α : Type} (l : List α) (f : α → String × Cell K) (g : α → String × Obj K), (∀ a ∈ l, (f a).1 = (g a).1 ∧ g a ∈ startObjs T args input wanted ∧
      ∀ d, (g a).2 = .val d → d = (f a).2) → (l.map f).map (entry (handle T args input wanted) ∘ fun p => (p.1, some p.2)) = l.map g := by
    intro α l f g h
    rw [List.map_map]
    apply List.map_congr_left
    intro a ha
    obtain ⟨h1, h2, h3⟩ := h a ha
    have := entry_start hd (n := (g a).1) (o := (g a).2) (c := (f a).2) h2 h3
    simpa [h1] using this
  rcases T with (_ | _) | _ | (_ | _)
  · exact key args _ _ fun a ha => ⟨rfl, List.mem_map.2 ⟨a, ha, rfl⟩, fun d => paramObj_val hd⟩
  · have e : startVars (.cpp true) args input wanted = args.map (fun a => (a.name, argCell input wanted a)) ++
        (args.filter (·.type.isMatrix)).map fun a => ("_" ++ a.name, argCell input wanted a) := rfl
    rw [e, List.map_append]
    refine (congrArg₂ _ ?_ ?_ : _ = args.map (fun a => (a.name, paramObj (.cpp true) input wanted a)) ++
      (args.filter (·.type.isMatrix)).map fun a => ("_" ++ a.name, viewObj input wanted a))
    · exact key args _ _ fun a ha => ⟨rfl, List.mem_append_left _ (List.mem_map.2 ⟨a, ha, rfl⟩), fun d => paramObj_val hd⟩
    · exact key _ _ _ fun a ha => ⟨rfl, List.mem_append_right _ (List.mem_map.2 ⟨a, ha, rfl⟩), fun d => viewObj_val hd⟩
  · exact key args _ _ fun a ha => ⟨rfl, List.mem_map.2 ⟨a, ha, rfl⟩, fun d => paramObj_val hd⟩
  · have e : startVars (.python false) args input wanted = (args.filter (·.direction = .input)).map (fun a => (a.name, input a.name)) ++
        (args.filter (·.direction = .optional)).map fun a => ("compute_" ++ a.name, .switch (wanted a.name)) := rfl
    rw [e, List.map_append]
    refine (congrArg₂ _ ?_ ?_ : _ = (args.filter (·.direction = .input)).map (fun a => (a.name, Obj.val (input a.name))) ++
      (args.filter (·.direction = .optional)).map fun a => ("compute_" ++ a.name, Obj.val (.switch (wanted a.name))))
    · exact key _ _ _ fun a ha => ⟨rfl, List.mem_append_left _ (List.mem_map.2 ⟨a, ha, rfl⟩), fun d h => by cases h; rfl⟩
    · exact key _ _ _ fun a ha => ⟨rfl, List.mem_append_right _ (List.mem_map.2 ⟨a, ha, rfl⟩), fun d h => by cases h; rfl⟩
  · exact key args _ _ fun a ha => ⟨rfl, List.mem_map.2 ⟨a, ha, rfl⟩, fun d => paramObj_val hd⟩

theorem left_start : left (startTrack T args input wanted) = startVars T args input wanted := by
  unfold startTrack
  induction startVars T args input wanted with
  | nil => rfl
  | cons p l ih => rw [List.map_cons, left, ih]

/-- What can be read at the start is the same. -/
theorem handle_readable {n : String} {c : Cell K} (h : find n (startVars T args input wanted) = some c) (hc : c.readable = true) :
    handle T args input wanted n = none := by
  have hm := mem_of_find h
  have arg : ∀ a : Argument, argCell input wanted a = c → a.direction = .input := by
    intro a ha
    unfold argCell at ha
    split at ha
    · assumption
    · rw [← ha] at hc; cases hc
    · split at ha <;> (rw [← ha] at hc; cases hc)
  rcases T with (_ | _) | _ | (_ | _)
  · obtain ⟨a, ha, e⟩ := List.mem_map.1 hm
    obtain ⟨rfl, e2⟩ := Prod.mk.inj e
    refine handle_val hd (c := input a.name) (List.mem_map.2 ⟨a, ha, ?_⟩)
    unfold paramObj; rw [arg a e2]
  · rcases List.mem_append.1 hm with hm | hm <;> obtain ⟨a, ha, e⟩ := List.mem_map.1 hm <;> obtain ⟨rfl, e2⟩ := Prod.mk.inj e
    · refine handle_val hd (c := input a.name) (List.mem_append_left _ (List.mem_map.2 ⟨a, ha, ?_⟩))
      unfold paramObj; rw [arg a e2]
    · refine handle_val hd (c := input a.name) (List.mem_append_right _ (List.mem_map.2 ⟨a, ha, ?_⟩))
      unfold viewObj; rw [arg a e2]
  · obtain ⟨a, ha, e⟩ := List.mem_map.1 hm
    obtain ⟨rfl, e2⟩ := Prod.mk.inj e
    refine handle_val hd (c := input a.name) (List.mem_map.2 ⟨a, ha, ?_⟩)
    unfold paramObj; rw [arg a e2]
  · unfold handle
    split
    · rfl
    · rename_i o ho
      cases e : find n (startObjs (.python false) args input wanted) with
      | none => rfl
      | some o' =>
        exfalso
        rcases List.mem_append.1 (mem_of_find e) with hm | hm <;> obtain ⟨a, ha, e'⟩ := List.mem_map.1 hm <;>
          exact ho _ (e.trans (congrArg some (Prod.mk.inj e').2.symm))
  · obtain ⟨a, ha, e⟩ := List.mem_map.1 hm
    obtain ⟨rfl, e2⟩ := Prod.mk.inj e
    refine handle_val hd (c := input a.name) (List.mem_map.2 ⟨a, ha, ?_⟩)
    unfold paramObj; rw [arg a e2]

/-- The object of an output. -/
theorem handle_out {a : Argument} (ha : a ∈ args) (hp : a.present wanted = true) (hT : T ≠ .python false) :
    handle T args input wanted (outVar T a) = some (outObj T a) := by
  unfold Argument.present at hp
  unfold outObj
  rcases T with (_ | _) | _ | (_ | _)
  · refine handle_obj hd (List.mem_map.2 ⟨a, ha, ?_⟩) ?_
    · cases e : a.direction <;> simp only [e] at hp ⊢ <;> simp_all [outVar, Scoping.argVar, paramObj]
    · cases e : a.direction <;> simp_all
  · by_cases hm : a.type.isMatrix = true
    · refine handle_obj hd (List.mem_append_right _ (List.mem_map.2 ⟨a, List.mem_filter.2 ⟨ha, hm⟩, ?_⟩)) ?_
      · cases e : a.direction <;> simp only [e] at hp ⊢ <;> simp_all [outVar, Scoping.argVar, viewObj]
      · cases e : a.direction <;> simp_all
    · refine handle_obj hd (List.mem_append_left _ (List.mem_map.2 ⟨a, ha, ?_⟩)) ?_
      · cases e : a.direction <;> simp only [e] at hp ⊢ <;> simp_all [outVar, Scoping.argVar, paramObj]
      · cases e : a.direction <;> simp_all
  · refine handle_obj hd (List.mem_map.2 ⟨a, ha, ?_⟩) ?_
    · cases e : a.direction <;> simp only [e] at hp ⊢ <;> simp_all [outVar, Scoping.argVar, paramObj]
    · cases e : a.direction <;> simp_all
  · exact absurd rfl hT
  · refine handle_obj hd (List.mem_map.2 ⟨a, ha, ?_⟩) ?_
    · cases e : a.direction <;> simp only [e] at hp ⊢ <;> simp_all [outVar, Scoping.argVar, paramObj]
    · cases e : a.direction <;> simp_all

/-- An output that is not wanted has no object. -/
theorem handle_absent {a : Argument} (ha : a ∈ args) (ho : a.direction = .optional) (hw : wanted a.name = false) (hT : T ≠ .python false) :
    handle T args input wanted (outVar T a) = none := by
  rcases T with (_ | _) | _ | (_ | _)
  · exact handle_val hd (c := .none) (List.mem_map.2 ⟨a, ha, by simp [outVar, Scoping.argVar, paramObj, ho, hw]⟩)
  · by_cases hm : a.type.isMatrix = true
    · exact handle_val hd (c := .none) (List.mem_append_right _ (List.mem_map.2 ⟨a, List.mem_filter.2 ⟨ha, hm⟩, by
        simp [outVar, Scoping.argVar, viewObj, ho, hw, hm]⟩))
    · exact handle_val hd (c := .none) (List.mem_append_left _ (List.mem_map.2 ⟨a, ha, by simp [outVar, Scoping.argVar, paramObj, ho, hw, hm]⟩))
  · exact handle_val hd (c := .none) (List.mem_map.2 ⟨a, ha, by simp [outVar, Scoping.argVar, paramObj, ho, hw]⟩)
  · exact absurd rfl hT
  · exact handle_val hd (c := .none) (List.mem_map.2 ⟨a, ha, by simp [outVar, Scoping.argVar, paramObj, ho, hw]⟩)

theorem outVar_inj' {a b : Argument} (ha : a ∈ args) (hb : b ∈ args) (e : outVar T a = outVar T b) : a = b := by
  have names : (args.map (·.name)).Nodup := by
    rcases T with (_ | _) | _ | (_ | _)
    · exact hd
    · exact (List.nodup_append.1 hd).1
    · exact hd
    · exact (List.nodup_append.1 hd).1
    · exact hd
  have key : a.name = b.name → a = b := fun h => List.inj_on_of_nodup_map names ha hb h
  unfold outVar Scoping.argVar at e
  split at e
  · have hd := List.nodup_append.1 hd
    by_cases h1 : a.type.isMatrix = true <;> by_cases h2 : b.type.isMatrix = true
    · exact key (by simpa [h1, h2] using e)
    · simp only [h1, h2, if_true] at e
      exact absurd e.symm (hd.2.2 _ (List.mem_map_of_mem hb) _ (List.mem_map.2 ⟨_, List.mem_filter.2 ⟨ha, h1⟩, rfl⟩))
    · simp only [h1, h2, if_true] at e
      exact absurd e (hd.2.2 _ (List.mem_map_of_mem ha) _ (List.mem_map.2 ⟨_, List.mem_filter.2 ⟨hb, h2⟩, rfl⟩))
    · exact key (by simpa [h1, h2] using e)
  · exact key e

theorem name_inj {a b : Argument} (ha : a ∈ args) (hb : b ∈ args) (e : a.name = b.name) : a = b := by
  have names : (args.map (·.name)).Nodup := by
    rcases T with (_ | _) | _ | (_ | _)
    · exact hd
    · exact (List.nodup_append.1 hd).1
    · exact hd
    · exact (List.nodup_append.1 hd).1
    · exact hd
  exact List.inj_on_of_nodup_map names ha hb e

/-- At the start the states agree. -/
theorem Rel'.start (hp : ∀ n ∈ givenNames T args, n ≠ "None") (hty : ∀ a ∈ args, a.direction ≠ .input → ∀ n, a.type ≠ .custom n) :
    Rel' T args input wanted [] (startTrack T args input wanted) ⟨startVars T args input wanted, none⟩ (startState T args input wanted) where
  left := (left_start hd).symm
  right := (right_start hd).symm
  guards := fun p hp hn => by
    obtain ⟨q, _, rfl⟩ := List.mem_map.1 hp
    cases hn
  base := .refl _
  plain := fun p h => by
    obtain ⟨q, hq, rfl⟩ := List.mem_map.1 h
    exact hp _ (mem_start_given hq)
  inside := fun _ n h => by cases h
  given := fun _ n h => by cases h
  heap := fun hT a ha hpr => by
    have hm : (a.name, (a.type.fresh : Slot K)) ∈ (startState T args input wanted).heap := by
      unfold startState
      simp only [if_neg hT]
      exact List.mem_map.2 ⟨a, List.mem_filter.2 ⟨ha, hpr⟩, rfl⟩
    have hn : (names (startState T args input wanted).heap).Nodup := by
      unfold startState names
      simp only [if_neg hT, List.map_map]
      have : (args.map (·.name)).Nodup := by
        rcases T with (_ | _) | _ | (_ | _)
        · exact hd
        · exact (List.nodup_append.1 hd).1
        · exact hd
        · exact (List.nodup_append.1 hd).1
        · exact hd
      exact this.sublist (List.Sublist.map _ List.filter_sublist)
    have hdir : a.direction ≠ .input := by intro e; simp [Argument.present, e] at hpr
    refine ⟨_, _, find_mem hn hm, find_start_out hd ha hT, ?_, ?_⟩
    · cases e : a.type with
      | matrix r c => exact ⟨rfl, rfl, by simp⟩
      | scalar p => trivial
      | custom n => exact absurd e (hty a ha hdir n)
    · have : argCell input wanted a = .unset := by
        unfold argCell
        unfold Argument.present at hpr
        cases e : a.direction with
        | input => exact absurd e hdir
        | output => rfl
        | optional => rw [e] at hpr; simp only at hpr ⊢; rw [if_pos hpr]
      rw [this]; trivial
  absent := fun hT a ha ho hw => by
    show find _ (startVars T args input wanted) = _
    rw [find_start_out hd ha hT]
    unfold argCell
    rw [ho]; simp [hw]
  result := ⟨rfl, rfl⟩

end start

section steps

variable {G : List String} {W : Track K} {m : Mem K} {s : State K}

theorem Rel'.guarded (h : Rel' T args input wanted G W m s) : Guarded (handle T args input wanted) W := fun p hp hn => (h.guards p hp hn).2.1

/-- A variable that is not an object of the caller. -/
theorem Rel'.find_good (h : Rel' T args input wanted G W m s) {n : String} (hb : handle T args input wanted n = none) :
    find n s.vars = (find n m.vars).map .val := by
  rw [h.right, h.left, find_right hb h.guarded]

/-- A name of an object of the caller. -/
theorem Rel'.find_handle (h : Rel' T args input wanted G W m s) {n : String} {o : Obj K} (hb : handle T args input wanted n = some o) (hT : T ≠ .python false) :
    find n s.vars = some o ∨ T = .rust ∧ find n (shape W) = some false ∧ find n s.vars = some (.ptr n) := by
  have hg : n ∈ givenNames T args := handle_given (by rw [hb]; rfl)
  rw [h.right, find_right_some hb]
  obtain ⟨new, e, hn⟩ := h.base
  cases hf : find n (shape W) with
  | none =>
    exfalso
    rw [find_none, e] at hf
    apply hf
    unfold names
    rw [List.map_append]
    refine List.mem_append_right _ ?_
    have : n ∈ names (startObjs T args input wanted) := by
      rw [← find_isSome]
      unfold handle at hb
      split at hb
      · cases hb
      · rw [hb]; rfl
    rw [names_startObjs] at this
    obtain ⟨p, hp, rfl⟩ := List.mem_map.1 this
    exact List.mem_map.2 ⟨(p.1, true), List.mem_map.2 ⟨(p.1, some p.2), List.mem_map.2 ⟨p, hp, rfl⟩, rfl⟩, rfl⟩
  | some b =>
    cases b with
    | true => exact .inl rfl
    | false =>
      obtain ⟨q, hq, e'⟩ := List.mem_map.1 (mem_of_find hf)
      obtain ⟨_, e2⟩ := Prod.mk.inj e'
      have := h.guards q hq (by cases hq2 : q.2 with | none => rfl | some c => rw [hq2] at e2; cases e2)
      exact .inr ⟨this.1, rfl, rfl⟩

/-- Without names made by `if let` there are as many variables. -/
theorem Rel'.lengths (h : Rel' T args input wanted G W m s) (hT : T ≠ .rust) : names s.vars = names m.vars ∧ s.vars.length = m.vars.length := by
  have hg : ∀ p ∈ W, p.2 ≠ none := fun p hp hn => hT (h.guards p hp hn).1
  have e : names s.vars = names m.vars := by rw [h.right, h.left, names_right, names_left hg]
  exact ⟨e, by simpa [names] using congrArg List.length e⟩

theorem Rel'.heap_vars (h : Rel' T args input wanted G W m s) {m' : Mem K} {s' : State K}
    (hv : ∀ n, n ∈ givenNames T args → T ≠ .python false → find n m'.vars = find n m.vars) (hh : s'.heap = s.heap) :
    (T ≠ .python false → ∀ a ∈ args, a.present wanted = true → ∃ slot c, find a.name s'.heap = some slot ∧ find (outVar T a) m'.vars = some c ∧
      Fits a.type slot ∧ SlotRel c slot) ∧
    (T ≠ .python false → ∀ a ∈ args, a.direction = .optional → wanted a.name = false → find (outVar T a) m'.vars = some .none) := by
  refine ⟨fun hT a ha hp => ?_, fun hT a ha ho hw => ?_⟩
  · obtain ⟨slot, c, h1, h2, h3⟩ := h.heap hT a ha hp
    exact ⟨slot, c, by rw [hh, h1], by rw [hv _ (outVar_given ha) hT, h2], h3⟩
  · rw [hv _ (outVar_given ha) hT]; exact h.absent hT a ha ho hw

/-- A new variable. -/
theorem Rel'.push (h : Rel' T args input wanted G W m s) {n : String} {c : Cell K} (hb : handle T args input wanted n = none)
    (hg : n ∉ givenNames T args ∨ T = .python false) (hN : n ≠ "None") :
    Rel' T args input wanted G ((n, some c) :: W) { m with vars := (n, c) :: m.vars } { s with vars := (n, .val c) :: s.vars } := by
  have hv : ∀ k, k ∈ givenNames T args → T ≠ .python false → find k ((n, c) :: m.vars) = find k m.vars := by
    intro k hk hT
    rw [find, if_neg]
    rintro rfl
    exact hg.elim (fun h => h hk) hT
  obtain ⟨h1, h2⟩ := h.heap_vars (m' := { m with vars := (n, c) :: m.vars }) (s' := { s with vars := (n, .val c) :: s.vars }) hv rfl
  refine ⟨by rw [Text.left, h.left], ?_, ?_, h.base.trans (.cons fun _ => hg), ?_, ?_, h.given, h1, h2, h.result⟩
  · show (n, Obj.val c) :: s.vars = (n, ((handle T args input wanted) n).getD (.val c)) :: Text.right _ W
    rw [hb, h.right]; rfl
  · intro p hp hn
    rcases List.mem_cons.1 hp with rfl | hp
    · cases hn
    · exact h.guards p hp hn
  · intro p hp
    rcases List.mem_cons.1 hp with rfl | hp
    · exact hN
    · exact h.plain p hp
  · intro hT k hk
    have := h.inside hT k hk
    show find k ((n, true) :: shape W) = _
    rw [find, if_neg, this]
    rintro rfl
    obtain ⟨q, hq, e'⟩ := List.mem_map.1 (mem_of_find this)
    obtain ⟨e1, e2⟩ := Prod.mk.inj e'
    have := (h.guards q hq (by cases hq2 : q.2 with | none => rfl | some c => rw [hq2] at e2; cases e2)).2.1
    simp only at e1
    rw [e1, hb] at this
    cases this

/-- A new value of a variable. -/
theorem Rel'.set (h : Rel' T args input wanted G W m s) {n : String} {c : Cell K} (hb : handle T args input wanted n = none)
    (hg : n ∉ givenNames T args ∨ T = .python false) :
    Rel' T args input wanted G (putLeft n c W) { m with vars := put n c m.vars } { s with vars := put n (.val c) s.vars } := by
  have hv : ∀ k, k ∈ givenNames T args → T ≠ .python false → find k (put n c m.vars) = find k m.vars := by
    intro k hk hT
    apply find_put_ne
    rintro rfl
    exact hg.elim (fun h => h hk) hT
  obtain ⟨h1, h2⟩ := h.heap_vars (m' := { m with vars := put n c m.vars }) (s' := { s with vars := put n (.val c) s.vars }) hv rfl
  refine ⟨by rw [left_putLeft, h.left], ?_, ?_, h.base.trans (.of_eq (shape_putLeft n c W)), ?_, ?_, h.given, h1, h2, h.result⟩
  · show put n _ s.vars = _
    rw [h.right, right_putLeft hb c h.guarded]
  · intro p hp hn
    rcases mem_putLeft hp with hp | hp
    · exact h.guards p hp hn
    · rw [hp.1] at hn; cases hn
  · intro p hp
    rcases mem_putLeft hp with hp | hp
    · exact h.plain p hp
    · obtain ⟨q, hq, e⟩ := List.mem_map.1 hp.2
      rw [hp.1]
      show n ≠ "None"
      rw [← e]
      exact h.plain q hq
  · intro hT k hk
    rw [shape_putLeft]; exact h.inside hT k hk

/-- An output is written. -/
theorem Rel'.write (hd : (givenNames T args).Nodup) (hT : T ≠ .python false) (h : Rel' T args input wanted G W m s) {a : Argument} (ha : a ∈ args)
    (hp : a.present wanted = true) {c : Cell K} {slot : Slot K} (h1 : Fits a.type slot) (h2 : SlotRel c slot) :
    Rel' T args input wanted G (putLeft (outVar T a) c W) { m with vars := put (outVar T a) c m.vars } { s with heap := put a.name slot s.heap } where
  left := by rw [left_putLeft, h.left]
  right := by
    show s.vars = _
    rw [h.right, right_putLeft_some (handle_out hd ha hp hT)]
  guards := fun p hp hn => by
    rcases mem_putLeft hp with hp | hp
    · exact h.guards p hp hn
    · rw [hp.1] at hn; cases hn
  base := h.base.trans (.of_eq (shape_putLeft _ c W))
  plain := fun p hp => by
    rcases mem_putLeft hp with hp | hp
    · exact h.plain p hp
    · obtain ⟨q, hq, e⟩ := List.mem_map.1 hp.2
      rw [hp.1]
      show outVar T a ≠ "None"
      rw [← e]
      exact h.plain q hq
  inside := fun hT k hk => by rw [shape_putLeft]; exact h.inside hT k hk
  given := h.given
  heap := fun _ b hb hpb => by
    obtain ⟨slot', c', h1', h2', h3'⟩ := h.heap hT b hb hpb
    by_cases e : b = a
    · subst e
      exact ⟨slot, c, find_put (find_isSome.1 (by rw [h1']; rfl)), find_put (find_isSome.1 (by rw [h2']; rfl)), h1, h2⟩
    · refine ⟨slot', c', ?_, ?_, h3'⟩
      · show find b.name (put a.name slot s.heap) = _
        rw [find_put_ne fun e' => e (name_inj hd hb ha e'), h1']
      · show find (outVar T b) (put (outVar T a) c m.vars) = _
        rw [find_put_ne fun e' => e (outVar_inj' hd hb ha e'), h2']
  absent := fun _ b hb ho hw => by
    show find (outVar T b) (put (outVar T a) c m.vars) = _
    rw [find_put_ne, h.absent hT b hb ho hw]
    intro e
    have := outVar_inj' hd hb ha e
    subst this
    simp [Argument.present, ho, hw] at hp
  result := h.result

/-- `if let` makes a name. -/
theorem Rel'.enter (h : Rel' T args input wanted G W m s) (hT : T = .rust) {n : String} (hb : (handle T args input wanted n).isSome = true) (hN : n ≠ "None")
    (hw : wanted n = true) :
    Rel' T args input wanted (n :: G) ((n, none) :: W) m { s with vars := (n, .ptr n) :: s.vars } where
  left := h.left
  right := by
    show (n, Obj.ptr n) :: s.vars = _
    rw [h.right]; rfl
  guards := fun p hp hn => by
    rcases List.mem_cons.1 hp with rfl | hp
    · exact ⟨hT, hb, List.mem_cons_self⟩
    · obtain ⟨h1, h2, h3⟩ := h.guards p hp hn
      exact ⟨h1, h2, List.mem_cons_of_mem _ h3⟩
  base := h.base.trans (.cons fun h => absurd rfl h)
  plain := fun p hp => by
    rcases List.mem_cons.1 hp with rfl | hp
    · exact hN
    · exact h.plain p hp
  inside := fun _ k hk => by
    show find k ((n, false) :: shape W) = _
    rw [find]
    by_cases e : n = k
    · rw [if_pos e]
    · rw [if_neg e]
      rcases List.mem_cons.1 hk with rfl | hk
      · exact absurd rfl e
      · exact h.inside hT k hk
  given := fun hT' k hk a ha e => by
    rcases List.mem_cons.1 hk with rfl | hk
    · exact hw
    · exact h.given hT' k hk a ha e
  heap := h.heap
  absent := h.absent
  result := h.result

/-- One more output is known to be wanted. -/
theorem Rel'.know (h : Rel' T args input wanted G W m s) (hT : T ≠ .rust) {n : String} (hw : T ≠ .python false → wanted n = true) :
    Rel' T args input wanted (n :: G) W m s where
  left := h.left
  right := h.right
  guards := fun p hp hn => absurd (h.guards p hp hn).1 hT
  base := h.base
  plain := h.plain
  inside := fun h => absurd h hT
  given := fun hT' k hk a ha e => by
    rcases List.mem_cons.1 hk with rfl | hk
    · exact hw hT'
    · exact h.given hT' k hk a ha e
  heap := h.heap
  absent := h.absent
  result := h.result

/-- After a block. -/
theorem Rel'.leave {G' : List String} {W' : Track K} {m' : Mem K} {s' : State K} (h : Rel' T args input wanted G W m s)
    (h' : Rel' T args input wanted G' W' m' s') (hg : Grown T args W W') :
    ∃ W1, Rel' T args input wanted G W1 { m' with vars := leaveBlock T m.vars m'.vars } { s' with vars := leaveBlock T s.vars s'.vars } ∧ Grown T args W W1 := by
  by_cases hT : ∃ b, T = .python b
  · obtain ⟨b, hT⟩ := hT
    refine ⟨W', ?_, hg⟩
    have e : ∀ {α : Type} (x y : List (String × α)), leaveBlock T x y = y := by intro α x y; rw [hT]; rfl
    rw [e, e]
    exact ⟨h'.left, h'.right, fun p hp hn => absurd ((h'.guards p hp hn).1.symm.trans hT) (by simp), h'.base, h'.plain, fun hr => (by rw [hT] at hr; cases hr), h.given, h'.heap, h'.absent, h'.result⟩
  · have e : ∀ {α : Type} (x y : List (String × α)), leaveBlock T x y = y.drop (y.length - x.length) := by
      intro α x y
      cases T with
      | python b => exact absurd ⟨b, rfl⟩ hT
      | _ => rfl
    obtain ⟨new, hs, hn⟩ := hg
    obtain ⟨a, W1, rfl, ha, h1, h2, h3⟩ := drop_split hs
    have hTp : T ≠ .python false := fun h => hT ⟨_, h⟩
    have hv : ∀ n, n ∈ givenNames T args → T ≠ .python false → find n (Text.left W1) = find n (Text.left (a ++ W1)) := by
      intro n hn' hT'
      rw [left_append, find_append]
      intro hm
      obtain ⟨p, hp, e⟩ := List.mem_map.1 hm
      have : (p.1, some p.2) ∈ a := by
        clear hs ha h2 h3 h' hm
        induction a with
        | nil => cases hp
        | cons q a ih =>
          obtain ⟨k, _ | d⟩ := q
          · exact List.mem_cons_of_mem _ (ih hp)
          · rcases List.mem_cons.1 hp with rfl | hp
            · exact List.mem_cons_self
            · exact List.mem_cons_of_mem _ (ih hp)
      have hmem : (p.1, true) ∈ new := by rw [← ha]; exact List.mem_map.2 ⟨_, this, rfl⟩
      rcases hn _ hmem rfl with h' | h'
      · exact h' (e ▸ hn')
      · exact hT' h'
    have hl : leaveBlock T m.vars m'.vars = Text.left W1 := by rw [e, h.left, h'.left, h2]
    have hr : leaveBlock T s.vars s'.vars = Text.right (handle T args input wanted) W1 := by rw [e, h.right, h'.right, h3]
    obtain ⟨k1, k2⟩ := h'.heap_vars (m' := { m' with vars := leaveBlock T m.vars m'.vars }) (s' := { s' with vars := leaveBlock T s.vars s'.vars })
      (fun n hn hT => by rw [hl, h'.left]; exact hv n hn hT) rfl
    refine ⟨W1, ⟨hl, hr, ?_, ?_, fun p hp => h'.plain p (List.mem_append_right _ hp), ?_, h.given, k1, k2, h'.result⟩,
      .of_eq h1⟩
    · intro p hp hn
      obtain ⟨k1, k2, _⟩ := h'.guards p (List.mem_append_right _ hp) hn
      refine ⟨k1, k2, ?_⟩
      have : (p.1, false) ∈ shape W := by
        rw [← h1]
        refine List.mem_map.2 ⟨p, hp, ?_⟩
        rw [hn]; rfl
      obtain ⟨q, hq, e⟩ := List.mem_map.1 this
      obtain ⟨e1, e2⟩ := Prod.mk.inj e
      have := (h.guards q hq (by cases hq2 : q.2 with | none => rfl | some c => rw [hq2] at e2; cases e2)).2.2
      rw [e1] at this
      exact this
    · obtain ⟨b, hb, hb'⟩ := h.base
      exact ⟨b, by rw [h1, hb], hb'⟩
    · intro hT k hk
      rw [h1]; exact h.inside hT k hk

end steps

end Wf.Gen.Text
