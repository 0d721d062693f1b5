import Verif.Gen.DescribeModel
import Verif.Gen.CallProps

/-!
# C75: function descriptions
-/

namespace Wf.Gen.Desc

open Mat (Mat newMatrix)

variable {E : Type}

/-! ## Specification -/

mutual
/-- The sizes of matrices fit `int`. -/
def Small : Ty → Prop
  | .scalar _ => True
  | .matrix r c => r * c < 2 ^ 31
  | .custom _ fs => SmallFields fs
def SmallFields : Fields → Prop
  | .nil => True
  | .cons _ t fs => Small t ∧ SmallFields fs
end

/-- The value a parameter is bound to: it has the declared type, and its elements are those of the argument of this name, in order. -/
def Fed (ip : Inputs E) (name : String) : Ty → Passed E → Prop
  | .scalar p, v => v = .expr (ip.elem name (.scalar p) 0)
  | .matrix r c, v => ∃ m : Mat E, v = .matrix m ∧ m.WF ∧ m.rows = r ∧ m.cols = c ∧ m.data = (List.range (r * c)).map (ip.elem name (.matrix r c))
  | .custom n fs, v => (fs = .nil ∧ v = .opaque (.custom n fs) (some (ip.whole name (.custom n fs)))) ∨
    (fs ≠ .nil ∧ ∃ a : Attrs E, v = .inst (.custom n fs) a ∧ a.Fits fs ∧
      (PyVal.inst a).toVal.elements = (List.range (Ty.custom n fs).totalSize).map (ip.elem name (.custom n fs)))

/-- A single value is the return value; a single `ReturnValue` or `OutputArg` is the sequence of it. -/
inductive Means : Returned E → List (Item E) → Prop
  | value (v : Passed E) : Means (.value v) [.returnValue v]
  | item (i : Item E) : Means (.item i) [i]
  | seq (is : List (Item E)) : Means (.seq is) is

/-- The values among the outputs. -/
def Item.value? : Item E → Option (Passed E)
  | .returnValue v => some v
  | .outputArg v _ _ => some v
  | .other => none

/-- The return values. -/
def returnValues (is : List (Item E)) : List (Passed E) :=
  is.filterMap fun | .returnValue v => some v | _ => none

/-- The output arguments. -/
def outputArgs (is : List (Item E)) : List (Passed E × String × Bool) :=
  is.filterMap fun | .outputArg v n o => some (v, n, o) | _ => none

/-- The matrices that a function returns are well formed. -/
def PyFn.Sound (f : PyFn E) : Prop :=
  ∀ kwargs r is, f.body kwargs = .ok r → Means r is → ∀ i ∈ is, ∀ v, i.value? = some v → v.WellFormed

/-- The argument for a parameter. -/
def InputFor (p : Param) (a : Argument) : Prop := a.name = p.name ∧ p.annotation = some a.type ∧ a.direction = .input

/-- The description holds the value under this key, and it has the type. -/
def Holds (d : Description E) (k : Usage × String) (v : Passed E) (t : Ty) : Prop :=
  ∃ x, Stands v x ∧ x.HasType t ∧ d.find k = .ok x

/-- The argument for an output. -/
def OutputFor (d : Description E) (o : Passed E × String × Bool) (a : Argument) : Prop :=
  a.name = o.2.1 ∧ a.direction = (if o.2.2 then .optional else .output) ∧
    Holds d (if o.2.2 then Usage.optional else Usage.output, o.2.1) o.1 a.type

/-- A value that can be an output. -/
def Allowed : Passed E → Prop
  | .expr _ => True
  | .number _ => True
  | .matrix m => m.WF
  | .inst t a => ∃ n fs, t = .custom n fs ∧ t.valid = true ∧ a.Fits fs
  | _ => False

/-! ## Inputs -/

mutual
theorem filled_of_ok : (t : Ty) → Small t → (es : List E) → ∀ r, t.fromFlat es = .ok r → t.Filled
  | .scalar _, _, _, _, _ => trivial
  | .matrix r c, hs, es, q, h => by
    refine ⟨Nat.pos_of_ne_zero fun h0 => ?_, hs⟩
    unfold Ty.fromFlat at h
    rw [h0] at h
    cases h
  | .custom n .nil, _, es, q, h => by cases h
  | .custom n (.cons f t fs), hs, es, q, h => by
    refine ⟨by simp, ?_⟩
    unfold Ty.fromFlat at h
    cases h1 : (Fields.cons f t fs).fromFlat es with
    | error e => dsimp only at h; rw [h1] at h; cases h
    | ok a => exact filled_of_ok_fields (.cons f t fs) hs es a h1
theorem filled_of_ok_fields : (fs : Fields) → SmallFields fs → (es : List E) → ∀ r, fs.fromFlat es = .ok r → fs.Filled
  | .nil, _, _, _, _ => trivial
  | .cons n t fs, hs, es, q, h => by
    unfold Fields.fromFlat at h
    by_cases he : es.isEmpty
    · rw [if_pos he] at h; cases h
    rw [if_neg he] at h
    cases h1 : t.fromFlat es with
    | error e => rw [h1] at h; cases h
    | ok v =>
      rw [h1] at h
      cases h2 : fs.fromFlat v.2 with
      | error e =>
        have : (do let a ← fs.fromFlat v.2; return (Attrs.cons n v.1 a.1, a.2) : Res (Attrs E × List E)) = .ok q := h
        rw [h2] at this; cases this
      | ok a => exact ⟨filled_of_ok t hs.1 es v h1, filled_of_ok_fields fs hs.2 v.2 a h2⟩
end

theorem newMatrix_small {r c : Nat} (h : r * c < 2 ^ 31) (es : List E) (hl : es.length = r * c) :
    newMatrix (r : Int) (c : Int) es = .ok ⟨r, c, es⟩ ∧ (⟨r, c, es⟩ : Mat E).WF := by
  have hsz : (r : Int) * (c : Int) = ((r * c : Nat) : Int) := by push_cast; rfl
  refine ⟨?_, ⟨by simp, by simp, by show (es.length : Int) = r * c; rw [hl, hsz], by show (r : Int) * c < 2 ^ 31; rw [hsz]; omega⟩⟩
  unfold newMatrix Mat.sizeProduct
  rw [hsz, hl]
  rw [if_neg (by omega), if_neg (by omega)]

/-- The value for a parameter. -/
theorem inputValue_fed (ip : Inputs E) (name : String) (t : Ty) (hs : Small t) (v : Passed E) (h : inputValue ip name t = .ok v) : Fed ip name t v := by
  match t, hs, h with
  | .scalar p, _, h => cases h; rfl
  | .matrix r c, hs, h =>
    obtain ⟨h1, h2⟩ := newMatrix_small hs ((List.range (r * c)).map (ip.elem name (.matrix r c))) (by simp)
    dsimp only [inputValue] at h
    rw [h1] at h
    cases h
    exact ⟨_, rfl, h2, rfl, rfl, rfl⟩
  | .custom n .nil, _, h => cases h; exact .inl ⟨rfl, rfl⟩
  | .custom n (.cons f u fs), hs, h =>
    refine .inr ⟨by simp, ?_⟩
    dsimp only [inputValue] at h
    cases h1 : (Ty.custom n (.cons f u fs)).fromFlat ((List.range (Ty.custom n (.cons f u fs)).totalSize).map (ip.elem name (.custom n (.cons f u fs)))) with
    | error e => rw [h1] at h; cases h
    | ok q =>
      have hf := filled_of_ok _ hs _ _ h1
      obtain ⟨w, e1, e2, e3⟩ := fromFlat_fits (.custom n (.cons f u fs))
        ((List.range (Ty.custom n (.cons f u fs)).totalSize).map (ip.elem name (.custom n (.cons f u fs)))) hf (by simp)
      rw [h1] at h
      rw [e1] at h1
      cases h1
      rw [List.take_of_length_le (by simp)] at e3
      match w, e2, e3, h with
      | .inst a, e2, e3, h => cases h; exact ⟨a, rfl, e2, e3⟩

theorem inputValue_ok (ip : Inputs E) (name : String) (t : Ty) (h : t.Filled ∨ ∃ n, t = .custom n .nil) : ∃ v, inputValue ip name t = .ok v := by
  match t, h with
  | .scalar p, _ => exact ⟨_, rfl⟩
  | .matrix r c, .inl h =>
    unfold Ty.Filled at h
    obtain ⟨h1, _⟩ := newMatrix_small h.2 ((List.range (r * c)).map (ip.elem name (.matrix r c))) (by simp)
    refine ⟨.matrix ⟨r, c, (List.range (r * c)).map (ip.elem name (.matrix r c))⟩, ?_⟩
    dsimp only [inputValue]
    rw [h1]
    rfl
  | .custom n .nil, _ => exact ⟨_, rfl⟩
  | .custom n (.cons f u fs), .inl h =>
    obtain ⟨w, e1, e2, e3⟩ := fromFlat_fits (.custom n (.cons f u fs))
      ((List.range (Ty.custom n (.cons f u fs)).totalSize).map (ip.elem name (.custom n (.cons f u fs)))) h (by simp)
    match w, e2, e1 with
    | .inst a, _, e1 =>
      refine ⟨.inst (.custom n (.cons f u fs)) a, ?_⟩
      dsimp only [inputValue]
      rw [e1]
      rfl
  | .matrix r c, .inr ⟨n, h⟩ => cases h
  | .custom n (.cons f u fs), .inr ⟨m, h⟩ => cases h

/-! ## Invariant -/

/-- The names are distinct and the indices are the positions. -/
structure Numbered (args : List Argument) : Prop where
  nodup : (args.map (·.name)).Nodup
  index : ∀ (i : Nat) a, args[i]? = some a → a.index = i

theorem Numbered.add {d d' : Description E} {name : String} {t : Ty} {dir : Direction} (hd : Numbered d.args)
    (h : d.addArgument name t dir = .ok d') : d' = { d with args := d.args ++ [⟨name, t, dir, d.args.length⟩] } ∧ Numbered d'.args ∧
      name ∉ d.args.map (·.name) := by
  unfold Description.addArgument at h
  by_cases hn : (d.args.any fun a => a.name == name) = true
  · rw [if_pos hn] at h; cases h
  rw [if_neg hn] at h
  cases h
  have hn' : name ∉ d.args.map (·.name) := fun hm => hn (by
    obtain ⟨a, ha, he⟩ := List.mem_map.1 hm
    exact List.any_eq_true.2 ⟨a, ha, by simp [he]⟩)
  refine ⟨rfl, ⟨?_, fun i a hi => ?_⟩, hn'⟩
  · simp only [List.map_append, List.map_cons, List.map_nil]
    rw [List.nodup_append]
    refine ⟨hd.nodup, by simp, fun x hx y hy hxy => ?_⟩
    simp only [List.mem_singleton] at hy
    exact hn' (by rw [← hy, ← hxy]; exact hx)
  · change (d.args ++ [_])[i]? = some a at hi
    rcases Nat.lt_trichotomy i d.args.length with hlt | heq | hgt
    · rw [List.getElem?_append_left hlt] at hi; exact hd.index i a hi
    · rw [List.getElem?_append_right (by omega), heq] at hi
      simp at hi
      rw [← hi, heq]
    · rw [List.getElem?_append_right (by omega)] at hi
      have : i - d.args.length ≠ 0 := by omega
      simp [List.getElem?_cons, this] at hi

theorem addArgument_ok (d : Description E) {name : String} (t : Ty) (dir : Direction) (h : name ∉ d.args.map (·.name)) :
    d.addArgument name t dir = .ok { d with args := d.args ++ [⟨name, t, dir, d.args.length⟩] } := by
  unfold Description.addArgument
  rw [if_neg]
  intro hn
  obtain ⟨a, ha, he⟩ := List.any_eq_true.1 hn
  exact h (List.mem_map.2 ⟨a, ha, by simpa using he⟩)

theorem addInputs_spec (ip : Inputs E) : (ps : List Param) → (∀ p ∈ ps, ∀ t, p.annotation = some t → Small t) → ∀ (d : Description E) r, Numbered d.args →
    addInputs ip ps d = .ok r → ∃ ins, r.1 = { d with args := d.args ++ ins } ∧ Numbered r.1.args ∧ List.Forall₂ InputFor ps ins ∧
      List.Forall₂ (fun p kv => kv.1 = p.name ∧ ∃ t, p.annotation = some t ∧ Fed ip p.name t kv.2) ps r.2
  | [], _, d, r, hd, h => by
    cases h
    exact ⟨[], by simp, hd, .nil, .nil⟩
  | p :: ps, hs, d, r, hd, h => by
    unfold addInputs at h
    cases ht : p.annotation with
    | none => rw [ht] at h; cases h
    | some t =>
      rw [ht] at h
      dsimp only at h
      cases h1 : d.addArgument p.name t .input with
      | error e => rw [h1] at h; cases h
      | ok d1 =>
        rw [h1] at h
        cases h2 : inputValue ip p.name t with
        | error e =>
          have h' : (do let v ← inputValue ip p.name t; let r ← addInputs ip ps d1; return (r.1, (p.name, v) :: r.2) : Res _) = .ok r := h
          rw [h2] at h'; cases h'
        | ok v =>
          have h' : (do let v ← inputValue ip p.name t; let r ← addInputs ip ps d1; return (r.1, (p.name, v) :: r.2) : Res _) = .ok r := h
          rw [h2] at h'
          have h'' : (do let r ← addInputs ip ps d1; return (r.1, (p.name, v) :: r.2) : Res _) = .ok r := h'
          cases h3 : addInputs ip ps d1 with
          | error e => rw [h3] at h''; cases h''
          | ok q =>
            rw [h3] at h''
            cases h''
            obtain ⟨e1, e2, _⟩ := hd.add h1
            obtain ⟨ins, i1, i2, i3, i4⟩ := addInputs_spec ip ps (fun p hp => hs p (List.mem_cons_of_mem _ hp)) d1 q e2 h3
            refine ⟨⟨p.name, t, .input, d.args.length⟩ :: ins, ?_, i2, .cons ⟨rfl, ht, rfl⟩ i3, .cons ⟨rfl, t, ht, inputValue_fed ip p.name t (hs p (by simp) t ht) v h2⟩ i4⟩
            show q.1 = _
            rw [i1, e1]
            simp

theorem addInputs_ok (ip : Inputs E) : (ps : List Param) → (∀ p ∈ ps, ∃ t, p.annotation = some t ∧ (t.Filled ∨ ∃ n, t = .custom n .nil)) →
    ∀ d : Description E, (d.args.map (·.name) ++ ps.map (·.name)).Nodup → ∃ r, addInputs ip ps d = .ok r ∧
      r.1.args.map (·.name) = d.args.map (·.name) ++ ps.map (·.name) ∧ r.1.ret = d.ret
  | [], _, d, _ => ⟨_, rfl, by simp, rfl⟩
  | p :: ps, hp, d, hn => by
    obtain ⟨t, ht, hf⟩ := hp p (by simp)
    obtain ⟨v, hv⟩ := inputValue_ok ip p.name t hf
    have hnot : p.name ∉ d.args.map (·.name) := fun hm => by
      rw [List.nodup_append] at hn
      exact hn.2.2 _ hm _ (by simp) rfl
    have h1 := addArgument_ok d t .input hnot
    obtain ⟨q, hq1, hq2, hq3⟩ := addInputs_ok ip ps (fun p' h' => hp p' (List.mem_cons_of_mem _ h')) { d with args := d.args ++ [⟨p.name, t, .input, d.args.length⟩] }
      (by simpa using hn)
    refine ⟨(q.1, (p.name, v) :: q.2), ?_, by simpa using hq2, hq3⟩
    unfold addInputs
    rw [ht]
    dsimp only
    rw [h1]
    show (do let v ← inputValue ip p.name t; let r ← addInputs ip ps _; return (r.1, (p.name, v) :: r.2) : Res _) = _
    rw [hv]
    show (do let r ← addInputs ip ps _; return (r.1, (p.name, v) :: r.2) : Res _) = _
    rw [hq1]
    rfl

/-! ## Outputs -/

theorem outputValue_spec {v : Passed E} (hw : v.WellFormed) {o : Ty × AnyArg E} (h : outputValue v = .ok o) : Stands v o.2 ∧ o.2.HasType o.1 := by
  cases v with
  | expr x => cases h; exact ⟨.expr x, rfl⟩
  | number x => cases h; exact ⟨.number x, rfl⟩
  | matrix m =>
    cases h
    have h1 := Mat.WF.rows_nonneg hw
    have h2 := Mat.WF.cols_nonneg hw
    exact ⟨.matrix m, m.rows.toNat, m.cols.toNat, rfl, by omega, by omega⟩
  | inst t a =>
    dsimp only [outputValue] at h
    cases t with
    | scalar p => cases h
    | matrix r c => cases h
    | custom n fs =>
      cases h1 : (Ty.custom n fs).toFlat (.inst a) with
      | error e => rw [h1] at h; cases h
      | ok es =>
        rw [h1] at h
        have h' : (if es.length = (Ty.custom n fs).totalSize then Except.ok (Ty.custom n fs, AnyArg.struct (.custom n fs) es) else .error .assertion : Res (Ty × AnyArg E)) = .ok o := h
        by_cases hl : es.length = (Ty.custom n fs).totalSize
        · rw [if_pos hl] at h'; cases h'; exact ⟨.struct n fs a es h1, rfl, hl⟩
        · rw [if_neg hl] at h'; cases h'
  | «opaque» t p => cases h
  | other => cases h

theorem outputValue_ok {v : Passed E} (h : Allowed v) : ∃ o, outputValue v = .ok o := by
  cases v with
  | expr x => exact ⟨_, rfl⟩
  | number x => exact ⟨_, rfl⟩
  | matrix m => exact ⟨_, rfl⟩
  | inst t a =>
    obtain ⟨n, fs, rfl, hv, hf⟩ := h
    have hfit : (PyVal.inst a).Fits (.custom n fs) := by unfold PyVal.Fits; exact hf
    have h1 := toFlat_fits (.custom n fs) (.inst a) hv hfit
    have h2 := elements_length _ _ (PyVal.Fits.val _ _ hfit)
    refine ⟨(.custom n fs, .struct (.custom n fs) (PyVal.inst a).toVal.elements), ?_⟩
    unfold outputValue
    dsimp only
    rw [h1]
    show (if _ = _ then _ else _ : Res (Ty × AnyArg E)) = _
    exact if_pos h2
  | «opaque» t p => exact h.elim
  | other => exact h.elim

/-- The keys of a description belong to its outputs, and are distinct. -/
structure Keyed (d : Description E) : Prop where
  ret : d.ret = none → ∀ p ∈ d.outputs, p.1.1 ≠ .returnValue
  args : ∀ p ∈ d.outputs, p.1.1 ≠ .returnValue → p.1.2 ∈ d.args.map (·.name)

theorem find_mono {d : Description E} {args : List Argument} {r : Option Ty} {k k' : Usage × String} {x v : AnyArg E} (h : d.find k = .ok x) :
    (⟨args, r, emplace d.outputs k' v⟩ : Description E).find k = .ok x := by
  unfold Description.find at h ⊢
  cases hf : d.outputs.find? fun p => p.1 == k with
  | none => rw [hf] at h; cases h
  | some p =>
    rw [hf] at h
    dsimp only [emplace]
    by_cases hc : (d.outputs.any fun p => p.1 == k') = true
    · rw [if_pos hc, hf]; exact h
    · rw [if_neg hc, List.find?_append, hf]; exact h

theorem find_new {d : Description E} {args : List Argument} {r : Option Ty} {k : Usage × String} {v : AnyArg E} (h : ∀ p ∈ d.outputs, p.1 ≠ k) :
    (⟨args, r, emplace d.outputs k v⟩ : Description E).find k = .ok v := by
  have h1 : ¬ (d.outputs.any fun p => p.1 == k) = true := fun hc => by
    obtain ⟨p, hp, he⟩ := List.any_eq_true.1 hc
    exact h p hp (by simpa using he)
  have h2 : (d.outputs.find? fun p => p.1 == k) = none := List.find?_eq_none.2 fun p hp he => h p hp (by simpa using he)
  unfold Description.find
  dsimp only [emplace]
  rw [if_neg h1, List.find?_append, h2]
  simp

theorem mem_emplace {m : List ((Usage × String) × AnyArg E)} {k : Usage × String} {v : AnyArg E} {p : (Usage × String) × AnyArg E} (h : p ∈ emplace m k v) :
    p ∈ m ∨ p = (k, v) := by
  unfold emplace at h
  by_cases hc : (m.any fun p => p.1 == k) = true
  · rw [if_pos hc] at h; exact .inl h
  · rw [if_neg hc] at h
    simpa using h

/-- What one more output does. -/
theorem addItem_spec {d d' : Description E} {i : Item E} (hd : Numbered d.args) (hk : Keyed d) (hw : ∀ v, i.value? = some v → v.WellFormed)
    (h : d.addItem i = .ok d') : Numbered d'.args ∧ Keyed d' ∧ (∀ k x, d.find k = .ok x → d'.find k = .ok x) ∧
      ((∃ v t, i = .returnValue v ∧ d.ret = none ∧ d'.ret = some t ∧ d'.args = d.args ∧ Holds d' (.returnValue, "") v t) ∨
       (∃ v n o a, i = .outputArg v n o ∧ d'.ret = d.ret ∧ d'.args = d.args ++ [a] ∧ OutputFor d' (v, n, o) a)) := by
  cases i with
  | returnValue v =>
    unfold Description.addItem at h
    dsimp only at h
    cases h1 : outputValue v with
    | error e => rw [h1] at h; cases h
    | ok o =>
      rw [h1] at h
      have h' : d.setReturn o.1 o.2 = .ok d' := h
      unfold Description.setReturn at h'
      obtain ⟨s1, s2⟩ := outputValue_spec (hw v rfl) h1
      cases hr : d.ret with
      | some t => rw [hr] at h'; cases h'
      | none =>
        rw [hr, if_neg (by simp)] at h'
        cases h'
        refine ⟨hd, ⟨fun hc => by simp at hc, fun p hp hne => ?_⟩, fun k x hx => find_mono hx, .inl ⟨v, o.1, rfl, rfl, rfl, rfl, o.2, s1, s2, find_new fun p hp he => ?_⟩⟩
        · rcases mem_emplace hp with hp | rfl
          · exact hk.args p hp hne
          · exact absurd rfl hne
        · exact hk.ret hr p hp (by rw [he])
  | outputArg v n opt =>
    unfold Description.addItem at h
    dsimp only at h
    cases h1 : outputValue v with
    | error e => rw [h1] at h; cases h
    | ok o =>
      rw [h1] at h
      have h' : d.addOutput n o.1 opt o.2 = .ok d' := h
      unfold Description.addOutput at h'
      obtain ⟨s1, s2⟩ := outputValue_spec (hw v rfl) h1
      cases h2 : d.addArgument n o.1 (if opt then .optional else .output) with
      | error e => rw [h2] at h'; cases h'
      | ok d1 =>
        rw [h2] at h'
        cases h'
        obtain ⟨e1, e2, e3⟩ := hd.add h2
        subst e1
        have hu : (if opt = true then Usage.optional else Usage.output) ≠ .returnValue := by cases opt <;> decide
        refine ⟨e2, ⟨fun hc p hp => ?_, fun p hp hne => ?_⟩, fun k x hx => find_mono (d := d) hx, .inr ⟨v, n, opt, _, rfl, rfl, rfl, rfl, rfl, o.2, s1, s2, find_new (d := d) fun p hp he => ?_⟩⟩
        · rcases mem_emplace hp with hp | rfl
          · exact hk.ret hc p hp
          · exact hu
        · rcases mem_emplace hp with hp | rfl
          · show p.1.2 ∈ (d.args ++ [(_ : Argument)]).map (fun a : Argument => a.name)
            rw [List.map_append]
            exact List.mem_append_left _ (hk.args p hp hne)
          · show n ∈ (d.args ++ [(⟨n, o.1, _, d.args.length⟩ : Argument)]).map (fun a : Argument => a.name)
            simp
        · have h3 := hk.args p hp (by rw [he]; exact hu)
          rw [he] at h3
          exact e3 h3
  | other => cases h

theorem Holds.mono {d d' : Description E} (hm : ∀ k x, d.find k = .ok x → d'.find k = .ok x) {k : Usage × String} {v : Passed E} {t : Ty} (h : Holds d k v t) :
    Holds d' k v t := by
  obtain ⟨x, h1, h2, h3⟩ := h
  exact ⟨x, h1, h2, hm _ _ h3⟩

theorem addItems_spec : (is : List (Item E)) → ∀ d d' : Description E, Numbered d.args → Keyed d → (∀ i ∈ is, ∀ v, i.value? = some v → v.WellFormed) →
    d.addItems is = .ok d' → Numbered d'.args ∧ (∀ k x, d.find k = .ok x → d'.find k = .ok x) ∧
      (∃ outs, d'.args = d.args ++ outs ∧ List.Forall₂ (OutputFor d') (outputArgs is) outs) ∧
      ((returnValues is = [] ∧ d'.ret = d.ret) ∨ (d.ret = none ∧ ∃ v t, returnValues is = [v] ∧ d'.ret = some t ∧ Holds d' (.returnValue, "") v t))
  | [], d, d', hd, _, _, h => by
    cases h
    exact ⟨hd, fun _ _ h => h, ⟨[], by simp, .nil⟩, .inl ⟨rfl, rfl⟩⟩
  | i :: is, d, d', hd, hk, hw, h => by
    unfold Description.addItems at h
    cases h1 : d.addItem i with
    | error e => rw [h1] at h; cases h
    | ok d1 =>
      rw [h1] at h
      have h' : Description.addItems is d1 = .ok d' := h
      obtain ⟨a1, a2, a3, a4⟩ := addItem_spec hd hk (hw i (by simp)) h1
      obtain ⟨b1, b2, ⟨outs, b3, b4⟩, b5⟩ := addItems_spec is d1 d' a1 a2 (fun j hj => hw j (List.mem_cons_of_mem _ hj)) h'
      refine ⟨b1, fun k x hx => b2 _ _ (a3 _ _ hx), ?_⟩
      rcases a4 with ⟨v, t, rfl, c1, c2, c3, c4⟩ | ⟨v, n, o, a, rfl, c1, c2, c3, c4, c5⟩
      · refine ⟨⟨outs, by rw [b3, c3], b4⟩, .inr ⟨c1, v, t, ?_⟩⟩
        rcases b5 with ⟨e1, e2⟩ | ⟨e1, _⟩
        · exact ⟨by simpa [returnValues] using e1, by rw [e2, c2], c4.mono b2⟩
        · rw [c2] at e1; cases e1
      · refine ⟨⟨a :: outs, by rw [b3, c2]; simp, .cons ⟨c3, c4, c5.mono b2⟩ b4⟩, ?_⟩
        rw [c1] at b5
        exact b5

theorem addItems_ok : (is : List (Item E)) → ∀ d : Description E, (∀ i ∈ is, ∃ v, i.value? = some v ∧ Allowed v) →
    (d.args.map (·.name) ++ (outputArgs is).map (·.2.1)).Nodup → (returnValues is = [] ∨ (d.ret = none ∧ (returnValues is).length ≤ 1)) →
    ∃ d', d.addItems is = .ok d'
  | [], d, _, _, _ => ⟨d, rfl⟩
  | i :: is, d, ha, hn, hr => by
    obtain ⟨v, hv, hal⟩ := ha i (by simp)
    obtain ⟨o, ho⟩ := outputValue_ok hal
    have hrest := fun j hj => ha j (List.mem_cons_of_mem i hj)
    cases i with
    | other => cases hv
    | returnValue w =>
      cases hv
      have hl : (returnValues (.returnValue v :: is)).length = (returnValues is).length + 1 := rfl
      have hr' : d.ret = none ∧ returnValues is = [] := by
        rcases hr with hr | ⟨h1, h2⟩
        · rw [hr] at hl; simp at hl
        · exact ⟨h1, List.eq_nil_of_length_eq_zero (by omega)⟩
      obtain ⟨d', hd'⟩ := addItems_ok is { d with ret := some o.1, outputs := emplace d.outputs (.returnValue, "") o.2 } hrest hn (.inl hr'.2)
      refine ⟨d', ?_⟩
      have h1 : d.addItem (.returnValue v) = .ok { d with ret := some o.1, outputs := emplace d.outputs (.returnValue, "") o.2 } := by
        unfold Description.addItem
        dsimp only
        rw [ho]
        show d.setReturn o.1 o.2 = _
        unfold Description.setReturn
        rw [hr'.1, if_neg (by simp)]
      unfold Description.addItems
      rw [h1]
      exact hd'
    | outputArg w n opt =>
      cases hv
      have hn' : (d.args.map (·.name) ++ n :: (outputArgs is).map (·.2.1)).Nodup := hn
      have hnot : n ∉ d.args.map (·.name) := fun hm => by
        rw [List.nodup_append] at hn'
        exact hn'.2.2 _ hm _ (by simp) rfl
      have h2 := addArgument_ok d o.1 (if opt then .optional else .output) hnot
      obtain ⟨d', hd'⟩ := addItems_ok is
        ⟨d.args ++ [⟨n, o.1, if opt then .optional else .output, d.args.length⟩], d.ret, emplace d.outputs (if opt then Usage.optional else Usage.output, n) o.2⟩ hrest
        (by simpa using hn') hr
      refine ⟨d', ?_⟩
      have h1 : d.addItem (.outputArg v n opt) =
          .ok ⟨d.args ++ [⟨n, o.1, if opt then .optional else .output, d.args.length⟩], d.ret, emplace d.outputs (if opt then Usage.optional else Usage.output, n) o.2⟩ := by
        unfold Description.addItem
        dsimp only
        rw [ho]
        show d.addOutput n o.1 opt o.2 = _
        unfold Description.addOutput
        rw [h2]
        rfl
      unfold Description.addItems
      rw [h1]
      exact hd'

theorem items_means {r : Returned E} {is : List (Item E)} (h : r.items = .ok is) : Means r is := by
  cases r with
  | value v => cases v <;> first | (cases h; exact .value _) | cases h
  | item i => cases i <;> first | (cases h; exact .item _) | cases h
  | seq is => cases h; exact .seq _

/-! ## C75 -/

/-- A description of a function: the function was called once, every parameter bound to a value of its type whose elements are those of the
argument of its name; the arguments are the parameters in order followed by the output arguments in the order in which they were returned, with
distinct names and numbered in order; the description holds every output under its own key, with its type; and there is at most one return value.
(Parameters that can only be passed by keyword are not arguments.) -/
theorem C75_description (ip : Inputs E) (f : PyFn E) (hs : ∀ p ∈ f.params, ∀ t, p.annotation = some t → Small t) (hw : f.Sound)
    (d : Description E) (h : describe ip f = .ok d) :
    ∃ kwargs r is ins outs, f.body kwargs = .ok r ∧ Means r is ∧
      List.Forall₂ (fun p kv => kv.1 = p.name ∧ ∃ t, p.annotation = some t ∧ Fed ip p.name t kv.2) (f.params.filter fun p => p.kind ≠ .keywordOnly) kwargs ∧
      d.args = ins ++ outs ∧ List.Forall₂ InputFor (f.params.filter fun p => p.kind ≠ .keywordOnly) ins ∧ List.Forall₂ (OutputFor d) (outputArgs is) outs ∧
      (d.args.map (·.name)).Nodup ∧ (∀ (i : Nat) a, d.args[i]? = some a → a.index = i) ∧
      ((returnValues is = [] ∧ d.ret = none) ∨ ∃ v t, returnValues is = [v] ∧ d.ret = some t ∧ Holds d (.returnValue, "") v t) := by
  unfold describe at h
  cases h1 : addInputs ip f.listed ⟨[], none, []⟩ with
  | error e => rw [h1] at h; cases h
  | ok q =>
    rw [h1] at h
    have h' : (do let returned ← f.call q.2; let items ← returned.items; q.1.addItems items : Res (Description E)) = .ok d := h
    cases h2 : f.call q.2 with
    | error e => rw [h2] at h'; cases h'
    | ok r =>
      rw [h2] at h'
      have h'' : (do let items ← r.items; q.1.addItems items : Res (Description E)) = .ok d := h'
      cases h3 : r.items with
      | error e => rw [h3] at h''; cases h''
      | ok is =>
        rw [h3] at h''
        have h4 : q.1.addItems is = .ok d := h''
        have hb : f.body q.2 = .ok r := by
          unfold PyFn.call at h2
          by_cases c1 : (f.params.any fun p => p.kind == .positionalOnly) = true
          · rw [if_pos c1] at h2; cases h2
          rw [if_neg c1] at h2
          by_cases c2 : (f.params.any fun p => p.kind == .keywordOnly && !p.hasDefault) = true
          · rw [if_pos c2] at h2; cases h2
          rw [if_neg c2] at h2
          exact h2
        obtain ⟨ins, e1, e2, e3, e4⟩ := addInputs_spec ip f.listed (fun p hp => hs p (List.mem_of_mem_filter hp)) ⟨[], none, []⟩ q ⟨by simp, by simp⟩ h1
        have hm := items_means h3
        have hk : Keyed q.1 := by
          rw [e1]
          exact ⟨fun _ p hp => (by cases hp), fun p hp => (by cases hp)⟩
        obtain ⟨b1, _, ⟨outs, b3, b4⟩, b5⟩ := addItems_spec is q.1 d e2 hk (hw q.2 r is hb hm) h4
        refine ⟨q.2, r, is, ins, outs, hb, hm, e4, by rw [b3, e1]; simp, e3, b4, b1.nodup, b1.index, ?_⟩
        rw [e1] at b5
        rcases b5 with b5 | ⟨_, b5⟩
        · exact .inl b5
        · exact .inr b5

/-- A function with annotated parameters is described if it returns allowed values, names of outputs that are distinct and not those of
parameters, and at most one return value. Partial: the parameters can be passed by position and by keyword, and their types are opaque or have no
opaque members (see `C75_parameters_refuted`, `C71_opaque_refuted`); a return value that stands alone is an expression or an instance. -/
theorem C75_accepts_partial (ip : Inputs E) (f : PyFn E)
    (hp : ∀ p ∈ f.params, p.kind = .ordinary ∧ ∃ t, p.annotation = some t ∧ (t.Filled ∨ ∃ n, t = .custom n .nil))
    (hb : ∀ kwargs, ∃ is, f.body kwargs = .ok (.seq is) ∧ (∀ i ∈ is, ∃ v, i.value? = some v ∧ Allowed v) ∧
      (f.params.map (·.name) ++ (outputArgs is).map (·.2.1)).Nodup ∧ (returnValues is).length ≤ 1) :
    ∃ d, describe ip f = .ok d := by
  have hl : f.listed = f.params := List.filter_eq_self.2 fun p h => by simp [(hp p h).1]
  obtain ⟨_, _, _, hn0, _⟩ := hb []
  obtain ⟨q, q1, q2, q3⟩ := addInputs_ok ip f.params (fun p h => (hp p h).2) ⟨[], none, []⟩ (by simpa using (List.nodup_append.1 hn0).1)
  obtain ⟨is, h1, h2, h3, h4⟩ := hb q.2
  obtain ⟨d, hd⟩ := addItems_ok is q.1 h2 (by rw [q2]; simpa using h3) (.inr ⟨q3, h4⟩)
  refine ⟨d, ?_⟩
  have hc : f.call q.2 = .ok (.seq is) := by
    unfold PyFn.call
    rw [if_neg, if_neg, h1]
    · intro hc
      obtain ⟨p, hm, he⟩ := List.any_eq_true.1 hc
      simp [(hp p hm).1] at he
    · intro hc
      obtain ⟨p, hm, he⟩ := List.any_eq_true.1 hc
      simp [(hp p hm).1] at he
  unfold describe
  rw [hl, q1]
  show (do let returned ← f.call q.2; let items ← returned.items; q.1.addItems items : Res (Description E)) = _
  rw [hc]
  exact hd

/-- Annotated functions with a parameter that can only be passed by position, or only by keyword, are refused, whatever they compute. -/
theorem C75_parameters_refuted (ip : Inputs E) (t : Ty) (body : List (String × Passed E) → Res (Returned E)) :
    (∀ b, ∃ e, describe ip ⟨[⟨"x", .positionalOnly, some t, b⟩], body⟩ = .error e) ∧
    ∃ e, describe ip ⟨[⟨"x", .keywordOnly, some t, false⟩], body⟩ = .error e := by
  refine ⟨fun b => ?_, ⟨_, rfl⟩⟩
  have hd : (⟨[], none, []⟩ : Description E).addArgument "x" t .input = .ok ⟨[⟨"x", t, .input, 0⟩], none, []⟩ := addArgument_ok _ t .input (by simp)
  cases hv : inputValue ip "x" t with
  | error e =>
    refine ⟨e, ?_⟩
    show (do let r ← addInputs ip [⟨"x", .positionalOnly, some t, b⟩] ⟨[], none, []⟩; _ : Res (Description E)) = _
    unfold addInputs
    dsimp only
    rw [hd]
    show (do let r ← (do let v ← inputValue ip "x" t; _ : Res _); _ : Res (Description E)) = _
    rw [hv]
    rfl
  | ok v =>
    refine ⟨.type, ?_⟩
    show (do let r ← addInputs ip [⟨"x", .positionalOnly, some t, b⟩] ⟨[], none, []⟩; _ : Res (Description E)) = _
    unfold addInputs
    dsimp only
    rw [hd]
    show (do let r ← (do let v ← inputValue ip "x" t; _ : Res _); _ : Res (Description E)) = _
    rw [hv]
    rfl

/-- Parameters that can only be passed by keyword and have a default are left out without an error: the arguments of the generated function
are not those of the Python function. -/
theorem C75_default_refuted (ip : Inputs E) :
    ∃ f : PyFn E, (∀ p ∈ f.params, p.annotation = some (.scalar .floating)) ∧ f.params.length = 2 ∧ ∃ d, describe ip f = .ok d ∧ d.args.length = 1 :=
  ⟨⟨[⟨"x", .ordinary, some (.scalar .floating), false⟩, ⟨"y", .keywordOnly, some (.scalar .floating), true⟩], fun _ => .ok (.seq [])⟩,
    by intro p hp; simp at hp; rcases hp with rfl | rfl <;> rfl, rfl, _, rfl, rfl⟩

/-- A function that returns its opaque argument is refused. -/
theorem C75_opaque_refuted (ip : Inputs E) (n : String) :
    describe ip ⟨[⟨"x", .ordinary, some (.custom n .nil), false⟩], fun kw => .ok (.seq (kw.map fun k => .returnValue k.2))⟩ = .error .type := rfl

/-- The example of the documentation: `def foo(x, y): return [ReturnValue(x * y), OutputArg(x + y, "z")]`. -/
def foo : PyFn String where
  params := [⟨"x", .ordinary, some (.scalar .floating), false⟩, ⟨"y", .ordinary, some (.scalar .floating), false⟩]
  body := fun kw => match kw with
    | [(_, .expr x), (_, .expr y)] => .ok (.seq [.returnValue (.expr (x ++ "*" ++ y)), .outputArg (.expr (x ++ "+" ++ y)) "z" false])
    | _ => .error .type

example : ∃ d, describe ⟨fun n _ _ => n, fun n _ => n⟩ foo = .ok d ∧
    d.args = [⟨"x", .scalar .floating, .input, 0⟩, ⟨"y", .scalar .floating, .input, 1⟩, ⟨"z", .scalar .floating, .output, 2⟩] ∧
    d.ret = some (.scalar .floating) ∧ d.find (.returnValue, "") = .ok (.scalar "x*y") ∧ d.find (.output, "z") = .ok (.scalar "x+y") :=
  ⟨_, rfl, rfl, rfl, rfl, rfl⟩

example : (∀ p ∈ foo.params, ∀ t, p.annotation = some t → Small t) ∧ foo.Sound := by
  refine ⟨fun p hp t ht => ?_, fun kw r is hb hm i hi v hv => ?_⟩
  · simp [foo] at hp
    rcases hp with rfl | rfl <;> cases ht <;> trivial
  · unfold foo at hb
    dsimp only at hb
    split at hb
    · cases hb
      cases hm
      simp at hi
      rcases hi with rfl | rfl <;> cases hv <;> trivial
    · cases hb

/-- A struct and an optional output. -/
def bar : PyFn String where
  params := [⟨"s", .ordinary, some twoVectors, false⟩]
  body := fun _ => .ok (.seq [.outputArg (.matrix ⟨1, 2, ["a", "b"]⟩) "m" true])

example : ∃ d, describe ⟨fun n _ i => n ++ i.repr, fun n _ => n⟩ bar = .ok d :=
  C75_accepts_partial _ bar (fun p hp => by
    simp [bar] at hp
    subst hp
    exact ⟨rfl, twoVectors, rfl, .inl (by simp [twoVectors, Ty.Filled, Fields.Filled])⟩)
    fun kw => ⟨_, rfl, fun i hi => by
      simp at hi
      subst hi
      exact ⟨_, rfl, by constructor <;> decide⟩, by decide, by decide⟩

end Wf.Gen.Desc
