import Verif.Gen.FactorizeProps
import Verif.Gen.AstSpec

/-!
# The passes keep what the converter assumes about its input

`Convertible` (`FlowSpec.lean`) and `Typed` (`AstSpec.lean`) say what the conversion to blocks and to structured code may assume. Here: every
optimisation pass keeps these rules. `Shape` puts them together in a form that every single edit of the block keeps.
-/

namespace Wf.Gen

/-- What the rules say about an operation `o` and one of its operands, made by `p`. -/
def LinkOK (info : AstInfo) (o p : Op) : Prop :=
  (∀ k, p ≠ .save k) ∧ (∀ i, o = .get i → info.scalarGet i = true → ∃ f, p = .callExternal f) ∧
  ∀ key, o = .save key → info.usage key ≠ .returnValue → info.kind key = .matrix → ∃ t, p = .construct t ∧ info.matrix t = true

/-- Operations that the rules say nothing special about. -/
def Neutral (o : Op) : Prop :=
  (∀ i, o ≠ .get i) ∧ (∀ k, o ≠ .save k) ∧ o ≠ .cond ∧ o ≠ .phi ∧ o ≠ .jump ∧ ∀ n, o ≠ .outputRequired n

/-- Operations whose results are replaced by others. -/
def Fluid (o : Op) : Prop := o = .add ∨ o = .mul ∨ o = .copy

structure Shape (info : AstInfo) (g : Graph) : Prop where
  nodup : g.ops.Nodup
  lt : ∀ v ∈ g.ops, v < g.next
  closed : ∀ v ∈ g.ops, ∀ a ∈ (g.node v).args, a ∈ g.ops
  links : ∀ v ∈ g.ops, ∀ a ∈ (g.node v).args, LinkOK info (g.node v).op (g.node a).op
  cond : ∀ v ∈ g.ops, (g.node v).op = .cond → (g.node v).args.length = 3
  get : ∀ v ∈ g.ops, ∀ i, (g.node v).op = .get i → (g.node v).args.length = 1
  flat : ∀ v ∈ g.ops, (g.node v).op ≠ .phi ∧ (g.node v).op ≠ .jump ∧ ∀ n, (g.node v).op ≠ .outputRequired n
  once : ∀ v ∈ g.ops, ∀ w ∈ g.ops, ∀ key, (g.node v).op = .save key → (g.node w).op = .save key → v = w
  oneReturn : ∀ v ∈ g.ops, ∀ w ∈ g.ops, ∀ key key', (g.node v).op = .save key → (g.node w).op = .save key' → info.usage key = .returnValue →
    info.usage key' = .returnValue → v = w

/-- A value of the block that is not an output. -/
def ValueOf (g : Graph) (a : Nat) : Prop := a ∈ g.ops ∧ ∀ k, (g.node a).op ≠ .save k

/-- Operations are added but none is removed or changed in kind. -/
structure Grow (g g' : Graph) : Prop where
  ops : ∀ v ∈ g.ops, v ∈ g'.ops
  op : ∀ v ∈ g.ops, (g'.node v).op = (g.node v).op

theorem Grow.refl (g : Graph) : Grow g g := ⟨fun _ h => h, fun _ _ => rfl⟩

theorem Grow.trans {a b c : Graph} (h : Grow a b) (h' : Grow b c) : Grow a c :=
  ⟨fun v hv => h'.ops v (h.ops v hv), fun v hv => (h'.op v (h.ops v hv)).trans (h.op v hv)⟩

theorem Grow.val {g g' : Graph} (h : Grow g g') {a : Nat} (ha : ValueOf g a) : ValueOf g' a :=
  ⟨h.ops a ha.1, fun k => by rw [h.op a ha.1]; exact ha.2 k⟩

theorem Grow.vals {g g' : Graph} (h : Grow g g') {l : List Nat} (ha : ∀ a ∈ l, ValueOf g a) : ∀ a ∈ l, ValueOf g' a := fun a hl => h.val (ha a hl)

variable {info : AstInfo}

theorem LinkOK.neutral {o p : Op} (ho : Neutral o) (hp : ∀ k, p ≠ .save k) : LinkOK info o p :=
  ⟨hp, fun i hi => absurd hi (ho.1 i), fun k hk => absurd hk (ho.2.1 k)⟩

theorem LinkOK.swap {o p q : Op} (h : LinkOK info o p) (hp : Fluid p) (hq : ∀ k, q ≠ .save k) : LinkOK info o q := by
  refine ⟨hq, fun i hi hs => ?_, fun k hk hu hm => ?_⟩
  · obtain ⟨f, hf⟩ := h.2.1 i hi hs
    rcases hp with hp | hp | hp <;> rw [hp] at hf <;> cases hf
  · obtain ⟨t, ht, _⟩ := h.2.2 k hk hu hm
    rcases hp with hp | hp | hp <;> rw [hp] at ht <;> cases ht

theorem Shape.val {g : Graph} (h : Shape info g) {v a : Nat} (hv : v ∈ g.ops) (ha : a ∈ (g.node v).args) : ValueOf g a :=
  ⟨h.closed v hv a ha, (h.links v hv a ha).1⟩

theorem neutral_add : Neutral .add := by simp [Neutral]
theorem neutral_mul : Neutral .mul := by simp [Neutral]
theorem neutral_neg : Neutral .neg := by simp [Neutral]
theorem neutral_load (l : Load) : Neutral (.load l) := by simp [Neutral]
theorem neutral_cast (t : Nat) : Neutral (.cast t) := by simp [Neutral]

/-! ## The edits -/

/-- What the rules ask of a new operation. -/
structure NewOp (info : AstInfo) (g : Graph) (op : Op) (args : List Nat) : Prop where
  operands : ∀ a ∈ args, ValueOf g a ∧ LinkOK info op (g.node a).op
  cond : op = .cond → args.length = 3
  get : ∀ i, op = .get i → args.length = 1
  flat : op ≠ .phi ∧ op ≠ .jump ∧ ∀ n, op ≠ .outputRequired n
  once : ∀ key, op = .save key → ∀ v ∈ g.ops, (g.node v).op ≠ .save key
  oneReturn : ∀ key, op = .save key → info.usage key = .returnValue → ∀ v ∈ g.ops, ∀ key', (g.node v).op = .save key' → info.usage key' ≠ .returnValue

theorem Shape.pushOp {g : Graph} (h : Shape info g) {op : Op} {args : List Nat} (hop : NewOp info g op args) :
    Shape info (g.push op args).1 ∧ Grow g (g.push op args).1 := by
  have hold : ∀ v ∈ g.ops, (g.push op args).1.node v = g.node v := fun v hv => if_neg (Nat.ne_of_lt (h.lt v hv))
  have hnew : (g.push op args).1.node g.next = mkNode op args := if_pos rfl
  have hops : (g.push op args).1.ops = g.ops ++ [g.next] := rfl
  have hmem : ∀ v ∈ (g.push op args).1.ops, v ∈ g.ops ∨ v = g.next := by
    intro v hv
    rw [hops, List.mem_append, List.mem_singleton] at hv
    exact hv
  have hin : ∀ v ∈ g.ops, v ∈ (g.push op args).1.ops := fun v hv => by rw [hops]; exact List.mem_append_left _ hv
  refine ⟨⟨?_, ?_, ?_, ?_, ?_, ?_, ?_, ?_, ?_⟩, hin, fun v hv => by rw [hold v hv]⟩
  · rw [hops, List.nodup_append]
    refine ⟨h.nodup, by simp, ?_⟩
    intro a ha b hb
    rw [List.mem_singleton] at hb
    exact hb ▸ Nat.ne_of_lt (h.lt a ha)
  · intro v hv
    show v < g.next + 1
    rcases hmem v hv with hv | rfl
    · exact Nat.lt_succ_of_lt (h.lt v hv)
    · exact Nat.lt_succ_self _
  · intro v hv a hav
    rcases hmem v hv with hv | rfl
    · rw [hold v hv] at hav; exact hin a (h.closed v hv a hav)
    · rw [hnew, mem_mkNode] at hav; exact hin a (hop.operands a hav).1.1
  · intro v hv a hav
    rcases hmem v hv with hv | rfl
    · rw [hold v hv] at hav ⊢; rw [hold a (h.closed v hv a hav)]; exact h.links v hv a hav
    · rw [hnew, mem_mkNode] at hav; rw [hnew, op_mkNode, hold a (hop.operands a hav).1.1]; exact (hop.operands a hav).2
  · intro v hv hc
    rcases hmem v hv with hv | rfl
    · rw [hold v hv] at hc ⊢; exact h.cond v hv hc
    · rw [hnew, op_mkNode] at hc; rw [hnew, length_mkNode]; exact hop.cond hc
  · intro v hv i hc
    rcases hmem v hv with hv | rfl
    · rw [hold v hv] at hc ⊢; exact h.get v hv i hc
    · rw [hnew, op_mkNode] at hc; rw [hnew, length_mkNode]; exact hop.get i hc
  · intro v hv
    rcases hmem v hv with hv | rfl
    · rw [hold v hv]; exact h.flat v hv
    · rw [hnew, op_mkNode]; exact hop.flat
  · intro v hv w hw key h1 h2
    rcases hmem v hv with hv | rfl <;> rcases hmem w hw with hw | rfl
    · rw [hold v hv] at h1; rw [hold w hw] at h2; exact h.once v hv w hw key h1 h2
    · rw [hold v hv] at h1; rw [hnew, op_mkNode] at h2; exact absurd h1 (hop.once key h2 v hv)
    · rw [hold w hw] at h2; rw [hnew, op_mkNode] at h1; exact absurd h2 (hop.once key h1 w hw)
    · rfl
  · intro v hv w hw key key' h1 h2 u1 u2
    rcases hmem v hv with hv | rfl <;> rcases hmem w hw with hw | rfl
    · rw [hold v hv] at h1; rw [hold w hw] at h2; exact h.oneReturn v hv w hw key key' h1 h2 u1 u2
    · rw [hold v hv] at h1; rw [hnew, op_mkNode] at h2; exact absurd u1 (hop.oneReturn key' h2 u2 v hv key h1)
    · rw [hold w hw] at h2; rw [hnew, op_mkNode] at h1; exact absurd u2 (hop.oneReturn key h1 u1 w hw key' h2)
    · rfl

theorem val_push {g : Graph} {op : Op} {args : List Nat} (hop : ∀ k, op ≠ .save k) : ValueOf (g.push op args).1 (g.push op args).2 :=
  ⟨List.mem_append_right _ List.mem_cons_self, fun k => by
    rw [show (g.push op args).1.node (g.push op args).2 = mkNode op args from if_pos rfl]; exact hop k⟩

theorem Shape.push {g : Graph} (h : Shape info g) {op : Op} {args : List Nat} (hop : Neutral op) (ha : ∀ a ∈ args, ValueOf g a) :
    Shape info (g.push op args).1 ∧ Grow g (g.push op args).1 ∧ ValueOf (g.push op args).1 (g.push op args).2 := by
  obtain ⟨h1, h2⟩ := h.pushOp (op := op) (args := args) ⟨fun a hl => ⟨ha a hl, LinkOK.neutral hop (ha a hl).2⟩, fun hc => absurd hc hop.2.2.1, fun i hi => absurd hi (hop.1 i),
    hop.2.2.2, fun k hk => absurd hk (hop.2.1 k), fun k hk => absurd hk (hop.2.1 k)⟩
  exact ⟨h1, h2, val_push hop.2.1⟩

/-- A new operand list for every operation: of the same kind of operands, or anything for a neutral operation. -/
theorem Shape.rewire {g g' : Graph} (h : Shape info g) (hops : g'.ops = g.ops) (hnext : g'.next = g.next) (hop : ∀ v ∈ g.ops, (g'.node v).op = (g.node v).op)
    (hargs : ∀ v ∈ g.ops, (∀ b ∈ (g'.node v).args, ValueOf g b ∧ LinkOK info (g.node v).op (g.node b).op) ∧
      ((g'.node v).args.length = (g.node v).args.length ∨ Neutral (g.node v).op)) : Shape info g' ∧ Grow g g' := by
  refine ⟨⟨hops ▸ h.nodup, ?_, ?_, ?_, ?_, ?_, ?_, ?_, ?_⟩, fun v hv => hops ▸ hv, hop⟩
  · intro v hv; rw [hops] at hv; rw [hnext]; exact h.lt v hv
  · intro v hv a ha; rw [hops] at hv ⊢; exact ((hargs v hv).1 a ha).1.1
  · intro v hv a ha
    rw [hops] at hv
    obtain ⟨h1, h2⟩ := (hargs v hv).1 a ha
    rw [hop v hv, hop a h1.1]; exact h2
  · intro v hv hc
    rw [hops] at hv; rw [hop v hv] at hc
    rcases (hargs v hv).2 with h1 | h1
    · rw [h1]; exact h.cond v hv hc
    · exact absurd hc h1.2.2.1
  · intro v hv i hc
    rw [hops] at hv; rw [hop v hv] at hc
    rcases (hargs v hv).2 with h1 | h1
    · rw [h1]; exact h.get v hv i hc
    · exact absurd hc (h1.1 i)
  · intro v hv; rw [hops] at hv; rw [hop v hv]; exact h.flat v hv
  · intro v hv w hw; rw [hops] at hv hw; rw [hop v hv, hop w hw]; exact h.once v hv w hw
  · intro v hv w hw; rw [hops] at hv hw; rw [hop v hv, hop w hw]; exact h.oneReturn v hv w hw

theorem Shape.replaceWith {g g' : Graph} {v w : Nat} (h : Shape info g) (hw : ValueOf g w) (hv : Fluid (g.node v).op ∨ (g.node w).op = (g.node v).op)
    (he : g.replaceWith v w = .ok g') : Shape info g' ∧ Grow g g' := by
  unfold Graph.replaceWith at he
  by_cases hvw : v = w
  · rw [if_pos hvw] at he; cases he
  · rw [if_neg hvw] at he
    cases he
    refine h.rewire rfl rfl (fun u _ => op_replaceArg _ _ _) fun u hu => ?_
    have hok : ∀ a ∈ (g.node u).args, ValueOf g a ∧ LinkOK info (g.node u).op (g.node a).op := fun a ha => ⟨h.val hu ha, h.links u hu a ha⟩
    show (∀ b ∈ (replaceArg v w (g.node u)).args, _) ∧ ((replaceArg v w (g.node u)).args.length = _ ∨ _)
    unfold replaceArg
    by_cases hm : v ∈ (g.node u).args
    · rw [if_pos hm]
      refine ⟨fun b hb => ?_, Or.inl (by rw [length_mkNode, List.length_map])⟩
      rw [mem_mkNode, List.mem_map] at hb
      obtain ⟨a, ha, rfl⟩ := hb
      by_cases hav : a = v
      · rw [if_pos hav]
        refine ⟨hw, ?_⟩
        have hl := h.links u hu v hm
        rcases hv with hv | hv
        · exact hl.swap hv hw.2
        · rw [hv]; exact hl
      · rw [if_neg hav]; exact hok a ha
    · rw [if_neg hm]; exact ⟨hok, Or.inl rfl⟩

theorem Shape.setArgs {g : Graph} {v : Nat} {n : Node} (h : Shape info g) (hop : n.op = (g.node v).op) (hn : Neutral (g.node v).op)
    (ha : ∀ a ∈ n.args, ValueOf g a) : Shape info (g.setNode v n) ∧ Grow g (g.setNode v n) := by
  refine h.rewire rfl rfl (fun u _ => ?_) fun u hu => ?_
  · show (if u = v then n else g.node u).op = _
    by_cases huv : u = v
    · rw [if_pos huv, huv]; exact hop
    · rw [if_neg huv]
  · show (∀ b ∈ (if u = v then n else g.node u).args, _) ∧ ((if u = v then n else g.node u).args.length = _ ∨ _)
    by_cases huv : u = v
    · rw [if_pos huv]
      subst huv
      exact ⟨fun b hb => ⟨ha b hb, LinkOK.neutral hn (ha b hb).2⟩, Or.inr hn⟩
    · rw [if_neg huv]
      exact ⟨fun a ha => ⟨h.val hu ha, h.links u hu a ha⟩, Or.inl rfl⟩

/-- Only some operations are kept. -/
theorem Shape.restrict {g g' : Graph} (h : Shape info g) (hnd : g'.ops.Nodup) (hsub : ∀ v ∈ g'.ops, v ∈ g.ops) (hnode : ∀ v ∈ g'.ops, g'.node v = g.node v)
    (hnext : g'.next = g.next) (hc : ∀ v ∈ g'.ops, ∀ a ∈ (g'.node v).args, a ∈ g'.ops) : Shape info g' := by
  refine ⟨hnd, fun v hv => hnext ▸ h.lt v (hsub v hv), hc, ?_, ?_, ?_, ?_, ?_, ?_⟩
  · intro v hv a ha
    rw [hnode a (hc v hv a ha)]
    rw [hnode v hv] at ha ⊢
    exact h.links v (hsub v hv) a ha
  · intro v hv; rw [hnode v hv]; exact h.cond v (hsub v hv)
  · intro v hv; rw [hnode v hv]; exact h.get v (hsub v hv)
  · intro v hv; rw [hnode v hv]; exact h.flat v (hsub v hv)
  · intro v hv w hw; rw [hnode v hv, hnode w hw]; exact h.once v (hsub v hv) w (hsub w hw)
  · intro v hv w hw; rw [hnode v hv, hnode w hw]; exact h.oneReturn v (hsub v hv) w (hsub w hw)

theorem Shape.removeUnused {g : Graph} (h : Shape info g) : Shape info g.removeUnused := by
  have S := reverseRemove_spec g g.ops h.nodup
  have hnode : ∀ u ∈ g.removeUnused.ops, g.removeUnused.node u = g.node u := fun u hu => S.node u (Or.inr hu)
  have hsub : ∀ u ∈ g.removeUnused.ops, u ∈ g.ops := fun u hu => S.sub.subset hu
  refine h.restrict (h.nodup.sublist S.sub) hsub hnode S.next fun v hv a ha => ?_
  by_contra hc
  have ha' : a ∈ (g.node v).args := by rw [← hnode v hv]; exact ha
  exact (S.gone a (h.closed v (hsub v hv) a ha') hc).2.2 v (hsub v hv) ha

theorem Shape.topologicalSort {g g' : Graph} (h : Shape info g) (hw : WF g') (he : g.topologicalSort = .ok g') : Shape info g' := by
  obtain ⟨out, e, h1, h2, _⟩ := topo_run g h.nodup h.closed
  rw [e] at he
  by_cases hl : out.length = g.ops.length
  · rw [if_pos hl] at he
    cases he
    exact h.restrict hw.nodup (fun v hv => h2 v (List.mem_reverse.mp hv)) (fun _ _ => rfl) rfl hw.closed
  · rw [if_neg hl] at he; cases he

/-! ## Duplicates and copies -/

theorem Shape.lvnLoop (vs : List Nat) : ∀ (g : Graph) (table : List Nat) (g' : Graph), Shape info g → (∀ v ∈ vs, v ∈ g.ops) → (∀ u ∈ table, u ∈ g.ops) →
    lvnLoop g table vs = .ok g' → Shape info g' := by
  induction vs with
  | nil => intro g table g' h _ _ he; rw [Gen.lvnLoop] at he; cases he; exact h
  | cons v vs ih =>
    intro g table g' h hvs htab he
    have hv := hvs v List.mem_cons_self
    rw [Gen.lvnLoop] at he
    cases hf : table.find? fun u => g.node u == g.node v with
    | none =>
      rw [hf] at he
      refine ih g (v :: table) g' h (fun u hu => hvs u (List.mem_cons_of_mem _ hu)) ?_ he
      intro u hu
      rcases List.mem_cons.mp hu with rfl | hu
      · exact hv
      · exact htab u hu
    | some u =>
      rw [hf] at he
      simp only at he
      have hu := htab u (List.mem_of_find?_eq_some hf)
      have heq : g.node u = g.node v := by simpa using List.find?_some hf
      have hphi : g.consumedByPhi v = false := by
        unfold Graph.consumedByPhi
        rw [List.any_eq_false]
        intro x hx
        simp [(h.flat x hx).1]
      rw [hphi] at he
      simp only [Bool.false_eq_true, if_false] at he
      cases h1 : g.replaceWith v u with
      | error e => rw [h1] at he; cases he
      | ok g1 =>
        rw [h1] at he
        have hne : v ≠ u := by
          rintro rfl
          unfold Graph.replaceWith at h1
          rw [if_pos rfl] at h1
          cases h1
        have hval : ValueOf g u := ⟨hu, fun k hk => hne (h.once v hv u hu k (heq ▸ hk) hk)⟩
        obtain ⟨s1, gr⟩ := h.replaceWith hval (Or.inr (by rw [heq])) h1
        exact ih g1 table g' s1 (fun x hx => gr.ops x (hvs x (List.mem_cons_of_mem _ hx))) (fun x hx => gr.ops x (htab x hx)) he

theorem Shape.eliminateDuplicates {g g' : Graph} (h : Shape info g) (he : g.eliminateDuplicates = .ok g') : Shape info g' := by
  unfold Graph.eliminateDuplicates at he
  cases h1 : Gen.lvnLoop g [] g.ops with
  | error e => rw [h1] at he; cases he
  | ok g1 =>
    rw [h1] at he
    cases he
    exact (Shape.lvnLoop g.ops g [] g1 h (fun _ h => h) (by simp) h1).removeUnused

theorem copy_keeps {g : Graph} (h : Shape info g) {v : Nat} (hn : Neutral (g.node v).op) : Shape info (g.remove v) ∧ Grow g (g.remove v) :=
  h.setArgs rfl hn (by simp)

theorem neutral_copy : Neutral .copy := by simp [Neutral]

theorem Shape.copiesLoop (vs : List Nat) : ∀ (g g' : Graph) (kept : List Nat), Shape info g → (∀ v ∈ vs, v ∈ g.ops) →
    copiesLoop g vs = .ok (g', kept) → Shape info g' ∧ (∀ v ∈ kept, v ∈ g'.ops) ∧ g'.ops = g.ops := by
  induction vs with
  | nil => intro g g' kept h _ he; rw [Gen.copiesLoop] at he; cases he; exact ⟨h, by simp, rfl⟩
  | cons v vs ih =>
    intro g g' kept h hvs he
    have hv := hvs v List.mem_cons_self
    have htl : ∀ x ∈ vs, x ∈ g.ops := fun x hx => hvs x (List.mem_cons_of_mem _ hx)
    rw [Gen.copiesLoop] at he
    have hother : (match Gen.copiesLoop g vs with | .ok (g', kept) => Except.ok (g', v :: kept) | .error e => .error e) = Except.ok (g', kept) →
        Shape info g' ∧ (∀ v ∈ kept, v ∈ g'.ops) ∧ g'.ops = g.ops := by
      intro he
      cases h1 : Gen.copiesLoop g vs with
      | error e => rw [h1] at he; cases he
      | ok p =>
        obtain ⟨g1, k1⟩ := p
        rw [h1] at he
        cases he
        obtain ⟨a1, a2, a3⟩ := ih g g' k1 h htl h1
        refine ⟨a1, fun x hx => ?_, a3⟩
        rcases List.mem_cons.mp hx with rfl | hx
        · rw [a3]; exact hv
        · exact a2 x hx
    split at he
    · rename_i u us hn
      cases h1 : g.replaceWith v u with
      | error e => rw [h1] at he; cases he
      | ok g1 =>
        rw [h1] at he
        simp only at he
        have hval : ValueOf g u := h.val hv (by rw [hn]; exact List.mem_cons_self)
        obtain ⟨s1, gr1⟩ := h.replaceWith hval (Or.inl (by rw [hn]; exact Or.inr (Or.inr rfl))) h1
        have hcopy : (g1.node v).op = .copy := by rw [gr1.op v hv, hn]
        obtain ⟨s2, gr2⟩ := copy_keeps s1 (v := v) (by rw [hcopy]; exact neutral_copy)
        obtain ⟨a1, a2, a3⟩ := ih (g1.remove v) g' kept s2 (fun x hx => gr2.ops x (gr1.ops x (htl x hx))) he
        refine ⟨a1, a2, a3.trans ?_⟩
        show g1.ops = g.ops
        unfold Graph.replaceWith at h1
        split at h1
        · cases h1
        · cases h1; rfl
    · cases he
    · exact hother he

theorem Shape.eliminateCopies {g g' : Graph} (h : Shape info g) (hw : WF g') (he : g.eliminateCopies = .ok g') : Shape info g' := by
  unfold Graph.eliminateCopies at he
  cases h1 : Gen.copiesLoop g g.ops with
  | error e => rw [h1] at he; cases he
  | ok p =>
    obtain ⟨g1, kept⟩ := p
    rw [h1] at he
    cases he
    obtain ⟨a1, a2, _⟩ := Shape.copiesLoop g.ops g g1 kept h (fun _ h => h) h1
    exact a1.restrict hw.nodup a2 (fun _ _ => rfl) rfl hw.closed

/-! ## Loops over operations -/

theorem Shape.forOps {f : Graph → Nat → Res Graph} (hf : ∀ g v g', Shape info g → v ∈ g.ops → f g v = .ok g' → Shape info g' ∧ Grow g g') (vs : List Nat) :
    ∀ g g', Shape info g → (∀ v ∈ vs, v ∈ g.ops) → forOps f g vs = .ok g' → Shape info g' := by
  induction vs with
  | nil => intro g g' h _ he; rw [Gen.forOps] at he; cases he; exact h
  | cons v vs ih =>
    intro g g' h hvs he
    rw [Gen.forOps] at he
    cases h1 : f g v with
    | error e => rw [h1] at he; cases he
    | ok g1 =>
      rw [h1] at he
      obtain ⟨s1, gr⟩ := hf g v g1 h (hvs v List.mem_cons_self) h1
      exact ih g1 g' s1 (fun x hx => gr.ops x (hvs x (List.mem_cons_of_mem _ hx))) he

theorem Shape.productOf {g : Graph} (h : Shape info g) (l : List Nat) (hl : ∀ a ∈ l, ValueOf g a) :
    Shape info (productOf g l).1 ∧ Grow g (productOf g l).1 ∧ ValueOf (productOf g l).1 (productOf g l).2 := by
  unfold Gen.productOf
  split
  · exact ⟨h, Grow.refl g, hl _ List.mem_cons_self⟩
  · exact h.push neutral_mul hl

theorem Shape.negationStep (g : Graph) (v : Nat) (g' : Graph) (h : Shape info g) (hv : v ∈ g.ops) (he : negationStep g v = .ok g') : Shape info g' ∧ Grow g g' := by
  unfold Gen.negationStep at he
  by_cases hm : (g.node v).op = .mul
  · rw [if_neg (by simpa using hm)] at he
    simp only at he
    split at he
    · cases he; exact ⟨h, Grow.refl g⟩
    · have hoth : ∀ a ∈ (g.node v).args.filter (fun a => !isNegOne g (g.next + 1) a), ValueOf g a := fun a ha => h.val hv (List.mem_filter.mp ha).1
      obtain ⟨s1, gr1, w1⟩ := h.productOf _ hoth
      split at he
      · obtain ⟨s2, gr2, w2⟩ := s1.push (op := .neg) neutral_neg (args := [_]) (by intro a ha; rw [List.mem_singleton] at ha; rw [ha]; exact w1)
        have gr := gr1.trans gr2
        obtain ⟨s3, gr3⟩ := s2.replaceWith w2 (Or.inl (by rw [gr.op v hv, hm]; exact Or.inr (Or.inl rfl))) he
        exact ⟨s3, gr.trans gr3⟩
      · obtain ⟨s3, gr3⟩ := s1.replaceWith w1 (Or.inl (by rw [gr1.op v hv, hm]; exact Or.inr (Or.inl rfl))) he
        exact ⟨s3, gr1.trans gr3⟩
  · rw [if_pos hm] at he
    cases he
    exact ⟨h, Grow.refl g⟩

theorem Shape.insertNegations {g g' : Graph} (h : Shape info g) (hw : WF g') (he : g.insertNegations = .ok g') : Shape info g' := by
  unfold Graph.insertNegations at he
  cases h1 : Gen.forOps Gen.negationStep g g.ops with
  | error e => rw [h1] at he; cases he
  | ok g1 =>
    rw [h1] at he
    exact (Shape.forOps Shape.negationStep g.ops g g1 h (fun _ h => h) h1).removeUnused.topologicalSort hw he

theorem Shape.mergeStep (g : Graph) (v : Nat) (g' : Graph) (h : Shape info g) (hv : v ∈ g.ops) (he : mergeStep g v = .ok g') : Shape info g' ∧ Grow g g' := by
  unfold Gen.mergeStep at he
  by_cases hm : (g.node v).op = .mul
  · rw [if_neg (by simpa using hm)] at he
    simp only at he
    split at he
    · cases he
      refine h.setArgs (by rw [op_mkNode, hm]) (by rw [hm]; exact neutral_mul) fun a ha => ?_
      rw [mem_mkNode, List.mem_flatMap] at ha
      obtain ⟨b, hb, hab⟩ := ha
      split at hab
      · exact h.val (h.closed v hv b hb) hab
      · rw [List.mem_singleton] at hab; rw [hab]; exact h.val hv hb
    · cases he; exact ⟨h, Grow.refl g⟩
  · rw [if_pos hm] at he
    cases he
    exact ⟨h, Grow.refl g⟩

theorem Shape.mergeMultiplications {g g' : Graph} (h : Shape info g) (he : g.mergeMultiplications = .ok g') : Shape info g' := by
  unfold Graph.mergeMultiplications at he
  cases h1 : Gen.forOps Gen.mergeStep g g.ops with
  | error e => rw [h1] at he; cases he
  | ok g1 =>
    rw [h1] at he
    cases he
    exact (Shape.forOps Shape.mergeStep g.ops g g1 h (fun _ h => h) h1).removeUnused

/-! ## Splitting into pairs -/

theorem Shape.pairConsumer {a b new : Nat} {op : Op} (hop : op = .add ∨ op = .mul) (g : Graph) (c : Nat) (g' : Graph) (h : Shape info g) (hc : c ∈ g.ops)
    (hco : (g.node c).op = op) (hnew : ValueOf g new) (he : pairConsumer a b new g c = .ok g') : Shape info g' ∧ Grow g g' := by
  have hneu : Neutral (g.node c).op := by rw [hco]; rcases hop with rfl | rfl; exacts [neutral_add, neutral_mul]
  have hfl : Fluid (g.node c).op := by rw [hco]; rcases hop with rfl | rfl; exacts [Or.inl rfl, Or.inr (Or.inl rfl)]
  unfold Gen.pairConsumer at he
  split at he
  · cases he
    obtain ⟨rest, e1, e2⟩ := replacePair_perm a b new (g.node c)
    refine h.setArgs (by rw [e1, op_mkNode]) hneu fun x hx => ?_
    rw [e1, mem_mkNode, List.mem_append] at hx
    rcases hx with hx | hx
    · exact h.val hc (e2.mem_iff.mpr (by simp [hx]))
    · rw [(List.mem_replicate.mp hx).2]; exact hnew
  · split at he
    · split at he
      · exact h.replaceWith hnew (Or.inl hfl) he
      · cases he; exact ⟨h, Grow.refl g⟩
    · cases he

theorem Shape.pairConsumers {a b new : Nat} {op : Op} (hop : op = .add ∨ op = .mul) (cs : List Nat) : ∀ (g : Graph) (act : List Nat) (g' : Graph) (act' : List Nat),
    Shape info g → (∀ c ∈ cs, c ∈ g.ops ∧ (g.node c).op = op) → ValueOf g new → pairConsumers a b new g act cs = .ok (g', act') → Shape info g' ∧ Grow g g' := by
  induction cs with
  | nil => intro g act g' act' h _ _ he; rw [Gen.pairConsumers] at he; cases he; exact ⟨h, Grow.refl g⟩
  | cons c cs ih =>
    intro g act g' act' h hcs hnew he
    rw [Gen.pairConsumers] at he
    cases h1 : Gen.pairConsumer a b new g c with
    | error e => rw [h1] at he; cases he
    | ok g1 =>
      rw [h1] at he
      obtain ⟨h2, h3⟩ := hcs c List.mem_cons_self
      obtain ⟨s1, gr1⟩ := Shape.pairConsumer hop g c g1 h h2 h3 hnew h1
      obtain ⟨s2, gr2⟩ := ih g1 _ g' act' s1 (fun x hx => ⟨gr1.ops x (hcs x (List.mem_cons_of_mem _ hx)).1, by
        rw [gr1.op x (hcs x (List.mem_cons_of_mem _ hx)).1]; exact (hcs x (List.mem_cons_of_mem _ hx)).2⟩) (gr1.val hnew) he
      exact ⟨s2, gr1.trans gr2⟩

theorem Shape.pairSteps {op : Op} (hop : op = .add ∨ op = .mul) (ss : List PairStep) : ∀ (g : Graph) (act : List Nat) (g' : Graph) (act' : List Nat),
    Shape info g → (∀ s ∈ ss, ValueOf g s.a ∧ ValueOf g s.b ∧ ∀ c ∈ s.consumers, c ∈ g.ops ∧ (g.node c).op = op) → pairSteps op g act ss = .ok (g', act') → Shape info g' := by
  have hneu : Neutral op := by rcases hop with rfl | rfl; exacts [neutral_add, neutral_mul]
  induction ss with
  | nil => intro g act g' act' h _ he; rw [Gen.pairSteps] at he; cases he; exact h
  | cons s ss ih =>
    intro g act g' act' h hss he
    rw [Gen.pairSteps] at he
    obtain ⟨va, vb, hcs⟩ := hss s List.mem_cons_self
    obtain ⟨s1, gr1, w1⟩ := h.push hneu (args := [s.a, s.b]) (by
      intro x hx
      simp only [List.mem_cons, List.not_mem_nil, or_false] at hx
      rcases hx with rfl | rfl; exacts [va, vb])
    cases h1 : Gen.pairConsumers s.a s.b (g.push op [s.a, s.b]).2 (g.push op [s.a, s.b]).1 act s.consumers with
    | error e => rw [h1] at he; cases he
    | ok p =>
      obtain ⟨g1, act1⟩ := p
      rw [h1] at he
      obtain ⟨s2, gr2⟩ := Shape.pairConsumers hop s.consumers _ act g1 act1 s1 (fun c hc => ⟨gr1.ops c (hcs c hc).1, by
        rw [gr1.op c (hcs c hc).1]; exact (hcs c hc).2⟩) w1 h1
      have gr := gr1.trans gr2
      refine ih g1 act1 g' act' s2 (fun t ht => ?_) he
      obtain ⟨ta, tb, tc⟩ := hss t (List.mem_cons_of_mem _ ht)
      exact ⟨gr.val ta, gr.val tb, fun c hc => ⟨gr.ops c (tc c hc).1, by rw [gr.op c (tc c hc).1]; exact (tc c hc).2⟩⟩

theorem Shape.binarizeLoop {op : Op} (hop : op = .add ∨ op = .mul) (fuel : Nat) : ∀ (g : Graph) (act : List Nat) (g' : Graph),
    Shape info g → binarizeLoop op (identify op) fuel g act = .ok g' → Shape info g' := by
  induction fuel with
  | zero =>
    intro g act g' h he
    match act with
    | [] => rw [Gen.binarizeLoop] at he; cases he; exact h
    | _ :: _ => rw [Gen.binarizeLoop] at he; cases he
  | succ fuel ih =>
    intro g act g' h he
    match act with
    | [] => rw [Gen.binarizeLoop] at he; cases he; exact h
    | a :: as =>
      rw [Gen.binarizeLoop] at he
      cases h1 : Gen.pairSteps op g [] (identify op g (a :: as)) with
      | error e => rw [h1] at he; cases he
      | ok p =>
        obtain ⟨g1, act1⟩ := p
        rw [h1] at he
        refine ih g1 act1 g' (Shape.pairSteps hop _ g [] g1 act1 h (fun s hs => ?_) h1) he
        obtain ⟨k1, k2⟩ := identify_spec op g (a :: as) s hs
        obtain ⟨c, hc⟩ := List.exists_mem_of_ne_nil _ k1
        obtain ⟨c1, _, _, c4, c5⟩ := k2 c hc
        exact ⟨h.val c1 c4, h.val c1 c5, fun c hc => ⟨(k2 c hc).1, (k2 c hc).2.1⟩⟩

theorem Shape.binarizeType {op : Op} (hop : op = .add ∨ op = .mul) {fuel : Nat} {g g' : Graph} (h : Shape info g) (hw : WF g')
    (he : g.binarizeType op (identify op) fuel = .ok g') : Shape info g' := by
  unfold Graph.binarizeType at he
  cases h1 : Gen.binarizeLoop op (identify op) fuel g g.ops with
  | error e => rw [h1] at he; cases he
  | ok g1 =>
    rw [h1] at he
    exact (Shape.binarizeLoop hop fuel g g.ops g1 h h1).removeUnused.topologicalSort hw he

/-! ## Factorisation -/

theorem Shape.pushProduct {g : Graph} (h : Shape info g) (cast : Option Nat) (l : List Nat) (hl : ∀ a ∈ l, ValueOf g a) :
    Shape info (pushProduct cast g l).1 ∧ Grow g (pushProduct cast g l).1 ∧ ValueOf (pushProduct cast g l).1 (pushProduct cast g l).2 := by
  unfold Gen.pushProduct
  split
  · split
    · exact h.push (neutral_load _) (by simp)
    · obtain ⟨s1, gr1, w1⟩ := h.push (neutral_load (.int 1)) (args := []) (by simp)
      rename_i t
      obtain ⟨s2, gr2, w2⟩ := s1.push (neutral_cast t) (args := [_]) (by intro a ha; rw [List.mem_singleton] at ha; rw [ha]; exact w1)
      exact ⟨s2, gr1.trans gr2, w2⟩
  · exact ⟨h, Grow.refl g, hl _ List.mem_cons_self⟩
  · exact h.push neutral_mul hl

theorem Shape.pushProducts (cast : Option Nat) (ls : List (List Nat)) : ∀ (g : Graph), Shape info g → (∀ l ∈ ls, ∀ a ∈ l, ValueOf g a) →
    Shape info (pushProducts cast g ls).1 ∧ Grow g (pushProducts cast g ls).1 ∧ ∀ a ∈ (pushProducts cast g ls).2, ValueOf (pushProducts cast g ls).1 a := by
  induction ls with
  | nil => intro g h _; exact ⟨h, Grow.refl g, by simp [Gen.pushProducts]⟩
  | cons l ls ih =>
    intro g h hl
    obtain ⟨s1, gr1, w1⟩ := h.pushProduct cast l (hl l List.mem_cons_self)
    obtain ⟨s2, gr2, w2⟩ := ih _ s1 (fun l' hl' => gr1.vals (hl l' (List.mem_cons_of_mem _ hl')))
    rw [Gen.pushProducts]
    refine ⟨s2, gr1.trans gr2, fun a ha => ?_⟩
    rcases List.mem_cons.mp ha with rfl | ha
    · exact gr2.val w1
    · exact w2 a ha

theorem mem_getD_range {l : List Nat} {p : Nat → Bool} {d a : Nat} (ha : a ∈ ((List.range l.length).filter p).map fun i => l.getD i d) : a ∈ l := by
  rw [List.mem_map] at ha
  obtain ⟨i, hi, rfl⟩ := ha
  have hlt := List.mem_range.mp (List.mem_filter.mp hi).1
  rw [List.getD_eq_getElem?_getD, List.getElem?_eq_getElem hlt]
  exact List.getElem_mem hlt

theorem Shape.pushStep {cast : Option Nat} {vs : List Nat} {products : List (List Nat)} {g : Graph} {s : FacStep} {p : Graph × Nat} (h : Shape info g)
    (hvs : ∀ a ∈ vs, ValueOf g a) (hp : ∀ l ∈ products, ∀ a ∈ l, ValueOf g a) (he : pushStep cast vs products g s = .ok p) :
    Shape info p.1 ∧ Grow g p.1 ∧ ValueOf p.1 p.2 := by
  unfold Gen.pushStep at he
  split at he
  · cases he
  · rename_i hn
    have hsorted : ∀ l ∈ groupOf products s.2, l.Pairwise (· ≤ ·) := by
      by_contra hc
      exact hn (Or.inr (Or.inr (Or.inl hc)))
    cases he
    obtain ⟨s1, gr1, w1⟩ := Shape.pushProducts cast ((groupOf products s.2).map (remainingOperands vs s.1)) g h (by
      intro l hl a ha
      rw [List.mem_map] at hl
      obtain ⟨l', hl', rfl⟩ := hl
      exact hp l' (let ⟨_, _, _, _, hm⟩ := mem_groupOf hl'; hm) a (mem_remaining (hsorted l' hl') ha))
    obtain ⟨s2, gr2, w2⟩ := s1.push neutral_add w1
    have gr := gr1.trans gr2
    obtain ⟨s3, gr3, w3⟩ := s2.push neutral_mul (args := variablesOf vs s.1 ++ [_]) (by
      intro a ha
      rw [List.mem_append, List.mem_singleton] at ha
      rcases ha with ha | rfl
      · exact gr.val (hvs a (mem_getD_range ha))
      · exact w2)
    exact ⟨s3, gr.trans gr3, w3⟩

theorem Shape.pushSteps {cast : Option Nat} {vs : List Nat} {products : List (List Nat)} (ss : List FacStep) : ∀ (g : Graph) (p : Graph × List Nat), Shape info g →
    (∀ a ∈ vs, ValueOf g a) → (∀ l ∈ products, ∀ a ∈ l, ValueOf g a) → pushSteps cast vs products g ss = .ok p →
    Shape info p.1 ∧ Grow g p.1 ∧ ∀ a ∈ p.2, ValueOf p.1 a := by
  induction ss with
  | nil => intro g p h _ _ he; rw [Gen.pushSteps] at he; cases he; exact ⟨h, Grow.refl g, by simp⟩
  | cons s ss ih =>
    intro g p h hvs hp he
    rw [Gen.pushSteps] at he
    cases h1 : Gen.pushStep cast vs products g s with
    | error e => rw [h1] at he; cases he
    | ok q =>
      obtain ⟨g1, w⟩ := q
      rw [h1] at he
      simp only at he
      obtain ⟨s1, gr1, w1⟩ := h.pushStep hvs hp h1
      cases h2 : Gen.pushSteps cast vs products g1 ss with
      | error e => rw [h2] at he; cases he
      | ok q2 =>
        obtain ⟨g2, ws⟩ := q2
        rw [h2] at he
        cases he
        obtain ⟨s2, gr2, w2⟩ := ih g1 _ s1 (gr1.vals hvs) (fun l hl => gr1.vals (hp l hl)) h2
        refine ⟨s2, gr1.trans gr2, fun a ha => ?_⟩
        rcases List.mem_cons.mp ha with rfl | ha
        · exact gr2.val w1
        · exact w2 a ha

theorem Shape.finishSum {g : Graph} {l : List Nat} {p : Graph × Nat} (h : Shape info g) (hl : ∀ a ∈ l, ValueOf g a) (he : finishSum g l = .ok p) :
    Shape info p.1 ∧ Grow g p.1 ∧ ValueOf p.1 p.2 := by
  unfold Gen.finishSum at he
  split at he
  · cases he
  · cases he; exact ⟨h, Grow.refl g, hl _ List.mem_cons_self⟩
  · cases he; exact h.push neutral_add hl

theorem mem_distinct (products : List (List Nat)) (a : Nat) (h : a ∈ distinctOperands products) : ∃ l ∈ products, a ∈ l := by
  unfold distinctOperands at h
  have key : ∀ (xs acc : List Nat), a ∈ xs.foldl (fun vs a => if a ∈ vs then vs else vs ++ [a]) acc → a ∈ acc ∨ a ∈ xs := by
    intro xs
    induction xs with
    | nil => intro acc h; exact Or.inl h
    | cons x xs ih =>
      intro acc h
      rw [List.foldl_cons] at h
      rcases ih _ h with h | h
      · split at h
        · exact Or.inl h
        · rw [List.mem_append, List.mem_singleton] at h
          rcases h with h | rfl
          · exact Or.inl h
          · exact Or.inr List.mem_cons_self
      · exact Or.inr (List.mem_cons_of_mem _ h)
  rcases key _ _ h with h | h
  · cases h
  · exact List.mem_flatten.mp h

theorem Shape.factorizeStep (choose : List Nat → Nat → Res (List (List FacStep))) (cast : Graph → Nat → Option Nat) (g : Graph) (v : Nat) (g' : Graph)
    (h : Shape info g) (hv : v ∈ g.ops) (he : factorizeStep choose cast g v = .ok g') : Shape info g' ∧ Grow g g' := by
  unfold Gen.factorizeStep at he
  by_cases hm : (g.node v).op = .add
  · rw [if_neg (by simpa using hm)] at he
    simp only at he
    split at he
    · cases he; exact ⟨h, Grow.refl g⟩
    · split at he
      · cases he; exact ⟨h, Grow.refl g⟩
      · rename_i vs bits ha
        split at he
        · cases he
        · cases he; exact ⟨h, Grow.refl g⟩
        · rename_i fac rest _
          have hprod : ∀ l ∈ ((g.node v).args.filter fun a => (g.node a).op == .mul).map (fun m => (g.node m).args), ∀ a ∈ l, ValueOf g a := by
            intro l hl a hal
            rw [List.mem_map] at hl
            obtain ⟨m, hm, rfl⟩ := hl
            exact h.val (h.closed v hv m (List.mem_filter.mp hm).1) hal
          have hvs : ∀ a ∈ vs, ValueOf g a := by
            intro a hav
            unfold assignIndices at ha
            split at ha
            · cases ha
            · split at ha
              · cases ha
              · cases ha
                obtain ⟨l, hl, hal⟩ := mem_distinct _ a hav
                exact hprod l hl a hal
          split at he
          · cases he
          · rename_i g1 w h1
            unfold factorizeSum at h1
            split at h1
            · cases h1
            · rename_i g2 ws h2
              obtain ⟨s1, gr1, w1⟩ := Shape.pushSteps fac g (g2, ws) h hvs hprod h2
              obtain ⟨s2, gr2, w2⟩ := s1.finishSum (by
                intro a ha'
                rw [List.mem_append, List.mem_append] at ha'
                rcases ha' with (ha' | ha') | ha'
                · exact w1 a ha'
                · exact gr1.val (h.val hv (List.mem_filter.mp ha').1)
                · exact gr1.val (h.val hv (List.mem_filter.mp (mem_getD_range ha')).1)) h1
              have gr := gr1.trans gr2
              obtain ⟨s3, gr3⟩ := s2.replaceWith w2 (Or.inl (by rw [gr.op v hv, hm]; exact Or.inl rfl)) he
              exact ⟨s3, gr.trans gr3⟩
  · rw [if_pos hm] at he
    cases he
    exact ⟨h, Grow.refl g⟩

theorem Shape.factorizeBlock {choose : List Nat → Nat → Res (List (List FacStep))} {cast : Graph → Nat → Option Nat} {g g' : Graph} (h : Shape info g)
    (hw : WF g') (he : g.factorizeBlock choose cast = .ok g') : Shape info g' := by
  unfold Graph.factorizeBlock at he
  cases h1 : Gen.forOps (Gen.factorizeStep choose cast) g g.ops with
  | error e => rw [h1] at he; cases he
  | ok g1 =>
    rw [h1] at he
    exact (Shape.forOps (Shape.factorizeStep choose cast) g.ops g g1 h (fun _ h => h) h1).removeUnused.topologicalSort hw he

theorem Shape.factorizePass {cast : Graph → Nat → Option Nat} {g g' : Graph} (h : Shape info g) (hw : WF g) (ho : InOrder g)
    (he : g.factorizePass programSearch cast = .ok g') : Shape info g' := by
  obtain ⟨g1, e1, w1, o1, _⟩ := program_preserves cast g hw ho
  obtain ⟨g2, e2, w2, o2, _⟩ := merge_preserves g1 w1 o1
  obtain ⟨g3, e3, w3, o3, _⟩ := copies_preserves g2 w2 o2
  unfold Graph.factorizePass at he
  rw [e1] at he; simp only at he
  rw [e2] at he; simp only at he
  rw [e3] at he; simp only at he
  exact (((h.factorizeBlock w1 e1).mergeMultiplications e2).eliminateCopies w3 e3).eliminateDuplicates he

theorem Shape.factorizeSums {cast : Graph → Nat → Option Nat} (n : Nat) : ∀ (g g' : Graph), Shape info g → WF g → InOrder g →
    g.factorizeSums programSearch cast n = .ok g' → Shape info g' := by
  induction n with
  | zero => intro g g' h _ _ he; rw [Graph.factorizeSums] at he; cases he; exact h
  | succ n ih =>
    intro g g' h hw ho he
    obtain ⟨g1, e1, w1, o1, _⟩ := (program_preserves cast).pass g hw ho
    rw [Graph.factorizeSums, e1] at he
    exact ih g1 g' (h.factorizePass hw ho e1) w1 o1 he

theorem Shape.binarize {fuel : Nat} {g g' : Graph} (h : Shape info g) (hw : WF g) (ho : InOrder g) (he : g.binarize fuel = .ok g') : Shape info g' := by
  unfold Graph.binarize at he
  cases h1 : g.binarizeType .mul (identify .mul) fuel with
  | error e => rw [h1] at he; cases he
  | ok g1 =>
    rw [h1] at he
    obtain ⟨w1, o1, _⟩ := C37_every_choice .mul (Or.inr rfl) (identify .mul) (fun g act hw => identify_valid .mul g act hw) fuel g g1 hw ho h1
    obtain ⟨w2, _, _⟩ := C37_every_choice .add (Or.inl rfl) (identify .add) (fun g act hw => identify_valid .add g act hw) fuel g1 g' w1 o1 he
    exact (h.binarizeType (Or.inr rfl) w1 h1).binarizeType (Or.inl rfl) w2 he

theorem Shape.binarizeIf {b : Bool} {fuel : Nat} {g g' : Graph} (h : Shape info g) (hw : WF g) (ho : InOrder g) (he : g.binarizeIf b fuel = .ok g') : Shape info g' := by
  unfold Graph.binarizeIf at he
  cases b with
  | false => cases he; exact h
  | true =>
    rw [if_pos rfl] at he
    cases h1 : g.binarize fuel with
    | error e => rw [h1] at he; cases he
    | ok g1 => rw [h1] at he; exact (h.binarize hw ho h1).eliminateDuplicates he

/-! ## All passes -/

/-- The rules that the lowering establishes and the passes keep are what the converter assumes. -/
theorem Shape.typed {g : Graph} (h : Shape info g) : Typed info g := by
  refine ⟨fun v hv i hi hs => ?_, fun v hv key hk hu hm a ha => (h.links v hv a ha).2.2 key hk hu hm, h.once, h.oneReturn⟩
  match hl : (g.node v).args, h.get v hv i hi with
  | [a], _ =>
    obtain ⟨f, hf⟩ := (h.links v hv a (by rw [hl]; exact List.mem_cons_self)).2.1 i hi hs
    exact ⟨a, f, rfl, hf⟩

theorem Shape.convertible {g : Graph} (h : Shape info g) (hu : ∀ v ∈ g.ops, (g.node v).op.isSink = true ∨ ∃ w ∈ g.ops, v ∈ (g.node w).args) : Convertible g := by
  refine ⟨fun v hv => ?_, fun v hv a ha k => (h.links v hv a ha).1 k, h.cond, h.flat⟩
  rcases hu v hv with h1 | h1
  · cases hop : (g.node v).op <;> rw [hop] at h1 <;> first | (exact Or.inl ⟨_, rfl⟩) | (exact absurd hop (h.flat v hv).2.1) | (cases h1; done)
  · exact Or.inr h1

/-- After all passes the block is as the converter assumes. -/
theorem optimise_shape (cast : Graph → Nat → Option Nat) (passes : Nat) (b : Bool) (g : Graph) (hs : Shape info g) (h : WF g) (ho : InOrder g) :
    ∃ N g', (∀ fuel, N ≤ fuel → g.applySimplifications cast passes b fuel = .ok g') ∧ WF g' ∧ InOrder g' ∧ SameOutputs g g' ∧ Shape info g' ∧ Convertible g' := by
  obtain ⟨N, g', e, w, o, s⟩ := C51_optimise cast passes b g h ho
  obtain ⟨g1, e1, w1, o1, _⟩ := duplicates_preserves g h ho
  obtain ⟨g2, e2, w2, o2, _⟩ := C36_factorize passes cast g1 w1 o1
  obtain ⟨N3, g3, e3, w3, o3, _⟩ := binarizeIf_ends b g2 w2 o2
  obtain ⟨g4, e4, w4, o4, _⟩ := C38_negations g3 w3 o3
  obtain ⟨g5, e5, w5, o5, _⟩ := duplicates_preserves g4 w4 o4
  have hs4 : Shape info g4 :=
    ((Shape.factorizeSums passes g1 g2 (hs.eliminateDuplicates e1) w1 o1 e2).binarizeIf w2 o2 (e3 N3 (le_refl _))).insertNegations w4 e4
  have hs5 := hs4.eliminateDuplicates e5
  have heq : g' = g5 := by
    have e' := e (max N N3) (Nat.le_max_left _ _)
    unfold Graph.applySimplifications at e'
    rw [e1] at e'; simp only at e'
    rw [e2] at e'; simp only at e'
    rw [e3 _ (Nat.le_max_right _ _)] at e'; simp only at e'
    rw [e4] at e'; simp only at e'
    rw [e5] at e'
    cases e'
    rfl
  subst heq
  exact ⟨N, g', e, w, o, s, hs5, hs5.convertible (C35_no_duplicates g4 g' w4 o4 (fun v hv => (hs4.flat v hv).1) e5).2⟩

end Wf.Gen
