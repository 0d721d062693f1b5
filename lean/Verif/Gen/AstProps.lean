import Verif.Gen.AstRegion
import Verif.Gen.FlowProps

/-!
# Properties of the conversion to structured code

C54. The specification is in `AstSpec.lean`: statements are run in order, a variable is visible from its declaration to the end of the block it is
declared in, and it is an error to declare it twice, to use it where it is not visible, to read it before it has a value or to assign it when it has one.
-/

namespace Wf.Gen

open Conv

variable {g : Graph} {info : AstInfo}

/-- The conversion to control flow gives what the last conversion needs. -/
theorem fine_of (hg : Input g) (ht : Typed info g) (hown : OwnStructs info g) (ternaries : Bool) :
    ∃ s W, convert g info.usage ternaries = .ok (s, W.entry) ∧ ∀ (V : Type) [Arith V] (I : Interp V) (truth : V → Bool), Selects I truth →
      (∀ i, info.scalarGet i = true → ∀ x, I.f (.get i) [x] = x) → ∃ val, Fine info g I truth val W s := by
  obtain ⟨t, W, e, h, hall, hz, hfull, hret, hflat⟩ := convert_ok hg info.usage ternaries
  have hlive := convert_live hg e
  obtain ⟨h1, h2, h3, h4, h5⟩ := eliminateCopies_same (List.range t.blocks) t
  refine ⟨_, W, e, fun V _ I truth hsel hget => ⟨flowVal I g t, ?_⟩⟩
  have hc := h.to_clean hg hall hz (hfull ht.once) (hret ht.oneReturn) ht hown hsel
  obtain ⟨hp, hcl⟩ := eliminateCopies_keeps (Q := fun x => Clean info g I truth (flowVal I g t) W x)
    (fun x b v y hp hq hv hn hpar => hq.drop hp h.nodupW hv hn hpar) (List.range t.blocks) t (h.to_placed hg hall) hc
  refine ⟨hcl, hp, h.nodupW, hlive, by rw [h3, h4]; exact h.lay, by rw [h4]; exact h.stop, hflat, ?_, hget⟩
  rw [h5]
  have := (List.subperm_of_subset h.nodupW (l₂ := List.range t.blocks) fun b hb => List.mem_range.2 ((h.blocks b).1 hb)).length_le
  rwa [List.length_range] at this

section

variable {V : Type} [Arith V] {I : Interp V} {truth : V → Bool} {val : Nat → V} {W : Reg} {s : Conv}

theorem mem_written {l : List Nat} {key : Nat} {x : V} :
    (key, x) ∈ written s val l ↔ ∃ v ∈ l, (s.node v).op = .save key ∧ (s.node v).args.map val = [x] := by
  rw [written, List.mem_filterMap]
  refine exists_congr fun v => and_congr_right fun _ => ?_
  generalize s.node v = nd
  obtain ⟨op, args⟩ := nd
  constructor
  · intro h
    match hk : saveKey op, args, h with
    | some k, [a], h =>
      rw [hk] at h
      simp only [Option.some.injEq, Prod.mk.injEq] at h
      obtain ⟨rfl, rfl⟩ := h
      exact ⟨saveKey_eq hk, rfl⟩
    | none, _, h => rw [hk] at h; cases h
    | some k, [], h => rw [hk] at h; cases h
    | some k, _ :: _ :: _, h => rw [hk] at h; cases h
  · rintro ⟨ho, ha⟩
    simp only at ho ha
    match args, ha with
    | [a], ha =>
      cases ha
      rw [ho]
      rfl

/-- The statements, and what they do. -/
theorem Fine.result (h : Fine info g I truth val W s) (honce : OnceKeys g) : ∃ ss, s.createAst info W.entry = .ok ss ∧ ∃ m, runAll I truth ss .start = some m ∧
    (m.out.map (·.1)).Nodup ∧ (∀ key x, (key, x) ∈ m.out ↔ Writes I g key x ∧ (info.usage key = .optional → truth (I.f (.outputRequired key) []) = true)) ∧
    Reaches I truth W ss .start := by
  have hpart : Part s W [] := by
    refine ⟨h.lay, by rw [List.append_nil]; exact h.nodup, ?_, by rw [List.append_nil]; exact h.blocks⟩
    exact later_append W [] h.lay (by rw [h.stop]; simp) (by rw [h.stop]; simp) trivial
  have hentry : ∀ x ∈ s.ops W.entry, (s.node x).op ≠ .phi := fun x hx hph => opsOk_phi hph _ _ h.clean.scope.entry_ok hx
  obtain ⟨st, ss, e, _, _, _, hrun⟩ := h.region_ok W [] (fun _ => False) (fun _ => False) (s.blocks + 1) ⟨fun _ => false, []⟩ hpart h.clean.scope h.clean.phis h.flat
    h.clean.full (by simp) (.inl h.stop) (fun hne => absurd h.stop hne) (fun _ ha => False.elim ha) ⟨fun _ ha => (by cases ha), fun _ ha => False.elim ha⟩
    (fun v hv hp => absurd hp (hentry v hv)) (by have := h.blocks; omega)
  obtain ⟨m, h1, h2, h3⟩ := hrun .start (by
    refine ⟨rfl, fun _ ha => False.elim ha, fun x hx hp => absurd hp (hentry x hx), fun _ _ _ _ _ => rfl, ?_⟩
    intro x hx _ p hp hph t ht
    obtain ⟨d, hd⟩ := h.use hp
    have := h.phi_use hx hp hph hd
    rw [h.stop] at this
    cases this)
  have hexec : ∀ b o, (b, o) ∈ W.exits → (b ∈ W.path (taken truth s val) ↔ ∀ k, o = some k → truth (I.f (.outputRequired k) []) = true) :=
    fun b o hb => exits_path h.clean.value W _ _ h.nodup h.clean.scope hb
  have hout : m.out = (W.path (taken truth s val)).flatMap fun b => written s val (s.ops b) := h2.out
  refine ⟨ss, by rw [createAst, e]; rfl, m, h1, ?_, ?_, h3⟩
  · have hn := Clean.nodup h.placed h.nodup
    have hflat : m.out = written s val ((W.path (taken truth s val)).flatMap s.ops) := by
      rw [hout]
      simp only [written, List.filterMap_flatMap]
    have hpn : ((W.path (taken truth s val)).flatMap s.ops).Nodup := by
      have hsub : ∀ {l l' : List Nat}, l.Sublist l' → (l.flatMap s.ops).Sublist (l'.flatMap s.ops) := by
        intro l l' hl
        induction hl with
        | slnil => exact List.Sublist.refl _
        | cons a _ ih => rw [List.flatMap_cons]; exact ih.trans (List.sublist_append_right _ _)
        | cons_cons a _ ih => rw [List.flatMap_cons, List.flatMap_cons]; exact List.Sublist.append (List.Sublist.refl _) ih
      exact hn.sublist (hsub (W.path_sublist _))
    rw [hflat, written, List.map_filterMap]
    unfold List.Nodup
    rw [List.pairwise_filterMap]
    refine List.Pairwise.imp_of_mem ?_ hpn
    intro a a' ha ha' hne k hk k' hk' hkk
    subst hkk
    have hsave : ∀ a ∈ (W.path (taken truth s val)).flatMap s.ops, (Option.map (·.1) (match saveKey (s.node a).op, (s.node a).args with
        | some k, [a] => some (k, val a)
        | _, _ => none)) = some k → a ∈ g.ops ∧ (g.node a).op = .save k := by
      clear hk hk'
      intro a ha hk
      rw [Option.map_eq_some_iff] at hk
      obtain ⟨⟨k1, x⟩, hk, rfl⟩ := hk
      have := (mem_written (l := [a]) (val := val) (s := s) (key := k1) (x := x)).1 (by rw [written, List.mem_filterMap]; exact ⟨a, List.mem_singleton.2 rfl, hk⟩)
      obtain ⟨v, hv, hs, _⟩ := this
      rw [List.mem_singleton.1 hv] at hs
      obtain ⟨b, _, hb⟩ := List.mem_flatMap.1 ha
      obtain ⟨h1, h2, _⟩ := h.clean.saves b a hb k1 hs
      exact ⟨h1, h2⟩
    obtain ⟨g1, o1⟩ := hsave a ha hk
    obtain ⟨g2, o2⟩ := hsave a' ha' hk'
    exact hne (honce a g1 a' g2 k o1 o2)
  · intro key x
    rw [hout, List.mem_flatMap]
    constructor
    · rintro ⟨b, hb, hx⟩
      obtain ⟨v, hv, hs, ha⟩ := mem_written.1 hx
      obtain ⟨h3, h4, h5, h6⟩ := h.clean.saves b v hv key hs
      refine ⟨⟨v, h3, h4, by rw [← h5]; exact ha⟩, fun hu => ?_⟩
      rw [if_pos hu] at h6
      exact (hexec b _ h6).1 hb key rfl
    · rintro ⟨⟨v, hv, hs, ha⟩, hu⟩
      obtain ⟨b, hb, hsb⟩ := h.clean.all v hv key hs
      obtain ⟨_, _, h5, h6⟩ := h.clean.saves b v hb key hsb
      refine ⟨b, (hexec b _ h6).2 ?_, mem_written.2 ⟨v, hb, hsb, by rw [h5]; exact ha⟩⟩
      intro k hk
      by_cases ho : info.usage key = .optional
      · rw [if_pos ho] at hk
        cases hk
        exact hu ho
      · rw [if_neg ho] at hk
        cases hk

end

/-- Numbers, with functions that give zero. -/
def numInterp : Interp Int where
  f := fun op l => match op, l with
    | .add, l => l.sum
    | .mul, l => l.prod
    | .neg, [x] => -x
    | .copy, [x] => x
    | .load (.int n), _ => n
    | .cast _, [x] => x
    | .get _, [x] => x
    | .cond, [c, a, b] => if c = 1 then a else b
    | _, _ => 0
  add := fun _ => rfl
  mul := fun _ => rfl
  neg := fun _ => rfl
  copy := fun _ => rfl
  int := fun n => by simp
  cast := fun _ n => by simp

/-- C54, for functions in which every output struct has its own constructor: the conversion to structured code succeeds, and the statements run to their end without
using a variable where it is not visible, without declaring one twice and without reading one before it has a value; they write every output once, with
the value that the input program gives it, except that optional outputs are written only if they are wanted. -/
theorem C54_outputs_partial (hw : WF g) (ho : InOrder g) (hc : Convertible g) (ht : Typed info g) (hown : OwnStructs info g) (ternaries : Bool) :
    ∃ s entry ss, convert g info.usage ternaries = .ok (s, entry) ∧ createAst info s entry = .ok ss ∧
      ∀ (V : Type) [Arith V] (I : Interp V) (truth : V → Bool), Selects I truth → (∀ i, info.scalarGet i = true → ∀ x, I.f (.get i) [x] = x) →
        ∃ m, runAll I truth ss .start = some m ∧ (m.out.map (·.1)).Nodup ∧
          ∀ key x, (key, x) ∈ m.out ↔ Writes I g key x ∧ (info.usage key = .optional → truth (I.f (.outputRequired key) []) = true) := by
  obtain ⟨s, W, e, hfine⟩ := fine_of ⟨hw, ho, hc⟩ ht hown ternaries
  obtain ⟨_, hf0⟩ := hfine Int numInterp (fun x => x = 1) (by intro c a b; simp [numInterp]) (fun _ _ _ => rfl)
  obtain ⟨ss, hss, _⟩ := hf0.result ht.once
  refine ⟨s, W.entry, ss, e, hss, fun V _ I truth hsel hget => ?_⟩
  obtain ⟨_, hf⟩ := hfine V I truth hsel hget
  obtain ⟨ss', hss', hr⟩ := hf.result ht.once
  rw [hss] at hss'
  cases hss'
  obtain ⟨m, h1, h2, h3, _⟩ := hr
  exact ⟨m, h1, h2, h3⟩

/-! ## Examples -/

/-- Both outputs of `flowGraph` are scalars; its loads are arguments. -/
def flowInfo : AstInfo where
  constant := fun _ => false
  argument := fun _ => true
  matrix := fun _ => false
  scalarGet := fun _ => false
  usage := flowUsage
  kind := fun _ => .scalar

theorem flowInfo_typed : Typed flowInfo flowGraph ∧ OwnStructs flowInfo flowGraph := by
  have hcases : ∀ v ∈ flowGraph.ops, ∀ key, (flowGraph.node v).op = .save key → (v = 7 ∧ key = 0) ∨ (v = 9 ∧ key = 1) := by
    intro v hv key hk
    simp only [flowGraph, List.mem_cons, List.not_mem_nil, or_false] at hv
    rcases hv with rfl | rfl | rfl | rfl | rfl | rfl | rfl | rfl | rfl | rfl <;> simp [flowGraph] at hk <;> simp [← hk]
  refine ⟨⟨(fun v _ i _ hs => nomatch hs), (fun v _ key _ _ hk => nomatch hk), ?_, ?_⟩, (fun v _ key _ _ hk => nomatch hk)⟩
  · intro v hv w hw key h1 h2
    rcases hcases v hv key h1 with ⟨rfl, rfl⟩ | ⟨rfl, rfl⟩ <;> rcases hcases w hw _ h2 with ⟨rfl, h⟩ | ⟨rfl, h⟩ <;> first | rfl | cases h
  · intro v hv w hw key key' h1 h2 hu
    rcases hcases v hv key h1 with ⟨rfl, rfl⟩ | ⟨rfl, rfl⟩ <;> simp [flowInfo, flowUsage] at hu

/-- The structured program: `v1 = y; if (wanted) { out1 = v1 * v1; } v0 = x; v6; if (v0 < v1) { v6 = f(v0 + v0); } else { v6 = g(v1); } out0 = v6;` -/
example : (convert flowGraph flowUsage true).bind (fun p => createAst flowInfo p.1 p.2) = .ok [
    .decl 1 (.app (.load (.other 3)) []),
    .optional 1 [.output 1 (.app .mul [.ref 1, .ref 1])],
    .decl 0 (.app (.load (.other 5)) []),
    .declare 6,
    .branch (.app (.compare 0) [.ref 0, .ref 1]) [.assign 6 (.app (.callStd 1) [.app .add [.ref 0, .ref 0]])] [.assign 6 (.app (.callStd 2) [.ref 1])],
    .output 0 (.ref 6)] := by rfl

example := C54_outputs_partial (info := flowInfo) flowGraph_ok.1 flowGraph_ok.2.1 flowGraph_ok.2.2 flowInfo_typed.1 flowInfo_typed.2 true

/-! ## Output structs -/

/-- `x`, and a struct made of it, which is written to two outputs. Equal operations are merged (C35). -/
def sharedGraph : Graph where
  node := fun i => match i with
    | 0 => ⟨.load (.other 0), []⟩
    | 1 => ⟨.construct 0, [0]⟩
    | 2 => ⟨.save 0, [1]⟩
    | 3 => ⟨.save 1, [1]⟩
    | _ => ⟨.copy, []⟩
  ops := [0, 1, 2, 3]
  next := 4

/-- The struct argument `x` is written to an output. -/
def passedGraph : Graph where
  node := fun i => match i with
    | 0 => ⟨.load (.other 1), []⟩
    | 1 => ⟨.save 0, [0]⟩
    | _ => ⟨.copy, []⟩
  ops := [0, 1]
  next := 2

/-- Load 0 is an element of an argument, load 1 is a struct argument; all outputs are structs. -/
def structInfo : AstInfo where
  constant := fun k => k == 1
  argument := fun k => k == 0
  matrix := fun _ => false
  scalarGet := fun _ => false
  usage := fun _ => .output
  kind := fun _ => .struct

theorem sharedGraph_ok : WF sharedGraph ∧ InOrder sharedGraph ∧ Convertible sharedGraph ∧ Typed structInfo sharedGraph := by
  have key : ∀ v ∈ sharedGraph.ops, NodeWF (sharedGraph.node v) := by
    intro v hv
    simp only [sharedGraph, List.mem_cons, List.not_mem_nil, or_false] at hv
    rcases hv with rfl | rfl | rfl | rfl <;>
      exact ⟨by intro h; revert h; decide, by intro h; revert h; decide, by simp [sharedGraph], by intro l hl; revert hl; simp [sharedGraph]⟩
  have hw : WF sharedGraph := WF.of (by decide) (by decide) (by decide) key
  have hcases : ∀ v ∈ sharedGraph.ops, ∀ key, (sharedGraph.node v).op = .save key → (v = 2 ∧ key = 0) ∨ (v = 3 ∧ key = 1) := by
    intro v hv key hk
    simp only [sharedGraph, List.mem_cons, List.not_mem_nil, or_false] at hv
    rcases hv with rfl | rfl | rfl | rfl <;> simp [sharedGraph] at hk <;> simp [← hk]
  refine ⟨hw, ?_, ?_, ?_⟩
  · have hr : Ranked sharedGraph (fun v => (v : ℚ)) := by
      intro v hv a ha
      have : a < v := by revert v; intro v hv; revert a; revert v; decide
      show (a : ℚ) < (v : ℚ)
      exact_mod_cast this
    refine inOrder_of_pairwise hw.closed hr ?_
    have : sharedGraph.ops.Pairwise (· < ·) := by decide
    exact this.imp fun h => by exact_mod_cast h
  · refine ⟨?_, ?_, by decide, ?_⟩
    · intro v hv
      have h2 : v = 2 ∨ v = 3 ∨ ∃ u ∈ sharedGraph.ops, v ∈ (sharedGraph.node u).args := by revert v; decide
      rcases h2 with rfl | rfl | h2
      · exact .inl ⟨0, rfl⟩
      · exact .inl ⟨1, rfl⟩
      · exact .inr h2
    · intro v hv a ha k
      have h2 : saveKey (sharedGraph.node a).op = none := by revert a; revert v; decide
      intro hk
      rw [hk] at h2
      cases h2
    · intro v hv
      simp only [sharedGraph, List.mem_cons, List.not_mem_nil, or_false] at hv
      rcases hv with rfl | rfl | rfl | rfl <;> simp [sharedGraph]
  · refine ⟨(fun v _ i _ hs => nomatch hs), (fun v _ key _ _ hk => nomatch hk), ?_, (fun v _ w _ key key' _ _ hu => nomatch hu)⟩
    intro v hv w hw key h1 h2
    rcases hcases v hv key h1 with ⟨rfl, rfl⟩ | ⟨rfl, rfl⟩ <;> rcases hcases w hw _ h2 with ⟨rfl, h⟩ | ⟨rfl, h⟩ <;> first | rfl | cases h

theorem passedGraph_ok : WF passedGraph ∧ InOrder passedGraph ∧ Convertible passedGraph ∧ Typed structInfo passedGraph := by
  have key : ∀ v ∈ passedGraph.ops, NodeWF (passedGraph.node v) := by
    intro v hv
    simp only [passedGraph, List.mem_cons, List.not_mem_nil, or_false] at hv
    rcases hv with rfl | rfl <;>
      exact ⟨by intro h; revert h; decide, by intro h; revert h; decide, by simp [passedGraph], by intro l hl; revert hl; simp [passedGraph]⟩
  have hw : WF passedGraph := WF.of (by decide) (by decide) (by decide) key
  have hcases : ∀ v ∈ passedGraph.ops, ∀ key, (passedGraph.node v).op = .save key → v = 1 := by
    intro v hv key hk
    simp only [passedGraph, List.mem_cons, List.not_mem_nil, or_false] at hv
    rcases hv with rfl | rfl <;> simp [passedGraph] at hk <;> rfl
  refine ⟨hw, ?_, ?_, ?_⟩
  · have hr : Ranked passedGraph (fun v => (v : ℚ)) := by
      intro v hv a ha
      have : a < v := by revert v; intro v hv; revert a; revert v; decide
      show (a : ℚ) < (v : ℚ)
      exact_mod_cast this
    refine inOrder_of_pairwise hw.closed hr ?_
    have : passedGraph.ops.Pairwise (· < ·) := by decide
    exact this.imp fun h => by exact_mod_cast h
  · refine ⟨?_, ?_, by decide, ?_⟩
    · intro v hv
      have h2 : v = 1 ∨ ∃ u ∈ passedGraph.ops, v ∈ (passedGraph.node u).args := by revert v; decide
      rcases h2 with rfl | h2
      · exact .inl ⟨0, rfl⟩
      · exact .inr h2
    · intro v hv a ha k
      have h2 : saveKey (passedGraph.node a).op = none := by revert a; revert v; decide
      intro hk
      rw [hk] at h2
      cases h2
    · intro v hv
      simp only [passedGraph, List.mem_cons, List.not_mem_nil, or_false] at hv
      rcases hv with rfl | rfl <;> simp [passedGraph]
  · refine ⟨(fun v _ i _ hs => nomatch hs), (fun v _ key _ _ hk => nomatch hk), ?_, (fun v _ w _ key key' _ _ hu => nomatch hu)⟩
    intro v hv w hw key h1 h2
    rw [hcases v hv key h1, hcases w hw key h2]

/-- C54 does not hold for all functions: two output structs with the same contents, or an input struct that is an output, stop the generator. -/
theorem C54_struct_outputs_fail : ∃ g, WF g ∧ InOrder g ∧ Convertible g ∧ Typed structInfo g ∧ (∃ v ∈ g.ops, ∃ w ∈ g.ops, v ≠ w ∧ (g.node v).op = .save 0 ∧ (g.node w).op = .save 1) ∧
    ∀ ternaries, (convert g structInfo.usage ternaries).bind (fun p => createAst structInfo p.1 p.2) = .error .assertion := by
  refine ⟨sharedGraph, sharedGraph_ok.1, sharedGraph_ok.2.1, sharedGraph_ok.2.2.1, sharedGraph_ok.2.2.2, ⟨2, by decide, 3, by decide, by decide, rfl, rfl⟩, ?_⟩
  intro ternaries
  cases ternaries <;> rfl

theorem C54_struct_arguments_fail : ∃ g, WF g ∧ InOrder g ∧ Convertible g ∧ Typed structInfo g ∧ (∃ v ∈ g.ops, ∃ a, g.node v = ⟨.save 0, [a]⟩ ∧ (g.node a).op = .load (.other 1)) ∧
    ∀ ternaries, (convert g structInfo.usage ternaries).bind (fun p => createAst structInfo p.1 p.2) = .error .assertion := by
  refine ⟨passedGraph, passedGraph_ok.1, passedGraph_ok.2.1, passedGraph_ok.2.2.1, passedGraph_ok.2.2.2, ⟨1, by decide, 0, rfl, rfl⟩, ?_⟩
  intro ternaries
  cases ternaries <;> rfl

end Wf.Gen
