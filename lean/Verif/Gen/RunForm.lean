import Mathlib.Tactic.ByContra
import Verif.Gen.NameKeys
import Verif.Gen.RunSpec

/-!
# Lemmas for C58: the form of the statements

Optional outputs are written inside the test for them, and these tests are not inside each other. The expressions of outputs are the ones of the operands.
-/

namespace Wf.Gen

open Conv

mutual
/-- `G`: the optional outputs that are known to be wanted. `Q`: what is known of the expressions of outputs. -/
def Stmt.Formed (usage : Nat → Usage) (Q : Nat → AExpr → Prop) : List Nat → Stmt → Prop
  | G, .output key e => (usage key = .optional → key ∈ G) ∧ Q key e
  | G, .branch _ t e => AllFormed usage Q G t ∧ AllFormed usage Q G e
  | G, .optional key t => key ∉ G ∧ AllFormed usage Q (key :: G) t
  | _, _ => True

def AllFormed (usage : Nat → Usage) (Q : Nat → AExpr → Prop) : List Nat → List Stmt → Prop
  | _, [] => True
  | G, s :: ss => s.Formed usage Q G ∧ AllFormed usage Q G ss
end

section
variable {info : AstInfo} {Q : Nat → AExpr → Prop} {s : Conv} {G : List Nat} {usage : Nat → Usage}

theorem allFormed_append : ∀ {a b : List Stmt}, AllFormed usage Q G a → AllFormed usage Q G b → AllFormed usage Q G (a ++ b)
  | [], _, _, hb => hb
  | _ :: _, _, ha, hb => by
    rw [AllFormed] at ha
    rw [List.cons_append, AllFormed]
    exact ⟨ha.1, allFormed_append ha.2 hb⟩

theorem allFormed_of : ∀ {a : List Stmt}, (∀ st ∈ a, st.Formed usage Q G) → AllFormed usage Q G a
  | [], _ => by rw [AllFormed]; trivial
  | s :: ss, h => by
    rw [AllFormed]
    exact ⟨h s List.mem_cons_self, allFormed_of fun st hst => h st (List.mem_cons_of_mem _ hst)⟩

theorem visitOps_formed {fuel : Nat} : ∀ (l : List Nat) (d : Nat → Bool) {p : (Nat → Bool) × List Stmt × List (Nat × AExpr)}, s.visitOps info fuel d l = .ok p →
    AllFormed usage Q G p.2.1
  | [], d, p, h => by
    unfold visitOps at h
    cases h
    rw [AllFormed]
    trivial
  | v :: vs, d, p, h => by
    unfold visitOps at h
    by_cases hs : silent (s.node v).op = true
    · rw [if_pos hs] at h
      exact visitOps_formed vs d h
    rw [if_neg hs] at h
    cases h1 : s.visitOne info fuel d v with
    | error e => simp [h1] at h
    | ok q =>
    simp only [h1] at h
    cases h2 : visitOps info s fuel q.1 vs with
    | error e => simp [h2] at h
    | ok r =>
    simp only [h2] at h
    cases h
    refine allFormed_append ?_ (visitOps_formed vs q.1 h2)
    unfold visitOne at h1
    split at h1
    · cases h1
    split at h1
    · cases h1
    split at h1
    · split at h1
      · cases h1
      · cases h1
        exact allFormed_of (by simp [Stmt.Formed])
    · split at h1
      · cases h1
      · cases h1
        exact allFormed_of (by simp)

/-- What is known of the expressions of outputs holds for the operands of the operations that write outputs. -/
def Operands (info : AstInfo) (Q : Nat → AExpr → Prop) (s : Conv) : Prop :=
  ∀ b, ∀ v ∈ s.ops b, ∀ key, (s.node v).op = .save key → info.usage key ≠ .returnValue → ∀ a, (s.node v).args = [a] → ∀ d fuel e, s.visitArgument info d fuel a = .ok e → Q key e

theorem outputs_formed (hQ : Operands info Q s) {fuel b : Nat} {d : Nat → Bool} (hG : ∀ v ∈ s.ops b, ∀ key, (s.node v).op = .save key → info.usage key = .optional → key ∈ G) :
    ∀ (l : List Nat) {ss : List Stmt}, (∀ v ∈ l, v ∈ s.ops b) → s.outputs info fuel d b l = .ok ss → AllFormed info.usage Q G ss
  | [], ss, _, h => by
    unfold outputs at h
    cases h
    rw [AllFormed]
    trivial
  | v :: vs, ss, hl, h => by
    unfold outputs at h
    cases h1 : saveKey (s.node v).op with
    | none =>
      simp only [h1] at h
      exact outputs_formed hQ hG vs (fun u hu => hl u (List.mem_cons_of_mem _ hu)) h
    | some key =>
    simp only [h1] at h
    cases h2 : s.outputOne info fuel d b key (s.node v).args with
    | error e => simp [h2] at h
    | ok st =>
    simp only [h2] at h
    cases h3 : outputs info s fuel d b vs with
    | error e => simp [h3] at h
    | ok rest =>
    simp only [h3] at h
    cases h
    rw [AllFormed]
    refine ⟨?_, outputs_formed hQ hG vs (fun u hu => hl u (List.mem_cons_of_mem _ hu)) h3⟩
    have hv := hl v List.mem_cons_self
    have hsv := saveKey_eq h1
    unfold outputOne at h2
    split at h2
    · rename_i a ha
      split at h2
      · cases h2
      · rename_i e he
        split at h2
        · split at h2
          · cases h2
            rw [Stmt.Formed]
            trivial
            all_goals simp
          · cases h2
        · rename_i hu
          have : (Stmt.output key e).Formed info.usage Q G := by rw [Stmt.Formed]; exact ⟨hG v hv key hsv, hQ b v hv key hsv hu a ha d fuel e he⟩
          split at h2
          · cases h2; exact this
          · split at h2
            · cases h2; exact this
            · cases h2
          · split at h2
            · cases h2; exact this
            · cases h2
    · cases h2

theorem blockBody_formed (hQ : Operands info Q s) {b : Nat} {d : Nat → Bool} {p : (Nat → Bool) × List Stmt}
    (hG : ∀ v ∈ s.ops b, ∀ key, (s.node v).op = .save key → info.usage key = .optional → key ∈ G) (h : s.blockBody info d b = .ok p) : AllFormed info.usage Q G p.2 := by
  unfold blockBody at h
  split at h
  · cases h
  split at h
  · cases h
  rename_i q hq
  split at h
  · cases h
  rename_i os ho
  cases h
  refine allFormed_append (allFormed_append (visitOps_formed _ _ hq) (allFormed_of ?_)) (outputs_formed hQ hG _ (fun _ hv => hv) ho)
  intro st hst
  obtain ⟨q, _, rfl⟩ := List.mem_map.1 hst
  trivial

theorem declares_formed (l : List Nat) : AllFormed usage Q G (l.map Stmt.declare) := allFormed_of fun st hst => by
  obtain ⟨q, _, rfl⟩ := List.mem_map.1 hst
  trivial

variable {V : Type} [Arith V] {g : Graph} {I : Interp V} {truth : V → Bool} {val : Nat → V} {W : Reg}

theorem Fine.formed (h : Fine info g I truth val W s) (hQ : Operands info Q s) : ∀ (R : Reg) (X : List Nat) (A P : Nat → Prop) (G : List Nat) (n : Nat) (st : AstState),
    Part s R X → Scoped s (PhiVal truth val s) A P R → HasPhi s R → R.Flat → (∀ b ∈ R.blocks, b ∉ st.blocked) →
    (s.desc R.exit = [] ∨ ∃ m, s.desc R.exit = [m] ∧ m ∈ st.blocked) →
    (∀ b ∈ R.blocks, ∀ v ∈ s.ops b, ∀ key, (s.node v).op = .save key → info.usage key = .optional → key ∈ G ∨ (b, some key) ∈ R.exits) →
    (∀ b k, (b, some k) ∈ R.exits → k ∉ G) →
    ∀ p, s.processBlock info n st R.entry = .ok p → p.1.blocked = st.blocked ∧ AllFormed info.usage Q G p.2
  | _, _, _, _, _, 0, _, _, _, _, _, _, _, _, _, p, e => by unfold processBlock at e; cases e
  | .last b, X, A, P, G, n + 1, st, hpart, hs, hphi, hflat, hblk, hexit, hG, hex, p, e => by
    have hnb : b ∉ st.blocked := hblk b (by simp [Reg.blocks])
    change s.processBlock info (n + 1) st b = _ at e
    rw [processBlock, if_neg hnb] at e
    cases h1 : s.blockBody info st.declared b with
    | error e' => simp [h1] at e
    | ok body =>
    simp only [h1] at e
    have k1 : AllFormed info.usage Q G body.2 := blockBody_formed hQ (fun v hv key hk hu => by
      rcases hG b (by simp [Reg.blocks]) v hv key hk hu with h' | h'
      · exact h'
      · simp [Reg.exits] at h') h1
    rcases hexit with he | ⟨m, he, hm⟩
    · have he : s.desc b = [] := he
      simp only [he] at e
      cases e
      exact ⟨rfl, k1⟩
    · have he : s.desc b = [m] := he
      simp only [he] at e
      split at e
      · cases n with
        | zero => unfold processBlock at e; cases e
        | succ n =>
          rw [processBlock, if_pos hm] at e
          cases e
          exact ⟨rfl, allFormed_append k1 (by rw [AllFormed]; trivial)⟩
      · rename_i heq; cases heq
      · cases e
  | .ite b l r rest, X, A, P, G, n + 1, st, hpart, hs, hphi, hflat, hblk, hexit, hG, hex, p, e => by
    have hs' := hs
    simp only [Scoped] at hs'
    obtain ⟨ho, c, hj, sl, sr, srest⟩ := hs'
    obtain ⟨⟨p0, hp0, hphi0⟩, pl, pr, prest⟩ := hphi
    obtain ⟨fl, fr, frest⟩ := hflat
    obtain ⟨partl, partr, partrest⟩ := hpart.ite
    have hlay := hpart.lay
    simp only [Lay] at hlay
    obtain ⟨l1, l2, l3, l4, l5, l6, l7, l8, l9⟩ := hlay
    have hnod := hpart.nodup
    rw [show (Reg.ite b l r rest).blocks ++ X = b :: (l.blocks ++ (r.blocks ++ (rest.blocks ++ X))) by simp [Reg.blocks]] at hnod
    obtain ⟨nb, n1⟩ := List.nodup_cons.1 hnod
    have disl := (List.nodup_append.1 n1).2.2
    have disr := (List.nodup_append.1 (List.nodup_append.1 n1).2.1).2.2
    have hMrest := rest.entry_mem
    have hlM : ∀ x ∈ l.blocks, x ≠ rest.entry := fun x hx => disl x hx _ (by simp [hMrest])
    have hrM : ∀ x ∈ r.blocks, x ≠ rest.entry := fun x hx => disr x hx _ (by simp [hMrest])
    obtain ⟨hends, htgt, hbne⟩ := hj.ends
    have hmerge := merge_join (s := s) (l := l) (rest := rest) (rb := r.blocks) (X := X) (re := r.entry) l7 l4 (arm_next r l8 l5) (.inl r.entry_mem) (Reg.blocks_cons rest)
      partl.later partl.nodup partl.len
    obtain ⟨x0, y0, _, hx0, hy0, _, hcn, _⟩ := (opsOk_phi hphi0 _ _ srest.entry_ok hp0 : PhiVal truth val s c l.exit r.exit p0)
    have hnb : b ∉ st.blocked := hblk b (by simp [Reg.blocks])
    have hnM : rest.entry ∉ st.blocked := hblk _ (by simp [Reg.blocks, hMrest])
    have hfil : (rest.entry :: st.blocked).filter (· ≠ rest.entry) = st.blocked := by
      rw [List.filter_cons_of_neg (by simp), List.filter_eq_self]
      intro x hx
      have hxe : x ≠ rest.entry := by rintro rfl; exact hnM hx
      simpa using hxe
    change s.processBlock info (n + 1) st b = _ at e
    rw [processBlock, if_neg hnb] at e
    cases h1 : s.blockBody info st.declared b with
    | error e' => simp [h1] at e
    | ok body =>
    simp only [h1, l1, hends, hmerge, if_neg hnM, htgt] at e
    have k1 : AllFormed info.usage Q G body.2 := blockBody_formed hQ (fun v hv key hk hu => by
      rcases hG b (by simp [Reg.blocks]) v hv key hk hu with h' | h'
      · exact h'
      · exact absurd (rest.exits_mem h') fun h'' => nb (by simp [h''])) h1
    cases h2 : s.processBlock info n ⟨declareAll body.1 (s.declaredPhis rest.entry), rest.entry :: st.blocked⟩ l.entry with
    | error e' => simp [h2] at e
    | ok t =>
    obtain ⟨q1, k2⟩ := h.formed hQ l _ _ _ G n _ partl sl pl fl.flat (fun x hx hm => by
        rcases List.mem_cons.1 hm with hm | hm
        · exact hlM x hx hm
        · exact hblk x (by simp [Reg.blocks, hx]) hm) (.inr ⟨_, l4, List.mem_cons_self⟩) (fun d hd v hv key hk hu => by
        rcases hG d (by simp [Reg.blocks, hd]) v hv key hk hu with h' | h'
        · exact .inl h'
        · exact absurd rfl (disl d hd d (by simp [rest.exits_mem h']))) (fun b k hk => absurd hk fl.exits) t h2
    simp only [h2] at e
    have e' : (match s.processBlock info n t.1 r.entry with
        | .error e => .error e
        | .ok f =>
          match s.visitArgument info f.1.declared (s.live.length + 1) c with
          | .error e => .error e
          | .ok ce =>
            match s.processBlock info n ⟨f.1.declared, f.1.blocked.filter (· ≠ rest.entry)⟩ rest.entry with
            | .error e => .error e
            | .ok r => .ok (r.1, body.2 ++ (s.declaredPhis rest.entry).map .declare ++ [.branch ce t.2 f.2] ++ r.2) : Res (AstState × List Stmt)) = .ok p := by
      cases hop : (s.node c).op with
      | outputRequired k => exact absurd hop (hcn k)
      | _ => exact e
    clear e
    have q1 : t.1.blocked = rest.entry :: st.blocked := q1
    cases h3 : s.processBlock info n t.1 r.entry with
    | error e'' => simp [h3] at e'
    | ok f =>
    obtain ⟨q2, k3⟩ := h.formed hQ r _ _ _ G n _ partr sr pr fr.flat (fun x hx hm => by
        rw [q1] at hm
        rcases List.mem_cons.1 hm with hm | hm
        · exact hrM x hx hm
        · exact hblk x (by simp [Reg.blocks, hx]) hm) (.inr ⟨_, l5, by rw [q1]; exact List.mem_cons_self⟩) (fun d hd v hv key hk hu => by
        rcases hG d (by simp [Reg.blocks, hd]) v hv key hk hu with h' | h'
        · exact .inl h'
        · exact absurd rfl (disr d hd d (by simp [rest.exits_mem h']))) (fun b k hk => absurd hk fr.exits) f h3
    simp only [h3] at e'
    cases h4 : s.visitArgument info f.1.declared (s.live.length + 1) c with
    | error e => simp [h4] at e'
    | ok ce =>
    simp only [h4, q2, q1, hfil] at e'
    cases h5 : s.processBlock info n ⟨f.1.declared, st.blocked⟩ rest.entry with
    | error e => simp [h5] at e'
    | ok w =>
    simp only [h5] at e'
    cases e'
    obtain ⟨q3, k4⟩ := h.formed hQ rest _ _ _ G n ⟨f.1.declared, st.blocked⟩ partrest srest prest frest (fun x hx => hblk x (by simp [Reg.blocks, hx])) hexit
      (fun d hd v hv key hk hu => hG d (by simp [Reg.blocks, hd]) v hv key hk hu) hex w h5
    refine ⟨q3, allFormed_append (allFormed_append (allFormed_append k1 (declares_formed _)) (allFormed_of fun st hst => ?_)) k4⟩
    cases List.mem_singleton.1 hst
    rw [Stmt.Formed]
    exact ⟨k2, k3⟩
  | .opt b k l rest, X, A, P, G, n + 1, st, hpart, hs, hphi, hflat, hblk, hexit, hG, hex, p, e => by
    have hs' := hs
    simp only [Scoped] at hs'
    obtain ⟨ho, c, hj, ⟨hcb, hcn⟩, sl, srest⟩ := hs'
    obtain ⟨pl, prest⟩ := hphi
    obtain ⟨fl, frest⟩ := hflat
    obtain ⟨partl, partrest⟩ := hpart.opt
    have hlay := hpart.lay
    simp only [Lay] at hlay
    obtain ⟨l1, l2, l4, l6, l7, l9⟩ := hlay
    have hnod := hpart.nodup
    rw [show (Reg.opt b k l rest).blocks ++ X = b :: (l.blocks ++ (rest.blocks ++ X)) by simp [Reg.blocks]] at hnod
    obtain ⟨nb, n1⟩ := List.nodup_cons.1 hnod
    have disl := (List.nodup_append.1 n1).2.2
    have hMrest := rest.entry_mem
    have hlM : ∀ x ∈ l.blocks, x ≠ rest.entry := fun x hx => disl x hx _ (by simp [hMrest])
    obtain ⟨hends, htgt, hbne⟩ := hj.ends
    have hmerge := merge_join (s := s) (l := l) (rest := rest) (rb := []) (X := X) (re := rest.entry) l7 l4 (fun x hx => nomatch hx) (.inr rfl) (Reg.blocks_cons rest)
      partl.later partl.nodup partl.len
    have hnb : b ∉ st.blocked := hblk b (by simp [Reg.blocks])
    have hnM : rest.entry ∉ st.blocked := hblk _ (by simp [Reg.blocks, hMrest])
    have hfil : (rest.entry :: st.blocked).filter (· ≠ rest.entry) = st.blocked := by
      rw [List.filter_cons_of_neg (by simp), List.filter_eq_self]
      intro x hx
      have hxe : x ≠ rest.entry := by rintro rfl; exact hnM hx
      simpa using hxe
    have hexits : ∀ d key, (d, some key) ∈ (Reg.opt b k l rest).exits ↔ (d = l.exit ∧ key = k) ∨ (d, some key) ∈ rest.exits := by
      intro d key; simp [Reg.exits]
    change s.processBlock info (n + 1) st b = _ at e
    rw [processBlock, if_neg hnb] at e
    cases h1 : s.blockBody info st.declared b with
    | error e' => simp [h1] at e
    | ok body =>
    simp only [h1, l1, hends, hmerge, if_neg hnM, htgt, hcn] at e
    have k1 : AllFormed info.usage Q G body.2 := blockBody_formed hQ (fun v hv key hk hu => by
      rcases hG b (by simp [Reg.blocks]) v hv key hk hu with h' | h'
      · exact h'
      · rcases (hexits _ _).1 h' with h' | h'
        · exact absurd l.exit_mem fun h'' => nb (by rw [h'.1]; simp [h''])
        · exact absurd (rest.exits_mem h') fun h'' => nb (by simp [h''])) h1
    cases h2 : s.processBlock info n ⟨declareAll body.1 (s.declaredPhis rest.entry), rest.entry :: st.blocked⟩ l.entry with
    | error e' => simp [h2] at e
    | ok t =>
    obtain ⟨q1, k2⟩ := h.formed hQ l _ _ _ (k :: G) n _ partl sl pl fl.flat (fun x hx hm => by
        rcases List.mem_cons.1 hm with hm | hm
        · exact hlM x hx hm
        · exact hblk x (by simp [Reg.blocks, hx]) hm) (.inr ⟨_, l4, List.mem_cons_self⟩) (fun d hd v hv key hk hu => by
        rcases hG d (by simp [Reg.blocks, hd]) v hv key hk hu with h' | h'
        · exact .inl (List.mem_cons_of_mem _ h')
        · rcases (hexits _ _).1 h' with h' | h'
          · exact .inl (by rw [h'.2]; exact List.mem_cons_self)
          · exact absurd rfl (disl d hd d (by simp [rest.exits_mem h']))) (fun b k hk => absurd hk fl.exits) t h2
    have q1 : t.1.blocked = rest.entry :: st.blocked := q1
    simp only [h2, q1, hfil] at e
    cases h5 : s.processBlock info n ⟨t.1.declared, st.blocked⟩ rest.entry with
    | error e' => simp [h5] at e
    | ok w =>
    simp only [h5] at e
    cases e
    obtain ⟨q3, k4⟩ := h.formed hQ rest _ _ _ G n ⟨t.1.declared, st.blocked⟩ partrest srest prest frest (fun x hx => hblk x (by simp [Reg.blocks, hx])) hexit
      (fun d hd v hv key hk hu => by
        rcases hG d (by simp [Reg.blocks, hd]) v hv key hk hu with h' | h'
        · exact .inl h'
        · rcases (hexits _ _).1 h' with h' | h'
          · exact absurd rfl (disl l.exit l.exit_mem l.exit (by rw [← h'.1]; simp [hd]))
          · exact .inr h') (fun d key hk => hex d key ((hexits _ _).2 (.inr hk))) w h5
    refine ⟨q3, allFormed_append (allFormed_append (allFormed_append k1 (declares_formed _)) (allFormed_of fun st hst => ?_)) k4⟩
    cases List.mem_singleton.1 hst
    rw [Stmt.Formed]
    exact ⟨hex l.exit k ((hexits _ _).2 (.inl ⟨rfl, rfl⟩)), k2⟩

end

/-- A matrix that is made for an output has the shape of the argument. -/
def Fitting (N : Text.Naming) (key : Nat) (e : AExpr) : Prop :=
  ∀ r c, (N.output key).type = .matrix r c → ∀ t args, e = .app (.construct t) args → N.shape t = some (r, c)

theorem visitArgument_construct {info : AstInfo} {s : Conv} {d : Nat → Bool} {fuel a t : Nat} {e : AExpr} (h : s.visitArgument info d fuel a = .ok e)
    (ha : (s.node a).op = .construct t) : e = .ref a ∨ ∃ es, e = .app (.construct t) es := by
  unfold visitArgument at h
  split at h
  · cases h; exact .inl rfl
  · cases fuel with
    | zero => unfold visitValue at h; cases h
    | succ n =>
      unfold visitValue at h
      rw [if_neg (by rw [ha]; simp [silent])] at h
      simp only [ha] at h
      split at h
      · cases h
      · split at h
        · cases h; exact .inr ⟨_, rfl⟩
        · cases h

/-- The form of the statements. -/
theorem createAst_formed {info : AstInfo} {g : Graph} (hw : WF g) (ho : InOrder g) (hc : Convertible g) (ht : Typed info g) (hown : OwnStructs info g) {ternaries : Bool}
    {s : Conv} {entry : Nat} {ss : List Stmt} (h : convert g info.usage ternaries = .ok (s, entry)) (ha : createAst info s entry = .ok ss) {N : Text.Naming}
    (hN : Shaped N info.usage g) : AllFormed info.usage (Fitting N) [] ss := by
  obtain ⟨s', W, e, hfine⟩ := fine_of ⟨hw, ho, hc⟩ ht hown ternaries
  rw [h] at e
  cases e
  obtain ⟨_, hf⟩ := hfine Int numInterp (fun x => x = 1) (by intro c a b; simp [numInterp]) (fun _ _ _ => rfl)
  have hQ : Operands info (Fitting N) s := by
    intro b v hv key hop hu a hargs d fuel e he r c hty t args het
    subst het
    let info' : AstInfo := { info with matrix := fun t => decide (N.shape t = some (r, c)), kind := fun k => if k = key then .matrix else .scalar }
    have ht' : Typed info' g := by
      refine ⟨ht.scalarGet, ?_, ht.once, ht.oneReturn⟩
      intro v' hv' key' hop' hu' hk a' ha'
      have hkk : key' = key := by
        by_contra hne
        have : info'.kind key' = .scalar := if_neg hne
        rw [this] at hk
        cases hk
      subst hkk
      obtain ⟨t, h1, h2⟩ := hN v' hv' key' hop' hu' r c hty a' ha'
      exact ⟨t, h1, decide_eq_true h2⟩
    have hown' : OwnStructs info' g := by
      intro v hv key' hop hu hk
      exfalso
      have : info'.kind key' = .matrix ∨ info'.kind key' = .scalar := by
        by_cases hne : key' = key
        · exact .inl (if_pos hne)
        · exact .inr (if_neg hne)
      rcases this with h | h <;> (rw [h] at hk; cases hk)
    obtain ⟨s', W', e', hfine'⟩ := fine_of ⟨hw, ho, hc⟩ ht' hown' ternaries
    have e' : convert g info.usage ternaries = .ok (s', W'.entry) := e'
    rw [h] at e'
    obtain ⟨e1, _⟩ := Prod.mk.inj (Except.ok.inj e')
    subst e1
    obtain ⟨_, hf'⟩ := hfine' Int numInterp (fun x => x = 1) (by intro c a b; simp [numInterp]) (fun _ _ _ => rfl)
    obtain ⟨t', h1, h2⟩ := hf'.clean.matrix b v hv key hop hu (if_pos rfl) a (by rw [hargs]; exact List.mem_cons_self)
    rcases visitArgument_construct he h1 with h' | ⟨es, h'⟩
    · cases h'
    · cases h'
      exact of_decide_eq_true h2
  unfold createAst at ha
  cases hp : s.processBlock info (s.blocks + 1) ⟨fun _ => false, []⟩ W.entry with
  | error e => rw [hp] at ha; cases ha
  | ok p =>
  rw [hp] at ha
  cases ha
  have hpart : Part s W [] := by
    refine ⟨hf.lay, by rw [List.append_nil]; exact hf.nodup, ?_, by rw [List.append_nil]; exact hf.blocks⟩
    exact later_append W [] hf.lay (by rw [hf.stop]; simp) (by rw [hf.stop]; simp) trivial
  refine (hf.formed hQ W [] (fun _ => False) (fun _ => False) [] (s.blocks + 1) ⟨fun _ => false, []⟩ hpart hf.clean.scope hf.clean.phis hf.flat (by simp) (.inl hf.stop)
    ?_ (by simp) p hp).2
  intro b hb v hv key hk hu
  obtain ⟨_, _, _, hex⟩ := hf.clean.saves b v hv key hk
  rw [if_pos hu] at hex
  exact .inr hex

end Wf.Gen
