import Verif.Sym.OnceSpec

/-! # Lemmas about the unique variables of several threads -/

namespace Wf.Sym.Once

variable {F : Type}

/-- The number of a unique variable. -/
def number : Expr F → Nat
  | .node (.uniq k _) _ => k
  | _ => 0

/-- The variables of a thread, with those of the call that has not returned. -/
def allOf (t : Thread F) : List (Expr F) :=
  t.done.flatMap resultSymbols ++ (match t.running with | none => [] | some r => r.made)

theorem begin_all (t : Thread F) (h : t.running = none) (rest : List Request) (q : Request) : allOf (begin t rest q) = allOf t := by
  cases q with
  | unique count f =>
    dsimp only [begin]
    split
    · simp [allOf, h, resultSymbols]
    · split <;> simp [allOf, h, resultSymbols]
  | derivative s => simp [begin, allOf, h]

theorem finish_all (t : Thread F) (r : Running F) (h : t.running = some r) : List.Sublist (allOf (finish t r)) (allOf t) := by
  unfold finish
  split
  · next e es _ hm => simp [allOf, h, resultSymbols, Made.symbols, hm]
  · simp [allOf, h, resultSymbols, Made.symbols]

theorem advance_all (next : Nat) (t : Thread F) :
    ((advance next t).1 = next ∧ List.Sublist (allOf (advance next t).2) (allOf t)) ∨
    (∃ s, (advance next t).1 = (next + 1) % sizeValues ∧ List.Sublist (allOf (advance next t).2) (allOf t ++ [.uniq next s])) := by
  unfold advance
  split
  · next hr =>
    split
    · exact .inl ⟨rfl, List.Sublist.refl _⟩
    · exact .inl ⟨rfl, by rw [begin_all t hr]⟩
  · next r hr =>
    split
    · exact .inl ⟨rfl, finish_all t r hr⟩
    · refine .inr ⟨r.set, rfl, ?_⟩
      unfold draw
      dsimp only
      split
      · simp [allOf, hr, resultSymbols]
      · simp [allOf, hr]

/-- The variables that exist have numbers below the counter, and no two have the same. -/
structure Apart (w : World F) : Prop where
  pos : 0 < w.next
  range : ∀ i, ∀ e ∈ allOf (w.threads i), (∃ k s, e = .uniq k s) ∧ number e < w.next
  mono : ∀ i, (allOf (w.threads i)).Pairwise fun a b => number a < number b
  apart : ∀ i j, i ≠ j → ∀ a ∈ allOf (w.threads i), ∀ b ∈ allOf (w.threads j), number a ≠ number b

theorem apart_start (calls : Nat → List Request) : Apart (start calls : World F) where
  pos := Nat.one_pos
  range := by intro i e he; simp [start, allOf] at he
  mono := by intro i; simp [start, allOf]
  apart := by intro i j _ a ha; simp [start, allOf] at ha

theorem step_next (w : World F) (i : Nat) : (stepOf w i).next = (advance w.next (w.threads i)).1 := rfl

theorem step_self (w : World F) (i : Nat) : (stepOf w i).threads i = (advance w.next (w.threads i)).2 := by simp [stepOf]

theorem step_other (w : World F) {i j : Nat} (h : j ≠ i) : (stepOf w i).threads j = w.threads j := by simp [stepOf, h]

theorem advance_next {next : Nat} (t : Thread F) (hb : next + 1 < sizeValues) :
    (advance next t).1 = next ∨ (advance next t).1 = next + 1 := by
  rcases advance_all next t with ⟨h, _⟩ | ⟨_, h, _⟩
  · exact .inl h
  · exact .inr (by rw [h, Nat.mod_eq_of_lt hb])

/-- The variables of the thread that takes the step. -/
theorem step_members {w : World F} (ha : Apart w) (i : Nat) (hb : w.next + 1 < sizeValues) :
    (∀ e ∈ allOf ((stepOf w i).threads i), e ∈ allOf (w.threads i) ∨ ((∃ s, e = .uniq w.next s) ∧ (stepOf w i).next = w.next + 1)) ∧
    (allOf ((stepOf w i).threads i)).Pairwise fun a b => number a < number b := by
  rw [step_self, step_next]
  rcases advance_all w.next (w.threads i) with ⟨_, hs⟩ | ⟨s, hn, hs⟩
  · exact ⟨fun e he => .inl (hs.subset he), (ha.mono i).sublist hs⟩
  · constructor
    · intro e he
      rcases List.mem_append.1 (hs.subset he) with h | h
      · exact .inl h
      · exact .inr ⟨⟨s, List.mem_singleton.1 h⟩, by rw [hn, Nat.mod_eq_of_lt hb]⟩
    · refine List.Pairwise.sublist hs (List.pairwise_append.2 ⟨ha.mono i, List.pairwise_singleton _ _, ?_⟩)
      intro a h b hb'
      rw [List.mem_singleton.1 hb']
      exact (ha.range i a h).2

theorem next_le {w : World F} (i : Nat) (hb : w.next + 1 < sizeValues) : w.next ≤ (stepOf w i).next ∧ (stepOf w i).next ≤ w.next + 1 := by
  rw [step_next]
  rcases advance_next (w.threads i) hb with h | h <;> omega

theorem apart_step {w : World F} (ha : Apart w) (i : Nat) (hb : w.next + 1 < sizeValues) : Apart (stepOf w i) := by
  obtain ⟨hm, hp⟩ := step_members ha i hb
  have hn := next_le (w := w) i hb
  have hnew : ∀ j, j ≠ i → ∀ a ∈ allOf ((stepOf w i).threads i), ∀ b ∈ allOf (w.threads j), number a ≠ number b := by
    intro j hj a h b h'
    rcases hm a h with h1 | ⟨⟨s, rfl⟩, _⟩
    · exact ha.apart i j (Ne.symm hj) a h1 b h'
    · have h2 := (ha.range j b h').2
      exact Nat.ne_of_gt h2
  refine ⟨Nat.lt_of_lt_of_le ha.pos hn.1, ?_, ?_, ?_⟩
  · intro j e he
    by_cases hj : j = i
    · subst hj
      rcases hm e he with h | ⟨⟨s, rfl⟩, h⟩
      · exact ⟨(ha.range j e h).1, Nat.lt_of_lt_of_le (ha.range j e h).2 hn.1⟩
      · exact ⟨⟨_, _, rfl⟩, by show w.next < _; omega⟩
    · rw [step_other w hj] at he
      exact ⟨(ha.range j e he).1, Nat.lt_of_lt_of_le (ha.range j e he).2 hn.1⟩
  · intro j
    by_cases hj : j = i
    · subst hj; exact hp
    · rw [step_other w hj]; exact ha.mono j
  · intro j l hjl a h b h'
    by_cases hj : j = i
    · subst hj
      rw [step_other w (Ne.symm hjl)] at h'
      exact hnew l (Ne.symm hjl) a h b h'
    · rw [step_other w hj] at h
      by_cases hl : l = i
      · subst hl
        exact fun he => hnew j hj b h' a h he.symm
      · rw [step_other w hl] at h'
        exact ha.apart j l hjl a h b h'

/-- Every property of the worlds that the steps keep, as long as the counter is below its last value, holds after a run. -/
theorem run_keeps {P : World F → Prop} (hP : ∀ w i, Apart w → P w → w.next + 1 < sizeValues → P (stepOf w i)) :
    ∀ (schedule : List Nat) (w : World F), Apart w → P w → w.next + schedule.length < sizeValues →
      Apart (run w schedule) ∧ P (run w schedule) ∧ w.next ≤ (run w schedule).next ∧ (run w schedule).next ≤ w.next + schedule.length
  | [], w, ha, hp, _ => ⟨ha, hp, Nat.le_refl _, Nat.le_refl _⟩
  | i :: is, w, ha, hp, hb => by
    rw [List.length_cons] at hb ⊢
    have hb' : w.next + 1 < sizeValues := by omega
    have hn := next_le (w := w) i hb'
    obtain ⟨h1, h2, h3, h4⟩ := run_keeps hP is (stepOf w i) (apart_step ha i hb') (hP w i ha hp hb') (by omega)
    exact ⟨h1, h2, Nat.le_trans hn.1 h3, by have : run w (i :: is) = run (stepOf w i) is := rfl; rw [this]; omega⟩

theorem run_apart {schedule : List Nat} {w : World F} (ha : Apart w) (hb : w.next + schedule.length < sizeValues) :
    Apart (run w schedule) ∧ w.next ≤ (run w schedule).next ∧ (run w schedule).next ≤ w.next + schedule.length := by
  obtain ⟨h1, _, h3⟩ := run_keeps (P := fun _ => True) (fun _ _ _ _ _ => trivial) schedule w ha trivial hb
  exact ⟨h1, h3⟩

/-! ## Results -/

/-- The call asks for `n` variables of the set `s`. -/
def Wants (q : Request) (s : NSet) (n : Nat) : Prop :=
  (∃ f : Flags, q = .unique n f ∧ f.meaning = some s ∧ n ≠ 0) ∨ (q = .derivative s ∧ n = 1)

theorem flags_meaning (f : Flags) : setFromFlags f.real f.positive f.nonnegative f.complex =
    match f.meaning with | some s => .ok s | none => .error .invalidArgument := by
  obtain ⟨a, b, c, d⟩ := f
  cases a <;> cases b <;> cases c <;> cases d <;> rfl

theorem answers_invalid (count : Nat) (f : Flags) (h : f.meaning = none ∨ count = 0) :
    Answers (F := F) (.unique count f) (.error .invalidArgument) := by
  dsimp only [Answers]
  rcases h with h | h
  · rw [h]
  · subst h; cases f.meaning <;> rfl

theorem answers_wants {q : Request} {s : NSet} {n : Nat} (h : Wants q s n) {es : List (Expr F)} (hl : es.length = n) (hs : ∀ e ∈ es, UniqueOf s e) :
    (n = 1 → ∀ e rest, es = e :: rest → Answers q (.ok (.one e))) ∧ (n ≠ 1 → Answers q (.ok (.many es))) := by
  constructor
  · intro h1 e rest he
    have hu : UniqueOf s e := hs e (by rw [he]; exact List.mem_cons_self)
    rcases h with ⟨f, rfl, hf, _⟩ | ⟨rfl, _⟩
    · subst h1
      dsimp only [Answers]
      rw [hf]
      exact ⟨e, rfl, hu⟩
    · exact ⟨e, rfl, hu⟩
  · intro h1
    rcases h with ⟨f, rfl, hf, h0⟩ | ⟨rfl, h'⟩
    · dsimp only [Answers]
      rw [hf]
      match n, h0, h1, hl with
      | n + 2, _, _, hl => exact ⟨es, rfl, hl, hs⟩
    · exact absurd h' h1

/-- The calls of a thread are those that have returned, with the right results, the one it is in, and those it will make. -/
def Correct (calls : List Request) (t : Thread F) : Prop :=
  match t.running with
  | none => ∃ past, calls = past ++ t.todo ∧ List.Forall₂ Answers past t.done
  | some r => ∃ past q, calls = past ++ q :: t.todo ∧ List.Forall₂ Answers past t.done ∧ ∃ s n, Wants q s n ∧ r.set = s ∧ r.single = (n == 1) ∧
      r.made.length + r.missing = n ∧ ∀ e ∈ r.made, UniqueOf s e

theorem forall_snoc {α β : Type} {R : α → β → Prop} : ∀ {as : List α} {bs : List β} {a : α} {b : β}, List.Forall₂ R as bs → R a b →
    List.Forall₂ R (as ++ [a]) (bs ++ [b])
  | [], [], _, _, _, h => .cons h .nil
  | _ :: _, _ :: _, _, _, .cons h1 h2, h => .cons h1 (forall_snoc h2 h)

theorem correct_advance {calls : List Request} {t : Thread F} (h : Correct calls t) {next : Nat} (hn : 0 < next) :
    Correct calls (advance next t).2 := by
  unfold advance
  split
  · next hr =>
    split
    · exact h
    · next q rest ht =>
      unfold Correct at h
      rw [hr] at h
      dsimp only at h
      obtain ⟨past, hc, hd⟩ := h
      rw [ht] at hc
      have hc' : calls = (past ++ [q]) ++ rest := by rw [hc]; simp
      cases q with
      | derivative s =>
        exact ⟨past, _, hc, hd, s, 1, .inr ⟨rfl, rfl⟩, rfl, rfl, rfl, by intro e he; cases he⟩
      | unique count f =>
        dsimp only [begin]
        split
        · next h0 => exact ⟨past ++ [_], hc', forall_snoc hd (answers_invalid _ _ (.inr h0))⟩
        · next h0 =>
          have hm := flags_meaning f
          cases hf : f.meaning with
          | none =>
            rw [hf] at hm
            rw [hm]
            exact ⟨past ++ [_], hc', forall_snoc hd (answers_invalid _ _ (.inl hf))⟩
          | some s =>
            rw [hf] at hm
            rw [hm]
            exact ⟨past, _, hc, hd, s, count, .inl ⟨f, rfl, hf, h0⟩, rfl, rfl, by simp, by intro e he; cases he⟩
  · next r hr =>
    unfold Correct at h
    rw [hr] at h
    dsimp only at h
    obtain ⟨past, q, hc, hd, s, n, hw, h1, h2, h3, h4⟩ := h
    have hc' : calls = (past ++ [q]) ++ t.todo := by rw [hc]; simp
    split
    · next hz =>
      rw [hz, Nat.add_zero] at h3
      obtain ⟨ha, hb⟩ := answers_wants hw h3 h4
      dsimp only
      unfold finish
      split
      · next e es hs hm =>
        rw [h2] at hs
        exact ⟨past ++ [q], hc', forall_snoc hd (ha (by simpa using hs) e es hm)⟩
      · next hs =>
        refine ⟨past ++ [q], hc', forall_snoc hd (hb fun hn1 => ?_)⟩
        match hm : r.made, h3 with
        | [], h3 => subst hn1; simp at h3
        | e :: es, _ => exact hs e es (by rw [h2, hn1]; rfl) hm
    · next m hm =>
      unfold draw
      dsimp only
      rw [if_neg (by omega)]
      refine ⟨past, q, hc, hd, s, n, hw, h1, h2, ?_, ?_⟩
      · simp only [List.length_append, List.length_singleton]; omega
      · intro e he
        rcases List.mem_append.1 he with h | h
        · exact h4 e h
        · rw [List.mem_singleton.1 h, h1]; exact ⟨_, rfl⟩

theorem correct_run {calls : Nat → List Request} {schedule : List Nat} (hb : schedule.length + 1 < sizeValues) (i : Nat) :
    Correct (calls i) ((run (start calls : World F) schedule).threads i) := by
  refine (run_keeps (P := fun w => Correct (calls i) (w.threads i)) (fun w j ha hp _ => ?_) schedule (start calls) (apart_start calls) ?_ ?_).2.1
  · by_cases hj : i = j
    · subst hj; rw [step_self]; exact correct_advance hp ha.pos
    · rw [step_other w hj]; exact hp
  · exact ⟨[], rfl, .nil⟩
  · simp only [start]; omega

/-! ## Steps that are needed -/

/-- The steps that the thread has left. -/
def left (t : Thread F) : Nat :=
  (t.todo.map callSteps).sum + (match t.running with | none => 0 | some r => r.missing + 1)

theorem left_advance (next : Nat) (t : Thread F) : left (advance next t).2 ≤ left t - 1 := by
  unfold advance
  split
  · next hr =>
    split
    · next ht => simp [left, hr, ht]
    · next q rest ht =>
      cases q with
      | derivative s => simp [begin, left, hr, ht, callSteps]; omega
      | unique count f =>
        dsimp only [begin]
        split
        · simp [left, hr, ht, callSteps]
        · split
          · simp [left, hr, ht, callSteps]
          · simp [left, hr, ht, callSteps]; omega
  · next r hr =>
    split
    · next hz =>
      dsimp only
      unfold finish
      split <;> simp [left, hr, hz]
    · next m hm =>
      unfold draw
      dsimp only
      split
      · simp [left, hr, hm]
      · simp [left, hr, hm]

theorem left_run (i : Nat) : ∀ (schedule : List Nat) (w : World F), left ((run w schedule).threads i) ≤ left (w.threads i) - schedule.count i
  | [], w => by simp [run]
  | j :: js, w => by
    have hr : run w (j :: js) = run (stepOf w j) js := rfl
    rw [hr]
    have ih := left_run i js (stepOf w j)
    by_cases hj : i = j
    · subst hj
      rw [step_self] at ih
      have := left_advance w.next (w.threads i)
      rw [List.count_cons_self]
      omega
    · rw [step_other w hj] at ih
      rw [List.count_cons_of_ne (Ne.symm hj)]
      exact ih

/-! ## Later calls -/

/-- Since a state with the counter `n`, in which the thread had the results `before`, it has only been given variables with numbers from `n`. -/
def Since (n : Nat) (before : List (Res (Made F))) (t : Thread F) : Prop :=
  ∃ extra, t.done = before ++ extra ∧
    ∀ e ∈ extra.flatMap resultSymbols ++ (match t.running with | none => [] | some r => r.made), n ≤ number e

theorem since_advance {n : Nat} {before : List (Res (Made F))} {t : Thread F} (h : Since n before t) {next : Nat} (hn : n ≤ next) :
    Since n before (advance next t).2 := by
  obtain ⟨extra, hd, he⟩ := h
  unfold advance
  split
  · next hr =>
    rw [hr] at he
    split
    · exact ⟨extra, hd, by rw [hr]; exact he⟩
    · next q rest ht =>
      cases q with
      | derivative s => exact ⟨extra, hd, by simpa [begin] using he⟩
      | unique count f =>
        dsimp only [begin]
        split
        · exact ⟨extra ++ [_], by rw [hd, List.append_assoc], by simpa [resultSymbols] using he⟩
        · split
          · exact ⟨extra ++ [_], by rw [hd, List.append_assoc], by simpa [resultSymbols] using he⟩
          · exact ⟨extra, hd, by simpa using he⟩
  · next r hr =>
    rw [hr] at he
    dsimp only at he
    split
    · dsimp only
      unfold finish
      split
      · next e es _ hm =>
        refine ⟨extra ++ [_], by rw [hd, List.append_assoc], fun x hx => he x ?_⟩
        rw [List.flatMap_append, List.append_nil] at hx
        rcases List.mem_append.1 hx with h | h
        · exact List.mem_append_left _ h
        · have : x = e := by simpa [resultSymbols, Made.symbols] using h
          exact List.mem_append_right _ (by rw [hm, this]; exact List.mem_cons_self)
      · refine ⟨extra ++ [_], by rw [hd, List.append_assoc], fun x hx => he x ?_⟩
        simpa [resultSymbols, Made.symbols] using hx
    · unfold draw
      dsimp only
      split
      · refine ⟨extra ++ [_], by rw [hd, List.append_assoc], fun x hx => he x ?_⟩
        rw [List.flatMap_append, List.append_nil] at hx
        rcases List.mem_append.1 hx with h | h
        · exact List.mem_append_left _ h
        · simp [resultSymbols] at h
      · refine ⟨extra, hd, fun x hx => ?_⟩
        dsimp only at hx
        rw [← List.append_assoc] at hx
        rcases List.mem_append.1 hx with h | h
        · exact he x h
        · rw [List.mem_singleton.1 h]; exact hn

theorem run_append (w : World F) (a b : List Nat) : run w (a ++ b) = run (run w a) b := List.foldl_append

theorem since_run {w : World F} (ha : Apart w) {i : Nat} (hr : (w.threads i).running = none) {schedule : List Nat}
    (hb : w.next + schedule.length < sizeValues) : Since w.next (w.threads i).done ((run w schedule).threads i) := by
  have h := (run_keeps (P := fun v => w.next ≤ v.next ∧ Since w.next (w.threads i).done (v.threads i)) (fun v j hv hp hb' => ?_) schedule w ha
    ⟨Nat.le_refl _, [], by simp, by rw [hr]; simp⟩ hb).2.1.2
  · exact h
  · refine ⟨Nat.le_trans hp.1 (next_le j hb').1, ?_⟩
    by_cases hj : i = j
    · subst hj; rw [step_self]; exact since_advance hp.2 hp.1
    · rw [step_other v hj]; exact hp.2

/-! ## Comparison -/

theorem identical_uniq [FloatCmp F] [DecidableEq F] (k l : Nat) (s t : NSet) (h : k ≠ l) : identical (.uniq k s : Expr F) (.uniq l t) = false := by
  simp [identical, headIdentical, h]

theorem order_uniq [FloatCmp F] (k l : Nat) (s t : NSet) (h : k < l) : order (.uniq k s : Expr F) (.uniq l t) = .ok .lt := by
  simp [order, orderWith, headOrder, natOrder, orderByComparison, andThenBy, h, Head.rank, Head.childrenFirst, thenRes]

end Wf.Sym.Once
