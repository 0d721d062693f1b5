import Verif.Sym.OnceLemmas

/-! # C80: unique symbols are unique in every schedule of any number of threads -/

namespace Wf.Sym.Once

variable {F : Type}

theorem given_sub (w : World F) (i : Nat) : List.Sublist (given w i) (allOf (w.threads i)) := List.sublist_append_left _ _

/-- **C80.** Any number of threads make any calls of `sym.unique_symbols` (and derivatives that make temporary variables), and take their steps in
any order. The symbols that a thread is given differ from each other and from those of all other threads, whatever number sets are asked for. They
differ from all variables with a name, and from all function arguments. (The counter has 64 bits, and one step draws at most one number.) -/
theorem C80_distinct [FloatCmp F] [DecidableEq F] (calls : Nat → List Request) (schedule : List Nat) (hb : schedule.length < 2 ^ 64 - 1) :
    (∀ i, (given (run (start calls : World F) schedule) i).Pairwise fun a b => identical a b = false) ∧
    (∀ i j, i ≠ j → ∀ a ∈ given (run (start calls : World F) schedule) i, ∀ b ∈ given (run (start calls) schedule) j, identical a b = false) ∧
    (∀ i, ∀ a ∈ given (run (start calls : World F) schedule) i,
      (∀ name s, identical a (.var name s) = false) ∧ (∀ name k t, identical a (.argVar name k t) = false)) := by
  have ha := (run_apart (schedule := schedule) (apart_start (F := F) calls) (by simp only [start, sizeValues]; omega)).1
  generalize run (start calls : World F) schedule = w at ha
  have hu := fun i a (h : a ∈ given w i) => (ha.range i a ((given_sub w i).subset h)).1
  refine ⟨fun i => ?_, fun i j hij a h b h' => ?_, fun i a h => ?_⟩
  · refine List.Pairwise.imp_of_mem ?_ ((ha.mono i).sublist (given_sub w i))
    intro a b h h' hlt
    obtain ⟨k, s, rfl⟩ := hu i a h
    obtain ⟨l, t, rfl⟩ := hu i b h'
    exact identical_uniq k l s t (Nat.ne_of_lt hlt)
  · have hne := ha.apart i j hij a ((given_sub w i).subset h) b ((given_sub w j).subset h')
    obtain ⟨k, s, rfl⟩ := hu i a h
    obtain ⟨l, t, rfl⟩ := hu j b h'
    exact identical_uniq k l s t hne
  · obtain ⟨k, s, rfl⟩ := hu i a h
    exact ⟨fun _ _ => by simp [identical, headIdentical], fun _ _ _ => by simp [identical, headIdentical]⟩

/-- **C80.** The calls that have returned have the right results, in every schedule: one variable for the count one, and a list of as many
variables as were asked for otherwise, all of the set that the flags describe. The count zero and contradictory flags raise an invalid argument error. No call
fails an assertion. -/
theorem C80_results (calls : Nat → List Request) (schedule : List Nat) (hb : schedule.length < 2 ^ 64 - 1) (i : Nat) :
    ∃ rest, ∃ past, calls i = past ++ rest ∧ List.Forall₂ Answers past ((run (start calls : World F) schedule).threads i).done := by
  have h := correct_run (F := F) (calls := calls) (schedule := schedule) (by simp only [sizeValues]; omega) i
  unfold Correct at h
  split at h
  · obtain ⟨past, h1, h2⟩ := h; exact ⟨_, past, h1, h2⟩
  · obtain ⟨past, q, h1, h2, _⟩ := h; exact ⟨_, past, h1, h2⟩

/-- **C80.** No thread waits for another: when thread `i` has taken as many steps as its calls need, all its calls have returned, with the right
results, whatever the other threads do. -/
theorem C80_finish (calls : Nat → List Request) (schedule : List Nat) (hb : schedule.length < 2 ^ 64 - 1) (i : Nat)
    (hs : ((calls i).map callSteps).sum ≤ schedule.count i) :
    List.Forall₂ Answers (calls i) ((run (start calls : World F) schedule).threads i).done := by
  have h := correct_run (F := F) (calls := calls) (schedule := schedule) (by simp only [sizeValues]; omega) i
  have hl := left_run i schedule (start calls : World F)
  have h0 : left ((start calls : World F).threads i) = ((calls i).map callSteps).sum := by simp [left, start]
  rw [h0, Nat.sub_eq_zero_of_le hs] at hl
  generalize (run (start calls : World F) schedule).threads i = t at h hl
  unfold Correct at h
  unfold left at hl
  split at h
  · obtain ⟨past, h1, h2⟩ := h
    match ht : t.todo with
    | [] => rw [ht, List.append_nil] at h1; rw [h1]; exact h2
    | q :: qs => rw [ht] at hl; cases q <;> simp [callSteps] at hl
  · next r hr => rw [hr] at hl; simp at hl

/-- **C80.** The symbols of a call that starts later come later: they do not occur in any expression over the symbols that were given before, so
that the substitution of a temporary variable does not meet an older one. They come after all older ones in the order of expressions. Other
threads may have taken any steps, and may be in any calls. -/
theorem C80_fresh [FloatCmp F] [DecidableEq F] (calls : Nat → List Request) (before after : List Nat) (hb : before.length + after.length < 2 ^ 64 - 1) (i : Nat)
    (hi : ((run (start calls : World F) before).threads i).running = none) :
    ∃ new, given (run (start calls : World F) (before ++ after)) i = given (run (start calls) before) i ++ new ∧ ∀ a ∈ new,
      (∀ e : Expr F, Known (run (start calls) before) e → Avoids a e) ∧
      (∀ j, ∀ b ∈ given (run (start calls : World F) before) j, order b a = .ok .lt) := by
  have h1 := run_apart (schedule := before) (apart_start (F := F) calls) (by simp only [start, sizeValues]; omega)
  have hn : (run (start calls : World F) before).next + after.length < sizeValues := by
    have := h1.2.2
    simp only [start, sizeValues] at this ⊢
    omega
  have h2 := (run_apart (schedule := after) h1.1 hn).1
  obtain ⟨extra, hd, hx⟩ := since_run h1.1 hi hn
  rw [run_append]
  have ha := h1.1
  generalize run (start calls : World F) before = w at *
  refine ⟨extra.flatMap resultSymbols, by simp [given, hd], fun a h => ?_⟩
  have hw := hx a (List.mem_append_left _ h)
  have hm : a ∈ given (run w after) i := by simp only [given, hd, List.flatMap_append]; exact List.mem_append_right _ h
  obtain ⟨k, s, rfl⟩ := (h2.range i a ((given_sub _ i).subset hm)).1
  have hk : w.next ≤ k := hw
  constructor
  · intro e he
    refine over_mono (fun h as hp heq => ?_) he
    cases heq
    obtain ⟨j, hj⟩ := hp k s rfl
    have hlt : k < w.next := (ha.range j _ ((given_sub w j).subset hj)).2
    omega
  · intro j b hj
    have hr := ha.range j b ((given_sub w j).subset hj)
    obtain ⟨l, t, rfl⟩ := hr.1
    have hlt : l < w.next := hr.2
    exact order_uniq l k t s (by omega)

/-- Two threads: the first asks for two symbols and, with contradictory flags, for one; the second asks for a positive one. -/
def twoThreads : Nat → List Request
  | 0 => [.unique 2 {}, .unique 1 { real := true, complex := true }]
  | 1 => [.unique 1 { positive := true }, .unique 0 {}]
  | _ => []

/-- The second thread draws its number between the two numbers of the first. -/
example : (run (start twoThreads : World Nat) [0, 0, 1, 1, 0, 1, 0, 0, 1]).threads 0 =
      ⟨[], none, [.ok (.many [.uniq 1 .unknown, .uniq 3 .unknown]), .error .invalidArgument]⟩ ∧
    (run (start twoThreads : World Nat) [0, 0, 1, 1, 0, 1, 0, 0, 1]).threads 1 =
      ⟨[], none, [.ok (.one (.uniq 2 .positive)), .error .invalidArgument]⟩ := ⟨rfl, rfl⟩

/-- The hypothesis of `C80_finish` for this schedule and the second thread. -/
example : ((twoThreads 1).map callSteps).sum ≤ List.count 1 [1, 0, 1, 0, 1, 1, 0, 1] := by decide

/-- The hypothesis of `C80_fresh`: the second thread has had its first symbol while the first one is in a call, and `$u_2 * x` is known. -/
example : ((run (start twoThreads : World Nat) [0, 0, 1, 1, 1]).threads 1).running = none ∧
    ((run (start twoThreads : World Nat) [0, 0, 1, 1, 1]).threads 0).running.isSome ∧
    Known (run (start twoThreads : World Nat) [0, 0, 1, 1, 1]) (.mul [.uniq 2 .positive, .var "x" .real]) := by
  refine ⟨rfl, rfl, ?_⟩
  refine ⟨(fun _ _ h => by cases h), ⟨fun k s h => ?_, trivial⟩, ⟨(fun _ _ h => by cases h), trivial⟩, trivial⟩
  exact ⟨1, by simp only [given]; exact List.mem_cons_self⟩

end Wf.Sym.Once
