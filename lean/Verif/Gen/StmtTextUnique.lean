import Verif.Gen.StmtTextSpec
import Verif.Gen.TextUnique
import Mathlib.Data.List.Chain

/-!
# The grammars of statements are unambiguous
-/

namespace Wf.Gen.Text

variable {L : Lang}

/-! ## Tokens of expressions -/

/-- The tokens that occur in expressions. -/
def allowed (L : Lang) : Tok → Bool
  | .ty _ => L = .rust
  | .colon => L = .cpp
  | .name _ | .int _ _ | .lpar | .rpar | .plus | .minus | .star | .slash | .lt | .le | .eqeq | .dot | .comma => true
  | .lbrace | .rbrace | .kIf | .kElse | .kAs | .amp => L = .rust
  | .staticCast _ | .quest => L = .cpp
  | .lbracket | .rbracket => L ≠ .cpp
  | _ => false

theorem tok_allowed (op : BinOp) : allowed L op.tok = true := by cases op <;> rfl

/-- All the tokens occur in expressions. -/
def Oks (L : Lang) (ts : Toks) : Prop := ∀ t ∈ ts, allowed L t = true

theorem Oks.nil : Oks L [] := fun _ ht => absurd ht List.not_mem_nil

theorem Oks.cons {t : Tok} {ts : Toks} (h : allowed L t = true) (h' : Oks L ts) : Oks L (t :: ts) := by
  intro x hx
  rcases List.mem_cons.1 hx with rfl | hx
  · exact h
  · exact h' x hx

theorem Oks.append {a b : Toks} (h : Oks L a) (h' : Oks L b) : Oks L (a ++ b) := by
  intro x hx
  rcases List.mem_append.1 hx with hx | hx
  · exact h x hx
  · exact h' x hx

mutual
theorem Reads.oks : ∀ {k : Nat} {ts : Toks} {e : E}, Reads L k ts e → Oks L ts
  | _, _, _, .up _ h => h.oks
  | _, _, _, .bin h1 h2 _ => h1.oks.append (.cons (tok_allowed _) h2.oks)
  | _, _, _, .cond hL h1 h2 h3 => h1.oks.append (.cons (by simp [allowed, hL]) (h2.oks.append (.cons (by simp [allowed, hL]) h3.oks)))
  | _, _, _, .neg h => .cons rfl h.oks
  | _, _, _, .ref hL h => .cons (by simp [allowed, hL]) h.oks
  | _, _, _, .as hL h => h.oks.append (.cons (by simp [allowed, hL]) (.cons (by simp [allowed, hL]) .nil))
  | _, _, _, .ifElse hL h1 h2 h3 =>
    .cons (by simp [allowed, hL]) (h1.oks.append (.cons (by simp [allowed, hL]) (h2.oks.append (.cons (by simp [allowed, hL]) (.cons (by simp [allowed, hL])
      (.cons (by simp [allowed, hL]) (h3.oks.append (.cons (by simp [allowed, hL]) .nil))))))))
  | _, _, _, .staticCast hL h => .cons (by simp [allowed, hL]) (.cons rfl (h.oks.append (.cons rfl .nil)))
  | _, _, _, .paren h => .cons rfl (h.oks.append (.cons rfl .nil))
  | _, _, _, .name => .cons rfl .nil
  | _, _, _, .int _ => .cons rfl .nil
  | _, _, _, .app h1 h2 => h1.oks.append (.cons rfl (h2.oks.append (.cons rfl .nil)))
  | _, _, _, .field h => h.oks.append (.cons rfl (.cons rfl .nil))
  | _, _, _, .index hL h1 h2 => h1.oks.append (.cons (by simp [allowed, hL]) (h2.oks.append (.cons (by simp [allowed, hL]) .nil)))
  | _, _, _, .indexTuple hL h1 h2 =>
    h1.oks.append (.cons (by simp [allowed, hL]) (.cons rfl (h2.oks.append (.cons rfl (.cons (by simp [allowed, hL]) .nil)))))
termination_by structural _ _ _ h => h

theorem ReadsArgs.oks : ∀ {ts : Toks} {l : List E}, ReadsArgs L ts l → Oks L ts
  | _, _, .nil => .nil
  | _, _, .one h => h.oks
  | _, _, .cons h h' _ => h.oks.append (.cons rfl h'.oks)
termination_by structural _ _ h => h
end

theorem Reads.allowed {k : Nat} {ts : Toks} {e : E} (h : Reads L k ts e) : ∀ t ∈ ts, Text.allowed L t = true := h.oks

theorem ReadsArgs.allowed {ts : Toks} {l : List E} (h : ReadsArgs L ts l) : ∀ t ∈ ts, Text.allowed L t = true := h.oks

/-- The tokens that an expression begins with. -/
def starts : Tok → Bool
  | .name _ | .int _ _ | .minus | .amp | .kIf | .staticCast _ | .lpar => true
  | _ => false

theorem Reads.starts {k : Nat} {ts : Toks} {e : E} (h : Reads L k ts e) : ∃ t us, ts = t :: us ∧ Text.starts t = true := by
  induction h using Reads.rec (motive_2 := fun _ _ _ => True) with
  | up _ _ ih => exact ih
  | bin _ _ _ ih _ => obtain ⟨t, us, rfl, h⟩ := ih; exact ⟨t, _, rfl, h⟩
  | cond _ _ _ _ ih _ _ => obtain ⟨t, us, rfl, h⟩ := ih; exact ⟨t, _, rfl, h⟩
  | as _ _ ih => obtain ⟨t, us, rfl, h⟩ := ih; exact ⟨t, _, rfl, h⟩
  | app _ _ ih _ => obtain ⟨t, us, rfl, h⟩ := ih; exact ⟨t, _, rfl, h⟩
  | field _ ih => obtain ⟨t, us, rfl, h⟩ := ih; exact ⟨t, _, rfl, h⟩
  | index _ _ _ ih _ => obtain ⟨t, us, rfl, h⟩ := ih; exact ⟨t, _, rfl, h⟩
  | indexTuple _ _ _ ih _ => obtain ⟨t, us, rfl, h⟩ := ih; exact ⟨t, _, rfl, h⟩
  | nil => trivial
  | one => trivial
  | cons => trivial
  | _ => exact ⟨_, _, rfl, rfl⟩

/-- An opening parenthesis is not followed by an opening bracket. -/
def notList (a b : Tok) : Prop := ¬(a = .lpar ∧ b = .lbracket)

theorem chain_mid {l r : Toks} {x : Tok} (hx : x ≠ .lpar) (hx' : x ≠ .lbracket) (hl : List.IsChain notList l) (hr : List.IsChain notList r) :
    List.IsChain notList (l ++ x :: r) := by
  rw [List.isChain_append]
  refine ⟨hl, ?_, ?_⟩
  · cases r with
    | nil => exact .singleton _
    | cons y r => exact .cons_cons (fun h => hx h.1) hr
  · intro a _ b hb h
    simp only [List.head?_cons, Option.mem_def, Option.some.injEq] at hb
    exact hx' (hb ▸ h.2)

theorem chain_lpar {r : Toks} (hr : List.IsChain notList r) (h : r.head? ≠ some .lbracket) : List.IsChain notList (.lpar :: r) := by
  cases r with
  | nil => exact .singleton _
  | cons y r => exact .cons_cons (fun e => h (by rw [e.2]; rfl)) hr

theorem chain_cons {r : Toks} {x : Tok} (hx : x ≠ .lpar) (hr : List.IsChain notList r) : List.IsChain notList (x :: r) := by
  cases r with
  | nil => exact .singleton _
  | cons y r => exact .cons_cons (fun h => hx h.1) hr

theorem chain_append {l r : Toks} (hl : List.IsChain notList l) (hr : List.IsChain notList r) (h : l.getLast? ≠ some .lpar ∨ r.head? ≠ some .lbracket) :
    List.IsChain notList (l ++ r) := by
  rw [List.isChain_append]
  refine ⟨hl, hr, ?_⟩
  intro a ha b hb e
  rcases h with h | h
  · exact h (by rw [← e.1]; exact ha)
  · exact h (by rw [← e.2]; exact hb)

theorem getLast_append_cons {l r : Toks} {x : Tok} : (l ++ x :: r).getLast? = (x :: r).getLast? := by
  rw [List.getLast?_append]
  simp [List.getLast?_cons]

theorem tok_not (op : BinOp) : op.tok ≠ .lpar ∧ op.tok ≠ .lbracket := by cases op <;> exact ⟨by decide, by decide⟩

theorem starts_not {t : Tok} (h : starts t = true) : t ≠ .lbracket := by rintro rfl; cases h

theorem Reads.head_not {k : Nat} {ts : Toks} {e : E} (h : Reads L k ts e) : ts.head? ≠ some .lbracket := by
  obtain ⟨t, us, rfl, hs⟩ := h.starts
  simpa using starts_not hs

theorem ReadsArgs.head_not {ts : Toks} {l : List E} (h : ReadsArgs L ts l) : ts.head? ≠ some .lbracket := by
  cases h with
  | nil => simp
  | one h => exact h.head_not
  | cons h =>
    obtain ⟨t, us, rfl, hs⟩ := h.starts
    simpa using starts_not hs

theorem head_append_not {a : Toks} {x : Tok} {b : Toks} (h : a.head? ≠ some .lbracket) (hx : x ≠ .lbracket) : (a ++ x :: b).head? ≠ some .lbracket := by
  cases a with
  | nil => simpa using hx
  | cons y a => simpa using h

theorem last_cons {x : Tok} {r : Toks} (hr : r ≠ []) : (x :: r).getLast? = r.getLast? := by
  cases r with
  | nil => exact absurd rfl hr
  | cons y r => simp [List.getLast?_cons]

/-- Expressions do not end with a parenthesis that opens and have no list in them. -/
theorem Reads.chain {k : Nat} {ts : Toks} {e : E} (h : Reads L k ts e) : List.IsChain notList ts ∧ ts.getLast? ≠ some .lpar := by
  induction h using Reads.rec (motive_2 := fun ts _ _ => List.IsChain notList ts) with
  | up _ _ ih => exact ih
  | bin h1 h2 _ ih1 ih2 =>
    refine ⟨chain_mid (tok_not _).1 (tok_not _).2 ih1.1 ih2.1, ?_⟩
    rw [getLast_append_cons, last_cons h2.head.1]; exact ih2.2
  | cond _ h1 h2 h3 ih1 ih2 ih3 =>
    refine ⟨chain_mid (by decide) (by decide) ih1.1 (chain_mid (by decide) (by decide) ih2.1 ih3.1), ?_⟩
    rw [getLast_append_cons, last_cons (by simp), getLast_append_cons, last_cons h3.head.1]; exact ih3.2
  | neg h ih => exact ⟨chain_cons (by decide) ih.1, by rw [last_cons h.head.1]; exact ih.2⟩
  | ref _ h ih => exact ⟨chain_cons (by decide) ih.1, by rw [last_cons h.head.1]; exact ih.2⟩
  | as _ h ih => exact ⟨chain_mid (by decide) (by decide) ih.1 (.singleton _), by simp⟩
  | ifElse _ h1 h2 h3 ih1 ih2 ih3 =>
    refine ⟨chain_cons (by decide) (chain_mid (by decide) (by decide) ih1.1 (chain_mid (by decide) (by decide) ih2.1 (chain_cons (by decide)
      (chain_cons (by decide) (chain_mid (by decide) (by decide) ih3.1 .nil))))), ?_⟩
    rw [last_cons (by simp), getLast_append_cons, last_cons (by simp), getLast_append_cons]
    simp [List.getLast?_cons]
  | staticCast _ h ih =>
    refine ⟨chain_cons (by simp) (chain_lpar (chain_mid (by decide) (by decide) ih.1 .nil) (head_append_not h.head_not (by decide))), ?_⟩
    rw [last_cons (by simp), last_cons (by simp), getLast_append_cons]; simp
  | paren h ih =>
    refine ⟨chain_lpar (chain_mid (by decide) (by decide) ih.1 .nil) (head_append_not h.head_not (by decide)), ?_⟩
    rw [last_cons (by simp), getLast_append_cons]; simp
  | name => exact ⟨.singleton _, by simp⟩
  | int => exact ⟨.singleton _, by simp⟩
  | app h1 h2 ih1 ih2 =>
    refine ⟨chain_append ih1.1 (chain_lpar (chain_mid (by decide) (by decide) ih2 .nil) (head_append_not h2.head_not (by decide))) (.inl ih1.2), ?_⟩
    rw [getLast_append_cons, last_cons (by simp), getLast_append_cons]; simp
  | field h ih => exact ⟨chain_mid (by decide) (by decide) ih.1 (.singleton _), by simp⟩
  | index _ h1 h2 ih1 ih2 =>
    refine ⟨chain_append ih1.1 (chain_cons (by decide) (chain_mid (by decide) (by decide) ih2 .nil)) (.inl ih1.2), ?_⟩
    rw [getLast_append_cons, last_cons (by simp), getLast_append_cons]; simp
  | indexTuple _ h1 h2 ih1 ih2 =>
    refine ⟨chain_append ih1.1 (chain_cons (by decide) (chain_lpar (chain_mid (by decide) (by decide) ih2 (.singleton _)) (head_append_not h2.head_not (by decide))))
      (.inl ih1.2), ?_⟩
    rw [getLast_append_cons, last_cons (by simp), last_cons (by simp), getLast_append_cons]; simp [List.getLast?_cons]
  | nil => exact .nil
  | one _ ih => exact ih.1
  | cons _ _ _ ih1 ih2 => exact chain_mid (by decide) (by decide) ih1.1 ih2

/-! ## Brackets -/

/-- The depth of brackets after a text. -/
def depthAfter : Nat → Toks → Nat
  | d, [] => d
  | d, t :: ts => depthAfter (t.depth d) ts

theorem depthAfter_append (d : Nat) (a b : Toks) : depthAfter d (a ++ b) = depthAfter (depthAfter d a) b := by
  induction a generalizing d with
  | nil => rfl
  | cons t a ih => exact ih _

theorem splitAt_append (p : Tok → Bool) (d : Nat) (a b : Toks) :
    splitAt p d (a ++ b) = match splitAt p d a with
      | some x => some (x.1, x.2 ++ b)
      | none => (splitAt p (depthAfter d a) b).map fun x => (a ++ x.1, x.2) := by
  induction a generalizing d with
  | nil => simp [splitAt, depthAfter]
  | cons t a ih =>
    rw [List.cons_append, splitAt, splitAt, depthAfter]
    split
    · rfl
    · rw [ih]
      cases splitAt p (t.depth d) a with
      | some x => rfl
      | none => simp [Option.map_map, Function.comp_def]

/-- All brackets are matched. -/
structure Bal (ts : Toks) : Prop where
  depth : ∀ d, depthAfter d ts = d
  inside : ∀ p d, splitAt p (d + 1) ts = none

/-- No token with `p` is outside brackets. -/
def Clean (p : Tok → Bool) (ts : Toks) : Prop := splitAt p 0 ts = none

theorem Bal.nil : Bal [] := ⟨fun _ => rfl, fun _ _ => rfl⟩

theorem Clean.nil {p : Tok → Bool} : Clean p [] := rfl

theorem Bal.single {t : Tok} (h : t.opens = false) (h' : t.closes = false) : Bal [t] :=
  ⟨fun d => by simp [depthAfter, Tok.depth, h, h'], fun p d => by simp [splitAt]⟩

theorem Bal.append {a b : Toks} (ha : Bal a) (hb : Bal b) : Bal (a ++ b) := by
  refine ⟨fun d => by rw [depthAfter_append, ha.depth, hb.depth], fun p d => ?_⟩
  rw [splitAt_append, ha.inside, ha.depth]
  simp [hb.inside]

theorem Bal.cons {t : Tok} {b : Toks} (h : t.opens = false) (h' : t.closes = false) (hb : Bal b) : Bal (t :: b) := Bal.append (.single h h') hb

theorem Clean.single {p : Tok → Bool} {t : Tok} (h : p t = false) : Clean p [t] := by simp [Clean, splitAt, h]

theorem Clean.append {p : Tok → Bool} {a b : Toks} (hb : Bal a) (h : Clean p a) (h' : Clean p b) : Clean p (a ++ b) := by
  unfold Clean at *
  rw [splitAt_append, h, hb.depth]
  simp [h']

theorem Clean.cons {p : Tok → Bool} {t : Tok} {b : Toks} (ho : t.opens = false) (hc : t.closes = false) (h : p t = false) (h' : Clean p b) : Clean p (t :: b) :=
  Clean.append (.single ho hc) (.single h) h'

/-- A text in brackets. -/
theorem Bal.bracket {o c : Tok} {ts : Toks} (ho : o.opens = true) (hc : c.closes = true) (h : Bal ts) (hc' : c.opens = false := by rfl) : Bal (o :: (ts ++ [c])) := by
  refine ⟨fun d => ?_, fun p d => ?_⟩
  · rw [depthAfter, depthAfter_append, h.depth]
    simp [depthAfter, Tok.depth, ho, hc, hc']
  · have e : o.depth (d + 1) = d + 1 + 1 := by simp [Tok.depth, ho]
    rw [splitAt, e, splitAt_append, h.inside, h.depth]
    simp [splitAt]

theorem Clean.bracket {p : Tok → Bool} {o c : Tok} {ts : Toks} (ho : o.opens = true) (h : Bal ts) (hp : p o = false) : Clean p (o :: (ts ++ [c])) := by
  have e : o.depth 0 = 0 + 1 := by simp [Tok.depth, ho]
  rw [Clean, splitAt, if_neg (by simp [hp]), e, splitAt_append, h.inside, h.depth]
  simp [splitAt]

/-- A text is cut at one place only. -/
theorem cut {p : Tok → Bool} {a b r r' : Toks} {t t' : Tok} (ha : Bal a) (hb : Bal b) (ca : Clean p a) (cb : Clean p b) (ht : p t = true) (ht' : p t' = true)
    (h : a ++ t :: r = b ++ t' :: r') : a = b ∧ t = t' ∧ r = r' := by
  have e1 : splitAt p 0 (a ++ t :: r) = some (a, t :: r) := by rw [splitAt_append, ca, ha.depth]; simp [splitAt, ht]
  have e2 : splitAt p 0 (b ++ t' :: r') = some (b, t' :: r') := by rw [splitAt_append, cb, hb.depth]; simp [splitAt, ht']
  rw [h, e2] at e1
  simp only [Option.some.injEq, Prod.mk.injEq, List.cons.injEq] at e1
  exact ⟨e1.1.symm, e1.2.1.symm, e1.2.2.symm⟩

theorem cut_end {p : Tok → Bool} {a b r : Toks} {t : Tok} (ca : Clean p a) (hb : Bal b) (cb : Clean p b) (ht : p t = true) (h : a = b ++ t :: r) : False := by
  subst h
  unfold Clean at ca
  rw [splitAt_append, cb, hb.depth] at ca
  simp [splitAt, ht] at ca

/-- The tokens that separate and close. -/
def sep : Tok → Bool
  | .semi | .assign | .comma | .rpar | .rbracket | .rbrace | .shl => true
  | _ => false

theorem tok_sep (op : BinOp) : op.tok.opens = false ∧ op.tok.closes = false ∧ sep op.tok = false := by cases op <;> exact ⟨rfl, rfl, rfl⟩

/-- Both. -/
def Good (ts : Toks) : Prop := Bal ts ∧ Clean sep ts

theorem Good.append {a b : Toks} (ha : Good a) (hb : Good b) : Good (a ++ b) := ⟨ha.1.append hb.1, .append ha.1 ha.2 hb.2⟩

theorem Good.cons {t : Tok} {b : Toks} (hb : Good b) (ho : t.opens = false := by rfl) (hc : t.closes = false := by rfl) (h : sep t = false := by rfl) : Good (t :: b) :=
  ⟨.cons ho hc hb.1, .cons ho hc h hb.2⟩

theorem Good.nil : Good [] := ⟨.nil, .nil⟩

theorem Good.bracket {o c : Tok} {ts : Toks} (h : Bal ts) (ho : o.opens = true := by rfl) (hc : c.closes = true := by rfl) (hp : sep o = false := by rfl)
    (hc' : c.opens = false := by rfl) : Good (o :: (ts ++ [c])) := ⟨.bracket ho hc h hc', .bracket ho h hp⟩

theorem Reads.good {k : Nat} {ts : Toks} {e : E} (h : Reads L k ts e) : Good ts := by
  induction h using Reads.rec (motive_2 := fun ts _ _ => Bal ts) with
  | up _ _ ih => exact ih
  | bin _ _ _ ih1 ih2 => exact ih1.append (ih2.cons (tok_sep _).1 (tok_sep _).2.1 (tok_sep _).2.2)
  | cond _ _ _ _ ih1 ih2 ih3 => exact ih1.append (.cons (ih2.append (.cons ih3)))
  | neg _ ih => exact ih.cons
  | ref _ _ ih => exact ih.cons
  | as _ _ ih => exact ih.append (.cons (.cons .nil))
  | @ifElse l m r c a b _ _ _ _ ih1 ih2 ih3 =>
    have e : Tok.kIf :: (l ++ .lbrace :: (m ++ .rbrace :: .kElse :: .lbrace :: (r ++ [.rbrace]))) =
      .kIf :: (l ++ ((.lbrace :: (m ++ [.rbrace])) ++ .kElse :: (.lbrace :: (r ++ [.rbrace])))) := by simp
    rw [e]
    exact .cons (ih1.append (.append (.bracket ih2.1) (.cons (.bracket ih3.1))))
  | staticCast _ _ ih => exact .cons (.bracket ih.1)
  | paren _ ih => exact .bracket ih.1
  | name => exact .cons .nil
  | int => exact .cons .nil
  | app _ _ ih1 ih2 => exact ih1.append (.bracket ih2)
  | field _ ih => exact ih.append (.cons (.cons .nil))
  | index _ _ _ ih1 ih2 => exact ih1.append (.bracket ih2)
  | @indexTuple ts us e l _ _ _ ih1 ih2 =>
    have e : ts ++ .lbracket :: .lpar :: (us ++ [.rpar, .rbracket]) = ts ++ .lbracket :: ((.lpar :: (us ++ [.rpar])) ++ [.rbracket]) := by simp
    rw [e]
    exact ih1.append (.bracket (.bracket rfl rfl ih2))
  | nil => exact .nil
  | one _ ih => exact ih.1
  | cons _ _ _ ih1 ih2 => exact ih1.1.append (.append (a := [.comma]) (.single rfl rfl) ih2)

theorem ReadsArgs.bal {ts : Toks} {l : List E} (h : ReadsArgs L ts l) : Bal ts := by
  induction l generalizing ts with
  | nil => cases h; exact .nil
  | cons e l ih =>
    cases h with
    | one h => exact h.good.1
    | cons h h' => exact h.good.1.append (.cons rfl rfl (ih h'))

/-- Arguments have no closing bracket outside brackets. -/
theorem ReadsArgs.clean {ts : Toks} {l : List E} (h : ReadsArgs L ts l) : Clean Tok.closes ts := by
  have hc : ∀ {us : Toks}, Good us → Clean Tok.closes us := by
    intro us hu
    have h2 := hu.2
    unfold Clean at *
    have : ∀ (d : Nat) (us : Toks), splitAt sep d us = none → splitAt Tok.closes d us = none := by
      intro d us
      induction us generalizing d with
      | nil => intro _; rfl
      | cons t us ih =>
        intro h
        rw [splitAt] at h ⊢
        by_cases hd : d = 0 ∧ sep t = true
        · rw [if_pos hd] at h; cases h
        · rw [if_neg hd] at h
          rw [if_neg (fun e => hd ⟨e.1, by cases t <;> simp_all [Tok.closes, sep]⟩)]
          rw [Option.map_eq_none_iff] at h ⊢
          exact ih _ h
    exact this 0 us h2
  induction l generalizing ts with
  | nil => cases h; exact .nil
  | cons e l ih =>
    cases h with
    | one h => exact hc h.good
    | cons h h' => exact .append h.good.1 (hc h.good) (.cons rfl rfl rfl (ih h'))

/-! ## Values -/

theorem unique_at {k : Nat} {ts : Toks} {e e' : E} (hk : k ≤ 7) (h : Reads L k ts e) (h' : Reads L k ts e') : e' = e := by
  have lower : ∀ {k : Nat} {e : E}, k ≤ 7 → Reads L k ts e → Reads L 0 ts e := by
    intro k e hk h
    induction k with
    | zero => exact h
    | succ k ih => exact ih (by omega) (.up (by omega) h)
  exact (lower hk h).unique (lower hk h')

theorem ReadsArgs.unique {ts : Toks} {l l' : List E} (h : ReadsArgs L ts l) (h' : ReadsArgs L ts l') : l' = l :=
  ((h'.parse (t := .rpar) (rest := []) (.inl rfl)).det (h.parse (.inl rfl))).1

mutual
theorem ReadsV.good : ∀ {ts : Toks} {v : V}, ReadsV L ts v → Good ts
  | _, _, .expr h => h.good
  | _, _, @ReadsV.matrixOne _ T ts e _ h => by
    have e1 : (Tok.lpar :: .ty T :: .lpar :: .rpar :: .shl :: (ts ++ [.rpar, .dot, .name "finished", .lpar, .rpar])) =
      (.lpar :: ((.ty T :: ((.lpar :: ([] ++ [.rpar])) ++ .shl :: ts)) ++ [.rpar])) ++ (.dot :: .name "finished" :: (.lpar :: ([] ++ [.rpar]))) := by simp
    rw [e1]
    exact .append (.bracket (.cons rfl rfl (.append (.bracket rfl rfl .nil) (.cons rfl rfl h.good.1)))) (.cons (.cons (.bracket .nil)))
  | _, _, @ReadsV.matrix _ T ts us e l _ h h' _ => by
    have e1 : (Tok.lpar :: .ty T :: .lpar :: .rpar :: .shl :: (ts ++ .comma :: (us ++ [.rpar, .dot, .name "finished", .lpar, .rpar]))) =
      (.lpar :: ((.ty T :: ((.lpar :: ([] ++ [.rpar])) ++ .shl :: (ts ++ .comma :: us))) ++ [.rpar])) ++ (.dot :: .name "finished" :: (.lpar :: ([] ++ [.rpar]))) := by simp
    rw [e1]
    exact .append (.bracket (.cons rfl rfl (.append (.bracket rfl rfl .nil) (.cons rfl rfl (h.good.1.append (.cons rfl rfl h'.bal)))))) (.cons (.cons (.bracket .nil)))
  | _, _, @ReadsV.array _ f us l r c _ h => by
    have e1 : (Tok.name f :: .lpar :: .lbracket :: (us ++ [.rbracket, .rpar, .dot, .name "reshape", .lpar, .int r "", .comma, .int c "", .rpar])) =
      (.name f :: (.lpar :: ((.lbracket :: (us ++ [.rbracket])) ++ [.rpar]))) ++ (.dot :: .name "reshape" :: (.lpar :: ([.int r "", .comma, .int c ""] ++ [.rpar]))) := by simp
    rw [e1]
    exact .append (.cons (.bracket (.bracket rfl rfl h.bal))) (.cons (.cons (.bracket (.cons rfl rfl (.cons rfl rfl (.single rfl rfl))))))
  | _, _, .braces _ h => .cons (.bracket h.bal)
  | _, _, .call _ h => .cons (.bracket h.bal)
termination_by structural _ _ h => h

theorem ReadsParts.bal : ∀ {ts : Toks} {fs : Parts}, ReadsParts L ts fs → Bal ts
  | _, _, @ReadsParts.one _ n _ _ h => by
    refine Bal.append ?_ h.good.1
    cases L
    · exact .nil
    · exact .cons rfl rfl (.single rfl rfl)
    · exact .cons rfl rfl (.single rfl rfl)
  | _, _, @ReadsParts.cons _ n _ _ _ _ h h' => by
    refine Bal.append ?_ (h.good.1.append (.cons rfl rfl h'.bal))
    cases L
    · exact .nil
    · exact .cons rfl rfl (.single rfl rfl)
    · exact .cons rfl rfl (.single rfl rfl)
termination_by structural _ _ h => h
end

theorem ReadsV.ne_nil {ts : Toks} {v : V} (h : ReadsV L ts v) : ts ≠ [] := by
  cases h with
  | expr h => exact h.head.1
  | _ => simp

/-- A member of an object in Python contains an equals sign. -/
theorem ReadsParts.mem_assign {ts : Toks} {fs : Parts} (hL : L = .python) (h : ReadsParts L ts fs) : Tok.assign ∈ ts := by
  subst hL
  cases h <;> simp [memberStart]

theorem ReadsParts.head_name {ts : Toks} {fs : Parts} (hL : L = .python) (h : ReadsParts L ts fs) : ∃ n us, ts = .name n :: us := by
  subst hL
  cases h <;> exact ⟨_, _, rfl⟩

theorem expr_not_list {k : Nat} {f : String} {r : Toks} {e : E} (h : Reads L k (.name f :: .lpar :: .lbracket :: r) e) : False := by
  have := h.chain.1
  rw [List.isChain_cons_cons, List.isChain_cons_cons] at this
  exact this.2.1 ⟨rfl, rfl⟩

theorem memberName_inj {n m : String} {a b : Toks} (h : memberStart L n ++ a = memberStart L m ++ b) : memberName L n = memberName L m ∧ a = b := by
  cases L
  · exact ⟨rfl, by simpa [memberStart] using h⟩
  · simp only [memberStart, List.cons_append, List.nil_append, List.cons.injEq, Tok.name.injEq, true_and] at h
    exact ⟨by rw [h.1], h.2⟩
  · simp only [memberStart, List.cons_append, List.nil_append, List.cons.injEq, Tok.name.injEq, true_and] at h
    exact ⟨by rw [h.1], h.2⟩

mutual
theorem ReadsV.unique : ∀ {ts : Toks} {v v' : V}, ReadsV L ts v → ReadsV L ts v' → v' = v
  | ts, _, v', .expr h, h' => by
    cases h' with
    | expr h' => rw [h.unique h']
    | matrixOne hL _ => subst hL; exact absurd (h.allowed _ (List.mem_cons_of_mem _ List.mem_cons_self)) (by simp [Text.allowed])
    | matrix hL _ _ _ => subst hL; exact absurd (h.allowed _ (List.mem_cons_of_mem _ List.mem_cons_self)) (by simp [Text.allowed])
    | array hL _ => exact (expr_not_list h).elim
    | braces hL _ => obtain ⟨t, us, e, hs⟩ := h.starts; cases e; cases hs
    | call hL h' =>
      exact absurd (h.allowed .assign (List.mem_cons_of_mem _ (List.mem_cons_of_mem _ (List.mem_append_left _ (h'.mem_assign hL))))) (by simp [Text.allowed])
  | _, _, v', @ReadsV.matrixOne _ T ts e hL h, h' => by
    generalize hts : (Tok.lpar :: .ty T :: .lpar :: .rpar :: .shl :: (ts ++ [.rpar, .dot, .name "finished", .lpar, .rpar])) = xs at h'
    cases h' with
    | expr h' => subst hL; subst hts; exact absurd (h'.allowed _ (List.mem_cons_of_mem _ List.mem_cons_self)) (by simp [Text.allowed])
    | matrixOne _ h' =>
      simp only [List.cons.injEq, true_and] at hts
      obtain ⟨hT, hts⟩ := hts
      cases hT
      obtain ⟨rfl, _, _⟩ := cut h.good.1 h'.good.1 h.good.2 h'.good.2 rfl rfl hts
      rw [unique_at (by omega) h h']
    | matrix _ h' =>
      simp only [List.cons.injEq, true_and] at hts
      obtain ⟨_, hx, _⟩ := cut h.good.1 h'.good.1 h.good.2 h'.good.2 rfl rfl hts.2
      cases hx
    | array hL' => subst hL; cases hL'
    | braces => cases hts
    | call hL' => subst hL; cases hL'
  | _, _, v', @ReadsV.matrix _ T ts us e l hL h ha hl, h' => by
    generalize hts : (Tok.lpar :: .ty T :: .lpar :: .rpar :: .shl :: (ts ++ .comma :: (us ++ [.rpar, .dot, .name "finished", .lpar, .rpar]))) = xs at h'
    cases h' with
    | expr h' => subst hL; subst hts; exact absurd (h'.allowed _ (List.mem_cons_of_mem _ List.mem_cons_self)) (by simp [Text.allowed])
    | matrixOne _ h' =>
      simp only [List.cons.injEq, true_and] at hts
      obtain ⟨_, hx, _⟩ := cut h.good.1 h'.good.1 h.good.2 h'.good.2 rfl rfl hts.2
      cases hx
    | matrix _ h' ha' =>
      simp only [List.cons.injEq, true_and] at hts
      obtain ⟨hT, hts⟩ := hts
      cases hT
      obtain ⟨rfl, _, hr⟩ := cut h.good.1 h'.good.1 h.good.2 h'.good.2 rfl rfl hts
      obtain ⟨rfl, _, _⟩ := cut ha.bal ha'.bal ha.clean ha'.clean rfl rfl hr
      rw [unique_at (by omega) h h', ha.unique ha']
    | array hL' => subst hL; cases hL'
    | braces => cases hts
    | call hL' => subst hL; cases hL'
  | _, _, v', @ReadsV.array _ f us l r c hL h, h' => by
    generalize hts : (Tok.name f :: .lpar :: .lbracket :: (us ++ [.rbracket, .rpar, .dot, .name "reshape", .lpar, .int r "", .comma, .int c "", .rpar])) = xs at h'
    cases h' with
    | expr h' => subst hts; exact (expr_not_list h').elim
    | matrixOne => cases hts
    | matrix => cases hts
    | array _ h' =>
      simp only [List.cons.injEq, true_and, Tok.name.injEq] at hts
      obtain ⟨rfl, hts⟩ := hts
      obtain ⟨rfl, _, hr⟩ := cut h.bal h'.bal h.clean h'.clean rfl rfl hts
      simp only [List.cons.injEq, true_and, Tok.int.injEq, and_true] at hr
      rw [h.unique h', hr.1, hr.2]
    | braces hL' => exact absurd hL hL'
    | call _ h' =>
      obtain ⟨n, us, rfl⟩ := h'.head_name hL
      cases hts
  | _, _, v', @ReadsV.braces _ T us fs hL h, h' => by
    generalize hts : (Tok.ty T :: .lbrace :: (us ++ [.rbrace])) = xs at h'
    cases h' with
    | expr h' => subst hts; obtain ⟨t, us, e, hs⟩ := h'.starts; cases e; cases hs
    | matrixOne => cases hts
    | matrix => cases hts
    | array hL' => exact absurd hL' hL
    | braces _ h' =>
      simp only [List.cons.injEq, true_and, Tok.ty.injEq] at hts
      obtain ⟨rfl, hts⟩ := hts
      obtain rfl := List.append_cancel_right hts
      rw [h.unique h']
    | call hL' => exact absurd hL' hL
  | _, _, v', @ReadsV.call _ T us fs hL h, h' => by
    generalize hts : (Tok.name T :: .lpar :: (us ++ [.rpar])) = xs at h'
    cases h' with
    | expr h' =>
      subst hts
      exact absurd (h'.allowed .assign (List.mem_cons_of_mem _ (List.mem_cons_of_mem _ (List.mem_append_left _ (h.mem_assign hL))))) (by simp [Text.allowed])
    | matrixOne => cases hts
    | matrix => cases hts
    | array _ h' =>
      obtain ⟨n, us, rfl⟩ := h.head_name hL
      cases hts
    | braces hL' => exact absurd hL hL'
    | call _ h' =>
      simp only [List.cons.injEq, true_and, Tok.name.injEq] at hts
      obtain ⟨rfl, hts⟩ := hts
      obtain rfl := List.append_cancel_right hts
      rw [h.unique h']
termination_by structural _ _ _ h _ => h

theorem ReadsParts.unique : ∀ {ts : Toks} {v v' : Parts}, ReadsParts L ts v → ReadsParts L ts v' → v' = v
  | _, _, v', @ReadsParts.one _ n ts v h, h' => by
    generalize hts : memberStart L n ++ ts = xs at h'
    cases h' with
    | one h' =>
      obtain ⟨e1, rfl⟩ := memberName_inj hts
      rw [e1, h.unique h']
    | cons h' =>
      obtain ⟨e1, e2⟩ := memberName_inj hts
      exact (cut_end h.good.2 h'.good.1 h'.good.2 rfl e2).elim
  | _, _, v', @ReadsParts.cons _ n ts v us fs h hr, h' => by
    generalize hts : memberStart L n ++ (ts ++ .comma :: us) = xs at h'
    cases h' with
    | one h' =>
      obtain ⟨e1, e2⟩ := memberName_inj hts
      exact (cut_end h'.good.2 h.good.1 h.good.2 rfl e2.symm).elim
    | cons h' hr' =>
      obtain ⟨e1, e2⟩ := memberName_inj hts
      obtain ⟨rfl, _, rfl⟩ := cut h.good.1 h'.good.1 h.good.2 h'.good.2 rfl rfl e2
      rw [e1, h.unique h', hr.unique hr']
termination_by structural _ _ _ h _ => h
end

theorem ReadsTuple.bal {ts : Toks} {l : List V} (h : ReadsTuple L ts l) : Bal ts := by
  induction h with
  | two h h' => exact h.good.1.append (.cons rfl rfl h'.good.1)
  | cons h _ ih => exact h.good.1.append (.cons rfl rfl ih)

theorem ReadsTuple.comma {ts : Toks} {l : List V} (h : ReadsTuple L ts l) : ∃ us vs, ts = us ++ .comma :: vs ∧ Good us := by
  cases h with
  | two h => exact ⟨_, _, rfl, h.good⟩
  | cons h => exact ⟨_, _, rfl, h.good⟩

theorem ReadsTuple.unique {ts : Toks} {l l' : List V} (h : ReadsTuple L ts l) (h' : ReadsTuple L ts l') : l' = l := by
  induction h generalizing l' with
  | @two ts us v w h1 h2 =>
    generalize hts : ts ++ .comma :: us = xs at h'
    cases h' with
    | two h1' h2' =>
      obtain ⟨rfl, _, rfl⟩ := cut h1.good.1 h1'.good.1 h1.good.2 h1'.good.2 rfl rfl hts
      rw [h1.unique h1', h2.unique h2']
    | cons h1' h2' =>
      obtain ⟨rfl, _, rfl⟩ := cut h1.good.1 h1'.good.1 h1.good.2 h1'.good.2 rfl rfl hts
      obtain ⟨a, b, rfl, hg⟩ := h2'.comma
      exact (cut_end h2.good.2 hg.1 hg.2 rfl rfl).elim
  | @cons ts us v l h1 h2 ih =>
    generalize hts : ts ++ .comma :: us = xs at h'
    cases h' with
    | two h1' h2' =>
      obtain ⟨rfl, _, rfl⟩ := cut h1.good.1 h1'.good.1 h1.good.2 h1'.good.2 rfl rfl hts
      obtain ⟨a, b, rfl, hg⟩ := h2.comma
      exact (cut_end h2'.good.2 hg.1 hg.2 rfl rfl).elim
    | cons h1' h2' =>
      obtain ⟨rfl, _, rfl⟩ := cut h1.good.1 h1'.good.1 h1.good.2 h1'.good.2 rfl rfl hts
      rw [h1.unique h1', ih h2']

theorem group_append {a b r : Toks} (ha : a ≠ []) (h : a ++ b = .lpar :: r) : ∃ a', a = .lpar :: a' ∧ r = a' ++ b := by
  cases a with
  | nil => exact absurd rfl ha
  | cons t a =>
    simp only [List.cons_append, List.cons.injEq] at h
    exact ⟨a, by rw [h.1], h.2.symm⟩

theorem group_of {a b r : Toks} (ha : a ≠ []) (h : a ++ b = .lpar :: r) (ih : ∀ {r : Toks}, a = .lpar :: r → ∃ x r', r = x ++ .rpar :: r' ∧ Good x) :
    ∃ x r', r = x ++ .rpar :: r' ∧ Good x := by
  obtain ⟨a', ea, rfl⟩ := group_append ha h
  obtain ⟨x, r', rfl, hx⟩ := ih ea
  exact ⟨x, r' ++ b, by simp, hx⟩

/-- An expression that begins with a parenthesis begins with an expression in parentheses. -/
theorem Reads.group {k : Nat} {ts : Toks} {e : E} (h : Reads L k ts e) : ∀ {r : Toks}, ts = .lpar :: r → ∃ x r', r = x ++ .rpar :: r' ∧ Good x := by
  induction h using Reads.rec (motive_2 := fun _ _ _ => True) with
  | up _ _ ih => exact ih
  | bin h _ _ ih _ => exact fun e => group_of h.head.1 e ih
  | cond _ h _ _ ih _ _ => exact fun e => group_of h.head.1 e ih
  | as _ h ih => exact fun e => group_of h.head.1 e ih
  | app h _ ih _ => exact fun e => group_of h.head.1 e ih
  | field h ih => exact fun e => group_of h.head.1 e ih
  | index _ h _ ih _ => exact fun e => group_of h.head.1 e ih
  | indexTuple _ h _ ih _ => exact fun e => group_of h.head.1 e ih
  | paren h _ =>
    intro r e
    cases e
    exact ⟨_, [], rfl, h.good⟩
  | neg => intro r e; cases e
  | ref => intro r e; cases e
  | ifElse => intro r e; cases e
  | staticCast => intro r e; cases e
  | name => intro r e; cases e
  | int => intro r e; cases e
  | nil => trivial
  | one => trivial
  | cons => trivial

/-- Several values in parentheses are not one value. -/
theorem tuple_not_value {ts : Toks} {l : List V} {v : V} (hL : L = .python) (h : ReadsTuple L ts l) (h' : ReadsV L (.lpar :: (ts ++ [.rpar])) v) : False := by
  subst hL
  obtain ⟨us, vs, rfl, hg⟩ := h.comma
  generalize hts : Tok.lpar :: (us ++ .comma :: vs ++ [.rpar]) = xs at h'
  cases h' with
  | expr h' =>
    subst hts
    obtain ⟨x, r', e, hx⟩ := h'.group rfl
    rw [List.append_assoc, List.cons_append] at e
    obtain ⟨_, e, _⟩ := cut hg.1 hx.1 hg.2 hx.2 rfl rfl e
    cases e
  | matrixOne hL => cases hL
  | matrix hL => cases hL
  | array => cases hts
  | braces hL => exact hL rfl
  | call => cases hts

/-! ## Statements -/

theorem ReadsPlace.good {ts : Toks} {p : Place} (h : ReadsPlace L ts p) : Good ts := by
  cases h with
  | expr h => exact h.good
  | deref => exact .cons (.cons .nil)
  | arrow _ h => exact .cons (.cons (.cons (.bracket h.bal)))
  | slice _ h => exact h.good.append (.bracket (ts := [.colon]) (.single rfl rfl))

theorem ReadsPlace.ne_nil {ts : Toks} {p : Place} (h : ReadsPlace L ts p) : ts ≠ [] := by
  cases h with
  | expr h => exact h.head.1
  | _ => simp

/-- The tokens that the target of an assignment begins with. -/
theorem ReadsPlace.starts {ts : Toks} {p : Place} (h : ReadsPlace L ts p) : ∃ t us, ts = t :: us ∧ (Text.starts t = true ∨ t = .star) := by
  cases h with
  | expr h => obtain ⟨t, us, e, hs⟩ := h.starts; exact ⟨t, us, e, .inl hs⟩
  | deref => exact ⟨_, _, rfl, .inr rfl⟩
  | arrow => exact ⟨_, _, rfl, .inl rfl⟩
  | slice _ h => obtain ⟨t, us, rfl, hs⟩ := h.starts; exact ⟨t, _, rfl, .inl hs⟩

theorem ReadsPlace.unique {ts : Toks} {p p' : Place} (h : ReadsPlace L ts p) (h' : ReadsPlace L ts p') : p' = p := by
  cases h with
  | expr h =>
    cases h' with
    | expr h' => rw [unique_at (Nat.le_refl _) h h']
    | deref => obtain ⟨t, us, e, hs⟩ := h.starts; cases e; cases hs
    | arrow => exact absurd (h.allowed _ (List.mem_cons_of_mem _ List.mem_cons_self)) (by simp [Text.allowed])
    | slice hL => subst hL; exact absurd (h.allowed .colon (by simp)) (by simp [Text.allowed])
  | deref =>
    generalize hts : [Tok.star, .name _] = xs at h'
    cases h' with
    | expr h' => subst hts; obtain ⟨t, us, e, hs⟩ := h'.starts; cases e; cases hs
    | deref => cases hts; rfl
    | arrow => cases hts
    | slice hL h' => exact absurd hL (by assumption)
  | arrow hL ha =>
    generalize hts : (Tok.name _ :: .arrow :: .name _ :: .lpar :: (_ ++ [.rpar])) = xs at h'
    cases h' with
    | expr h' => subst hts; exact absurd (h'.allowed _ (List.mem_cons_of_mem _ List.mem_cons_self)) (by simp [Text.allowed])
    | deref => cases hts
    | arrow _ ha' =>
      simp only [List.cons.injEq, Tok.name.injEq, true_and] at hts
      obtain ⟨rfl, rfl, hts⟩ := hts
      obtain rfl := List.append_cancel_right hts
      rw [ha.unique ha']
    | slice hL' => subst hL; cases hL'
  | slice hL h =>
    generalize hts : (_ ++ [Tok.lbracket, .colon, .rbracket]) = xs at h'
    cases h' with
    | expr h' => subst hts; subst hL; exact absurd (h'.allowed .colon (by simp)) (by simp [Text.allowed])
    | deref hL' => exact absurd hL hL'
    | arrow hL' => subst hL; cases hL'
    | slice _ h' =>
      obtain rfl := List.append_cancel_right hts
      rw [unique_at (Nat.le_refl _) h h']

/-- The conditions of Rust have no brace outside brackets. -/
theorem ReadsCond.good {ts : Toks} {c : Cond} (h : ReadsCond L ts c) : Bal ts ∧ (L ≠ .python → Clean (· = .lbrace) ts) := by
  cases h with
  | cpp _ h => exact ⟨.bracket rfl rfl h.good.1, fun _ => .bracket rfl h.good.1 rfl⟩
  | rust _ h hb => exact ⟨h.good.1, fun _ => hb⟩
  | isSome =>
    have e : ∀ x y, [Tok.kLet, .name "Some", .lpar, .name x, .rpar, .assign, .name y] = [.kLet, .name "Some"] ++ ((.lpar :: ([.name x] ++ [.rpar])) ++ [.assign, .name y]) :=
      fun _ _ => rfl
    rw [e]
    refine ⟨.append (.cons rfl rfl (.single rfl rfl)) (.append (.bracket rfl rfl (.single rfl rfl)) (.cons rfl rfl (.single rfl rfl))), fun _ => rfl⟩
  | python hL h => exact ⟨h.good.1, fun hn => absurd hL hn⟩
  | notNone hL => exact ⟨.cons rfl rfl (.cons rfl rfl (.cons rfl rfl (.single rfl rfl))), fun hn => absurd hL hn⟩

theorem ReadsCond.unique {ts : Toks} {c c' : Cond} (h : ReadsCond L ts c) (h' : ReadsCond L ts c') : c' = c := by
  cases h with
  | cpp hL h =>
    subst hL
    generalize hts : (Tok.lpar :: (_ ++ [.rpar])) = xs at h'
    cases h' with
    | cpp _ h' =>
      simp only [List.cons.injEq, true_and] at hts
      obtain rfl := List.append_cancel_right hts
      rw [h.unique h']
    | rust hL => cases hL
    | isSome hL => cases hL
    | python hL => cases hL
    | notNone hL => cases hL
  | rust hL h =>
    cases h' with
    | cpp hL' => subst hL; cases hL'
    | rust _ h' => rw [h.unique h']
    | isSome => exact absurd (h.allowed _ List.mem_cons_self) (by simp [Text.allowed])
    | python hL' => subst hL; cases hL'
    | notNone hL' => subst hL; cases hL'
  | isSome hL =>
    generalize hts : [Tok.kLet, .name "Some", .lpar, .name _, .rpar, .assign, .name _] = xs at h'
    cases h' with
    | cpp hL' => subst hL; cases hL'
    | rust _ h' => subst hts; exact absurd (h'.allowed _ List.mem_cons_self) (by simp [Text.allowed])
    | isSome => cases hts; rfl
    | python hL' => subst hL; cases hL'
    | notNone hL' => subst hL; cases hL'
  | python hL h =>
    cases h' with
    | cpp hL' => subst hL; cases hL'
    | rust hL' => subst hL; cases hL'
    | isSome hL' => subst hL; cases hL'
    | python _ h' => rw [h.unique h']
    | notNone => exact absurd (h.allowed _ (List.mem_cons_of_mem _ List.mem_cons_self)) (by simp [Text.allowed])
  | notNone hL =>
    generalize hts : [Tok.name _, .kIs, .kNot, .name "None"] = xs at h'
    cases h' with
    | cpp hL' => subst hL; cases hL'
    | rust hL' => subst hL; cases hL'
    | isSome hL' => subst hL; cases hL'
    | python _ h' => subst hts; exact absurd (h'.allowed _ (List.mem_cons_of_mem _ List.mem_cons_self)) (by simp [Text.allowed])
    | notNone => cases hts; rfl

/-- What a simple statement has to do with semicolons and closing brackets. -/
theorem ReadsSimple.bal {ts : Toks} {s : St} (h : ReadsSimple L ts s) : Bal ts := by
  cases h with
  | const _ h => exact .cons rfl rfl (.cons rfl rfl (.cons rfl rfl (.cons rfl rfl h.good.1)))
  | bare => exact .cons rfl rfl (.single rfl rfl)
  | bind _ h => exact .cons rfl rfl (.cons rfl rfl (.cons rfl rfl (.cons rfl rfl (.cons rfl rfl h.good.1))))
  | later => exact .cons rfl rfl (.cons rfl rfl (.cons rfl rfl (.single rfl rfl)))
  | assign h h' => exact h.good.1.append (.cons rfl rfl h'.good.1)
  | expr _ h => exact h.good.1
  | ret _ h => exact .cons rfl rfl h.good.1
  | tuple _ h => exact .cons rfl rfl (.bracket rfl rfl h.bal)
  | assert _ h => exact .cons rfl rfl (h.good.1.append (.cons rfl rfl (.single rfl rfl)))

/-- The end of a statement and the end of a block. -/
def ending : Tok → Bool
  | .semi | .rpar | .rbracket | .rbrace => true
  | _ => false

theorem Clean.mono {p q : Tok → Bool} (hpq : ∀ t, q t = true → p t = true) {ts : Toks} (h : Clean p ts) : Clean q ts := by
  have : ∀ (d : Nat) (us : Toks), splitAt p d us = none → splitAt q d us = none := by
    intro d us
    induction us generalizing d with
    | nil => intro _; rfl
    | cons t us ih =>
      intro h
      rw [splitAt] at h ⊢
      by_cases hd : d = 0 ∧ p t = true
      · rw [if_pos hd] at h; cases h
      · rw [if_neg hd] at h
        rw [if_neg (fun e => hd ⟨e.1, hpq t e.2⟩)]
        rw [Option.map_eq_none_iff] at h ⊢
        exact ih _ h
  exact this 0 ts h

theorem ending_sep (t : Tok) (h : ending t = true) : sep t = true := by cases t <;> first | rfl | cases h

theorem ReadsSimple.clean {ts : Toks} {s : St} (h : ReadsSimple L ts s) : Clean ending ts := by
  have hv : ∀ {us : Toks} {v : V}, ReadsV L us v → Clean ending us := fun h => h.good.2.mono ending_sep
  cases h with
  | const _ h => exact .cons rfl rfl rfl (.cons rfl rfl rfl (.cons rfl rfl rfl (.cons rfl rfl rfl (hv h))))
  | bare => rfl
  | bind _ h => exact .cons rfl rfl rfl (.cons rfl rfl rfl (.cons rfl rfl rfl (.cons rfl rfl rfl (.cons rfl rfl rfl (hv h)))))
  | later => rfl
  | assign h h' => exact .append h.good.1 (h.good.2.mono ending_sep) (.cons rfl rfl rfl (hv h'))
  | expr _ h => exact h.good.2.mono ending_sep
  | ret _ h => exact .cons rfl rfl rfl (hv h)
  | tuple _ h => exact .cons rfl rfl rfl (.bracket rfl h.bal rfl)
  | assert _ h => exact .cons rfl rfl rfl (.append h.good.1 (h.good.2.mono ending_sep) rfl)

theorem ReadsSimple.ne_nil {ts : Toks} {s : St} (h : ReadsSimple L ts s) : ts ≠ [] := by
  cases h with
  | assign => simp
  | expr _ h => exact h.head.1
  | _ => simp

theorem assign_not_expr {k : Nat} {a b : Toks} {e : E} (h : Reads L k (a ++ .assign :: b) e) : False :=
  absurd (h.allowed .assign (by simp)) (by simp [Text.allowed])

/-- An assignment does not begin like the other statements. -/
theorem assign_head {a b us : Toks} {p : Place} {t : Tok} (h : ReadsPlace L a p) (e : a ++ .assign :: b = t :: us) : starts t = true ∨ t = .star := by
  obtain ⟨t', us', rfl, hs⟩ := h.starts
  cases e
  exact hs

theorem ReadsSimple.unique {ts : Toks} {s s' : St} (h : ReadsSimple L ts s) (h' : ReadsSimple L ts s') : s' = s := by
  cases h with
  | const hL h =>
    subst hL
    generalize hts : (Tok.kConst :: .ty _ :: .name _ :: .assign :: _) = xs at h'
    cases h' with
    | const _ h' =>
      simp only [List.cons.injEq, Tok.ty.injEq, Tok.name.injEq, true_and] at hts
      obtain ⟨rfl, rfl, rfl⟩ := hts
      rw [h.unique h']
    | bare => cases hts
    | bind hL => cases hL
    | later hL => cases hL
    | assign hp => rcases assign_head hp hts.symm with h | h <;> cases h
    | expr hL => cases hL
    | ret => cases hts
    | tuple hL => cases hL
    | assert hL => cases hL
  | bare hL =>
    subst hL
    generalize hts : [Tok.ty _, .name _] = xs at h'
    cases h' with
    | const => cases hts
    | bare => cases hts; rfl
    | bind hL => cases hL
    | later hL => cases hL
    | assign hp => rcases assign_head hp hts.symm with h | h <;> cases h
    | expr hL => cases hL
    | ret => cases hts
    | tuple hL => cases hL
    | assert hL => cases hL
  | bind hL h =>
    subst hL
    generalize hts : (Tok.kLet :: .name _ :: .colon :: .ty _ :: .assign :: _) = xs at h'
    cases h' with
    | const hL => cases hL
    | bare hL => cases hL
    | bind _ h' =>
      simp only [List.cons.injEq, Tok.ty.injEq, Tok.name.injEq, true_and] at hts
      obtain ⟨rfl, rfl, rfl⟩ := hts
      rw [h.unique h']
    | later => cases hts
    | assign hp => rcases assign_head hp hts.symm with h | h <;> cases h
    | expr _ h' => subst hts; obtain ⟨t, us, e, hs⟩ := h'.starts; cases e; cases hs
    | ret hL => exact absurd rfl hL
    | tuple hL => cases hL
    | assert hL => cases hL
  | later hL =>
    subst hL
    generalize hts : [Tok.kLet, .name _, .colon, .ty _] = xs at h'
    cases h' with
    | const hL => cases hL
    | bare hL => cases hL
    | bind => cases hts
    | later => cases hts; rfl
    | assign hp => rcases assign_head hp hts.symm with h | h <;> cases h
    | expr _ h' => subst hts; obtain ⟨t, us, e, hs⟩ := h'.starts; cases e; cases hs
    | ret hL => exact absurd rfl hL
    | tuple hL => cases hL
    | assert hL => cases hL
  | @assign ts us p v hp h =>
    generalize hts : ts ++ .assign :: us = xs at h'
    cases h' with
    | const => rcases assign_head hp hts with h | h <;> cases h
    | bare => rcases assign_head hp hts with h | h <;> cases h
    | bind => rcases assign_head hp hts with h | h <;> cases h
    | later => rcases assign_head hp hts with h | h <;> cases h
    | assign hp' h' =>
      obtain ⟨rfl, _, rfl⟩ := cut hp.good.1 hp'.good.1 hp.good.2 hp'.good.2 rfl rfl hts
      rw [hp.unique hp', h.unique h']
    | expr _ h' => subst hts; exact (assign_not_expr h').elim
    | ret => rcases assign_head hp hts with h | h <;> cases h
    | tuple => rcases assign_head hp hts with h | h <;> cases h
    | assert => rcases assign_head hp hts with h | h <;> cases h
  | expr hL h =>
    subst hL
    cases h' with
    | const hL => cases hL
    | bare hL => cases hL
    | bind => obtain ⟨t, us, e, hs⟩ := h.starts; cases e; cases hs
    | later => obtain ⟨t, us, e, hs⟩ := h.starts; cases e; cases hs
    | assign => exact (assign_not_expr h).elim
    | expr _ h' => rw [h.unique h']
    | ret hL => exact absurd rfl hL
    | tuple hL => cases hL
    | assert hL => cases hL
  | @ret ts v hL h =>
    generalize hts : Tok.kReturn :: ts = xs at h'
    cases h' with
    | const => cases hts
    | bare => cases hts
    | bind => cases hts
    | later => cases hts
    | assign hp => rcases assign_head hp hts.symm with h | h <;> cases h
    | expr hL' => exact absurd hL' hL
    | ret _ h' => cases hts; rw [h.unique h']
    | tuple hL' h' => cases hts; exact (tuple_not_value hL' h' h).elim
    | assert => cases hts
  | @tuple ts l hL h =>
    generalize hts : (Tok.kReturn :: .lpar :: (ts ++ [.rpar])) = xs at h'
    cases h' with
    | const => cases hts
    | bare => cases hts
    | bind => cases hts
    | later => cases hts
    | assign hp => rcases assign_head hp hts.symm with h | h <;> cases h
    | expr hL' => subst hL; cases hL'
    | ret _ h' => cases hts; exact (tuple_not_value hL h h').elim
    | tuple _ h' =>
      simp only [List.cons.injEq, true_and] at hts
      obtain rfl := List.append_cancel_right hts
      rw [h.unique h']
    | assert => cases hts
  | @assert ts e m hL h =>
    generalize hts : (Tok.kAssert :: (ts ++ [.comma, .name m])) = xs at h'
    cases h' with
    | const => cases hts
    | bare => cases hts
    | bind => cases hts
    | later => cases hts
    | assign hp => rcases assign_head hp hts.symm with h | h <;> cases h
    | expr hL' => subst hL; cases hL'
    | ret => cases hts
    | tuple => cases hts
    | assert _ h' =>
      simp only [List.cons.injEq, true_and] at hts
      obtain ⟨rfl, _, hr⟩ := cut h.good.1 h'.good.1 h.good.2 h'.good.2 rfl rfl hts
      simp only [List.cons.injEq, Tok.name.injEq, and_true] at hr
      rw [h.unique h', hr]

/-! ## Blocks -/

theorem ReadsBlock.bal {ts : Toks} {ss : List St} (h : ReadsBlock L ts ss) : Bal ts := by
  induction h with
  | nil => exact .nil
  | simple h _ _ ih => exact h.bal.append (.cons rfl rfl ih)
  | tail _ h _ => exact h.good.1
  | @ite l m us c t ss hc _ _ ih1 ih2 =>
    have e : Tok.kIf :: (l ++ .lbrace :: (m ++ .rbrace :: us)) = .kIf :: (l ++ ((.lbrace :: (m ++ [.rbrace])) ++ us)) := by simp
    rw [e]
    exact .cons rfl rfl (hc.good.1.append (.append (.bracket rfl rfl ih1) ih2))
  | @iteElse l m n us c t e ss hc _ _ _ ih1 ih2 ih3 =>
    have e : Tok.kIf :: (l ++ .lbrace :: (m ++ .rbrace :: .kElse :: .lbrace :: (n ++ .rbrace :: us))) =
      .kIf :: (l ++ ((.lbrace :: (m ++ [.rbrace])) ++ .kElse :: ((.lbrace :: (n ++ [.rbrace])) ++ us))) := by simp
    rw [e]
    exact .cons rfl rfl (hc.good.1.append (.append (.bracket rfl rfl ih1) (.cons rfl rfl (.append (.bracket rfl rfl ih2) ih3))))

theorem ReadsCond.clean_rbrace {ts : Toks} {c : Cond} (h : ReadsCond L ts c) : Clean (· = .rbrace) ts := by
  have hp : ∀ t : Tok, decide (t = .rbrace) = true → sep t = true := by
    intro t ht
    rw [of_decide_eq_true ht]; rfl
  cases h with
  | cpp _ h => exact .bracket rfl h.good.1 rfl
  | rust _ h _ => exact h.good.2.mono hp
  | isSome => rfl
  | python _ h => exact h.good.2.mono hp
  | notNone => rfl

theorem ReadsBlock.clean {ts : Toks} {ss : List St} (h : ReadsBlock L ts ss) : Clean (· = .rbrace) ts := by
  have hp : ∀ t : Tok, decide (t = .rbrace) = true → ending t = true := by
    intro t ht
    rw [of_decide_eq_true ht]; rfl
  induction h with
  | nil => exact .nil
  | simple h _ _ ih => exact .append h.bal (h.clean.mono hp) (.cons rfl rfl rfl ih)
  | tail _ h _ => exact h.good.2.mono fun t ht => ending_sep t (hp t ht)
  | @ite l m us c t ss hc h1 _ _ ih2 =>
    have e : Tok.kIf :: (l ++ .lbrace :: (m ++ .rbrace :: us)) = .kIf :: (l ++ ((.lbrace :: (m ++ [.rbrace])) ++ us)) := by simp
    rw [e]
    exact .cons rfl rfl rfl (.append hc.good.1 hc.clean_rbrace (.append (.bracket rfl rfl h1.bal) (.bracket rfl h1.bal rfl) ih2))
  | @iteElse l m n us c t e ss hc h1 h2 _ _ _ ih3 =>
    have e : Tok.kIf :: (l ++ .lbrace :: (m ++ .rbrace :: .kElse :: .lbrace :: (n ++ .rbrace :: us))) =
      .kIf :: (l ++ ((.lbrace :: (m ++ [.rbrace])) ++ .kElse :: ((.lbrace :: (n ++ [.rbrace])) ++ us))) := by simp
    rw [e]
    exact .cons rfl rfl rfl (.append hc.good.1 hc.clean_rbrace (.append (.bracket rfl rfl h1.bal) (.bracket rfl h1.bal rfl)
      (.cons rfl rfl rfl (.append (.bracket rfl rfl h2.bal) (.bracket rfl h2.bal rfl) ih3))))

theorem head_of_append {a b : Toks} {t : Tok} {r : Toks} (ha : a ≠ []) (h : a ++ b = t :: r) : a.head? = some t := by
  cases a with
  | nil => exact absurd rfl ha
  | cons x a => cases h; rfl

/-- No block begins with `else`. -/
theorem ReadsBlock.head {ts : Toks} {ss : List St} (h : ReadsBlock L ts ss) : ts.head? ≠ some .kElse := by
  have hv : ∀ {ts : Toks} {v : V}, ReadsV L ts v → ts.head? ≠ some .kElse := by
    intro ts v h
    cases h with
    | expr h => obtain ⟨t, us, rfl, hs⟩ := h.starts; intro e; cases e; cases hs
    | _ => simp
  cases h with
  | nil => simp
  | simple h =>
    cases h with
    | assign h => obtain ⟨t, us, rfl, hs⟩ := h.starts; intro e; cases e; rcases hs with hs | hs <;> cases hs
    | expr _ h => obtain ⟨t, us, rfl, hs⟩ := h.starts; intro e; cases e; cases hs
    | _ => simp
  | tail _ h => exact hv h
  | ite => simp
  | iteElse => simp

theorem lbrace_ok : (decide (Tok.lbrace = .lbrace)) = true := rfl

theorem ReadsBlock.unique (hL : L ≠ .python) {ts : Toks} {ss ss' : List St} (h : ReadsBlock L ts ss) (h' : ReadsBlock L ts ss') : ss' = ss := by
  have semi_value : ∀ {a b : Toks} {s : St} {v : V}, ReadsSimple L a s → ReadsV L (a ++ .semi :: b) v → False := fun h h' =>
    cut_end (p := ending) (h'.good.2.mono ending_sep) h.bal h.clean rfl rfl
  induction h generalizing ss' with
  | nil =>
    generalize hts : ([] : Toks) = xs at h'
    cases h' with
    | nil => rfl
    | simple => simp at hts
    | tail _ h => exact absurd hts.symm h.ne_nil
    | ite => cases hts
    | iteElse => cases hts
  | @simple ts us s ss h hh hr ih =>
    generalize hts : ts ++ .semi :: us = xs at h'
    cases h' with
    | nil => simp at hts
    | simple h' _ hr' =>
      obtain ⟨rfl, _, rfl⟩ := cut h.bal h'.bal h.clean h'.clean rfl rfl hts
      rw [h.unique h', ih hr']
    | tail _ h' => subst hts; exact (semi_value h h').elim
    | ite => exact absurd (head_of_append h.ne_nil hts) hh
    | iteElse => exact absurd (head_of_append h.ne_nil hts) hh
  | @tail ts v hL' h hh =>
    cases h' with
    | nil => exact absurd rfl h.ne_nil
    | simple h' => exact (semi_value h' h).elim
    | tail _ h' => rw [h.unique h']
    | ite => exact absurd rfl hh
    | iteElse => exact absurd rfl hh
  | @ite l m us c t ss hc h1 h2 ih1 ih2 =>
    generalize hts : (Tok.kIf :: (l ++ .lbrace :: (m ++ .rbrace :: us))) = xs at h'
    cases h' with
    | nil => cases hts
    | simple h' hh' => exact absurd (head_of_append h'.ne_nil hts.symm) hh'
    | tail _ h' hh' => subst hts; exact absurd rfl hh'
    | ite hc' h1' h2' =>
      simp only [List.cons.injEq, true_and] at hts
      obtain ⟨rfl, _, hts⟩ := cut hc.good.1 hc'.good.1 (hc.good.2 hL) (hc'.good.2 hL) rfl rfl hts
      obtain ⟨rfl, _, rfl⟩ := cut h1.bal h1'.bal h1.clean h1'.clean rfl rfl hts
      rw [hc.unique hc', ih1 h1', ih2 h2']
    | iteElse hc' h1' h2' h3' =>
      simp only [List.cons.injEq, true_and] at hts
      obtain ⟨rfl, _, hts⟩ := cut hc.good.1 hc'.good.1 (hc.good.2 hL) (hc'.good.2 hL) rfl rfl hts
      obtain ⟨rfl, _, rfl⟩ := cut h1.bal h1'.bal h1.clean h1'.clean rfl rfl hts
      exact absurd rfl h2.head
  | @iteElse l m n us c t e ss hc h1 h2 h3 ih1 ih2 ih3 =>
    generalize hts : (Tok.kIf :: (l ++ .lbrace :: (m ++ .rbrace :: .kElse :: .lbrace :: (n ++ .rbrace :: us)))) = xs at h'
    cases h' with
    | nil => cases hts
    | simple h' hh' => exact absurd (head_of_append h'.ne_nil hts.symm) hh'
    | tail _ h' hh' => subst hts; exact absurd rfl hh'
    | ite hc' h1' h2' =>
      simp only [List.cons.injEq, true_and] at hts
      obtain ⟨rfl, _, hts⟩ := cut hc.good.1 hc'.good.1 (hc.good.2 hL) (hc'.good.2 hL) rfl rfl hts
      obtain ⟨rfl, _, rfl⟩ := cut h1.bal h1'.bal h1.clean h1'.clean rfl rfl hts
      exact absurd rfl h2'.head
    | iteElse hc' h1' h2' h3' =>
      simp only [List.cons.injEq, true_and] at hts
      obtain ⟨rfl, _, hts⟩ := cut hc.good.1 hc'.good.1 (hc.good.2 hL) (hc'.good.2 hL) rfl rfl hts
      obtain ⟨rfl, _, hts⟩ := cut h1.bal h1'.bal h1.clean h1'.clean rfl rfl hts
      simp only [List.cons.injEq, true_and] at hts
      obtain ⟨rfl, _, rfl⟩ := cut h2.bal h2'.bal h2.clean h2'.clean rfl rfl hts
      rw [hc.unique hc', ih1 h1', ih2 h2', ih3 h3']

/-! ## Lines -/

theorem ReadsLines.indents {i : Nat} {ls : List (Nat × Toks)} {ss : List St} (h : ReadsLines i ls ss) :
    (∀ x ∈ ls, i ≤ x.1) ∧ (∀ x, ls.head? = some x → x.1 = i) ∧ (ls = [] ↔ ss = []) := by
  induction h with
  | nil => simp
  | simple _ _ ih =>
    refine ⟨?_, by simp, by simp⟩
    intro x hx
    rcases List.mem_cons.1 hx with rfl | hx
    · exact Nat.le_refl _
    · exact ih.1 x hx
  | ite _ hij _ _ _ ih1 ih2 =>
    refine ⟨?_, by simp, by simp⟩
    intro x hx
    rcases List.mem_cons.1 hx with rfl | hx
    · exact Nat.le_refl _
    · rcases List.mem_append.1 hx with hx | hx
      · have := ih1.1 x hx; omega
      · exact ih2.1 x hx
  | iteElse _ hij _ _ hik _ _ _ ih1 ih2 ih3 =>
    refine ⟨?_, by simp, by simp⟩
    intro x hx
    rcases List.mem_cons.1 hx with rfl | hx
    · exact Nat.le_refl _
    · rcases List.mem_append.1 hx with hx | hx
      · have := ih1.1 x hx; omega
      · rcases List.mem_cons.1 hx with rfl | hx
        · exact Nat.le_refl _
        · rcases List.mem_append.1 hx with hx | hx
          · have := ih2.1 x hx; omega
          · exact ih3.1 x hx

/-- The lines of a block end where a line has the indentation of the block around it. -/
theorem cut_lines {i : Nat} {a b r r' : List (Nat × Toks)} (ha : ∀ x ∈ a, i < x.1) (hb : ∀ x ∈ b, i < x.1) (hr : ∀ x, r.head? = some x → x.1 = i)
    (hr' : ∀ x, r'.head? = some x → x.1 = i) (h : a ++ r = b ++ r') : a = b ∧ r = r' := by
  induction a generalizing b with
  | nil =>
    cases b with
    | nil => exact ⟨rfl, h⟩
    | cons y b =>
      have := hr y (by rw [List.nil_append] at h; rw [h]; rfl)
      have := hb y List.mem_cons_self
      omega
  | cons x a ih =>
    cases b with
    | nil =>
      have := hr' x (by rw [List.nil_append] at h; rw [← h]; rfl)
      have := ha x List.mem_cons_self
      omega
    | cons y b =>
      simp only [List.cons_append, List.cons.injEq] at h
      obtain ⟨e1, e2⟩ := ih (fun z hz => ha z (List.mem_cons_of_mem _ hz)) (fun z hz => hb z (List.mem_cons_of_mem _ hz)) h.2
      exact ⟨by rw [h.1, e1], e2⟩

theorem simple_head {ts : Toks} {s : St} (h : ReadsSimple .python ts s) : ts.head? ≠ some .kIf ∧ ts.head? ≠ some .kElse := by
  have hk : ∀ {k : Nat} {ts : Toks} {e : E}, Reads .python k ts e → ts.head? ≠ some .kIf ∧ ts.head? ≠ some .kElse := by
    intro k ts e h
    obtain ⟨t, us, rfl, hs⟩ := h.starts
    have := h.allowed t List.mem_cons_self
    refine ⟨?_, ?_⟩
    · intro e; cases e; simp [Text.allowed] at this
    · intro e; cases e; cases hs
  have ha : ∀ {a b : Toks} {t : Tok}, a ≠ [] → a.head? ≠ some t → (a ++ b).head? ≠ some t := by
    intro a b t ha h
    cases a with
    | nil => exact absurd rfl ha
    | cons x a => simpa using h
  cases h with
  | assign h =>
    cases h with
    | expr h => exact ⟨ha h.head.1 (hk h).1, ha h.head.1 (hk h).2⟩
    | deref hL => exact absurd rfl hL
    | arrow hL => cases hL
    | slice _ h => rw [List.append_assoc]; exact ⟨ha h.head.1 (hk h).1, ha h.head.1 (hk h).2⟩
  | expr hL => cases hL
  | _ => simp

/-- Lines at the beginning of which a block of the indentation goes on. -/
theorem ReadsLines.else {i : Nat} {ts : Toks} {ls : List (Nat × Toks)} {ss : List St} (h : ReadsLines i ((i, .kElse :: ts) :: ls) ss) : False := by
  cases h with
  | simple h => exact (simple_head h).2 rfl

theorem block_gt {i j : Nat} {ls : List (Nat × Toks)} {ss : List St} (h : ReadsLines j ls ss) (hij : i < j) : ∀ x ∈ ls, i < x.1 := fun x hx =>
  Nat.lt_of_lt_of_le hij (h.indents.1 x hx)

/-- The indentation of a block is the one of its first line. -/
theorem same_indent {j k : Nat} {ls : List (Nat × Toks)} {ss ss' : List St} (h : ReadsLines j ls ss) (hs : ss ≠ []) (h' : ReadsLines k ls ss') : j = k := by
  cases ls with
  | nil => exact absurd (h.indents.2.2.1 rfl) hs
  | cons x ls => rw [← h.indents.2.1 x rfl, h'.indents.2.1 x rfl]

theorem ReadsLines.unique {i : Nat} {ls : List (Nat × Toks)} {ss ss' : List St} (h : ReadsLines i ls ss) (h' : ReadsLines i ls ss') : ss' = ss := by
  induction h generalizing ss' with
  | nil =>
    cases h' with
    | nil => rfl
  | simple h _ ih =>
    generalize hls : (_ :: _ : List (Nat × Toks)) = xs at h'
    cases h' with
    | nil => cases hls
    | simple h' hr' => cases hls; rw [h.unique h', ih hr']
    | ite => cases hls; exact absurd rfl (simple_head h).1
    | iteElse => cases hls; exact absurd rfl (simple_head h).1
  | @ite i j l m ls c t ss hc hij h1 ht h2 ih1 ih2 =>
    generalize hls : ((i, Tok.kIf :: (l ++ [.colon])) :: (m ++ ls) : List (Nat × Toks)) = xs at h'
    cases h' with
    | nil => cases hls
    | simple h' => cases hls; exact absurd rfl (simple_head h').1
    | ite hc' hij' h1' ht' h2' =>
      simp only [List.cons.injEq, Prod.mk.injEq, true_and] at hls
      obtain ⟨hl, hls⟩ := hls
      obtain rfl := List.append_cancel_right hl
      obtain ⟨rfl, rfl⟩ := cut_lines (block_gt h1 hij) (block_gt h1' hij') h2.indents.2.1 h2'.indents.2.1 hls
      obtain rfl := same_indent h1 ht h1'
      rw [hc.unique hc', ih1 h1', ih2 h2']
    | iteElse hc' hij' h1' ht' _ _ _ _ =>
      simp only [List.cons.injEq, Prod.mk.injEq, true_and] at hls
      obtain ⟨rfl, rfl⟩ := cut_lines (block_gt h1 hij) (block_gt h1' hij') h2.indents.2.1 (by simp) hls.2
      exact h2.else.elim
  | @iteElse i j k l m n ls c t e ss hc hij h1 ht hik h2 he h3 ih1 ih2 ih3 =>
    generalize hls : ((i, Tok.kIf :: (l ++ [.colon])) :: (m ++ (i, [.kElse, .colon]) :: (n ++ ls)) : List (Nat × Toks)) = xs at h'
    cases h' with
    | nil => cases hls
    | simple h' => cases hls; exact absurd rfl (simple_head h').1
    | ite hc' hij' h1' ht' h2' =>
      simp only [List.cons.injEq, Prod.mk.injEq, true_and] at hls
      obtain ⟨rfl, rfl⟩ := cut_lines (block_gt h1 hij) (block_gt h1' hij') (by simp) h2'.indents.2.1 hls.2
      exact h2'.else.elim
    | iteElse hc' hij' h1' ht' hik' h2' he' h3' =>
      simp only [List.cons.injEq, Prod.mk.injEq, true_and] at hls
      obtain ⟨hl, hls⟩ := hls
      obtain rfl := List.append_cancel_right hl
      obtain ⟨rfl, hr⟩ := cut_lines (block_gt h1 hij) (block_gt h1' hij') (by simp) (by simp) hls
      obtain ⟨rfl, rfl⟩ := cut_lines (block_gt h2 hik) (block_gt h2' hik') h3.indents.2.1 h3'.indents.2.1 (List.cons.inj hr).2
      obtain rfl := same_indent h1 ht h1'
      obtain rfl := same_indent h2 he h2'
      rw [hc.unique hc', ih1 h1', ih2 h2', ih3 h3']

end Wf.Gen.Text
