import Verif.Sym.SymbolsModel

/-!
# Model of `sym.unique_symbols`, called from any number of threads

`wrapper/pywrenfold/scalar_wrapper.cc:142-159` and `core/wf/expressions/variable.cc:13-19`. The counter of the unique variables is a `static
std::atomic_size_t` that all threads of the process share: it is the only state. One step of a thread is the start of a call, one `fetch_add`
together with the check of its result, or the return of a call. The threads take their steps in any order. (Under the interpreter lock calls from
Python do not overlap. The C++ interface has no such lock.)
-/

namespace Wf.Sym.Once

variable {F : Type}

/-- The flags that `unique_symbols` accepts, `scalar_wrapper.cc:326-328`. -/
structure Flags where
  real : Bool := false
  positive : Bool := false
  nonnegative : Bool := false
  complex : Bool := false

/-- A call that makes unique variables: `sym.unique_symbols(count, …)`, or the creation of one variable inside the library: by the
derivative of a substitution or of a declared function, `derivative.cc:312,368`, and by the derivatives of quaternions,
`geometry/quaternion.cc:275-280,300-306`. -/
inductive Request
  | unique (count : Nat) (flags : Flags)
  | derivative (s : NSet)

/-- The value that is returned: `std::variant<scalar_expr, std::vector<scalar_expr>>`, `scalar_wrapper.cc:142`. -/
inductive Made (F : Type)
  | one (e : Expr F)
  | many (es : List (Expr F))

/-- The variables that are returned. -/
def Made.symbols : Made F → List (Expr F)
  | .one e => [e]
  | .many es => es

/-- A call that has not returned yet: the number set, whether one expression is returned or a list, the number of variables that are missing, and
the variables that have been made. -/
structure Running (F : Type) where
  set : NSet
  single : Bool
  missing : Nat
  made : List (Expr F)

/-- A thread: the calls it will make, the call it is in, and the results of its calls, the first call first. -/
structure Thread (F : Type) where
  todo : List Request
  running : Option (Running F)
  done : List (Res (Made F))

/-- The counter `next_index`, `variable.cc:15`, and the threads. -/
structure World (F : Type) where
  next : Nat
  threads : Nat → Thread F

/-- The number of values of `std::size_t`. -/
def sizeValues : Nat := 2 ^ 64

/-- The start of the process: `next_index{1}`, `variable.cc:15`. -/
def start (calls : Nat → List Request) : World F := ⟨1, fun i => ⟨calls i, none, []⟩⟩

/-- The start of a call: the check of the count and the number set, `scalar_wrapper.cc:145-149,153`. -/
def begin (t : Thread F) (rest : List Request) : Request → Thread F
  | .unique count f =>
    if count = 0 then ⟨rest, none, t.done ++ [.error .invalidArgument]⟩
    else
      match setFromFlags f.real f.positive f.nonnegative f.complex with
      | .error e => ⟨rest, none, t.done ++ [.error e]⟩
      | .ok s => ⟨rest, some ⟨s, count == 1, count, []⟩, t.done⟩
  | .derivative s => ⟨rest, some ⟨s, true, 1, []⟩, t.done⟩

/-- The return of a call, `scalar_wrapper.cc:150,157`. -/
def finish (t : Thread F) (r : Running F) : Thread F :=
  match r.single, r.made with
  | true, e :: _ => ⟨t.todo, none, t.done ++ [.ok (.one e)]⟩
  | _, es => ⟨t.todo, none, t.done ++ [.ok (.many es)]⟩

/-- `next_unique_variable_index`, `variable.cc:13-19`, and the new variable: `fetch_add` returns the old value and wraps around. Zero fails the
assertion, which ends the call. -/
def draw (next : Nat) (t : Thread F) (r : Running F) (missing : Nat) : Nat × Thread F :=
  ((next + 1) % sizeValues,
    if next = 0 then ⟨t.todo, none, t.done ++ [.error .assertion]⟩
    else ⟨t.todo, some ⟨r.set, r.single, missing, r.made ++ [.uniq next r.set]⟩, t.done⟩)

/-- One step of a thread. -/
def advance (next : Nat) (t : Thread F) : Nat × Thread F :=
  match t.running with
  | none =>
    match t.todo with
    | [] => (next, t)
    | q :: rest => (next, begin t rest q)
  | some r =>
    match r.missing with
    | 0 => (next, finish t r)
    | m + 1 => draw next t r m

/-- Thread `i` takes a step. -/
def stepOf (w : World F) (i : Nat) : World F :=
  let (n, t) := advance w.next (w.threads i)
  ⟨n, fun j => if j = i then t else w.threads j⟩

/-- The threads take their steps in the order of the schedule. -/
def run (w : World F) (schedule : List Nat) : World F := schedule.foldl stepOf w

end Wf.Sym.Once
