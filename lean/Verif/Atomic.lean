import Verif.Base
/-!
# Model of the atomic reference count (src/tree/cow.rs)

One node shared by any number of threads, and everything that the threads do with its count and its contents, step by step and in any
order.  Memory orderings are taken seriously: a load may return a value that is no longer the newest, and what a thread knows of the other
threads' accesses is what the orderings guarantee.

* `Msg` is one value of the counter together with what an `Acquire` read of it makes known.  The counter is only ever changed by
  read-modify-write operations; each of these reads the newest value, and continues the release sequences of all earlier ones.
* `View` is what a thread knows: the newest value of the counter it is aware of (a load never returns an older one), and the accesses to
  the node that happen before whatever the thread does next.
* Handles (the `NodeHandle`s in `Root`s and in parent nodes) obey the rules that the borrow checker enforces: a shared use happens after the
  last exclusive use, an exclusive use happens after all earlier uses.  `excl` and `shared` are what these uses have left behind.
* Not modelled: reads of values from the future (load buffering), which the C++20 memory model allows on paper for relaxed operations.
-/
namespace Sherman.Atomic

/-- What is known: the index of the newest value of the counter seen, and the accesses that happened before.  For the accesses in
src/tree/cow.rs:17-62 -/
structure View where
  ts : Nat
  acc : List Nat

/-- Both.  For the accesses in src/tree/cow.rs:17-62 -/
def View.join (a b : View) : View := ⟨max a.ts b.ts, a.acc ++ b.acc⟩

/-- A value of the counter, and what reading it with `Acquire` makes known.  For the accesses in src/tree/cow.rs:17-62 -/
structure Msg where
  val : Nat
  view : View

/-- A `NodeHandle` that owns a reference.  `mutating`: the thread that found the count to be one, and has mutable access.
src/tree/node.rs:150-230 -/
structure Handle where
  excl : View
  shared : View
  mutating : Option Nat

/-- Whether each operation has the ordering that it has in the code: the load of `is_unique` is `Acquire`, the subtraction of `decrement`
is `Release`, the load after it is `Acquire`.  src/tree/cow.rs:26-62 -/
structure Orders where
  uniqueAcquire : Bool
  decrementRelease : Bool
  lastAcquire : Bool

/-- src/tree/cow.rs:28-60 -/
def code : Orders := ⟨true, true, true⟩

/-- The node, its counter (all values it ever had, oldest first), the threads and the handles.  `accesses[a]` is whether the `a`-th access to
the contents was a write.  `lasts` counts the calls of `decrement` that returned `true`; `dying` is the thread on which this happened and
whether it has done the final load; `bad` is set by a data race or an access to a freed node.  `forgotten` and `panicked` count handles
given to `mem::forget` and calls of `increment` that panicked.  src/tree/cow.rs:17-62 -/
structure St where
  hist : List Msg
  view : Nat → View
  handles : List (Option Handle)
  accesses : List Bool
  lasts : Nat
  dying : Option (Nat × Bool)
  freed : Bool
  bad : Bool
  forgotten : Nat
  panicked : Nat

/-- A new node: `StrongCount::one()`, one handle, contents written.  src/tree/cow.rs:22-24 -/
def start : St :=
  { hist := [⟨1, ⟨0, []⟩⟩], view := fun _ => ⟨0, []⟩, handles := [some ⟨⟨0, [0]⟩, ⟨0, []⟩, none⟩], accesses := [true], lasts := 0,
    dying := none, freed := false, bad := false, forgotten := 0, panicked := 0 }

/-- What thread `t` does next.  Loads name the value that they return.  src/tree/cow.rs:17-62 -/
inductive Op where
  /-- `b` learns what `a` knows by some other synchronisation -/
  | sync (a b : Nat)
  | clone (t h : Nat)
  /-- read the contents through a handle -/
  | read (t h : Nat)
  /-- `is_unique` -/
  | check (t h i : Nat)
  /-- write to the contents after `is_unique` has returned true -/
  | write (t h : Nat)
  /-- end of the mutable access -/
  | done (t h : Nat)
  | drop (t h : Nat)
  | forget (t h : Nat)
  /-- the load at the end of `decrement` -/
  | load (t i : Nat)
  /-- the destructor of the contents -/
  | destroy (t : Nat)

namespace St

/-- Update what a thread knows (src/tree/cow.rs:17-62). -/
def setView (s : St) (t : Nat) (v : View) : St := { s with view := fun u => if u = t then v else s.view u }

/-- Update a handle (src/tree/node.rs:95-110). -/
def setHandle (s : St) (h : Nat) (x : Option Handle) : St := { s with handles := s.handles.set h x }

/-- A handle that nobody has exclusive access to.  src/tree/node.rs:95-110 -/
def idle (s : St) (h : Nat) : Option Handle :=
  match s.handles[h]? with
  | some (some x) => if x.mutating.isNone then some x else none
  | _ => none

/-- `fetch_add` / `fetch_sub` with a result of `val`: the new value of the counter, by a thread that knows `v`.  A release operation adds what
the thread knows to what later acquire operations learn.  src/tree/cow.rs:36, 44 -/
def push (s : St) (m : Msg) (val : Nat) (release : Bool) (v : View) : St :=
  { s with hist := s.hist ++ [⟨val, if release then m.view.join v else m.view⟩], bad := s.bad || s.freed }

/-- `load` of the `i`-th value by a thread that knows `v`: what it knows afterwards.  src/tree/cow.rs:29, 57 -/
def acquire (m : Msg) (i : Nat) (acq : Bool) (v : View) : View :=
  if acq then ⟨i, v.acc ++ m.view.acc⟩ else ⟨i, v.acc⟩

/-- An access to the contents by a thread that knows `v`: a write races with every access that it does not know, a read with every write.
 src/tree/node.rs:825-830, 1269-1277 -/
def access (s : St) (isWrite : Bool) (v : View) : St :=
  { s with
    accesses := s.accesses ++ [isWrite]
    bad := s.bad || s.freed ||
      !(List.range s.accesses.length).all fun a => v.acc.contains a || !(isWrite || (s.accesses[a]?).getD false) }

/-- `increment`; src/tree/cow.rs:34-43.  `usize::MAX` is `2 * imax + 1`.  The addition is done before the check. -/
def clone (imax : Nat) (s : St) (t h : Nat) : Option St := do
  let x ← s.idle h
  let m ← s.hist.getLast?
  let v := (s.view t).join x.excl
  let v := { v with ts := s.hist.length }
  let s := s.push m ((m.val + 1) % (2 * imax + 2)) false v
  let s := (s.setView t v).setHandle h (some { x with shared := x.shared.join v })
  if m.val > imax then pure { s with panicked := s.panicked + 1 }
  else pure { s with handles := s.handles ++ [some ⟨v, ⟨0, []⟩, none⟩] }

/-- Reading through a shared reference.  src/tree/node.rs:825-830 -/
def read (s : St) (t h : Nat) : Option St := do
  let x ← s.idle h
  let v := (s.view t).join x.excl
  let s' := s.access false v
  let v := { v with acc := s.accesses.length :: v.acc }
  pure ((s'.setView t v).setHandle h (some { x with shared := x.shared.join v }))

/-- `is_unique`, called with exclusive access to the handle (`make_unique`, `ensure_unique`; src/tree/node.rs:1602-1622, 2580-2609).
src/tree/cow.rs:26-31 -/
def check (o : Orders) (s : St) (t h i : Nat) : Option St := do
  let x ← s.idle h
  let v := ((s.view t).join x.excl).join x.shared
  let m ← s.hist[i]?
  guard (v.ts ≤ i)
  let v := acquire m i o.uniqueAcquire v
  let x : Handle := ⟨v, v, if m.val = 1 then some t else none⟩
  pure ({ s with bad := s.bad || s.freed }.setView t v |>.setHandle h (some x))

/-- Writing with mutable access.  src/tree/node.rs:1269-1277 -/
def write (s : St) (t h : Nat) : Option St := do
  match s.handles[h]? with
  | some (some x) =>
    guard (x.mutating = some t)
    let v := (s.view t).join x.excl
    let s' := s.access true v
    let v := { v with acc := s.accesses.length :: v.acc }
    pure ((s'.setView t v).setHandle h (some { x with excl := v }))
  | _ => none

/-- End of mutable access.  src/tree/node.rs:1603-1641 -/
def done (s : St) (t h : Nat) : Option St := do
  match s.handles[h]? with
  | some (some x) =>
    guard (x.mutating = some t)
    pure (s.setHandle h (some { x with mutating := none }))
  | _ => none

/-- The subtraction of `decrement`, called on a handle given up (`try_drop`; src/tree/node.rs:1586-1600).  src/tree/cow.rs:45-46 -/
def drop (imax : Nat) (o : Orders) (s : St) (t h : Nat) : Option St := do
  let x ← s.idle h
  let m ← s.hist.getLast?
  let v := ((s.view t).join x.excl).join x.shared
  let v := { v with ts := s.hist.length }
  let s := s.push m ((m.val + (2 * imax + 1)) % (2 * imax + 2)) o.decrementRelease v
  let s := (s.setView t v).setHandle h none
  if m.val = 1 then pure { s with lasts := s.lasts + 1, dying := some (t, false) } else pure s

/-- `mem::forget` of a handle.  No counterpart in the code (std; a handle of src/tree/node.rs:95-110) -/
def forget (s : St) (h : Nat) : Option St := do
  let _ ← s.idle h
  pure { s.setHandle h none with forgotten := s.forgotten + 1 }

/-- The load at the end of `decrement`; src/tree/cow.rs:47-60. -/
def load (o : Orders) (s : St) (t i : Nat) : Option St := do
  guard (s.dying = some (t, false))
  let m ← s.hist[i]?
  guard ((s.view t).ts ≤ i)
  pure { s.setView t (acquire m i o.lastAcquire (s.view t)) with dying := some (t, true), bad := s.bad || s.freed }

/-- `do_drop` by the thread whose `decrement` returned true; src/tree/node.rs:1846-1930. -/
def destroy (s : St) (t : Nat) : Option St := do
  guard (s.dying = some (t, true))
  pure { s.access true (s.view t) with freed := true, dying := none }

/-- One step; `none` if it is not possible.  src/tree/cow.rs:17-62 -/
def step (imax : Nat) (o : Orders) (s : St) : Op → Option St
  | .sync a b => some (s.setView b ((s.view b).join (s.view a)))
  | .clone t h => s.clone imax t h
  | .read t h => s.read t h
  | .check t h i => s.check o t h i
  | .write t h => s.write t h
  | .done t h => s.done t h
  | .drop t h => s.drop imax o t h
  | .forget _ h => s.forget h
  | .load t i => s.load o t i
  | .destroy t => s.destroy t

/-- A whole execution.  src/tree/cow.rs:17-62 -/
def run (imax : Nat) (o : Orders) : St → List Op → Option St
  | s, [] => some s
  | s, op :: ops => do
    let s ← s.step imax o op
    run imax o s ops

/-- The states of all executions.  src/tree/cow.rs:17-62 -/
inductive Reach (imax : Nat) (o : Orders) : St → Prop
  | start : Reach imax o start
  | step {s s' : St} (op : Op) : Reach imax o s → s.step imax o op = some s' → Reach imax o s'

/-- Number of handles.  src/tree/node.rs:95-110 -/
def live (s : St) : Nat := s.handles.countP Option.isSome

end St
end Sherman.Atomic
