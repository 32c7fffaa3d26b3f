import Verif.Fuzz
import Verif.CowPath
import Verif.CowIter
/-!
# Model of the fuzz target for copy-on-write

As `Verif/Fuzz.lean`, for the targets `cow`: there may be several trees, which are cloned and dropped, and which share nodes.  The runner works on
memory with counts of references and stored parent links (`LSt`).
-/
namespace Sherman
namespace Fuzz
open Cow
variable {S : Type}

/-! ## The generator -/

/-- What the bytes say about one command.  fuzz-utils/src/lib.rs:564-605, 776-812.  Directions: true is backward. -/
inductive CowRaw (S : Type) where
  | iter (start : Range.StartBound Nat) (stop : Range.EndBound Nat) (dirs : List Bool)
  | get (index : Nat)
  | insert (index : Nat) (slice : S) (size : Nat)
  | clone
  | drop

/-- One round of the loop: the number that chooses the tree, and the command.  fuzz-utils/src/lib.rs:493-505 -/
structure CowInput (S : Type) where
  tree : Nat
  raw : CowRaw S

/-- `CowCommand`; `basic` is used with `iter`, `get` and `insert` only.  The id of a clone is not read by the runner and left out.
fuzz-utils/src/lib.rs:144-150 -/
inductive CowCmd (S : Type) where
  | basic (c : Cmd S)
  | clone (src : Nat)
  | drop (id : Nat)

/-- `CowCommand::Basic`.  fuzz-utils/src/lib.rs:794-796 -/
def asBasic : Option (Cmd S × Gen S) → Option (CowCmd S × Gen S)
  | none => none
  | some (c, g) => some (.basic c, g)

/-- `CowCommand::arbitrary` on tree `id`; `none` if the input is rejected.  fuzz-utils/src/lib.rs:775-813 -/
def genCow (E : Env Nat S) (g : Gen S) (id : Nat) : CowRaw S → R (Option (CowCmd S × Gen S))
  | .iter start stop dirs => do
    let x ← genCmd E g id (.iter start stop dirs)
    pure (asBasic x)
  | .get index => do
    let x ← genCmd E g id (.get index)
    pure (asBasic x)
  | .insert index slice size => do
    let x ← genCmd E g id (.insert index slice size)
    pure (asBasic x)
  | .clone =>
    match g.mocks[id]? with
    | none => .error (.panic "index out of bounds: Vec")
    | some m => pure (some (.clone id, { g with mocks := g.mocks ++ [m], numTrees := g.numTrees + 1 }))
  | .drop =>
    match g.mocks[id]? with
    | none => .error (.panic "index out of bounds: Vec")
    | some _ => do
      let n ← dec g.numTrees
      pure (some (.drop id, { g with mocks := g.mocks.set id none, numTrees := n }))

/-- `CommandSequence::arbitrary`; `none` if the input is rejected.  fuzz-utils/src/lib.rs:480-509 -/
def genCows (E : Env Nat S) (g : Gen S) : List (CowInput S) → R (Option (List (CowCmd S)))
  | [] => pure (some [])
  | x :: xs =>
    if g.numTrees = 0 then pure (some []) else do
      match ← choose g.mocks g.numTrees x.tree with
      | none => pure none
      | some id => do
        match ← genCow E g id x.raw with
        | none => pure none
        | some (c, g) => do
          match ← genCows E g xs with
          | none => pure none
          | some cs => pure (some (c :: cs))

/-! ## The runner -/

/-- The loop over the accesses of an iterator.  fuzz-utils/src/lib.rs:878-887 -/
def checkIterM [DecidableEq S] (ix : IdxOps Nat) (s : LSt Nat S) (it : MIter Nat) : List (Bool × Option (Nat × Nat × Nat × S)) → R Unit
  | [] => pure ()
  | (d, want) :: rest => do
    let (x, it) ← if d then it.nextBack ix s.st.heap s.links else it.next ix s.st.heap s.links
    let got ← entryInfo ix x
    vassert (decide (want = got))
    checkIterM ix s it rest

/-- `tree.validate()`.  fuzz-utils/src/lib.rs:918, 1019-1020 -/
def validateM (E : Env Nat S) (s : LSt Nat S) (id : Nat) : R Unit := do
  let t ← s.st.view id
  t.validate E true s.links

/-- `tree.cursor_to(index)` where the stack has room for `depth` calls.  src/tree/mod.rs:460-529 -/
def cursorToM (E : Env Nat S) (depth : Nat) (s : LSt Nat S) (id index : Nat) : R (List Nat) :=
  match s.cursorTo E.ix depth id index with
  | none => .error (.ub "stack overflow")
  | some r => r

/-- `run_cow_cmd`.  fuzz-utils/src/lib.rs:872-932, 1009-1027.  `entry_cursor_method` is `None` (fuzz-utils/src/lib.rs:852-856).  `get` follows child
pointers only.  An insertion that has to panic, into a tree that has been moved into the closure: the tree is dropped while unwinding.  If the panic is
due to the index or the size, then nothing has been changed by then.  If it is an overflow, then nodes of this tree alone may have been changed, and
some may have been copied; what is left after dropping the tree is taken to be the same as without that. -/
def runCow [DecidableEq S] (E : Env Nat S) (imax LEN depth : Nat) (s : LSt Nat S) : CowCmd S → R (LSt Nat S)
  | .basic (.iter id start stop (some access)) => do
    let it ← s.iter E.ix id [] ⟨start, stop⟩
    checkIterM E.ix s it access
    pure s
  | .basic (.iter id start stop none) => do
    let _ ← s.st.tree id
    mustPanic (s.iter E.ix id [] ⟨start, stop⟩)
    pure s
  | .basic (.get id index (some info)) => do
    let t ← s.st.view id
    let e ← t.get E [] index
    vassert (decide ((e.start, e.stop, e.slice) = info))
    pure s
  | .basic (.get id index none) => do
    let t ← s.st.view id
    mustPanic (t.get E [] index)
    pure s
  | .basic (.insert id index slice size false) => do
    let hints ← Cursor.roundTrip LEN []
    let (path, s) ← s.insertC E imax id hints index slice size
    validateM E s id
    let b ← cursorToM E depth s id index
    sameCursor LEN path b
    pure s
  | .basic (.insert id index slice size true) => do
    let _ ← s.st.tree id
    mustPanic (s.insert E imax id true [] index slice size)
    s.step E imax (.drop id)
  | .basic _ => .error (.unreachable "not a BasicCommand")
  | .clone src => do
    let new := s.st.trees.length
    let s ← s.step E imax (.clone src)
    validateM E s src
    validateM E s new
    pure s
  | .drop id =>
    match s.st.trees[id]? with
    | none => .error (.panic "index out of bounds: Vec")
    | some none => pure s
    | some (some _) => s.step E imax (.drop id)

/-- The loop of the target.  fuzz/fuzz_targets/basic_slices/M1/cow.rs:40-42, fuzz/fuzz_targets/basic_slices/M3/cow.rs:40-42 -/
def runCows [DecidableEq S] (E : Env Nat S) (imax LEN depth : Nat) : LSt Nat S → List (CowCmd S) → R (LSt Nat S)
  | s, [] => pure s
  | s, c :: cs => do
    let s ← runCow E imax LEN depth s c
    runCows E imax LEN depth s cs

/-- The end of the target: the trees that are left are dropped, from number `i` on, `n` of them.  fuzz-utils/src/lib.rs:816-820 -/
def dropTrees (E : Env Nat S) (imax : Nat) : (n i : Nat) → LSt Nat S → R (LSt Nat S)
  | 0, _, s => pure s
  | n + 1, i, s =>
    match s.st.trees[i]? with
    | some (some _) => do
      let s ← s.step E imax (.drop i)
      dropTrees E imax n (i + 1) s
    | _ => dropTrees E imax n (i + 1) s

/-- One execution of the fuzz target: make the commands, run them on one empty tree (`RunnerState::init`), drop everything; `none` if the input is
rejected.  fuzz/fuzz_targets/basic_slices/M1/cow.rs:34-43, fuzz/fuzz_targets/basic_slices/M3/cow.rs:34-43, fuzz-utils/src/lib.rs:864-870 -/
def cowTarget [DecidableEq S] (E : Env Nat S) (imax LEN depth : Nat) (xs : List (CowInput S)) : R (Option (LSt Nat S)) := do
  match ← genCows E Gen.start xs with
  | none => pure none
  | some cs => do
    let s ← LSt.init.step E imax .new
    let s ← runCows E imax LEN depth s cs
    let s ← dropTrees E imax s.st.trees.length 0 s
    pure (some s)

end Fuzz
end Sherman
