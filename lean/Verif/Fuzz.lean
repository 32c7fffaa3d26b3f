import Verif.MockTree
import Verif.SliceRefStep
import Verif.LinkProps
import Verif.Validate
import Verif.Cursor
/-!
# Model of the fuzz targets

`fuzz-utils` turns the bytes of the fuzzer into a list of commands, each with the answer that the mock implementation gives, and
runs the commands on a tree.  Both halves are modelled here for the targets `no_features` and `slice_ref`: `genAll` makes the commands,
`runCmds` runs them.  A failed assertion, an unexpected panic, and the absence of an expected one are errors.

Not modelled: how bytes become numbers, bounds, slices and lists of directions (`Unstructured`).  `Input` is one round of the loop
of the generator with the numbers already made; a number that chooses from a list is arbitrary and reduced modulo the length.  If the
bytes run out in the middle of a command, `Unstructured` either makes a default value, in which case the command is one of those
modelled, or rejects the whole input, in which case nothing is run.  Printing and `map_slice` are left out.
-/
namespace Sherman
namespace Fuzz
variable {S : Type}

/-! ## The generator -/

/-- What the bytes say about one command.  fuzz-utils/src/lib.rs:564-605, 660-770.  Directions: true is backward. -/
inductive Raw (S : Type) where
  | iter (start : Range.StartBound Nat) (stop : Range.EndBound Nat) (dirs : List Bool)
  | get (index : Nat)
  | insert (index : Nat) (slice : S) (size : Nat)
  | makeRef (index : Nat)
  | insertRef (index : Nat) (slice : S) (size : Nat)
  | cloneRef (k : Nat)
  | checkValid (k : Nat)
  | checkRange (k : Nat)
  | checkSlice (k : Nat)
  | dropRef (k : Nat)

/-- One round of the loop: the number that chooses the tree, and the command.  fuzz-utils/src/lib.rs:493-505 -/
structure Input (S : Type) where
  tree : Nat
  raw : Raw S

/-- `BasicCommand` and `SliceRefCommand`; `none` stands for `Err(())`.  The ids of new references (`new_id`, the id in `Ok`) are not read
by the runner and left out.  fuzz-utils/src/lib.rs:33-70, 89-131 -/
inductive Cmd (S : Type) where
  | iter (id : Nat) (start : Range.StartBound Nat) (stop : Range.EndBound Nat)
      (access : Option (List (Bool × Option (Nat × Nat × Nat × S))))
  | get (id : Nat) (index : Nat) (info : Option (Nat × Nat × S))
  | insert (id : Nat) (index : Nat) (slice : S) (size : Nat) (panics : Bool)
  | makeRef (id : Nat) (index : Nat) (panics : Bool)
  | insertRef (id : Nat) (index : Nat) (slice : S) (size : Nat) (panics : Bool)
  | cloneRef (src : Nat)
  | checkValid (ref : Nat) (valid : Bool)
  | checkRange (ref : Nat) (range : Option (Nat × Nat))
  | checkSlice (ref : Nat) (slice : Option S)
  | dropRef (ref : Nat)

/-- `trees`, `refs`, `num_trees` and `num_refs`.  fuzz-utils/src/lib.rs:488-491 -/
structure Gen (S : Type) where
  mocks : List (Option (Mock Nat S))
  refs : List (Option Nat)
  numTrees : Nat
  numRefs : Nat

/-- The state before the first command.  fuzz-utils/src/lib.rs:488-491 -/
def Gen.start : Gen S := ⟨[some Mock.newEmpty], [], 1, 0⟩

/-- `vals[i].as_ref().unwrap()`.  fuzz-utils/src/lib.rs:567, 593, 606, 729-730 -/
def slot {T : Type} (vals : List (Option T)) (i : Nat) : R T :=
  match vals[i]? with
  | some (some x) => .ok x
  | some none => .error (.panic "called `Option::unwrap()` on a `None` value")
  | none => .error (.panic "index out of bounds: Vec")

/-- The loop of `choose_sparse_index`: `vals` is what remains from place `i` on, `left` is `idx - i`.
fuzz-utils/src/lib.rs:516-524.  Looking past the end panics. -/
def sparse {T : Type} : (vals : List (Option T)) → (i left : Nat) → R Nat
  | [], _, _ => .error (.panic "index out of bounds: slice")
  | none :: vals, i, left => sparse vals (i + 1) left
  | some _ :: _, i, 0 => .ok i
  | some _ :: vals, i, left + 1 => sparse vals (i + 1) left

/-- `choose_sparse_index`; `none` if `choose_index` fails because there is nothing to choose from (the input is rejected).
fuzz-utils/src/lib.rs:511-525 -/
def choose {T : Type} (vals : List (Option T)) (count k : Nat) : R (Option Nat) :=
  if count = 0 then .ok none else do
    let i ← sparse vals 0 (k % count)
    pure (some i)

/-- `*count -= 1` on a `usize`.  fuzz-utils/src/lib.rs:607, 689, 744, 758, 766 -/
def dec (n : Nat) : R Nat := if n = 0 then .error .underflow else .ok (n - 1)

/-- `expect_might_panic` around code of the mock, which is safe code: whatever stops it is a panic.
fuzz-utils/src/lib.rs:12-23 -/
def caught {T : Type} : R T → Option T
  | .ok x => some x
  | .error _ => none

/-- Choose a reference, then go on with its place and the mock's number for it.  fuzz-utils/src/lib.rs:719-721, 727-730 -/
def withRef (g : Gen S) (k : Nat) (f : Nat → Nat → R (Cmd S × Gen S)) : R (Option (Cmd S × Gen S)) := do
  match ← choose g.refs g.numRefs k with
  | none => pure none
  | some i => do
    let r ← slot g.refs i
    let x ← f i r
    pure (some x)

/-- `BasicCommand::arbitrary` and `SliceRefCommand::arbitrary` on tree `id`; `none` if the input is rejected.
fuzz-utils/src/lib.rs:545-637, 639-773.  `insert` and `insert_ref` take the mock out and put it back if they succeed. -/
def genCmd (E : Env Nat S) (g : Gen S) (id : Nat) : Raw S → R (Option (Cmd S × Gen S))
  | .iter start stop dirs => do
    let m ← slot g.mocks id
    let access := caught (do
      let it ← m.iter E.ix ⟨start, stop⟩
      let vals ← Mock.runIter E.ix it dirs
      pure (dirs.zip vals))
    pure (some (.iter id start stop access, g))
  | .get index => do
    let m ← slot g.mocks id
    pure (some (.get id index (caught (m.get E.ix index)), g))
  | .insert index slice size => do
    let m ← slot g.mocks id
    let n ← dec g.numTrees
    match caught (m.insert E.ix E.sl index slice size false) with
    | some (m, _) => pure (some (.insert id index slice size false, { g with mocks := g.mocks.set id (some m), numTrees := n + 1 }))
    | none => pure (some (.insert id index slice size true, { g with mocks := g.mocks.set id none, numTrees := n }))
  | .makeRef index => do
    let m ← slot g.mocks id
    match caught (m.makeRef E.ix index) with
    | some (r, m) => pure (some (.makeRef id index false,
        { g with mocks := g.mocks.set id (some m), refs := g.refs ++ [some r], numRefs := g.numRefs + 1 }))
    | none => pure (some (.makeRef id index true, g))
  | .insertRef index slice size => do
    let m ← slot g.mocks id
    let n ← dec g.numTrees
    match caught (m.insert E.ix E.sl index slice size true) with
    | some (m, some r) => pure (some (.insertRef id index slice size false,
        ⟨g.mocks.set id (some m), g.refs ++ [some r], n + 1, g.numRefs + 1⟩))
    | some (_, none) => .error (.panic "called `Option::unwrap()` on a `None` value")
    | none => pure (some (.insertRef id index slice size true, { g with mocks := g.mocks.set id none, numTrees := n }))
  | .cloneRef k => withRef g k fun i r => pure (.cloneRef i, { g with refs := g.refs ++ [some r] })
  | .checkValid k => withRef g k fun i r => do
    let m ← slot g.mocks id
    let s ← m.refSlice r
    pure (.checkValid i s.isSome, g)
  | .checkRange k => withRef g k fun i r => do
    let m ← slot g.mocks id
    match ← m.refRange E.ix r with
    | some x => pure (.checkRange i (some x), g)
    | none => do
      let n ← dec g.numRefs
      pure (.checkRange i none, { g with refs := g.refs.set i none, numRefs := n })
  | .checkSlice k => withRef g k fun i r => do
    let m ← slot g.mocks id
    match ← m.refSlice r with
    | some x => pure (.checkSlice i (some x), g)
    | none => do
      let n ← dec g.numRefs
      pure (.checkSlice i none, { g with refs := g.refs.set i none, numRefs := n })
  | .dropRef k => withRef g k fun i _ => do
    let n ← dec g.numRefs
    pure (.dropRef i, { g with refs := g.refs.set i none, numRefs := n })

/-- `CommandSequence::arbitrary`; `none` if the input is rejected.  The list of inputs ends where the bytes do.
fuzz-utils/src/lib.rs:480-509 -/
def genAll (E : Env Nat S) (g : Gen S) : List (Input S) → R (Option (List (Cmd S)))
  | [] => pure (some [])
  | x :: xs =>
    if g.numTrees = 0 then pure (some []) else do
      match ← choose g.mocks g.numTrees x.tree with
      | none => pure none
      | some id => do
        match ← genCmd E g id x.raw with
        | none => pure none
        | some (c, g) => do
          match ← genAll E g xs with
          | none => pure none
          | some cs => pure (some (c :: cs))

/-! ## The runner -/

/-- `RunnerState`: the one tree with its references (`Sys`, where `owner` says that the tree is still there), and the parent links
stored in its nodes.  fuzz-utils/src/lib.rs:816-820.  These targets never make a second tree.  With `NoFeatures` there is no `InnerStore` and
nobody to see one; the model keeps it. -/
structure Runner (S : Type) where
  sys : Sys Nat S
  links : LinkMap

/-- `RunnerState::init`; fuzz-utils/src/lib.rs:864-870.  Memory starts with arbitrary contents. -/
def Runner.init (next : Nat) (L : LinkMap) : Runner S := ⟨Sys.start next, L⟩

/-- `self.trees[id.0].as_ref().unwrap()`.  fuzz-utils/src/lib.rs:876, 890, 899, 908, 914, 923 -/
def Runner.tree (r : Runner S) (id : Nat) : R (RleTree Nat S) :=
  if id = 0 then
    if r.sys.owner then .ok r.sys.st.tree else .error (.panic "called `Option::unwrap()` on a `None` value")
  else .error (.panic "index out of bounds: Vec")

/-- `self.refs[i].as_ref().unwrap()`.  fuzz-utils/src/lib.rs:973, 977, 981, 985, 989, 993 -/
def Runner.ref (r : Runner S) (i : Nat) : R Unit := do
  let _ ← slot r.sys.srefs i
  pure ()

/-- `assert!(expect_might_panic(..).is_err())`: it must panic, and it must not be undefined behaviour.
fuzz-utils/src/lib.rs:891-896, 910-911, 925-930 -/
def mustPanic {T : Type} : R T → R Unit
  | .ok _ => .error (.panic "assertion failed: panicked")
  | .error (.ub m) => .error (.ub m)
  | .error _ => .ok ()

/-- `SliceEntry::range`, `size`, `slice`.  src/tree/entry.rs:84-99, fuzz-utils/src/lib.rs:884 -/
def entryInfo (ix : IdxOps Nat) : Option (Entry Nat S) → R (Option (Nat × Nat × Nat × S))
  | none => pure none
  | some e => do
    let z ← ix.subR e.stop e.start
    pure (some (e.start, e.stop, z, e.slice))

/-- The loop over the accesses of an iterator.  fuzz-utils/src/lib.rs:878-887 -/
def checkIter [DecidableEq S] (ix : IdxOps Nat) (it : Iter Nat S) : List (Bool × Option (Nat × Nat × Nat × S)) → R Unit
  | [] => pure ()
  | (d, want) :: rest => do
    let (x, it) ← if d then it.nextBack ix else it.next ix
    let got ← entryInfo ix x
    vassert (decide (want = got))
    checkIter ix it rest

/-- How many levels there are: enough rounds for a loop upwards.  (model only; the loops of src/tree/entry.rs:119-122 and
src/tree/mod.rs:511-522 have no counter) -/
def rounds (t : RleTree Nat S) : Nat :=
  match t.root with
  | none => 1
  | some r => r.h + 1

/-- The `BoundedCursor` that results from prepending the components of a path from its end.  src/tree/entry.rs:107-126, src/cursor.rs:93-122 -/
def bounded (LEN : Nat) (path : List Nat) : R Cursor.BoundedCursor := do
  let c ← Cursor.newEmpty LEN
  Cursor.prependAll LEN c path.reverse

/-- `assert_eq!` of two `BoundedCursor`s.  fuzz-utils/src/lib.rs:904, 920 -/
def sameCursor (LEN : Nat) (a b : List Nat) : R Unit := do
  let x ← bounded LEN a
  let y ← bounded LEN b
  vassert (decide (x = y))

/-- `SliceEntry::cursor` along the links; src/tree/entry.rs:107-126 -/
def Runner.entryPath (r : Runner S) (e : Entry Nat S) : R (List Nat) :=
  match r.sys.st.tree.root with
  | none => .error (.ub "dangling SliceHandle")
  | some t =>
    match nodeAt e.ptr t.tree with
    | none => .error (.ub "dangling SliceHandle")
    | some _ => upPath r.links (rounds r.sys.st.tree) e.ptr []

/-- `cursor_to` along the links; src/tree/mod.rs:459-529 -/
def Runner.cursorTo (E : Env Nat S) (r : Runner S) (index : Nat) : R (List Nat) :=
  r.sys.st.tree.cursorToUp E r.links (rounds r.sys.st.tree) index

/-- `insert_internal` with the borrow state of the store (`Sys.insert`) and with its accesses to parent links carried out in memory: path
and handle.  src/tree/insert.rs:44-200 -/
def Runner.insert (E : Env Nat S) (junk : RefTree Nat S) (r : Runner S) (nop : Bool) (hints : List Nat) (index : Nat) (slice : S)
    (size : Nat) : R (List Nat × Option (Nat × Nat)) × Runner S :=
  match r.sys.insert E nop hints index slice size false junk with
  | (.error f, s) => (.error f, ⟨s, r.links⟩)
  | (.ok _, s) =>
    match r.sys.st.tree.insert E nop hints index slice size ⟨r.sys.st.next, [], [], none, []⟩ with
    | .error f => (.error f, ⟨s, r.links⟩)
    | .ok (_, out) =>
      match runLinks .unshared r.links out.world.links with
      | .error f => (.error f, ⟨s, r.links⟩)
      | .ok L => (.ok (out.path, out.handle), ⟨s, L⟩)

/-- A call on the tree or on a reference that has to return: its value and the new state. -/
def Runner.call (r : Runner S) (x : R (Sys.Val Nat S) × Sys Nat S) : R (Sys.Val Nat S × Runner S) :=
  match x with
  | (.ok v, s) => .ok (v, ⟨s, r.links⟩)
  | (.error f, _) => .error f

/-- An insertion that has to panic, into a tree that has been moved into the closure: the tree is dropped while unwinding, and a panic
there aborts.  fuzz-utils/src/lib.rs:922-931, 959-967 -/
def Runner.abandon (E : Env Nat S) (junk : RefTree Nat S) (r : Runner S) (index : Nat) (slice : S) (size : Nat) : R (Runner S) := do
  let (v, r) := r.insert E junk true [] index slice size
  mustPanic v
  let (_, r) ← r.call r.sys.dropTree
  pure r

/-- What an insertion leaves behind if it panics, see `Sys.insert`, for every state and insertion: it never takes the root away.
src/tree/insert.rs:67-190 -/
abbrev Junk (S : Type) := Sys Nat S → Nat → S → Nat → RefTree Nat S

/-- `run_basic_cmd` and `run_slice_ref_cmd`.  fuzz-utils/src/lib.rs:872-932, 940-1001.  `LEN` is the length of a `BoundedCursor`
(src/cursor.rs:60), `max` is `usize::MAX`. -/
def runCmd [DecidableEq S] (E : Env Nat S) (LEN max : Nat) (junk : Junk S) (r : Runner S) : Cmd S → R (Runner S)
  | .iter id start stop (some access) => do
    let t ← r.tree id
    let it ← t.iter E [] ⟨start, stop⟩
    checkIter E.ix it access
    pure r
  | .iter id start stop none => do
    let t ← r.tree id
    mustPanic (t.iter E [] ⟨start, stop⟩)
    pure r
  | .get id index (some info) => do
    let t ← r.tree id
    let e ← t.get E [] index
    vassert (decide ((e.start, e.stop, e.slice) = info))
    let a ← r.entryPath e
    let b ← r.cursorTo E index
    sameCursor LEN a b
    pure r
  | .get id index none => do
    let t ← r.tree id
    mustPanic (t.get E [] index)
    pure r
  | .insert id index slice size false => do
    let _ ← r.tree id
    let hints ← Cursor.roundTrip LEN []
    let (v, r) := r.insert E (junk r.sys index slice size) false hints index slice size
    let (path, _) ← v
    r.sys.st.tree.validate E false r.links
    let b ← r.cursorTo E index
    sameCursor LEN path b
    pure r
  | .insert id index slice size true => do
    let _ ← r.tree id
    r.abandon E (junk r.sys index slice size) index slice size
  | .makeRef id index false => do
    let t ← r.tree id
    let e ← t.get E [] index
    let (_, r) ← r.call (r.sys.makeRef max (e.ptr, e.idx))
    pure r
  | .makeRef id index true => do
    let t ← r.tree id
    mustPanic (t.get E [] index)
    pure r
  | .insertRef id index slice size false => do
    let _ ← r.tree id
    let (v, r) := r.insert E (junk r.sys index slice size) true [] index slice size
    let (_, h) ← v
    match h with
    | none => .error (.unreachable "insert_ref without handle")
    | some h => do
      let (_, r) ← r.call (r.sys.makeRef max h)
      r.sys.st.tree.validate E false r.links
      pure r
  | .insertRef id index slice size true => do
    let _ ← r.tree id
    r.abandon E (junk r.sys index slice size) index slice size
  | .cloneRef src => do
    r.ref src
    let (_, r) ← r.call (r.sys.cloneRef max src)
    pure r
  | .checkValid i valid => do
    r.ref i
    match ← r.call (r.sys.isValid i) with
    | (.bool b, r) => do
      vassert (decide (b = valid))
      pure r
    | _ => .error (.unreachable "is_valid")
  | .checkRange i range => do
    r.ref i
    match ← r.call (r.sys.borrowRead max i range.isSome (Sys.rangeAt E) .range) with
    | (.range v, r) => do
      vassert (decide (v = range))
      pure r
    | _ => .error (.unreachable "range")
  | .checkSlice i (some slice) => do
    r.ref i
    match ← r.call (r.sys.borrowSlice max i true) with
    | (.borrow (some j), r) => do
      let b ← slot r.sys.borrows j
      match ← r.sys.read b with
      | .slice x => do
        vassert (decide (x = slice))
        let (_, r) ← r.call (r.sys.dropBorrow j)
        pure r
      | _ => .error (.unreachable "read")
    | _ => .error (.unreachable "borrow_slice")
  | .checkSlice i none => do
    r.ref i
    match ← r.call (r.sys.borrowSlice max i false) with
    | (.borrow none, r) => pure r
    | _ => .error (.panic "assertion failed: r.try_borrow_slice().is_none()")
  | .dropRef i => do
    match r.sys.srefs[i]? with
    | none => .error (.panic "index out of bounds: Vec")
    | some none => pure r
    | some (some _) => do
      let (_, r) ← r.call (r.sys.dropRef i)
      pure r

/-- The loop of the target.  fuzz/fuzz_targets/basic_slices/M3/slice_ref.rs:42-44, fuzz/fuzz_targets/basic_slices/M3/no_features.rs:42-44 -/
def runCmds [DecidableEq S] (E : Env Nat S) (LEN max : Nat) (junk : Junk S) : Runner S → List (Cmd S) → R (Runner S)
  | r, [] => pure r
  | r, c :: cs => do
    let r ← runCmd E LEN max junk r c
    runCmds E LEN max junk r cs

/-- Drop the references that are left, from number `i` on, `n` of them.  fuzz-utils/src/lib.rs:816-820 -/
def dropRefs : (n i : Nat) → Runner S → R (Runner S)
  | 0, _, r => pure r
  | n + 1, i, r =>
    match r.sys.srefs[i]? with
    | some (some _) => do
      let (_, r) ← r.call (r.sys.dropRef i)
      dropRefs n (i + 1) r
    | _ => dropRefs n (i + 1) r

/-- The end of the target: the runner is dropped, first the tree, then the references.  fuzz-utils/src/lib.rs:816-820 -/
def Runner.finish (r : Runner S) : R (Runner S) := do
  let r ← if r.sys.owner then (do
    let (_, r) ← r.call r.sys.dropTree
    pure r) else pure r
  dropRefs r.sys.srefs.length 0 r

/-- One execution of the fuzz target: make the commands, run them, drop everything; `none` if the input is rejected.
fuzz/fuzz_targets/basic_slices/M3/slice_ref.rs:36-45, fuzz/fuzz_targets/basic_slices/M3/no_features.rs:36-45 -/
def target [DecidableEq S] (E : Env Nat S) (LEN max : Nat) (junk : Junk S) (next : Nat) (L : LinkMap) (xs : List (Input S)) :
    R (Option (Runner S)) := do
  match ← genAll E Gen.start xs with
  | none => pure none
  | some cs => do
    let r ← runCmds E LEN max junk (Runner.init next L) cs
    let r ← r.finish
    pure (some r)

end Fuzz
end Sherman
