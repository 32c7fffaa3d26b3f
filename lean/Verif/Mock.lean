import Verif.Tree
import Verif.Range
/-!
# Model of `src/mock.rs`

`Mock` stores the end position of each run, its slice and a "stable id"; `refs_map` maps ids of references to stable ids and
these to indices of runs.  `Vec` operations that can panic are modelled with their panics.
-/
namespace Sherman
variable {I S : Type}

/-- An element of `Mock::runs`; src/mock.rs:14-15. -/
structure MRun (I S : Type) where
  stop : I
  slice : S
  sid : Nat
  deriving DecidableEq, Repr

/-- `Mock` with its `RefMap`; src/mock.rs:12-38. -/
structure Mock (I S : Type) where
  runs : List (MRun I S)
  stable : List (Option Nat)
  refs : List Nat
  deriving DecidableEq, Repr

namespace Mock

/-- `Mock::new_empty`; src/mock.rs:55-60. -/
def newEmpty : Mock I S := ⟨[], [], []⟩

/-- `Mock::new`; src/mock.rs:62-71. -/
def new (ix : IdxOps I) (slice : S) (size : I) : R (Mock I S) :=
  if ix.le size ix.zero then .error (.panic "size less than zero") else pure ⟨[⟨size, slice, 0⟩], [some 0], []⟩

/-- `Mock::size`; src/mock.rs:81-83. -/
def size (ix : IdxOps I) (m : Mock I S) : I := (m.runs.getLast?.map (·.stop)).getD ix.zero

/-- `runs.binary_search_by_key(&index, |(i, ..)| *i)`.  src/mock.rs:85-130 -/
def search (ix : IdxOps I) (m : Mock I S) (index : I) : R (Nat ⊕ Nat) :=
  bsearch ix (m.runs.map (·.stop)) index 0 m.runs.length

/-- The same, with `Ok(i) => i + 1` and `Err(i) => i`; src/mock.rs:87-90, 99-102, 116-119, 259-262. -/
def find (ix : IdxOps I) (m : Mock I S) (index : I) : R Nat := do
  match ← m.search ix index with
  | .inl i => pure (i + 1)
  | .inr i => pure i

/-- `runs[i]`; src/mock.rs:85-220 -/
def at_ (runs : List (MRun I S)) (i : Nat) : R (MRun I S) :=
  match runs[i]? with
  | some r => pure r
  | none => .error (.panic "index out of bounds: Vec")

/-- `i.checked_sub(1).map(|i| runs[i].0).unwrap_or(I::ZERO)`; src/mock.rs:93, 122, 164, 189, 230, 355, 371. -/
def startOf (ix : IdxOps I) (runs : List (MRun I S)) (i : Nat) : R I :=
  if i = 0 then pure ix.zero else do
    let r ← at_ runs (i - 1)
    pure r.stop

/-- `Mock::get`: start, end, slice; src/mock.rs:85-95. -/
def get (ix : IdxOps I) (m : Mock I S) (index : I) : R (I × I × S) := do
  check (!ix.lt index ix.zero && ix.lt index (m.size ix)) "assertion failed: index >= I::ZERO && index < self.size()"
  let idx ← m.find ix index
  let r ← at_ m.runs idx
  let start ← startOf ix m.runs idx
  pure (start, r.stop, r.slice)

/-! ### `RefMap`; src/mock.rs:295-338 -/

/-- `stable_apply`; src/mock.rs:312-318. -/
def stableApply (st : List (Option Nat)) (filter : Nat → Bool) (map : Nat → Nat) : List (Option Nat) :=
  st.map fun o => o.map fun i => if filter i then map i else i

/-- `RefMap::insert`: the new stable id; src/mock.rs:320-323 (and `new_stableid`, 300-304). -/
def mapInsert (st : List (Option Nat)) (idx : Nat) : Nat × List (Option Nat) :=
  (st.length, stableApply st (fun i => decide (i ≥ idx)) (· + 1) ++ [some idx])

/-- `self.stable_indexes[id] = v`; src/mock.rs:325-339 -/
def stableSet (st : List (Option Nat)) (id : Nat) (v : Option Nat) : R (List (Option Nat)) :=
  if id < st.length then pure (st.set id v) else .error (.panic "index out of bounds: stable_indexes")

/-- `RefMap::reinsert`; src/mock.rs:325-328. -/
def mapReinsert (st : List (Option Nat)) (idx id : Nat) : R (List (Option Nat)) :=
  stableSet (stableApply st (fun i => decide (i ≥ idx)) (· + 1)) id (some idx)

/-- `RefMap::remove`; src/mock.rs:330-333. -/
def mapRemove (st : List (Option Nat)) (id idx : Nat) : R (List (Option Nat)) := do
  let st ← stableSet st id none
  pure (stableApply st (fun i => decide (i > idx)) (· - 1))

/-- `RefMap::remap`; src/mock.rs:335-337. -/
def mapRemap (refs : List Nat) (from_ to : Nat) : List Nat := refs.map fun id => if id = from_ then to else id

/-- `RefMap::idx`; src/mock.rs:296-298. -/
def refIdx (m : Mock I S) (r : Nat) : R (Option Nat) :=
  match m.refs[r]? with
  | none => .error (.panic "index out of bounds: index_refs")
  | some sid =>
    match m.stable[sid]? with
    | none => .error (.panic "index out of bounds: stable_indexes")
    | some o => pure o

/-- `Vec::insert`; src/mock.rs:108-220 -/
def vecInsert (runs : List (MRun I S)) (i : Nat) (r : MRun I S) : R (List (MRun I S)) :=
  if i ≤ runs.length then pure (runs.insertIdx i r) else .error (.panic "Vec::insert")

/-- `Mock::make_ref`: the id of the reference; src/mock.rs:97-106 (and `new_refid`, 306-310). -/
def makeRef (ix : IdxOps I) (m : Mock I S) (index : I) : R (Nat × Mock I S) := do
  check (!ix.lt index ix.zero && ix.lt index (m.size ix)) "assertion failed: index >= I::ZERO && index < self.size()"
  let idx ← m.find ix index
  let r ← at_ m.runs idx
  pure (m.refs.length, { m with refs := m.refs ++ [r.sid] })

/-- Split of the run containing `index`; src/mock.rs:115-141.  Returns runs, stable ids and the index for the insertion. -/
def cut (ix : IdxOps I) (sl : SliceOps I S) (m : Mock I S) (index : I) : R (Mock I S × Nat) := do
  let idx ← m.find ix index
  if idx < m.runs.length then do
    let s ← startOf ix m.runs idx
    if ix.lt s index then do
      let p ← ix.subL index s
      let r ← at_ m.runs idx
      let (l, rhs) := sl.splitAt r.slice p
      let (sid, stable) := mapInsert m.stable (idx + 1)
      let runs ← vecInsert (m.runs.set idx { r with stop := index, slice := l }) (idx + 1) ⟨r.stop, rhs, sid⟩
      pure ({ m with runs := runs, stable := stable }, idx + 1)
    else pure (m, idx)
  else pure (m, idx)

/-- The local variables of `insert` that the two attempts to join update; src/mock.rs:143-151. -/
structure Loc (I S : Type) where
  m : Mock I S
  idx : Nat
  slice : S
  base : I
  old : I
  new : I
  lhsEnd : Option I
  lhsId : Option Nat
  rhsId : Option Nat

/-- The attempt to join with the run on the left; src/mock.rs:153-175. -/
def joinLhs (ix : IdxOps I) (sl : SliceOps I S) (index : I) (x : Loc I S) : R (Loc I S) :=
  if x.idx = 0 then pure x else do
    let p := x.idx - 1
    let l ← at_ x.m.runs p
    let runs := x.m.runs.eraseIdx p
    let stable ← mapRemove x.m.stable l.sid p
    check (ix.eq l.stop index) "assertion failed: lhs_end == index"
    match sl.tryJoin l.slice x.slice with
    | .inr (lhs, s) => do
      let runs ← vecInsert runs p ⟨l.stop, lhs, l.sid⟩
      let stable ← mapReinsert stable p l.sid
      pure { x with m := { x.m with runs := runs, stable := stable }, slice := s }
    | .inl new => do
      let start ← startOf ix runs p
      let z ← ix.subL l.stop start
      let old ← ix.addL x.old z
      let newSize ← ix.addL x.new z
      pure { x with m := { x.m with runs := runs, stable := stable }, slice := new, idx := p, base := start, old := old,
                    new := newSize, lhsEnd := some l.stop, lhsId := some l.sid }

/-- `lhs_end_override.unwrap_or_else(…)`; src/mock.rs:188-190. -/
def rhsStart (ix : IdxOps I) (lhsEnd : Option I) (runs : List (MRun I S)) (i : Nat) : R I :=
  match lhsEnd with
  | some e => pure e
  | none => startOf ix runs i

/-- The attempt to join with the run on the right; src/mock.rs:177-198. -/
def joinRhs (ix : IdxOps I) (sl : SliceOps I S) (x : Loc I S) : R (Loc I S) :=
  if x.idx < x.m.runs.length then do
    let r ← at_ x.m.runs x.idx
    let runs := x.m.runs.eraseIdx x.idx
    let stable ← mapRemove x.m.stable r.sid x.idx
    match sl.tryJoin x.slice r.slice with
    | .inr (s, rhs) => do
      let runs ← vecInsert runs x.idx ⟨r.stop, rhs, r.sid⟩
      let stable ← mapReinsert stable x.idx r.sid
      pure { x with m := { x.m with runs := runs, stable := stable }, slice := s }
    | .inl new => do
      let start ← rhsStart ix x.lhsEnd runs x.idx
      let z ← ix.subL r.stop start
      let old ← ix.addR x.old z
      let newSize ← ix.addR x.new z
      pure { x with m := { x.m with runs := runs, stable := stable }, slice := new, old := old, new := newSize,
                    rhsId := some r.sid }
  else pure x

/-- `for (i, ..) in … { *i = i.add_left(diff) }`; src/mock.rs:212-214. -/
def shiftAll (ix : IdxOps I) (d : I) : List (MRun I S) → R (List (MRun I S))
  | [] => pure []
  | r :: rs => do
    let e ← ix.addL r.stop d
    let rs ← shiftAll ix d rs
    pure ({ r with stop := e } :: rs)

/-- `if let Some(id) = id { remap(id, to) }`; src/mock.rs:203-208. -/
def remapOpt (refs : List Nat) (id : Option Nat) (to : Nat) : List Nat :=
  match id with
  | none => refs
  | some id => mapRemap refs id to

/-- The rest of `insert`; src/mock.rs:200-220.  Returns the id of the new reference if asked. -/
def finish (ix : IdxOps I) (makeRef : Bool) (x : Loc I S) : R (Mock I S × Option Nat) := do
  let (sid, stable) := mapInsert x.m.stable x.idx
  let e ← ix.addR x.base x.new
  let runs ← vecInsert x.m.runs x.idx ⟨e, x.slice, sid⟩
  let refs := remapOpt (remapOpt x.m.refs x.lhsId sid) x.rhsId sid
  let o ← ix.addR x.base x.old
  let d ← ix.subL e o
  let tail ← shiftAll ix d (runs.drop (x.idx + 1))
  let m : Mock I S := ⟨runs.take (x.idx + 1) ++ tail, stable, refs⟩
  if makeRef then pure ({ m with refs := m.refs ++ [sid] }, some m.refs.length) else pure (m, none)

/-- `Mock::insert`; src/mock.rs:108-221. -/
def insert (ix : IdxOps I) (sl : SliceOps I S) (m : Mock I S) (index : I) (slice : S) (size : I) (makeRef : Bool) :
    R (Mock I S × Option Nat) := do
  check (!ix.eq size ix.zero) "invalid insertion size"
  check (!ix.lt (m.size ix) index) "index out of bounds"
  let (m, idx) ← m.cut ix sl index
  let x ← joinLhs ix sl index ⟨m, idx, slice, index, ix.zero, size, none, none, none⟩
  let x ← joinRhs ix sl x
  finish ix makeRef x

/-- `Mock::ref_slice`; src/mock.rs:223-225. -/
def refSlice (m : Mock I S) (r : Nat) : R (Option S) := do
  match ← m.refIdx r with
  | none => pure none
  | some i => do
    let x ← at_ m.runs i
    pure (some x.slice)

/-- `Mock::ref_range`; src/mock.rs:227-232. -/
def refRange (ix : IdxOps I) (m : Mock I S) (r : Nat) : R (Option (I × I)) := do
  match ← m.refIdx r with
  | none => pure none
  | some i => do
    let x ← at_ m.runs i
    let start ← startOf ix m.runs i
    pure (some (start, x.stop))

/-- `fwd_idx` of `iter`, with `start_pos` and `unbounded_start`; src/mock.rs:246-264. -/
def iterStart (ix : IdxOps I) (m : Mock I S) (start : Range.StartBound I) : R (I × Bool × Nat) :=
  match start with
  | .unbounded => pure (ix.zero, true, 0)
  | .included i => do
    check (ix.lt i (m.size ix)) "start index out of bounds"
    let j ← m.find ix i
    pure (i, false, j)

/-- `bkwd_idx` of `iter`; src/mock.rs:266-289. -/
def iterEnd (ix : IdxOps I) (m : Mock I S) (startPos : I) (unbounded : Bool) (stop : Range.EndBound I) : R Nat :=
  match stop with
  | .unbounded => pure m.runs.length
  | .included i => do
    check (!(ix.lt i startPos || !ix.lt i (m.size ix))) "invalid range, or end index out of bounds"
    match ← m.search ix i with
    | .inl j => pure (j + 2)
    | .inr j => pure (j + 1)
  | .excluded i => do
    check (!(ix.lt i startPos || (ix.eq i startPos && !unbounded) || ix.lt (m.size ix) i))
      "invalid range, or end index out of bounds"
    if ix.eq i ix.zero then pure 0 else do
      match ← m.search ix i with
      | .inl j => pure (j + 1)
      | .inr j => pure (j + 1)

/-- `MockIter`; src/mock.rs:340-345. -/
structure Iter (I S : Type) where
  runs : List (MRun I S)
  fwd : Nat
  bkwd : Nat

/-- `Mock::iter`; src/mock.rs:239-292. -/
def iter (ix : IdxOps I) (m : Mock I S) (r : Range.Rng I) : R (Iter I S) := do
  let (startPos, unbounded, fwd) ← m.iterStart ix r.start
  let bkwd ← m.iterEnd ix startPos unbounded r.stop
  pure ⟨m.runs, fwd, bkwd⟩

/-- `MockIter::next`: start, end, size, slice; src/mock.rs:350-361. -/
def Iter.next (ix : IdxOps I) (it : Iter I S) : R (Option (I × I × I × S) × Iter I S) :=
  if it.fwd ≥ it.bkwd then pure (none, it) else do
    let start ← startOf ix it.runs it.fwd
    let r ← at_ it.runs it.fwd
    let z ← ix.subL r.stop start
    pure (some (start, r.stop, z, r.slice), { it with fwd := it.fwd + 1 })

/-- `MockIter::next_back`; src/mock.rs:365-376. -/
def Iter.nextBack (ix : IdxOps I) (it : Iter I S) : R (Option (I × I × I × S) × Iter I S) :=
  if it.fwd ≥ it.bkwd then pure (none, it) else do
    let b := it.bkwd - 1
    let start ← startOf ix it.runs b
    let r ← at_ it.runs b
    let z ← ix.subL r.stop start
    pure (some (start, r.stop, z, r.slice), { it with bkwd := b })

end Mock
end Sherman
