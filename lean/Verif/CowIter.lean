import Verif.CowLinks
import Verif.Iter
/-!
# Iteration over trees that share nodes (src/tree/iter.rs, `P::COW = true`)

The model of `Verif/Iter.lean` goes up by a zipper.  Here iteration works on memory: handles are an address and a height, parents are found
by the link that is stored in the child, or, where that link was seen on the way down to name something else, by the stack
`IterStack::stack`.  Memory and links are arguments of every step, so that other trees may change between steps.
-/
namespace Sherman.Cow
variable {I S : Type}

/-- A node handle with its key index: `SliceHandle<ty::Unknown, borrow::Immut, ..>`.  The height is the handle's own and decides how the
node is read; it is not checked against the node.  src/tree/node.rs:170-230 -/
structure MHead where
  ptr : Nat
  height : Nat
  idx : Nat
  deriving DecidableEq, Repr

/-- `IterStack`; src/tree/iter.rs:80-97.  The first entry of `stack` is its top; an entry is a node handle (address, height) and the index
of the child below. -/
structure MStack (I : Type) where
  stack : List ((Nat × Nat) × Nat)
  rootHeight : Nat
  head : MHead
  endPos : I

/-- What is read of a child: its address and `subtree_size`.  src/tree/iter.rs:384-470 -/
def stub (q : Nat) (size : I) : Tree I S 1 := (⟨q, size, [], []⟩ : Node I S (Tree I S 0))

/-- A node read through a handle of height 0.  Dummies stand for children, as in `Verif/Tree.lean`.  src/tree/node.rs:825-830 -/
def rdLeaf (H : Heap I S) (p : Nat) : R (Tree I S 1) := do
  let nd ← H.get p
  let n : Node I S (Tree I S 0) := ⟨p, nd.size, nd.keys, nd.kids.map fun _ => ()⟩
  pure n

/-- A node read through a handle of positive height.  If the node is a leaf there are no children in its allocation
(src/tree/node.rs:255-330: `Internal` extends `Leaf`).  Addresses and sizes of all children are read at once; the code reads those it uses. -/
def rdInternal (H : Heap I S) (p : Nat) : R (Tree I S 2) := do
  let nd ← H.get p
  if nd.height = 0 then .error (.ub "leaf used as internal node")
  else do
    let kids ← nd.kids.mapM fun q => do
      let c ← H.get q
      pure (stub q c.size : Tree I S 1)
    let n : Node I S (Tree I S 1) := ⟨p, nd.size, nd.keys, kids⟩
    pure n

/-- `SliceHandle::slice_size`; src/tree/node.rs:2887-2905 -/
def MHead.sliceSize (ix : IdxOps I) (H : Heap I S) (hd : MHead) : R I :=
  match hd.height with
  | 0 => do
    let n ← rdLeaf H hd.ptr
    Node.sliceSize ix (szT ix) n hd.idx
  | _ + 1 => do
    let n ← rdInternal H hd.ptr
    Node.sliceSize ix (szT ix) n hd.idx

/-- `impl PartialEq for SliceHandle`: the same node address and the same index.  src/tree/node.rs:201-226 -/
def MHead.same (a b : MHead) : Bool := a.ptr == b.ptr && a.idx == b.idx

/-- Going from the node at `p` of height `h` to its child `c` at `q`: the node is pushed if the child stores a link that is not `(cmp, c)`.
src/tree/iter.rs:356-366 (`cmp` is the node itself), 396-403 and 483-490 (`cmp` is the node where the way down began) -/
def pushM (L : LinkMap) (cmp p h c q : Nat) (stack : List ((Nat × Nat) × Nat)) : List ((Nat × Nat) × Nat) :=
  match L q with
  | some pair => if pair ≠ (cmp, c) then ((p, h), c) :: stack else stack
  | none => stack

/-- The `ChildOrKey::Key` arm of the loop of `make_stack`.  src/tree/iter.rs:338-347 -/
def stackKeyM (ix : IdxOps I) (H : Heap I S) (rootHeight p h : Nat) (stack : List ((Nat × Nat) × Nat)) (headPos : I) (k : Nat) (kpos : I) :
    R (MStack I) := do
  let pos ← ix.addR headPos kpos
  let hd : MHead := ⟨p, h, k⟩
  let size ← hd.sliceSize ix H
  let stop ← ix.addR pos size
  pure ⟨stack, rootHeight, hd, stop⟩

/-- The loop of `make_stack`.  src/tree/iter.rs:274-373 -/
def stackLoopM (ix : IdxOps I) (H : Heap I S) (L : LinkMap) (rootHeight : Nat) (excluded : Bool) :
    Nat → Nat → List ((Nat × Nat) × Nat) → Option (List Nat) → I → I → R (MStack I)
  | 0, p, stack, hints, headPos, target => do
    let n ← rdLeaf H p
    match ← stackStep ix true n (headHint hints) excluded target with
    | .key k kpos => stackKeyM ix H rootHeight p 0 stack headPos k kpos
    | .child _ _ => .error (.panic "internal error")
  | h + 1, p, stack, hints, headPos, target => do
    let n ← rdInternal H p
    match ← stackStep ix false n (headHint hints) excluded target with
    | .key k kpos => stackKeyM ix H rootHeight p (h + 1) stack headPos k kpos
    | .child c cpos => do
      let ch ← Node.child n c
      let target ← ix.subL target cpos
      let headPos ← ix.addR headPos cpos
      stackLoopM ix H L rootHeight excluded h (ptrOf ch) (pushM L p p (h + 1) c (ptrOf ch) stack) (hints.map List.tail) headPos target

/-- `make_stack(root, cursor, target)`.  src/tree/iter.rs:257-375 -/
def makeStackM (ix : IdxOps I) (H : Heap I S) (L : LinkMap) (h p : Nat) (hints : Option (List Nat)) (target : IterBound I) : R (MStack I) :=
  match target with
  | .included i => stackLoopM ix H L h false h p [] hints ix.zero i
  | .excluded i => stackLoopM ix H L h true h p [] hints ix.zero i

/-- The leftmost key below child `c` of a node: the inner loop of `fwd_step`, which began at `start`.  src/tree/iter.rs:389-418 -/
def firstBelowM (H : Heap I S) (L : LinkMap) (start : Nat) :
    Nat → Nat → Nat → List ((Nat × Nat) × Nat) → R (MHead × List ((Nat × Nat) × Nat))
  | 0, _, _, _ => .error (.ub "into_child of a leaf")
  | 1, p, c, stack => do
    let n ← rdInternal H p
    let ch ← Node.child n c
    let leaf ← rdLeaf H (ptrOf ch)
    check (1 ≤ Node.len leaf) "assert: child.leaf().len() >= 1"
    pure (⟨ptrOf ch, 0, 0⟩, pushM L start p 1 c (ptrOf ch) stack)
  | h + 2, p, c, stack => do
    let n ← rdInternal H p
    let ch ← Node.child n c
    firstBelowM H L start (h + 1) (ptrOf ch) 0 (pushM L start p (h + 2) c (ptrOf ch) stack)

/-- The rightmost key below child `c` of a node: the inner loop of `bkwd_step`, which began at `start`.  src/tree/iter.rs:474-506 -/
def lastBelowM (H : Heap I S) (L : LinkMap) (start : Nat) :
    Nat → Nat → Nat → List ((Nat × Nat) × Nat) → R (MHead × List ((Nat × Nat) × Nat))
  | 0, _, _, _ => .error (.ub "into_child of a leaf")
  | 1, p, c, stack => do
    let n ← rdInternal H p
    let ch ← Node.child n c
    let leaf ← rdLeaf H (ptrOf ch)
    check (Node.len leaf ≠ 0) "assert: child.leaf().len() != 0"
    let k ← usub (Node.len leaf) 1
    pure (⟨ptrOf ch, 0, k⟩, pushM L start p 1 c (ptrOf ch) stack)
  | h + 2, p, c, stack => do
    let n ← rdInternal H p
    let ch ← Node.child n c
    let next ← H.get (ptrOf ch)
    lastBelowM H L start (h + 1) (ptrOf ch) next.keys.length (pushM L start p (h + 2) c (ptrOf ch) stack)

/-- `parent_override` and what follows it: the parent of the node at `p` of height `h`, the index in it, and the stack that is left.
src/tree/iter.rs:434-456, 522-544.  `into_parent` reads the stored link and returns a handle one higher. -/
def parentM (L : LinkMap) (rootHeight h p : Nat) (stack : List ((Nat × Nat) × Nat)) : R ((Nat × Nat) × List ((Nat × Nat) × Nat)) :=
  match stack with
  | ((pp, ph), c) :: rest =>
    if ph = h + 1 then pure ((pp, c), rest)
    else if h = rootHeight then .error (.panic "internal error")
    else match L p with
      | some pair => pure (pair, stack)
      | none => .error (.panic "internal error")
  | [] =>
    if h = rootHeight then .error (.panic "internal error")
    else match L p with
      | some pair => pure (pair, stack)
      | none => .error (.panic "internal error")

/-- The first key to the right of a finished node: the loop over parents of `fwd_step`.  src/tree/iter.rs:428-465.  Each round either pops an
entry of the stack or is below the root; so the first argument, a bound on the number of rounds, does not run out. -/
def nextAboveM (H : Heap I S) (L : LinkMap) (rootHeight : Nat) :
    Nat → Nat → Nat → List ((Nat × Nat) × Nat) → R (MHead × List ((Nat × Nat) × Nat))
  | 0, _, _, _ => .error (.ub "not reached")
  | fuel + 1, h, p, stack => do
    let ((pp, c), stack) ← parentM L rootHeight h p stack
    let nd ← H.get pp
    if c < nd.keys.length then pure (⟨pp, h + 1, c⟩, stack)
    else nextAboveM H L rootHeight fuel (h + 1) pp stack

/-- The first key to the left of a finished node: the loop over parents of `bkwd_step`.  src/tree/iter.rs:516-556.  If there is a key index
it is used without looking at the node. -/
def prevAboveM (L : LinkMap) (rootHeight : Nat) :
    Nat → Nat → Nat → List ((Nat × Nat) × Nat) → R (MHead × List ((Nat × Nat) × Nat))
  | 0, _, _, _ => .error (.ub "not reached")
  | fuel + 1, h, p, stack => do
    let ((pp, c), stack) ← parentM L rootHeight h p stack
    if c ≠ 0 then pure (⟨pp, h + 1, c - 1⟩, stack)
    else prevAboveM L rootHeight fuel (h + 1) pp stack

/-- The new head in `fwd_step`.  src/tree/iter.rs:384-467 -/
def MStack.succ (H : Heap I S) (L : LinkMap) (s : MStack I) : R (MHead × List ((Nat × Nat) × Nat)) :=
  match s.head with
  | ⟨p, h + 1, k⟩ => firstBelowM H L p (h + 1) p (k + 1) s.stack
  | ⟨p, 0, k⟩ => do
    let n ← rdLeaf H p
    if k + 1 < Node.len n then pure (⟨p, 0, k + 1⟩, s.stack)
    else nextAboveM H L s.rootHeight (s.rootHeight + s.stack.length + 1) 0 p s.stack

/-- `fwd_step`.  src/tree/iter.rs:384-467 -/
def MStack.fwdStep (ix : IdxOps I) (H : Heap I S) (L : LinkMap) (s : MStack I) : R (MStack I) := do
  let (hd, stack) ← s.succ H L
  let size ← hd.sliceSize ix H
  let stop ← ix.addR s.endPos size
  pure ⟨stack, s.rootHeight, hd, stop⟩

/-- The new head in `bkwd_step`.  src/tree/iter.rs:469-558 -/
def MStack.pred (H : Heap I S) (L : LinkMap) (s : MStack I) : R (MHead × List ((Nat × Nat) × Nat)) :=
  match s.head with
  | ⟨p, h + 1, k⟩ => lastBelowM H L p (h + 1) p k s.stack
  | ⟨p, 0, k⟩ =>
    if k ≠ 0 then pure (⟨p, 0, k - 1⟩, s.stack)
    else prevAboveM L s.rootHeight (s.rootHeight + s.stack.length + 1) 0 p s.stack

/-- `bkwd_step`.  src/tree/iter.rs:469-558 -/
def MStack.bkwdStep (ix : IdxOps I) (H : Heap I S) (L : LinkMap) (s : MStack I) : R (MStack I) := do
  let (hd, stack) ← s.pred H L
  let size ← s.head.sliceSize ix H
  let stop ← ix.subR s.endPos size
  pure ⟨stack, s.rootHeight, hd, stop⟩

/-- `IterState`; src/tree/iter.rs:69-78.  `h` and `p` are the handle of the root. -/
structure MState (I : Type) where
  h : Nat
  p : Nat
  cursor : Option (List Nat)
  fwd : Option (MStack I)
  bkwd : Option (MStack I)

/-- `Iter`; src/tree/iter.rs:23-45 -/
structure MIter (I : Type) where
  start : I
  stop : IterBound I
  state : Option (MState I)

/-- What `SliceEntry` gives access to.  src/tree/entry.rs:28-130 -/
def MHead.entry (H : Heap I S) (hd : MHead) (start stop : I) : R (Entry I S) := do
  let nd ← H.get hd.ptr
  match nd.keys[hd.idx]? with
  | some key => pure ⟨start, stop, key.slice, hd.ptr, hd.idx, key.ref⟩
  | none => .error (.ub "into_slice_handle")

namespace MIter

/-- `Iter::new(range, tree_size, cursor, root)`, as `Iter.new`.  src/tree/iter.rs:192-255 -/
def new [LinearOrder I] (ix : IdxOps I) (range : Range.Rng I) (treeSize : I) (cursor : List Nat) (root : Option CRoot) : R (MIter I) := do
  let it ← Iter.new ix range treeSize cursor (none : Option (Root I Unit))
  let boundedEnd : Range.EndBound I := match it.stop with
    | .included i => .included i
    | .excluded i => .excluded i
  let root := if Range.isEmptyNaive ⟨.included it.start, boundedEnd⟩ then none else root
  pure ⟨it.start, it.stop, root.map fun r => ⟨r.h, r.p, some cursor, none, none⟩⟩

/-- `matches!(stack.as_ref(), Some(s) if s.head == head)`.  src/tree/iter.rs:608, 661 -/
def metBy (stack : Option (MStack I)) (head : MHead) : Bool :=
  match stack with
  | some s => s.head.same head
  | none => false

/-- The end of `next`: compare with the backward stack, then yield.  src/tree/iter.rs:606-622 -/
def yieldFwd (H : Heap I S) (it : MIter I) (st : MState I) (fwd : MStack I) (nextStart : I) : R (Option (Entry I S) × MIter I) :=
  if metBy st.bkwd fwd.head then
    pure (none, { it with state := none })
  else do
    let e ← fwd.head.entry H nextStart fwd.endPos
    pure (some e, { it with state := some { st with fwd := some fwd } })

/-- `Iterator::next`.  src/tree/iter.rs:570-624 -/
def next (ix : IdxOps I) (H : Heap I S) (L : LinkMap) (it : MIter I) : R (Option (Entry I S) × MIter I) :=
  match it.state with
  | none => pure (none, it)
  | some st =>
    match st.fwd with
    | some fwd =>
      let nextStart := fwd.endPos
      if Iter.pastEnd ix it.stop nextStart then pure (none, { it with state := none })
      else do
        let fwd ← fwd.fwdStep ix H L
        yieldFwd H it st fwd nextStart
    | none => do
      let s ← makeStackM ix H L st.h st.p st.cursor (.included it.start)
      let size ← s.head.sliceSize ix H
      let nextStart ← ix.subR s.endPos size
      yieldFwd H it { st with cursor := none } s nextStart

/-- The end of `next_back`.  src/tree/iter.rs:661-675 -/
def yieldBkwd (ix : IdxOps I) (H : Heap I S) (it : MIter I) (st : MState I) (bkwd : MStack I) : R (Option (Entry I S) × MIter I) :=
  if metBy st.fwd bkwd.head then
    pure (none, { it with state := none })
  else do
    let size ← bkwd.head.sliceSize ix H
    let start ← ix.subR bkwd.endPos size
    let e ← bkwd.head.entry H start bkwd.endPos
    pure (some e, { it with state := some { st with bkwd := some bkwd } })

/-- `DoubleEndedIterator::next_back`.  src/tree/iter.rs:634-677 -/
def nextBack (ix : IdxOps I) (H : Heap I S) (L : LinkMap) (it : MIter I) : R (Option (Entry I S) × MIter I) :=
  match it.state with
  | none => pure (none, it)
  | some st =>
    match st.bkwd with
    | some bkwd => do
      let size ← bkwd.head.sliceSize ix H
      let nextEnd ← ix.subR bkwd.endPos size
      if ix.le nextEnd it.start then pure (none, { it with state := none })
      else do
        let bkwd ← bkwd.bkwdStep ix H L
        yieldBkwd ix H it st bkwd
    | none => do
      let s ← makeStackM ix H L st.h st.p st.cursor it.stop
      yieldBkwd ix H it { st with cursor := none } s

end MIter

/-- `iter(range)` (`hints = []`, `NoCursor`) and `iter_with_cursor(cursor, range)`.  src/tree/mod.rs:578-610.  The size of the tree is read
from its root, src/tree/mod.rs:360-367. -/
def LSt.iter [LinearOrder I] (ix : IdxOps I) (s : LSt I S) (i : Nat) (cursor : List Nat) (range : Range.Rng I) : R (MIter I) := do
  match ← s.st.tree i with
  | none => MIter.new ix range ix.zero cursor none
  | some r => do
    let nd ← s.st.heap.get r.p
    MIter.new ix range nd.size cursor (some r)

end Sherman.Cow
