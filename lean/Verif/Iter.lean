import Verif.Search
import Verif.Range
/-!
# Iteration (src/tree/iter.rs)

Modelled for trees that do not share nodes (`P::COW = false`): `IterStack::stack` stays empty and the
parent of a node is the one its link names, here the frame above it (`Ctx`).  Shared nodes: `Verif/CowIter.lean`.
-/
namespace Sherman
variable {I S : Type}

/-- `IncludedOrExcludedBound<I>`; src/tree/iter.rs:172-176 -/
inductive IterBound (I : Type) where
  | included (i : I)
  | excluded (i : I)
  deriving DecidableEq, Repr

/-- An immutable `SliceHandle` into a tree of `H` levels: the node, the way from it to the root, and the index of
the key.  src/tree/node.rs (struct `SliceHandle`); src/tree/node.rs:113-127 -/
structure Head (I S : Type) (H : Nat) where
  h : Nat
  node : Tree I S (h + 1)
  ctx : Ctx I S H (h + 1)
  idx : Nat

/-- `SliceHandle::slice_size`; src/tree/node.rs:2887-2905 -/
def Head.sliceSize (ix : IdxOps I) {H : Nat} (hd : Head I S H) : R I := Node.sliceSize ix (szT ix) hd.node hd.idx

/-- `impl PartialEq for SliceHandle`: the same node address and the same index.  src/tree/node.rs:201-226 -/
def Head.same {H : Nat} (a b : Head I S H) : Bool := a.node.ptr == b.node.ptr && a.idx == b.idx

/-- `IterStack`: the current slice and where it ends.  src/tree/iter.rs:80-97 -/
structure IterStack (I S : Type) (H : Nat) where
  head : Head I S H
  endPos : I

/-- The frame left behind when going from `n` to its child `c`.  src/tree/node.rs:2043-2088 -/
def Ctx.enter {H h : Nat} (n : Tree I S (h + 1)) (c : Nat) (ctx : Ctx I S H (h + 1)) : Ctx I S H h :=
  .frame n.ptr n.size n.keys (n.kids.take c) (n.kids.drop (c + 1)) ctx

/-- `child_pos(idx)`; src/tree/node.rs:2011-2025 -/
def Node.childPos {C : Type} (ix : IdxOps I) (sz : C → I) (n : Node I S C) (i : Nat) : R I := do
  weakAssert (i ≤ n.len) "child_pos"
  let size ← n.childSize sz i
  ix.subR (n.nextPos i) size

/-- The adjustment of a search result for an excluded end bound: of what starts exactly at the target, take what
is left of it.  src/tree/iter.rs:281-313.  `leaf` is whether the node is a leaf. -/
def exclStep (ix : IdxOps I) (leaf : Bool) {h : Nat} (n : Tree I S (h + 1)) (excluded : Bool) (target : I)
    (r : Step I) : R (Step I) :=
  match r with
  | .key k kpos =>
    if excluded && ix.eq kpos target then
      if leaf then
        if k = 0 then .error (.panic "internal error")
        else do
          let p ← Node.keyPos n (k - 1)
          pure (.key (k - 1) p)
      else do
        let cs ← Node.childSize (szT ix) n k
        let p ← ix.subR kpos cs
        pure (.child k p)
    else pure r
  | .child c cpos =>
    if excluded && ix.eq cpos target then
      if c = 0 then .error (.panic "internal error")
      else do
        let p ← Node.keyPos n (c - 1)
        pure (.key (c - 1) p)
    else pure r

/-- The last key of a leaf, the last child of an internal node.  src/tree/iter.rs:315-334 -/
def lastStep (ix : IdxOps I) (leaf : Bool) {h : Nat} (n : Tree I S (h + 1)) : R (Step I) :=
  if leaf then do
    let i ← usub (Node.len n) 1
    let p ← Node.keyPos n i
    pure (.key i p)
  else do
    let p ← Node.childPos ix (szT ix) n (Node.len n)
    pure (.child (Node.len n) p)

/-- `result` in the loop of `make_stack`.  src/tree/iter.rs:277-335 -/
def stackStep (ix : IdxOps I) (leaf : Bool) {h : Nat} (n : Tree I S (h + 1)) (hint : Option Nat) (excluded : Bool)
    (target : I) : R (Step I) :=
  if !ix.eq target (Node.size n) then do
    let r ← searchStep ix n hint target
    exclStep ix leaf n excluded target r
  else lastStep ix leaf n

/-- The `ChildOrKey::Key` arm of the loop of `make_stack`.  src/tree/iter.rs:338-347 -/
def stackKey (ix : IdxOps I) {H h : Nat} (n : Tree I S (h + 1)) (ctx : Ctx I S H (h + 1)) (headPos : I) (k : Nat)
    (kpos : I) : R (IterStack I S H) := do
  let _ ← Node.handle n k
  let p ← ix.addR headPos kpos
  let hd : Head I S H := ⟨h, n, ctx, k⟩
  let size ← hd.sliceSize ix
  let stop ← ix.addR p size
  pure ⟨hd, stop⟩

/-- The loop of `make_stack`.  src/tree/iter.rs:274-373.  The hint for each level is the next component of the
cursor's path, whether or not the previous one was any good. -/
def stackLoop (ix : IdxOps I) (excluded : Bool) {H : Nat} : {h : Nat} → Tree I S (h + 1) → Ctx I S H (h + 1) →
    Option (List Nat) → I → I → R (IterStack I S H)
  | 0, n, ctx, hints, headPos, target => do
    match ← stackStep ix true n (headHint hints) excluded target with
    | .key k kpos => stackKey ix n ctx headPos k kpos
    | .child _ _ => .error (.panic "internal error")
  | _ + 1, n, ctx, hints, headPos, target => do
    match ← stackStep ix false n (headHint hints) excluded target with
    | .key k kpos => stackKey ix n ctx headPos k kpos
    | .child c cpos => do
      let ch ← Node.child n c
      let target ← ix.subL target cpos
      let headPos ← ix.addR headPos cpos
      stackLoop ix excluded ch (ctx.enter n c) (hints.map List.tail) headPos target

/-- `make_stack(root, cursor, target)`.  src/tree/iter.rs:257-375 -/
def makeStack (ix : IdxOps I) {H : Nat} (root : Tree I S (H + 1)) (hints : Option (List Nat)) (target : IterBound I) :
    R (IterStack I S (H + 1)) :=
  match target with
  | .included i => stackLoop ix false root .top hints ix.zero i
  | .excluded i => stackLoop ix true root .top hints ix.zero i

/-- The leftmost key below child `c` of a node: the inner loop of `fwd_step`.  src/tree/iter.rs:389-418 -/
def firstBelow {H : Nat} : {h : Nat} → Tree I S (h + 1) → Ctx I S H (h + 1) → Nat → R (Head I S H)
  | 0, _, _, _ => .error (.ub "into_child of a leaf")
  | 1, n, ctx, c => do
    let ch ← Node.child n c
    check (1 ≤ Node.len (C := Tree I S 0) ch) "assert: child.leaf().len() >= 1"
    pure ⟨0, ch, ctx.enter n c, 0⟩
  | _ + 2, n, ctx, c => do
    let ch ← Node.child n c
    firstBelow ch (ctx.enter n c) 0

/-- The first key to the right of a finished node: the loop over parents of `fwd_step`.
src/tree/iter.rs:428-465 -/
def nextAbove {H : Nat} : {h : Nat} → Tree I S h → Ctx I S H h → R (Head I S H)
  | _, _, .top => .error (.panic "internal error")
  | _, n, .frame ptr size keys kl kr up =>
    let parent := plugNode ptr size keys kl n kr
    if kl.length < Node.len parent then pure ⟨_, parent, up, kl.length⟩
    else nextAbove (h := _ + 1) parent up

/-- The new head in `fwd_step`.  src/tree/iter.rs:384-467 -/
def Head.succ {H : Nat} (hd : Head I S H) : R (Head I S H) :=
  match hd with
  | ⟨_ + 1, n, ctx, k⟩ => firstBelow n ctx (k + 1)
  | ⟨0, n, ctx, k⟩ => if k + 1 < Node.len n then pure ⟨0, n, ctx, k + 1⟩ else nextAbove (h := 1) n ctx

/-- `fwd_step`.  src/tree/iter.rs:384-467 -/
def IterStack.fwdStep (ix : IdxOps I) {H : Nat} (s : IterStack I S H) : R (IterStack I S H) := do
  let hd ← s.head.succ
  let size ← hd.sliceSize ix
  let stop ← ix.addR s.endPos size
  pure ⟨hd, stop⟩

/-- The rightmost key below child `c` of a node: the inner loop of `bkwd_step`.  src/tree/iter.rs:474-506 -/
def lastBelow {H : Nat} : {h : Nat} → Tree I S (h + 1) → Ctx I S H (h + 1) → Nat → R (Head I S H)
  | 0, _, _, _ => .error (.ub "into_child of a leaf")
  | 1, n, ctx, c => do
    let ch ← Node.child n c
    check (Node.len (C := Tree I S 0) ch ≠ 0) "assert: child.leaf().len() != 0"
    let k ← usub (Node.len (C := Tree I S 0) ch) 1
    pure ⟨0, ch, ctx.enter n c, k⟩
  | h + 2, n, ctx, c => do
    let ch ← Node.child n c
    lastBelow ch (ctx.enter n c) (Node.len (C := Tree I S (h + 1)) ch)

/-- The first key to the left of a finished node: the loop over parents of `bkwd_step`.
src/tree/iter.rs:516-556 -/
def prevAbove {H : Nat} : {h : Nat} → Tree I S h → Ctx I S H h → R (Head I S H)
  | _, _, .top => .error (.panic "internal error")
  | _, n, .frame ptr size keys kl kr up =>
    let parent := plugNode ptr size keys kl n kr
    if kl.length ≠ 0 then pure ⟨_, parent, up, kl.length - 1⟩
    else prevAbove (h := _ + 1) parent up

/-- The new head in `bkwd_step`.  src/tree/iter.rs:469-558 -/
def Head.pred {H : Nat} (hd : Head I S H) : R (Head I S H) :=
  match hd with
  | ⟨_ + 1, n, ctx, k⟩ => lastBelow n ctx k
  | ⟨0, n, ctx, k⟩ => if k ≠ 0 then pure ⟨0, n, ctx, k - 1⟩ else prevAbove (h := 1) n ctx

/-- `bkwd_step`.  src/tree/iter.rs:469-558.  The size of the old head is subtracted just before the head is
replaced; the two do not depend on each other. -/
def IterStack.bkwdStep (ix : IdxOps I) {H : Nat} (s : IterStack I S H) : R (IterStack I S H) := do
  let hd ← s.head.pred
  let size ← s.head.sliceSize ix
  let stop ← ix.subR s.endPos size
  pure ⟨hd, stop⟩

/-- `IterState`; src/tree/iter.rs:69-78.  The root's height is an index so that both stacks share it. -/
structure IterState (I S : Type) where
  H : Nat
  root : Tree I S (H + 1)
  cursor : Option (List Nat)
  fwd : Option (IterStack I S (H + 1))
  bkwd : Option (IterStack I S (H + 1))

/-- `Iter`; src/tree/iter.rs:23-45 -/
structure Iter (I S : Type) where
  start : I
  stop : IterBound I
  state : Option (IterState I S)

/-- The entry for a head: what `SliceEntry` gives access to.  src/tree/entry.rs:28-130.  `Entry` is also what `get`
returns. -/
def Head.entry {H : Nat} (hd : Head I S H) (start stop : I) : R (Entry I S) := do
  let key ← Node.handle hd.node hd.idx
  pure ⟨start, stop, key.slice, hd.node.ptr, hd.idx, key.ref⟩

namespace Iter

/-- `Iter::new(range, tree_size, cursor, root)`.  src/tree/iter.rs:192-255 -/
def new [LinearOrder I] (ix : IdxOps I) (range : Range.Rng I) (treeSize : I) (cursor : List Nat)
    (root : Option (Root I S)) : R (Iter I S) := do
  let start := match range.start with
    | .included i => i
    | .unbounded => ix.zero
  let (stop, strictEnd) : IterBound I × Range.EndBound I := match range.stop with
    | .included i => (.included i, .included i)
    | .excluded i => (.excluded i, .excluded i)
    | .unbounded => (.excluded treeSize, .excluded treeSize)
  check (!Range.startsAfterEnd range) "invalid range"
  check (!ix.lt start ix.zero) "range out of bounds below zero"
  let startOut : Bool := match range.start with
    | .included i => decide (i ≥ treeSize)
    | .unbounded => false
  check (!(startOut || Range.overlapsNaive ⟨.unbounded, strictEnd⟩ (Range.ofRangeFrom treeSize)))
    "range out of bounds for tree size"
  let boundedEnd : Range.EndBound I := match stop with
    | .included i => .included i
    | .excluded i => .excluded i
  let root := if Range.isEmptyNaive ⟨.included start, boundedEnd⟩ then none else root
  pure ⟨start, stop, root.map fun r => ⟨r.h, r.tree, some cursor, none, none⟩⟩

/-- Whether the next slice, starting at `pos`, is past the end bound.  src/tree/iter.rs:577-586 -/
def pastEnd (ix : IdxOps I) (stop : IterBound I) (pos : I) : Bool :=
  match stop with
  | .included i => ix.lt i pos
  | .excluded i => ix.le i pos

/-- `matches!(stack.as_ref(), Some(s) if s.head == head)`.  src/tree/iter.rs:608, 661 -/
def metBy {H : Nat} (stack : Option (IterStack I S H)) (head : Head I S H) : Bool :=
  match stack with
  | some s => s.head.same head
  | none => false

/-- The end of `next`: compare with the backward stack, then yield.  src/tree/iter.rs:606-622 -/
def yieldFwd (it : Iter I S) (st : IterState I S) (fwd : IterStack I S (st.H + 1)) (nextStart : I) :
    R (Option (Entry I S) × Iter I S) :=
  if metBy st.bkwd fwd.head then
    pure (none, { it with state := none })
  else do
    let e ← fwd.head.entry nextStart fwd.endPos
    pure (some e, { it with state := some { st with fwd := some fwd } })

/-- `Iterator::next`.  src/tree/iter.rs:570-624 -/
def next (ix : IdxOps I) (it : Iter I S) : R (Option (Entry I S) × Iter I S) :=
  match it.state with
  | none => pure (none, it)
  | some st =>
    match st.fwd with
    | some fwd =>
      let nextStart := fwd.endPos
      if pastEnd ix it.stop nextStart then pure (none, { it with state := none })
      else do
        let fwd ← fwd.fwdStep ix
        yieldFwd it st fwd nextStart
    | none => do
      let s ← makeStack ix st.root st.cursor (.included it.start)
      let size ← s.head.sliceSize ix
      let nextStart ← ix.subR s.endPos size
      yieldFwd it { st with cursor := none } s nextStart

/-- The end of `next_back`.  src/tree/iter.rs:661-675 -/
def yieldBkwd (ix : IdxOps I) (it : Iter I S) (st : IterState I S) (bkwd : IterStack I S (st.H + 1)) :
    R (Option (Entry I S) × Iter I S) :=
  if metBy st.fwd bkwd.head then
    pure (none, { it with state := none })
  else do
    let size ← bkwd.head.sliceSize ix
    let start ← ix.subR bkwd.endPos size
    let e ← bkwd.head.entry start bkwd.endPos
    pure (some e, { it with state := some { st with bkwd := some bkwd } })

/-- `DoubleEndedIterator::next_back`.  src/tree/iter.rs:634-677 -/
def nextBack (ix : IdxOps I) (it : Iter I S) : R (Option (Entry I S) × Iter I S) :=
  match it.state with
  | none => pure (none, it)
  | some st =>
    match st.bkwd with
    | some bkwd => do
      let size ← bkwd.head.sliceSize ix
      let nextEnd ← ix.subR bkwd.endPos size
      if ix.le nextEnd it.start then pure (none, { it with state := none })
      else do
        let bkwd ← bkwd.bkwdStep ix
        yieldBkwd ix it st bkwd
    | none => do
      let s ← makeStack ix st.root st.cursor it.stop
      yieldBkwd ix it { st with cursor := none } s

end Iter

/-- `iter(range)` (`hints = []`, `NoCursor`) and `iter_with_cursor(cursor, range)`.  src/tree/mod.rs:578-610 -/
def RleTree.iter [LinearOrder I] (E : Env I S) (t : RleTree I S) (cursor : List Nat) (range : Range.Rng I) :
    R (Iter I S) :=
  Iter.new E.ix range (t.size E) cursor t.root

end Sherman
