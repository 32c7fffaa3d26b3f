import Verif.Insert
/-!
# Trees in memory: copy-on-write, cloning and dropping

(src/tree/node.rs, src/tree/mod.rs, src/tree/cow.rs)

Several trees live in one memory.  A node of a copy-on-write tree (`param::AllowCow`) may belong to several trees; it carries a count of
the references to it.  A tree without this feature (`param::NoFeatures`) never shares nodes; its nodes have a strong count of `()` that
always claims to be unique, here a count that is always one.

* Addresses are never used twice.
* Parent links are not stored here; they are in `Verif/CowLinks.lean`.  All uses of them in an insertion go back up along the way that the same
  insertion came down.
* `Clone` of a slice is the identity, and does not panic (panics: `Verif/ClonePanic.lean`).
* Operations of several threads are not interleaved; the count itself under concurrency is `Verif/Atomic.lean`.
* A panicking operation is not continued.
-/
namespace Sherman.Cow
variable {I S : Type}

/-- A node in memory.  The children of a leaf are dummies, as in `Verif/Tree.lean`, and no references.  `height` is a type parameter of the
handles in the code.  src/tree/node.rs (structs `Leaf`, `Internal`); src/tree/node.rs:435-593 -/
structure HNode (I S : Type) where
  count : Nat
  height : Nat
  size : I
  keys : List (Key I S)
  kids : List Nat

/-- Memory; `next` is the next address that an allocation returns.  src/tree/node.rs:2611-2638 (`alloc_aligned`) -/
structure Heap (I S : Type) where
  mem : Nat → Option (HNode I S)
  next : Nat

namespace Heap

/-- Dereferencing a node pointer.  src/tree/node.rs:825-830 -/
def get (H : Heap I S) (p : Nat) : R (HNode I S) :=
  match H.mem p with
  | some nd => .ok nd
  | none => .error (.ub "access to a freed node")

/-- Writing a node; src/tree/node.rs:1269-1277. -/
def put (H : Heap I S) (p : Nat) (nd : HNode I S) : Heap I S := { H with mem := fun q => if q = p then some nd else H.mem q }

/-- `alloc_aligned`; src/tree/node.rs:2612-2632 -/
def alloc (H : Heap I S) (nd : HNode I S) : Heap I S × Nat :=
  (⟨fun q => if q = H.next then some nd else H.mem q, H.next + 1⟩, H.next)

/-- `dealloc_aligned`; src/tree/node.rs:2635-2650 -/
def free (H : Heap I S) (p : Nat) : Heap I S := { H with mem := fun q => if q = p then none else H.mem q }

end Heap

/-- `strong_count.increment()`; src/tree/cow.rs:40-49.  `imax` is `isize::MAX`. -/
def increment (imax : Nat) (H : Heap I S) (p : Nat) : R (Heap I S) := do
  let nd ← H.get p
  check (!(imax < nd.count)) "more than isize::MAX references to the same node"
  pure (H.put p { nd with count := nd.count + 1 })

/-- `try_drop`, and `do_drop` if that returns a handle: give up a reference to a node of height `h`.  The node is freed before its children
are looked at.  src/tree/node.rs:1586-1600, 1846-1930; src/tree/mod.rs:275-294 -/
def dropRef : (h : Nat) → Heap I S → Nat → R (Heap I S)
  | 0, H, p => do
    let nd ← H.get p
    if nd.count = 1 then pure (H.free p)
    else do
      let c ← usub nd.count 1
      pure (H.put p { nd with count := c })
  | h + 1, H, p => do
    let nd ← H.get p
    if nd.count = 1 then nd.kids.foldlM (fun H q => dropRef h H q) (H.free p)
    else do
      let c ← usub nd.count 1
      pure (H.put p { nd with count := c })

/-- `shallow_clone`; src/tree/node.rs:1007-1085 -/
def shallowClone (imax : Nat) (H : Heap I S) (h p : Nat) : R (Heap I S × Nat) := do
  let nd ← H.get p
  let H ← if h = 0 then pure H else nd.kids.foldlM (fun H q => increment imax H q) H
  pure (H.alloc { nd with count := 1 })

/-- `ensure_unique`: the pointer that replaces the one to a node of height `h`.  src/tree/node.rs:2571-2609, 1602-1622 -/
def ensureUnique (imax : Nat) (H : Heap I S) (h p : Nat) : R (Heap I S × Nat) := do
  let nd ← H.get p
  if nd.count = 1 then pure (H, p)
  else do
    let (H, p') ← shallowClone imax H h p
    let H ← dropRef h H p
    pure (H, p')

/-- The descent of an insertion from a node of height `h` that is not shared: `into_child` makes each child on the way unique, and its
place in the parent is overwritten.  src/tree/insert.rs:1229-1326, 1006-1024; src/tree/node.rs:2030-2075 -/
def unshareDown (imax : Nat) : (path : List Nat) → Heap I S → (h p : Nat) → R (Heap I S)
  | [], H, _, _ => pure H
  | c :: path, H, h, p => do
    let nd ← H.get p
    let q ← match nd.kids[c]? with
      | none => .error (.ub "into_child")
      | some q => pure q
    let (H, q') ← ensureUnique imax H (h - 1) q
    let nd ← H.get p
    unshareDown imax path (H.put p { nd with kids := nd.kids.set c q' }) (h - 1) q'

/-- `make_unique` on the root, then the descent.  Returns the new root.  src/tree/insert.rs:88-98 -/
def unshare (imax : Nat) (path : List Nat) (H : Heap I S) (h p : Nat) : R (Heap I S × Nat) := do
  let (H, p) ← ensureUnique imax H h p
  let H ← unshareDown imax path H h p
  pure (H, p)

/-- The tree of `h` levels at an address.  src/tree/node.rs:820-830, 1976-1990 -/
def readT (H : Heap I S) : (h : Nat) → Nat → R (Tree I S h)
  | 0, _ => .ok ()
  | h + 1, p => do
    let nd ← H.get p
    let kids ← nd.kids.mapM (readT H h)
    let n : Node I S (Tree I S h) := ⟨p, nd.size, nd.keys, kids⟩
    pure n

/-- The address of a tree's root; the dummy for the children of leaves.  src/tree/node.rs:815-817 -/
def ptrOf : {h : Nat} → Tree I S h → Nat
  | 0, _ => 0
  | _ + 1, n => Node.ptr n

/-- What the node `n` of a tree is in memory; a node that is new has a count of one.  src/tree/node.rs:1410-1470, 1689-1793, 1802-1850 -/
def toHNode (H : Heap I S) {h : Nat} (n : Node I S (Tree I S h)) : HNode I S :=
  { count := match H.mem n.ptr with
      | some nd => nd.count
      | none => 1
    height := h, size := n.size, keys := n.keys, kids := n.kids.map ptrOf }

/-- All nodes of a tree, with their addresses.  No counterpart in the code (the memory behind a `NodeHandle`, src/tree/node.rs:95-110) -/
def nodesT (H : Heap I S) : {h : Nat} → Tree I S h → List (Nat × HNode I S)
  | 0, _ => []
  | h + 1, n => (Node.ptr n, toHNode H n) :: (Node.kids n).flatMap (nodesT H (h := h))

/-- Memory in which the nodes of a tree have been changed or added.  `next` is the next address after that.
src/tree/insert.rs:41-197 (all writes through `NodeHandle`s) -/
def writeT {h : Nat} (H : Heap I S) (t : Tree I S h) (next : Nat) : Heap I S :=
  { mem := fun x => match (nodesT H t).lookup x with
      | some nd => some nd
      | none => H.mem x
    next := next }

/-- Child indices on the way from the root, as src/tree/entry.rs:106-124 -/
def _root_.Sherman.Ctx.way {Ht : Nat} : {h : Nat} → Ctx I S Ht h → List Nat
  | _, .top => []
  | _, .frame _ _ _ kl _ up => up.way ++ [kl.length]

/-- Whether `do_insert_full_split_key` calls `insert_rhs`: unless new slice and both halves become one.  src/tree/insert.rs:529-652 -/
def _root_.Sherman.callsRhs (E : Env I S) (key : S) (posInKey : I) (slice : S) : Bool :=
  if E.sl.mayJoin then
    match E.sl.tryJoin (E.sl.splitAt key posInKey).1 slice with
    | .inl mid =>
      match E.sl.tryJoin mid (E.sl.splitAt key posInKey).2 with
      | .inl _ => false
      | .inr _ => true
    | .inr _ => true
  else true

/-- The way from a key of a node of height `h` to the leaf right of it: child indices.  src/tree/insert.rs:1006-1024 -/
def _root_.Sherman.rhsWay : (h k : Nat) → List Nat
  | 0, _ => []
  | g + 1, k => (k + 1) :: List.replicate g 0

/-- The nodes that an insertion goes down to: the way to the insertion point, and on to the leaf right of a key that is split in an internal
node.  src/tree/insert.rs:1229-1326, 1006-1024 -/
def _root_.Sherman.wayDown (E : Env I S) {h : Nat} (t : Tree I S (h + 1)) (hints : List Nat) (idx : I) (slice : S) : R (List Nat) := do
  match ← findPoint E t .top (some hints) idx none none with
  | .edge _ ctx _ _ _ => pure ctx.way
  | .split g n ctx k d => do
    let key ← Node.handle n k
    if callsRhs E key.slice d slice then pure (ctx.way ++ rhsWay g k) else pure ctx.way

/-- `Root`, in memory: height of the root node, its address, number of slices.  src/tree/mod.rs:162-169 -/
structure CRoot where
  h : Nat
  p : Nat
  len : Nat

/-- All trees of a program; `none` for those dropped, `some none` for empty ones.  src/tree/mod.rs:110-115 -/
structure St (I S : Type) where
  heap : Heap I S
  trees : List (Option (Option CRoot))

namespace St

/-- A tree variable that is in use.  src/tree/mod.rs:114 -/
def tree (st : St I S) (i : Nat) : R (Option CRoot) :=
  match st.trees[i]? with
  | some (some r) => .ok r
  | _ => .error (.panic "no such tree")

/-- Assign to a tree variable; src/tree/mod.rs:114. -/
def setTree (st : St I S) (i : Nat) (r : Option (Option CRoot)) : St I S := { st with trees := st.trees.set i r }

/-- The value of a tree as in `Verif/Search.lean`.  src/tree/mod.rs:162-169 -/
def view (st : St I S) (i : Nat) : R (RleTree I S) := do
  match ← st.tree i with
  | none => pure ⟨none⟩
  | some r => do
    let t ← readT st.heap (r.h + 1) r.p
    pure ⟨some ⟨r.h, t, r.len⟩⟩

/-- `new_empty`; src/tree/mod.rs:324-328 -/
def newEmpty (E : Env I S) (st : St I S) : R (St I S) := do
  let _ ← RleTree.newEmpty E
  pure { st with trees := st.trees ++ [some none] }

/-- The new state after the nodes of the tree `t` were stored in place of tree `i`.  src/tree/insert.rs:41-204 -/
def store (st : St I S) (i : Nat) (H : Heap I S) (t : RleTree I S) (next : Nat) : St I S :=
  match t.root with
  | none => { st with heap := H }.setTree i (some none)
  | some r => { st with heap := writeT H r.tree next }.setTree i (some (some ⟨r.h, ptrOf r.tree, r.len⟩))

/-- `insert` and its variants; src/tree/insert.rs:41-197.  The descent makes the nodes on the way unique; their contents do not depend on
this, so the way can be determined beforehand.  Then the nodes of the tree are changed in place, and new nodes are allocated. -/
def insert (E : Env I S) (imax : Nat) (st : St I S) (i : Nat) (nop : Bool) (hints : List Nat) (idx : I) (slice : S) (size : I) :
    R (St I S) := do
  match ← st.tree i with
  | none => do
    let (t, out) ← RleTree.insert E ⟨none⟩ nop hints idx slice size ⟨st.heap.next, [], [], none, []⟩
    pure (st.store i st.heap t out.world.next)
  | some r => do
    let t ← readT st.heap (r.h + 1) r.p
    check (!E.ix.lt (Node.size t) idx) "cannot insert new slice, index out of bounds"
    check (!E.ix.le size E.ix.zero) "cannot insert new slice, size is not greater than zero"
    let path ← wayDown E t hints idx slice
    let (H, p) ← unshare imax path st.heap r.h r.p
    let t ← readT H (r.h + 1) p
    let (t, out) ← RleTree.insert E ⟨some ⟨r.h, t, r.len⟩⟩ nop hints idx slice size ⟨H.next, [], [], none, []⟩
    pure (st.store i H t out.world.next)

/-- `clone` with `param::AllowCow`; src/tree/mod.rs:783-806, src/tree/node.rs:1087-1105 -/
def cloneCow (imax : Nat) (st : St I S) (i : Nat) : R (St I S) := do
  match ← st.tree i with
  | none => pure { st with trees := st.trees ++ [some none] }
  | some r => do
    let H ← increment imax st.heap r.p
    pure ⟨H, st.trees ++ [some (some r)]⟩

/-- `drop`; src/tree/mod.rs:245-294 -/
def drop (st : St I S) (i : Nat) : R (St I S) := do
  match ← st.tree i with
  | none => pure (st.setTree i none)
  | some r => do
    let H ← dropRef r.h st.heap r.p
    pure ({ st with heap := H }.setTree i none)

end St

/-- Make something of each child in turn, in changing memory.  src/tree/node.rs:1066-1074, 1163-1173 -/
def overKids (f : Heap I S → Nat → R (Heap I S × Nat)) : Heap I S → List Nat → R (Heap I S × List Nat)
  | H, [] => pure (H, [])
  | H, q :: qs => do
    let (H, q') ← f H q
    let (H, qs') ← overKids f H qs
    pure (H, q' :: qs')

/-- `deep_clone`; src/tree/node.rs:1117-1215 -/
def deepClone : (h : Nat) → Heap I S → Nat → R (Heap I S × Nat)
  | 0, H, p => do
    let nd ← H.get p
    pure (H.alloc { nd with count := 1 })
  | h + 1, H, p => do
    let nd ← H.get p
    let (H, kids) ← overKids (fun H q => deepClone h H q) H nd.kids
    pure (H.alloc { nd with count := 1, kids := kids })

/-- `clone` with `param::NoFeatures`; src/tree/mod.rs:763-781 -/
def St.clonePlain (st : St I S) (i : Nat) : R (St I S) := do
  match ← st.tree i with
  | none => pure { st with trees := st.trees ++ [some none] }
  | some r => do
    let (H, p) ← deepClone r.h st.heap r.p
    pure ⟨H, st.trees ++ [some (some { r with p := p })]⟩

/-- What a program does with its trees.  src/tree/mod.rs:172-190, 315-370, 677-702, 765-805 -/
inductive Op (I S : Type) where
  | new
  | insert (i : Nat) (nop : Bool) (hints : List Nat) (idx : I) (slice : S) (size : I)
  | clone (i : Nat)
  | drop (i : Nat)

/-- One operation; `cow` is `P::COW`.  src/tree/mod.rs:172-190, 315-370, 677-702, 765-805 -/
def St.step (E : Env I S) (imax : Nat) (cow : Bool) (st : St I S) : Op I S → R (St I S)
  | .new => st.newEmpty E
  | .insert i nop hints idx slice size => st.insert E imax i nop hints idx slice size
  | .clone i => if cow then st.cloneCow imax i else st.clonePlain i
  | .drop i => st.drop i

/-- No trees, no nodes.  No counterpart in the code (before any call of src/tree/mod.rs:315-360) -/
def St.init : St I S := ⟨⟨fun _ => none, 0⟩, []⟩

/-- A program; no counterpart in the code (calls of src/tree/mod.rs:315-805). -/
def St.run (E : Env I S) (imax : Nat) (cow : Bool) (st : St I S) (ops : List (Op I S)) : R (St I S) :=
  ops.foldlM (fun st op => st.step E imax cow op) st

end Sherman.Cow
