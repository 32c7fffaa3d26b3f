import Verif.Iter
import Verif.Cells
import Verif.Recycle
import Verif.Relabel
/-!
# Model of a tree together with its store of slice references

src/tree/slice_ref.rs (`SliceRefStore::{make_ref, update, suspend}`, `SliceRef::{clone, range, cursor, borrow_slice}`),
src/tree/mod.rs (`insert_ref_with_cursor`), src/tree/entry.rs (`make_ref`, `cursor_to_handle`), src/tree/node.rs
(`SliceHandle::range`).

Who may borrow the tree when, and what dropping does, is modelled separately (`Verif/SliceRef.lean`); here the tree is
alive and nobody holds a borrow.  A `SliceHandle` is the address of a node and the index of a key.  Dereferencing an
address means finding the node with that address in the tree; an address that is not in the tree is undefined behaviour.
-/
namespace Sherman
variable {I S : Type}

/-- `enum StoredSliceRef`; src/tree/slice_ref.rs:103-107. -/
inductive Stored where
  | handle (h : Option (Nat × Nat))
  | redirect (id : Nat)
  | removed
  deriving DecidableEq, Repr

/-- A tree, its store (`InnerStore::refs`) and the next unused address.  src/tree/mod.rs:162-169, src/tree/slice_ref.rs:80-103 -/
structure RefTree (I S : Type) where
  tree : RleTree I S
  refs : Recycle.RecycleVec Stored
  next : Nat

/-- `update(r, handle)` / `suspend(r)` with their assertions; src/tree/slice_ref.rs:418-437. -/
def storeCmd (rv : Recycle.RecycleVec Stored) : StoreCmd → R (Recycle.RecycleVec Stored)
  | .update r p i => do
    let (old, rv) ← Recycle.replace rv r (.handle (some (p, i)))
    match old with
    | .handle _ => pure rv
    | _ => .error (.panic "assert!(matches!(old, StoredSliceRef::Handle(_)))")
  | .suspend r => do
    let (old, rv) ← Recycle.replace rv r (.handle none)
    match old with
    | .handle (some _) => pure rv
    | _ => .error (.panic "assert!(matches!(old, StoredSliceRef::Handle(Some(_))))")

/-- The places of a tree.  src/tree/node.rs:113-127 -/
def RleTree.places (t : RleTree I S) : List (Cell S) :=
  match t.root with
  | none => []
  | some r => cells r.tree

/-- Read through a `SliceHandle`.  src/tree/node.rs:3106-3120 -/
def RleTree.deref (t : RleTree I S) (h : Nat × Nat) : R (Cell S) :=
  match t.places.find? (fun c => c.at == h) with
  | some c => .ok c
  | none => .error (.ub "dangling SliceHandle")

/-- `handle.replace_refid(Some(id))`; src/tree/node.rs:2938-2947. -/
def RleTree.setRef (t : RleTree I S) (h : Nat × Nat) (id : Nat) : RleTree I S :=
  t.relabel fun p i r => if (p, i) = h then some id else r

/-- `SliceRefStore::make_ref`; src/tree/slice_ref.rs:331-359.  Returns the id of the new `SliceRef`. -/
def RefTree.makeRef (rcMax : Nat) (st : RefTree I S) (h : Nat × Nat) : R (Nat × RefTree I S) := do
  let c ← st.tree.deref h
  match c.ref with
  | some id => do
    let (id', rv) ← Recycle.clone rcMax st.refs id
    pure (id', { st with refs := rv })
  | none => do
    let (id, rv) ← Recycle.push st.refs (.handle (some h))
    let (id', rv) ← Recycle.clone rcMax rv id
    pure (id, { st with refs := rv, tree := st.tree.setRef h id' })

/-- `SliceRef::clone` of a valid reference of a live tree; src/tree/slice_ref.rs:835-852. -/
def RefTree.cloneRef (rcMax : Nat) (st : RefTree I S) (id : Nat) : R (Nat × RefTree I S) := do
  let (id', rv) ← Recycle.clone rcMax st.refs id
  pure (id', { st with refs := rv })

/-- `insert_with_cursor` on a tree with references: the insertion and the calls it makes on the store.  An empty tree gets
a new store together with its root; src/tree/insert.rs:54-83.  Returns the path for the cursor and the handle. -/
def RefTree.insert (E : Env I S) (st : RefTree I S) (nop : Bool) (hints : List Nat) (idx : I) (s : S) (size : I) :
    R (RefTree I S × List Nat × Option (Nat × Nat)) := do
  let (t, out) ← st.tree.insert E nop hints idx s size ⟨st.next, [], [], none, []⟩
  let rv ← out.world.log.foldlM storeCmd (if st.tree.root.isNone then Recycle.empty else st.refs)
  pure (⟨t, rv, out.world.next⟩, out.path, out.handle)

/-- `insert_ref_with_cursor`; src/tree/mod.rs:736-764. -/
def RefTree.insertRef (rcMax : Nat) (E : Env I S) (st : RefTree I S) (nop : Bool) (hints : List Nat) (idx : I) (s : S)
    (size : I) : R (RefTree I S × List Nat × Nat) := do
  let (st, path, h) ← st.insert E nop hints idx s size
  match h with
  | none => .error (.unreachable "insert_ref without handle")
  | some h => do
    let (id, st) ← st.makeRef rcMax h
    pure (st, path, id)

/-- `tree.get(idx).make_ref()`; src/tree/entry.rs:147-151. -/
def RefTree.refAt (rcMax : Nat) (E : Env I S) (st : RefTree I S) (idx : I) : R (Nat × RefTree I S) := do
  let e ← st.tree.get E [] idx
  st.makeRef rcMax (e.ptr, e.idx)

/-- `collapse_refs` on a live tree: the handle of an id; src/tree/slice_ref.rs:520-560.  `Redirect` is never stored
(`redirect` replaces ids instead), nor is `Removed` (`remove` is not called); `stored_handles` in `Verif/Stored.lean`.  Both would end in
the panic of `borrow_mut()`, since the `Err` of `filter_map` still has the store borrowed.  src/tree/slice_ref.rs:546-574 -/
def RefTree.resolve (st : RefTree I S) (id : Nat) : R (Option (Nat × Nat)) := do
  match ← Recycle.get st.refs id with
  | .handle (some h) => pure (some h)
  | .handle none => .error (.panic "slice handles should not be suspended while the tree is not mutably borrowed")
  | .redirect _ | .removed => .error (.panic "already borrowed: BorrowMutError")

/-- First child for which `f` finds something, with its index, as src/tree/entry.rs:106-124 and src/tree/node.rs:3124-3145, from the
root -/
def firstKid {C X : Type} (f : C → R (Option X)) : Nat → List C → R (Option (Nat × X))
  | _, [] => pure none
  | j, c :: cs => do
    match ← f c with
    | some x => pure (some (j, x))
    | none => firstKid f (j + 1) cs

/-- `SliceHandle::range` without the final addition: position and size; src/tree/node.rs:3124-3141.  The walk from the node
at `p` to the root is done here by recursion from the root to that node, so it relies on parent links being right. -/
def rangeIn (ix : IdxOps I) (p k : Nat) : {h : Nat} → Tree I S h → R (Option (I × I))
  | 0, _ => pure none
  | _ + 1, n =>
    if n.ptr = p then do
      let kp ← n.keyPos k
      let size ← n.sliceSize ix (szT ix) k
      pure (some (kp, size))
    else do
      match ← firstKid (rangeIn ix p k) 0 n.kids with
      | none => pure none
      | some (j, pos, size) => do
        let cp ← n.childPos ix (szT ix) j
        let pos ← ix.addL pos cp
        pure (some (pos, size))

/-- `cursor_to_handle`: child indices from the root to the node at `p`; src/tree/entry.rs:107-126.  Walked from the root
as in `rangeIn`. -/
def pathIn (p : Nat) : {h : Nat} → Tree I S h → R (Option (List Nat))
  | 0, _ => pure none
  | _ + 1, n =>
    if n.ptr = p then pure (some [])
    else do
      match ← firstKid (pathIn p) 0 n.kids with
      | none => pure none
      | some (j, path) => pure (some (j :: path))

/-- `SliceRef::range`; src/tree/slice_ref.rs:728-767. -/
def RefTree.range (E : Env I S) (st : RefTree I S) (id : Nat) : R (I × I) := do
  match ← st.resolve id with
  | none => .error (.panic "cannot borrow: slice is no longer present in the tree")
  | some (p, k) =>
    match st.tree.root with
    | none => .error (.ub "dangling SliceHandle")
    | some r => do
      match ← rangeIn E.ix p k r.tree with
      | none => .error (.ub "dangling SliceHandle")
      | some (pos, size) => do
        let stop ← E.ix.addR pos size
        pure (pos, stop)

/-- `SliceRef::cursor`; src/tree/slice_ref.rs:781-820. -/
def RefTree.cursor (st : RefTree I S) (id : Nat) : R (List Nat) := do
  match ← st.resolve id with
  | none => .error (.panic "cannot borrow: slice is no longer present in the tree")
  | some (p, _) =>
    match st.tree.root with
    | none => .error (.ub "dangling SliceHandle")
    | some r => do
      match ← pathIn p r.tree with
      | none => .error (.ub "dangling SliceHandle")
      | some path => pure path

/-- `*SliceRef::borrow_slice`; src/tree/slice_ref.rs:672-712, node.rs:3108-3121. -/
def RefTree.slice (st : RefTree I S) (id : Nat) : R S := do
  match ← st.resolve id with
  | none => .error (.panic "cannot borrow: slice is no longer present in the tree")
  | some h => do
    let c ← st.tree.deref h
    pure c.slice

end Sherman
