import Verif.Base
/-!
# Nodes and trees (src/tree/node.rs, src/tree/fix.rs)

Conventions of this model, used in all `Verif/Tree*`, `Verif/Insert*` files:

* Indices of keys and children are natural numbers.  The code uses `u8`; node lengths never exceed
  `2*M ≤ 254` (`assert_reasonable_m`, src/tree/mod.rs:297-313), so no index computation leaves `u8`.
  Subtractions are checked (`usub`).
* A leaf is represented as a node whose "children" are `Unit`s of size zero, one more than it has
  keys.  This lets the leaf and internal versions of a function share one definition; where the code
  for leaves differs, this is stated.  Subtracting the size of such a "child" is subtracting `ZERO`.
* Parent pointers are not stored in nodes; a position in a tree is a node together with the list of
  frames above it (`Ctx`).  Agreement of the stored parent pointers with those frames is C21.
* The slice-reference store is write-only during an insertion.  Its calls are recorded in order
  (`World.log`) and executed afterwards (`runLog`), the callbacks about moved slices likewise
  (`World.events`).
* `SliceHandle::take_value_and_leave_hole` / `fill_hole` pairs are one update of the slice.  The state
  between them is only observable when user code panics; see `Verif/Destroy.lean`.
-/
namespace Sherman

/-- The `Index` trait: `ZERO`, `DirectionalAdd`, `DirectionalSub`, `Ord`.
src/public_traits.rs:15-36, 244-296.  `x.add_right(y)` is `addR x y`.  `debug` is `cfg!(debug_assertions)`: whether the
two assertions about positions are checked, src/tree/mod.rs:852, 914. -/
structure IdxOps (I : Type) where
  zero : I
  addL : I → I → R I
  addR : I → I → R I
  subL : I → I → R I
  subR : I → I → R I
  cmp : I → I → Ordering
  debug : Bool := true

namespace IdxOps
variable {I : Type} (ix : IdxOps I)
/-- `<` of `Ord`; src/public_traits.rs:15 -/
def lt (a b : I) : Bool := ix.cmp a b == .lt
/-- `<=` of `Ord`; src/public_traits.rs:15 -/
def le (a b : I) : Bool := ix.cmp a b != .gt
/-- `==` of `Ord`; src/public_traits.rs:15 -/
def eq (a b : I) : Bool := ix.cmp a b == .eq
end IdxOps

/-- Unsigned integers with largest value `max`, overflow checked: `impl Index for u8 …`.
src/public_traits.rs:298-328. -/
def natIdx (max : Nat) : IdxOps Nat where
  zero := 0
  addL a b := if b + a ≤ max then .ok (b + a) else .error .overflow
  addR a b := if a + b ≤ max then .ok (a + b) else .error .overflow
  subL a b := if b ≤ a then .ok (a - b) else .error .underflow
  subR a b := if b ≤ a then .ok (a - b) else .error .underflow
  cmp := compare

/-- The `Slice` trait: `MAY_JOIN`, `split_at` (returns what stays and what is split off),
`try_join` (`.inl` for `Ok`, `.inr` for `Err`).  src/public_traits.rs:48-90. -/
structure SliceOps (I S : Type) where
  mayJoin : Bool
  splitAt : S → I → S × S
  tryJoin : S → S → S ⊕ (S × S)

/-- Type parameters of `RleTree<I, S, P, M>`; `refs` is `P::SLICE_REFS`.  src/tree/mod.rs:110-115, src/param.rs:46-70 -/
structure Env (I S : Type) where
  ix : IdxOps I
  sl : SliceOps I S
  M : Nat
  refs : Bool

/-- Checked subtraction of `u8` indices, as in src/tree/insert.rs:1925-2330 with debug assertions -/
def usub (a b : Nat) : R Nat := if b ≤ a then .ok (a - b) else .error .underflow

/-- `node::Key`: position relative to the node, slice, reference id.
src/tree/node.rs (struct `Key`); the parallel arrays `keys`, `vals`, `refs` of `Leaf`.  src/tree/node.rs:1224-1228 -/
structure Key (I S : Type) where
  pos : I
  slice : S
  ref : Option Nat
  deriving DecidableEq, Repr

/-- `node::Leaf` / `node::Internal`: address, `total_size`, keys, children.
src/tree/node.rs (structs `Leaf`, `Internal`).  Parent link and holes are not part of it.  src/tree/node.rs:435-593 -/
structure Node (I S C : Type) where
  ptr : Nat
  size : I
  keys : List (Key I S)
  kids : List C
  deriving DecidableEq, Repr

/-- Trees of `h` levels.  `Tree (h+1)` is a node of `height() = h`.  src/tree/node.rs:95-110, 820-822 -/
def Tree (I S : Type) : Nat → Type
  | 0 => Unit
  | h + 1 => Node I S (Tree I S h)

/-- Address of a node (none for the dummy children of leaves).  src/tree/node.rs:815-817 -/
def ptrT {I S : Type} {h : Nat} (t : Tree I S h) : Option Nat :=
  match h with
  | 0 => none
  | _ + 1 => some (Node.ptr t)

/-- Children that may be nodes with an address.  src/tree/node.rs (`child_ptrs` of `Internal`); src/tree/node.rs:592, 2829-2840 -/
class HasPtr (C : Type) where
  addr : C → Option Nat

/-- Children of a node at height `h`; src/tree/node.rs:592. -/
instance {I S : Type} {h : Nat} : HasPtr (Tree I S h) := ⟨ptrT⟩

/-- Call on the slice-reference store; `TraverseUpdate` of the insertion callback.  src/tree/slice_ref.rs:365-438,
src/tree/fix.rs:150-192 -/
inductive StoreCmd where
  /-- `store.update(ref, handle)`, src/tree/slice_ref.rs:418-429 -/
  | update (r : Nat) (ptr idx : Nat)
  /-- `store.suspend(ref)`, src/tree/slice_ref.rs:431-437 -/
  | suspend (r : Nat)
  deriving DecidableEq, Repr

/-- Access to the fields `parent` and `idx_in_parent` of node `c`; src/tree/node.rs:440-469. -/
inductive LinkCmd where
  /-- `parent: None` in a new node; src/tree/node.rs:1389-1390, 1717-1718, 1807-1808 -/
  | new (c : Nat)
  /-- both fields are written, through a handle that is unique by its type; src/tree/node.rs:1745-1763, 2325-2330 -/
  | set (c p i : Nat)
  /-- both fields are written if node `c` is not shared; src/tree/node.rs:1541-1552, 2393-2404, 2553-2562 -/
  | setOwned (c p i : Nat)
  /-- if node `c`, a child of the node at `p`, is not shared: `idx_in_parent` is written, and with `P::COW` also `parent`;
  src/tree/node.rs:2553-2562 -/
  | index (c p i : Nat)
  /-- `into_parent` returns node `p` and index `i`; src/tree/node.rs:967-983 -/
  | up (c p i : Nat)
  /-- there is no parent: `into_parent` returns `Err`, or `weak_assert!(parent.is_none())` -/
  | top (c : Nat)
  deriving DecidableEq, Repr

/-- `TraverseUpdate`, src/tree/fix.rs:150-191.  Heights are left out; `Move`'s new range is
determined by its start because both ranges have the same length. -/
inductive Ev where
  | insertion (ptr idx : Nat)
  | move (oldPtr lo hi newPtr newLo : Nat)
  | remove (ptr idx : Nat)
  | putBack (ptr idx : Nat)
  deriving DecidableEq, Repr

/-- Everything outside the tree that an insertion writes: next unused node address, store calls,
callback events, the `fst_handle` cell of `insert_rhs` (src/tree/insert.rs:1113), accesses to parent links. -/
structure World where
  next : Nat
  log : List StoreCmd
  events : List Ev
  fst : Option (Nat × Nat)
  links : List LinkCmd
  deriving DecidableEq, Repr

namespace World
/-- `store.update(&ref, handle)`; nothing for `None`.  src/tree/slice_ref.rs:418-429 -/
def update (w : World) (r : Option Nat) (ptr idx : Nat) : World :=
  match r with
  | none => w
  | some r => { w with log := w.log ++ [.update r ptr idx] }

/-- `store.suspend(&ref)`; nothing for `None`.  src/tree/slice_ref.rs:431-437 -/
def suspend (w : World) (r : Option Nat) : World :=
  match r with
  | none => w
  | some r => { w with log := w.log ++ [.suspend r] }

/-- An access to the parent link of a child; nothing for dummies.  src/tree/node.rs:457-469 -/
def link (w : World) (c : Option Nat) (f : Nat → LinkCmd) : World :=
  match c with
  | none => w
  | some c => { w with links := w.links ++ [f c] }

/-- `alloc_aligned` of a node without parent: the next address is used.  src/tree/node.rs:2612-2632 -/
def alloc (w : World) : World := { w with next := w.next + 1, links := w.links ++ [.new w.next] }
end World

/-- The loop `for ci in from.. { if is_unique() { leaf.parent = Some(p); leaf.idx_in_parent.write(ci) } }` over the children of
a node; src/tree/node.rs:1541-1552 -/
def linkFrom {C : Type} [HasPtr C] (p : Nat) : Nat → List C → World → World
  | _, [], w => w
  | i, c :: cs, w => linkFrom p (i + 1) cs (w.link (HasPtr.addr c) fun q => .setOwned q p i)

/-- The loop `for i in from..=len { if is_unique() { leaf.idx_in_parent.write(i) } }` likewise; src/tree/node.rs:2536-2566 -/
def indexFrom {C : Type} [HasPtr C] (p : Nat) : Nat → List C → World → World
  | _, [], w => w
  | i, c :: cs, w => indexFrom p (i + 1) cs (w.link (HasPtr.addr c) fun q => .index q p i)

/-- The loops `for i in from..len { store.update(&refs[i], (node, i)) }` of the functions below.  src/tree/node.rs:1435-1447, 1775-1785,
2195-2204, 2515-2525 -/
def updateFrom {I S : Type} (ptr : Nat) : Nat → List (Key I S) → World → World
  | _, [], w => w
  | i, k :: ks, w => updateFrom ptr (i + 1) ks (w.update k.ref ptr i)

/-- Position of the first key that is not before `target`: the loop of the standard library's
`binary_search` over `keys_pos_slice()`, used by `search_step` (src/tree/mod.rs:892).
`.inl i` is `Ok(i)`, `.inr i` is `Err(i)`. -/
def bsearch {I : Type} (ix : IdxOps I) (xs : List I) (t : I) (left right : Nat) : R (Nat ⊕ Nat) :=
  if _h : left < right then
    let mid := left + (right - left) / 2
    match xs[mid]? with
    | none => .error (.ub "binary search index")
    | some x =>
      match ix.cmp x t with
      | .lt => bsearch ix xs t (mid + 1) right
      | .gt => bsearch ix xs t left mid
      | .eq => .ok (.inl mid)
  else .ok (.inr left)
termination_by right - left
decreasing_by all_goals omega

namespace Node
variable {I S C : Type} (ix : IdxOps I) (sz : C → I)

/-- `leaf().len()`; src/tree/node.rs:2702-2704 -/
def len (n : Node I S C) : Nat := n.keys.length

/-- `try_key_pos(idx)`; src/tree/node.rs:2767-2779 -/
def tryKeyPos (n : Node I S C) (i : Nat) : Option I := n.keys[i]?.map (·.pos)

/-- `try_key_pos(idx).unwrap_or(subtree_size())`, used throughout.  src/tree/node.rs:2022, 2181, 2472, 2896 -/
def nextPos (n : Node I S C) (i : Nat) : I := (n.tryKeyPos i).getD n.size

/-- `key_pos(idx)`, unsafe: requires `idx < len`.  src/tree/node.rs:2754-2764 -/
def keyPos (n : Node I S C) (i : Nat) : R I :=
  match n.keys[i]? with
  | some k => .ok k.pos
  | none => .error (.ub "key_pos")

/-- `child(idx)`, unsafe: requires `idx ≤ len`.  src/tree/node.rs:1976-1994 -/
def child (n : Node I S C) (i : Nat) : R C :=
  match n.kids[i]? with
  | some c => .ok c
  | none => .error (.ub "child")

/-- `child_size(idx)`; for leaves this is `try_child_size(idx).unwrap_or(ZERO)`.
src/tree/node.rs:992-1007, 1997-2008 -/
def childSize (n : Node I S C) (i : Nat) : R I := do
  let c ← n.child i
  pure (sz c)

/-- `SliceHandle::slice_size`: next key position (or the node's size), minus the size of the child
right of the key, minus the key's position.  src/tree/node.rs:2887-2905 -/
def sliceSize (n : Node I S C) (k : Nat) : R I := do
  let kp ← n.keyPos k
  let cs ← n.childSize sz (k + 1)
  let stop ← ix.subR (n.nextPos (k + 1)) cs
  ix.subL stop kp

/-- `set_single_key_pos`; src/tree/node.rs:1303-1317 -/
def setKeyPos (n : Node I S C) (k : Nat) (p : I) : R (Node I S C) := do
  match n.keys[k]? with
  | none => .error (.ub "set_single_key_pos")
  | some key => pure { n with keys := n.keys.set k { key with pos := p } }

/-- Overwrite the slice of key `k` (`fill_hole` after `take_value_and_leave_hole`, `with_slice`).
src/tree/node.rs:3014-3110 -/
def setSlice (n : Node I S C) (k : Nat) (s : S) : R (Node I S C) :=
  match n.keys[k]? with
  | none => .error (.ub "slice handle index")
  | some key => pure { n with keys := n.keys.set k { key with slice := s } }

/-- `into_slice_handle(idx)`: the handle's index must be a key.  src/tree/node.rs:2088-2100 -/
def handle (n : Node I S C) (k : Nat) : R (Key I S) :=
  match n.keys[k]? with
  | none => .error (.ub "into_slice_handle")
  | some key => pure key

/-- Apply `f` to the positions of a list of keys, stopping at the first fault.  src/tree/node.rs:1325-1345 -/
def mapPos (f : I → R I) : List (Key I S) → R (List (Key I S))
  | [] => pure []
  | k :: ks => do
    let p ← f k.pos
    let ks' ← mapPos f ks
    pure ({ k with pos := p } :: ks')

/-- `set_key_poss_with(f, from..)`: maps `f` over the positions of the keys from `from` and over the
subtree size.  src/tree/node.rs:1325-1358 -/
def setKeyPossWith (n : Node I S C) (f : I → R I) (start : Nat) : R (Node I S C) := do
  weakAssert (start ≤ n.len) "set_key_poss_with"
  let ks ← mapPos f (n.keys.drop start)
  let s ← f n.size
  pure { n with keys := n.keys.take start ++ ks, size := s }

/-- `shift_keys::<IS_INCREASE>`; src/tree/fix.rs:686-759 -/
def shiftKeys (n : Node I S C) (incr : Bool) (start : Nat) (pos oldSize newSize : I) :
    R (Node I S C) := do
  weakAssert (start ≤ n.len) "shift_keys"
  let oldEnd ← ix.addR pos oldSize
  let newEnd ← ix.addR pos newSize
  if incr then
    let d ← ix.subL newEnd oldEnd
    n.setKeyPossWith (fun k => ix.addL k d) start
  else
    let d ← ix.subR oldEnd newEnd
    n.setKeyPossWith (fun k => ix.subL k d) start

/-- `shift_keys_auto`; src/tree/fix.rs:626-642 -/
def shiftKeysAuto (n : Node I S C) (start : Nat) (pos oldSize newSize : I) : R (Node I S C) :=
  n.shiftKeys ix (ix.lt oldSize newSize) start pos oldSize newSize

/-- `split(midpoint_idx, store)`: everything right of key `mid` moves to a new node, key `mid` is
returned, positions and both subtree sizes are left for the caller to repair.
src/tree/node.rs:1372-1571.  The `has_holes` panic is in `Verif/Destroy.lean`.
Returns (remaining node, key, new node). -/
def split [HasPtr C] (n : Node I S C) (mid : Nat) (w : World) :
    R (Node I S C × Key I S × Node I S C × World) :=
  match n.keys[mid]? with
  | none => .error (.ub "split")
  | some key =>
    let rhs : Node I S C :=
      { ptr := w.next, size := n.size, keys := n.keys.drop (mid + 1), kids := n.kids.drop (mid + 1) }
    let w := w.alloc
    let w := updateFrom rhs.ptr 0 rhs.keys w
    let w := w.suspend key.ref
    let w := linkFrom rhs.ptr 0 rhs.kids w
    pure ({ n with keys := n.keys.take mid, kids := n.kids.take (mid + 1) }, key, rhs, w)

/-- `insert_key_and_child(key_idx, key, child)`; the leaf version `insert_key` is the same without
the child and with a default (`None`) reference.  The stored position is that of the next key (or
the subtree size) and is returned; `total_size` is left for the caller.
src/tree/node.rs:2152-2206, 2453-2546 -/
def insertKeyAndChild [HasPtr C] (maxLen : Nat) (n : Node I S C) (idx : Nat) (slice : S) (ref : Option Nat)
    (c : C) (w : World) : R (Node I S C × I × World) := do
  weakAssert (idx ≤ n.len) "insert_key: idx"
  weakAssert (n.len < maxLen) "insert_key: len"
  let pos := n.nextPos idx
  let tail := (⟨pos, slice, ref⟩ : Key I S) :: n.keys.drop idx
  let w := updateFrom n.ptr idx tail w
  let w := w.link (HasPtr.addr c) fun q => .setOwned q n.ptr (idx + 1)
  let w := indexFrom n.ptr (idx + 2) (n.kids.drop (idx + 1)) w
  pure ({ n with
    keys := n.keys.take idx ++ tail,
    kids := n.kids.take (idx + 1) ++ c :: n.kids.drop (idx + 1) }, pos, w)

/-- `push_key_and_child(key, child, new_subtree_size)`; the leaf version is `push_key`.
src/tree/node.rs:2223-2272, 2361-2435 -/
def pushKeyAndChild [HasPtr C] (maxLen : Nat) (n : Node I S C) (slice : S) (ref : Option Nat) (c : C)
    (newSize : I) (w : World) : R (Node I S C × World) := do
  weakAssert (n.len < maxLen) "push_key"
  let w := w.link (HasPtr.addr c) fun q => .setOwned q n.ptr (n.len + 1)
  let w := w.update ref n.ptr n.len
  pure ({ n with
    size := newSize,
    keys := n.keys ++ [⟨n.size, slice, ref⟩],
    kids := n.kids ++ [c] }, w)

/-- `replace_first_child(child)`: returns the previous first child.  src/tree/node.rs:2308-2348 -/
def replaceFirstChild [HasPtr C] (n : Node I S C) (c : C) (w : World) : R (Node I S C × C × World) :=
  match n.kids with
  | [] => .error (.ub "replace_first_child")
  | c0 :: cs => pure ({ n with kids := c :: cs }, c0, w.link (HasPtr.addr c) fun q => .set q n.ptr 0)

end Node

/-- Subtree size of a tree, `leaf().subtree_size()`; `ZERO` for the dummy children of leaves.  src/tree/node.rs:2794-2800 -/
def szT {I S : Type} (ix : IdxOps I) : {h : Nat} → Tree I S h → I
  | 0, _ => ix.zero
  | _ + 1, n => Node.size n

/-- `NodeHandle::new_root(slice, size)`; src/tree/node.rs:1802-1850 -/
def newRoot {I S : Type} (ix : IdxOps I) (ptr : Nat) (slice : S) (size : I) : Tree I S 1 :=
  { ptr := ptr, size := size, keys := [⟨ix.zero, slice, none⟩], kids := [(), ()] }

/-- `make_new_parent(store, key, key_size, rhs)`: a root with one key above `lhs` and `rhs`.
src/tree/node.rs:1689-1793.  Heights agree by typing; the `u8` height increment is
not modelled (a tree of height 255 has more than 2^255 entries). -/
def makeNewParent {I S : Type} (ix : IdxOps I) {h : Nat} (lhs : Tree I S (h + 1)) (key : Key I S)
    (keySize : I) (rhs : Tree I S (h + 1)) (w : World) : R (Tree I S (h + 2) × World) := do
  let pos := szT ix lhs
  let total ← ix.addR pos keySize
  let total ← ix.addR total (szT ix rhs)
  let n : Node I S (Tree I S (h + 1)) :=
    { ptr := w.next, size := total, keys := [{ key with pos := pos }], kids := [lhs, rhs] }
  let w := ((w.link (ptrT lhs) .top).link (ptrT rhs) .top).alloc
  let w := (w.link (ptrT lhs) fun q => .set q n.ptr 0).link (ptrT rhs) fun q => .set q n.ptr 1
  pure (n, w.update key.ref n.ptr 0)

/-- The way from a subtree of `h` levels up to the root of a tree of `H` levels: for each ancestor its
contents, with the subtree's place between `kidsL` and `kidsR`.  Stands for the `parent` links
(`into_parent`, src/tree/node.rs:967-983); `idx_in_parent` is `kidsL.length`. -/
inductive Ctx (I S : Type) (H : Nat) : Nat → Type
  | top : Ctx I S H H
  | frame {h : Nat} (ptr : Nat) (size : I) (keys : List (Key I S))
      (kidsL kidsR : List (Tree I S h)) (up : Ctx I S H (h + 1)) : Ctx I S H h

/-- The accesses to links of a walk from the node at `a` to the root, in which nothing but positions and sizes is written.
`into_parent` in `do_upward_step`, src/tree/fix.rs:574-585 -/
def Ctx.readUp {I S : Type} {H : Nat} : {h : Nat} → Ctx I S H h → Option Nat → World → World
  | _, .top, a, w => w.link a .top
  | _, .frame ptr _ _ kl _ up, a, w => up.readUp (some ptr) (w.link a fun q => .up q ptr kl.length)

/-- The ancestor described by a frame, with `c` in its place.  src/tree/node.rs:969-988 -/
def plugNode {I S C : Type} (ptr : Nat) (size : I) (keys : List (Key I S)) (kidsL : List C) (c : C)
    (kidsR : List C) : Node I S C :=
  { ptr := ptr, size := size, keys := keys, kids := kidsL ++ c :: kidsR }

end Sherman
