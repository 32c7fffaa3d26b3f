import Verif.RefTree
/-!
# Model of who may borrow a tree when, and of what dropping does

src/tree/slice_ref.rs: `BorrowState`, `SliceRefStore`, `InnerStore`, `SliceRef`, `TemporaryBorrow`, `Borrow`;
src/tree/mod.rs:275-294 `destruct_root`; src/tree/insert.rs:57-190 for the order in which an insertion acquires and releases.

One system is one `RleTree<_, _, AllowSliceRefs>` together with every `SliceRef` and `Borrow` made from it.  All of these
share one `InnerStore`, whose fields (`borrow`, `weak_count`, `root`, `refs`) are fields of `Sys`.  A call returns its result
together with the new system, so what a panic leaves behind can be seen.  `SliceRef`s and `Borrow`s are numbered in the order
of their creation; `none` stands for one that has been dropped.

Not modelled: the `RefCell` around `refs` (no user code runs while it is borrowed, as `RecycleVec` calls none), the slow path of
`collapse_refs` (`Redirect` is never stored), moving the values themselves, and `Borrow::map` (it hands on the same count).
-/
namespace Sherman
namespace Sys
variable {I S : Type}

/-- `enum BorrowState`; src/tree/slice_ref.rs:109-135. -/
inductive BState where
  | notBorrowed
  | mutable
  | immutable (count : Nat) (dropIfZero : Bool)
  | dropping
  | dropped
  deriving DecidableEq, Repr

/-- `enum BorrowFailure`; src/tree/slice_ref.rs:180-188. -/
inductive BorrowFailure where
  | getMutAlreadyBorrowed
  | getImmutAlreadyMutablyBorrowed
  | getImmutAlreadyDropped
  deriving DecidableEq, Repr

/-- `acquire_mutable`; src/tree/slice_ref.rs:261-275. -/
def acquireMutable : BState → R (Except BorrowFailure BState)
  | .notBorrowed => .ok (.ok .mutable)
  | .immutable _ _ => .ok (.error .getMutAlreadyBorrowed)
  | .mutable => .error (.unreachable "double mutable borrow attempted")
  | .dropped | .dropping => .error (.unreachable "mutable borrow attempted after drop")

/-- `release_mutable`; src/tree/slice_ref.rs:277-280. -/
def releaseMutable : BState → R BState
  | .mutable => .ok .notBorrowed
  | _ => .error (.panic "assert!(borrow == Mutable)")

/-- `try_acquire_drop`: `true` for `ShouldDrop::Yes`; src/tree/slice_ref.rs:282-313. -/
def tryAcquireDrop : BState → R (Bool × BState)
  | .mutable => .ok (true, .dropping)
  | .dropped | .dropping | .immutable _ true => .error (.unreachable "double-drop attempted")
  | .notBorrowed => .ok (true, .dropping)
  | .immutable count false => .ok (false, .immutable count true)

/-- The state after the destructor of `SliceRefStore`; src/tree/slice_ref.rs:444-454. -/
def storeDropState : BState → R BState
  | .notBorrowed | .mutable | .immutable _ false | .dropped => .error (.unreachable "invalid state")
  | .immutable count true => .ok (.immutable count true)
  | .dropping => .ok .dropped

/-- `borrow_refs`; src/tree/slice_ref.rs:495-519.  `max` is `usize::MAX`. -/
def borrowRefs (max : Nat) : BState → R (Except BorrowFailure BState)
  | .notBorrowed => .ok (.ok (.immutable 1 false))
  | .mutable => .ok (.error .getImmutAlreadyMutablyBorrowed)
  | .immutable count d =>
    if count + 1 ≤ max then .ok (.ok (.immutable (count + 1) d))
    else .error (.panic "there should be fewer than usize::MAX concurrent borrows")
  | .dropping | .dropped => .ok (.error .getImmutAlreadyDropped)

/-- The state after `Borrow::clone`; src/tree/slice_ref.rs:1021-1042. -/
def cloneBorrowState (max : Nat) : BState → R BState
  | .immutable count d =>
    if count + 1 ≤ max then .ok (.immutable (count + 1) d)
    else .error (.panic "should not have more than usize::MAX immutable borrows")
  | _ => .error (.unreachable "Borrow::clone")

/-- `drop_borrow`: the new state and whether `drop_fn` is called; src/tree/slice_ref.rs:1073-1099.  `count - 1` underflows on
a count of zero, which `NonZeroUsize` excludes. -/
def dropBorrowState : BState → R (BState × Bool)
  | .immutable count d =>
    if count = 0 then .error .underflow
    else if count - 1 ≠ 0 then .ok (.immutable (count - 1) d, false)
    else if d then .ok (.dropped, true)
    else .ok (.notBorrowed, false)
  | _ => .error (.ub "weak_unreachable!()")

/-- The allocation of the `InnerStore`: not made yet (the tree never had a root), live or freed.
src/tree/slice_ref.rs:1109-1138 -/
inductive Alloc where
  | absent
  | live
  | freed
  deriving DecidableEq, Repr

/-- A `Borrow<'_, S>`: the `SliceRef` whose lifetime bounds it, and where its `val` points.  src/tree/slice_ref.rs:226-241 -/
structure Held where
  sref : Nat
  at_ : Nat × Nat
  deriving DecidableEq, Repr

/-- The address of the root.  src/tree/slice_ref.rs:28, 382-384 -/
def rootPtr (t : RleTree I S) : Option Nat :=
  match t.root with
  | none => none
  | some r => some (Node.ptr r.tree)

end Sys

/-- One tree, its `InnerStore` and everything made from it.  `owner`: the `RleTree` value has not been dropped.  `weak` is
`weak_count`, `root` is `InnerStore::root`, `destroyed` counts the calls that destroy the nodes.  `srefs[i]` is the `id` of the
`i`-th `SliceRef`.  src/tree/slice_ref.rs:49-101 (`SliceRefStore`, `InnerStore`, `SliceRef`) -/
structure Sys (I S : Type) where
  st : RefTree I S
  owner : Bool
  alloc : Sys.Alloc
  borrow : Sys.BState
  weak : Nat
  root : Option Nat
  destroyed : Nat
  srefs : List (Option (Option Nat))
  borrows : List (Option Sys.Held)

namespace Sys
variable {I S : Type}

/-- A new, empty tree; src/tree/mod.rs:330-340 (`new_empty`).  There is no `InnerStore` yet. -/
def start (next : Nat) : Sys I S := ⟨⟨⟨none⟩, Recycle.empty, next⟩, true, .absent, .notBorrowed, 0, none, 0, [], []⟩

/-- Access to the `InnerStore`; src/tree/slice_ref.rs:330-335, 487-493. -/
def touch (s : Sys I S) : R Unit :=
  match s.alloc with
  | .live => .ok ()
  | _ => .error (.ub "use of an InnerStore that is not allocated")

/-- `self.id.set(id)` for the `i`-th `SliceRef`.  src/tree/slice_ref.rs:44-49, 531-630 -/
def setId (s : Sys I S) (i : Nat) (id : Option Nat) : Sys I S := { s with srefs := s.srefs.set i (some id) }

/-- `InnerStore::drop(drop_tree)`; src/tree/slice_ref.rs:1140-1151.  Destroying the nodes makes every address in them dangle. -/
def innerDrop (s : Sys I S) (dropTree : Bool) : R Unit × Sys I S :=
  let s := { s with st := { s.st with refs := Recycle.empty } }
  if dropTree then
    match s.root with
    | none => (.ok (), s)
    | some p =>
      if rootPtr s.st.tree = some p then
        (.ok (), { s with st := { s.st with tree := ⟨none⟩ }, root := none, destroyed := s.destroyed + 1 })
      else (.error (.ub "InnerStore::root is not the root of the tree"), s)
  else (.ok (), s)

/-- `drop_borrow`, together with `drop_tree_once_no_borrows`; src/tree/slice_ref.rs:914-917, 1073-1099. -/
def release (s : Sys I S) : R Unit × Sys I S :=
  match s.touch with
  | .error f => (.error f, s)
  | .ok () =>
    match dropBorrowState s.borrow with
    | .error f => (.error f, s)
    | .ok (b, false) => (.ok (), { s with borrow := b })
    | .ok (b, true) => innerDrop { s with borrow := b } true

/-- `collapse_refs`; src/tree/slice_ref.rs:532-574.  The id is taken first and only put back on success.  In the other cases
`initial_result` is an `Err` with the `cell::Ref` that `filter_map` was given; it is alive during `refs.borrow_mut()` (566, 574), which
panics.  No such entries are stored (`Verif/Stored.lean`), but they are among the arbitrary ones after a panic (`junk`). -/
def collapse (s : Sys I S) (i : Nat) : R (Option (Option (Nat × Nat))) × Sys I S :=
  match s.srefs[i]? with
  | some (some none) => (.ok none, s)
  | some (some (some id)) =>
    match Recycle.get s.st.refs id with
    | .error f => (.error f, s.setId i none)
    | .ok (.handle h) => (.ok (some h), s)
    | .ok (.redirect _) | .ok .removed => (.error (.panic "already borrowed: BorrowMutError"), s.setId i none)
  | _ => (.error (.ub "not a SliceRef"), s)

/-- `try_temporary_borrow`; src/tree/slice_ref.rs:684-698.  If `collapse_refs` panics there is no `TemporaryBorrow` yet, so
nothing gives the count back. -/
def tempBorrow (max : Nat) (s : Sys I S) (i : Nat) : R (Except BorrowFailure (Option (Nat × Nat))) × Sys I S :=
  match s.touch with
  | .error f => (.error f, s)
  | .ok () =>
    match borrowRefs max s.borrow with
    | .error f => (.error f, s)
    | .ok (.error e) => (.ok (.error e), s)
    | .ok (.ok b) =>
      match collapse { s with borrow := b } i with
      | (.error f, s) => (.error f, s)
      | (.ok none, s) => (.ok (.ok none), s)
      | (.ok (some none), s) =>
        (.error (.panic "slice handles should not be suspended while the tree is not mutably borrowed"), s)
      | (.ok (some (some h)), s) => (.ok (.ok (some h)), s)

/-- `panic_msg`; src/tree/slice_ref.rs:665-679. -/
def panicMsg : Option BorrowFailure → Fault
  | none => .panic "cannot borrow: slice is no longer present in the tree"
  | some .getMutAlreadyBorrowed => .unreachable "panic_msg"
  | some .getImmutAlreadyMutablyBorrowed => .panic "cannot borrow: tree is already mutably borrowed"
  | some .getImmutAlreadyDropped => .panic "cannot borrow: tree has been dropped"

/-- What a call returns: nothing, a truth value, the number of a new `SliceRef` or `Borrow`, a slice, a range, a path.
src/tree/slice_ref.rs:637-843 -/
inductive Val (I S : Type) where
  | unit
  | bool (b : Bool)
  | sref (i : Nat)
  | borrow (j : Option Nat)
  | slice (s : S)
  | range (r : Option (I × I))
  | cursor (c : Option (List Nat))

/-- `borrow_slice` (`strict`) and `try_borrow_slice`; src/tree/slice_ref.rs:712-745. -/
def borrowSlice (max : Nat) (s : Sys I S) (i : Nat) (strict : Bool) : R (Val I S) × Sys I S :=
  match tempBorrow max s i with
  | (.error f, s) => (.error f, s)
  | (.ok (.error e), s) => (if strict then .error (panicMsg (some e)) else .ok (.borrow none), s)
  | (.ok (.ok none), s) =>
    match release s with
    | (.error f, s) => (.error f, s)
    | (.ok (), s) => (if strict then .error (panicMsg none) else .ok (.borrow none), s)
  | (.ok (.ok (some h)), s) =>
    match s.st.tree.deref h with
    | .error f => (.error f, s)
    | .ok _ => (.ok (.borrow (some s.borrows.length)), { s with borrows := s.borrows ++ [some ⟨i, h⟩] })

/-- The common part of `range`/`try_range` and `cursor`/`try_cursor`: take a temporary borrow, read, give it back (also if
reading panics).  src/tree/slice_ref.rs:757-832 -/
def borrowRead {X : Type} (max : Nat) (s : Sys I S) (i : Nat) (strict : Bool) (read : RleTree I S → Nat × Nat → R X)
    (wrap : Option X → Val I S) : R (Val I S) × Sys I S :=
  match tempBorrow max s i with
  | (.error f, s) => (.error f, s)
  | (.ok (.error e), s) => (if strict then .error (panicMsg (some e)) else .ok (wrap none), s)
  | (.ok (.ok none), s) =>
    match release s with
    | (.error f, s) => (.error f, s)
    | (.ok (), s) => (if strict then .error (panicMsg none) else .ok (wrap none), s)
  | (.ok (.ok (some h)), s) =>
    match release s with
    | (.error f, s') => (.error f, s')
    | (.ok (), s') =>
      match read s.st.tree h with
      | .error f => (.error f, s')
      | .ok x => (.ok (wrap (some x)), s')

/-- `SliceHandle::range` from the root; src/tree/node.rs:3124-3141.  The last part of `RefTree.range`. -/
def rangeAt (E : Env I S) (t : RleTree I S) (h : Nat × Nat) : R (I × I) :=
  match t.root with
  | none => .error (.ub "dangling SliceHandle")
  | some r => do
    match ← rangeIn E.ix h.1 h.2 r.tree with
    | none => .error (.ub "dangling SliceHandle")
    | some (pos, size) => do
      let stop ← E.ix.addR pos size
      pure (pos, stop)

/-- `cursor_to_handle`; src/tree/entry.rs:107-126.  The last part of `RefTree.cursor`. -/
def cursorAt (t : RleTree I S) (h : Nat × Nat) : R (List Nat) :=
  match t.root with
  | none => .error (.ub "dangling SliceHandle")
  | some r => do
    match ← pathIn h.1 r.tree with
    | none => .error (.ub "dangling SliceHandle")
    | some path => pure path

/-- `insert_internal`: bounds, size, missing root, then `acquire_mutable`, the insertion, `set_root` and `release_mutable`.
src/tree/insert.rs:57-190.  `crash`: user code (`try_join`, `split_at`, arithmetic of the index) panics during the insertion.
If that happens, or if the insertion itself panics, nothing is undone: tree and store are left as `junk`, which is
arbitrary.  A tree without a root gets a new `InnerStore`; src/tree/insert.rs:67-86, src/tree/slice_ref.rs:369-380. -/
def insert (E : Env I S) (s : Sys I S) (nop : Bool) (hints : List Nat) (idx : I) (x : S) (size : I) (crash : Bool)
    (junk : RefTree I S) : R (Val I S) × Sys I S :=
  if E.ix.lt (s.st.tree.size E) idx then (.error (.panic "cannot insert new slice, index out of bounds"), s)
  else if E.ix.le size E.ix.zero then (.error (.panic "cannot insert new slice, size is not greater than zero"), s)
  else
    match s.st.tree.root with
    | none =>
      match s.st.insert E nop hints idx x size with
      | .error f => (.error f, s)
      | .ok (st, _) =>
        (.ok .unit, { s with st := st, alloc := .live, borrow := .notBorrowed, weak := 0, root := rootPtr st.tree })
    | some _ =>
      match s.touch with
      | .error f => (.error f, s)
      | .ok () =>
        match acquireMutable s.borrow with
        | .error f => (.error f, s)
        | .ok (.error _) => (.error (.panic "cannot mutably borrow: already immutably borrowed"), s)
        | .ok (.ok b) =>
          if crash then (.error (.panic "panic in user code"), { s with borrow := b, st := junk })
          else
            match s.st.insert E nop hints idx x size with
            | .error f => (.error f, { s with borrow := b, st := junk })
            | .ok (st, _) =>
              match releaseMutable b with
              | .error f => (.error f, { s with borrow := b, st := st, root := rootPtr st.tree })
              | .ok b => (.ok .unit, { s with borrow := b, st := st, root := rootPtr st.tree })

/-- `bump_weak_count`; src/tree/slice_ref.rs:477-483. -/
def bumpWeak (max : Nat) (s : Sys I S) : R (Sys I S) :=
  if s.weak + 1 ≤ max then .ok { s with weak := s.weak + 1 }
  else .error (.panic "there should be fewer than usize::MAX concurrent `SliceRef`s")

/-- `make_ref` on the slice at `h`; src/tree/slice_ref.rs:337-365. -/
def makeRef (max : Nat) (s : Sys I S) (h : Nat × Nat) : R (Val I S) × Sys I S :=
  match s.touch with
  | .error f => (.error f, s)
  | .ok () =>
    match s.st.makeRef max h with
    | .error f => (.error f, s)
    | .ok (id, st) =>
      match bumpWeak max { s with st := st } with
      | .error f => (.error f, { s with st := st })
      | .ok s => (.ok (.sref s.srefs.length), { s with srefs := s.srefs ++ [some (some id)] })

/-- `SliceRef::clone`; src/tree/slice_ref.rs:835-852.  The id is taken first; it is put back only after the store has been
cloned from. -/
def cloneRef (max : Nat) (s : Sys I S) (i : Nat) : R (Val I S) × Sys I S :=
  match s.srefs[i]? with
  | some (some none) => (.ok (.sref s.srefs.length), { s with srefs := s.srefs ++ [some none] })
  | some (some (some id)) =>
    match s.touch with
    | .error f => (.error f, s)
    | .ok () =>
      match s.borrow with
      | .dropping | .dropped =>
        let s := s.setId i none
        (.ok (.sref s.srefs.length), { s with srefs := s.srefs ++ [some none] })
      | _ =>
        match bumpWeak max s with
        | .error f => (.error f, s.setId i none)
        | .ok s =>
          match s.st.cloneRef max id with
          | .error f => (.error f, s.setId i none)
          | .ok (id', st) => (.ok (.sref s.srefs.length), { s with st := st, srefs := s.srefs ++ [some (some id')] })
  | _ => (.error (.ub "not a SliceRef"), s)

/-- `SliceRef::do_drop`; src/tree/slice_ref.rs:967-988.  The id is not given back to the store. -/
def dropRef (s : Sys I S) (i : Nat) : R (Val I S) × Sys I S :=
  match s.touch with
  | .error f => (.error f, s)
  | .ok () =>
    if s.weak = 0 then (.error (.ub "weak_assert!(old_weak_count != 0)"), s)
    else
      let s := { s with weak := s.weak - 1, srefs := s.srefs.set i none }
      if s.weak = 0 ∧ s.borrow = .dropped then (.ok .unit, { s with alloc := .freed }) else (.ok .unit, s)

/-- `is_valid`; src/tree/slice_ref.rs:522-530, 635-642. -/
def isValid (s : Sys I S) (i : Nat) : R (Val I S) × Sys I S :=
  match s.touch with
  | .error f => (.error f, s)
  | .ok () =>
    match s.borrow with
    | .dropping | .dropped => (.ok (.bool false), s)
    | _ =>
      match collapse s i with
      | (.error f, s) => (.error f, s)
      | (.ok h, s) => (.ok (.bool h.isSome), s)

/-- `can_borrow`; src/tree/slice_ref.rs:656-661. -/
def canBorrow (s : Sys I S) : R (Val I S) :=
  match s.touch with
  | .error f => .error f
  | .ok () =>
    match s.borrow with
    | .notBorrowed | .immutable _ _ => .ok (.bool true)
    | .mutable | .dropping | .dropped => .ok (.bool false)

/-- `Borrow::clone`; src/tree/slice_ref.rs:1021-1042. -/
def cloneBorrow (max : Nat) (s : Sys I S) (b : Held) : R (Val I S) × Sys I S :=
  match s.touch with
  | .error f => (.error f, s)
  | .ok () =>
    match cloneBorrowState max s.borrow with
    | .error f => (.error f, s)
    | .ok bs => (.ok (.borrow (some s.borrows.length)), { s with borrow := bs, borrows := s.borrows ++ [some b] })

/-- The destructor of `Borrow`; src/tree/slice_ref.rs:1044-1063. -/
def dropBorrow (s : Sys I S) (j : Nat) : R (Val I S) × Sys I S :=
  match release { s with borrows := s.borrows.set j none } with
  | (.error f, s) => (.error f, s)
  | (.ok (), s) => (.ok .unit, s)

/-- `Deref` of a `Borrow`: read the slice through the reference; src/tree/slice_ref.rs:994-1000. -/
def read (s : Sys I S) (b : Held) : R (Val I S) := do
  let c ← s.st.tree.deref b.at_
  pure (.slice c.slice)

/-- The destructor of `SliceRefStore`; src/tree/slice_ref.rs:440-470. -/
def storeDrop (s : Sys I S) : R (Val I S) × Sys I S :=
  match storeDropState s.borrow with
  | .error f => (.error f, s)
  | .ok b =>
    match innerDrop { s with borrow := b } false with
    | (.error f, s) => (.error f, s)
    | (.ok (), s) => if s.borrow = .dropped ∧ s.weak = 0 then (.ok .unit, { s with alloc := .freed }) else (.ok .unit, s)

/-- Dropping the `RleTree`: `destruct_root`, in which the `SliceRefStore` goes out of scope at the end.
src/tree/mod.rs:275-294 -/
def dropTree (s : Sys I S) : R (Val I S) × Sys I S :=
  let s := { s with owner := false }
  match s.st.tree.root with
  | none => (.ok .unit, s)
  | some _ =>
    match s.touch with
    | .error f => (.error f, s)
    | .ok () =>
      match tryAcquireDrop s.borrow with
      | .error f => (.error f, s)
      | .ok (false, b) => storeDrop { s with borrow := b }
      | .ok (true, b) =>
        storeDrop { s with borrow := b, st := { s.st with tree := ⟨none⟩ }, destroyed := s.destroyed + 1 }

/-- One call by the user.  src/tree/slice_ref.rs:637-1005, src/tree/mod.rs:172-190, 677-760 -/
inductive Call (I S : Type) where
  | insert (nop : Bool) (hints : List Nat) (idx : I) (x : S) (size : I) (crash : Bool) (junk : RefTree I S)
  | makeRef (h : Nat × Nat)
  | cloneRef (i : Nat)
  | dropRef (i : Nat)
  | isValid (i : Nat)
  | canBorrow (i : Nat)
  | borrow (i : Nat) (strict : Bool)
  | range (i : Nat) (strict : Bool)
  | cursor (i : Nat) (strict : Bool)
  | cloneBorrow (j : Nat)
  | dropBorrow (j : Nat)
  | read (j : Nat)
  | dropTree

/-- `f` on the `j`-th `Borrow`.  src/tree/slice_ref.rs:229-243 -/
def withBorrow (s : Sys I S) (j : Nat) (f : Held → R (Val I S) × Sys I S) : R (Val I S) × Sys I S :=
  match s.borrows[j]? with
  | some (some b) => f b
  | _ => (.error (.ub "not a Borrow"), s)

/-- Perform a call.  src/tree/slice_ref.rs:637-1100 -/
def exec (max : Nat) (E : Env I S) (s : Sys I S) : Call I S → R (Val I S) × Sys I S
  | .insert nop hints idx x size crash junk => s.insert E nop hints idx x size crash junk
  | .makeRef h => s.makeRef max h
  | .cloneRef i => s.cloneRef max i
  | .dropRef i => s.dropRef i
  | .isValid i => s.isValid i
  | .canBorrow _ => (s.canBorrow, s)
  | .borrow i strict => s.borrowSlice max i strict
  | .range i strict => s.borrowRead max i strict (rangeAt E) .range
  | .cursor i strict => s.borrowRead max i strict cursorAt .cursor
  | .cloneBorrow j => s.withBorrow j (s.cloneBorrow max)
  | .dropBorrow j => s.dropBorrow j
  | .read j => s.withBorrow j fun b => (s.read b, s)
  | .dropTree => s.dropTree

/-- What Rust's rules allow: one can only use what has not been dropped, `make_ref` takes an entry of the tree, and a
`SliceRef` cannot be dropped while a `Borrow` made from it is alive.  No counterpart in the code: the borrow checker, for
src/tree/slice_ref.rs:229-243 -/
def Legal (s : Sys I S) : Call I S → Prop
  | .insert .. => s.owner = true
  | .makeRef h => s.owner = true ∧ ∃ c ∈ s.st.tree.places, c.at = h
  | .cloneRef i | .isValid i | .canBorrow i | .borrow i _ | .range i _ | .cursor i _ => ∃ o, s.srefs[i]? = some (some o)
  | .dropRef i => (∃ o, s.srefs[i]? = some (some o)) ∧ ∀ (j : Nat) (b : Held), s.borrows[j]? = some (some b) → b.sref ≠ i
  | .cloneBorrow j | .dropBorrow j | .read j => ∃ b, s.borrows[j]? = some (some b)
  | .dropTree => s.owner = true

end Sys
end Sherman
