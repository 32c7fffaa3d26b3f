import Verif.Cow
/-!
# Destroying trees; holes left by panics in user code

(src/tree/node.rs, src/tree/insert.rs)

`Verif/Cow.lean` says which nodes a drop frees.  Here the values are followed as well: whose destructor runs, and which places of a node
hold a value at all.  A value is taken out of its place ("hole") while `try_join` or `split_at` works on it; if that panics, the place
stays empty.

* Destructors of slices do not panic.
* Only the part of an insertion that runs user code is modelled here, without its index arithmetic (for that see `Verif/HolesArith.lean`);
  what follows it runs no user code except index arithmetic, and is in
  `Verif/Insert.lean`.
-/
namespace Sherman.Cow
variable {I S V : Type}

/-- `holes: [Option<NonZeroU8>; 2]`: indices plus one, smaller first, `None` first.  src/tree/node.rs:470-496 -/
abbrev HoleArr := Option Nat × Option Nat

/-- The values of a node whose destructor runs.  src/tree/node.rs:1853-1885, 1946-1951 -/
def dropVals (hol : HoleArr) (vals : List S) : R (List S) :=
  match hol with
  | (none, none) => pure vals
  | (none, some h) => do
    weakAssert (h - 1 < vals.length) "do_drop: hole in bounds"
    pure (vals.take (h - 1) ++ vals.drop h)
  | (some _, none) => .error (.ub "invalid state for Leaf holes")
  | (some hx, some hy) => do
    weakAssert (hx - 1 < hy - 1) "do_drop: holes in order"
    weakAssert (hy - 1 < vals.length) "do_drop: hole in bounds"
    pure (vals.take (hx - 1) ++ (vals.take (hy - 1)).drop hx ++ vals.drop hy)

/-- What a drop destroyed, in order: values whose destructor ran, nodes that were freed.  src/tree/node.rs:1846-1957 -/
structure Gone (S : Type) where
  vals : List S
  nodes : List Nat

/-- The children of a node, one after another.  src/tree/node.rs:1913-1930 -/
def dropKids (f : Heap I S → Nat → R (Heap I S × Gone S)) : Heap I S → List Nat → R (Heap I S × Gone S)
  | H, [] => pure (H, ⟨[], []⟩)
  | H, q :: qs => do
    let (H, g) ← f H q
    let (H, g') ← dropKids f H qs
    pure (H, ⟨g.vals ++ g'.vals, g.nodes ++ g'.nodes⟩)

/-- `dropRef` (`Verif/Cow.lean`), recording what is destroyed: first the values, then the node, then the children.  `hol` are the holes of
each node.  src/tree/node.rs:1586-1600, 1846-1951 -/
def dropLog (hol : Nat → HoleArr) : (h : Nat) → Heap I S → Nat → R (Heap I S × Gone S)
  | 0, H, p => do
    let nd ← H.get p
    if nd.count = 1 then do
      let vs ← dropVals (hol p) (nd.keys.map (·.slice))
      pure (H.free p, ⟨vs, [p]⟩)
    else do
      let c ← usub nd.count 1
      pure (H.put p { nd with count := c }, ⟨[], []⟩)
  | h + 1, H, p => do
    let nd ← H.get p
    if nd.count = 1 then do
      let vs ← dropVals (hol p) (nd.keys.map (·.slice))
      let (H, g) ← dropKids (dropLog hol h) (H.free p) nd.kids
      pure (H, ⟨vs ++ g.vals, p :: g.nodes⟩)
    else do
      let c ← usub nd.count 1
      pure (H.put p { nd with count := c }, ⟨[], []⟩)

/-- `drop`; src/tree/mod.rs:245-294 -/
def St.dropLog (hol : Nat → HoleArr) (st : St I S) (i : Nat) : R (St I S × Gone S) := do
  match ← st.tree i with
  | none => pure (st.setTree i none, ⟨[], []⟩)
  | some r => do
    let (H, g) ← Cow.dropLog hol r.h st.heap r.p
    pure ({ st with heap := H }.setTree i none, g)

/-- No holes.  src/tree/node.rs:435-575 -/
def noHoles : Nat → HoleArr := fun _ => (none, none)

/-! ## Values that are taken and put back -/

/-- A place for a value: `MaybeUninit<S>`.  `moved` after the value was read out by `assume_init_read`; the bits are still there.
src/tree/node.rs:435-575 (`vals`) -/
inductive Slot (V : Type) where
  | init (v : V)
  | moved
  deriving DecidableEq, Repr

/-- Memory whose nodes may have holes.  src/tree/node.rs:435-575 -/
structure HSt (I V : Type) where
  heap : Heap I (Slot V)
  hol : Nat → HoleArr

/-- A computation that changes memory; the changes are kept if it panics.  Unwinding, no counterpart in the code (of
src/tree/node.rs:3085-3093 and others) -/
def HM (I V α : Type) := HSt I V → HSt I V × R α

namespace HM

/-- Return; see `HM` (src/tree/node.rs:3085-3093). -/
def pure {α : Type} (a : α) : HM I V α := fun s => (s, .ok a)

/-- Panic; see `HM` (src/tree/node.rs:3085-3093). -/
def fail {α : Type} (f : Fault) : HM I V α := fun s => (s, .error f)

/-- One after the other; see `HM` (src/tree/node.rs:3085-3093). -/
def bind {α β : Type} (m : HM I V α) (f : α → HM I V β) : HM I V β := fun s =>
  match m s with
  | (s, .ok a) => f a s
  | (s, .error e) => (s, .error e)

/-- See `HM` (src/tree/node.rs:3085-3093). -/
instance : Monad (HM I V) where
  pure := HM.pure
  bind := HM.bind

end HM

/-- The panic of user code, in the functions of src/public_traits.rs:48-90 -/
def userPanic : Fault := .panic "user code"

/-- `Slice`, with functions that may panic (`none`): `try_join` then has consumed both slices, `split_at` its slice.  src/public_traits.rs:48-90 -/
structure UserOps (I V : Type) where
  mayJoin : Bool
  tryJoin : V → V → Option (V ⊕ V × V)
  splitAt : V → I → Option (V × V)

/-- `try_join`; src/public_traits.rs:87-90. -/
def UserOps.join (u : UserOps I V) (a b : V) : HM I V (V ⊕ V × V) :=
  match u.tryJoin a b with
  | some r => HM.pure r
  | none => HM.fail userPanic

/-- `split_at`; src/public_traits.rs:70. -/
def UserOps.split (u : UserOps I V) (a : V) (i : I) : HM I V (V × V) :=
  match u.splitAt a i with
  | some r => HM.pure r
  | none => HM.fail userPanic

/-- The new holes when the value at index `k` is taken.  src/tree/node.rs:3017-3034 -/
def takeHoles (hol : HoleArr) (k : Nat) : R HoleArr :=
  match hol with
  | (none, none) => .ok (none, some (k + 1))
  | (none, some h) =>
    if h < k + 1 then .ok (some h, some (k + 1))
    else if k + 1 < h then .ok (some (k + 1), some h)
    else .error (.panic "cannot take slice: it is currently a hole")
  | (some _, none) => .error (.ub "take_value_and_leave_hole")
  | (some hx, some hy) =>
    if hx = k + 1 ∨ hy = k + 1 then .error (.panic "cannot take slice: it is currently a hole")
    else .error (.panic "cannot take slice: already at capacity for holes")

/-- The new holes when the value at index `k` is put back.  src/tree/node.rs:3062-3070 -/
def fillHoles (hol : HoleArr) (k : Nat) : R HoleArr :=
  if hol.2 = some (k + 1) then .ok (none, hol.1)
  else if hol.1 = some (k + 1) then .ok (none, hol.2)
  else .error (.panic "cannot put slice back: no hole at index")

/-- Write a place of a node.  src/tree/node.rs:3014-3083 -/
def HSt.write (s : HSt I V) (p : Nat) (nd : HNode I (Slot V)) (k : Nat) (key : Key I (Slot V)) (v : Slot V) (hol : HoleArr) : HSt I V :=
  ⟨s.heap.put p { nd with keys := nd.keys.set k { key with slice := v } }, fun q => if q = p then hol else s.hol q⟩

/-- `take_value_and_leave_hole`; src/tree/node.rs:3014-3048.  A handle is the address of a node and the index of a key. -/
def takeValue (hd : Nat × Nat) : HM I V V := fun s =>
  match s.heap.mem hd.1 with
  | none => (s, .error (.ub "access to a freed node"))
  | some nd =>
    match nd.keys[hd.2]? with
    | none => (s, .error (.ub "slice handle index"))
    | some key =>
      match takeHoles (s.hol hd.1) hd.2 with
      | .error e => (s, .error e)
      | .ok hol =>
        match key.slice with
        | .moved => (s, .error (.ub "read of a value that was moved out"))
        | .init v => (s.write hd.1 nd hd.2 key .moved hol, .ok v)

/-- `fill_hole`; src/tree/node.rs:3057-3079 -/
def fillHole (hd : Nat × Nat) (v : V) : HM I V Unit := fun s =>
  match s.heap.mem hd.1 with
  | none => (s, .error (.ub "access to a freed node"))
  | some nd =>
    match nd.keys[hd.2]? with
    | none => (s, .error (.ub "slice handle index"))
    | some key =>
      match fillHoles (s.hol hd.1) hd.2 with
      | .error e => (s, .error e)
      | .ok hol => (s.write hd.1 nd hd.2 key (.init v) hol, .ok ())

/-- `with_slice` with `split_at`; src/tree/node.rs:3085-3090, src/tree/insert.rs:540 -/
def withSplit (u : UserOps I V) (hd : Nat × Nat) (pos : I) : HM I V V := do
  let v ← takeValue hd
  let (l, r) ← u.split v pos
  fillHole hd l
  HM.pure r

/-- The part of `do_insert_full_edge_try_join` that runs user code; src/tree/insert.rs:687-807.  `none` if the slice was joined, otherwise
the slice that is still to be inserted. -/
def edgePhase (u : UserOps I V) (lhs rhs : Option (Nat × Nat)) (slice : V) : HM I V (Option V) :=
  if !u.mayJoin then HM.pure (some slice)
  else
    match lhs, rhs with
    | none, none => HM.fail (.unreachable "edges have at least one key on either side")
    | some l, none => do
      let ls ← takeValue l
      match ← u.join ls slice with
      | .inl new => do
        fillHole l new
        HM.pure none
      | .inr (ls, s) => do
        fillHole l ls
        HM.pure (some s)
    | none, some r => do
      let rs ← takeValue r
      match ← u.join slice rs with
      | .inl new => do
        fillHole r new
        HM.pure none
      | .inr (s, rs) => do
        fillHole r rs
        HM.pure (some s)
    | some l, some r => do
      let ls ← takeValue l
      match ← u.join ls slice with
      | .inl mid => do
        let rs ← takeValue r
        match ← u.join mid rs with
        | .inl new => do
          fillHole l new
          HM.fail (.todo "handle_join_deletion")
        | .inr (mid, rs) => do
          fillHole r rs
          fillHole l mid
          HM.pure none
      | .inr (ls, s) => do
        fillHole l ls
        let rs ← takeValue r
        match ← u.join s rs with
        | .inl new => do
          fillHole r new
          HM.pure none
        | .inr (s, rs) => do
          fillHole r rs
          HM.pure (some s)

/-- The part of `do_insert_full_split_key` that runs user code; src/tree/insert.rs:538-652.  The slices to be inserted right of the key. -/
def splitPhase (u : UserOps I V) (hd : Nat × Nat) (pos : I) (slice : V) : HM I V (List V) := do
  let rhs ← withSplit u hd pos
  if !u.mayJoin then HM.pure [slice, rhs]
  else do
    let ls ← takeValue hd
    match ← u.join ls slice with
    | .inl mid => do
      match ← u.join mid rhs with
      | .inl new => do
        fillHole hd new
        HM.pure []
      | .inr (l, r) => do
        fillHole hd l
        HM.pure [r]
    | .inr (l, s) => do
      fillHole hd l
      match ← u.join s rhs with
      | .inl new => HM.pure [new]
      | .inr (s, r) => HM.pure [s, r]

/-! ## Other operations on nodes with holes -/

/-- `Leaf::has_holes`; src/tree/node.rs:2712-2717 -/
def hasHoles (hol : HoleArr) : Bool := hol.2.isSome

/-- `Leaf::is_hole`; src/tree/node.rs:2724-2743.  `hole_y` is read from `holes[0]`, as in the code. -/
def isHole (hol : HoleArr) (k : Nat) : Bool :=
  let hole_x := hol.1.getD 0
  let hole_y := hol.1.getD 0
  k + 1 = hole_x || k + 1 = hole_y

/-- `into_ref` and `borrow_slice`; src/tree/node.rs:2983-2997, 3106-3124.  The place that the returned reference points to. -/
def readSlot (s : HSt I V) (hd : Nat × Nat) : R (Slot V) := do
  let nd ← s.heap.get hd.1
  if isHole (s.hol hd.1) hd.2 then .error (.panic "invalid state")
  else
    match nd.keys[hd.2]? with
    | none => .error (.ub "slice handle index")
    | some key => pure key.slice

/-- `insert_key` on the places of a node: they are shifted, the holes stay as they are.  src/tree/node.rs:2152-2208 (for internal nodes:
2453-2535) -/
def insertSlot (s : HSt I V) (p k : Nat) (pos : I) (v : V) : R (HSt I V) := do
  let nd ← s.heap.get p
  weakAssert (k ≤ nd.keys.length) "insert_key"
  pure ⟨s.heap.put p { nd with keys := nd.keys.take k ++ ⟨pos, .init v, none⟩ :: nd.keys.drop k }, s.hol⟩

end Sherman.Cow
