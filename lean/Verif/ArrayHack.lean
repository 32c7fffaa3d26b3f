import Verif.Tree

/-!
# The arrays inside of nodes

`Node` (`Verif/Tree.lean`) has lists of keys and children.  The code stores them in arrays whose lengths, `2 * M` and
`2 * M + 1`, cannot be written in Rust's types: `const_math_hack.rs` builds types from pairs and arrays of arrays and
then treats a pointer to them as a pointer to the first element.  This file models these types with the layout that
`repr(C)` prescribes, the pointers, and the operations of nodes on partly initialised arrays.
-/
namespace Sherman
namespace Hack

/-- The types that implement `ArrayHack`: `[T; N]`, `Add<L, R>`, `Mul<A, M>`, for one type `T` of elements.
src/const_math_hack.rs:13-26, 148-165 -/
inductive Shape where
  | arr (n : Nat)
  | add (l r : Shape)
  | mul (a : Shape) (m : Nat)

/-- `ArrayHack::LEN`; src/const_math_hack.rs:148-165 -/
def Shape.len : Shape → Nat
  | .arr n => n
  | .add l r => l.len + r.len
  | .mul a m => a.len * m

/-- `KeyArray<T, M>`; src/tree/node.rs:697 -/
def keyArray (M : Nat) : Shape := .mul (.arr 2) M

/-- `ChildArray<T, M>`; src/tree/node.rs:705 -/
def childArray (M : Nat) : Shape := .add (.mul (.arr 2) M) (.arr 1)

/-- The first multiple of `al` that is not below `x`: how `repr(C)` places a field, src/const_math_hack.rs:15, 23 -/
def roundUp (x al : Nat) : Nat := (x + al - 1) / al * al

/-- Size and alignment of a type and the offsets of its elements, as the reference of Rust prescribes for arrays and for
`repr(C)`: the elements of an array follow each other at a distance of their size; each field of a structure starts at the
next offset that its alignment permits; the size of a structure is rounded up to the largest alignment.  `sz`, `al`: size
and alignment of an element.  src/const_math_hack.rs:13-26 -/
structure Layout where
  size : Nat
  align : Nat
  places : List Nat

/-- The layout of an array of `m` values of layout `l`; src/const_math_hack.rs:25 (`[A; M]`) -/
def Layout.array (l : Layout) (m : Nat) : Layout where
  size := m * l.size
  align := l.align
  places := (List.range m).flatMap fun i => l.places.map (i * l.size + ·)

/-- The layout of a `repr(C)` structure with two fields; src/const_math_hack.rs:15-19 -/
def Layout.pair (l r : Layout) : Layout where
  size := roundUp (roundUp l.size r.align + r.size) (max l.align r.align)
  align := max l.align r.align
  places := l.places ++ r.places.map (roundUp l.size r.align + ·)

/-- The layout of a `repr(C)` structure with one field; src/const_math_hack.rs:23-26 -/
def Layout.single (l : Layout) : Layout where
  size := roundUp l.size l.align
  align := l.align
  places := l.places

/-- The layout of the array types; src/const_math_hack.rs:13-26 -/
def Shape.layout (sz al : Nat) : Shape → Layout
  | .arr n => Layout.array ⟨sz, al, [0]⟩ n
  | .add l r => Layout.pair (l.layout sz al) (r.layout sz al)
  | .mul a m => Layout.single (Layout.array (a.layout sz al) m)

/-- The layout of `Internal`, a `repr(C)` structure of a `Leaf` and the array of children, which are pointers of size `sz` and
alignment `al`.  The layout of `Leaf` is up to the compiler.  src/tree/node.rs:575-592 -/
def internalLayout (leaf : Layout) (sz al M : Nat) : Layout := Layout.pair leaf ((childArray M).layout sz al)

/-- What the code must know about the machine: the largest `isize` and the number of addresses.
src/const_math_hack.rs:78-85 -/
structure Machine where
  isizeMax : Nat
  addrs : Nat

/-- `pointer::add`: undefined if the offset does not fit `isize` or the result is not within the object `[this, this + size]`;
`wrapping_add` never is.  The product `LEN * size_of` is arithmetic of `usize` and can overflow.
`get_ptr_unchecked`, `get_mut_ptr_unchecked`; src/const_math_hack.rs:66-107 -/
def Shape.getPtr (m : Machine) (sz al : Nat) (s : Shape) (this idx : Nat) : R Nat := do
  weakAssert (idx ≤ s.len) "get_ptr_unchecked"
  if m.addrs ≤ s.len * sz then .error .overflow
  else if s.len * sz < m.isizeMax then
    weakAssert (idx * sz ≤ m.isizeMax) "pointer::add: isize"
    weakAssert (this + idx * sz ≤ this + (s.layout sz al).size) "pointer::add: bounds"
    pure (this + idx * sz)
  else pure ((this + idx * sz) % m.addrs)

/-! ## The layout is that of an array -/

theorem roundUp_of_dvd {x al : Nat} (ha : 0 < al) (h : al ∣ x) : roundUp x al = x := by
  obtain ⟨k, rfl⟩ := h
  unfold roundUp
  have : (al * k + al - 1) / al = k := by
    rw [Nat.add_sub_assoc ha, Nat.mul_add_div ha]
    rw [Nat.div_eq_of_lt (by omega)]; rfl
  rw [this, Nat.mul_comm]

/-- Offsets of an array of `n` elements; specification of src/const_math_hack.rs:30-33 -/
def line (sz n : Nat) : List Nat := (List.range n).map (· * sz)

theorem line_zero (sz) : line sz 0 = [] := rfl

theorem line_add (sz a b : Nat) : line sz (a + b) = line sz a ++ (line sz b).map (a * sz + ·) := by
  unfold line
  rw [List.range_add, List.map_append, List.map_map, List.map_map]
  congr 1
  apply List.map_congr_left
  intro i _
  simp [Nat.add_mul]

theorem flatMap_line (sz n m : Nat) :
    ((List.range m).flatMap fun i => (line sz n).map (i * (n * sz) + ·)) = line sz (n * m) := by
  induction m with
  | zero => simp [line]
  | succ m ih =>
    rw [List.range_succ, List.flatMap_append, ih, Nat.mul_succ, line_add]
    simp [Nat.mul_comm, Nat.mul_left_comm]

/-- Whatever is built from `Add` and `Mul` is laid out as one array of `LEN` elements. -/
theorem layout_line {sz al : Nat} (ha : 0 < al) (hd : al ∣ sz) (s : Shape) :
    s.layout sz al = ⟨s.len * sz, al, line sz s.len⟩ := by
  induction s with
  | arr n =>
    have := flatMap_line sz 1 n
    simp only [line, List.range_one, List.map_cons, List.map_nil, Nat.zero_mul, Nat.one_mul] at this
    simp only [Shape.layout, Layout.array, Shape.len, Layout.mk.injEq, true_and]
    exact this
  | add l r ihl ihr =>
    have hl : al ∣ l.len * sz := Nat.dvd_trans hd (Nat.dvd_mul_left _ _)
    have hlr : al ∣ l.len * sz + r.len * sz := (Nat.dvd_add_iff_right hl).1 (Nat.dvd_trans hd (Nat.dvd_mul_left _ _))
    simp only [Shape.layout, Layout.pair, ihl, ihr, Nat.max_self, Shape.len, roundUp_of_dvd ha hl, roundUp_of_dvd ha hlr,
      Nat.add_mul, line_add]
  | mul a m ih =>
    have h : al ∣ m * (a.len * sz) := Nat.dvd_trans hd (Nat.dvd_trans (Nat.dvd_mul_left _ _) (Nat.dvd_mul_left _ _))
    simp only [Shape.layout, Layout.single, Layout.array, ih, Shape.len, roundUp_of_dvd ha h, flatMap_line, Layout.mk.injEq,
      and_true]
    rw [Nat.mul_comm m, Nat.mul_assoc, Nat.mul_assoc, Nat.mul_comm sz]

/-! ## Partly initialised arrays -/

/-- An array of `MaybeUninit`: `none` for what is not initialised.  src/tree/node.rs:541, 549, 572, 591 -/
abbrev Slots (α : Type) := List (Option α)

/-- `KeyArray::new`, `ChildArray::new`; src/tree/node.rs:726-744 -/
def fresh {α : Type} (s : Shape) : Slots α := List.replicate s.len none

/-- `get_mut_unchecked(idx).write(val)`; src/const_math_hack.rs:121-131 -/
def Slots.write {α : Type} (a : Slots α) (idx : Nat) (x : α) : R (Slots α) := do
  weakAssert (idx < a.length) "get_mut_unchecked"
  pure (a.set idx (some x))

/-- `get_unchecked(idx).assume_init_read()`; src/const_math_hack.rs:109-119, src/tree/node.rs:1453-1462 -/
def Slots.read {α : Type} (a : Slots α) (idx : Nat) : R α :=
  match a[idx]? with
  | some (some x) => .ok x
  | _ => .error (.ub "assume_init_read")

/-- `ptr::copy(src + from, dst + to, len)`, the destination after copying; all places must be in bounds.
src/tree/node.rs:1428-1430, 1536, 2684 -/
def Slots.copy {α : Type} (src : Slots α) (from_ : Nat) (dst : Slots α) (to len : Nat) : R (Slots α) := do
  weakAssert (from_ + len ≤ src.length) "ptr::copy: source"
  weakAssert (to + len ≤ dst.length) "ptr::copy: destination"
  pure (dst.take to ++ (src.drop from_).take len ++ dst.drop (to + len))

/-- `shift(slice, start, end)`; src/tree/node.rs:2661-2687 -/
def Slots.shift {α : Type} (a : Slots α) (start end_ : Nat) : R (Slots α) := do
  weakAssert (start ≤ end_) "shift: start <= end"
  weakAssert (end_ < a.length) "shift: end < LEN"
  if start = end_ then pure a else a.copy start a (start + 1) (end_ - start)

/-- The arrays of an internal node and the number of its keys; src/tree/node.rs:435-592 -/
structure Raw (I S C : Type) where
  len : Nat
  keys : Slots I
  vals : Slots S
  refs : Slots (Option Nat)
  kids : Slots C

/-- A node with uninitialised arrays; src/tree/node.rs:1388-1398 -/
def Raw.new (I S C : Type) (M : Nat) : Raw I S C := ⟨0, fresh (keyArray M), fresh (keyArray M), fresh (keyArray M), fresh (childArray M)⟩

/-- `insert_key_and_child`: what happens to the arrays.  The position is that of the next key and is given here.
src/tree/node.rs:2453-2509 -/
def Raw.insertKeyAndChild {I S C : Type} (a : Raw I S C) (ki : Nat) (pos : I) (slice : S) (ref : Option Nat) (c : C) :
    R (Raw I S C) := do
  let keys ← a.keys.shift ki a.len
  let vals ← a.vals.shift ki a.len
  let refs ← a.refs.shift ki a.len
  let kids ← a.kids.shift (ki + 1) (a.len + 1)
  let keys ← keys.write ki pos
  let vals ← vals.write ki slice
  let refs ← refs.write ki ref
  let kids ← kids.write (ki + 1) c
  pure ⟨a.len + 1, keys, vals, refs, kids⟩

/-- `push_key_and_child`: what happens to the arrays.  src/tree/node.rs:2361-2435 -/
def Raw.pushKeyAndChild {I S C : Type} (a : Raw I S C) (pos : I) (slice : S) (ref : Option Nat) (c : C) : R (Raw I S C) := do
  let keys ← a.keys.write a.len pos
  let vals ← a.vals.write a.len slice
  let refs ← a.refs.write a.len ref
  let kids ← a.kids.write (a.len + 1) c
  pure ⟨a.len + 1, keys, vals, refs, kids⟩

/-- `insert_key` on a leaf, which has no array of children (`kids` is not touched): what happens to the arrays.  src/tree/node.rs:2152-2193 -/
def Raw.insertKey {I S C : Type} (a : Raw I S C) (ki : Nat) (pos : I) (slice : S) (ref : Option Nat) : R (Raw I S C) := do
  let keys ← a.keys.shift ki a.len
  let vals ← a.vals.shift ki a.len
  let refs ← a.refs.shift ki a.len
  let keys ← keys.write ki pos
  let vals ← vals.write ki slice
  let refs ← refs.write ki ref
  pure { a with len := a.len + 1, keys := keys, vals := vals, refs := refs }

/-- `push_key` on a leaf: what happens to the arrays.  src/tree/node.rs:2223-2272 -/
def Raw.pushKey {I S C : Type} (a : Raw I S C) (pos : I) (slice : S) (ref : Option Nat) : R (Raw I S C) := do
  let keys ← a.keys.write a.len pos
  let vals ← a.vals.write a.len slice
  let refs ← a.refs.write a.len ref
  pure { a with len := a.len + 1, keys := keys, vals := vals, refs := refs }

/-- `replace_first_child`: what happens to the arrays.  src/tree/node.rs:2308-2348 -/
def Raw.replaceFirstChild {I S C : Type} (a : Raw I S C) (c : C) : R (Raw I S C × C) := do
  let old ← a.kids.read 0
  let kids ← a.kids.write 0 c
  pure ({ a with kids := kids }, old)

/-- The arrays of the node that `make_new_parent` makes; its `as_mut_slice()[i]` are checked accesses, which would panic.
src/tree/node.rs:1715-1745 -/
def Raw.newParent {I S C : Type} (M : Nat) (pos : I) (slice : S) (ref : Option Nat) (lhs rhs : C) : R (Raw I S C) := do
  let new := Raw.new I S C M
  check (0 < new.keys.length) "index out of bounds"
  check (1 < new.kids.length) "index out of bounds"
  let keys ← new.keys.write 0 pos
  let vals ← new.vals.write 0 slice
  let refs ← new.refs.write 0 ref
  let kids ← new.kids.write 0 lhs
  let kids ← kids.write 1 rhs
  pure ⟨1, keys, vals, refs, kids⟩

/-- `split`: what happens to the arrays.  Returns what remains, the key and the new node.  `copy_len` is arithmetic of
`usize`.  src/tree/node.rs:1379-1536 -/
def Raw.split {I S C : Type} (M : Nat) (a : Raw I S C) (mid : Nat) : R (Raw I S C × Key I S × Raw I S C) := do
  let srcStart := mid + 1
  if a.len < srcStart then .error .underflow else
  let copyLen := a.len - srcStart
  let new := Raw.new I S C M
  let keys ← a.keys.copy srcStart new.keys 0 copyLen
  let vals ← a.vals.copy srcStart new.vals 0 copyLen
  let refs ← a.refs.copy srcStart new.refs 0 copyLen
  let pos ← a.keys.read mid
  let slice ← a.vals.read mid
  let ref ← a.refs.read mid
  let kids ← a.kids.copy srcStart new.kids 0 (copyLen + 1)
  pure ({ a with len := mid }, ⟨pos, slice, ref⟩, ⟨copyLen, keys, vals, refs, kids⟩)

/-- `split` of a leaf: what happens to the arrays.  src/tree/node.rs:1379-1500 -/
def Raw.splitLeaf {I S C : Type} (M : Nat) (a : Raw I S C) (mid : Nat) : R (Raw I S C × Key I S × Raw I S C) := do
  let srcStart := mid + 1
  if a.len < srcStart then .error .underflow else
  let copyLen := a.len - srcStart
  let new := Raw.new I S C M
  let keys ← a.keys.copy srcStart new.keys 0 copyLen
  let vals ← a.vals.copy srcStart new.vals 0 copyLen
  let refs ← a.refs.copy srcStart new.refs 0 copyLen
  let pos ← a.keys.read mid
  let slice ← a.vals.read mid
  let ref ← a.refs.read mid
  pure ({ a with len := mid }, ⟨pos, slice, ref⟩, { new with len := copyLen, keys := keys, vals := vals, refs := refs })

/-- The closure of `map_array_with_index` in `deep_clone`: which of the pointers are kept.  `i as u8` wraps.
src/tree/node.rs:1178-1185 -/
def cloneKids {C : Type} (len : Nat) (a : Slots C) : R (Slots C) :=
  (a.zipIdx).mapM fun (x, i) =>
    if i % 256 ≤ len then
      match x with
      | some c => pure (some c)
      | none => .error (.ub "assume_init")
    else pure none

/-! ## `map_array` -/

/-- A `GradualUninitArray` and a `GradualInitArray` in the middle of `map_array_with_index`: the elements of the first
with `next`, the second with its elements, what was handed to the closure, and what was destroyed.
src/const_math_hack.rs:181-191, 211-215, 327-331 -/
structure Mapping (α β : Type) where
  source : List α
  next : Nat := 0
  init : List β := []
  given : List α := []
  droppedSource : List α := []
  droppedInit : List β := []

/-- What `map_array_with_index` returns: the new array, or a panic of the closure.  src/const_math_hack.rs:181-191 -/
inductive Mapped (β : Type) where
  | done (l : List β)
  | panicked

/-- The destructors of the two helpers, when a panic of the closure unwinds: `init` from 0 to its length, `uninit` from
`next` on.  src/const_math_hack.rs:316-324, 369-377 -/
def Mapping.unwind {α β : Type} (m : Mapping α β) : Mapping α β :=
  { m with droppedInit := m.init, droppedSource := m.source.drop m.next }

/-- `map_array_with_index`: takes an element (`next` counts before the element is read), calls the closure (`none` if it
panics; the element has been moved to it), pushes the result; `k` turns of the loop are left.  At the end `uninit` is
forgotten and `init` handed out.  src/const_math_hack.rs:181-191, 246-254, 301-313, 362-366 -/
def Mapping.loop {α β : Type} (LEN : Nat) (f : Nat → α → Option β) : Nat → Mapping α β → R (Mapped β × Mapping α β)
  | 0, m => do
    weakAssert (m.init.length = LEN) "into_init_unchecked"
    pure (.done m.init, m)
  | k + 1, m => do
    let idx := m.next
    let m := { m with next := idx + 1 }
    match m.source[idx]? with
    | none => .error (.ub "take_unchecked")
    | some x =>
      let m := { m with given := m.given ++ [x] }
      match f (LEN - (k + 1)) x with
      | none => pure (.panicked, m.unwind)
      | some y => do
        weakAssert (m.init.length < LEN) "push_unchecked"
        Mapping.loop LEN f k { m with init := m.init ++ [y] }

/-- `map_array_with_index` on an array of `LEN` elements; src/const_math_hack.rs:181-191 -/
def mapArray {α β : Type} (f : Nat → α → Option β) (xs : List α) : R (Mapped β × Mapping α β) :=
  Mapping.loop xs.length f xs.length { source := xs }

end Hack
end Sherman
