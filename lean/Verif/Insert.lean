import Verif.Search
/-!
# Insertion (src/tree/insert.rs, src/tree/fix.rs)
-/
namespace Sherman
variable {I S : Type}

/-- `Side`; src/tree/mod.rs:809-815.  `side as u8` is 0 or 1. -/
inductive Side where
  | left
  | right
  deriving DecidableEq, Repr

/-- `side as u8`; src/tree/mod.rs:811-814 -/
def Side.toNat : Side → Nat
  | .left => 0
  | .right => 1

/-- `SliceSize`; src/tree/mod.rs:817-820 -/
structure Sized (I S : Type) where
  slice : S
  size : I
  deriving DecidableEq, Repr

/-- `BubbleLhs`; src/tree/insert.rs:1889-1894 -/
structure Shift (I : Type) where
  pos : I
  oldSize : I
  newSize : I
  deriving DecidableEq, Repr

/-- Which updates callback is in force: `skip` for `TraverseUpdate::skip_insertions`
(src/tree/fix.rs:396-403), `remap` for the wrapper of `insert_rhs` (src/tree/insert.rs:1118-1140). -/
structure Cb where
  skip : Bool
  remap : Bool
  deriving DecidableEq, Repr

/-- The wrapper of `insert_rhs` that follows where `fst` is; src/tree/insert.rs:1119-1136.  The index subtraction of
line 1128 is written as in the code (`old_range.start - fst_idx`). -/
def emitFst (cb : Cb) (ev : Ev) (w : World) : R World :=
  if cb.remap then
    match ev, w.fst with
    | .insertion p i, none => pure { w with fst := some (p, i) }
    | .move op lo hi np nlo, some (fp, fi) =>
      if op = fp ∧ lo ≤ fi ∧ fi < hi then do
        let d ← usub lo fi
        pure { w with fst := some (np, nlo + d) }
      else pure w
    | _, _ => pure w
  else pure w

/-- The callback given to the insertion; `skip_insertions` drops insertions.  src/tree/fix.rs:396-403 -/
def emitRec (cb : Cb) (ev : Ev) (w : World) : World :=
  match cb.skip, ev with
  | true, .insertion _ _ => w
  | _, _ => { w with events := w.events ++ [ev] }

/-- `updates_callback(upd)`.  src/tree/insert.rs:1118-1140 -/
def emit (cb : Cb) (ev : Ev) (w : World) : R World := do
  let w ← emitFst cb ev w
  pure (emitRec cb ev w)

/-- The maps that `insert_rhs` installs (src/tree/insert.rs:1039-1180).  `sizes` tells whether
`map_sizes`/`map_shift_lhs` are present, `cursor` whether `map_cursor`/`map_cursor_side` are. -/
structure Maps (I : Type) where
  sizes : Bool
  cursor : Bool
  lhsHeight : Nat
  lhsK : Nat
  lhsPos : I
  oldLhs : I
  newLhs : I
  deriving DecidableEq, Repr

/-- `MapBubbledInsertState::identity()` / `OpUpdateState::identity()`; src/tree/insert.rs:2372-2381, src/tree/fix.rs:101-108 -/
def Maps.identity (ix : IdxOps I) : Maps I := ⟨false, false, 0, 0, ix.zero, ix.zero, ix.zero⟩

/-- `child_or_key` of `OpUpdateState`, without the node.  src/tree/fix.rs:411-464 -/
inductive COK where
  | child (c : Nat)
  | key (k : Nat)
  deriving DecidableEq, Repr

/-- `override_pos`, or the position of the child or key computed from the node.
src/tree/fix.rs:526-547 (and src/tree/insert.rs:1070-1081, same computation) -/
def opPos {C : Type} (ix : IdxOps I) (n : Node I S C) (cok : COK) (ov : Option I) (old : I) : R I :=
  match ov, cok with
  | some p, _ => pure p
  | none, .key k => n.keyPos k
  | none, .child c => ix.subL (n.nextPos c) old

/-- `map_sizes` of `insert_rhs`; src/tree/insert.rs:1061-1110.  `height` is the node's height. -/
def mapSizes {C : Type} (ix : IdxOps I) (m : Maps I) (handled : Bool) (height : Nat)
    (n : Node I S C) (cok : COK) (ov : Option I) (old new : I) :
    R (Node I S C × Option I × I × I) := do
  if !m.sizes || height != m.lhsHeight || handled then pure (n, ov, old, new)
  else
    let oldEnd ← ix.addR m.lhsPos m.oldLhs
    let newEnd ← ix.addR m.lhsPos m.newLhs
    let pos ← opPos ix n cok ov old
    let diff ← ix.subL pos oldEnd
    let old ← ix.addL old diff
    let old ← ix.addL old m.oldLhs
    let new ← ix.addL new diff
    let new ← ix.addL new m.newLhs
    match cok with
    | .child _ => pure (n, some m.lhsPos, old, new)
    | .key _ => do
      let p ← n.keyPos (m.lhsK + 1)
      let p ← ix.subL p oldEnd
      let p ← ix.addL p newEnd
      let n ← n.setKeyPos (m.lhsK + 1) p
      pure (n, some m.lhsPos, old, new)

/-- `map_cursor` of `insert_rhs`: reset at the height of the left-hand key.
src/tree/insert.rs:1142-1146 -/
def mapCursor (m : Maps I) (height : Nat) (path : List Nat) : List Nat :=
  if m.cursor && height == m.lhsHeight then [] else path

/-- `OpUpdateState::map` followed by `do_upward_step` at one node: new node, its old size.
src/tree/fix.rs:110-134, 522-563 -/
def opStep {C : Type} (ix : IdxOps I) (m : Maps I) (handled : Bool) (height : Nat)
    (n : Node I S C) (cok : COK) (ov : Option I) (old new : I) : R (Node I S C × I) := do
  let (n, ov, old, new) ← mapSizes ix m handled height n cok ov old new
  let pos ← opPos ix n cok ov old
  let start := match cok with
    | .child c => c
    | .key k => k + 1
  let n' ← n.shiftKeysAuto ix start pos old new
  pure (n', n.size)

/-- The loop of `OpUpdateState::finish` from the first parent upwards.  `t` has just changed its size
from `old` to `new`.  src/tree/fix.rs:497-586.  `path` is the cursor being built. -/
def opUp {H : Nat} (ix : IdxOps I) (m : Maps I) (handled : Bool) : {h : Nat} → Ctx I S H h →
    Tree I S h → I → I → List Nat → R (Tree I S H × List Nat)
  | _, .top, t, _, _, path => pure (t, path)
  | h, .frame ptr size keys kl kr up, t, old, new, path => do
    let n := plugNode ptr size keys kl t kr
    let path := mapCursor m h path
    let (n', oldN) ← opStep ix m handled h n (.child kl.length) none old new
    opUp ix m handled (h := h + 1) up n' oldN n'.size (kl.length :: path)

/-- `OpUpdateState::finish` starting at a key of `n`.  src/tree/fix.rs:497-586 -/
def opKey {H h : Nat} (ix : IdxOps I) (m : Maps I) (handled : Bool) (ctx : Ctx I S H (h + 1))
    (n : Tree I S (h + 1)) (k : Nat) (ov : Option I) (old new : I) (path : List Nat) :
    R (Tree I S H × List Nat) := do
  let path := mapCursor m h path
  let (n', oldN) ← opStep ix m handled h n (.key k) ov old new
  opUp ix m handled (h := h + 1) ctx n' oldN (Node.size n') path

/-- `BubbledInsertState` (without `lhs`'s ancestors); src/tree/insert.rs:252-302 -/
structure Bubble (I S C : Type) where
  lhs : C
  key : Key I S
  keySize : I
  rhs : C
  oldSize : I
  shift : Option (Shift I)
  side : Option Side
  inserted : Bool

/-- `if let Some(side) = cursor_side { prepend(base + side as u8) }`; src/tree/insert.rs:2018-2021, 2195-2198 -/
def prependSide (base : Nat) (side : Option Side) (path : List Nat) : List Nat :=
  match side with
  | none => path
  | some s => (base + s.toNat) :: path

/-- The update for the key that was just put into a node: `put_back` if the new slice is already in the
tree, otherwise `insert`.  src/tree/insert.rs:2004-2011, 2201-2209 -/
def emitKey {C : Type} (cb : Cb) (inserted : Bool) (n : Node I S C) (k : Nat) (w : World) :
    R World := do
  let _ ← n.handle k
  if inserted then emit cb (.putBack n.ptr k) w else emit cb (.insertion n.ptr k) w

/-- `(override_pos, old_size, new_size, lhs_child_pos)` in `do_upward_step`; `next` is the position of
the key after the child.  src/tree/insert.rs:1964-1985 -/
def roomNums (ix : IdxOps I) (shift : Option (Shift I)) (next oldSize newTotal : I) :
    R (I × I × I × I) :=
  match shift with
  | some k => do
    let o ← ix.addL oldSize k.oldSize
    let n ← ix.addL newTotal k.newSize
    let p ← ix.addR k.pos k.newSize
    pure (k.pos, o, n, p)
  | none => do
    let p ← ix.subR next oldSize
    pure (p, oldSize, newTotal, p)

/-- `(lhs_child_pos, shift_pos, old_size, new_size)` in `do_upward_step`.
src/tree/insert.rs:2153-2169 -/
def halfNums (ix : IdxOps I) (shift : Option (Shift I)) (next oldSize : I) : R (I × I × I × I) :=
  match shift with
  | none => do
    let p ← ix.subR next oldSize
    pure (p, p, ix.zero, ix.zero)
  | some s => do
    let p ← ix.addR s.pos s.newSize
    pure (p, s.pos, s.oldSize, s.newSize)

/-- `BubbledInsertState::do_upward_step` when the parent has room: the node with the key and child
inserted, and the arguments of the resulting `OpUpdateState`.  src/tree/insert.rs:1963-2036 -/
def bubbleRoom {C : Type} [HasPtr C] (E : Env I S) (cb : Cb) (sz : C → I) (parent : Node I S C) (c : Nat)
    (b : Bubble I S C) (path : List Nat) (w : World) :
    R (Node I S C × I × I × I × List Nat × World) := do
  let ix := E.ix
  let lhsSize := sz b.lhs
  let t ← ix.addR lhsSize b.keySize
  let newTotal ← ix.addR t (sz b.rhs)
  let (ovPos, old, new, lhsChildPos) ← roomNums ix b.shift (parent.nextPos c) b.oldSize newTotal
  let (parent, _, w) ← parent.insertKeyAndChild (2 * E.M) c b.key.slice b.key.ref b.rhs w
  let mid ← ix.addR lhsChildPos lhsSize
  let parent ← parent.setKeyPos c mid
  let w ← emitKey cb b.inserted parent c w
  pure (parent, ovPos, old, new, prependSide c b.side path, w)

/-- `do_upward_step`, full parent, `new_key_idx != M`, after the split: put the key into the half it
belongs to.  Returns the half and the path.  src/tree/insert.rs:2153-2209 -/
def bubbleInsertHalf {C : Type} [HasPtr C] (E : Env I S) (cb : Cb) (sz : C → I) (half : Node I S C) (c : Nat)
    (b : Bubble I S C) (shift : Option (Shift I)) (path : List Nat) (w : World) :
    R (Node I S C × List Nat × World) := do
  let ix := E.ix
  let lhsSize := sz b.lhs
  let t ← ix.addR lhsSize b.keySize
  let newTotal ← ix.addR t (sz b.rhs)
  let (lhsChildPos, shiftPos, old, new) ← halfNums ix shift (half.nextPos c) b.oldSize
  let keyPos ← ix.addR lhsChildPos lhsSize
  let old ← ix.addR old b.oldSize
  let new ← ix.addR new newTotal
  let (half, _, w) ← half.insertKeyAndChild (2 * E.M) c b.key.slice b.key.ref b.rhs w
  let half ← half.setKeyPos c keyPos
  let half ← half.shiftKeys ix true (c + 1) shiftPos old new
  let w ← emitKey cb b.inserted half c w
  pure (half, prependSide c b.side path, w)

/-- `midpoint_idx` in `do_upward_step`; src/tree/insert.rs:2050-2054 -/
def bubbleMid (M c : Nat) : R Nat := if c > M then pure M else usub M 1

/-- Position of the first key of the split-off node, or its size if `M = 1` and there is none.
src/tree/insert.rs:2071-2078 -/
def firstPos {C : Type} (M : Nat) (rhs : Node I S C) : R I :=
  match rhs.tryKeyPos 0 with
  | some p => pure p
  | none => if M > 1 then .error (.ub "bubble: rhs has no keys") else pure rhs.size

/-- Size that the first child of the split-off node had before. src/tree/insert.rs:2080-2086 -/
def firstSize {C : Type} (sz : C → I) (M c : Nat) (oldSize : I) (rhs : Node I S C) : R I :=
  if c = M ∨ c = M + 1 then pure oldSize else rhs.childSize sz 0

/-- If the key to be resized is the midpoint, take its new size and forget the shift.
src/tree/insert.rs:2121-2137 -/
def keepShift (M c : Nat) (shift : Option (Shift I)) (keySize : I) : I × Option (Shift I) :=
  match shift with
  | some s => if c = M + 1 then (s.newSize, none) else (keySize, some s)
  | none => (keySize, none)

/-- Position of the resized key relative to the split-off node. src/tree/insert.rs:2146-2148 -/
def relShift (ix : IdxOps I) (shift : Option (Shift I)) (rhsStart : I) : R (Option (Shift I)) :=
  match shift with
  | some s => do
    let p ← ix.subL s.pos rhsStart
    pure (some { s with pos := p })
  | none => pure none

/-- Size of the midpoint key when it is the key to be resized.  src/tree/insert.rs:2246-2248 -/
def midSize (shift : Option (Shift I)) (keySize : I) : I :=
  match shift with
  | some s => s.newSize
  | none => keySize

/-- Cursor component for `new_key_idx == M`. src/tree/insert.rs:2302-2317 -/
def midPath (M : Nat) (side : Option Side) (path : List Nat) : List Nat :=
  match side with
  | none => path
  | some .right => 0 :: path
  | some .left => M :: path

/-- `do_upward_step` when the parent is full: split it.  Returns the state to continue with, whose
`lhs` is the parent.  src/tree/insert.rs:2039-2329 -/
def bubbleSplit {C : Type} [HasPtr C] (E : Env I S) (cb : Cb) (sz : C → I) (parent : Node I S C) (c : Nat)
    (b : Bubble I S C) (path : List Nat) (w : World) :
    R (Bubble I S (Node I S C) × List Nat × World) := do
  let ix := E.ix
  let M := E.M
  let oldParentSize := parent.size
  let mid ← bubbleMid M c
  let (parent, key, rhs, w) ← parent.split mid w
  let parent := { parent with size := key.pos }
  let firstKeyPos ← firstPos M rhs
  let firstChildSize ← firstSize sz M c b.oldSize rhs
  let rhsStart ← ix.subR firstKeyPos firstChildSize
  let keySize ← ix.subL rhsStart key.pos
  if c ≠ M then
    let rhs ← rhs.shiftKeys ix false 0 ix.zero rhsStart ix.zero
    let (keySize, shift) := keepShift M c b.shift keySize
    if c < M then
      let (parent, path, w) ← bubbleInsertHalf E cb sz parent c b shift path w
      pure ({ lhs := parent, key := key, keySize := keySize, rhs := rhs, oldSize := oldParentSize,
              shift := none, side := some .left, inserted := true }, path, w)
    else
      let c' ← usub c (M + 1)
      let shift ← relShift ix shift rhsStart
      let (rhs, path, w) ← bubbleInsertHalf E cb sz rhs c' b shift path w
      pure ({ lhs := parent, key := key, keySize := keySize, rhs := rhs, oldSize := oldParentSize,
              shift := none, side := some .right, inserted := true }, path, w)
  else
    let keySize := midSize b.shift keySize
    let newFirst := sz b.rhs
    let (rhs, oldFirst, w) ← rhs.replaceFirstChild b.rhs w
    let t ← ix.addR parent.size keySize
    let newLhsSize ← ix.addR t (sz oldFirst)
    let (parent, w) ← parent.pushKeyAndChild (2 * M) key.slice key.ref oldFirst newLhsSize w
    let firstRhsKeyPos ← rhs.keyPos 0
    let rhs ← rhs.shiftKeysAuto ix 0 ix.zero firstRhsKeyPos newFirst
    let path := midPath M b.side path
    pure ({ lhs := parent, key := b.key, keySize := b.keySize, rhs := rhs, oldSize := oldParentSize,
            shift := none, side := b.side, inserted := b.inserted }, path, w)

/-- `PostInsertResult`; `Done` carries the whole tree, `NewRoot` the two halves of the root.
src/tree/insert.rs:308-324 -/
inductive Post (I S : Type) (H : Nat) where
  | done (t : Tree I S H)
  | newRoot (lhs : Tree I S H) (key : Key I S) (keySize : I) (rhs : Tree I S H)

/-- `map_cursor_side` of `insert_rhs`; src/tree/insert.rs:1148-1157.  `h` levels below the parent, so
the left node's height is `h - 1`. -/
def mapSide (m : Maps I) (h : Nat) (lhsPtr : Option Nat) (fst : Option (Nat × Nat))
    (side : Option Side) : Option Side :=
  if m.cursor && h == m.lhsHeight + 1 then
    match fst with
    | none => some .left
    | some (p, i) => if i = 0 ∧ lhsPtr ≠ some p then none else side
  else side

/-- `map_shift_lhs` of `insert_rhs`; src/tree/insert.rs:1046-1059 -/
def mapShift (m : Maps I) (h : Nat) (handled : Bool) (shift : Option (Shift I)) :
    R (Bool × Option (Shift I)) :=
  if m.sizes then do
    check shift.isNone "debug_assert: shift.is_none()"
    if h == m.lhsHeight then pure (true, some ⟨m.lhsPos, m.oldLhs, m.newLhs⟩)
    else pure (handled, none)
  else pure (handled, shift)

/-- `BubbledInsertState::finish`; src/tree/insert.rs:1902-1923, with `map` (2383-2400) and the
no-parent case of `do_upward_step` (1940-1957). -/
def bubbleFinish {H : Nat} (E : Env I S) (cb : Cb) (m : Maps I) : {h : Nat} → Ctx I S H h →
    Bubble I S (Tree I S h) → Bool → List Nat → World → R (Post I S H × List Nat × World)
  | _, .top, b, handled, path, w => do
    let side := mapSide m H (ptrT b.lhs) w.fst b.side
    let path := if m.cursor && H == m.lhsHeight + 1 then [] else path
    let (_, shift) ← mapShift m H handled b.shift
    check shift.isNone "internal error: this is a bug"
    pure (.newRoot b.lhs b.key b.keySize b.rhs, prependSide 0 side path, w.link (ptrT b.lhs) .top)
  | h, .frame ptr size keys kl kr up, b, handled, path, w => do
    let side := mapSide m h (ptrT b.lhs) w.fst b.side
    let path := if m.cursor && h == m.lhsHeight + 1 then [] else path
    let (handled, shift) ← mapShift m h handled b.shift
    let b := { b with side := side, shift := shift }
    let parent := plugNode ptr size keys kl b.lhs kr
    let w := w.link (ptrT b.lhs) fun q => .up q ptr kl.length
    if parent.len < 2 * E.M then do
      let (n, ov, old, new, path, w) ← bubbleRoom E cb (szT E.ix) parent kl.length b path w
      let (t, path) ← opKey E.ix m handled up n kl.length (some ov) old new path
      pure (.done t, path, up.readUp (some n.ptr) w)
    else do
      let (b, path, w) ← bubbleSplit E cb (szT E.ix) parent kl.length b path w
      bubbleFinish E cb m (h := h + 1) up b handled path w

/-- `insert_key(store, idx, slice)` on a leaf; src/tree/node.rs:2152-2206 -/
def leafInsert (E : Env I S) (n : Tree I S 1) (idx : Nat) (slice : S) (w : World) :
    R (Tree I S 1 × I × World) :=
  Node.insertKeyAndChild (2 * E.M) n idx slice none () w

/-- `push_key(store, key, new_size)` on a leaf; src/tree/node.rs:2223-2272 -/
def leafPush (E : Env I S) (n : Tree I S 1) (slice : S) (ref : Option Nat) (newSize : I) (w : World) :
    R (Tree I S 1 × World) :=
  Node.pushKeyAndChild (2 * E.M) n slice ref () newSize w

/-- `do_insert_full_edge_no_join_split_small_m`; src/tree/insert.rs:1774-1881 -/
def leafSplitSmall (E : Env I S) (cb : Cb) (n : Tree I S 1) (idx : Nat) (ov : Option I)
    (fst snd : Sized I S) (w : World) : R (Bubble I S (Tree I S 1) × World) := do
  let ix := E.ix
  weakAssert (E.M == 1) "small_m: M"
  weakAssert (!(ov.isSome && idx == 0)) "small_m: override"
  weakAssert (Node.len n == 1) "small_m: len"
  weakAssert (decide (idx ≤ 1)) "small_m: idx"
  let oldSize := Node.size n
  let (n, mid, rhs, w) ← Node.split n 0 w
  let n := { n with size := ix.zero }
  let rhs := { rhs with size := ix.zero }
  let midSize := ov.getD oldSize
  if idx = 0 then
    let (n, w) ← leafPush E n fst.slice none fst.size w
    let (rhs, w) ← leafPush E rhs mid.slice mid.ref midSize w
    let w ← emit cb (.move n.ptr 0 1 rhs.ptr 0) w
    let w ← emit cb (.insertion n.ptr 0) w
    pure ({ lhs := n, key := ⟨ix.zero, snd.slice, none⟩, keySize := snd.size, rhs := rhs,
            oldSize := oldSize, shift := none, side := some .left, inserted := true }, w)
  else
    let (n, w) ← leafPush E n mid.slice mid.ref midSize w
    let (rhs, w) ← leafPush E rhs snd.slice none snd.size w
    pure ({ lhs := n, key := ⟨ix.zero, fst.slice, none⟩, keySize := fst.size, rhs := rhs,
            oldSize := oldSize, shift := none, side := none, inserted := false }, w)

/-- Choice of the midpoint and of the place of insertion in
`do_insert_full_edge_no_join_split`; src/tree/insert.rs:1469-1518.  `.inl` is `Ok`, `.inr` is `Err`. -/
def splitPlan (M len idx : Nat) (hasSnd : Bool) : R (Nat × (Side ⊕ Side)) :=
  if idx < M then
    if hasSnd && decide (len < 2 * M) then do
      let m1 ← usub M 1
      let m2 ← usub M 2
      if idx < m1 then pure (m2, .inl .left) else pure (m2, .inr .left)
    else do
      let m1 ← usub M 1
      pure (m1, .inl .left)
  else if idx = M then do
    let m1 ← usub M 1
    if hasSnd && len == 2 * M then pure (m1, .inr .left) else pure (m1, .inr .right)
  else pure (M, .inl .right)

/-- The `Ok(side)` arm of `do_insert_full_edge_no_join_split`: insert `fst` (and `snd`) into one half of
the split leaf.  src/tree/insert.rs:1687-1745 -/
def leafInsertHalf (E : Env I S) (cb : Cb) (n : Tree I S 1) (idx : Nat) (ov : Option I)
    (fst : Sized I S) (snd : Option (Sized I S)) (w : World) : R (Tree I S 1 × World) := do
  let ix := E.ix
  let (pos, old, new) ← match ov with
    | none => pure (Node.nextPos n idx, ix.zero, ix.zero)
    | some s => do
      let k ← usub idx 1
      let p ← Node.keyPos n k
      let ss ← Node.sliceSize ix (szT ix) n k
      pure (p, ss, s)
  let (n, _, w) ← leafInsert E n idx fst.slice w
  let fstPos ← ix.addR pos new
  let n ← Node.setKeyPos n idx fstPos
  let new ← ix.addR new fst.size
  let (n, new, start, w) ← match snd with
    | none => pure (n, new, idx + 1, w)
    | some s => do
      let (n, _, w) ← leafInsert E n (idx + 1) s.slice w
      let new ← ix.addR new s.size
      let sndPos ← ix.addR fstPos fst.size
      let n ← Node.setKeyPos n (idx + 1) sndPos
      pure (n, new, idx + 2, w)
  let n ← Node.shiftKeys ix n true start pos old new
  let _ ← Node.handle n idx
  let w ← emit cb (.insertion n.ptr idx) w
  pure (n, w)

/-- `(key_size, override_lhs_size)` after the split: if the key left of the insertion is the midpoint, its
new size is the size of the midpoint.  src/tree/insert.rs:1533-1558 -/
def midResize (ix : IdxOps I) (ov : Option I) (at_ : Side ⊕ Side) (idx mid : Nat) (rhsStart keyPos : I) :
    R (I × Option I) :=
  match ov, at_ with
  | some s, .inr _ => pure (s, none)
  | some s, .inl .right =>
    if idx = mid + 1 then pure (s, none)
    else do
      let d ← ix.subL rhsStart keyPos
      pure (d, some s)
  | some s, .inl .left => do
    let d ← ix.subL rhsStart keyPos
    pure (d, some s)
  | none, _ => do
    let d ← ix.subL rhsStart keyPos
    pure (d, none)

/-- `if let Some(snd) = snd { insert at the front of rhs }` of the `Err(Side::Right)` arm.
src/tree/insert.rs:1592-1605 -/
def prependSnd (E : Env I S) (rhs : Tree I S 1) (snd : Option (Sized I S)) (w : World) :
    R (Tree I S 1 × World) :=
  match snd with
  | none => pure (rhs, w)
  | some s => do
    let (rhs, pos, w) ← leafInsert E rhs 0 s.slice w
    let rhs ← Node.shiftKeys E.ix rhs true 1 pos E.ix.zero s.size
    pure (rhs, w)

/-- The final `match insert_at` of `do_insert_full_edge_no_join_split`: where the midpoint key, `fst` and
`snd` go.  src/tree/insert.rs:1578-1758 -/
def splitPlace (E : Env I S) (cb : Cb) (at_ : Side ⊕ Side) (n : Tree I S 1) (key : Key I S) (keySize : I)
    (rhs : Tree I S 1) (rhsStart oldNodeSize : I) (idx mid : Nat) (ov : Option I)
    (fst : Sized I S) (snd : Option (Sized I S)) (w : World) : R (Bubble I S (Tree I S 1) × World) := do
  let ix := E.ix
  match at_ with
  | .inr .right =>
    let newSize ← ix.addR n.size keySize
    let (n, w) ← leafPush E n key.slice key.ref newSize w
    let i ← usub (Node.len n) 1
    let w ← emit cb (.putBack n.ptr i) w
    let (rhs, w) ← prependSnd E rhs snd w
    pure ({ lhs := n, key := ⟨rhsStart, fst.slice, none⟩, keySize := fst.size, rhs := rhs,
            oldSize := oldNodeSize, shift := none, side := none, inserted := false }, w)
  | .inr .left =>
    match snd with
    | none => .error (.ub "no_join_split: snd is None")
    | some s => do
      let lhsEnd ← ix.addR n.size keySize
      let fstEnd ← ix.addR lhsEnd fst.size
      let mp := n.len
      let (n, w) ← leafPush E n key.slice key.ref lhsEnd w
      let (n, w) ← leafPush E n fst.slice none fstEnd w
      let _ ← Node.handle n mp
      let _ ← Node.handle n (mp + 1)
      let w ← emit cb (.putBack n.ptr mp) w
      let w ← emit cb (.insertion n.ptr (mp + 1)) w
      pure ({ lhs := n, key := ⟨fstEnd, s.slice, none⟩, keySize := s.size, rhs := rhs,
              oldSize := oldNodeSize, shift := none, side := some .left, inserted := true }, w)
  | .inl .left => do
    let (n, w) ← leafInsertHalf E cb n idx ov fst snd w
    pure ({ lhs := n, key := key, keySize := keySize, rhs := rhs, oldSize := oldNodeSize,
            shift := none, side := some .left, inserted := true }, w)
  | .inl .right => do
    let idx' ← usub idx (mid + 1)
    let (rhs, w) ← leafInsertHalf E cb rhs idx' ov fst snd w
    pure ({ lhs := n, key := key, keySize := keySize, rhs := rhs, oldSize := oldNodeSize,
            shift := none, side := some .right, inserted := true }, w)

/-- `do_insert_full_edge_no_join_split`; src/tree/insert.rs:1338-1760 -/
def leafSplit (E : Env I S) (cb : Cb) (n : Tree I S 1) (idx : Nat) (ov : Option I)
    (fst : Sized I S) (snd : Option (Sized I S)) (w : World) :
    R (Bubble I S (Tree I S 1) × World) := do
  let ix := E.ix
  if E.M = 1 ∧ Node.len n = 1 then
    match snd with
    | none => .error (.ub "no_join_split: snd is None")
    | some s => leafSplitSmall E cb n idx ov fst s w
  else
    let (mid, at_) ← splitPlan E.M (Node.len n) idx snd.isSome
    let (n, key, rhs, w) ← Node.split n mid w
    let w ← emit cb (.move n.ptr (mid + 1) (mid + 1 + rhs.len) rhs.ptr 0) w
    let w ← emit cb (.remove n.ptr n.len) w
    let oldNodeSize := n.size
    let rhsStart := (rhs.tryKeyPos 0).getD oldNodeSize
    let (keySize, ov) ← midResize ix ov at_ idx mid rhsStart key.pos
    let n := { n with size := key.pos }
    let rhs ← rhs.shiftKeys ix false 0 ix.zero rhsStart ix.zero
    splitPlace E cb at_ n key keySize rhs rhsStart oldNodeSize idx mid ov fst snd w

/-- The part of `do_insert_full_edge_no_join` that inserts into a leaf with room: the node and the
arguments of the resulting `OpUpdateState`.  src/tree/insert.rs:890-954 -/
def leafRoom (E : Env I S) (cb : Cb) (n : Tree I S 1) (idx : Nat) (ov : Option I)
    (fst : Sized I S) (snd : Option (Sized I S)) (added : I) (w : World) :
    R (Tree I S 1 × Option I × I × I × World) := do
  let ix := E.ix
  let (n, ovPos, old, new, w) ← match ov with
    | some newLhs => do
      let k ← usub idx 1
      let lhsPos ← Node.keyPos n k
      let oldLhs ← Node.sliceSize ix (szT ix) n k
      let slicePos ← ix.addR lhsPos newLhs
      let (n, _, w) ← leafInsert E n idx fst.slice w
      let n ← Node.setKeyPos n idx slicePos
      let (n, w) ← match snd with
        | none => pure (n, w)
        | some s => do
          let (n, _, w) ← leafInsert E n (idx + 1) s.slice w
          let p ← ix.addR slicePos fst.size
          let n ← Node.setKeyPos n (idx + 1) p
          pure (n, w)
      let new ← ix.addR newLhs added
      pure (n, some lhsPos, oldLhs, new, w)
    | none => do
      let (n, slicePos, w) ← leafInsert E n idx fst.slice w
      match snd with
      | none => pure (n, none, ix.zero, added, w)
      | some s => do
        let (n, _, w) ← leafInsert E n (idx + 1) s.slice w
        let p ← ix.addR slicePos fst.size
        let n ← Node.setKeyPos n (idx + 1) p
        pure (n, some slicePos, ix.zero, added, w)
  let _ ← Node.handle n idx
  let w ← emit cb (.insertion n.ptr idx) w
  pure (n, ovPos, old, new, w)

/-- `do_insert_full_edge_no_join`; src/tree/insert.rs:844-958 -/
def noJoin {H : Nat} (E : Env I S) (cb : Cb) (m : Maps I) (n : Tree I S 1) (ctx : Ctx I S H 1)
    (idx : Nat) (ov : Option I) (fst : Sized I S) (snd : Option (Sized I S)) (w : World) :
    R (Post I S H × List Nat × World) := do
  let ix := E.ix
  weakAssert (idx ≤ Node.len n) "no_join: idx"
  weakAssert (!(ov.isSome && idx == 0)) "no_join: override"
  let (one, added) ← match snd with
    | some s => do
      let a ← ix.addR fst.size s.size
      pure (1, a)
    | none => pure (0, fst.size)
  let lim ← usub (2 * E.M) one
  if Node.len n ≥ lim then do
    let (b, w) ← leafSplit E cb n idx ov fst snd w
    bubbleFinish E cb m ctx b false [] w
  else do
    let (n, ovPos, old, new, w) ← leafRoom E cb n idx ov fst snd added w
    let (t, path) ← opKey ix m false ctx n (idx + one) ovPos old new []
    pure (.done t, path, ctx.readUp (ptrT n) w)

/-- Where to insert: `InsertionPoint`; src/tree/insert.rs:206-248.  Handles to adjacent keys are
(height of the node, key index): the node is the leaf or one of its ancestors. -/
inductive Point (I S : Type) (H : Nat) where
  | edge (leaf : Tree I S 1) (ctx : Ctx I S H 1) (idx : Nat) (lhs rhs : Option (Nat × Nat))
  | split (h : Nat) (node : Tree I S (h + 1)) (ctx : Ctx I S H (h + 1)) (k : Nat) (posInKey : I)

/-- First half of the loop body of `find_insertion_point`: `search_step`, and the child left of the key
if the target is the key's position.  src/tree/insert.rs:1243-1254 -/
def findStep (ix : IdxOps I) {h : Nat} (n : Tree I S (h + 1)) (hint : Option Nat) (target : I) :
    R (Step I) := do
  match ← searchStep ix n hint target with
  | .child c p => pure (.child c p)
  | .key k p =>
    if ix.eq p target then do
      let cs ← Node.childSize (szT ix) n k
      let cp ← ix.subR p cs
      pure (.child k cp)
    else pure (.key k p)

/-- The adjacent keys recorded when going into child `c` of a node of height `h`.
src/tree/insert.rs:1281-1299 -/
def adjacent {C : Type} (E : Env I S) (h : Nat) (n : Node I S C) (c : Nat)
    (lhs rhs : Option (Nat × Nat)) : Option (Nat × Nat) × Option (Nat × Nat) :=
  if E.sl.mayJoin then
    (if 0 < c then some (h, c - 1) else lhs, if c < n.len then some (h, c) else rhs)
  else (lhs, rhs)

/-- `find_insertion_point`; src/tree/insert.rs:1229-1326 -/
def findPoint {H : Nat} (E : Env I S) : {h : Nat} → Tree I S (h + 1) → Ctx I S H (h + 1) →
    Option (List Nat) → I → Option (Nat × Nat) → Option (Nat × Nat) → R (Point I S H)
  | 0, n, ctx, hints, target, lhs, rhs => do
    match ← findStep E.ix n (headHint hints) target with
    | .key k p => do
      let _ ← Node.handle n k
      let d ← E.ix.subL target p
      pure (.split 0 n ctx k d)
    | .child c _ =>
      let (lhs, rhs) := adjacent E 0 n c lhs rhs
      pure (.edge n ctx c lhs rhs)
  | h + 1, n, ctx, hints, target, lhs, rhs => do
    match ← findStep E.ix n (headHint hints) target with
    | .key k p => do
      let _ ← Node.handle n k
      let d ← E.ix.subL target p
      pure (.split (h + 1) n ctx k d)
    | .child c p =>
      let (lhs, rhs) := adjacent E (h + 1) n c lhs rhs
      let target' ← E.ix.subL target p
      let ch ← Node.child n c
      findPoint E (h := h) ch (.frame n.ptr n.size n.keys (n.kids.take c) (n.kids.drop (c + 1)) ctx)
        (nextHints hints (.child c p)) target' lhs rhs

/-- The node `n` levels above (following parent links), with its own ancestors.  src/tree/node.rs:969-988 -/
def climb : (n : Nat) → {H h : Nat} → Tree I S (h + 1) → Ctx I S H (h + 1) →
    R ((h' : Nat) × Tree I S (h' + 1) × Ctx I S H (h' + 1))
  | 0, _, h, t, ctx => pure ⟨h, t, ctx⟩
  | _ + 1, _, _, _, .top => .error (.ub "no parent")
  | n + 1, _, h, t, .frame ptr size keys kl kr up =>
    climb n (h := h + 1) (plugNode ptr size keys kl t kr) up

/-- Overwrite the slice of a key of an ancestor: `n = 0` is the parent.  src/tree/node.rs:3057-3083 (`fill_hole`) -/
def setSliceUp {H : Nat} : (n : Nat) → {h : Nat} → Ctx I S H h → Nat → S → R (Ctx I S H h)
  | _, _, .top, _, _ => .error (.ub "no parent")
  | 0, _, .frame ptr size keys kl kr up, k, s =>
    match keys[k]? with
    | none => .error (.ub "slice handle index")
    | some key => pure (.frame ptr size (keys.set k { key with slice := s }) kl kr up)
  | n + 1, h, .frame ptr size keys kl kr up, k, s => do
    let up ← setSliceUp n (h := h + 1) up k s
    pure (.frame ptr size keys kl kr up)

/-- Overwrite the slice behind a handle (height, key index) seen from a leaf.  src/tree/node.rs:3057-3083 -/
def setSliceAt {H : Nat} (leaf : Tree I S 1) (ctx : Ctx I S H 1) (hd : Nat × Nat) (s : S) :
    R (Tree I S 1 × Ctx I S H 1) :=
  match hd with
  | (0, k) => do
    let leaf ← Node.setSlice leaf k s
    pure (leaf, ctx)
  | (n + 1, k) => do
    let ctx ← setSliceUp n ctx k s
    pure (leaf, ctx)

/-- Slice and size of the key behind a handle (height, key index) seen from a leaf.  src/tree/node.rs:2887-2905, 3014-3055 -/
def handleAt {H : Nat} (ix : IdxOps I) (leaf : Tree I S 1) (ctx : Ctx I S H 1) (hd : Nat × Nat) :
    R (S × I) := do
  let ⟨_, n, _⟩ ← climb hd.1 leaf ctx
  let key ← Node.handle n hd.2
  let size ← Node.sliceSize ix (szT ix) n hd.2
  pure (key.slice, size)

/-- The end of `do_insert_full_edge_try_join` for a single join: callback and `OpUpdateState` from the
joined key.  src/tree/insert.rs:810-823 -/
def finishJoin {H : Nat} (E : Env I S) (leaf : Tree I S 1) (ctx : Ctx I S H 1) (hd : Nat × Nat)
    (old new : I) (w : World) : R (Post I S H × List Nat × World) := do
  let ⟨_, n, ctx⟩ ← climb hd.1 leaf ctx
  let w ← emit ⟨false, false⟩ (.insertion (Node.ptr n) hd.2) w
  let (t, path) ← opKey E.ix (Maps.identity E.ix) false ctx n hd.2 none old new []
  pure (.done t, path, ctx.readUp (ptrT n) w)

/-- Result of `do_insert_full_edge_try_join`: `.inl` for `Ok`, `.inr` for `Err(slice)` together with
the tree, whose slices may have been replaced by what `try_join` gave back.  src/tree/insert.rs:670-686 -/
abbrev JoinResult (I S : Type) (H : Nat) :=
  (Post I S H × List Nat × World) ⊕ (Tree I S 1 × Ctx I S H 1 × S)

/-- `do_insert_full_edge_try_join`; src/tree/insert.rs:670-824.  `handle_join_deletion` (966-977) is
`todo!()`. -/
def tryJoinEdge {H : Nat} (E : Env I S) (leaf : Tree I S 1) (ctx : Ctx I S H 1)
    (lhs rhs : Option (Nat × Nat)) (slice : S) (size : I) (w : World) : R (JoinResult I S H) := do
  let ix := E.ix
  if !E.sl.mayJoin then pure (.inr (leaf, ctx, slice))
  else
    match lhs, rhs with
    | none, none => .error (.unreachable "edges have at least one key on either side")
    | some l, none => do
      let (ls, lsize) ← handleAt ix leaf ctx l
      match E.sl.tryJoin ls slice with
      | .inl new => do
        let (leaf, ctx) ← setSliceAt leaf ctx l new
        let newSize ← ix.addR lsize size
        let r ← finishJoin E leaf ctx l lsize newSize w
        pure (.inl r)
      | .inr (ls, s) => do
        let (leaf, ctx) ← setSliceAt leaf ctx l ls
        pure (.inr (leaf, ctx, s))
    | none, some r => do
      let (rs, rsize) ← handleAt ix leaf ctx r
      match E.sl.tryJoin slice rs with
      | .inl new => do
        let (leaf, ctx) ← setSliceAt leaf ctx r new
        let newSize ← ix.addL rsize size
        let r ← finishJoin E leaf ctx r rsize newSize w
        pure (.inl r)
      | .inr (s, rs) => do
        let (leaf, ctx) ← setSliceAt leaf ctx r rs
        pure (.inr (leaf, ctx, s))
    | some l, some r => do
      let (ls, lsize) ← handleAt ix leaf ctx l
      let (rs, rsize) ← handleAt ix leaf ctx r
      match E.sl.tryJoin ls slice with
      | .inl mid => do
        let midSize ← ix.addR lsize size
        match E.sl.tryJoin mid rs with
        | .inl _ => .error (.todo "handle_join_deletion")
        | .inr (mid, rs) => do
          let (leaf, ctx) ← setSliceAt leaf ctx r rs
          let (leaf, ctx) ← setSliceAt leaf ctx l mid
          let r ← finishJoin E leaf ctx l lsize midSize w
          pure (.inl r)
      | .inr (ls, s) => do
        let (leaf, ctx) ← setSliceAt leaf ctx l ls
        match E.sl.tryJoin s rs with
        | .inl new => do
          let (leaf, ctx) ← setSliceAt leaf ctx r new
          let newSize ← ix.addR size rsize
          let r ← finishJoin E leaf ctx r rsize newSize w
          pure (.inl r)
        | .inr (s, rs) => do
          let (leaf, ctx) ← setSliceAt leaf ctx r rs
          pure (.inr (leaf, ctx, s))

/-- `do_insert_full_edge`; src/tree/insert.rs:483-523.  Also returns the change of `tree_len`. -/
def insertEdge {H : Nat} (E : Env I S) (leaf : Tree I S 1) (ctx : Ctx I S H 1) (idx : Nat)
    (lhs rhs : Option (Nat × Nat)) (slice : S) (size : I) (w : World) :
    R (Nat × Post I S H × List Nat × World) := do
  weakAssert (idx ≤ Node.len leaf) "do_insert_full_edge"
  match ← tryJoinEdge E leaf ctx lhs rhs slice size w with
  | .inl r => pure (0, r)
  | .inr (leaf, ctx, slice) => do
    let r ← noJoin E ⟨false, false⟩ (Maps.identity E.ix) leaf ctx idx none ⟨slice, size⟩ none w
    pure (1, r)

/-- The descent of `insert_rhs` to the leaf right of a key: first into child `c`, then always into
child 0.  src/tree/insert.rs:1008-1023.  `Tree 1` is a leaf; its insertion index is 0. -/
def descend {H : Nat} : {h : Nat} → Tree I S (h + 1) → Ctx I S H (h + 1) →
    R (Tree I S 1 × Ctx I S H 1)
  | 0, n, ctx => pure (n, ctx)
  | h + 1, n, ctx => do
    let ch ← Node.child n 0
    descend (h := h) ch (.frame n.ptr n.size n.keys (n.kids.take 0) (n.kids.drop 1) ctx)

/-- `(next_leaf, insert_idx)` of `insert_rhs`; src/tree/insert.rs:1006-1024 -/
def rhsLeaf {H : Nat} : {h : Nat} → Tree I S (h + 1) → Ctx I S H (h + 1) → Nat →
    R (Tree I S 1 × Ctx I S H 1 × Nat)
  | 0, n, ctx, k => pure (n, ctx, k + 1)
  | h + 1, n, ctx, k => do
    let ch ← Node.child n (k + 1)
    let (leaf, ctx) ← descend (h := h) ch
      (.frame n.ptr n.size n.keys (n.kids.take (k + 1)) (n.kids.drop (k + 2)) ctx)
    pure (leaf, ctx, 0)

/-- `insert_rhs`; src/tree/insert.rs:983-1204.  `lhsMode` is `cursor_mode == CursorMode::Lhs`, `nop`
is `cursor_builder.is_nop()`. -/
def insertRhs {H h : Nat} (E : Env I S) (nop : Bool) (skip : Bool) (n : Tree I S (h + 1))
    (ctx : Ctx I S H (h + 1)) (k : Nat) (newLhs : I) (lhsMode : Bool) (fst : Sized I S)
    (snd : Option (Sized I S)) (w : World) : R (Post I S H × List Nat × World) := do
  let ix := E.ix
  let lhsPos ← Node.keyPos n k
  let oldLhs ← Node.sliceSize ix (szT ix) n k
  let remap := lhsMode && !nop
  let (leaf, ctx, i) ← rhsLeaf n ctx k
  let m : Maps I := ⟨decide (h ≠ 0), remap, h, k, lhsPos, oldLhs, newLhs⟩
  noJoin E ⟨skip, remap⟩ m leaf ctx i (if h = 0 then some newLhs else none) fst snd w

/-- `do_insert_full_split_key`; src/tree/insert.rs:529-652.  Also returns the change of `tree_len`. -/
def insertSplit {H h : Nat} (E : Env I S) (nop : Bool) (n : Tree I S (h + 1))
    (ctx : Ctx I S H (h + 1)) (k : Nat) (posInKey : I) (slice : S) (size : I) (w : World) :
    R (Nat × Post I S H × List Nat × World) := do
  let ix := E.ix
  let keySize ← Node.sliceSize ix (szT ix) n k
  let key ← Node.handle n k
  let (ls, rs) := E.sl.splitAt key.slice posInKey
  let n ← Node.setSlice n k ls
  let rsize ← ix.subL keySize posInKey
  let lsize := posInKey
  if !E.sl.mayJoin then do
    let r ← insertRhs E nop false n ctx k lsize false ⟨slice, size⟩ (some ⟨rs, rsize⟩) w
    pure (2, r)
  else
    match E.sl.tryJoin ls slice with
    | .inl mid => do
      let midSize ← ix.addR lsize size
      match E.sl.tryJoin mid rs with
      | .inl new => do
        let n ← Node.setSlice n k new
        let w ← emit ⟨false, false⟩ (.insertion (Node.ptr n) k) w
        let old ← ix.addR lsize rsize
        let newSize ← ix.addR midSize rsize
        let (t, path) ← opKey ix (Maps.identity ix) false ctx n k none old newSize []
        pure (0, .done t, path, ctx.readUp (some n.ptr) w)
      | .inr (l, r) => do
        let n ← Node.setSlice n k l
        let w ← emit ⟨false, false⟩ (.insertion (Node.ptr n) k) w
        let r ← insertRhs E nop true n ctx k midSize true ⟨r, rsize⟩ none w
        pure (1, r)
    | .inr (l, s) => do
      let n ← Node.setSlice n k l
      match E.sl.tryJoin s rs with
      | .inl new => do
        let newSize ← ix.addR size rsize
        let r ← insertRhs E nop false n ctx k lsize false ⟨new, newSize⟩ none w
        pure (1, r)
      | .inr (s, r) => do
        let r ← insertRhs E nop false n ctx k lsize false ⟨s, size⟩ (some ⟨r, rsize⟩) w
        pure (2, r)

/-- State of the callback made by `TraverseUpdate::apply_to_ref`: the handle, `already_present`.
src/tree/fix.rs:328-393 -/
def applyEv (st : Option (Nat × Nat) × Bool) (ev : Ev) : R (Option (Nat × Nat) × Bool) :=
  match ev, st with
  | .insertion _ _, (some _, _) => .error (.unreachable "second insertion")
  | .insertion _ _, (none, true) => .error (.unreachable "second insertion")
  | .insertion p i, (none, false) => pure (some (p, i), true)
  | .move _ _ _ _ _, (none, a) => pure (none, a)
  | .move op lo hi np nlo, (some (p, i), a) =>
    if op ≠ p ∨ ¬ (lo ≤ i ∧ i < hi) then pure (some (p, i), a)
    else do
      let d ← usub i lo
      pure (some (np, d + nlo), a)
  | .remove _ _, (none, a) => if a then .error (.unreachable "removed twice") else pure (none, a)
  | .remove rp ri, (some (p, i), a) => if rp ≠ p ∨ ri ≠ i then pure (some (p, i), a) else pure (none, a)
  | .putBack _ _, (some x, a) => pure (some x, a)
  | .putBack p i, (none, a) => if a then pure (some (p, i), a) else pure (none, a)

/-- All events of an insertion, from `insertion = None`.  src/tree/fix.rs:328-393, src/tree/mod.rs:751-755 -/
def applyEvs (evs : List Ev) : R (Option (Nat × Nat)) := do
  let (r, _) ← evs.foldlM applyEv (none, false)
  pure r

/-- What an insertion returns besides the tree.  src/tree/insert.rs:41-60 -/
structure Inserted where
  path : List Nat
  handle : Option (Nat × Nat)
  world : World
  deriving DecidableEq, Repr

/-- The dispatch on the point found: `do_insert_no_join`/`try_join` for an edge, `do_insert_full_split_key`
inside of a slice.  Part of `insert_internal`; src/tree/insert.rs:41-197. -/
def insertAt (E : Env I S) {H : Nat} (nop : Bool) (pt : Point I S H) (slice : S) (size : I) (w : World) :
    R (Nat × Post I S H × List Nat × World) :=
  match pt with
  | .edge leaf ctx i lhs rhs => insertEdge E leaf ctx i lhs rhs slice size w
  | .split _ n ctx k p => insertSplit E nop n ctx k p slice size w

/-- The end of `insert_internal`: `handle` is what the callback has made of the events, `len` the new
number of slices; a split that reached the root gets a new root.  src/tree/insert.rs:41-197. -/
def installRoot (E : Env I S) {H : Nat} (len : Nat) (post : Post I S (H + 1)) (path : List Nat)
    (handle : Option (Nat × Nat)) (w : World) : R (RleTree I S × Inserted) :=
  match post with
  | .done t => do
    check (!E.refs || handle.isSome) "internal error: final insertion handle is `None`"
    pure (⟨some ⟨H, t, len⟩⟩, ⟨path, handle, w⟩)
  | .newRoot lhs key keySize rhs => do
    let (t, w) ← makeNewParent E.ix lhs key keySize rhs w
    let handle := if E.refs && handle.isNone then some (Node.ptr t, 0) else handle
    check (!E.refs || handle.isSome) "internal error: final insertion handle is `None`"
    pure (⟨some ⟨H + 1, t, len⟩⟩, ⟨path, handle, w⟩)

/-- `insert_internal`; src/tree/insert.rs:41-197.  `hints` is the path of the cursor passed in, `nop`
whether the cursor type ignores paths.  `acquire_mutable`/`release_mutable` are in
`Verif/SliceRef.lean`; `make_unique` is in `Verif/Cow.lean`.  The callback state is local to one insertion. -/
def RleTree.insert (E : Env I S) (t : RleTree I S) (nop : Bool) (hints : List Nat) (idx : I) (slice : S)
    (size : I) (w : World) : R (RleTree I S × Inserted) := do
  let ix := E.ix
  check (!ix.lt (t.size E) idx) "cannot insert new slice, index out of bounds"
  check (!ix.le size ix.zero) "cannot insert new slice, size is not greater than zero"
  match t.root with
  | none => do
    let (t, w) ← RleTree.new E slice size w
    match t.root with
    | none => .error (.unreachable "new tree without root")
    | some r => pure (t, ⟨[], if E.refs then some (Node.ptr r.tree, 0) else none, w⟩)
  | some root => do
    let pt ← findPoint E root.tree .top (some hints) idx none none
    let (dlen, post, path, w) ← insertAt E nop pt slice size { w with events := [], fst := none }
    let handle ← if E.refs then applyEvs w.events else pure none
    installRoot E (root.len + dlen) post path handle w

/-- Stored state of the slice references: where each id points (`none` for `Handle(None)`).
src/tree/slice_ref.rs (`StoredSliceRef::Handle`).  src/tree/slice_ref.rs:105-111 -/
abbrev Store := Nat → Option (Option (Nat × Nat))

/-- `update` / `suspend` with their assertions; src/tree/slice_ref.rs:418-437.  An id that is not in
use is a panic of `RecycleVec::replace`. -/
def runCmd (σ : Store) : StoreCmd → R Store
  | .update r p i =>
    match σ r with
    | none => .error (.panic "replace of unused id")
    | some _ => pure (fun x => if x = r then some (some (p, i)) else σ x)
  | .suspend r =>
    match σ r with
    | none => .error (.panic "replace of unused id")
    | some none => .error (.panic "assert!(matches!(old, Handle(Some(_))))")
    | some (some _) => pure (fun x => if x = r then some none else σ x)

/-- The recorded store calls of an insertion.  src/tree/slice_ref.rs:365-438 -/
def runLog (σ : Store) (cmds : List StoreCmd) : R Store := cmds.foldlM runCmd σ

end Sherman
