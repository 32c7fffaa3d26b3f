import Verif.AnyIndexRun
/-!
# Insertions that panic in the arithmetic of the index type

Index arithmetic panics on overflow (integers with overflow checks) or whenever a user-defined implementation says so.  `insert_internal` works on the tree in
place, so a program that catches the panic goes on with whatever is in memory at that point: `self.root` is never taken out (src/tree/insert.rs:66-126), and
what hangs in a `NodeBox` (src/tree/mod.rs:945-1047), which are the split-off halves of nodes, is dropped while unwinding.

The functions here are those of `Verif/Insert.lean` for slices that never join (`S::MAY_JOIN = false`, src/public_traits.rs), for trees without references
and without sharing.  An error carries the tree that is left.  Each index operation is written where it is in the code, together with what the tree
is at that time.
-/
namespace Sherman
variable {I S C : Type}

/-- A computation that leaves a `T` behind when it panics (unwinding during src/tree/insert.rs:41-197). -/
abbrev Lv (T α : Type) := Except (Fault × T) α

/-- A panic of `x` leaves `t` behind; local variables are dropped (src/tree/insert.rs:1523, 2060, 2261). -/
def leave {T α : Type} (t : T) (x : R α) : Lv T α :=
  match x with
  | .ok a => .ok a
  | .error f => .error (f, t)

/-- What is left behind is part of something larger, as a node is of its tree (src/tree/insert.rs:41-197). -/
def within {T T' α : Type} (g : T → T') (x : Lv T α) : Lv T' α :=
  match x with
  | .ok a => .ok a
  | .error (f, t) => .error (f, g t)

/-- The loop of `set_key_poss_with`: on a panic the keys before have new positions.  src/tree/node.rs:1336-1348 -/
def mapPosC (f : I → R I) : List (Key I S) → Lv (List (Key I S)) (List (Key I S))
  | [] => .ok []
  | k :: ks => do
    let p ← leave (k :: ks) (f k.pos)
    let ks ← within (fun ks => { k with pos := p } :: ks) (mapPosC f ks)
    pure ({ k with pos := p } :: ks)

/-- `set_key_poss_with`; src/tree/node.rs:1325-1352 -/
def setKeyPossWithC (n : Node I S C) (f : I → R I) (start : Nat) : Lv (Node I S C) (Node I S C) := do
  leave n (weakAssert (start ≤ n.len) "set_key_poss_with")
  let ks ← within (fun ks => { n with keys := n.keys.take start ++ ks }) (mapPosC f (n.keys.drop start))
  let s ← leave { n with keys := n.keys.take start ++ ks } (f n.size)
  pure { n with keys := n.keys.take start ++ ks, size := s }

/-- `shift_keys::<IS_INCREASE>`; src/tree/fix.rs:686-759 -/
def shiftKeysC (ix : IdxOps I) (n : Node I S C) (incr : Bool) (start : Nat) (pos oldSize newSize : I) : Lv (Node I S C) (Node I S C) := do
  leave n (weakAssert (start ≤ n.len) "shift_keys")
  let oldEnd ← leave n (ix.addR pos oldSize)
  let newEnd ← leave n (ix.addR pos newSize)
  if incr then
    let d ← leave n (ix.subL newEnd oldEnd)
    setKeyPossWithC n (fun k => ix.addL k d) start
  else
    let d ← leave n (ix.subR oldEnd newEnd)
    setKeyPossWithC n (fun k => ix.subL k d) start

/-- `shift_keys_auto`; src/tree/fix.rs:626-642 -/
def shiftKeysAutoC (ix : IdxOps I) (n : Node I S C) (start : Nat) (pos oldSize newSize : I) : Lv (Node I S C) (Node I S C) :=
  shiftKeysC ix n (ix.lt oldSize newSize) start pos oldSize newSize

/-- `OpUpdateState::map` followed by `do_upward_step` at one node.  `map_sizes` writes to the node, if at all, after its last index operation.
src/tree/fix.rs:110-134, 522-563, src/tree/insert.rs:1061-1110 -/
def opStepC (ix : IdxOps I) (m : Maps I) (handled : Bool) (height : Nat) (n : Node I S C) (cok : COK) (ov : Option I) (old new : I) :
    Lv (Node I S C) (Node I S C × I) := do
  let (n, ov, old, new) ← leave n (mapSizes ix m handled height n cok ov old new)
  let pos ← leave n (opPos ix n cok ov old)
  let start := match cok with
    | .child c => c
    | .key k => k + 1
  let n' ← shiftKeysAutoC ix n start pos old new
  pure (n', n.size)

/-- The loop of `OpUpdateState::finish` from the first parent upwards; the ancestors above the node of the panic keep their old positions and sizes.
src/tree/fix.rs:497-586 -/
def opUpC {H : Nat} (ix : IdxOps I) (m : Maps I) (handled : Bool) : {h : Nat} → Ctx I S H h →
    Tree I S h → I → I → List Nat → Lv (Tree I S H) (Tree I S H × List Nat)
  | _, .top, t, _, _, path => pure (t, path)
  | h, .frame ptr size keys kl kr up, t, old, new, path => do
    let n := plugNode ptr size keys kl t kr
    let path := mapCursor m h path
    let (n', oldN) ← within (Ctx.close (h := h + 1) up) (opStepC ix m handled h n (.child kl.length) none old new)
    opUpC ix m handled (h := h + 1) up n' oldN n'.size (kl.length :: path)

/-- `OpUpdateState::finish` starting at a key of `n`.  src/tree/fix.rs:497-586 -/
def opKeyC {H h : Nat} (ix : IdxOps I) (m : Maps I) (handled : Bool) (ctx : Ctx I S H (h + 1))
    (n : Tree I S (h + 1)) (k : Nat) (ov : Option I) (old new : I) (path : List Nat) : Lv (Tree I S H) (Tree I S H × List Nat) := do
  let path := mapCursor m h path
  let (n', oldN) ← within (Ctx.close (h := h + 1) ctx) (opStepC ix m handled h n (.key k) ov old new)
  opUpC ix m handled (h := h + 1) ctx n' oldN (Node.size n') path

/-- `BubbledInsertState::do_upward_step` when the parent has room.  `newTotal` is computed before, for all parents.  A panic before
`insert_key_and_child` drops `self.rhs` and `self.key`; after it, they are in the parent, the key without its position.  src/tree/insert.rs:1963-2036 -/
def bubbleRoomC [HasPtr C] (E : Env I S) (cb : Cb) (sz : C → I) (parent : Node I S C) (c : Nat)
    (b : Bubble I S C) (newTotal : I) (path : List Nat) (w : World) : Lv (Node I S C) (Node I S C × I × I × I × List Nat × World) := do
  let ix := E.ix
  let lhsSize := sz b.lhs
  let (ovPos, old, new, lhsChildPos) ← leave parent (roomNums ix b.shift (parent.nextPos c) b.oldSize newTotal)
  let (parent, _, w) ← leave parent (parent.insertKeyAndChild (2 * E.M) c b.key.slice b.key.ref b.rhs w)
  let mid ← leave parent (ix.addR lhsChildPos lhsSize)
  let parent ← leave parent (parent.setKeyPos c mid)
  let w ← leave parent (emitKey cb b.inserted parent c w)
  pure (parent, ovPos, old, new, prependSide c b.side path, w)

/-- `do_upward_step`, full parent, `new_key_idx != M`, after the split: put the key into the half it belongs to.  What is left of that half.
src/tree/insert.rs:2153-2209 -/
def bubbleInsertHalfC [HasPtr C] (E : Env I S) (cb : Cb) (sz : C → I) (half : Node I S C) (c : Nat)
    (b : Bubble I S C) (newTotal : I) (shift : Option (Shift I)) (path : List Nat) (w : World) : Lv (Node I S C) (Node I S C × List Nat × World) := do
  let ix := E.ix
  let lhsSize := sz b.lhs
  let (lhsChildPos, shiftPos, old, new) ← leave half (halfNums ix shift (half.nextPos c) b.oldSize)
  let keyPos ← leave half (ix.addR lhsChildPos lhsSize)
  let old ← leave half (ix.addR old b.oldSize)
  let new ← leave half (ix.addR new newTotal)
  let (half, _, w) ← leave half (half.insertKeyAndChild (2 * E.M) c b.key.slice b.key.ref b.rhs w)
  let half ← leave half (half.setKeyPos c keyPos)
  let half ← shiftKeysC ix half true (c + 1) shiftPos old new
  let w ← leave half (emitKey cb b.inserted half c w)
  pure (half, prependSide c b.side path, w)

/-- `do_upward_step` when the parent is full: split it.  The right half is in a `NodeBox` and dropped with all that is in it; the left half stays in the
tree, and the midpoint key is dropped unless it was put back.  src/tree/insert.rs:2039-2329 -/
def bubbleSplitC [HasPtr C] (E : Env I S) (cb : Cb) (sz : C → I) (parent : Node I S C) (c : Nat)
    (b : Bubble I S C) (newTotal : I) (path : List Nat) (w : World) : Lv (Node I S C) (Bubble I S (Node I S C) × List Nat × World) := do
  let ix := E.ix
  let M := E.M
  let oldParentSize := parent.size
  let mid ← leave parent (bubbleMid M c)
  let (parent, key, rhs, w) ← leave parent (parent.split mid w)
  let parent := { parent with size := key.pos }
  let firstKeyPos ← leave parent (firstPos M rhs)
  let firstChildSize ← leave parent (firstSize sz M c b.oldSize rhs)
  let rhsStart ← leave parent (ix.subR firstKeyPos firstChildSize)
  let keySize ← leave parent (ix.subL rhsStart key.pos)
  if c ≠ M then
    let rhs ← leave parent (rhs.shiftKeys ix false 0 ix.zero rhsStart ix.zero)
    let (keySize, shift) := keepShift M c b.shift keySize
    if c < M then
      let (parent, path, w) ← bubbleInsertHalfC E cb sz parent c b newTotal shift path w
      pure ({ lhs := parent, key := key, keySize := keySize, rhs := rhs, oldSize := oldParentSize,
              shift := none, side := some .left, inserted := true }, path, w)
    else
      let c' ← leave parent (usub c (M + 1))
      let shift ← leave parent (relShift ix shift rhsStart)
      let (rhs, path, w) ← within (fun _ => parent) (bubbleInsertHalfC E cb sz rhs c' b newTotal shift path w)
      pure ({ lhs := parent, key := key, keySize := keySize, rhs := rhs, oldSize := oldParentSize,
              shift := none, side := some .right, inserted := true }, path, w)
  else
    let keySize := midSize b.shift keySize
    let newFirst := sz b.rhs
    let (rhs, oldFirst, w) ← leave parent (rhs.replaceFirstChild b.rhs w)
    let t ← leave parent (ix.addR parent.size keySize)
    let newLhsSize ← leave parent (ix.addR t (sz oldFirst))
    let (parent, w) ← leave parent (parent.pushKeyAndChild (2 * M) key.slice key.ref oldFirst newLhsSize w)
    let firstRhsKeyPos ← leave parent (rhs.keyPos 0)
    let rhs ← leave parent (rhs.shiftKeysAuto ix 0 ix.zero firstRhsKeyPos newFirst)
    let path := midPath M b.side path
    pure ({ lhs := parent, key := b.key, keySize := b.keySize, rhs := rhs, oldSize := oldParentSize,
            shift := none, side := b.side, inserted := b.inserted }, path, w)

/-- `new_total_size`, the first thing in `do_upward_step`; src/tree/insert.rs:1929-1933 -/
def bubbleTotal (ix : IdxOps I) (sz : C → I) (b : Bubble I S C) : R I := do
  let t ← ix.addR (sz b.lhs) b.keySize
  ix.addR t (sz b.rhs)

/-- `BubbledInsertState::finish`; src/tree/insert.rs:1902-1923, with `map` (2383-2400) and the
no-parent case of `do_upward_step` (1940-1957).  `self.rhs` is in a `NodeBox`, `self.lhs` in the tree. -/
def bubbleFinishC {H : Nat} (E : Env I S) (cb : Cb) (m : Maps I) : {h : Nat} → Ctx I S H h →
    Bubble I S (Tree I S h) → Bool → List Nat → World → Lv (Tree I S H) (Post I S H × List Nat × World)
  | _, .top, b, handled, path, w => do
    let side := mapSide m H (ptrT b.lhs) w.fst b.side
    let path := if m.cursor && H == m.lhsHeight + 1 then [] else path
    let (_, shift) ← leave b.lhs (mapShift m H handled b.shift)
    let _ ← leave b.lhs (bubbleTotal E.ix (szT E.ix) b)
    leave b.lhs (check shift.isNone "internal error: this is a bug")
    pure (.newRoot b.lhs b.key b.keySize b.rhs, prependSide 0 side path, w.link (ptrT b.lhs) .top)
  | h, .frame ptr size keys kl kr up, b, handled, path, w => do
    let side := mapSide m h (ptrT b.lhs) w.fst b.side
    let path := if m.cursor && h == m.lhsHeight + 1 then [] else path
    let parent := plugNode ptr size keys kl b.lhs kr
    let (handled, shift) ← leave (Ctx.close (h := h + 1) up parent) (mapShift m h handled b.shift)
    let newTotal ← leave (Ctx.close (h := h + 1) up parent) (bubbleTotal E.ix (szT E.ix) b)
    let b := { b with side := side, shift := shift }
    let w := w.link (ptrT b.lhs) fun q => .up q ptr kl.length
    if parent.len < 2 * E.M then do
      let (n, ov, old, new, path, w) ← within (Ctx.close (h := h + 1) up) (bubbleRoomC E cb (szT E.ix) parent kl.length b newTotal path w)
      let (t, path) ← opKeyC E.ix m handled up n kl.length (some ov) old new path
      pure (.done t, path, up.readUp (some n.ptr) w)
    else do
      let (b, path, w) ← within (Ctx.close (h := h + 1) up) (bubbleSplitC E cb (szT E.ix) parent kl.length b newTotal path w)
      bubbleFinishC E cb m (h := h + 1) up b handled path w

/-- The `Ok(side)` arm of `do_insert_full_edge_no_join_split`: what is left of the half.  src/tree/insert.rs:1687-1745 -/
def leafInsertHalfC (E : Env I S) (cb : Cb) (n : Tree I S 1) (idx : Nat) (ov : Option I)
    (fst : Sized I S) (snd : Option (Sized I S)) (w : World) : Lv (Tree I S 1) (Tree I S 1 × World) := do
  let ix := E.ix
  let (pos, old, new) ← leave n (match ov with
    | none => pure (Node.nextPos n idx, ix.zero, ix.zero)
    | some s => do
      let k ← usub idx 1
      let p ← Node.keyPos n k
      let ss ← Node.sliceSize ix (szT ix) n k
      pure (p, ss, s))
  let (n, _, w) ← leave n (leafInsert E n idx fst.slice w)
  let fstPos ← leave n (ix.addR pos new)
  let n ← leave n (Node.setKeyPos n idx fstPos)
  let new ← leave n (ix.addR new fst.size)
  let (n, new, start, w) ← match snd with
    | none => pure (n, new, idx + 1, w)
    | some s => do
      let (n, _, w) ← leave n (leafInsert E n (idx + 1) s.slice w)
      let new ← leave n (ix.addR new s.size)
      let sndPos ← leave n (ix.addR fstPos fst.size)
      let n ← leave n (Node.setKeyPos n (idx + 1) sndPos)
      pure (n, new, idx + 2, w)
  let n ← shiftKeysC ix n true start pos old new
  let _ ← leave n (Node.handle n idx)
  let w ← leave n (emit cb (.insertion n.ptr idx) w)
  pure (n, w)

/-- The final `match insert_at` of `do_insert_full_edge_no_join_split`.  `rhs` is in a `NodeBox`; `midpoint_key`, `fst` and `snd` are local
variables until they are put somewhere.  src/tree/insert.rs:1578-1758 -/
def splitPlaceC (E : Env I S) (cb : Cb) (at_ : Side ⊕ Side) (n : Tree I S 1) (key : Key I S) (keySize : I)
    (rhs : Tree I S 1) (rhsStart oldNodeSize : I) (idx mid : Nat) (ov : Option I)
    (fst : Sized I S) (snd : Option (Sized I S)) (w : World) : Lv (Tree I S 1) (Bubble I S (Tree I S 1) × World) := do
  let ix := E.ix
  match at_ with
  | .inr .right =>
    let newSize ← leave n (ix.addR n.size keySize)
    let (n, w) ← leave n (leafPush E n key.slice key.ref newSize w)
    let i ← leave n (usub (Node.len n) 1)
    let w ← leave n (emit cb (.putBack n.ptr i) w)
    let (rhs, w) ← leave n (prependSnd E rhs snd w)
    pure ({ lhs := n, key := ⟨rhsStart, fst.slice, none⟩, keySize := fst.size, rhs := rhs,
            oldSize := oldNodeSize, shift := none, side := none, inserted := false }, w)
  | .inr .left =>
    match snd with
    | none => .error (.ub "no_join_split: snd is None", n)
    | some s => do
      let lhsEnd ← leave n (ix.addR n.size keySize)
      let fstEnd ← leave n (ix.addR lhsEnd fst.size)
      let mp := n.len
      let (n, w) ← leave n (leafPush E n key.slice key.ref lhsEnd w)
      let (n, w) ← leave n (leafPush E n fst.slice none fstEnd w)
      let _ ← leave n (Node.handle n mp)
      let _ ← leave n (Node.handle n (mp + 1))
      let w ← leave n (emit cb (.putBack n.ptr mp) w)
      let w ← leave n (emit cb (.insertion n.ptr (mp + 1)) w)
      pure ({ lhs := n, key := ⟨fstEnd, s.slice, none⟩, keySize := s.size, rhs := rhs,
              oldSize := oldNodeSize, shift := none, side := some .left, inserted := true }, w)
  | .inl .left => do
    let (n, w) ← leafInsertHalfC E cb n idx ov fst snd w
    pure ({ lhs := n, key := key, keySize := keySize, rhs := rhs, oldSize := oldNodeSize,
            shift := none, side := some .left, inserted := true }, w)
  | .inl .right => do
    let idx' ← leave n (usub idx (mid + 1))
    let (rhs, w) ← within (fun _ => n) (leafInsertHalfC E cb rhs idx' ov fst snd w)
    pure ({ lhs := n, key := key, keySize := keySize, rhs := rhs, oldSize := oldNodeSize,
            shift := none, side := some .right, inserted := true }, w)

/-- `do_insert_full_edge_no_join_split`.  The leaf loses the keys from the midpoint on before anything is computed; its size is set after the
first subtraction.  The version for `M = 1` (src/tree/insert.rs:1774-1881) has no index arithmetic.  src/tree/insert.rs:1338-1760 -/
def leafSplitC (E : Env I S) (cb : Cb) (n : Tree I S 1) (idx : Nat) (ov : Option I)
    (fst : Sized I S) (snd : Option (Sized I S)) (w : World) : Lv (Tree I S 1) (Bubble I S (Tree I S 1) × World) := do
  let ix := E.ix
  if E.M = 1 ∧ Node.len n = 1 then
    match snd with
    | none => .error (.ub "no_join_split: snd is None", n)
    | some s => leave n (leafSplitSmall E cb n idx ov fst s w)
  else
    let (mid, at_) ← leave n (splitPlan E.M (Node.len n) idx snd.isSome)
    let (n, key, rhs, w) ← leave n (Node.split n mid w)
    let w ← leave n (emit cb (.move n.ptr (mid + 1) (mid + 1 + rhs.len) rhs.ptr 0) w)
    let w ← leave n (emit cb (.remove n.ptr n.len) w)
    let oldNodeSize := n.size
    let rhsStart := (rhs.tryKeyPos 0).getD oldNodeSize
    let (keySize, ov) ← leave n (midResize ix ov at_ idx mid rhsStart key.pos)
    let n := { n with size := key.pos }
    let rhs ← leave n (rhs.shiftKeys ix false 0 ix.zero rhsStart ix.zero)
    splitPlaceC E cb at_ n key keySize rhs rhsStart oldNodeSize idx mid ov fst snd w

/-- The part of `do_insert_full_edge_no_join` that inserts into a leaf with room.  src/tree/insert.rs:890-954 -/
def leafRoomC (E : Env I S) (cb : Cb) (n : Tree I S 1) (idx : Nat) (ov : Option I)
    (fst : Sized I S) (snd : Option (Sized I S)) (added : I) (w : World) : Lv (Tree I S 1) (Tree I S 1 × Option I × I × I × World) := do
  let ix := E.ix
  let (n, ovPos, old, new, w) ← match ov with
    | some newLhs => do
      let k ← leave n (usub idx 1)
      let lhsPos ← leave n (Node.keyPos n k)
      let oldLhs ← leave n (Node.sliceSize ix (szT ix) n k)
      let slicePos ← leave n (ix.addR lhsPos newLhs)
      let (n, _, w) ← leave n (leafInsert E n idx fst.slice w)
      let n ← leave n (Node.setKeyPos n idx slicePos)
      let (n, w) ← match snd with
        | none => pure (n, w)
        | some s => do
          let (n, _, w) ← leave n (leafInsert E n (idx + 1) s.slice w)
          let p ← leave n (ix.addR slicePos fst.size)
          let n ← leave n (Node.setKeyPos n (idx + 1) p)
          pure (n, w)
      let new ← leave n (ix.addR newLhs added)
      pure (n, some lhsPos, oldLhs, new, w)
    | none => do
      let (n, slicePos, w) ← leave n (leafInsert E n idx fst.slice w)
      match snd with
      | none => pure (n, none, ix.zero, added, w)
      | some s => do
        let (n, _, w) ← leave n (leafInsert E n (idx + 1) s.slice w)
        let p ← leave n (ix.addR slicePos fst.size)
        let n ← leave n (Node.setKeyPos n (idx + 1) p)
        pure (n, some slicePos, ix.zero, added, w)
  let _ ← leave n (Node.handle n idx)
  let w ← leave n (emit cb (.insertion n.ptr idx) w)
  pure (n, ovPos, old, new, w)

/-- `do_insert_full_edge_no_join`; src/tree/insert.rs:844-958 -/
def noJoinC {H : Nat} (E : Env I S) (cb : Cb) (m : Maps I) (n : Tree I S 1) (ctx : Ctx I S H 1)
    (idx : Nat) (ov : Option I) (fst : Sized I S) (snd : Option (Sized I S)) (w : World) : Lv (Tree I S H) (Post I S H × List Nat × World) := do
  let ix := E.ix
  leave (ctx.close n) (weakAssert (idx ≤ Node.len n) "no_join: idx")
  leave (ctx.close n) (weakAssert (!(ov.isSome && idx == 0)) "no_join: override")
  let (one, added) ← leave (ctx.close n) (match snd with
    | some s => do
      let a ← ix.addR fst.size s.size
      pure (1, a)
    | none => pure (0, fst.size))
  let lim ← leave (ctx.close n) (usub (2 * E.M) one)
  if Node.len n ≥ lim then do
    let (b, w) ← within ctx.close (leafSplitC E cb n idx ov fst snd w)
    bubbleFinishC E cb m ctx b false [] w
  else do
    let (n, ovPos, old, new, w) ← within ctx.close (leafRoomC E cb n idx ov fst snd added w)
    let (t, path) ← opKeyC ix m false ctx n (idx + one) ovPos old new []
    pure (.done t, path, ctx.readUp (ptrT n) w)

/-- `insert_rhs`; src/tree/insert.rs:983-1204.  Going down does not change the tree. -/
def insertRhsC {H h : Nat} (E : Env I S) (nop : Bool) (skip : Bool) (n : Tree I S (h + 1))
    (ctx : Ctx I S H (h + 1)) (k : Nat) (newLhs : I) (lhsMode : Bool) (fst : Sized I S)
    (snd : Option (Sized I S)) (w : World) : Lv (Tree I S H) (Post I S H × List Nat × World) := do
  let ix := E.ix
  let lhsPos ← leave (ctx.close n) (Node.keyPos n k)
  let oldLhs ← leave (ctx.close n) (Node.sliceSize ix (szT ix) n k)
  let remap := lhsMode && !nop
  let (leaf, ctx, i) ← leave (ctx.close n) (rhsLeaf n ctx k)
  let m : Maps I := ⟨decide (h ≠ 0), remap, h, k, lhsPos, oldLhs, newLhs⟩
  noJoinC E ⟨skip, remap⟩ m leaf ctx i (if h = 0 then some newLhs else none) fst snd w

/-- `do_insert_full_edge` and `do_insert_full_split_key` for slices that do not join.  Besides the tree a panic leaves the change of `root.len`, which is
made before the nodes are changed but after the slice was split.  src/tree/insert.rs:483-562 -/
def insertAtC (E : Env I S) {H : Nat} (nop : Bool) (pt : Point I S H) (slice : S) (size : I) (w : World) :
    Lv (Tree I S H × Nat) (Nat × Post I S H × List Nat × World) :=
  match pt with
  | .edge leaf ctx idx _ _ => do
    leave (ctx.close leaf, 0) (weakAssert (idx ≤ Node.len leaf) "do_insert_full_edge")
    let r ← within (fun t => (t, 1)) (noJoinC E ⟨false, false⟩ (Maps.identity E.ix) leaf ctx idx none ⟨slice, size⟩ none w)
    pure (1, r)
  | .split h n ctx k posInKey => do
    let keySize ← leave (ctx.close n, 0) (Node.sliceSize E.ix (szT E.ix) n k)
    let key ← leave (ctx.close n, 0) (Node.handle n k)
    let (ls, rs) := E.sl.splitAt key.slice posInKey
    let n ← leave (ctx.close n, 0) (Node.setSlice n k ls)
    let rsize ← leave (Ctx.close (h := h + 1) ctx n, 0) (E.ix.subL keySize posInKey)
    let r ← within (fun t => (t, 2)) (insertRhsC E nop false n ctx k posInKey false ⟨slice, size⟩ (some ⟨rs, rsize⟩) w)
    pure (2, r)

/-- The node that stays the root if `make_new_parent` panics.  src/tree/insert.rs:150-190, src/tree/node.rs:1689-1745 -/
def Post.left {H : Nat} : Post I S H → Tree I S H
  | .done t => t
  | .newRoot lhs _ _ _ => lhs

/-- `insert_internal`, for slices that do not join and without references or sharing.  Until the point of insertion is found the tree is unchanged.
`make_new_parent` computes the size of the new root before it changes anything (src/tree/node.rs:1713).  src/tree/insert.rs:41-197 -/
def RleTree.insertC (E : Env I S) (t : RleTree I S) (nop : Bool) (hints : List Nat) (idx : I) (slice : S)
    (size : I) (w : World) : Lv (RleTree I S) (RleTree I S × Inserted) :=
  match t.root with
  | none => leave t (t.insert E nop hints idx slice size w)
  | some root => do
    leave t (check (!E.ix.lt (t.size E) idx) "cannot insert new slice, index out of bounds")
    leave t (check (!E.ix.le size E.ix.zero) "cannot insert new slice, size is not greater than zero")
    let pt ← leave t (findPoint E root.tree .top (some hints) idx none none)
    let (dlen, post, path, w) ← within (fun l => (⟨some ⟨root.h, l.1, root.len + l.2⟩⟩ : RleTree I S))
      (insertAtC E nop pt slice size { w with events := [], fst := none })
    leave (⟨some ⟨root.h, post.left, root.len + dlen⟩⟩ : RleTree I S) (installRoot E (root.len + dlen) post path none w)

end Sherman
