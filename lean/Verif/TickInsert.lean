import Verif.Insert
import Verif.Tick
/-!
# Counting steps of an insertion

See `Verif/Tick.lean`.  The functions of `Verif/Insert.lean` once more.
-/
namespace Sherman
namespace Tk
variable {I S : Type}

/-- `emit` with steps.  src/tree/insert.rs:1118-1140 -/
def emit (cb : Cb) (ev : Ev) (w : World) : T World := do
  T.tick 1
  let w ← emitFst cb ev w
  pure (emitRec cb ev w)

/-- `opPos` with steps.  src/tree/fix.rs:526-547, src/tree/insert.rs:1070-1081 -/
def opPos {C : Type} (ix : IdxOps I) (n : Node I S C) (cok : COK) (ov : Option I) (old : I) : T I :=
  match ov, cok with
  | some p, _ => pure p
  | none, .key k => n.keyPos k
  | none, .child c => T.op (ix.subL (n.nextPos c) old)

/-- `mapSizes` with steps.  src/tree/insert.rs:1061-1110 -/
def mapSizes {C : Type} (ix : IdxOps I) (m : Maps I) (handled : Bool) (height : Nat)
    (n : Node I S C) (cok : COK) (ov : Option I) (old new : I) :
    T (Node I S C × Option I × I × I) := do
  if !m.sizes || height != m.lhsHeight || handled then pure (n, ov, old, new)
  else
    let oldEnd ← T.op (ix.addR m.lhsPos m.oldLhs)
    let newEnd ← T.op (ix.addR m.lhsPos m.newLhs)
    let pos ← opPos ix n cok ov old
    let diff ← T.op (ix.subL pos oldEnd)
    let old ← T.op (ix.addL old diff)
    let old ← T.op (ix.addL old m.oldLhs)
    let new ← T.op (ix.addL new diff)
    let new ← T.op (ix.addL new m.newLhs)
    match cok with
    | .child _ => pure (n, some m.lhsPos, old, new)
    | .key _ => do
      let p ← n.keyPos (m.lhsK + 1)
      let p ← T.op (ix.subL p oldEnd)
      let p ← T.op (ix.addL p newEnd)
      let n ← n.setKeyPos (m.lhsK + 1) p
      pure (n, some m.lhsPos, old, new)

/-- `opStep` with steps.  src/tree/fix.rs:110-134, 522-563 -/
def opStep {C : Type} (ix : IdxOps I) (m : Maps I) (handled : Bool) (height : Nat)
    (n : Node I S C) (cok : COK) (ov : Option I) (old new : I) : T (Node I S C × I) := do
  let (n, ov, old, new) ← mapSizes ix m handled height n cok ov old new
  let pos ← opPos ix n cok ov old
  let start := match cok with
    | .child c => c
    | .key k => k + 1
  let n' ← shiftKeysAuto ix n start pos old new
  pure (n', n.size)

/-- `opUp` with steps.  src/tree/fix.rs:497-586 -/
def opUp {H : Nat} (ix : IdxOps I) (m : Maps I) (handled : Bool) : {h : Nat} → Ctx I S H h →
    Tree I S h → I → I → List Nat → T (Tree I S H × List Nat)
  | _, .top, t, _, _, path => pure (t, path)
  | h, .frame ptr size keys kl kr up, t, old, new, path => do
    T.tick 1
    let n := plugNode ptr size keys kl t kr
    let path := mapCursor m h path
    let (n', oldN) ← opStep ix m handled h n (.child kl.length) none old new
    opUp ix m handled (h := h + 1) up n' oldN n'.size (kl.length :: path)

/-- `opKey` with steps.  src/tree/fix.rs:497-586 -/
def opKey {H h : Nat} (ix : IdxOps I) (m : Maps I) (handled : Bool) (ctx : Ctx I S H (h + 1))
    (n : Tree I S (h + 1)) (k : Nat) (ov : Option I) (old new : I) (path : List Nat) :
    T (Tree I S H × List Nat) := do
  let path := mapCursor m h path
  let (n', oldN) ← opStep ix m handled h n (.key k) ov old new
  opUp ix m handled (h := h + 1) ctx n' oldN (Node.size n') path

/-- `emitKey` with steps.  src/tree/insert.rs:2004-2011, 2201-2209 -/
def emitKey {C : Type} (cb : Cb) (inserted : Bool) (n : Node I S C) (k : Nat) (w : World) :
    T World := do
  let _ ← n.handle k
  if inserted then emit cb (.putBack n.ptr k) w else emit cb (.insertion n.ptr k) w

/-- `roomNums` with steps.  src/tree/insert.rs:1964-1985 -/
def roomNums (ix : IdxOps I) (shift : Option (Shift I)) (next oldSize newTotal : I) :
    T (I × I × I × I) :=
  match shift with
  | some k => do
    let o ← T.op (ix.addL oldSize k.oldSize)
    let n ← T.op (ix.addL newTotal k.newSize)
    let p ← T.op (ix.addR k.pos k.newSize)
    pure (k.pos, o, n, p)
  | none => do
    let p ← T.op (ix.subR next oldSize)
    pure (p, oldSize, newTotal, p)

/-- `halfNums` with steps.  src/tree/insert.rs:2153-2169 -/
def halfNums (ix : IdxOps I) (shift : Option (Shift I)) (next oldSize : I) : T (I × I × I × I) :=
  match shift with
  | none => do
    let p ← T.op (ix.subR next oldSize)
    pure (p, p, ix.zero, ix.zero)
  | some s => do
    let p ← T.op (ix.addR s.pos s.newSize)
    pure (p, s.pos, s.oldSize, s.newSize)

/-- `bubbleRoom` with steps.  src/tree/insert.rs:1963-2036 -/
def bubbleRoom {C : Type} [HasPtr C] (E : Env I S) (cb : Cb) (sz : C → I) (parent : Node I S C) (c : Nat)
    (b : Bubble I S C) (path : List Nat) (w : World) :
    T (Node I S C × I × I × I × List Nat × World) := do
  let ix := E.ix
  let lhsSize := sz b.lhs
  let t ← T.op (ix.addR lhsSize b.keySize)
  let newTotal ← T.op (ix.addR t (sz b.rhs))
  let (ovPos, old, new, lhsChildPos) ← roomNums ix b.shift (parent.nextPos c) b.oldSize newTotal
  let (parent, _, w) ← insertKeyAndChild (2 * E.M) parent c b.key.slice b.key.ref b.rhs w
  let mid ← T.op (ix.addR lhsChildPos lhsSize)
  let parent ← parent.setKeyPos c mid
  let w ← emitKey cb b.inserted parent c w
  pure (parent, ovPos, old, new, prependSide c b.side path, w)

/-- `bubbleInsertHalf` with steps.  src/tree/insert.rs:2153-2209 -/
def bubbleInsertHalf {C : Type} [HasPtr C] (E : Env I S) (cb : Cb) (sz : C → I) (half : Node I S C) (c : Nat)
    (b : Bubble I S C) (shift : Option (Shift I)) (path : List Nat) (w : World) :
    T (Node I S C × List Nat × World) := do
  let ix := E.ix
  let lhsSize := sz b.lhs
  let t ← T.op (ix.addR lhsSize b.keySize)
  let newTotal ← T.op (ix.addR t (sz b.rhs))
  let (lhsChildPos, shiftPos, old, new) ← halfNums ix shift (half.nextPos c) b.oldSize
  let keyPos ← T.op (ix.addR lhsChildPos lhsSize)
  let old ← T.op (ix.addR old b.oldSize)
  let new ← T.op (ix.addR new newTotal)
  let (half, _, w) ← insertKeyAndChild (2 * E.M) half c b.key.slice b.key.ref b.rhs w
  let half ← half.setKeyPos c keyPos
  let half ← shiftKeys ix half true (c + 1) shiftPos old new
  let w ← emitKey cb b.inserted half c w
  pure (half, prependSide c b.side path, w)

/-- `relShift` with steps.  src/tree/insert.rs:2146-2148 -/
def relShift (ix : IdxOps I) (shift : Option (Shift I)) (rhsStart : I) : T (Option (Shift I)) :=
  match shift with
  | some s => do
    let p ← T.op (ix.subL s.pos rhsStart)
    pure (some { s with pos := p })
  | none => pure none

/-- `bubbleSplit` with steps.  src/tree/insert.rs:2039-2329 -/
def bubbleSplit {C : Type} [HasPtr C] (E : Env I S) (cb : Cb) (sz : C → I) (parent : Node I S C) (c : Nat)
    (b : Bubble I S C) (path : List Nat) (w : World) :
    T (Bubble I S (Node I S C) × List Nat × World) := do
  let ix := E.ix
  let M := E.M
  let oldParentSize := parent.size
  let mid ← bubbleMid M c
  let (parent, key, rhs, w) ← split parent mid w
  let parent := { parent with size := key.pos }
  let firstKeyPos ← firstPos M rhs
  let firstChildSize ← firstSize sz M c b.oldSize rhs
  let rhsStart ← T.op (ix.subR firstKeyPos firstChildSize)
  let keySize ← T.op (ix.subL rhsStart key.pos)
  if c ≠ M then
    let rhs ← shiftKeys ix rhs false 0 ix.zero rhsStart ix.zero
    let (keySize, shift) := keepShift M c b.shift keySize
    if c < M then
      let (parent, path, w) ← bubbleInsertHalf E cb sz parent c b shift path w
      pure ({ lhs := parent, key := key, keySize := keySize, rhs := rhs, oldSize := oldParentSize,
              shift := none, side := some .left, inserted := true }, path, w)
    else
      let c' ← usub c (M + 1)
      let shift ← relShift ix shift rhsStart
      let (rhs, path, w) ← bubbleInsertHalf E cb sz rhs c' b shift path w
      pure ({ lhs := parent, key := key, keySize := keySize, rhs := rhs, oldSize := oldParentSize,
              shift := none, side := some .right, inserted := true }, path, w)
  else
    let keySize := midSize b.shift keySize
    let newFirst := sz b.rhs
    T.tick 1
    let (rhs, oldFirst, w) ← rhs.replaceFirstChild b.rhs w
    let t ← T.op (ix.addR parent.size keySize)
    let newLhsSize ← T.op (ix.addR t (sz oldFirst))
    let (parent, w) ← pushKeyAndChild (2 * M) parent key.slice key.ref oldFirst newLhsSize w
    let firstRhsKeyPos ← rhs.keyPos 0
    let rhs ← shiftKeysAuto ix rhs 0 ix.zero firstRhsKeyPos newFirst
    let path := midPath M b.side path
    pure ({ lhs := parent, key := b.key, keySize := b.keySize, rhs := rhs, oldSize := oldParentSize,
            shift := none, side := b.side, inserted := b.inserted }, path, w)

/-- `bubbleFinish` with steps.  src/tree/insert.rs:1902-1923 -/
def bubbleFinish {H : Nat} (E : Env I S) (cb : Cb) (m : Maps I) : {h : Nat} → Ctx I S H h →
    Bubble I S (Tree I S h) → Bool → List Nat → World → T (Post I S H × List Nat × World)
  | _, .top, b, handled, path, w => do
    T.tick 1
    let side := mapSide m H (ptrT b.lhs) w.fst b.side
    let path := if m.cursor && H == m.lhsHeight + 1 then [] else path
    let (_, shift) ← mapShift m H handled b.shift
    check shift.isNone "internal error: this is a bug"
    pure (.newRoot b.lhs b.key b.keySize b.rhs, prependSide 0 side path, w.link (ptrT b.lhs) .top)
  | h, .frame ptr size keys kl kr up, b, handled, path, w => do
    T.tick 2
    let side := mapSide m h (ptrT b.lhs) w.fst b.side
    let path := if m.cursor && h == m.lhsHeight + 1 then [] else path
    let (handled, shift) ← mapShift m h handled b.shift
    let b := { b with side := side, shift := shift }
    let parent := plugNode ptr size keys kl b.lhs kr
    let w := w.link (ptrT b.lhs) fun q => .up q ptr kl.length
    if parent.len < 2 * E.M then do
      let (n, ov, old, new, path, w) ← bubbleRoom E cb (szT E.ix) parent kl.length b path w
      let (t, path) ← opKey E.ix m handled up n kl.length (some ov) old new path
      pure (.done t, path, up.readUp (some n.ptr) w)
    else do
      let (b, path, w) ← bubbleSplit E cb (szT E.ix) parent kl.length b path w
      bubbleFinish E cb m (h := h + 1) up b handled path w

/-- `leafInsert` with steps.  src/tree/node.rs:2152-2206 -/
def leafInsert (E : Env I S) (n : Tree I S 1) (idx : Nat) (slice : S) (w : World) :
    T (Tree I S 1 × I × World) :=
  insertKeyAndChild (2 * E.M) n idx slice none () w

/-- `leafPush` with steps.  src/tree/node.rs:2223-2272 -/
def leafPush (E : Env I S) (n : Tree I S 1) (slice : S) (ref : Option Nat) (newSize : I) (w : World) :
    T (Tree I S 1 × World) :=
  pushKeyAndChild (2 * E.M) n slice ref () newSize w

/-- `leafSplitSmall` with steps.  src/tree/insert.rs:1774-1881 -/
def leafSplitSmall (E : Env I S) (cb : Cb) (n : Tree I S 1) (idx : Nat) (ov : Option I)
    (fst snd : Sized I S) (w : World) : T (Bubble I S (Tree I S 1) × World) := do
  let ix := E.ix
  weakAssert (E.M == 1) "small_m: M"
  weakAssert (!(ov.isSome && idx == 0)) "small_m: override"
  weakAssert (Node.len n == 1) "small_m: len"
  weakAssert (decide (idx ≤ 1)) "small_m: idx"
  let oldSize := Node.size n
  let (n, mid, rhs, w) ← split n 0 w
  let n := { n with size := ix.zero }
  let rhs := { rhs with size := ix.zero }
  let midSize := ov.getD oldSize
  if idx = 0 then
    let (n, w) ← leafPush E n fst.slice none fst.size w
    let (rhs, w) ← leafPush E rhs mid.slice mid.ref midSize w
    let w ← emit cb (.move n.ptr 0 1 rhs.ptr 0) w
    let w ← emit cb (.insertion n.ptr 0) w
    pure ({ lhs := n, key := ⟨ix.zero, snd.slice, none⟩, keySize := snd.size, rhs := rhs,
            oldSize := oldSize, shift := none, side := some .left, inserted := true }, w)
  else
    let (n, w) ← leafPush E n mid.slice mid.ref midSize w
    let (rhs, w) ← leafPush E rhs snd.slice none snd.size w
    pure ({ lhs := n, key := ⟨ix.zero, fst.slice, none⟩, keySize := fst.size, rhs := rhs,
            oldSize := oldSize, shift := none, side := none, inserted := false }, w)

/-- `leafInsertHalf` with steps.  src/tree/insert.rs:1687-1745 -/
def leafInsertHalf (E : Env I S) (cb : Cb) (n : Tree I S 1) (idx : Nat) (ov : Option I)
    (fst : Sized I S) (snd : Option (Sized I S)) (w : World) : T (Tree I S 1 × World) := do
  let ix := E.ix
  let (pos, old, new) ← match ov with
    | none => pure (Node.nextPos n idx, ix.zero, ix.zero)
    | some s => do
      let k ← usub idx 1
      let p ← Node.keyPos n k
      let ss ← sliceSize ix (szT ix) n k
      pure (p, ss, s)
  let (n, _, w) ← leafInsert E n idx fst.slice w
  let fstPos ← T.op (ix.addR pos new)
  let n ← Node.setKeyPos n idx fstPos
  let new ← T.op (ix.addR new fst.size)
  let (n, new, start, w) ← match snd with
    | none => pure (n, new, idx + 1, w)
    | some s => do
      let (n, _, w) ← leafInsert E n (idx + 1) s.slice w
      let new ← T.op (ix.addR new s.size)
      let sndPos ← T.op (ix.addR fstPos fst.size)
      let n ← Node.setKeyPos n (idx + 1) sndPos
      pure (n, new, idx + 2, w)
  let n ← shiftKeys ix n true start pos old new
  let _ ← Node.handle n idx
  let w ← emit cb (.insertion n.ptr idx) w
  pure (n, w)

/-- `midResize` with steps.  src/tree/insert.rs:1533-1558 -/
def midResize (ix : IdxOps I) (ov : Option I) (at_ : Side ⊕ Side) (idx mid : Nat) (rhsStart keyPos : I) :
    T (I × Option I) :=
  match ov, at_ with
  | some s, .inr _ => pure (s, none)
  | some s, .inl .right =>
    if idx = mid + 1 then pure (s, none)
    else do
      let d ← T.op (ix.subL rhsStart keyPos)
      pure (d, some s)
  | some s, .inl .left => do
    let d ← T.op (ix.subL rhsStart keyPos)
    pure (d, some s)
  | none, _ => do
    let d ← T.op (ix.subL rhsStart keyPos)
    pure (d, none)

/-- `prependSnd` with steps.  src/tree/insert.rs:1592-1605 -/
def prependSnd (E : Env I S) (rhs : Tree I S 1) (snd : Option (Sized I S)) (w : World) :
    T (Tree I S 1 × World) :=
  match snd with
  | none => pure (rhs, w)
  | some s => do
    let (rhs, pos, w) ← leafInsert E rhs 0 s.slice w
    let rhs ← shiftKeys E.ix rhs true 1 pos E.ix.zero s.size
    pure (rhs, w)

/-- `splitPlace` with steps.  src/tree/insert.rs:1578-1758 -/
def splitPlace (E : Env I S) (cb : Cb) (at_ : Side ⊕ Side) (n : Tree I S 1) (key : Key I S) (keySize : I)
    (rhs : Tree I S 1) (rhsStart oldNodeSize : I) (idx mid : Nat) (ov : Option I)
    (fst : Sized I S) (snd : Option (Sized I S)) (w : World) : T (Bubble I S (Tree I S 1) × World) := do
  let ix := E.ix
  match at_ with
  | .inr .right =>
    let newSize ← T.op (ix.addR n.size keySize)
    let (n, w) ← leafPush E n key.slice key.ref newSize w
    let i ← usub (Node.len n) 1
    let w ← emit cb (.putBack n.ptr i) w
    let (rhs, w) ← prependSnd E rhs snd w
    pure ({ lhs := n, key := ⟨rhsStart, fst.slice, none⟩, keySize := fst.size, rhs := rhs,
            oldSize := oldNodeSize, shift := none, side := none, inserted := false }, w)
  | .inr .left =>
    match snd with
    | none => T.error (.ub "no_join_split: snd is None")
    | some s => do
      let lhsEnd ← T.op (ix.addR n.size keySize)
      let fstEnd ← T.op (ix.addR lhsEnd fst.size)
      let mp := n.len
      let (n, w) ← leafPush E n key.slice key.ref lhsEnd w
      let (n, w) ← leafPush E n fst.slice none fstEnd w
      let _ ← Node.handle n mp
      let _ ← Node.handle n (mp + 1)
      let w ← emit cb (.putBack n.ptr mp) w
      let w ← emit cb (.insertion n.ptr (mp + 1)) w
      pure ({ lhs := n, key := ⟨fstEnd, s.slice, none⟩, keySize := s.size, rhs := rhs,
              oldSize := oldNodeSize, shift := none, side := some .left, inserted := true }, w)
  | .inl .left => do
    let (n, w) ← leafInsertHalf E cb n idx ov fst snd w
    pure ({ lhs := n, key := key, keySize := keySize, rhs := rhs, oldSize := oldNodeSize,
            shift := none, side := some .left, inserted := true }, w)
  | .inl .right => do
    let idx' ← usub idx (mid + 1)
    let (rhs, w) ← leafInsertHalf E cb rhs idx' ov fst snd w
    pure ({ lhs := n, key := key, keySize := keySize, rhs := rhs, oldSize := oldNodeSize,
            shift := none, side := some .right, inserted := true }, w)

/-- `leafSplit` with steps.  src/tree/insert.rs:1338-1760 -/
def leafSplit (E : Env I S) (cb : Cb) (n : Tree I S 1) (idx : Nat) (ov : Option I)
    (fst : Sized I S) (snd : Option (Sized I S)) (w : World) :
    T (Bubble I S (Tree I S 1) × World) := do
  let ix := E.ix
  if E.M = 1 ∧ Node.len n = 1 then
    match snd with
    | none => T.error (.ub "no_join_split: snd is None")
    | some s => leafSplitSmall E cb n idx ov fst s w
  else
    let (mid, at_) ← splitPlan E.M (Node.len n) idx snd.isSome
    let (n, key, rhs, w) ← split n mid w
    let w ← emit cb (.move n.ptr (mid + 1) (mid + 1 + rhs.len) rhs.ptr 0) w
    let w ← emit cb (.remove n.ptr n.len) w
    let oldNodeSize := n.size
    let rhsStart := (rhs.tryKeyPos 0).getD oldNodeSize
    let (keySize, ov) ← midResize ix ov at_ idx mid rhsStart key.pos
    let n := { n with size := key.pos }
    let rhs ← shiftKeys ix rhs false 0 ix.zero rhsStart ix.zero
    splitPlace E cb at_ n key keySize rhs rhsStart oldNodeSize idx mid ov fst snd w

/-- `leafRoom` with steps.  src/tree/insert.rs:890-954 -/
def leafRoom (E : Env I S) (cb : Cb) (n : Tree I S 1) (idx : Nat) (ov : Option I)
    (fst : Sized I S) (snd : Option (Sized I S)) (added : I) (w : World) :
    T (Tree I S 1 × Option I × I × I × World) := do
  let ix := E.ix
  let (n, ovPos, old, new, w) ← match ov with
    | some newLhs => do
      let k ← usub idx 1
      let lhsPos ← Node.keyPos n k
      let oldLhs ← sliceSize ix (szT ix) n k
      let slicePos ← T.op (ix.addR lhsPos newLhs)
      let (n, _, w) ← leafInsert E n idx fst.slice w
      let n ← Node.setKeyPos n idx slicePos
      let (n, w) ← match snd with
        | none => pure (n, w)
        | some s => do
          let (n, _, w) ← leafInsert E n (idx + 1) s.slice w
          let p ← T.op (ix.addR slicePos fst.size)
          let n ← Node.setKeyPos n (idx + 1) p
          pure (n, w)
      let new ← T.op (ix.addR newLhs added)
      pure (n, some lhsPos, oldLhs, new, w)
    | none => do
      let (n, slicePos, w) ← leafInsert E n idx fst.slice w
      match snd with
      | none => pure (n, none, ix.zero, added, w)
      | some s => do
        let (n, _, w) ← leafInsert E n (idx + 1) s.slice w
        let p ← T.op (ix.addR slicePos fst.size)
        let n ← Node.setKeyPos n (idx + 1) p
        pure (n, some slicePos, ix.zero, added, w)
  let _ ← Node.handle n idx
  let w ← emit cb (.insertion n.ptr idx) w
  pure (n, ovPos, old, new, w)

/-- `noJoin` with steps.  src/tree/insert.rs:844-958 -/
def noJoin {H : Nat} (E : Env I S) (cb : Cb) (m : Maps I) (n : Tree I S 1) (ctx : Ctx I S H 1)
    (idx : Nat) (ov : Option I) (fst : Sized I S) (snd : Option (Sized I S)) (w : World) :
    T (Post I S H × List Nat × World) := do
  let ix := E.ix
  weakAssert (idx ≤ Node.len n) "no_join: idx"
  weakAssert (!(ov.isSome && idx == 0)) "no_join: override"
  let (one, added) ← match snd with
    | some s => do
      let a ← T.op (ix.addR fst.size s.size)
      pure (1, a)
    | none => pure (0, fst.size)
  let lim ← usub (2 * E.M) one
  if Node.len n ≥ lim then do
    let (b, w) ← leafSplit E cb n idx ov fst snd w
    bubbleFinish E cb m ctx b false [] w
  else do
    let (n, ovPos, old, new, w) ← leafRoom E cb n idx ov fst snd added w
    let (t, path) ← opKey ix m false ctx n (idx + one) ovPos old new []
    pure (.done t, path, ctx.readUp (ptrT n) w)

/-- `findStep` with steps.  src/tree/insert.rs:1243-1254 -/
def findStep (ix : IdxOps I) {h : Nat} (n : Tree I S (h + 1)) (hint : Option Nat) (target : I) :
    T (Step I) := do
  match ← searchStep ix n hint target with
  | .child c p => pure (.child c p)
  | .key k p => do
    T.tick 1
    if ix.eq p target then
      let cs ← Node.childSize (szT ix) n k
      let cp ← T.op (ix.subR p cs)
      pure (.child k cp)
    else pure (.key k p)

/-- `findPoint` with steps.  src/tree/insert.rs:1229-1326 -/
def findPoint {H : Nat} (E : Env I S) : {h : Nat} → Tree I S (h + 1) → Ctx I S H (h + 1) →
    Option (List Nat) → I → Option (Nat × Nat) → Option (Nat × Nat) → T (Point I S H)
  | 0, n, ctx, hints, target, lhs, rhs => do
    T.tick 1
    match ← findStep E.ix n (headHint hints) target with
    | .key k p => do
      let _ ← Node.handle n k
      let d ← T.op (E.ix.subL target p)
      pure (.split 0 n ctx k d)
    | .child c _ =>
      let (lhs, rhs) := adjacent E 0 n c lhs rhs
      pure (.edge n ctx c lhs rhs)
  | h + 1, n, ctx, hints, target, lhs, rhs => do
    T.tick 1
    match ← findStep E.ix n (headHint hints) target with
    | .key k p => do
      let _ ← Node.handle n k
      let d ← T.op (E.ix.subL target p)
      pure (.split (h + 1) n ctx k d)
    | .child c p =>
      let (lhs, rhs) := adjacent E (h + 1) n c lhs rhs
      let target' ← T.op (E.ix.subL target p)
      let ch ← Node.child n c
      findPoint E (h := h) ch (.frame n.ptr n.size n.keys (n.kids.take c) (n.kids.drop (c + 1)) ctx)
        (nextHints hints (.child c p)) target' lhs rhs

/-- `climb` with steps.  src/tree/node.rs:969-988 -/
def climb : (n : Nat) → {H h : Nat} → Tree I S (h + 1) → Ctx I S H (h + 1) →
    T ((h' : Nat) × Tree I S (h' + 1) × Ctx I S H (h' + 1))
  | 0, _, h, t, ctx => pure ⟨h, t, ctx⟩
  | _ + 1, _, _, _, .top => T.error (.ub "no parent")
  | n + 1, _, h, t, .frame ptr size keys kl kr up => do
    T.tick 1
    climb n (h := h + 1) (plugNode ptr size keys kl t kr) up

/-- `setSliceUp` with steps.  src/tree/node.rs:3057-3083 -/
def setSliceUp {H : Nat} : (n : Nat) → {h : Nat} → Ctx I S H h → Nat → S → T (Ctx I S H h)
  | _, _, .top, _, _ => T.error (.ub "no parent")
  | 0, _, .frame ptr size keys kl kr up, k, s =>
    match keys[k]? with
    | none => T.error (.ub "slice handle index")
    | some key => pure (.frame ptr size (keys.set k { key with slice := s }) kl kr up)
  | n + 1, h, .frame ptr size keys kl kr up, k, s => do
    T.tick 1
    let up ← setSliceUp n (h := h + 1) up k s
    pure (.frame ptr size keys kl kr up)

/-- `setSliceAt` with steps.  src/tree/node.rs:3057-3083 -/
def setSliceAt {H : Nat} (leaf : Tree I S 1) (ctx : Ctx I S H 1) (hd : Nat × Nat) (s : S) :
    T (Tree I S 1 × Ctx I S H 1) :=
  match hd with
  | (0, k) => do
    let leaf ← Node.setSlice leaf k s
    pure (leaf, ctx)
  | (n + 1, k) => do
    let ctx ← setSliceUp n ctx k s
    pure (leaf, ctx)

/-- `handleAt` with steps.  src/tree/node.rs:2887-2905, 3014-3055 -/
def handleAt {H : Nat} (ix : IdxOps I) (leaf : Tree I S 1) (ctx : Ctx I S H 1) (hd : Nat × Nat) :
    T (S × I) := do
  let ⟨_, n, _⟩ ← climb hd.1 leaf ctx
  let key ← Node.handle n hd.2
  let size ← sliceSize ix (szT ix) n hd.2
  pure (key.slice, size)

/-- `finishJoin` with steps.  src/tree/insert.rs:810-823 -/
def finishJoin {H : Nat} (E : Env I S) (leaf : Tree I S 1) (ctx : Ctx I S H 1) (hd : Nat × Nat)
    (old new : I) (w : World) : T (Post I S H × List Nat × World) := do
  let ⟨_, n, ctx⟩ ← climb hd.1 leaf ctx
  let w ← emit ⟨false, false⟩ (.insertion (Node.ptr n) hd.2) w
  let (t, path) ← opKey E.ix (Maps.identity E.ix) false ctx n hd.2 none old new []
  pure (.done t, path, ctx.readUp (ptrT n) w)

/-- `tryJoinEdge` with steps.  src/tree/insert.rs:670-824 -/
def tryJoinEdge {H : Nat} (E : Env I S) (leaf : Tree I S 1) (ctx : Ctx I S H 1)
    (lhs rhs : Option (Nat × Nat)) (slice : S) (size : I) (w : World) : T (JoinResult I S H) := do
  let ix := E.ix
  if !E.sl.mayJoin then pure (.inr (leaf, ctx, slice))
  else
    match lhs, rhs with
    | none, none => T.error (.unreachable "edges have at least one key on either side")
    | some l, none => do
      let (ls, lsize) ← handleAt ix leaf ctx l
      T.tick 1
      match E.sl.tryJoin ls slice with
      | .inl new => do
        let (leaf, ctx) ← setSliceAt leaf ctx l new
        let newSize ← T.op (ix.addR lsize size)
        let r ← finishJoin E leaf ctx l lsize newSize w
        pure (.inl r)
      | .inr (ls, s) => do
        let (leaf, ctx) ← setSliceAt leaf ctx l ls
        pure (.inr (leaf, ctx, s))
    | none, some r => do
      let (rs, rsize) ← handleAt ix leaf ctx r
      T.tick 1
      match E.sl.tryJoin slice rs with
      | .inl new => do
        let (leaf, ctx) ← setSliceAt leaf ctx r new
        let newSize ← T.op (ix.addL rsize size)
        let r ← finishJoin E leaf ctx r rsize newSize w
        pure (.inl r)
      | .inr (s, rs) => do
        let (leaf, ctx) ← setSliceAt leaf ctx r rs
        pure (.inr (leaf, ctx, s))
    | some l, some r => do
      let (ls, lsize) ← handleAt ix leaf ctx l
      let (rs, rsize) ← handleAt ix leaf ctx r
      T.tick 1
      match E.sl.tryJoin ls slice with
      | .inl mid => do
        let midSize ← T.op (ix.addR lsize size)
        T.tick 1
        match E.sl.tryJoin mid rs with
        | .inl _ => T.error (.todo "handle_join_deletion")
        | .inr (mid, rs) => do
          let (leaf, ctx) ← setSliceAt leaf ctx r rs
          let (leaf, ctx) ← setSliceAt leaf ctx l mid
          let r ← finishJoin E leaf ctx l lsize midSize w
          pure (.inl r)
      | .inr (ls, s) => do
        let (leaf, ctx) ← setSliceAt leaf ctx l ls
        T.tick 1
        match E.sl.tryJoin s rs with
        | .inl new => do
          let (leaf, ctx) ← setSliceAt leaf ctx r new
          let newSize ← T.op (ix.addR size rsize)
          let r ← finishJoin E leaf ctx r rsize newSize w
          pure (.inl r)
        | .inr (s, rs) => do
          let (leaf, ctx) ← setSliceAt leaf ctx r rs
          pure (.inr (leaf, ctx, s))

/-- `insertEdge` with steps.  src/tree/insert.rs:483-523 -/
def insertEdge {H : Nat} (E : Env I S) (leaf : Tree I S 1) (ctx : Ctx I S H 1) (idx : Nat)
    (lhs rhs : Option (Nat × Nat)) (slice : S) (size : I) (w : World) :
    T (Nat × Post I S H × List Nat × World) := do
  weakAssert (idx ≤ Node.len leaf) "do_insert_full_edge"
  match ← tryJoinEdge E leaf ctx lhs rhs slice size w with
  | .inl r => pure (0, r)
  | .inr (leaf, ctx, slice) => do
    let r ← noJoin E ⟨false, false⟩ (Maps.identity E.ix) leaf ctx idx none ⟨slice, size⟩ none w
    pure (1, r)

/-- `descend` with steps.  src/tree/insert.rs:1008-1023 -/
def descend {H : Nat} : {h : Nat} → Tree I S (h + 1) → Ctx I S H (h + 1) →
    T (Tree I S 1 × Ctx I S H 1)
  | 0, n, ctx => pure (n, ctx)
  | h + 1, n, ctx => do
    T.tick 1
    let ch ← Node.child n 0
    descend (h := h) ch (.frame n.ptr n.size n.keys (n.kids.take 0) (n.kids.drop 1) ctx)

/-- `rhsLeaf` with steps.  src/tree/insert.rs:1006-1024 -/
def rhsLeaf {H : Nat} : {h : Nat} → Tree I S (h + 1) → Ctx I S H (h + 1) → Nat →
    T (Tree I S 1 × Ctx I S H 1 × Nat)
  | 0, n, ctx, k => pure (n, ctx, k + 1)
  | h + 1, n, ctx, k => do
    let ch ← Node.child n (k + 1)
    let (leaf, ctx) ← descend (h := h) ch
      (.frame n.ptr n.size n.keys (n.kids.take (k + 1)) (n.kids.drop (k + 2)) ctx)
    pure (leaf, ctx, 0)

/-- `insertRhs` with steps.  src/tree/insert.rs:983-1204 -/
def insertRhs {H h : Nat} (E : Env I S) (nop : Bool) (skip : Bool) (n : Tree I S (h + 1))
    (ctx : Ctx I S H (h + 1)) (k : Nat) (newLhs : I) (lhsMode : Bool) (fst : Sized I S)
    (snd : Option (Sized I S)) (w : World) : T (Post I S H × List Nat × World) := do
  let ix := E.ix
  let lhsPos ← Node.keyPos n k
  let oldLhs ← sliceSize ix (szT ix) n k
  let remap := lhsMode && !nop
  let (leaf, ctx, i) ← rhsLeaf n ctx k
  let m : Maps I := ⟨decide (h ≠ 0), remap, h, k, lhsPos, oldLhs, newLhs⟩
  noJoin E ⟨skip, remap⟩ m leaf ctx i (if h = 0 then some newLhs else none) fst snd w

/-- `insertSplit` with steps.  src/tree/insert.rs:529-652 -/
def insertSplit {H h : Nat} (E : Env I S) (nop : Bool) (n : Tree I S (h + 1))
    (ctx : Ctx I S H (h + 1)) (k : Nat) (posInKey : I) (slice : S) (size : I) (w : World) :
    T (Nat × Post I S H × List Nat × World) := do
  let ix := E.ix
  let keySize ← sliceSize ix (szT ix) n k
  let key ← Node.handle n k
  T.tick 1
  let (ls, rs) := E.sl.splitAt key.slice posInKey
  let n ← Node.setSlice n k ls
  let rsize ← T.op (ix.subL keySize posInKey)
  let lsize := posInKey
  if !E.sl.mayJoin then do
    let r ← insertRhs E nop false n ctx k lsize false ⟨slice, size⟩ (some ⟨rs, rsize⟩) w
    pure (2, r)
  else
    T.tick 1
    match E.sl.tryJoin ls slice with
    | .inl mid => do
      let midSize ← T.op (ix.addR lsize size)
      T.tick 1
      match E.sl.tryJoin mid rs with
      | .inl new => do
        let n ← Node.setSlice n k new
        let w ← emit ⟨false, false⟩ (.insertion (Node.ptr n) k) w
        let old ← T.op (ix.addR lsize rsize)
        let newSize ← T.op (ix.addR midSize rsize)
        let (t, path) ← opKey ix (Maps.identity ix) false ctx n k none old newSize []
        pure (0, .done t, path, ctx.readUp (some n.ptr) w)
      | .inr (l, r) => do
        let n ← Node.setSlice n k l
        let w ← emit ⟨false, false⟩ (.insertion (Node.ptr n) k) w
        let r ← insertRhs E nop true n ctx k midSize true ⟨r, rsize⟩ none w
        pure (1, r)
    | .inr (l, s) => do
      let n ← Node.setSlice n k l
      T.tick 1
      match E.sl.tryJoin s rs with
      | .inl new => do
        let newSize ← T.op (ix.addR size rsize)
        let r ← insertRhs E nop false n ctx k lsize false ⟨new, newSize⟩ none w
        pure (1, r)
      | .inr (s, r) => do
        let r ← insertRhs E nop false n ctx k lsize false ⟨s, size⟩ (some ⟨r, rsize⟩) w
        pure (2, r)

/-- `insertAt` with steps.  src/tree/insert.rs:41-197 -/
def insertAt (E : Env I S) {H : Nat} (nop : Bool) (pt : Point I S H) (slice : S) (size : I) (w : World) :
    T (Nat × Post I S H × List Nat × World) :=
  match pt with
  | .edge leaf ctx i lhs rhs => insertEdge E leaf ctx i lhs rhs slice size w
  | .split _ n ctx k p => insertSplit E nop n ctx k p slice size w

/-- `installRoot` with steps.  src/tree/insert.rs:41-197 -/
def installRoot (E : Env I S) {H : Nat} (len : Nat) (post : Post I S (H + 1)) (path : List Nat)
    (handle : Option (Nat × Nat)) (w : World) : T (RleTree I S × Inserted) :=
  match post with
  | .done t => do
    check (!E.refs || handle.isSome) "internal error: final insertion handle is `None`"
    pure (⟨some ⟨H, t, len⟩⟩, ⟨path, handle, w⟩)
  | .newRoot lhs key keySize rhs => do
    let (t, w) ← makeNewParent E.ix lhs key keySize rhs w
    let handle := if E.refs && handle.isNone then some (Node.ptr t, 0) else handle
    check (!E.refs || handle.isSome) "internal error: final insertion handle is `None`"
    pure (⟨some ⟨H + 1, t, len⟩⟩, ⟨path, handle, w⟩)

/-- `RleTree.insert` with steps.  src/tree/insert.rs:41-197 -/
def insert (E : Env I S) (t : RleTree I S) (nop : Bool) (hints : List Nat) (idx : I) (slice : S)
    (size : I) (w : World) : T (RleTree I S × Inserted) := do
  let ix := E.ix
  T.tick 2
  check (!ix.lt (t.size E) idx) "cannot insert new slice, index out of bounds"
  check (!ix.le size ix.zero) "cannot insert new slice, size is not greater than zero"
  match t.root with
  | none => do
    T.tick 2
    let (t, w) ← RleTree.new E slice size w
    match t.root with
    | none => T.error (.unreachable "new tree without root")
    | some r => pure (t, ⟨[], if E.refs then some (Node.ptr r.tree, 0) else none, w⟩)
  | some root => do
    let pt ← findPoint E root.tree .top (some hints) idx none none
    let (dlen, post, path, w) ← insertAt E nop pt slice size { w with events := [], fst := none }
    let handle ← if E.refs then applyEvs w.events else pure none
    installRoot E (root.len + dlen) post path handle w

end Tk
end Sherman
