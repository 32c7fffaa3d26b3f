import Verif.Destroy
/-!
# Panics in `Clone` of a slice

(src/tree/node.rs, src/tree/insert.rs, src/tree/mod.rs, src/const_math_hack.rs)

Slices are cloned in two places: an insertion into a copy-on-write tree copies the shared nodes on its way (`shallow_clone`), and `clone`
of a tree without features copies all nodes (`deep_clone`).  Here any of these calls may panic, and the program may catch the panic and
go on.  What is kept is memory with all changes made so far, less what the unwinding destroys.

* A call of `Clone` that returns gives an equal slice.  `left` is the number of calls that return before one panics.
* Nodes have no holes; that takes panics in `try_join` or `split_at` (`Verif/Destroy.lean`).
* Destructors of slices do not panic.
* `find_insertion_point` searches and unshares in turn.  Unsharing does not change what the search reads (`AlikeAll`), so the search is
  done first here.
-/
namespace Sherman.Cow
variable {I S : Type}

/-! ## `GradualInitArray` -/

/-- `GradualInitArray<A>`: `A::LEN` places (`none` is not initialised), of which the first `len` are.
src/const_math_hack.rs:210-215 -/
structure Gradual (S : Type) where
  slots : List (Option S)
  len : Nat

namespace Gradual

/-- src/const_math_hack.rs:218-221 -/
def new (cap : Nat) : Gradual S := ⟨List.replicate cap none, 0⟩

/-- `push_unchecked`; src/const_math_hack.rs:238-255 -/
def push (g : Gradual S) (v : S) : R (Gradual S) := do
  weakAssert (g.len < g.slots.length) "push_unchecked"
  pure ⟨g.slots.set g.len (some v), g.len + 1⟩

/-- A value that the code takes to be initialised.  src/tree/node.rs:1120-1215 -/
def assumeInit : Option S → R S
  | some v => .ok v
  | none => .error (.ub "use of an uninitialised value")

/-- `Drop`: the values whose destructor runs.  src/const_math_hack.rs:316-324 -/
def drop (g : Gradual S) : R (List S) := do
  weakAssert (g.len ≤ g.slots.length) "from_raw_parts_mut"
  (g.slots.take g.len).mapM assumeInit

/-- `into_uninit`: no destructor runs any more.  src/const_math_hack.rs:257-273 -/
def intoUninit (g : Gradual S) : List (Option S) := g.slots

end Gradual

/-! ## Computations that may be unwound -/

/-- What an operation works on: memory, the `Root` of its tree; how many more clones return; the clones made so far, and the values
destroyed so far.  src/tree/mod.rs:162-169 -/
structure CSt (I S : Type) where
  heap : Heap I S
  root : CRoot
  left : Nat
  made : List S
  gone : List S

/-- A computation; changes are kept if it panics.  Unwinding, no counterpart in the code (of src/tree/node.rs:1012-1215) -/
def CM (I S α : Type) := CSt I S → CSt I S × R α

namespace CM
variable {α β : Type}

/-- Return; see `CM` (src/tree/node.rs:1012-1215). -/
def pure (a : α) : CM I S α := fun s => (s, .ok a)

/-- One after the other; see `CM` (src/tree/node.rs:1012-1215). -/
def bind (m : CM I S α) (f : α → CM I S β) : CM I S β := fun s =>
  match m s with
  | (s, .ok a) => f a s
  | (s, .error e) => (s, .error e)

/-- See `CM` (src/tree/node.rs:1012-1215). -/
instance : Monad (CM I S) where
  pure := CM.pure
  bind := CM.bind

/-- Without effect on memory.  See `CM` (src/tree/node.rs:1012-1215) -/
def lift (r : R α) : CM I S α := fun s => (s, r)

/-- A change of memory that is complete or not done at all.  See `CM` (src/tree/node.rs:1012-1215) -/
def onHeap (f : Heap I S → R (Heap I S × α)) : CM I S α := fun s =>
  match f s.heap with
  | .ok (H, a) => ({ s with heap := H }, .ok a)
  | .error e => (s, .error e)

/-- Run the destructor `d` if `m` panics.  src/const_math_hack.rs:316-323, src/tree/mod.rs:997-1047 -/
def unwind (d : CM I S Unit) (m : CM I S α) : CM I S α := fun s =>
  match m s with
  | (s, .ok a) => (s, .ok a)
  | (s, .error e) =>
    match d s with
    | (s, .ok ()) => (s, .error e)
    | (s, .error e') => (s, .error e')

/-- Destructors run on these values.  src/const_math_hack.rs:316-323, src/tree/node.rs:1946-1957 -/
def destroy (vs : List S) : CM I S Unit := fun s => ({ s with gone := s.gone ++ vs }, .ok ())

end CM

/-- `S::clone`, or `P::clone_slice`; src/param.rs:298-304 -/
def cloneSlice (v : S) : CM I S S := fun s =>
  match s.left with
  | 0 => (s, .error userPanic)
  | n + 1 => ({ s with left := n, made := s.made ++ [v] }, .ok v)

/-- The loop that clones the slices of a node.  src/tree/node.rs:1032-1043, 1128-1137 -/
def cloneVals : List S → Gradual S → CM I S (Gradual S)
  | [], g => CM.pure g
  | v :: vs, g => do
    let v' ← CM.unwind (do
      let ds ← CM.lift g.drop
      CM.destroy ds) (cloneSlice v)
    let g ← CM.lift (g.push v')
    cloneVals vs g

/-- The keys of the new node: positions, sizes are copied bit by bit, values are the clones.  src/tree/node.rs:1045-1057, 1139-1151 -/
def withVals : List (Key I S) → List (Option S) → R (List (Key I S))
  | [], _ => .ok []
  | _ :: _, [] => .error (.ub "out of bounds")
  | k :: ks, o :: os => do
    let v ← Gradual.assumeInit o
    let ks ← withVals ks os
    pure ({ k with slice := v } :: ks)

/-- The keys of a copy of a node.  The node has `2 * M` places.  src/tree/node.rs:696-697, 1032-1057, 1128-1151 -/
def cloneKeys (M : Nat) (keys : List (Key I S)) : CM I S (List (Key I S)) := do
  let g ← cloneVals (keys.map (·.slice)) (Gradual.new (2 * M))
  CM.lift (withVals keys g.intoUninit)

/-- `strong_count.increment()` on each child; src/tree/node.rs:1069-1073 -/
def incrementKids (imax : Nat) : List Nat → CM I S Unit
  | [] => CM.pure ()
  | q :: qs => do
    CM.onHeap (fun H => do
      let H ← increment imax H q
      pure (H, ()))
    incrementKids imax qs

/-- `shallow_clone`: the values first, then the counts of the children.  src/tree/node.rs:1007-1085 -/
def shallowCloneC (M imax h p : Nat) : CM I S Nat := do
  let nd ← CM.onHeap (fun H => do
    let nd ← H.get p
    pure (H, nd))
  let keys ← cloneKeys M nd.keys
  incrementKids imax (if h = 0 then [] else nd.kids)
  CM.onHeap (fun H => pure (H.alloc { nd with count := 1, keys := keys }))

/-- `ensure_unique`; src/tree/node.rs:2571-2609 -/
def ensureUniqueC (M imax h p : Nat) : CM I S Nat := do
  let nd ← CM.onHeap (fun H => do
    let nd ← H.get p
    pure (H, nd))
  if nd.count = 1 then CM.pure p
  else do
    let p' ← shallowCloneC M imax h p
    CM.onHeap (fun H => do
      let H ← dropRef h H p
      pure (H, ()))
    CM.pure p'

/-- The child pointer at index `c` of the node `p`.  src/tree/node.rs:2043-2065 -/
def childPtr (p c : Nat) (H : Heap I S) : R (Heap I S × Nat) := do
  let nd ← H.get p
  match nd.kids[c]? with
  | none => .error (.ub "into_child")
  | some q => pure (H, q)

/-- Overwrite it.  src/tree/node.rs:2583-2608 -/
def setChildPtr (p c q : Nat) (H : Heap I S) : R (Heap I S × Unit) := do
  let nd ← H.get p
  pure (H.put p { nd with kids := nd.kids.set c q }, ())

/-- The descent along `path` from a node of height `h`: the address of the last node.  The place in the parent is overwritten only after
the copy is complete.  src/tree/insert.rs:1229-1326, 1006-1024; src/tree/node.rs:2030-2075, 2600 -/
def unshareDownC (M imax : Nat) : (path : List Nat) → (h p : Nat) → CM I S Nat
  | [], _, p => CM.pure p
  | c :: path, h, p => do
    let q ← CM.onHeap (childPtr p c)
    let q' ← ensureUniqueC M imax (h - 1) q
    CM.onHeap (setChildPtr p c q')
    unshareDownC M imax path (h - 1) q'

/-- `make_unique` on the root; src/tree/insert.rs:92-96, src/tree/node.rs:1602-1622 -/
def makeRootUnique (M imax : Nat) : CM I S Nat := fun s =>
  match ensureUniqueC M imax s.root.h s.root.p s with
  | (s, .ok p) => ({ s with root := { s.root with p := p } }, .ok p)
  | (s, .error e) => (s, .error e)

/-! ## Insertion -/

/-- What `do_insert_full_split_key` does before `insert_rhs`: the slice put back into the key, by how much `len` grows, and the slices still
to be inserted; `none` if everything was joined.  src/tree/insert.rs:529-652 -/
def splitParts (E : Env I S) (key : S) (posInKey : I) (slice : S) : Option (S × Nat × List S) :=
  let (l, r) := E.sl.splitAt key posInKey
  if E.sl.mayJoin then
    match E.sl.tryJoin l slice with
    | .inl mid =>
      match E.sl.tryJoin mid r with
      | .inl _ => none
      | .inr (l, r) => some (l, 1, [r])
    | .inr (l, s) =>
      match E.sl.tryJoin s r with
      | .inl new => some (l, 1, [new])
      | .inr (m, r) => some (l, 2, [m, r])
  else some (l, 2, [slice, r])

/-- The slice of a key is replaced.  src/tree/insert.rs:540, 567-577, 619 -/
def setKeySlice (p k : Nat) (v : S) (H : Heap I S) : R (Heap I S × Unit) := do
  let nd ← H.get p
  match nd.keys[k]? with
  | none => .error (.ub "slice handle index")
  | some key => pure (H.put p { nd with keys := nd.keys.set k { key with slice := v } }, ())

/-- `*tree_len += d`; src/tree/insert.rs:547, 603, 618, 636 -/
def addLen (d : Nat) : CM I S Unit := fun s => ({ s with root := { s.root with len := s.root.len + d } }, .ok ())

/-- The part of an insertion into the tree `t` that may clone slices: the way down to the insertion point; then, if a key in an internal
node is split, after the key was changed, the way to the leaf right of it.  The slices that the insertion owns are destroyed by
unwinding.  src/tree/insert.rs:88-98, 529-652, 1004-1024, 1229-1326 -/
def descend (E : Env I S) (imax : Nat) {h : Nat} (t : Tree I S (h + 1)) (hints : List Nat) (idx : I) (slice : S) : CM I S Unit := do
  let (pt : Point I S (h + 1)) ← CM.lift (findPoint E t .top (some hints) idx none none)
  match pt with
  | .edge _ ctx _ _ _ => do
    let _ ← CM.unwind (CM.destroy [slice]) (do
      let p ← makeRootUnique E.M imax
      unshareDownC E.M imax ctx.way h p)
    CM.pure ()
  | .split g n ctx k d => do
    let q ← CM.unwind (CM.destroy [slice]) (do
      let p ← makeRootUnique E.M imax
      unshareDownC E.M imax ctx.way h p)
    let key ← CM.lift (Node.handle n k)
    match splitParts E key.slice d slice with
    | none => CM.pure ()
    | some (l, d, rest) => do
      CM.onHeap (setKeySlice q k l)
      addLen d
      let _ ← CM.unwind (CM.destroy rest) (unshareDownC E.M imax (rhsWay g k) g q)
      CM.pure ()

/-- How an operation ended that the program goes on after; the clones made, and the values destroyed, by a panicking operation.
std::panic::catch_unwind around src/tree/mod.rs:677-805 -/
inductive Ended (S : Type) where
  | returned
  | panicked (made gone : List S)

/-- The panics of user code are caught, with the state that they leave.  std::panic::catch_unwind around src/tree/mod.rs:677-805 -/
def caught {α : Type} (r : CSt I S × R α) : R (CSt I S × Option α) :=
  match r with
  | (s, .ok a) => .ok (s, some a)
  | (s, .error e) => if e = userPanic then .ok (s, none) else .error e

/-- `insert` and its variants, if `left` calls of `Clone` return before one panics; src/tree/insert.rs:41-197.  If no call panics, this is
`St.insert`. -/
def St.insertC (E : Env I S) (imax left : Nat) (st : St I S) (i : Nat) (nop : Bool) (hints : List Nat) (idx : I) (slice : S) (size : I) :
    R (St I S × Ended S) := do
  match ← st.tree i with
  | none => do
    let st ← st.insert E imax i nop hints idx slice size
    pure (st, .returned)
  | some r => do
    let t ← readT st.heap (r.h + 1) r.p
    check (!E.ix.lt (Node.size t) idx) "cannot insert new slice, index out of bounds"
    check (!E.ix.le size E.ix.zero) "cannot insert new slice, size is not greater than zero"
    match ← caught (descend E imax t hints idx slice ⟨st.heap, r, left, [], []⟩) with
    | (_, some ()) => do
      let st ← st.insert E imax i nop hints idx slice size
      pure (st, .returned)
    | (s, none) => pure ({ st with heap := s.heap }.setTree i (some (some s.root)), .panicked s.made s.gone)

/-! ## Cloning -/

/-- `NodeBox`es are dropped, one after another.  src/tree/mod.rs:1020-1030, src/const_math_hack.rs:316-324 -/
def dropBoxes (h : Nat) (boxes : List Nat) : CM I S Unit := fun s =>
  match dropKids (dropLog noHoles h) s.heap boxes with
  | .ok (H, g) => ({ s with heap := H, gone := s.gone ++ g.vals }, .ok ())
  | .error e => (s, .error e)

/-- The loop over the children in `deep_clone`; `acc` are the boxes with the new children.  There are `2 * M + 1` places.
src/tree/node.rs:704-705, 1160-1176 -/
def cloneBoxes (M h : Nat) (f : Nat → CM I S Nat) : List Nat → List Nat → CM I S (List Nat)
  | [], acc => CM.pure acc
  | q :: qs, acc => do
    let q' ← CM.unwind (dropBoxes h acc) (f q)
    CM.lift (weakAssert (acc.length < 2 * M + 1) "push_unchecked")
    cloneBoxes M h f qs (acc ++ [q'])

/-- `deep_clone`.  The values of the new node are `MaybeUninit` while the children are cloned; no destructor runs on them if that panics.
src/tree/node.rs:1117-1215 -/
def deepCloneC (M : Nat) : (h p : Nat) → CM I S Nat
  | 0, p => do
    let nd ← CM.onHeap (fun H => do
      let nd ← H.get p
      pure (H, nd))
    let keys ← cloneKeys M nd.keys
    CM.onHeap (fun H => pure (H.alloc { nd with count := 1, keys := keys }))
  | h + 1, p => do
    let nd ← CM.onHeap (fun H => do
      let nd ← H.get p
      pure (H, nd))
    let keys ← cloneKeys M nd.keys
    let kids ← cloneBoxes M h (deepCloneC M h) nd.kids []
    CM.onHeap (fun H => pure (H.alloc { nd with count := 1, keys := keys, kids := kids }))

/-- `clone` with `param::NoFeatures`, if `left` calls of `Clone` return before one panics.  src/tree/mod.rs:763-781 -/
def St.clonePlainC (M left : Nat) (st : St I S) (i : Nat) : R (St I S × Ended S) := do
  match ← st.tree i with
  | none => pure ({ st with trees := st.trees ++ [some none] }, .returned)
  | some r => do
    match ← caught (deepCloneC M r.h r.p ⟨st.heap, r, left, [], []⟩) with
    | (s, some p) => pure (⟨s.heap, st.trees ++ [some (some { r with p := p })]⟩, .returned)
    | (s, none) => pure ({ st with heap := s.heap }, .panicked s.made s.gone)

/-- One operation, with the number of calls of `Clone` that return; `cow` is `P::COW`.  src/tree/mod.rs:172-190, 315-370, 677-702,
765-805 -/
def St.stepC (E : Env I S) (imax : Nat) (cow : Bool) (st : St I S) : Op I S × Nat → R (St I S × Ended S)
  | (.new, _) => do
    let st ← st.newEmpty E
    pure (st, .returned)
  | (.insert i nop hints idx slice size, left) => st.insertC E imax left i nop hints idx slice size
  | (.clone i, left) =>
    if cow then do
      let st ← st.cloneCow imax i
      pure (st, .returned)
    else st.clonePlainC E.M left i
  | (.drop i, _) => do
    let st ← st.drop i
    pure (st, .returned)

/-- A program that catches the panics of `Clone`: how each operation ended.  No counterpart in the code (calls of
src/tree/mod.rs:315-805) -/
def St.runC (E : Env I S) (imax : Nat) (cow : Bool) (st : St I S) : List (Op I S × Nat) → R (St I S × List (Ended S))
  | [] => pure (st, [])
  | op :: ops => do
    let (st, e) ← st.stepC E imax cow op
    let (st, es) ← St.runC E imax cow st ops
    pure (st, e :: es)

end Sherman.Cow
