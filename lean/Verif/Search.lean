import Verif.Tree
/-!
# Searching (src/tree/mod.rs) : `search_step`, `get_with_cursor`, `cursor_to`
-/
namespace Sherman
variable {I S : Type}

/-- `ChildOrKey<(u8, I), (u8, I)>`: index and position.  src/tree/node.rs:596-599 -/
inductive Step (I : Type) where
  | child (idx : Nat) (pos : I)
  | key (idx : Nat) (pos : I)
  deriving DecidableEq, Repr

/-- The hint part of `search_step`: `none` is `break 'bad_hint`.  Leaves ignore hints.
src/tree/mod.rs:854-885 -/
def hintStep (ix : IdxOps I) {h : Nat} (n : Tree I S (h + 1)) (hint : Option Nat) (target : I) :
    R (Option (Step I)) :=
  match h, hint with
  | 0, _ => pure none
  | _ + 1, none => pure none
  | _ + 1, some c => do
    if c > Node.len n then pure none
    else
      let cs ← Node.childSize (szT ix) n c
      let next := Node.nextPos n c
      let cpos ← ix.subR next cs
      if ix.le cpos target && ix.lt target next then pure (some (.child c cpos)) else pure none

/-- The part of `search_step` after the hint.  src/tree/mod.rs:892-922 -/
def fullStep (ix : IdxOps I) {h : Nat} (n : Tree I S (h + 1)) (target : I) : R (Step I) := do
  match ← bsearch ix (n.keys.map (·.pos)) target 0 (Node.len n) with
  | .inr 0 => pure (.child 0 ix.zero)
  | .inl i => do
    let p ← Node.keyPos n i
    pure (.key i p)
  | .inr (k + 1) => do
    let next := Node.nextPos n (k + 1)
    let cs ← Node.childSize (szT ix) n (k + 1)
    check (!ix.debug || ix.le target next) "debug_assert: target <= next_key_pos"
    let start ← ix.subR next cs
    if ix.lt target start then
      let p ← Node.keyPos n k
      pure (.key k p)
    else pure (.child (k + 1) start)

/-- `search_step(node, hint, target)`.  src/tree/mod.rs:846-922 -/
def searchStep (ix : IdxOps I) {h : Nat} (n : Tree I S (h + 1)) (hint : Option Nat) (target : I) :
    R (Step I) := do
  check (!ix.debug || ix.le target (Node.size n)) "debug_assert: target <= subtree_size"
  match ← hintStep ix n hint target with
  | some r => pure r
  | none => fullStep ix n target

/-- The `hint_was_good` test: keep the remaining hints only if the search went into the hinted child.
`hints` is `none` once `cursor_iter` has been dropped.  src/tree/mod.rs:412-421, insert.rs:1241-1262 -/
def nextHints (hints : Option (List Nat)) (r : Step I) : Option (List Nat) :=
  match hints, r with
  | some (c :: cs), .child i _ => if i = c then some cs else none
  | _, _ => none

/-- `cursor_iter.as_mut().and_then(|it| it.next())`; src/tree/mod.rs:412, src/tree/insert.rs:1241 -/
def headHint (hints : Option (List Nat)) : Option Nat := hints.bind List.head?

/-- What `get` returns: the range of the slice, the slice, and where it is stored.  src/tree/entry.rs:20-30 -/
structure Entry (I S : Type) where
  start : I
  stop : I
  slice : S
  ptr : Nat
  idx : Nat
  ref : Option Nat
  deriving DecidableEq, Repr

/-- The `ChildOrKey::Key` arm of the loop of `get_with_cursor`.  src/tree/mod.rs:424-436 -/
def getKey (ix : IdxOps I) (idx : I) {h : Nat} (n : Tree I S (h + 1)) (target : I) (k : Nat)
    (kpos : I) : R (Entry I S) := do
  let key ← Node.handle n k
  let d ← ix.subL target kpos
  let start ← ix.subR idx d
  let size ← Node.sliceSize ix (szT ix) n k
  let stop ← ix.addR start size
  pure ⟨start, stop, key.slice, n.ptr, k, key.ref⟩

/-- The loop of `get_with_cursor`; `idx` is the global index.  src/tree/mod.rs:411-447 -/
def getLoop (ix : IdxOps I) (idx : I) : {h : Nat} → Tree I S (h + 1) → Option (List Nat) → I →
    R (Entry I S)
  | 0, n, hints, target => do
    match ← searchStep ix n (headHint hints) target with
    | .key k kpos => getKey ix idx n target k kpos
    | .child _ cpos => do
      let _ ← ix.subL target cpos
      .error (.unreachable "get: child of leaf")
  | _ + 1, n, hints, target => do
    match ← searchStep ix n (headHint hints) target with
    | .key k kpos => getKey ix idx n target k kpos
    | .child c cpos => do
      let target' ← ix.subL target cpos
      let ch ← Node.child n c
      getLoop ix idx ch (nextHints hints (.child c cpos)) target'

/-- The path computed by `cursor_to` on a tree that does not share nodes (`P::COW = false`, or no
mismatched parents): child indices from the root to the node holding the target.
src/tree/mod.rs:476-526.  The upward loop that prepends components reads the same indices off the
parent links that the downward loop chose: `RleTree.cursorToUp_eq` in `Verif/LinkProps.lean`; for shared nodes see `Verif/CowCursor.lean`. -/
def cursorLoop (ix : IdxOps I) : {h : Nat} → Tree I S (h + 1) → I → R (List Nat)
  | 0, _, _ => pure []
  | _ + 1, n, target => do
    match ← searchStep ix n none target with
    | .key _ _ => pure []
    | .child c cpos => do
      let target ← ix.subL target cpos
      let ch ← Node.child n c
      let p ← cursorLoop ix ch target
      pure (c :: p)

/-- `Root`: the root node and the number of slices.  src/tree/mod.rs (struct `Root`); src/tree/mod.rs:162-169 -/
structure Root (I S : Type) where
  h : Nat
  tree : Tree I S (h + 1)
  len : Nat

/-- `RleTree { root: Option<Root> }`; src/tree/mod.rs:110-115 -/
structure RleTree (I S : Type) where
  root : Option (Root I S)

namespace RleTree

/-- `new_empty`; src/tree/mod.rs:324-328 -/
def newEmpty (E : Env I S) : R (RleTree I S) := do
  check (E.M ≤ 127) "const M must be <= 127"
  check (1 ≤ E.M) "const M must be >= 1"
  pure ⟨none⟩

/-- `new(slice, size)`; src/tree/mod.rs:339-358 -/
def new (E : Env I S) (slice : S) (size : I) (w : World) : R (RleTree I S × World) := do
  check (E.M ≤ 127) "const M must be <= 127"
  check (1 ≤ E.M) "const M must be >= 1"
  check (!E.ix.le size E.ix.zero) "cannot add slice with non-positive size"
  pure (⟨some ⟨0, newRoot E.ix w.next slice size, 1⟩⟩, w.alloc)

/-- `size()`; src/tree/mod.rs:361-366 -/
def size (E : Env I S) (t : RleTree I S) : I :=
  match t.root with
  | some r => Node.size r.tree
  | none => E.ix.zero

/-- `number_of_slices()`; src/tree/mod.rs:372-377 -/
def numberOfSlices (t : RleTree I S) : Nat :=
  match t.root with
  | some r => r.len
  | none => 0

/-- `get_with_cursor(cursor, idx)`, `hints` being `cursor.into_path()`; src/tree/mod.rs:398-448 -/
def get (E : Env I S) (t : RleTree I S) (hints : List Nat) (idx : I) : R (Entry I S) := do
  check (!E.ix.lt idx E.ix.zero) "index out of bounds, less than zero"
  check (E.ix.lt idx (t.size E)) "index out of bounds"
  match t.root with
  | none => .error (.panic "`self.root` should be `Some` if `0 <= idx < size`")
  | some r => getLoop E.ix idx r.tree (some hints) idx

/-- `cursor_to(idx)`; src/tree/mod.rs:460-529 -/
def cursorTo (E : Env I S) (t : RleTree I S) (idx : I) : R (List Nat) := do
  check (!E.ix.lt idx E.ix.zero) "index out of bounds, less than zero"
  check (E.ix.lt idx (t.size E)) "index out of bounds"
  match t.root with
  | none => .error (.panic "`self.root` should be `Some` if `0 <= idx < size`")
  | some r => cursorLoop E.ix r.tree idx

end RleTree
end Sherman
