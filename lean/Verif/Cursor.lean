import Verif.Base
/-!
# Model of `BoundedCursor<LEN>` (src/cursor.rs)

A path component is its `child_idx` (a `Nat`; u8 range plays no role here).  The array
`path: [PathComponent; LEN]` is a list, indexing out of range is a panic.
-/
namespace Sherman.Cursor

/-- `struct BoundedCursor<LEN>`, src/cursor.rs:60-63. -/
structure BoundedCursor where
  path : List Nat
  startAt : Nat
  deriving DecidableEq, Repr

/-- The filler component `0xFF`, src/cursor.rs:104. -/
def filler : Nat := 0xFF

/-- `BoundedCursor::new_empty`, src/cursor.rs:96-107. -/
def newEmpty (LEN : Nat) : R BoundedCursor := do
  check (decide (LEN ≤ 255)) "tried to construct BoundedCursor with LEN > u8::MAX"
  pure { path := List.replicate LEN filler, startAt := if LEN = 0 then 0 else LEN - 1 }

/-- `BoundedCursor::prepend_to_path`, src/cursor.rs:109-122.  `copy_within(0..LEN-1, 1)` followed
by `path[0] = component` is `component :: path[0..LEN-1]`. -/
def prepend (LEN : Nat) (c : BoundedCursor) (component : Nat) : R BoundedCursor :=
  if c.startAt = 0 then
    if LEN = 0 then .ok c
    else .ok { c with path := component :: c.path.take (LEN - 1) }
  else if c.startAt < c.path.length then
    .ok { path := c.path.set c.startAt component, startAt := c.startAt - 1 }
  else .error (.panic "index out of bounds")

/-- `Iterator::next`, src/cursor.rs:134-142. -/
def next (LEN : Nat) (c : BoundedCursor) : R (Option Nat × BoundedCursor) :=
  if c.startAt = LEN then .ok (none, c)
  else match c.path[c.startAt]? with
    | some x => .ok (some x, { c with startAt := c.startAt + 1 })
    | none => .error (.panic "index out of bounds")

/-- Prepend a sequence of components, first element first (what an upward traversal does).  src/cursor.rs:109-122, called as in
src/tree/entry.rs:106-124 -/
def prependAll (LEN : Nat) : BoundedCursor → List Nat → R BoundedCursor
  | c, [] => .ok c
  | c, x :: xs => do prependAll LEN (← prepend LEN c x) xs

/-- Call `next` `n` times and collect what it yields until the first `None`.  src/cursor.rs:131-148 -/
def readN (LEN : Nat) : Nat → BoundedCursor → R (List Nat)
  | 0, _ => .ok []
  | n + 1, c => do
    match ← next LEN c with
    | (none, _) => pure []
    | (some x, c') => do
      let rest ← readN LEN n c'
      pure (x :: rest)

/-- Everything the path iterator yields (it can yield at most `LEN` items: it counts `start_at`
up to `LEN`; one more call is made to see the `None`).  src/cursor.rs:126-148 -/
def read (LEN : Nat) (c : BoundedCursor) : R (List Nat) := readN LEN (LEN + 1) c

/-- The whole life of a bounded cursor: create, prepend `cs` in order, read back.  src/cursor.rs:93-148 -/
def roundTrip (LEN : Nat) (cs : List Nat) : R (List Nat) := do
  let c ← newEmpty LEN
  let c ← prependAll LEN c cs
  read LEN c

end Sherman.Cursor
