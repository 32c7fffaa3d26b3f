import Mathlib.Order.Basic
import Mathlib.Order.Lattice
import Mathlib.Order.Defs.LinearOrder
/-!
# Model of `src/range.rs`

The trait `RangeBounds<T>` is modelled by the pair of its two required methods
(`start_bound`, `end_bound`); the four provided methods are modelled function by function.
`T: Ord` is a linear order; comparison operators of Rust are Lean's decidable `≤`/`<`.
-/
namespace Sherman.Range

/-- `StartBound<T>`, src/range.rs:22-27 (references erased). -/
inductive StartBound (T : Type u) where
  | included (x : T)
  | unbounded
  deriving DecidableEq, Repr

/-- `EndBound<T>`, src/range.rs:32-38 (references erased). -/
inductive EndBound (T : Type u) where
  | included (x : T)
  | excluded (x : T)
  | unbounded
  deriving DecidableEq, Repr

/-- A value of a type implementing `RangeBounds<T>`: what its two required methods return,
src/range.rs:51-55; the impl for `(StartBound<T>, EndBound<T>)` is src/range.rs:216-223. -/
structure Rng (T : Type u) where
  start : StartBound T
  stop : EndBound T
  deriving DecidableEq, Repr

/-- `a..b`, src/range.rs:295 (`impl_rangebounds!(Range: Included..Excluded)`). -/
def ofRange (a b : T) : Rng T := ⟨.included a, .excluded b⟩
/-- `a..`, src/range.rs:296. -/
def ofRangeFrom (a : T) : Rng T := ⟨.included a, .unbounded⟩
/-- `..b`, src/range.rs:297. -/
def ofRangeTo (b : T) : Rng T := ⟨.unbounded, .excluded b⟩
/-- `..=b`, src/range.rs:298. -/
def ofRangeToInclusive (b : T) : Rng T := ⟨.unbounded, .included b⟩
/-- `a..=b`, src/range.rs:234-241. -/
def ofRangeInclusive (a b : T) : Rng T := ⟨.included a, .included b⟩
/-- `..`, src/range.rs:251-258. -/
def ofRangeFull : Rng T := ⟨.unbounded, .unbounded⟩

variable {T : Type u} [LinearOrder T]

/-- `RangeBounds::contains`, src/range.rs:58-73 (at `U = T`). -/
def contains (r : Rng T) (item : T) : Bool :=
  (match r.start with
   | .included start => decide (start ≤ item)
   | .unbounded => true) &&
  (match r.stop with
   | .included stop => decide (item ≤ stop)
   | .excluded stop => decide (item < stop)
   | .unbounded => true)

/-- `RangeBounds::starts_after_end`, src/range.rs:80-90. -/
def startsAfterEnd (r : Rng T) : Bool :=
  match r.start, r.stop with
  | .unbounded, _ => false
  | _, .unbounded => false
  | .included x, .included y => decide (x > y)
  | .included x, .excluded y => decide (x ≥ y)

/-- `RangeBounds::is_empty_naive`, src/range.rs:110-120. -/
def isEmptyNaive (r : Rng T) : Bool :=
  match r.start, r.stop with
  | .unbounded, _ => false
  | _, .unbounded => false
  | .included x, .included y => decide (x > y)
  | .included x, .excluded y => decide (x ≥ y)

/-- First check of `overlaps_naive`, src/range.rs:148-152: "`self` starts after the end of
`other`". -/
def startPastEnd (s : StartBound T) (e : EndBound T) : Bool :=
  match s, e with
  | .included s, .excluded e => decide (s ≥ e)
  | .included s, .included e => decide (s > e)
  | _, _ => false

/-- Second check of `overlaps_naive`, src/range.rs:155-159: "`self` ends before the start of
`other`". -/
def endBeforeStart (e : EndBound T) (s : StartBound T) : Bool :=
  match e, s with
  | .excluded e, .included s => decide (e ≤ s)
  | .included e, .included s => decide (e < s)
  | _, _ => false

/-- `RangeBounds::overlaps_naive`, src/range.rs:138-162. -/
def overlapsNaive (self other : Rng T) : Bool :=
  if isEmptyNaive self || isEmptyNaive other then false
  else if startPastEnd self.start other.stop then false
  else if endBeforeStart self.stop other.start then false
  else true

end Sherman.Range
