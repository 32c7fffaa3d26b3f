import Verif.Iter
import Verif.RefTree

/-!
# Model of src/serde.rs

A serialiser is given the sequence of pairs, a deserialiser provides one; the format itself is not modelled.
-/

namespace Sherman
variable {I S : Type}

/-- `SliceEntry::size`; src/tree/entry.rs:91-93. -/
def Entry.size (ix : IdxOps I) (e : Entry I S) : R I := ix.subR e.stop e.start

/-- `collect_seq` over `iter(..).map(|entry| (entry.size(), entry.slice()))`: calls `next` until it returns `None`. At most `fuel`
calls are made; the theorems are about all sufficiently large `fuel`.  src/serde.rs:18-20 -/
def collectSeq (ix : IdxOps I) : Nat → Iter I S → R (List (I × S))
  | 0, _ => .error (.ub "out of fuel")
  | fuel + 1, it => do
    let (x, it) ← it.next ix
    match x with
    | none => pure []
    | some e => do
      let n ← e.size ix
      let rest ← collectSeq ix fuel it
      pure ((n, e.slice) :: rest)

/-- `Serialize::serialize`; src/serde.rs:18-20. -/
def RleTree.serialize [LinearOrder I] (E : Env I S) (fuel : Nat) (t : RleTree I S) : R (List (I × S)) := do
  let it ← t.iter E [] Range.ofRangeFull
  collectSeq E.ix fuel it

/-- The loop of `visit_seq`; src/serde.rs:50-58. -/
def RefTree.extend (E : Env I S) : RefTree I S → List (I × S) → R (RefTree I S)
  | st, [] => pure st
  | st, (size, s) :: rest => do
    let (st, _) ← st.insert E true [] (st.tree.size E) s size
    RefTree.extend E st rest

/-- `Deserialize::deserialize`; src/serde.rs:29-31, 50-58. Addresses of nodes start at `n`. -/
def RefTree.deserialize (E : Env I S) (n : Nat) (items : List (I × S)) : R (RefTree I S) := do
  let t ← RleTree.newEmpty E
  RefTree.extend E ⟨t, Recycle.empty, n⟩ items

end Sherman
