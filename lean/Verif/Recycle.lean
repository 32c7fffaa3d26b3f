import Verif.Base
/-!
# Model of `RecycleVec<T>` (src/recycle.rs)

`EntryId`/`LinkId` are represented by the index `idx_plus_one - 1`; `Vec` is a list; indexing out
of range is a panic; `weak_unreachable!` is UB.  `rcMax` is `usize::MAX`.
-/
namespace Sherman.Recycle

/-- `enum Entry<T>` with `struct Value<T>` inlined, src/recycle.rs:54-62. -/
inductive Entry (T : Type) where
  | link (next : Option Nat)
  | value (refCount : Nat) (inner : T)
  deriving DecidableEq, Repr

/-- `struct RecycleVec<T>`, src/recycle.rs:10-13. -/
structure RecycleVec (T : Type) where
  vals : List (Entry T)
  headEmpty : Option Nat
  deriving DecidableEq, Repr

variable {T : Type}

/-- `Default::default`, src/recycle.rs:64-68. -/
def empty : RecycleVec T := ⟨[], none⟩

/-- `next_link`, src/recycle.rs:210-216. -/
def nextLink (rv : RecycleVec T) (id : Nat) : R (Option Nat) :=
  match rv.vals[id]? with
  | some (.link next) => .ok next
  | some (.value _ _) => .error (.ub "LinkId references a value")
  | none => .error (.panic "index out of bounds")

/-- `push`, src/recycle.rs:129-147. -/
def push (rv : RecycleVec T) (val : T) : R (Nat × RecycleVec T) :=
  match rv.headEmpty with
  | some id => do
    let head ← nextLink rv id
    if id < rv.vals.length then
      pure (id, { vals := rv.vals.set id (.value 1 val), headEmpty := head })
    else .error (.panic "index out of bounds")
  | none => .ok (rv.vals.length, { rv with vals := rv.vals ++ [.value 1 val] })

/-- `recycle`, src/recycle.rs:150-181. -/
def recycle (rv : RecycleVec T) (id : Nat) : R (Option T × RecycleVec T) :=
  match rv.vals[id]? with
  | none => .error (.panic "index out of bounds")
  | some (.link _) => .error (.ub "EntryId references a link")
  | some (.value rc inner) =>
    -- `NonZeroUsize::get() - 1`
    if rc = 0 then .error .underflow
    else if rc - 1 = 0 then
      .ok (some inner, { vals := rv.vals.set id (.link rv.headEmpty), headEmpty := some id })
    else .ok (none, { rv with vals := rv.vals.set id (.value (rc - 1) inner) })

/-- `clone`, src/recycle.rs:184-193. -/
def clone (rcMax : Nat) (rv : RecycleVec T) (id : Nat) : R (Nat × RecycleVec T) :=
  match rv.vals[id]? with
  | none => .error (.panic "index out of bounds")
  | some (.link _) => .error (.ub "EntryId references a link")
  | some (.value rc inner) =>
    if rc + 1 ≤ rcMax then .ok (id, { rv with vals := rv.vals.set id (.value (rc + 1) inner) })
    else .error (.panic "called `Option::unwrap()` on a `None` value")

/-- `get`, src/recycle.rs:196-202. -/
def get (rv : RecycleVec T) (id : Nat) : R T :=
  match rv.vals[id]? with
  | none => .error (.panic "index out of bounds")
  | some (.link _) => .error (.ub "EntryId references a link")
  | some (.value _ inner) => .ok inner

/-- `replace`, src/recycle.rs:205-211. -/
def replace (rv : RecycleVec T) (id : Nat) (val : T) : R (T × RecycleVec T) :=
  match rv.vals[id]? with
  | none => .error (.panic "index out of bounds")
  | some (.link _) => .error (.ub "EntryId references a link")
  | some (.value rc inner) => .ok (inner, { rv with vals := rv.vals.set id (.value rc val) })

/-- One API call.  src/recycle.rs:131-211 -/
inductive Op (T : Type) where
  | push (v : T) | recycle (id : Nat) | clone (id : Nat) | get (id : Nat) | replace (id : Nat) (v : T)

/-- What an API call returns.  src/recycle.rs:131-211 -/
inductive Out (T : Type) where
  | id (i : Nat) | released (v : Option T) | val (v : T)

/-- Dispatch an API call to the function modelling it.  src/recycle.rs:131-211 -/
def step (rcMax : Nat) (rv : RecycleVec T) : Op T → R (Out T × RecycleVec T)
  | .push v => do let (i, rv) ← push rv v; pure (.id i, rv)
  | .recycle i => do let (o, rv) ← recycle rv i; pure (.released o, rv)
  | .clone i => do let (j, rv) ← clone rcMax rv i; pure (.id j, rv)
  | .get i => do let v ← get rv i; pure (.val v, rv)
  | .replace i v => do let (w, rv) ← replace rv i v; pure (.val w, rv)

/-- Run a whole history of calls.  src/recycle.rs:131-211 -/
def run (rcMax : Nat) : RecycleVec T → List (Op T) → R (List (Out T) × RecycleVec T)
  | rv, [] => .ok ([], rv)
  | rv, op :: ops => do
    let (o, rv) ← step rcMax rv op
    let (os, rv) ← run rcMax rv ops
    pure (o :: os, rv)

end Sherman.Recycle
