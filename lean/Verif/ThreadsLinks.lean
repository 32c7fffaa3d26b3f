import Verif.ThreadsProps
import Verif.CowLinkInv
import Verif.CowIter
/-!
# Parent links of nodes, written by several threads

(src/tree/node.rs, src/tree/insert.rs, src/tree/cow.rs)

`Verif/Threads.lean` with the parent link that each node stores (as in `Verif/CowLinks.lean`).  Each step does its accesses to links.

* Before a thread overwrites the link of a child that is not on its way down it asks whether the child `is_unique`.  These questions are
  steps of their own (`LAct.look`), at any time between the end of the descent and the last step, and for any nodes.  A node that was found
  shared once is taken to be shared until the insertion is over.
* The link of a node on the way down is written when the node has been reached; for a copy this is before the references of the original
  are given up, in the code afterwards.  No other thread can reach the copy.
* Links of freed nodes stay in the map; addresses are not used again (the code fails otherwise, C40).
-/
namespace Sherman.Cow
variable {I S : Type}

/-! ## Model -/

/-- The link that the next node on the way gets: to the node before it; for the root none.  src/tree/insert.rs:96, src/tree/node.rs:2071-2081 -/
def Task.linkTo (t : Task I S) : Option (Nat × Nat) :=
  match t.node, t.todo with
  | some p, c :: _ => some (p, c)
  | _, _ => none

/-- The accesses to links by the next step of an insertion.  `sh`: the nodes that are found shared.
src/tree/node.rs:1027-1030, 2071-2081; src/tree/insert.rs:96, 104-197 -/
def Task.linkStep (E : Env I S) (H : Heap I S) (L : LinkMap) (sh : Nat → Bool) (t : Task I S) : R LinkMap := do
  match t.pc with
  | .check =>
    match ← t.target H with
    | none => do
      let tree ← readT H (t.root.h + 1) t.root.p
      let (_, out) ← RleTree.insert E ⟨some ⟨t.root.h, tree, t.root.len⟩⟩ t.args.nop t.args.hints t.args.idx t.args.slice t.args.size
        ⟨H.next, [], [], none, []⟩
      runLinks ⟨true, sh⟩ L out.world.links
    | some q => do
      let nd ← H.get q
      if nd.count = 1 then pure (L.put q t.linkTo) else pure L
  | .incr _ [] =>
    match ← t.target H with
    | none => .error (.ub "ensure_unique")
    | some q => pure ((L.put H.next (L q)).put H.next t.linkTo)
  | _ => pure L

/-- The descent is over.  src/tree/insert.rs:104-106 -/
def Task.arrived (t : Task I S) : Bool :=
  match t.pc, t.node, t.todo with
  | .check, some _, [] => true
  | _, _, _ => false

/-- What can happen; as `Act`, and a thread that asks whether a node is shared.  src/tree/cow.rs:26-30; src/tree/mod.rs:172-190, 315-370 -/
inductive LAct (I S : Type) where
  | act (a : Act I S)
  | look (i x : Nat)

/-- Memory, tree variables, links; and for each variable the nodes that the thread working on it has found shared since the descent.
src/tree/mod.rs:110-115, src/tree/node.rs:440-469 -/
structure LTSt (I S : Type) where
  st : TSt I S
  links : LinkMap
  seen : Nat → List Nat

namespace LTSt

/-- No trees, no nodes.  No counterpart in the code (before any call of src/tree/mod.rs:315-360) -/
def init : LTSt I S := ⟨TSt.init, fun _ => none, fun _ => []⟩

/-- The nodes that the thread of variable `i` takes to be shared: those that are, and those that were when it asked.
src/tree/cow.rs:26-30 -/
def sees (s : LTSt I S) (i x : Nat) : Bool := shared s.st.heap x || (s.seen i).contains x

/-- The accesses to links by something that happens.  `new`, `clone` and destructors have none.
src/tree/node.rs:1087-1105, 1846-1930; src/tree/insert.rs:41-197; src/tree/mod.rs:245-294, 765-805 -/
def linkAct (E : Env I S) (s : LTSt I S) : Act I S → R LinkMap
  | .insert i a => do
    match ← s.st.idle i with
    | none => do
      let (_, out) ← RleTree.insert E ⟨none⟩ a.nop a.hints a.idx a.slice a.size ⟨s.st.heap.next, [], [], none, []⟩
      runLinks ⟨true, shared s.st.heap⟩ s.links out.world.links
    | some _ => pure s.links
  | .step i =>
    match s.st.vars[i]? with
    | some (.busy t) => t.linkStep E s.st.heap s.links (s.sees i)
    | _ => pure s.links
  | _ => pure s.links

/-- What a thread has found shared so far, after something has happened: nothing, when an insertion begins or a thread has taken a step.
src/tree/insert.rs:41-50 -/
def seenAfter (s : LTSt I S) : Act I S → Nat → List Nat
  | .insert i _ | .step i => fun j => if j = i then [] else s.seen j
  | _ => s.seen

/-- One thing that happens, and the operations that have taken effect by it.  src/tree/mod.rs:172-190, 245-294, 315-370, 677-702, 783-806;
src/tree/cow.rs:26-30 -/
def act (E : Env I S) (imax : Nat) (s : LTSt I S) : LAct I S → R (LTSt I S × List (Op I S))
  | .act a => do
    let (st, l) ← s.st.act E imax a
    let L ← s.linkAct E a
    pure (⟨st, L, s.seenAfter a⟩, l)
  | .look i x =>
    match s.st.vars[i]? with
    | some (.busy t) =>
      pure (if t.arrived && shared s.st.heap x then ⟨s.st, s.links, fun j => if j = i then x :: s.seen j else s.seen j⟩ else s, [])
    | _ => pure (s, [])

/-- A whole execution, and the operations that have taken effect, in order.  src/tree/mod.rs:172-190, 315-805 -/
def run (E : Env I S) (imax : Nat) : LTSt I S → List (LAct I S) → R (LTSt I S × List (Op I S))
  | s, [] => pure (s, [])
  | s, a :: as => do
    let (s, l) ← s.act E imax a
    let (s, l') ← run E imax s as
    pure (s, l ++ l')

/-- `iter(range)` and `iter_with_cursor(cursor, range)` on a variable that nobody has exclusive access to; as `LSt.iter`.
src/tree/mod.rs:578-610, 360-367 -/
def iter [LinearOrder I] (ix : IdxOps I) (s : LTSt I S) (i : Nat) (cursor : List Nat) (range : Range.Rng I) : R (MIter I) := do
  match ← s.st.idle i with
  | none => MIter.new ix range ix.zero cursor none
  | some r => do
    let nd ← s.st.heap.get r.p
    MIter.new ix range nd.size cursor (some r)

end LTSt

end Sherman.Cow
