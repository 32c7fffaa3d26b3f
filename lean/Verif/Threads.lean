import Verif.Cow
/-!
# Trees that share nodes, used by several threads at the same time

(src/tree/cow.rs, src/tree/node.rs, src/tree/insert.rs, src/tree/mod.rs)

The operations of `Verif/Cow.lean` in small steps.  A step contains at most one access to a counter of a node that may be shared:
`is_unique`, one `increment` or one `decrement`.  Each tree variable is idle, or a thread is in the middle of an insertion or of its
destructor (both need exclusive access to the variable, so there is at most one thread).  The steps of different variables can come in
any order.

* Steps are atomic and seen by all threads at once; that the orderings of the atomic operations suffice is C25 (`Verif/Atomic.lean`).
* After its descent a thread changes only nodes that no other thread can reach.  This part of an insertion is one step (`Task.finish`).
* The way down is determined when the insertion starts; the contents of the tree are the same until it is finished (`Verif/ThreadsProps.lean`).
* A call that panics has no further steps; the other threads go on.
-/
namespace Sherman.Cow
variable {I S : Type}

/-- Arguments of `insert` and its variants.  src/tree/insert.rs:41-50 -/
structure Args (I S : Type) where
  nop : Bool
  hints : List Nat
  idx : I
  slice : S
  size : I

/-- Where a thread is within `ensure_unique`.  src/tree/node.rs:2580-2609 -/
inductive Pc where
  /-- before `is_unique`; src/tree/node.rs:2592 -/
  | check
  /-- the children whose counts `shallow_clone` has incremented, and those to come; src/tree/node.rs:1066-1072 -/
  | incr (done todo : List Nat)
  /-- references that are to be given up, with the heights of the nodes; src/tree/node.rs:2603-2607, 1913-1929 -/
  | giveUp (work : List (Nat × Nat))

/-- A thread in the middle of an insertion.  `root` is the tree; `node` the node reached so far, `none` before the root; `todo` the child
indices of the rest of the way down; `h` the height of the next node on the way.  src/tree/insert.rs:41-197, 1229-1326 -/
structure Task (I S : Type) where
  args : Args I S
  root : CRoot
  node : Option Nat
  todo : List Nat
  h : Nat
  pc : Pc

/-- A tree variable.  src/tree/mod.rs:110-115 -/
inductive Var (I S : Type) where
  | idle (r : Option CRoot)
  | busy (t : Task I S)
  /-- in its destructor; src/tree/mod.rs:275-294 -/
  | dying (work : List (Nat × Nat))

/-- Memory and tree variables.  src/tree/mod.rs:110-115 -/
structure TSt (I S : Type) where
  heap : Heap I S
  vars : List (Var I S)

/-- Give up the first of several references: `try_drop`, and `do_drop` frees the node and goes on with its children.
src/tree/node.rs:1586-1600, 1846-1930 -/
def giveUp (H : Heap I S) : List (Nat × Nat) → R (Heap I S × List (Nat × Nat))
  | [] => pure (H, [])
  | (h, q) :: work => do
    let nd ← H.get q
    if nd.count = 1 then
      match h with
      | 0 => pure (H.free q, work)
      | h + 1 => pure (H.free q, nd.kids.map (fun k => (h, k)) ++ work)
    else do
      let c ← usub nd.count 1
      pure (H.put q { nd with count := c }, work)

namespace Task

/-- The node that `ensure_unique` looks at: the root, or the next child on the way.  `none`: the descent is finished.
src/tree/node.rs:1602-1612, 2049-2069 -/
def target (H : Heap I S) (t : Task I S) : R (Option Nat) :=
  match t.node, t.todo with
  | none, _ => pure (some t.root.p)
  | some _, [] => pure none
  | some p, c :: _ => do
    let nd ← H.get p
    match nd.kids[c]? with
    | none => .error (.ub "into_child")
    | some q => pure (some q)

/-- The next node on the way has been reached, at address `q`.  src/tree/insert.rs:94, 1311-1318 -/
def advance (t : Task I S) (q : Nat) (pc : Pc) : Task I S :=
  { t with node := some q, todo := if t.node.isSome then t.todo.tail else t.todo, h := t.h - 1, pc := pc }

/-- The pointer to the next node on the way is overwritten.  src/tree/node.rs:2597-2599 -/
def install (H : Heap I S) (t : Task I S) (q : Nat) : R (Heap I S × Task I S) :=
  match t.node, t.todo with
  | some p, c :: _ => do
    let nd ← H.get p
    pure (H.put p { nd with kids := nd.kids.set c q }, t)
  | _, _ => pure (H, { t with root := { t.root with p := q } })

/-- The rest of an insertion, after the descent.  src/tree/insert.rs:104-197 -/
def finish (E : Env I S) (H : Heap I S) (t : Task I S) : R (Heap I S × Option CRoot) := do
  let tree ← readT H (t.root.h + 1) t.root.p
  let (tree, out) ← RleTree.insert E ⟨some ⟨t.root.h, tree, t.root.len⟩⟩ t.args.nop t.args.hints t.args.idx t.args.slice t.args.size
    ⟨H.next, [], [], none, []⟩
  match tree.root with
  | none => pure (H, none)
  | some r => pure (writeT H r.tree out.world.next, some ⟨r.h, ptrOf r.tree, r.len⟩)

/-- The next step of an insertion.  src/tree/node.rs:2580-2609, 1007-1085; src/tree/insert.rs:88-197 -/
def step (E : Env I S) (imax : Nat) (H : Heap I S) (t : Task I S) : R (Heap I S × Var I S) := do
  match t.pc with
  | .check =>
    match ← t.target H with
    | none => do
      let (H, r) ← t.finish E H
      pure (H, .idle r)
    | some q => do
      let nd ← H.get q
      if nd.count = 1 then pure (H, .busy (t.advance q .check))
      else pure (H, .busy { t with pc := .incr [] (if t.h = 0 then [] else nd.kids) })
  | .incr done (q :: todo) => do
    let H ← increment imax H q
    pure (H, .busy { t with pc := .incr (done ++ [q]) todo })
  | .incr _ [] =>
    match ← t.target H with
    | none => .error (.ub "ensure_unique")
    | some q => do
      let nd ← H.get q
      let (H, q') := H.alloc { nd with count := 1 }
      let (H, t) ← t.install H q'
      pure (H, .busy (t.advance q' (.giveUp [(t.h, q)])))
  | .giveUp [] => pure (H, .busy { t with pc := .check })
  | .giveUp work => do
    let (H, work) ← giveUp H work
    pure (H, .busy { t with pc := .giveUp work })

end Task

/-- What can happen: a call begins (`new`, `clone` are over at once), or the thread that works on a tree takes a step.
src/tree/mod.rs:172-190, 315-370, 677-702, 765-805 -/
inductive Act (I S : Type) where
  | new
  | clone (i : Nat)
  | insert (i : Nat) (args : Args I S)
  | drop (i : Nat)
  | step (i : Nat)

namespace TSt

/-- No trees, no nodes.  No counterpart in the code (before any call of src/tree/mod.rs:315-360) -/
def init : TSt I S := ⟨⟨fun _ => none, 0⟩, []⟩

/-- A tree variable that nobody has exclusive access to.  src/tree/mod.rs:114 -/
def idle (st : TSt I S) (i : Nat) : R (Option CRoot) :=
  match st.vars[i]? with
  | some (.idle r) => .ok r
  | _ => .error (.panic "no such tree")

/-- One thing that happens, and the operations (as in `Verif/Cow.lean`) that have taken effect by it.  An insertion takes effect at its
last step.  src/tree/mod.rs:172-190, 245-294, 315-370, 677-702, 783-806; src/tree/insert.rs:41-197 -/
def act (E : Env I S) (imax : Nat) (st : TSt I S) : Act I S → R (TSt I S × List (Op I S))
  | .new => do
    let _ ← RleTree.newEmpty E
    pure (⟨st.heap, st.vars ++ [.idle none]⟩, [.new])
  | .clone i => do
    match ← st.idle i with
    | none => pure (⟨st.heap, st.vars ++ [.idle none]⟩, [.clone i])
    | some r => do
      let H ← increment imax st.heap r.p
      pure (⟨H, st.vars ++ [.idle (some r)]⟩, [.clone i])
  | .insert i a => do
    match ← st.idle i with
    | none => do
      let (t, out) ← RleTree.insert E ⟨none⟩ a.nop a.hints a.idx a.slice a.size ⟨st.heap.next, [], [], none, []⟩
      match t.root with
      | none => pure (⟨st.heap, st.vars.set i (.idle none)⟩, [.insert i a.nop a.hints a.idx a.slice a.size])
      | some r => pure (⟨writeT st.heap r.tree out.world.next, st.vars.set i (.idle (some ⟨r.h, ptrOf r.tree, r.len⟩))⟩,
          [.insert i a.nop a.hints a.idx a.slice a.size])
    | some r => do
      let t ← readT st.heap (r.h + 1) r.p
      check (!E.ix.lt (Node.size t) a.idx) "cannot insert new slice, index out of bounds"
      check (!E.ix.le a.size E.ix.zero) "cannot insert new slice, size is not greater than zero"
      let path ← wayDown E t a.hints a.idx a.slice
      pure (⟨st.heap, st.vars.set i (.busy ⟨a, r, none, path, r.h, .check⟩)⟩, [])
  | .drop i => do
    match ← st.idle i with
    | none => pure (⟨st.heap, st.vars.set i (.dying [])⟩, [.drop i])
    | some r => pure (⟨st.heap, st.vars.set i (.dying [(r.h, r.p)])⟩, [.drop i])
  | .step i =>
    match st.vars[i]? with
    | some (.busy t) => do
      let (H, s) ← t.step E imax st.heap
      pure (⟨H, st.vars.set i s⟩, match s with
        | .idle _ => [.insert i t.args.nop t.args.hints t.args.idx t.args.slice t.args.size]
        | _ => [])
    | some (.dying (w :: work)) => do
      let (H, work) ← giveUp st.heap (w :: work)
      pure (⟨H, st.vars.set i (.dying work)⟩, [])
    | _ => .error (.panic "nothing to do")

/-- A whole execution, and the operations that have taken effect, in order.  src/tree/mod.rs:172-190, 315-805 -/
def run (E : Env I S) (imax : Nat) : TSt I S → List (Act I S) → R (TSt I S × List (Op I S))
  | st, [] => pure (st, [])
  | st, a :: as => do
    let (st, l) ← st.act E imax a
    let (st, l') ← run E imax st as
    pure (st, l ++ l')

/-- The tree that a variable holds, also while a thread is in the middle of an insertion.  src/tree/mod.rs:162-169 -/
def view (st : TSt I S) (i : Nat) : R (RleTree I S) :=
  let at' (r : CRoot) : R (RleTree I S) := do
    let t ← readT st.heap (r.h + 1) r.p
    pure ⟨some ⟨r.h, t, r.len⟩⟩
  match st.vars[i]? with
  | some (.idle none) => pure ⟨none⟩
  | some (.idle (some r)) => at' r
  | some (.busy t) => at' t.root
  | _ => .error (.panic "no such tree")

end TSt
end Sherman.Cow
