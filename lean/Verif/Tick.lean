import Verif.Search
/-!
# Counting steps

The functions of `Verif/Tree.lean`, `Verif/Search.lean` and `Verif/Insert.lean` once more, with a count of steps.  Each of the following is a
step:

* a call of the index type: an addition, a subtraction, a comparison;
* an iteration of a loop over the keys or children of a node: each key or child that is moved, each position that is rewritten, each call of the
  store of references, each parent link that is rewritten;
* a level of a loop over the levels of the tree;
* a call of `split_at`, `try_join`, or of the callback for updates.

Between two steps the code does a bounded number of accesses to memory, so that the running time, apart from what the functions given by the
user take, is at most proportional to the number of steps.  That the results are those of the functions without counts is proved
for each (`Takes`).
-/
namespace Sherman

/-- A result, and the number of steps up to it.  No counterpart in the code (steps of src/tree/insert.rs:41-2400). -/
def T (α : Type) : Type := Nat × R α

namespace T
variable {α β : Type}

/-- Steps are added up, also if the second part fails.  See `T` (src/tree/insert.rs:41-2400). -/
def bind (m : T α) (f : α → T β) : T β :=
  match m.2 with
  | .ok a => (m.1 + (f a).1, (f a).2)
  | .error e => (m.1, .error e)

/-- See `T` (src/tree/insert.rs:41-2400). -/
instance : Monad T where
  pure a := (0, .ok a)
  bind := T.bind

/-- No steps of its own: a bounded number of accesses to memory.  See `T` (src/tree/insert.rs:41-2400). -/
def lift (r : R α) : T α := (0, r)

/-- See `T` (src/tree/insert.rs:41-2400). -/
instance : MonadLift (Except Fault) T := ⟨T.lift⟩

/-- A failure.  See `T` (src/tree/insert.rs:41-2400). -/
def error (e : Fault) : T α := (0, .error e)

/-- `n` steps.  See `T` (src/tree/insert.rs:41-2400). -/
def tick (n : Nat) : T Unit := (n, .ok ())

/-- A call of the index type.  src/public_traits.rs:244-296 -/
def op (r : R α) : T α := (1, r)

end T

/-- `m` has the result `r`, after at most `n` steps.  Used in proofs; no counterpart in the code (see `T`, src/tree/insert.rs:41-2400). -/
def Takes {α : Type} (m : T α) (r : R α) (n : Nat) : Prop := m.2 = r ∧ m.1 ≤ n

namespace Takes
variable {α β : Type}

theorem pure {a : α} {n : Nat} : Takes (Pure.pure a : T α) (Pure.pure a) n := ⟨rfl, Nat.zero_le _⟩
theorem ok {a : α} {n : Nat} : Takes (Pure.pure a : T α) (.ok a) n := ⟨rfl, Nat.zero_le _⟩
theorem error {e : Fault} {n : Nat} : Takes (T.error e : T α) (.error e) n := ⟨rfl, Nat.zero_le _⟩
theorem lift {r : R α} {n : Nat} : Takes (liftM r : T α) r n := ⟨rfl, Nat.zero_le _⟩
theorem op {r : R α} {n : Nat} (h : 1 ≤ n) : Takes (T.op r) r n := ⟨rfl, h⟩

theorem mono {m : T α} {r : R α} {a n : Nat} (h : Takes m r a) (hn : a ≤ n) : Takes m r n := ⟨h.1, Nat.le_trans h.2 hn⟩

theorem bind {m : T α} {r : R α} {f : α → T β} {g : α → R β} {a n : Nat} (h : Takes m r a) (ha : a ≤ n)
    (k : ∀ x, r = .ok x → Takes (f x) (g x) (n - a)) : Takes (m >>= f) (r >>= g) n := by
  obtain ⟨c, r'⟩ := m
  obtain ⟨rfl, h2⟩ := h
  change c ≤ a at h2
  cases r' with
  | error e => exact ⟨rfl, Nat.le_trans h2 ha⟩
  | ok x =>
    obtain ⟨k1, k2⟩ := k x rfl
    refine ⟨k1, ?_⟩
    show c + (f x).1 ≤ n
    omega

theorem bindLift {r : R α} {f : α → T β} {g : α → R β} {n : Nat} (k : ∀ x, r = .ok x → Takes (f x) (g x) n) :
    Takes ((liftM r : T α) >>= f) (r >>= g) n := bind (a := 0) lift (Nat.zero_le _) k

theorem bindPure {x : α} {f : α → T β} {g : α → R β} {n : Nat} (k : Takes (f x) (g x) n) :
    Takes ((Pure.pure x : T α) >>= f) ((Pure.pure x : R α) >>= g) n := bind (a := 0) pure (Nat.zero_le _) (fun y h => by cases h; exact k)

theorem bindOp {r : R α} {f : α → T β} {g : α → R β} {n : Nat} (h : 1 ≤ n) (k : ∀ x, r = .ok x → Takes (f x) (g x) (n - 1)) :
    Takes (T.op r >>= f) (r >>= g) n := bind (a := 1) (op (Nat.le_refl _)) h k

theorem tick {a : Nat} {f : Unit → T β} {r : R β} {n : Nat} (ha : a ≤ n) (k : Takes (f ()) r (n - a)) : Takes (T.tick a >>= f) r n := by
  refine ⟨k.1, ?_⟩
  have := k.2
  show a + (f ()).1 ≤ n
  omega

theorem ite {c : Prop} [Decidable c] {a b : T α} {x y : R α} {n : Nat} (h1 : c → Takes a x n) (h2 : ¬ c → Takes b y n) :
    Takes (if c then a else b) (if c then x else y) n := by
  split
  · rename_i h; exact h1 h
  · rename_i h; exact h2 h

end Takes

/-- Steps through a program that are of bounded cost. -/
macro "steps" : tactic => `(tactic| repeat' (first
  | with_reducible exact Takes.pure | with_reducible exact Takes.ok | with_reducible exact Takes.error | with_reducible exact Takes.lift
  | with_reducible (refine Takes.bindPure ?_)
  | with_reducible (refine Takes.bindLift (fun _ _ => ?_))
  | with_reducible (refine Takes.bindOp (by omega) (fun _ _ => ?_))
  | (with_reducible refine Takes.op ?_); omega
  | with_reducible (refine Takes.tick (by omega) ?_)
  | with_reducible (refine Takes.ite (fun _ => ?_) (fun _ => ?_))))

namespace Tk
variable {I S C : Type}

/-! ## Nodes -/

/-- `Node.mapPos`, each position being rewritten with one call of the index type.  src/tree/node.rs:1325-1345 -/
def mapPos (f : I → R I) : List (Key I S) → T (List (Key I S))
  | [] => pure []
  | k :: ks => do
    let p ← T.op (f k.pos)
    let ks' ← mapPos f ks
    pure ({ k with pos := p } :: ks')

/-- `set_key_poss_with`.  src/tree/node.rs:1325-1358 -/
def setKeyPossWith (n : Node I S C) (f : I → R I) (start : Nat) : T (Node I S C) := do
  weakAssert (start ≤ n.len) "set_key_poss_with"
  let ks ← mapPos f (n.keys.drop start)
  let s ← T.op (f n.size)
  pure { n with keys := n.keys.take start ++ ks, size := s }

/-- `shift_keys::<IS_INCREASE>`; src/tree/fix.rs:686-759 -/
def shiftKeys (ix : IdxOps I) (n : Node I S C) (incr : Bool) (start : Nat) (pos oldSize newSize : I) : T (Node I S C) := do
  weakAssert (start ≤ n.len) "shift_keys"
  let oldEnd ← T.op (ix.addR pos oldSize)
  let newEnd ← T.op (ix.addR pos newSize)
  if incr then
    let d ← T.op (ix.subL newEnd oldEnd)
    setKeyPossWith n (fun k => ix.addL k d) start
  else
    let d ← T.op (ix.subR oldEnd newEnd)
    setKeyPossWith n (fun k => ix.subL k d) start

/-- `shift_keys_auto`; src/tree/fix.rs:626-642 -/
def shiftKeysAuto (ix : IdxOps I) (n : Node I S C) (start : Nat) (pos oldSize newSize : I) : T (Node I S C) := do
  T.tick 1
  shiftKeys ix n (ix.lt oldSize newSize) start pos oldSize newSize

/-- `SliceHandle::slice_size`.  src/tree/node.rs:2887-2905 -/
def sliceSize (ix : IdxOps I) (sz : C → I) (n : Node I S C) (k : Nat) : T I := do
  let kp ← n.keyPos k
  let cs ← n.childSize sz (k + 1)
  let stop ← T.op (ix.subR (n.nextPos (k + 1)) cs)
  T.op (ix.subL stop kp)

/-- `split(midpoint_idx, store)`: keys and children are moved, references and links rewritten.  src/tree/node.rs:1372-1571 -/
def split [HasPtr C] (n : Node I S C) (mid : Nat) (w : World) : T (Node I S C × Key I S × Node I S C × World) := do
  T.tick (2 * n.keys.length + 2 * n.kids.length + 1)
  n.split mid w

/-- `insert_key_and_child`, `insert_key`: the same.  src/tree/node.rs:2152-2206, 2453-2546 -/
def insertKeyAndChild [HasPtr C] (maxLen : Nat) (n : Node I S C) (idx : Nat) (slice : S) (ref : Option Nat) (c : C) (w : World) :
    T (Node I S C × I × World) := do
  T.tick (2 * n.keys.length + 2 * n.kids.length + 2)
  n.insertKeyAndChild maxLen idx slice ref c w

/-- `push_key_and_child`, `push_key`: one reference, one link.  src/tree/node.rs:2223-2272, 2361-2435 -/
def pushKeyAndChild [HasPtr C] (maxLen : Nat) (n : Node I S C) (slice : S) (ref : Option Nat) (c : C) (newSize : I) (w : World) :
    T (Node I S C × World) := do
  T.tick 2
  n.pushKeyAndChild maxLen slice ref c newSize w

/-- `make_new_parent`; src/tree/node.rs:1689-1793 -/
def makeNewParent (ix : IdxOps I) {h : Nat} (lhs : Tree I S (h + 1)) (key : Key I S) (keySize : I) (rhs : Tree I S (h + 1)) (w : World) :
    T (Tree I S (h + 2) × World) := do
  T.tick 5
  Sherman.makeNewParent ix lhs key keySize rhs w

/-! ## Searching -/

/-- `binary_search`, each comparison being a step; src/tree/mod.rs:892 -/
def bsearch (ix : IdxOps I) (xs : List I) (t : I) (left right : Nat) : T (Nat ⊕ Nat) :=
  if _h : left < right then
    let mid := left + (right - left) / 2
    match xs[mid]? with
    | none => T.error (.ub "binary search index")
    | some x => do
      T.tick 1
      match ix.cmp x t with
      | .lt => bsearch ix xs t (mid + 1) right
      | .gt => bsearch ix xs t left mid
      | .eq => pure (.inl mid)
  else pure (.inr left)
termination_by right - left
decreasing_by all_goals omega

/-- The hint part of `search_step`.  src/tree/mod.rs:854-885 -/
def hintStep (ix : IdxOps I) {h : Nat} (n : Tree I S (h + 1)) (hint : Option Nat) (target : I) : T (Option (Step I)) :=
  match h, hint with
  | 0, _ => pure none
  | _ + 1, none => pure none
  | _ + 1, some c => do
    if c > Node.len n then pure none
    else
      let cs ← Node.childSize (szT ix) n c
      let next := Node.nextPos n c
      let cpos ← T.op (ix.subR next cs)
      T.tick 2
      if ix.le cpos target && ix.lt target next then pure (some (.child c cpos)) else pure none

/-- The part of `search_step` after the hint.  src/tree/mod.rs:892-922 -/
def fullStep (ix : IdxOps I) {h : Nat} (n : Tree I S (h + 1)) (target : I) : T (Step I) := do
  match ← bsearch ix (n.keys.map (·.pos)) target 0 (Node.len n) with
  | .inr 0 => pure (.child 0 ix.zero)
  | .inl i => do
    let p ← Node.keyPos n i
    pure (.key i p)
  | .inr (k + 1) => do
    let next := Node.nextPos n (k + 1)
    let cs ← Node.childSize (szT ix) n (k + 1)
    T.tick 1
    check (!ix.debug || ix.le target next) "debug_assert: target <= next_key_pos"
    let start ← T.op (ix.subR next cs)
    T.tick 1
    if ix.lt target start then
      let p ← Node.keyPos n k
      pure (.key k p)
    else pure (.child (k + 1) start)

/-- `search_step(node, hint, target)`.  src/tree/mod.rs:846-922 -/
def searchStep (ix : IdxOps I) {h : Nat} (n : Tree I S (h + 1)) (hint : Option Nat) (target : I) : T (Step I) := do
  T.tick 1
  check (!ix.debug || ix.le target (Node.size n)) "debug_assert: target <= subtree_size"
  match ← hintStep ix n hint target with
  | some r => pure r
  | none => fullStep ix n target

/-- The `ChildOrKey::Key` arm of the loop of `get_with_cursor`.  src/tree/mod.rs:424-436 -/
def getKey (ix : IdxOps I) (idx : I) {h : Nat} (n : Tree I S (h + 1)) (target : I) (k : Nat) (kpos : I) : T (Entry I S) := do
  let key ← Node.handle n k
  let d ← T.op (ix.subL target kpos)
  let start ← T.op (ix.subR idx d)
  let size ← sliceSize ix (szT ix) n k
  let stop ← T.op (ix.addR start size)
  pure ⟨start, stop, key.slice, n.ptr, k, key.ref⟩

/-- The loop of `get_with_cursor`.  src/tree/mod.rs:411-447 -/
def getLoop (ix : IdxOps I) (idx : I) : {h : Nat} → Tree I S (h + 1) → Option (List Nat) → I → T (Entry I S)
  | 0, n, hints, target => do
    T.tick 1
    match ← searchStep ix n (headHint hints) target with
    | .key k kpos => getKey ix idx n target k kpos
    | .child _ cpos => do
      let _ ← T.op (ix.subL target cpos)
      T.error (.unreachable "get: child of leaf")
  | _ + 1, n, hints, target => do
    T.tick 1
    match ← searchStep ix n (headHint hints) target with
    | .key k kpos => getKey ix idx n target k kpos
    | .child c cpos => do
      let target' ← T.op (ix.subL target cpos)
      let ch ← Node.child n c
      getLoop ix idx ch (nextHints hints (.child c cpos)) target'

/-- `cursor_to`, the way down, and up again.  src/tree/mod.rs:476-526 -/
def cursorLoop (ix : IdxOps I) : {h : Nat} → Tree I S (h + 1) → I → T (List Nat)
  | 0, _, _ => do
    T.tick 1
    pure []
  | _ + 1, n, target => do
    T.tick 2
    match ← searchStep ix n none target with
    | .key _ _ => pure []
    | .child c cpos => do
      let target ← T.op (ix.subL target cpos)
      let ch ← Node.child n c
      let p ← cursorLoop ix ch target
      pure (c :: p)

/-- `get_with_cursor(cursor, idx)`; src/tree/mod.rs:398-448 -/
def get (E : Env I S) (t : RleTree I S) (hints : List Nat) (idx : I) : T (Entry I S) := do
  T.tick 2
  check (!E.ix.lt idx E.ix.zero) "index out of bounds, less than zero"
  check (E.ix.lt idx (t.size E)) "index out of bounds"
  match t.root with
  | none => T.error (.panic "`self.root` should be `Some` if `0 <= idx < size`")
  | some r => getLoop E.ix idx r.tree (some hints) idx

/-- `cursor_to(idx)`; src/tree/mod.rs:460-529 -/
def cursorTo (E : Env I S) (t : RleTree I S) (idx : I) : T (List Nat) := do
  T.tick 2
  check (!E.ix.lt idx E.ix.zero) "index out of bounds, less than zero"
  check (E.ix.lt idx (t.size E)) "index out of bounds"
  match t.root with
  | none => T.error (.panic "`self.root` should be `Some` if `0 <= idx < size`")
  | some r => cursorLoop E.ix r.tree idx

/-! ## How many steps -/

theorem mapPos_sim (f : I → R I) (ks : List (Key I S)) : Takes (mapPos f ks) (Node.mapPos f ks) ks.length := by
  induction ks with
  | nil => exact .pure
  | cons k ks ih =>
    simp only [mapPos, Node.mapPos, List.length_cons]
    exact .bindOp (by omega) (fun _ _ => .bind (ih.mono (n := ks.length) (by omega)) (by omega) (fun _ _ => .pure))

theorem setKeyPossWith_sim (n : Node I S C) (f : I → R I) (start : Nat) :
    Takes (setKeyPossWith n f start) (n.setKeyPossWith f start) (n.keys.length + 1) := by
  simp only [setKeyPossWith, Node.setKeyPossWith]
  have := mapPos_sim f (n.keys.drop start)
  rw [List.length_drop] at this
  refine .bindLift (fun _ _ => .bind (this.mono (n := n.keys.length) (by omega)) (by omega) (fun _ _ => ?_))
  steps

theorem shiftKeys_sim (ix : IdxOps I) (n : Node I S C) (incr : Bool) (start : Nat) (pos o z : I) :
    Takes (shiftKeys ix n incr start pos o z) (n.shiftKeys ix incr start pos o z) (n.keys.length + 4) := by
  simp only [shiftKeys, Node.shiftKeys]
  steps
  all_goals (refine Takes.mono (setKeyPossWith_sim _ _ _) ?_; omega)

theorem shiftKeysAuto_sim (ix : IdxOps I) (n : Node I S C) (start : Nat) (pos o z : I) :
    Takes (shiftKeysAuto ix n start pos o z) (n.shiftKeysAuto ix start pos o z) (n.keys.length + 5) := by
  simp only [shiftKeysAuto, Node.shiftKeysAuto]
  steps
  refine Takes.mono (shiftKeys_sim _ _ _ _ _ _ _) ?_; omega

theorem sliceSize_sim (ix : IdxOps I) (sz : C → I) (n : Node I S C) (k : Nat) : Takes (sliceSize ix sz n k) (n.sliceSize ix sz k) 2 := by
  simp only [sliceSize, Node.sliceSize]
  steps

theorem bsearch_sim (ix : IdxOps I) (xs : List I) (t : I) (left right : Nat) :
    Takes (bsearch ix xs t left right) (Sherman.bsearch ix xs t left right) (right - left) := by
  fun_induction bsearch ix xs t left right with
  | case1 l r h mid hx =>
    rw [Sherman.bsearch]
    simp only [h, dif_pos, ↓reduceDIte]
    rw [show xs[l + (r - l) / 2]? = none from hx]
    exact .error
  | case2 l r h mid x hx ih1 ih2 =>
    rw [Sherman.bsearch]
    simp only [h, ↓reduceDIte]
    rw [show xs[l + (r - l) / 2]? = some x from hx]
    refine .tick (by omega) ?_
    dsimp only
    cases ix.cmp x t with
    | lt => exact ih1.mono (by omega)
    | gt => exact ih2.mono (by omega)
    | eq => exact .ok
  | case3 l r h =>
    rw [Sherman.bsearch]
    simp only [h, ↓reduceDIte]
    exact .ok

theorem hintStep_sim (ix : IdxOps I) {h : Nat} (n : Tree I S (h + 1)) (hint : Option Nat) (target : I) :
    Takes (hintStep ix n hint target) (Sherman.hintStep ix n hint target) 3 := by
  cases h with
  | zero => exact .pure
  | succ h =>
    cases hint with
    | none => exact .pure
    | some c =>
      simp only [hintStep, Sherman.hintStep]
      steps

theorem fullStep_sim (ix : IdxOps I) {h : Nat} (n : Tree I S (h + 1)) (target : I) :
    Takes (fullStep ix n target) (Sherman.fullStep ix n target) ((Node.keys n).length + 3) := by
  simp only [fullStep, Sherman.fullStep]
  refine .bind (bsearch_sim _ _ _ _ _) (by simp only [Node.len]; omega) (fun x _ => ?_)
  simp only [Node.len]
  match x with
  | .inr 0 => steps
  | .inl i => steps
  | .inr (k + 1) => steps

theorem searchStep_sim (ix : IdxOps I) {h : Nat} (n : Tree I S (h + 1)) (hint : Option Nat) (target : I) :
    Takes (searchStep ix n hint target) (Sherman.searchStep ix n hint target) ((Node.keys n).length + 7) := by
  simp only [searchStep, Sherman.searchStep]
  refine .tick (by omega) (.bindLift (fun _ _ => .bind (hintStep_sim _ _ _ _) (by omega) (fun x _ => ?_)))
  cases x with
  | some r => steps
  | none => exact (fullStep_sim _ _ _).mono (by omega)

theorem getKey_sim (ix : IdxOps I) (idx : I) {h : Nat} (n : Tree I S (h + 1)) (target : I) (k : Nat) (kpos : I) :
    Takes (getKey ix idx n target k kpos) (Sherman.getKey ix idx n target k kpos) 5 := by
  simp only [getKey, Sherman.getKey]
  steps
  refine .bind (sliceSize_sim _ _ _ _) (by omega) (fun _ _ => ?_)
  steps

end Tk
end Sherman
