import Verif.TickLemmas
import Verif.LinkProps
import Verif.LiveProps
import Verif.CowLinkStep
import Verif.TreeProps2
import Mathlib.Data.Nat.Log
/-!
# C46: insertion, lookup and the position of a reference take logarithmically many steps

What a step is, is said in `Verif/Tick.lean`.  The index types of this file are those of `Verif/Reach.lean`: unsigned integers of any width.
The bounds hold also for calls that panic, up to the panic.
-/
namespace Sherman
namespace Tk
variable {I S : Type}

/-! ## Walks along parent links -/

/-- The loop of `SliceHandle::range`, with steps: one for the parent, one for the position of the child, one for the addition.
src/tree/node.rs:3133-3138 -/
def upPos (ix : IdxOps I) (L : LinkMap) {H : Nat} (t : Tree I S H) : Nat → Nat → I → T I
  | 0, _, _ => T.error (.ub "too many rounds")
  | f + 1, p, pos =>
    match L p with
    | none => pure pos
    | some (q, i) =>
      match nodeAt q t with
      | none => T.error (.ub "dangling parent")
      | some ⟨_, n⟩ => do
        T.tick 1
        let cp ← T.op (n.childPos ix (szT ix) i)
        let pos ← T.op (ix.addL pos cp)
        upPos ix L t f q pos

/-- `rangeUp` with steps; src/tree/node.rs:3124-3141 -/
def rangeUp (ix : IdxOps I) (L : LinkMap) (f : Nat) (p k : Nat) {H : Nat} (t : Tree I S H) : T (I × I) :=
  match nodeAt p t with
  | none => T.error (.ub "dangling SliceHandle")
  | some ⟨_, n⟩ => do
    let pos ← n.keyPos k
    let size ← sliceSize ix (szT ix) n k
    let pos ← upPos ix L t f p pos
    pure (pos, size)

/-- `SliceRef::range` with steps; src/tree/slice_ref.rs:728-767 -/
def range (E : Env I S) (L : LinkMap) (f : Nat) (st : RefTree I S) (id : Nat) : T (I × I) := do
  match ← st.resolve id with
  | none => T.error (.panic "cannot borrow: slice is no longer present in the tree")
  | some (p, k) =>
    match st.tree.root with
    | none => T.error (.ub "dangling SliceHandle")
    | some r => do
      let (pos, size) ← rangeUp E.ix L f p k r.tree
      let stop ← T.op (E.ix.addR pos size)
      pure (pos, stop)

/-- The loop that builds a cursor, with a step for each parent; src/tree/entry.rs:119-122 -/
def upPath (L : LinkMap) : Nat → Nat → List Nat → T (List Nat)
  | 0, _, _ => T.error (.ub "too many rounds")
  | f + 1, p, path =>
    match L p with
    | none => pure path
    | some (q, i) => do
      T.tick 1
      upPath L f q (i :: path)

/-- `SliceRef::cursor` with steps; src/tree/slice_ref.rs:781-820, src/tree/entry.rs:107-126 -/
def cursor (L : LinkMap) (f : Nat) (st : RefTree I S) (id : Nat) : T (List Nat) := do
  match ← st.resolve id with
  | none => T.error (.panic "cannot borrow: slice is no longer present in the tree")
  | some (p, _) =>
    match st.tree.root with
    | none => T.error (.ub "dangling SliceHandle")
    | some r =>
      match nodeAt p r.tree with
      | none => T.error (.ub "dangling SliceHandle")
      | some _ => upPath L f p []

theorem upPos_sim (ix : IdxOps I) (L : LinkMap) {H : Nat} (t : Tree I S H) (f p : Nat) (pos : I) :
    Takes (upPos ix L t f p pos) (Sherman.upPos ix L t f p pos) (3 * f) := by
  induction f generalizing p pos with
  | zero => exact .error
  | succ f ih =>
    simp only [upPos, Sherman.upPos]
    cases L p with
    | none => exact .pure
    | some x =>
      obtain ⟨q, i⟩ := x
      dsimp only
      cases nodeAt q t with
      | none => exact .error
      | some y => exact .tick (by omega) (.bindOp (by omega) (fun _ _ => .bindOp (by omega) (fun _ _ => (ih _ _).mono (by omega))))

theorem rangeUp_sim (ix : IdxOps I) (L : LinkMap) (f p k : Nat) {H : Nat} (t : Tree I S H) :
    Takes (rangeUp ix L f p k t) (Sherman.rangeUp ix L f p k t) (3 * f + 2) := by
  simp only [rangeUp, Sherman.rangeUp]
  cases nodeAt p t with
  | none => exact .error
  | some y =>
    refine .bindLift (fun _ _ => .bind (sliceSize_sim _ _ _ _) (by omega) (fun _ _ => ?_))
    exact .bind (upPos_sim _ _ _ _ _ _) (by omega) (fun _ _ => .pure)

theorem range_sim (E : Env I S) (L : LinkMap) (f : Nat) (st : RefTree I S) (id : Nat) :
    Takes (range E L f st id) (st.rangeUp E L f id) (3 * f + 3) := by
  simp only [range, RefTree.rangeUp]
  refine .bindLift (fun x _ => ?_)
  cases x with
  | none => exact .error
  | some x =>
    obtain ⟨p, k⟩ := x
    dsimp only
    cases st.tree.root with
    | none => exact .error
    | some r =>
      refine .bind (rangeUp_sim _ _ _ _ _ _) (by omega) (fun ⟨_, _⟩ _ => ?_)
      exact .bindOp (by omega) (fun _ _ => .pure)

theorem upPath_sim (L : LinkMap) (f p : Nat) (path : List Nat) : Takes (upPath L f p path) (Sherman.upPath L f p path) f := by
  induction f generalizing p path with
  | zero => exact .error
  | succ f ih =>
    simp only [upPath, Sherman.upPath]
    cases L p with
    | none => exact .pure
    | some x => exact .tick (by omega) ((ih _ _).mono (by omega))

theorem cursor_sim (L : LinkMap) (f : Nat) (st : RefTree I S) (id : Nat) : Takes (cursor L f st id) (st.cursorUp L f id) f := by
  simp only [cursor, RefTree.cursorUp]
  refine .bindLift (fun x _ => ?_)
  cases x with
  | none => exact .error
  | some x =>
    obtain ⟨p, k⟩ := x
    dsimp only
    cases st.tree.root with
    | none => exact .error
    | some r =>
      dsimp only
      cases nodeAt p r.tree with
      | none => exact .error
      | some _ => exact upPath_sim _ _ _ _

/-! ## Trees that can be built -/

theorem FitT.ofShape {M lo h : Nat} {t : Tree Nat S h} (hs : ShapeT M lo t) : FitT (2 * M) t := by
  induction h generalizing lo with
  | zero => trivial
  | succ h ih =>
    obtain ⟨-, h1, h2, h3⟩ := hs
    exact ⟨⟨h1, by rw [h2]; omega⟩, fun c hc => ih (h3 c hc)⟩

variable {MAX : Nat} {E : Env Nat S}

theorem fitR (hE : E.ix = natIdx MAX) {t : RleTree Nat S} (ht : Reach MAX E t) : FitR (2 * E.M) (Nat.log (E.M + 1) t.numberOfSlices) t := by
  intro r hr
  refine ⟨?_, FitT.ofShape (shape hE ht hr)⟩
  have hM := (ht.holds hE).1.1
  have := (height_bound hE ht hr).1
  exact Nat.le_log_of_pow_le (by omega) this

theorem fold_bound {a h U : Nat} : a * (h * U) + a * U = a * U * (h + 1) := by
  rw [Nat.mul_add, Nat.mul_one, Nat.mul_assoc a U h, Nat.mul_comm U h]

end Tk

/-! ## C46 -/

section
variable {S : Type} {MAX : Nat} {E : Env Nat S}

/-- **C46.** `insert` (with or without a cursor) into a tree of `n` runs takes at most `20 * (2 * M + 14) * (log n + 1)` steps, the logarithm
being to base `M + 1`, whatever it does: join, split a run, split nodes up to the root, or panic. -/
theorem insert_steps (hE : E.ix = natIdx MAX) {t : RleTree Nat S} (ht : Reach MAX E t) (nop : Bool) (hints : List Nat) (idx : Nat) (s : S) (size : Nat) (w : World) :
    (Tk.insert E t nop hints idx s size w).2 = t.insert E nop hints idx s size w ∧
    (Tk.insert E t nop hints idx s size w).1 ≤ 20 * (2 * E.M + 14) * (Nat.log (E.M + 1) t.numberOfSlices + 1) := by
  have := Tk.insert_sim (U := 2 * E.M + 14) (by omega) E (Tk.fitR hE ht) nop hints idx s size w
  refine ⟨this.1, Nat.le_trans this.2 ?_⟩
  rw [← Tk.fold_bound]
  omega

/-- **C46.** So do `get`, with or without a cursor, and `cursor_to`. -/
theorem get_steps (hE : E.ix = natIdx MAX) {t : RleTree Nat S} (ht : Reach MAX E t) (hints : List Nat) (idx : Nat) :
    ((Tk.get E t hints idx).2 = t.get E hints idx ∧
      (Tk.get E t hints idx).1 ≤ 2 * (2 * E.M + 14) * (Nat.log (E.M + 1) t.numberOfSlices + 1)) ∧
    (Tk.cursorTo E t idx).2 = t.cursorTo E idx ∧
      (Tk.cursorTo E t idx).1 ≤ 2 * (2 * E.M + 14) * (Nat.log (E.M + 1) t.numberOfSlices + 1) := by
  have h1 := Tk.get_sim (U := 2 * E.M + 14) (by omega) E (Tk.fitR hE ht) hints idx
  have h2 := Tk.cursorTo_sim (U := 2 * E.M + 14) (by omega) E (Tk.fitR hE ht) idx
  refine ⟨⟨h1.1, Nat.le_trans h1.2 ?_⟩, h2.1, Nat.le_trans h2.2 ?_⟩ <;> rw [← Tk.fold_bound] <;> omega

/-- **C46.** In a program with references, the range and the cursor of a reference take at most `3 * log n + 6` steps, along the parent links
that are in memory. -/
theorem reference_steps {rcMax : Nat} (hE : E.ix = natIdx MAX) {st : RefTree Nat S} {ids : List Nat} (h : Live MAX rcMax E st ids) :
    ∃ L, Linked L st.tree ∧ ∀ id,
      ((Tk.range E L (Nat.log (E.M + 1) st.tree.numberOfSlices + 1) st id).2 = st.range E id ∧
        (Tk.range E L (Nat.log (E.M + 1) st.tree.numberOfSlices + 1) st id).1 ≤ 3 * Nat.log (E.M + 1) st.tree.numberOfSlices + 6) ∧
      (Tk.cursor L (Nat.log (E.M + 1) st.tree.numberOfSlices + 1) st id).2 = st.cursor id ∧
        (Tk.cursor L (Nat.log (E.M + 1) st.tree.numberOfSlices + 1) st id).1 ≤ Nat.log (E.M + 1) st.tree.numberOfSlices + 1 := by
  obtain ⟨L, -, hl, hw⟩ := live_walks h
  have hr := Tk.fitR hE (h.inv hE).reach
  have hw := hw (Nat.log (E.M + 1) st.tree.numberOfSlices + 1) (fun r e => by have := (hr r e).1; omega)
  refine ⟨L, hl, fun id => ?_⟩
  obtain ⟨e1, e2⟩ := hw.1 id
  have h1 := Tk.range_sim E L (Nat.log (E.M + 1) st.tree.numberOfSlices + 1) st id
  have h2 := Tk.cursor_sim L (Nat.log (E.M + 1) st.tree.numberOfSlices + 1) st id
  rw [e1] at h1
  rw [e2] at h2
  exact ⟨⟨h1.1, by have := h1.2; omega⟩, h2.1, h2.2⟩

/-! ## Histories -/

/-- One insertion makes at most two more runs. -/
theorem insert_two {I : Type} {E : Env I S} {t t' : RleTree I S} {nop : Bool} {hints : List Nat} {idx : I} {s : S} {size : I} {w : World} {out : Inserted}
    (h : t.insert E nop hints idx s size w = .ok (t', out)) : t'.numberOfSlices ≤ t.numberOfSlices + 2 := by
  simp only [RleTree.insert] at h
  obtain ⟨_, -, h⟩ := R.bind_eq_ok.1 h
  obtain ⟨_, -, h⟩ := R.bind_eq_ok.1 h
  rcases hr : t.root with _ | r
  · rw [hr] at h
    dsimp only at h
    obtain ⟨⟨t1, w1⟩, h1, h⟩ := R.bind_eq_ok.1 h
    simp only [RleTree.new] at h1
    obtain ⟨_, -, h1⟩ := R.bind_eq_ok.1 h1
    obtain ⟨_, -, h1⟩ := R.bind_eq_ok.1 h1
    obtain ⟨_, -, h1⟩ := R.bind_eq_ok.1 h1
    cases h1
    cases h
    simp [RleTree.numberOfSlices, hr]
  · rw [hr] at h
    dsimp only at h
    obtain ⟨pt, -, h⟩ := R.bind_eq_ok.1 h
    obtain ⟨⟨d, post, path, w1⟩, h1, h⟩ := R.bind_eq_ok.1 h
    have hd : d ≤ 2 := by
      cases pt with
      | edge leaf ctx i l r =>
        simp only [insertAt, insertEdge] at h1
        obtain ⟨_, -, h1⟩ := R.bind_eq_ok.1 h1
        obtain ⟨x, -, h1⟩ := R.bind_eq_ok.1 h1
        rcases x with x | ⟨_, _, _⟩
        · cases h1; omega
        · obtain ⟨_, -, h1⟩ := R.bind_eq_ok.1 h1
          cases h1; omega
      | split hh n ctx k p =>
        simp only [insertAt, insertSplit] at h1
        obtain ⟨_, -, h1⟩ := R.bind_eq_ok.1 h1
        obtain ⟨_, -, h1⟩ := R.bind_eq_ok.1 h1
        obtain ⟨_, -, h1⟩ := R.bind_eq_ok.1 h1
        obtain ⟨_, -, h1⟩ := R.bind_eq_ok.1 h1
        split at h1
        · obtain ⟨_, -, h1⟩ := R.bind_eq_ok.1 h1
          cases h1; omega
        split at h1
        · obtain ⟨_, -, h1⟩ := R.bind_eq_ok.1 h1
          split at h1
          · obtain ⟨_, -, h1⟩ := R.bind_eq_ok.1 h1
            obtain ⟨_, -, h1⟩ := R.bind_eq_ok.1 h1
            obtain ⟨_, -, h1⟩ := R.bind_eq_ok.1 h1
            obtain ⟨_, -, h1⟩ := R.bind_eq_ok.1 h1
            obtain ⟨⟨_, _⟩, -, h1⟩ := R.bind_eq_ok.1 h1
            cases h1; omega
          · obtain ⟨_, -, h1⟩ := R.bind_eq_ok.1 h1
            obtain ⟨_, -, h1⟩ := R.bind_eq_ok.1 h1
            obtain ⟨_, -, h1⟩ := R.bind_eq_ok.1 h1
            cases h1; omega
        · obtain ⟨_, -, h1⟩ := R.bind_eq_ok.1 h1
          split at h1
          · obtain ⟨_, -, h1⟩ := R.bind_eq_ok.1 h1
            obtain ⟨_, -, h1⟩ := R.bind_eq_ok.1 h1
            cases h1; omega
          · obtain ⟨_, -, h1⟩ := R.bind_eq_ok.1 h1
            cases h1; omega
    have key : ∀ {handle}, installRoot E (r.len + d) post path handle w1 = .ok (t', out) → t'.numberOfSlices ≤ t.numberOfSlices + 2 := by
      intro handle h
      cases post with
      | done x =>
        simp only [installRoot] at h
        obtain ⟨_, -, h⟩ := R.bind_eq_ok.1 h
        cases h
        simp only [RleTree.numberOfSlices, hr]
        omega
      | newRoot a b c e =>
        simp only [installRoot] at h
        obtain ⟨⟨_, _⟩, -, h⟩ := R.bind_eq_ok.1 h
        obtain ⟨_, -, h⟩ := R.bind_eq_ok.1 h
        cases h
        simp only [RleTree.numberOfSlices, hr]
        omega
    dsimp only at h
    split at h
    · obtain ⟨_, -, h⟩ := R.bind_eq_ok.1 h
      exact key h
    · exact key h

/-- A history of insertions, with steps.  src/tree/insert.rs:41-197 -/
def Tk.insertAll (E : Env Nat S) : RleTree Nat S → List (Op S) → T (RleTree Nat S)
  | t, [] => pure t
  | t, o :: os => do
    let (t, _) ← Tk.insert E t o.nop o.hints o.idx o.slice o.size o.world
    Tk.insertAll E t os

/-- **C46.** A history of `k` insertions into a tree of `n` runs takes at most `k * 20 * (2 * M + 14) * (log (n + 2 * k) + 1)` steps. -/
theorem insertAll_steps (hE : E.ix = natIdx MAX) {t : RleTree Nat S} (ht : Reach MAX E t) {ops : List (Op S)} (hs : ∀ o ∈ ops, o.size ≤ MAX) :
    (Tk.insertAll E t ops).2 = insertAll E t ops ∧
    (Tk.insertAll E t ops).1 ≤ ops.length * (20 * (2 * E.M + 14) * (Nat.log (E.M + 1) (t.numberOfSlices + 2 * ops.length) + 1)) := by
  suffices ∀ N, t.numberOfSlices + 2 * ops.length ≤ N →
      Takes (Tk.insertAll E t ops) (insertAll E t ops) (ops.length * (20 * (2 * E.M + 14) * (Nat.log (E.M + 1) N + 1))) from
    this _ (Nat.le_refl _)
  intro N hN
  induction ops generalizing t with
  | nil => exact .ok
  | cons o os ih =>
    simp only [List.length_cons] at hN
    have h1 := insert_steps hE ht o.nop o.hints o.idx o.slice o.size o.world
    have h2 : Nat.log (E.M + 1) t.numberOfSlices ≤ Nat.log (E.M + 1) N := Nat.log_mono_right (by omega)
    have h3 : 20 * (2 * E.M + 14) * (Nat.log (E.M + 1) t.numberOfSlices + 1) ≤ 20 * (2 * E.M + 14) * (Nat.log (E.M + 1) N + 1) :=
      Nat.mul_le_mul_left _ (Nat.add_le_add_right h2 1)
    have h5 := Nat.le_trans h1.2 h3
    simp only [Tk.insertAll, insertAll, List.length_cons]
    rw [Nat.succ_mul]
    refine .bind (a := 20 * (2 * E.M + 14) * (Nat.log (E.M + 1) N + 1)) ⟨h1.1, h5⟩ (Nat.le_add_left _ _) (fun ⟨t1, out⟩ hr => ?_)
    have h4 := insert_two hr
    refine (ih (.insert ht (hs o (by simp)) hr) (fun o' ho => hs o' (by simp [ho])) (by omega)).mono ?_
    rw [Nat.add_sub_cancel]

/-! ## Instances -/

/-- The example history of eleven runs in nodes of at most two keys: three levels.  It is within the bound, and so is one more insertion. -/
example : ∃ t, (Tk.insertAll exEnv ⟨none⟩ exOps).2 = .ok t ∧ t.numberOfSlices = 11 ∧
    (Tk.insertAll exEnv ⟨none⟩ exOps).1 ≤ exOps.length * (320 * (Nat.log 2 (2 * exOps.length) + 1)) ∧
    (Tk.insert exEnv t false [] 8 'q' 3 ⟨50, [], [], none, []⟩).1 ≤ 320 * (Nat.log 2 11 + 1) := by
  obtain ⟨t, h1, h2, h3⟩ := exReach
  have hn : t.numberOfSlices = 11 := by
    rw [numberOfSlices_eq (MAX := 255) rfl h2]
    have := congrArg List.length h3
    simpa using this
  have hs := insertAll_steps (MAX := 255) (E := exEnv) rfl exEmpty (ops := exOps) (by decide +kernel)
  have hi := (insert_steps (MAX := 255) (E := exEnv) rfl h2 false [] 8 'q' 3 ⟨50, [], [], none, []⟩).2
  rw [hn] at hi
  refine ⟨t, hs.1.trans h1, hn, ?_, hi⟩
  have := hs.2
  simp only [RleTree.numberOfSlices, Nat.zero_add] at this
  exact this

/-- The number of steps is that of the program, not of the bound: 417 for these eight insertions. -/
example : (Tk.insertAll exEnv ⟨none⟩ exOps).1 = 417 := by decide +kernel

theorem nodes_runsK {M : Nat} {C : Type} (f : C → List Nat) (size : Nat) (sz : C → Nat) (rc : C → List (Ent S)) (hM : 1 ≤ M) :
    ∀ (kids : List C) (keys : List (Key Nat S)), kids.length = keys.length + 1 → (∀ c ∈ kids, M * (f c).length ≤ (rc c).length) →
      keys.length + M * (kids.flatMap f).length ≤ (runsK size sz rc kids keys).length
  | [], _, h, _ => by simp at h
  | [c], [], _, hc => by simpa [runsK] using hc c (by simp)
  | c :: d :: cs, [], h, _ => by simp at h
  | c :: cs, k :: ks, h, hc => by
    have h1 := hc c (by simp)
    have h2 := nodes_runsK (M := M) f size sz rc hM cs ks (by simpa using h) (fun x hx => hc x (by simp [hx]))
    simp only [runsK, List.length_append, List.length_cons, List.flatMap_cons, Nat.mul_add]
    omega

theorem nodes_shape {M : Nat} (hM : 1 ≤ M) : ∀ {h : Nat} {lo : Nat} (t : Tree Nat S h), ShapeT M lo t → lo ≤ M →
    lo * (Cow.addrs t).length ≤ (runsT t).length ∧ M * (Cow.addrs t).length + lo ≤ (runsT t).length + M
  | 0, lo, t, _, hl => by simp [Cow.addrs, runsT]; exact hl
  | h + 1, lo, n, ⟨h1, _, h3, h4⟩, hl => by
    have h5 := nodes_runsK (M := M) (Cow.addrs (h := h)) n.size szN runsT hM n.kids n.keys h3 (fun c hc => (nodes_shape hM c (h4 c hc) (Nat.le_refl _)).1)
    have h6 : lo * (n.kids.flatMap (Cow.addrs (h := h))).length ≤ M * (n.kids.flatMap (Cow.addrs (h := h))).length := Nat.mul_le_mul_right _ hl
    simp only [Cow.addrs, runsT, List.length_cons, Nat.mul_add, Nat.mul_one]
    omega

/-- **C46.** The space: a tree of `n` runs consists of at most `(n - 1) / M + 1` nodes, each of which holds between `M` (the root: 1) and `2 * M` runs. -/
theorem space_linear (hE : E.ix = natIdx MAX) {t : RleTree Nat S} (ht : Reach MAX E t) :
    E.M * t.addrs.length + 1 ≤ t.numberOfSlices + E.M ∧ t.addrs.length ≤ t.numberOfSlices := by
  have hM := (ht.holds hE).1.1
  rw [numberOfSlices_eq hE ht]
  unfold RleTree.addrs RleTree.runs
  cases hr : t.root with
  | none =>
    simp
    omega
  | some r =>
    have := nodes_shape hM r.tree (shape hE ht hr) hM
    dsimp only
    omega

/-- The eleven runs of the example, in as many nodes as shown. -/
example : ∃ t, Reach 255 exEnv t ∧ t.addrs.length ≤ 11 ∧ (Tk.insertAll exEnv ⟨none⟩ exOps).2.map (fun t => t.addrs.length) = .ok 10 := by
  obtain ⟨t, h1, h2, h3⟩ := exReach
  have := (space_linear (MAX := 255) (E := exEnv) rfl h2).2
  rw [numberOfSlices_eq (MAX := 255) rfl h2] at this
  have h4 := congrArg List.length h3
  simp only [List.length_map] at h4
  rw [h4] at this
  exact ⟨t, h2, this, by decide +kernel⟩

/-- References into a tree of several levels. -/
example : ∃ st ids id x, Live 255 1000 exRefEnv st ids ∧ id ∈ ids ∧ st.range exRefEnv id = .ok x ∧
    ∃ L, Linked L st.tree ∧ (Tk.range exRefEnv L (Nat.log 2 st.tree.numberOfSlices + 1) st id).2 = .ok x ∧
      (Tk.range exRefEnv L (Nat.log 2 st.tree.numberOfSlices + 1) st id).1 ≤ 3 * Nat.log 2 st.tree.numberOfSlices + 6 := by
  obtain ⟨st, ids, st', r, r', out, h, hr, hr', g1, g2, -⟩ := exLive
  obtain ⟨L, hL, hw⟩ := reference_steps (MAX := 255) (E := exRefEnv) rfl h
  obtain ⟨⟨a1, a2⟩, -⟩ := hw r
  exact ⟨st, ids, r, _, h, hr, g1, L, hL, a1.trans g1, a2⟩

end
end Sherman
