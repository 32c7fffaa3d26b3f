import Verif.TickInsert
/-!
# How many steps an insertion takes: lemmas

Each function with steps has the result of the function without (`Verif/Insert.lean`), and its number of steps is bounded by the lengths of
the nodes that it gets, and by the number of levels above.
-/
namespace Sherman
namespace Tk
variable {I S C : Type}

/-- At most `K` keys, and `K + 1` children.  Used in proofs (arrays of src/tree/node.rs:435-593). -/
def Fit (K : Nat) (n : Node I S C) : Prop := n.keys.length ≤ K ∧ n.kids.length ≤ K + 1

theorem Fit.mono {K K' : Nat} {n : Node I S C} (h : Fit K n) (hk : K ≤ K') : Fit K' n := ⟨Nat.le_trans h.1 hk, by have := h.2; omega⟩

theorem fit_setKeyPos {K k : Nat} {n n' : Node I S C} {p : I} (h : Fit K n) (e : n.setKeyPos k p = .ok n') : Fit K n' := by
  rw [Node.setKeyPos] at e
  split at e
  · cases e
  · cases e
    exact ⟨by simpa using h.1, h.2⟩

theorem fit_setSlice {K k : Nat} {n n' : Node I S C} {s : S} (h : Fit K n) (e : n.setSlice k s = .ok n') : Fit K n' := by
  rw [Node.setSlice] at e
  split at e
  · cases e
  · cases e
    exact ⟨by simpa using h.1, h.2⟩

theorem len_mapPos (f : I → R I) (ks ks' : List (Key I S)) (e : Node.mapPos f ks = .ok ks') : ks'.length = ks.length := by
  induction ks generalizing ks' with
  | nil => cases e; rfl
  | cons k ks ih =>
    simp only [Node.mapPos] at e
    obtain ⟨p, -, e⟩ := R.bind_eq_ok.1 e
    obtain ⟨l, h, e⟩ := R.bind_eq_ok.1 e
    cases e
    simp [ih l h]

theorem fit_setKeyPossWith {K start : Nat} {n n' : Node I S C} {f : I → R I} (h : Fit K n) (e : n.setKeyPossWith f start = .ok n') : Fit K n' := by
  simp only [Node.setKeyPossWith] at e
  obtain ⟨_, -, e⟩ := R.bind_eq_ok.1 e
  obtain ⟨ks, hk, e⟩ := R.bind_eq_ok.1 e
  obtain ⟨s, -, e⟩ := R.bind_eq_ok.1 e
  cases e
  have := len_mapPos _ _ _ hk
  refine ⟨?_, h.2⟩
  have h1 := h.1
  simp only [List.length_append, List.length_take, this, List.length_drop]
  omega

theorem fit_shiftKeys {ix : IdxOps I} {K start : Nat} {n n' : Node I S C} {b : Bool} {p o z : I} (h : Fit K n)
    (e : n.shiftKeys ix b start p o z = .ok n') : Fit K n' := by
  simp only [Node.shiftKeys] at e
  obtain ⟨_, -, e⟩ := R.bind_eq_ok.1 e
  obtain ⟨_, -, e⟩ := R.bind_eq_ok.1 e
  obtain ⟨_, -, e⟩ := R.bind_eq_ok.1 e
  split at e
  · obtain ⟨_, -, e⟩ := R.bind_eq_ok.1 e
    exact fit_setKeyPossWith h e
  · obtain ⟨_, -, e⟩ := R.bind_eq_ok.1 e
    exact fit_setKeyPossWith h e

theorem fit_split [HasPtr C] {K mid : Nat} {n l r : Node I S C} {k : Key I S} {w w' : World} (h : Fit K n) (e : n.split mid w = .ok (l, k, r, w')) :
    Fit K l ∧ Fit K r := by
  rw [Node.split] at e
  split at e
  · cases e
  · cases e
    have h1 := h.1
    have h2 := h.2
    refine ⟨⟨?_, ?_⟩, ?_, ?_⟩ <;> simp only [List.length_take, List.length_drop] <;> omega

theorem fit_insert [HasPtr C] {K m idx : Nat} {n n' : Node I S C} {s : S} {ref : Option Nat} {c : C} {w w' : World} {p : I} (h : Fit K n)
    (e : n.insertKeyAndChild m idx s ref c w = .ok (n', p, w')) : Fit (K + 1) n' := by
  simp only [Node.insertKeyAndChild] at e
  obtain ⟨_, -, e⟩ := R.bind_eq_ok.1 e
  obtain ⟨_, -, e⟩ := R.bind_eq_ok.1 e
  cases e
  have h1 := h.1
  have h2 := h.2
  refine ⟨?_, ?_⟩ <;> simp only [List.length_append, List.length_take, List.length_drop, List.length_cons] <;> omega

theorem fit_push [HasPtr C] {K m : Nat} {n n' : Node I S C} {s : S} {ref : Option Nat} {c : C} {w w' : World} {p : I} (h : Fit K n)
    (e : n.pushKeyAndChild m s ref c p w = .ok (n', w')) : Fit (K + 1) n' := by
  simp only [Node.pushKeyAndChild] at e
  obtain ⟨_, -, e⟩ := R.bind_eq_ok.1 e
  cases e
  have h1 := h.1
  have h2 := h.2
  refine ⟨?_, ?_⟩ <;> simp only [List.length_append, List.length_cons, List.length_nil] <;> omega

theorem fit_replace [HasPtr C] {K : Nat} {n n' : Node I S C} {c c' : C} {w w' : World} (h : Fit K n)
    (e : n.replaceFirstChild c w = .ok (n', c', w')) : Fit K n' := by
  rw [Node.replaceFirstChild] at e
  split at e
  · cases e
  · rename_i hk
    cases e
    have h2 := h.2
    rw [hk] at h2
    exact ⟨h.1, h2⟩

/-! ## Nodes -/

theorem split_sim [HasPtr C] {K : Nat} {n : Node I S C} (h : Fit K n) (mid : Nat) (w : World) : Takes (split n mid w) (n.split mid w) (4 * K + 3) := by
  simp only [split]
  have h1 := h.1
  have h2 := h.2
  steps

theorem insertKeyAndChild_sim [HasPtr C] {K : Nat} {n : Node I S C} (h : Fit K n) (m idx : Nat) (s : S) (ref : Option Nat) (c : C) (w : World) :
    Takes (insertKeyAndChild m n idx s ref c w) (n.insertKeyAndChild m idx s ref c w) (4 * K + 4) := by
  simp only [insertKeyAndChild]
  have h1 := h.1
  have h2 := h.2
  steps

theorem pushKeyAndChild_sim [HasPtr C] (m : Nat) (n : Node I S C) (s : S) (ref : Option Nat) (c : C) (z : I) (w : World) :
    Takes (pushKeyAndChild m n s ref c z w) (n.pushKeyAndChild m s ref c z w) 2 := by
  simp only [pushKeyAndChild]
  steps

theorem makeNewParent_sim (ix : IdxOps I) {h : Nat} (l : Tree I S (h + 1)) (k : Key I S) (z : I) (r : Tree I S (h + 1)) (w : World) :
    Takes (makeNewParent ix l k z r w) (Sherman.makeNewParent ix l k z r w) 5 := by
  simp only [makeNewParent]
  steps

theorem shiftKeysF {ix : IdxOps I} {K : Nat} {n : Node I S C} (h : Fit K n) (b : Bool) (start : Nat) (p o z : I) :
    Takes (shiftKeys ix n b start p o z) (n.shiftKeys ix b start p o z) (K + 4) :=
  (shiftKeys_sim ix n b start p o z).mono (by have := h.1; omega)

theorem shiftKeysAutoF {ix : IdxOps I} {K : Nat} {n : Node I S C} (h : Fit K n) (start : Nat) (p o z : I) :
    Takes (shiftKeysAuto ix n start p o z) (n.shiftKeysAuto ix start p o z) (K + 5) :=
  (shiftKeysAuto_sim ix n start p o z).mono (by have := h.1; omega)

/-! ## Updates of positions up to the root -/

theorem emit_sim (cb : Cb) (ev : Ev) (w : World) : Takes (emit cb ev w) (Sherman.emit cb ev w) 1 := by
  simp only [emit, Sherman.emit]
  steps

theorem opPos_sim (ix : IdxOps I) (n : Node I S C) (cok : COK) (ov : Option I) (old : I) :
    Takes (opPos ix n cok ov old) (Sherman.opPos ix n cok ov old) 1 := by
  cases ov <;> cases cok <;> simp only [opPos, Sherman.opPos] <;> steps

theorem mapSizes_sim (ix : IdxOps I) (m : Maps I) (hd : Bool) (ht : Nat) (n : Node I S C) (cok : COK) (ov : Option I) (old new : I) :
    Takes (mapSizes ix m hd ht n cok ov old new) (Sherman.mapSizes ix m hd ht n cok ov old new) 10 := by
  simp only [mapSizes, Sherman.mapSizes]
  steps
  refine .bind (opPos_sim _ _ _ _ _) (by omega) (fun _ _ => ?_)
  steps
  cases cok <;> dsimp only <;> steps

theorem mapSizes_fit {ix : IdxOps I} {m : Maps I} {hd : Bool} {ht K : Nat} {n n' : Node I S C} {cok : COK} {ov ov' : Option I} {old new o z : I}
    (h : Fit K n) (e : Sherman.mapSizes ix m hd ht n cok ov old new = .ok (n', ov', o, z)) : Fit K n' := by
  simp only [Sherman.mapSizes] at e
  split at e
  · cases e
    exact h
  · obtain ⟨_, -, e⟩ := R.bind_eq_ok.1 e
    obtain ⟨_, -, e⟩ := R.bind_eq_ok.1 e
    obtain ⟨_, -, e⟩ := R.bind_eq_ok.1 e
    obtain ⟨_, -, e⟩ := R.bind_eq_ok.1 e
    obtain ⟨_, -, e⟩ := R.bind_eq_ok.1 e
    obtain ⟨_, -, e⟩ := R.bind_eq_ok.1 e
    obtain ⟨_, -, e⟩ := R.bind_eq_ok.1 e
    obtain ⟨_, -, e⟩ := R.bind_eq_ok.1 e
    cases cok with
    | child c => cases e; exact h
    | key k =>
      dsimp only at e
      obtain ⟨_, -, e⟩ := R.bind_eq_ok.1 e
      obtain ⟨_, -, e⟩ := R.bind_eq_ok.1 e
      obtain ⟨_, -, e⟩ := R.bind_eq_ok.1 e
      obtain ⟨_, h4, e⟩ := R.bind_eq_ok.1 e
      cases e
      exact fit_setKeyPos h h4

theorem opStep_sim {K : Nat} (ix : IdxOps I) (m : Maps I) (hd : Bool) (ht : Nat) {n : Node I S C} (h : Fit K n) (cok : COK) (ov : Option I) (old new : I) :
    Takes (opStep ix m hd ht n cok ov old new) (Sherman.opStep ix m hd ht n cok ov old new) (K + 16) := by
  simp only [opStep, Sherman.opStep]
  refine .bind (mapSizes_sim _ _ _ _ _ _ _ _ _) (by omega) (fun ⟨n1, ov1, o1, z1⟩ e1 => ?_)
  dsimp only
  refine .bind (opPos_sim _ _ _ _ _) (by omega) (fun _ _ => ?_)
  refine .bind (shiftKeysAutoF (mapSizes_fit h e1) _ _ _ _) (by omega) (fun _ _ => ?_)
  steps

/-- Number of levels above.  Used in proofs (levels: src/tree/node.rs:435-593). -/
def depth {H : Nat} : {h : Nat} → Ctx I S H h → Nat
  | _, .top => 0
  | _, .frame _ _ _ _ _ up => depth up + 1

theorem depth_add {H h : Nat} (ctx : Ctx I S H h) : depth ctx + h = H := by
  induction ctx with
  | top => simp [depth]
  | frame _ _ _ _ _ up ih => simp only [depth]; omega

/-- The nodes above have at most `K` keys, and `K + 1` children.  Used in proofs (arrays of src/tree/node.rs:435-593). -/
def FitC (K : Nat) {H : Nat} : {h : Nat} → Ctx I S H h → Prop
  | _, .top => True
  | _, .frame _ _ keys kl kr up => keys.length ≤ K ∧ kl.length + kr.length ≤ K ∧ FitC K up

theorem fit_plug {K ptr : Nat} {size : I} {keys : List (Key I S)} {kl kr : List C} {c : C} (h1 : keys.length ≤ K) (h2 : kl.length + kr.length ≤ K) :
    Fit K (plugNode ptr size keys kl c kr) := by
  refine ⟨h1, ?_⟩
  simp only [plugNode, List.length_append, List.length_cons]
  omega

theorem opUp_sim {K U : Nat} (hU : K + 10 ≤ U) {H : Nat} (ix : IdxOps I) (m : Maps I) (hd : Bool) {h : Nat} (ctx : Ctx I S H h) (hc : FitC K ctx) (t : Tree I S h)
    (old new : I) (path : List Nat) :
    Takes (opUp ix m hd ctx t old new path) (Sherman.opUp ix m hd ctx t old new path) (3 * (depth ctx * U)) := by
  induction ctx generalizing old new path with
  | top => exact .pure
  | frame ptr size keys kl kr up ih =>
    simp only [opUp, Sherman.opUp, depth, Nat.succ_mul]
    refine .tick (by omega) ?_
    refine .bind (opStep_sim ix m hd _ (fit_plug hc.1 hc.2.1) _ _ _ _) (by omega) (fun ⟨n', o⟩ _ => ?_)
    exact (ih hc.2.2 _ _ _ _).mono (by omega)

theorem opKey_sim {K U : Nat} (hU : K + 10 ≤ U) {H h : Nat} (ix : IdxOps I) (m : Maps I) (hd : Bool) (ctx : Ctx I S H (h + 1)) (hc : FitC K ctx)
    {n : Tree I S (h + 1)} (hn : Fit (K + 2) n) (k : Nat) (ov : Option I) (old new : I) (path : List Nat) :
    Takes (opKey ix m hd ctx n k ov old new path) (Sherman.opKey ix m hd ctx n k ov old new path) (3 * (depth ctx * U) + 2 * U) := by
  simp only [opKey, Sherman.opKey]
  refine .bind (opStep_sim ix m hd _ hn _ _ _ _) (by omega) (fun ⟨n', o⟩ _ => ?_)
  exact (opUp_sim hU ix m hd ctx hc _ _ _ _).mono (by omega)

/-! ## Splits that go up -/

theorem emitKey_sim (cb : Cb) (b : Bool) (n : Node I S C) (k : Nat) (w : World) : Takes (emitKey cb b n k w) (Sherman.emitKey cb b n k w) 1 := by
  simp only [emitKey, Sherman.emitKey]
  refine .bindLift (fun _ _ => .ite (fun _ => emit_sim _ _ _) (fun _ => emit_sim _ _ _))

theorem roomNums_sim (ix : IdxOps I) (shift : Option (Shift I)) (a b c : I) : Takes (roomNums ix shift a b c) (Sherman.roomNums ix shift a b c) 3 := by
  cases shift <;> simp only [roomNums, Sherman.roomNums] <;> steps

theorem halfNums_sim (ix : IdxOps I) (shift : Option (Shift I)) (a b : I) : Takes (halfNums ix shift a b) (Sherman.halfNums ix shift a b) 1 := by
  cases shift <;> simp only [halfNums, Sherman.halfNums] <;> steps

theorem bubbleRoom_sim [HasPtr C] {K : Nat} (E : Env I S) (cb : Cb) (sz : C → I) {n : Node I S C} (h : Fit K n) (c : Nat) (b : Bubble I S C) (path : List Nat) (w : World) :
    Takes (bubbleRoom E cb sz n c b path w) (Sherman.bubbleRoom E cb sz n c b path w) (4 * K + 11) := by
  simp only [bubbleRoom, Sherman.bubbleRoom]
  steps
  refine .bind (roomNums_sim _ _ _ _ _) (by omega) (fun ⟨_, _, _, _⟩ _ => ?_)
  refine .bind (insertKeyAndChild_sim h _ _ _ _ _ _) (by omega) (fun ⟨_, _, _⟩ _ => ?_)
  dsimp only
  steps
  refine .bind (emitKey_sim _ _ _ _ _) (by omega) (fun _ _ => ?_)
  steps

theorem bubbleRoom_fit [HasPtr C] {K : Nat} {E : Env I S} {cb : Cb} {sz : C → I} {n n' : Node I S C} (h : Fit K n) {c : Nat} {b : Bubble I S C} {path : List Nat} {w : World}
    {r : I × I × I × List Nat × World} (e : Sherman.bubbleRoom E cb sz n c b path w = .ok (n', r)) : Fit (K + 1) n' := by
  simp only [Sherman.bubbleRoom] at e
  obtain ⟨_, -, e⟩ := R.bind_eq_ok.1 e
  obtain ⟨_, -, e⟩ := R.bind_eq_ok.1 e
  obtain ⟨⟨_, _, _, _⟩, -, e⟩ := R.bind_eq_ok.1 e
  obtain ⟨⟨_, _, _⟩, h4, e⟩ := R.bind_eq_ok.1 e
  obtain ⟨_, -, e⟩ := R.bind_eq_ok.1 e
  obtain ⟨_, h6, e⟩ := R.bind_eq_ok.1 e
  obtain ⟨_, -, e⟩ := R.bind_eq_ok.1 e
  cases e
  exact fit_setKeyPos (fit_insert h h4) h6

theorem bubbleInsertHalf_sim [HasPtr C] {K : Nat} (E : Env I S) (cb : Cb) (sz : C → I) {n : Node I S C} (h : Fit K n) (c : Nat) (b : Bubble I S C)
    (shift : Option (Shift I)) (path : List Nat) (w : World) :
    Takes (bubbleInsertHalf E cb sz n c b shift path w) (Sherman.bubbleInsertHalf E cb sz n c b shift path w) (5 * K + 16) := by
  simp only [bubbleInsertHalf, Sherman.bubbleInsertHalf]
  steps
  refine .bind (halfNums_sim _ _ _ _) (by omega) (fun ⟨_, _, _, _⟩ _ => ?_)
  dsimp only
  steps
  refine .bind (insertKeyAndChild_sim h _ _ _ _ _ _) (by omega) (fun ⟨_, _, _⟩ h1 => ?_)
  dsimp only
  steps
  rename_i h2
  refine .bind (shiftKeysF (fit_setKeyPos (fit_insert h h1) h2) _ _ _ _ _) (by omega) (fun _ _ => ?_)
  refine .bind (emitKey_sim _ _ _ _ _) (by omega) (fun _ _ => ?_)
  steps

theorem relShift_sim (ix : IdxOps I) (shift : Option (Shift I)) (a : I) : Takes (relShift ix shift a) (Sherman.relShift ix shift a) 1 := by
  cases shift <;> simp only [relShift, Sherman.relShift] <;> steps

theorem bubbleSplit_sim [HasPtr C] {K : Nat} (E : Env I S) (cb : Cb) (sz : C → I) {n : Node I S C} (h : Fit K n) (c : Nat) (b : Bubble I S C)
    (path : List Nat) (w : World) :
    Takes (bubbleSplit E cb sz n c b path w) (Sherman.bubbleSplit E cb sz n c b path w) (10 * K + 26) := by
  simp only [bubbleSplit, Sherman.bubbleSplit]
  refine .bindLift (fun _ _ => ?_)
  refine .bind (split_sim h _ _) (by omega) (fun ⟨l, key, r, w1⟩ h1 => ?_)
  obtain ⟨f1, f2⟩ := fit_split h h1
  have f1' : ∀ z, Fit K { l with size := z } := fun _ => f1
  dsimp only
  refine .bindLift (fun _ _ => .bindLift (fun _ _ => .bindOp (by omega) (fun _ _ => .bindOp (by omega) (fun _ _ => ?_))))
  refine .ite (fun _ => ?_) (fun _ => ?_)
  · refine .bind (shiftKeysF f2 _ _ _ _ _) (by omega) (fun r1 h2 => ?_)
    refine .ite (fun _ => ?_) (fun _ => ?_)
    · refine .bind (bubbleInsertHalf_sim E cb sz (f1' _) _ _ _ _ _) (by omega) (fun ⟨_, _, _⟩ _ => ?_)
      dsimp only
      steps
    · refine .bindLift (fun _ _ => .bind (relShift_sim _ _ _) (by omega) (fun _ _ => ?_))
      refine .bind (bubbleInsertHalf_sim E cb sz (fit_shiftKeys f2 h2) _ _ _ _ _) (by omega) (fun ⟨_, _, _⟩ _ => ?_)
      dsimp only
      steps
  · refine .tick (by omega) (.bindLift (fun ⟨_, _, _⟩ h2 => ?_))
    dsimp only
    refine .bindOp (by omega) (fun _ _ => .bindOp (by omega) (fun _ _ => ?_))
    refine .bind (pushKeyAndChild_sim _ _ _ _ _ _ _) (by omega) (fun ⟨_, _⟩ _ => ?_)
    dsimp only
    refine .bindLift (fun _ _ => .bind (shiftKeysAutoF (fit_replace f2 h2) _ _ _ _) (by omega) (fun _ _ => ?_))
    steps

theorem bubbleFinish_sim {K U : Nat} (hU : K + 10 ≤ U) {H : Nat} (E : Env I S) (cb : Cb) (m : Maps I) {h : Nat} (ctx : Ctx I S H h) (hc : FitC K ctx)
    (b : Bubble I S (Tree I S h)) (hd : Bool) (path : List Nat) (w : World) :
    Takes (bubbleFinish E cb m ctx b hd path w) (Sherman.bubbleFinish E cb m ctx b hd path w) (11 * (depth ctx * U) + U) := by
  induction ctx generalizing hd path w with
  | top =>
    simp only [bubbleFinish, Sherman.bubbleFinish]
    refine .tick (by omega) (.bindLift (fun ⟨_, _⟩ _ => ?_))
    dsimp only
    steps
  | frame ptr size keys kl kr up ih =>
    simp only [bubbleFinish, Sherman.bubbleFinish, depth, Nat.succ_mul]
    refine .tick (by omega) (.bindLift (fun ⟨_, _⟩ _ => ?_))
    dsimp only
    have hf := fun c => fit_plug (ptr := ptr) (size := size) (c := c) hc.1 hc.2.1
    refine .ite (fun _ => ?_) (fun _ => ?_)
    · refine .bind (bubbleRoom_sim E cb _ (hf _) _ _ _ _) (by omega) (fun ⟨_, _, _, _, _, _⟩ h1 => ?_)
      dsimp only
      refine .bind (opKey_sim hU _ _ _ up hc.2.2 ((bubbleRoom_fit (hf _) h1).mono (by omega)) _ _ _ _ _) (by omega) (fun ⟨_, _⟩ _ => ?_)
      dsimp only
      steps
    · refine .bind (bubbleSplit_sim E cb _ (hf _) _ _ _ _) (by omega) (fun ⟨_, _, _⟩ h1 => ?_)
      exact (ih hc.2.2 _ _ _ _).mono (by omega)

/-! ## Leaves -/

theorem leafInsert_sim {K : Nat} (E : Env I S) {n : Tree I S 1} (h : Fit K n) (idx : Nat) (s : S) (w : World) :
    Takes (leafInsert E n idx s w) (Sherman.leafInsert E n idx s w) (4 * K + 4) := insertKeyAndChild_sim h _ _ _ _ _ _

theorem leafPush_sim (E : Env I S) (n : Tree I S 1) (s : S) (ref : Option Nat) (z : I) (w : World) :
    Takes (leafPush E n s ref z w) (Sherman.leafPush E n s ref z w) 2 := pushKeyAndChild_sim _ _ _ _ _ _ _

theorem leafSplitSmall_sim {K : Nat} (E : Env I S) (cb : Cb) {n : Tree I S 1} (h : Fit K n) (idx : Nat) (ov : Option I) (fst snd : Sized I S) (w : World) :
    Takes (leafSplitSmall E cb n idx ov fst snd w) (Sherman.leafSplitSmall E cb n idx ov fst snd w) (4 * K + 9) := by
  simp only [leafSplitSmall, Sherman.leafSplitSmall]
  refine .bindLift (fun _ _ => .bindLift (fun _ _ => .bindLift (fun _ _ => .bindLift (fun _ _ => ?_))))
  refine .bind (split_sim h _ _) (by omega) (fun ⟨l, key, r, w1⟩ h1 => ?_)
  dsimp only
  refine .ite (fun _ => ?_) (fun _ => ?_)
  · refine .bind (leafPush_sim _ _ _ _ _ _) (by omega) (fun ⟨_, _⟩ _ => ?_)
    refine .bind (leafPush_sim _ _ _ _ _ _) (by omega) (fun ⟨_, _⟩ _ => ?_)
    refine .bind (emit_sim _ _ _) (by omega) (fun _ _ => ?_)
    refine .bind (emit_sim _ _ _) (by omega) (fun _ _ => ?_)
    exact .pure
  · refine .bind (leafPush_sim _ _ _ _ _ _) (by omega) (fun ⟨_, _⟩ _ => ?_)
    refine .bind (leafPush_sim _ _ _ _ _ _) (by omega) (fun ⟨_, _⟩ _ => ?_)
    exact .pure

theorem leafInsertHalf_sim {K : Nat} (E : Env I S) (cb : Cb) {n : Tree I S 1} (h : Fit K n) (idx : Nat) (ov : Option I) (fst : Sized I S)
    (snd : Option (Sized I S)) (w : World) :
    Takes (leafInsertHalf E cb n idx ov fst snd w) (Sherman.leafInsertHalf E cb n idx ov fst snd w) (9 * K + 25) := by
  have fin : ∀ (n3 : Tree I S 1) (pos old z : I) (st : Nat) (w3 : World), Fit (K + 2) n3 →
      Takes (do
        let n ← shiftKeys E.ix n3 true st pos old z
        let _ ← Node.handle n idx
        let w ← emit cb (.insertion n.ptr idx) w3
        pure (n, w) : T (Tree I S 1 × World))
        (do
        let n ← Node.shiftKeys E.ix n3 true st pos old z
        let _ ← Node.handle n idx
        let w ← Sherman.emit cb (.insertion n.ptr idx) w3
        pure (n, w)) (K + 7) := by
    intro n3 pos old z st w3 f3
    refine .bind (shiftKeysF f3 _ _ _ _ _) (by omega) (fun _ _ => .bindLift (fun _ _ => ?_))
    refine .bind (emit_sim _ _ _) (by omega) (fun _ _ => ?_)
    exact .pure
  have ins : ∀ (pos old new : I),
      Takes (do
        let (n, _, w) ← leafInsert E n idx fst.slice w
        let fstPos ← T.op (E.ix.addR pos new)
        let n ← Node.setKeyPos n idx fstPos
        let new ← T.op (E.ix.addR new fst.size)
        let (n, new, start, w) ← match snd with
          | none => pure (n, new, idx + 1, w)
          | some s => do
            let (n, _, w) ← leafInsert E n (idx + 1) s.slice w
            let new ← T.op (E.ix.addR new s.size)
            let sndPos ← T.op (E.ix.addR fstPos fst.size)
            let n ← Node.setKeyPos n (idx + 1) sndPos
            pure (n, new, idx + 2, w)
        let n ← shiftKeys E.ix n true start pos old new
        let _ ← Node.handle n idx
        let w ← emit cb (.insertion n.ptr idx) w
        pure (n, w) : T (Tree I S 1 × World))
        (do
        let (n, _, w) ← Sherman.leafInsert E n idx fst.slice w
        let fstPos ← E.ix.addR pos new
        let n ← Node.setKeyPos n idx fstPos
        let new ← E.ix.addR new fst.size
        let (n, new, start, w) ← match snd with
          | none => pure (n, new, idx + 1, w)
          | some s => do
            let (n, _, w) ← Sherman.leafInsert E n (idx + 1) s.slice w
            let new ← E.ix.addR new s.size
            let sndPos ← E.ix.addR fstPos fst.size
            let n ← Node.setKeyPos n (idx + 1) sndPos
            pure (n, new, idx + 2, w)
        let n ← Node.shiftKeys E.ix n true start pos old new
        let _ ← Node.handle n idx
        let w ← Sherman.emit cb (.insertion n.ptr idx) w
        pure (n, w)) (9 * K + 23) := by
    intro pos old new
    refine .bind (leafInsert_sim E h _ _ _) (by omega) (fun ⟨n1, _, _⟩ h1 => ?_)
    dsimp only
    refine .bindOp (by omega) (fun _ _ => .bindLift (fun n2 h2 => .bindOp (by omega) (fun _ _ => ?_)))
    have f2 : Fit (K + 1) n2 := fit_setKeyPos (fit_insert h h1) h2
    cases snd with
    | none => exact .bindPure ((fin _ _ _ _ _ _ (f2.mono (by omega))).mono (by omega))
    | some s =>
      refine .bind (leafInsert_sim E f2 _ _ _) (by omega) (fun ⟨n3, _, _⟩ h3 => ?_)
      dsimp only
      refine .bindOp (by omega) (fun _ _ => .bindOp (by omega) (fun _ _ => .bindLift (fun n4 h4 => .bindPure ?_)))
      exact (fin _ _ _ _ _ _ (fit_setKeyPos (fit_insert f2 h3) h4)).mono (by omega)
  simp only [leafInsertHalf, Sherman.leafInsertHalf]
  cases ov with
  | none => exact .bindPure ((ins _ _ _).mono (by omega))
  | some s =>
    refine .bindLift (fun _ _ => .bindLift (fun _ _ => .bind (sliceSize_sim _ _ _ _) (by omega) (fun _ _ => .bindPure ?_)))
    exact (ins _ _ _).mono (by omega)

theorem midResize_sim (ix : IdxOps I) (ov : Option I) (at_ : Side ⊕ Side) (idx mid : Nat) (a b : I) :
    Takes (midResize ix ov at_ idx mid a b) (Sherman.midResize ix ov at_ idx mid a b) 1 := by
  rcases ov with _ | s <;> rcases at_ with (_ | _) | (_ | _) <;> simp only [midResize, Sherman.midResize] <;> steps

theorem prependSnd_sim {K : Nat} (E : Env I S) {n : Tree I S 1} (h : Fit K n) (snd : Option (Sized I S)) (w : World) :
    Takes (prependSnd E n snd w) (Sherman.prependSnd E n snd w) (5 * K + 9) := by
  cases snd with
  | none => exact .pure
  | some s =>
    simp only [prependSnd, Sherman.prependSnd]
    refine .bind (leafInsert_sim E h _ _ _) (by omega) (fun ⟨_, _, _⟩ h1 => ?_)
    dsimp only
    refine .bind (shiftKeysF (fit_insert h h1) _ _ _ _ _) (by omega) (fun _ _ => ?_)
    exact .pure

theorem splitPlace_sim {K : Nat} (E : Env I S) (cb : Cb) (at_ : Side ⊕ Side) {n : Tree I S 1} (h : Fit K n) (key : Key I S) (ks : I) {rhs : Tree I S 1} (hr : Fit K rhs)
    (a b : I) (idx mid : Nat) (ov : Option I) (fst : Sized I S) (snd : Option (Sized I S)) (w : World) :
    Takes (splitPlace E cb at_ n key ks rhs a b idx mid ov fst snd w) (Sherman.splitPlace E cb at_ n key ks rhs a b idx mid ov fst snd w) (9 * K + 25) := by
  rcases at_ with (_ | _) | (_ | _)
  · simp only [splitPlace, Sherman.splitPlace]
    refine .bind (leafInsertHalf_sim E cb h _ _ _ _ _) (by omega) (fun ⟨_, _⟩ _ => ?_)
    exact .pure
  · simp only [splitPlace, Sherman.splitPlace]
    refine .bindLift (fun _ _ => .bind (leafInsertHalf_sim E cb hr _ _ _ _ _) (by omega) (fun ⟨_, _⟩ _ => ?_))
    exact .pure
  · cases snd with
    | none => exact .error
    | some s =>
      simp only [splitPlace, Sherman.splitPlace]
      refine .bindOp (by omega) (fun _ _ => .bindOp (by omega) (fun _ _ => ?_))
      refine .bind (leafPush_sim _ _ _ _ _ _) (by omega) (fun ⟨_, _⟩ _ => ?_)
      refine .bind (leafPush_sim _ _ _ _ _ _) (by omega) (fun ⟨_, _⟩ _ => .bindLift (fun _ _ => .bindLift (fun _ _ => ?_)))
      refine .bind (emit_sim _ _ _) (by omega) (fun _ _ => .bind (emit_sim _ _ _) (by omega) (fun _ _ => ?_))
      exact .pure
  · simp only [splitPlace, Sherman.splitPlace]
    refine .bindOp (by omega) (fun _ _ => ?_)
    refine .bind (leafPush_sim _ _ _ _ _ _) (by omega) (fun ⟨_, _⟩ _ => .bindLift (fun _ _ => ?_))
    refine .bind (emit_sim _ _ _) (by omega) (fun _ _ => .bind (prependSnd_sim E hr _ _) (by omega) (fun ⟨_, _⟩ _ => ?_))
    exact .pure

theorem leafSplit_sim {K : Nat} (E : Env I S) (cb : Cb) {n : Tree I S 1} (h : Fit K n) (idx : Nat) (ov : Option I) (fst : Sized I S)
    (snd : Option (Sized I S)) (w : World) :
    Takes (leafSplit E cb n idx ov fst snd w) (Sherman.leafSplit E cb n idx ov fst snd w) (14 * K + 35) := by
  simp only [leafSplit, Sherman.leafSplit]
  refine .ite (fun _ => ?_) (fun _ => ?_)
  · cases snd with
    | none => exact .error
    | some s => exact (leafSplitSmall_sim E cb h _ _ _ _ _).mono (by omega)
  · refine .bindLift (fun ⟨_, _⟩ _ => ?_)
    dsimp only
    refine .bind (split_sim h _ _) (by omega) (fun ⟨l, key, r, w1⟩ h1 => ?_)
    obtain ⟨f1, f2⟩ := fit_split h h1
    have f1' : ∀ z, Fit K { l with size := z } := fun _ => f1
    dsimp only
    refine .bind (emit_sim _ _ _) (by omega) (fun _ _ => .bind (emit_sim _ _ _) (by omega) (fun _ _ => ?_))
    refine .bind (midResize_sim _ _ _ _ _ _ _) (by omega) (fun ⟨_, _⟩ _ => ?_)
    dsimp only
    refine .bind (shiftKeysF f2 _ _ _ _ _) (by omega) (fun _ h2 => ?_)
    exact (splitPlace_sim E cb _ (f1' _) _ _ (fit_shiftKeys f2 h2) _ _ _ _ _ _ _ _).mono (by omega)

theorem leafRoom_sim {K : Nat} (E : Env I S) (cb : Cb) {n : Tree I S 1} (h : Fit K n) (idx : Nat) (ov : Option I) (fst : Sized I S)
    (snd : Option (Sized I S)) (z : I) (w : World) :
    Takes (leafRoom E cb n idx ov fst snd z w) (Sherman.leafRoom E cb n idx ov fst snd z w) (8 * K + 18) := by
  have fin : ∀ (n : Tree I S 1) (p : Option I) (o z : I) (w : World),
      Takes (do
        let _ ← Node.handle n idx
        let w ← emit cb (.insertion n.ptr idx) w
        pure (n, p, o, z, w) : T (Tree I S 1 × Option I × I × I × World))
        (do
        let _ ← Node.handle n idx
        let w ← Sherman.emit cb (.insertion n.ptr idx) w
        pure (n, p, o, z, w)) 1 := fun n p o z w =>
    .bindLift (fun _ _ => .bind (emit_sim _ _ _) (by omega) (fun _ _ => .pure))
  simp only [leafRoom, Sherman.leafRoom]
  cases ov with
  | none =>
    refine .bind (leafInsert_sim E h _ _ _) (by omega) (fun ⟨_, _, _⟩ h1 => ?_)
    cases snd with
    | none => exact .bindPure ((fin _ _ _ _ _).mono (by omega))
    | some s =>
      refine .bind (leafInsert_sim E (fit_insert h h1) _ _ _) (by omega) (fun ⟨_, _, _⟩ _ => ?_)
      refine .bindOp (by omega) (fun _ _ => .bindLift (fun _ _ => .bindPure ((fin _ _ _ _ _).mono (by omega))))
  | some nl =>
    refine .bindLift (fun _ _ => .bindLift (fun _ _ => .bind (sliceSize_sim _ _ _ _) (by omega) (fun _ _ => .bindOp (by omega) (fun _ _ => ?_))))
    refine .bind (leafInsert_sim E h _ _ _) (by omega) (fun ⟨_, _, _⟩ h1 => .bindLift (fun n2 h2 => ?_))
    have f2 := fit_setKeyPos (fit_insert h h1) h2
    cases snd with
    | none => exact .bindPure (.bindOp (by omega) (fun _ _ => .bindPure ((fin _ _ _ _ _).mono (by omega))))
    | some s =>
      refine .bind (leafInsert_sim E f2 _ _ _) (by omega) (fun ⟨_, _, _⟩ _ => ?_)
      refine .bindOp (by omega) (fun _ _ => .bindLift (fun _ _ => .bindPure (.bindOp (by omega) (fun _ _ => .bindPure ((fin _ _ _ _ _).mono (by omega))))))

theorem leafRoom_fit {K : Nat} {E : Env I S} {cb : Cb} {n n' : Tree I S 1} (h : Fit K n) {idx : Nat} {ov : Option I} {fst : Sized I S}
    {snd : Option (Sized I S)} {z : I} {w : World} {r : Option I × I × I × World} (e : Sherman.leafRoom E cb n idx ov fst snd z w = .ok (n', r)) :
    Fit (K + 2) n' := by
  have fin : ∀ {n1 n2 : Tree I S 1} {p : Option I} {o z : I} {w : World} {r : Option I × I × I × World},
      (do
        let _ ← Node.handle n1 idx
        let w ← Sherman.emit cb (.insertion n1.ptr idx) w
        pure (n1, p, o, z, w) : R (Tree I S 1 × Option I × I × I × World)) = .ok (n2, r) → n2 = n1 := by
    intro n1 n2 p o z w r e
    obtain ⟨_, -, e⟩ := R.bind_eq_ok.1 e
    obtain ⟨_, -, e⟩ := R.bind_eq_ok.1 e
    cases e
    rfl
  simp only [Sherman.leafRoom] at e
  cases ov with
  | none =>
    dsimp only at e
    obtain ⟨⟨_, _, _⟩, a1, e⟩ := R.bind_eq_ok.1 e
    have f1 := fit_insert h a1
    cases snd with
    | none =>
      obtain ⟨_, h1, e⟩ := R.bind_eq_ok.1 e
      cases h1
      rw [fin e]
      exact f1.mono (by omega)
    | some s =>
      dsimp only at e
      obtain ⟨⟨_, _, _⟩, a2, e⟩ := R.bind_eq_ok.1 e
      obtain ⟨_, -, e⟩ := R.bind_eq_ok.1 e
      obtain ⟨_, a3, e⟩ := R.bind_eq_ok.1 e
      obtain ⟨_, h1, e⟩ := R.bind_eq_ok.1 e
      cases h1
      rw [fin e]
      exact fit_setKeyPos (fit_insert f1 a2) a3
  | some nl =>
    dsimp only at e
    obtain ⟨_, -, e⟩ := R.bind_eq_ok.1 e
    obtain ⟨_, -, e⟩ := R.bind_eq_ok.1 e
    obtain ⟨_, -, e⟩ := R.bind_eq_ok.1 e
    obtain ⟨_, -, e⟩ := R.bind_eq_ok.1 e
    obtain ⟨⟨_, _, _⟩, a1, e⟩ := R.bind_eq_ok.1 e
    obtain ⟨_, a2, e⟩ := R.bind_eq_ok.1 e
    have f1 := fit_setKeyPos (fit_insert h a1) a2
    cases snd with
    | none =>
      obtain ⟨_, h1, e⟩ := R.bind_eq_ok.1 e
      cases h1
      obtain ⟨_, -, e⟩ := R.bind_eq_ok.1 e
      obtain ⟨_, h1, e⟩ := R.bind_eq_ok.1 e
      cases h1
      rw [fin e]
      exact f1.mono (by omega)
    | some s =>
      dsimp only at e
      obtain ⟨⟨_, _, _⟩, b1, e⟩ := R.bind_eq_ok.1 e
      obtain ⟨_, -, e⟩ := R.bind_eq_ok.1 e
      obtain ⟨_, b3, e⟩ := R.bind_eq_ok.1 e
      obtain ⟨_, h1, e⟩ := R.bind_eq_ok.1 e
      cases h1
      obtain ⟨_, -, e⟩ := R.bind_eq_ok.1 e
      obtain ⟨_, h1, e⟩ := R.bind_eq_ok.1 e
      cases h1
      rw [fin e]
      exact fit_setKeyPos (fit_insert f1 b1) b3

theorem noJoin_sim {K U : Nat} (hU : K + 10 ≤ U) {H : Nat} (E : Env I S) (cb : Cb) (m : Maps I) {n : Tree I S 1} (hn : Fit K n) {ctx : Ctx I S H 1} (hc : FitC K ctx)
    (idx : Nat) (ov : Option I) (fst : Sized I S) (snd : Option (Sized I S)) (w : World) :
    Takes (noJoin E cb m n ctx idx ov fst snd w) (Sherman.noJoin E cb m n ctx idx ov fst snd w) (11 * (depth ctx * U) + 15 * U) := by
  have go : ∀ (one : Nat) (added : I),
      Takes (do
        let lim ← usub (2 * E.M) one
        if Node.len n ≥ lim then do
          let (b, w) ← leafSplit E cb n idx ov fst snd w
          bubbleFinish E cb m ctx b false [] w
        else do
          let (n, ovPos, old, new, w) ← leafRoom E cb n idx ov fst snd added w
          let (t, path) ← opKey E.ix m false ctx n (idx + one) ovPos old new []
          pure (.done t, path, ctx.readUp (ptrT n) w) : T (Post I S H × List Nat × World))
        (do
        let lim ← usub (2 * E.M) one
        if Node.len n ≥ lim then do
          let (b, w) ← Sherman.leafSplit E cb n idx ov fst snd w
          Sherman.bubbleFinish E cb m ctx b false [] w
        else do
          let (n, ovPos, old, new, w) ← Sherman.leafRoom E cb n idx ov fst snd added w
          let (t, path) ← Sherman.opKey E.ix m false ctx n (idx + one) ovPos old new []
          pure (.done t, path, ctx.readUp (ptrT n) w)) (11 * (depth ctx * U) + 15 * U - 1) := by
    intro one added
    refine .bindLift (fun _ _ => .ite (fun _ => ?_) (fun _ => ?_))
    · refine .bind (leafSplit_sim E cb hn _ _ _ _ _) (by omega) (fun ⟨_, _⟩ _ => ?_)
      exact (bubbleFinish_sim hU E cb m ctx hc _ _ _ _).mono (by omega)
    · refine .bind (leafRoom_sim E cb hn _ _ _ _ _ _) (by omega) (fun ⟨_, _, _, _, _⟩ h1 => ?_)
      dsimp only
      refine .bind (opKey_sim hU _ _ _ ctx hc (leafRoom_fit hn h1) _ _ _ _ _) (by omega) (fun ⟨_, _⟩ _ => ?_)
      exact .pure
  simp only [noJoin, Sherman.noJoin]
  refine .bindLift (fun _ _ => .bindLift (fun _ _ => ?_))
  cases snd with
  | none => exact .bindPure ((go _ _).mono (by omega))
  | some s => exact .bindOp (by omega) (fun _ _ => .bindPure ((go _ _).mono (by omega)))

/-! ## Where to insert -/

/-- Every node has at most `K` keys, and `K + 1` children.  Used in proofs (arrays of src/tree/node.rs:435-593). -/
def FitT (K : Nat) : {h : Nat} → Tree I S h → Prop
  | 0, _ => True
  | h + 1, n => Fit K (C := Tree I S h) n ∧ ∀ c ∈ Node.kids n, FitT K (h := h) c

theorem child_mem {n : Node I S C} {i : Nat} {c : C} (e : n.child i = .ok c) : n.kids[i]? = some c := by
  rw [Node.child] at e
  split at e
  · cases e; assumption
  · cases e

theorem fitC_frame {K H h : Nat} {n : Tree I S (h + 2)} {ctx : Ctx I S H (h + 2)} (hn : FitT K n) (hc : FitC K ctx) {i : Nat} {c : Tree I S (h + 1)}
    (e : Node.child n i = .ok c) :
    FitT K c ∧ FitC K (.frame (Node.ptr n) (Node.size n) (Node.keys n) ((Node.kids n).take i) ((Node.kids n).drop (i + 1)) ctx) := by
  have hm := child_mem e
  have hl := (List.getElem?_eq_some_iff.1 hm).1
  refine ⟨hn.2 c (List.mem_of_getElem? hm), hn.1.1, ?_, hc⟩
  have := hn.1.2
  rw [List.length_take, List.length_drop]
  omega

theorem findStep_sim {K : Nat} (ix : IdxOps I) {h : Nat} {n : Tree I S (h + 1)} (hn : Fit K (C := Tree I S h) n) (hint : Option Nat) (target : I) :
    Takes (findStep ix n hint target) (Sherman.findStep ix n hint target) (K + 9) := by
  simp only [findStep, Sherman.findStep]
  have h1 := hn.1
  refine .bind (searchStep_sim ix n hint target) (by omega) (fun x _ => ?_)
  cases x with
  | child c p => exact .pure
  | key k p =>
    dsimp only
    steps

/-- The node found, and those above it, have at most `K` keys.  Used in proofs (arrays of src/tree/node.rs:435-593). -/
def FitP (K : Nat) {H : Nat} : Point I S H → Prop
  | .edge leaf ctx _ _ _ => FitT K leaf ∧ FitC K ctx
  | .split _ n ctx _ _ => FitT K n ∧ FitC K ctx

theorem findPoint_sim {K U : Nat} (hU : K + 11 ≤ U) {H : Nat} (E : Env I S) {h : Nat} (n : Tree I S (h + 1)) (ctx : Ctx I S H (h + 1)) (hn : FitT K n)
    (hc : FitC K ctx) (hints : Option (List Nat)) (target : I) (lhs rhs : Option (Nat × Nat)) :
    Takes (findPoint E n ctx hints target lhs rhs) (Sherman.findPoint E n ctx hints target lhs rhs) ((h + 1) * U) := by
  induction h generalizing hints target lhs rhs with
  | zero =>
    simp only [findPoint, Sherman.findPoint, Nat.zero_add, Nat.one_mul]
    refine .tick (by omega) (.bind (findStep_sim _ hn.1 _ _) (by omega) (fun x _ => ?_))
    cases x with
    | child c p => exact .pure
    | key k p =>
      dsimp only
      steps
  | succ h ih =>
    simp only [findPoint, Sherman.findPoint]
    rw [Nat.succ_mul]
    refine .tick (by omega) (.bind (findStep_sim _ hn.1 _ _) (by omega) (fun x _ => ?_))
    cases x with
    | child c p =>
      dsimp only
      refine .bindOp (by omega) (fun _ _ => .bindLift (fun ch he => ?_))
      obtain ⟨a1, a2⟩ := fitC_frame hn hc he
      exact (ih _ _ a1 a2 _ _ _ _).mono (by omega)
    | key k p =>
      dsimp only
      steps

theorem findPoint_fit {K H : Nat} {E : Env I S} {h : Nat} {n : Tree I S (h + 1)} {ctx : Ctx I S H (h + 1)} (hn : FitT K n) (hc : FitC K ctx)
    {hints : Option (List Nat)} {target : I} {lhs rhs : Option (Nat × Nat)} {pt : Point I S H}
    (e : Sherman.findPoint E n ctx hints target lhs rhs = .ok pt) : FitP K pt := by
  induction h generalizing hints target lhs rhs with
  | zero =>
    simp only [Sherman.findPoint] at e
    obtain ⟨x, -, e⟩ := R.bind_eq_ok.1 e
    cases x with
    | child c p => cases e; exact ⟨hn, hc⟩
    | key k p =>
      dsimp only at e
      obtain ⟨_, -, e⟩ := R.bind_eq_ok.1 e
      obtain ⟨_, -, e⟩ := R.bind_eq_ok.1 e
      cases e
      exact ⟨hn, hc⟩
  | succ h ih =>
    simp only [Sherman.findPoint] at e
    obtain ⟨x, -, e⟩ := R.bind_eq_ok.1 e
    cases x with
    | child c p =>
      dsimp only at e
      obtain ⟨_, -, e⟩ := R.bind_eq_ok.1 e
      obtain ⟨_, he, e⟩ := R.bind_eq_ok.1 e
      obtain ⟨a1, a2⟩ := fitC_frame hn hc he
      exact ih a1 a2 e
    | key k p =>
      dsimp only at e
      obtain ⟨_, -, e⟩ := R.bind_eq_ok.1 e
      obtain ⟨_, -, e⟩ := R.bind_eq_ok.1 e
      cases e
      exact ⟨hn, hc⟩

/-! ## Joins -/

theorem climb_sim (k : Nat) {H h : Nat} (t : Tree I S (h + 1)) (ctx : Ctx I S H (h + 1)) :
    Takes (climb k t ctx) (Sherman.climb k t ctx) (depth ctx) := by
  induction k generalizing h with
  | zero =>
    simp only [climb, Sherman.climb]
    exact .pure
  | succ k ih =>
    cases ctx with
    | top =>
      simp only [climb, Sherman.climb]
      exact .error
    | frame ptr size keys kl kr up =>
      simp only [climb, Sherman.climb, depth]
      exact .tick (by omega) (ih _ _)

theorem climb_fit {K : Nat} (k : Nat) {H h : Nat} {t : Tree I S (h + 1)} {ctx : Ctx I S H (h + 1)} (ht : Fit K (C := Tree I S h) t) (hc : FitC K ctx)
    {h' : Nat} {n : Tree I S (h' + 1)} {c' : Ctx I S H (h' + 1)} (e : Sherman.climb k t ctx = .ok ⟨h', n, c'⟩) :
    Fit K (C := Tree I S h') n ∧ FitC K c' ∧ depth c' ≤ depth ctx := by
  induction k generalizing h with
  | zero =>
    simp only [Sherman.climb] at e
    cases e
    exact ⟨ht, hc, Nat.le_refl _⟩
  | succ k ih =>
    cases ctx with
    | top => simp only [Sherman.climb] at e; cases e
    | frame ptr size keys kl kr up =>
      simp only [Sherman.climb] at e
      obtain ⟨a1, a2, a3⟩ := ih (fit_plug hc.1 hc.2.1) hc.2.2 e
      exact ⟨a1, a2, by simp only [depth]; omega⟩

theorem setSliceUp_sim {H : Nat} (n : Nat) {h : Nat} (ctx : Ctx I S H h) (k : Nat) (s : S) :
    Takes (setSliceUp n ctx k s) (Sherman.setSliceUp n ctx k s) (depth ctx) := by
  induction n generalizing h with
  | zero =>
    cases ctx with
    | top => exact .error
    | frame ptr size keys kl kr up =>
      simp only [setSliceUp, Sherman.setSliceUp]
      cases keys[k]? with
      | none => exact .error
      | some key => exact .pure
  | succ n ih =>
    cases ctx with
    | top => exact .error
    | frame ptr size keys kl kr up =>
      simp only [setSliceUp, Sherman.setSliceUp, depth]
      exact .tick (by omega) (.bind (ih up) (by omega) (fun _ _ => .pure))

theorem setSliceUp_fit {K H : Nat} (n : Nat) {h : Nat} {ctx ctx' : Ctx I S H h} {k : Nat} {s : S} (hc : FitC K ctx)
    (e : Sherman.setSliceUp n ctx k s = .ok ctx') : FitC K ctx' := by
  induction n generalizing h with
  | zero =>
    cases ctx with
    | top => simp only [Sherman.setSliceUp] at e; cases e
    | frame ptr size keys kl kr up =>
      simp only [Sherman.setSliceUp] at e
      split at e
      · cases e
      · cases e
        exact ⟨by rw [List.length_set]; exact hc.1, hc.2⟩
  | succ n ih =>
    cases ctx with
    | top => simp only [Sherman.setSliceUp] at e; cases e
    | frame ptr size keys kl kr up =>
      simp only [Sherman.setSliceUp] at e
      obtain ⟨_, h1, e⟩ := R.bind_eq_ok.1 e
      cases e
      exact ⟨hc.1, hc.2.1, ih hc.2.2 h1⟩

theorem setSliceAt_sim {H : Nat} (leaf : Tree I S 1) (ctx : Ctx I S H 1) (hd : Nat × Nat) (s : S) :
    Takes (setSliceAt leaf ctx hd s) (Sherman.setSliceAt leaf ctx hd s) (depth ctx) := by
  rcases hd with ⟨_ | n, k⟩
  · simp only [setSliceAt, Sherman.setSliceAt]
    steps
  · simp only [setSliceAt, Sherman.setSliceAt]
    exact .bind (setSliceUp_sim _ _ _ _) (by omega) (fun _ _ => .pure)

theorem setSliceAt_fit {K H : Nat} {leaf leaf' : Tree I S 1} {ctx ctx' : Ctx I S H 1} {hd : Nat × Nat} {s : S} (hl : Fit K leaf) (hc : FitC K ctx)
    (e : Sherman.setSliceAt leaf ctx hd s = .ok (leaf', ctx')) : Fit K leaf' ∧ FitC K ctx' := by
  rcases hd with ⟨_ | n, k⟩
  · simp only [Sherman.setSliceAt] at e
    obtain ⟨_, h1, e⟩ := R.bind_eq_ok.1 e
    cases e
    exact ⟨fit_setSlice hl h1, hc⟩
  · simp only [Sherman.setSliceAt] at e
    obtain ⟨_, h1, e⟩ := R.bind_eq_ok.1 e
    cases e
    exact ⟨hl, setSliceUp_fit n hc h1⟩

theorem handleAt_sim {H : Nat} (ix : IdxOps I) (leaf : Tree I S 1) (ctx : Ctx I S H 1) (hd : Nat × Nat) :
    Takes (handleAt ix leaf ctx hd) (Sherman.handleAt ix leaf ctx hd) (depth ctx + 2) := by
  simp only [handleAt, Sherman.handleAt]
  refine .bind (climb_sim _ _ _) (by omega) (fun ⟨_, _, _⟩ _ => .bindLift (fun _ _ => ?_))
  exact .bind (sliceSize_sim _ _ _ _) (by omega) (fun _ _ => .pure)

/-- There is only one number of levels above leaves. -/
theorem depth_eq {H h : Nat} (c c' : Ctx I S H h) : depth c = depth c' := by
  have := depth_add c
  have := depth_add c'
  omega

theorem finishJoin_sim {K U : Nat} (hU : K + 10 ≤ U) {H : Nat} (E : Env I S) {leaf : Tree I S 1} {ctx : Ctx I S H 1} (hl : Fit K leaf) (hc : FitC K ctx)
    (hd : Nat × Nat) (old new : I) (w : World) :
    Takes (finishJoin E leaf ctx hd old new w) (Sherman.finishJoin E leaf ctx hd old new w) (depth ctx + 1 + 3 * (depth ctx * U) + 2 * U) := by
  simp only [finishJoin, Sherman.finishJoin]
  refine .bind (climb_sim _ _ _) (by omega) (fun ⟨_, n, c'⟩ h1 => ?_)
  obtain ⟨a1, a2, a3⟩ := climb_fit _ hl hc h1
  have := Nat.mul_le_mul_right U a3
  dsimp only
  refine .bind (emit_sim _ _ _) (by omega) (fun _ _ => ?_)
  refine .bind (opKey_sim hU _ _ _ c' a2 (a1.mono (by omega)) _ _ _ _ _) (by omega) (fun ⟨_, _⟩ _ => .pure)

theorem tryJoinEdge_sim {K U : Nat} (hU : K + 10 ≤ U) {H : Nat} (E : Env I S) {leaf : Tree I S 1} {ctx : Ctx I S H 1} (hl : Fit K leaf) (hc : FitC K ctx)
    (lhs rhs : Option (Nat × Nat)) (s : S) (size : I) (w : World) :
    Takes (tryJoinEdge E leaf ctx lhs rhs s size w) (Sherman.tryJoinEdge E leaf ctx lhs rhs s size w) (4 * (depth ctx * U) + 3 * U) := by
  have hd : depth ctx * 10 ≤ depth ctx * U := Nat.mul_le_mul_left _ (by omega)
  have fin : ∀ (leaf' : Tree I S 1) (ctx' : Ctx I S H 1), Fit K leaf' → FitC K ctx' → ∀ hd old new w,
      Takes (do
        let r ← finishJoin E leaf' ctx' hd old new w
        pure (.inl r) : T (JoinResult I S H)) (do
        let r ← Sherman.finishJoin E leaf' ctx' hd old new w
        pure (.inl r)) (depth ctx + 1 + 3 * (depth ctx * U) + 2 * U) := by
    intro leaf' ctx' h1 h2 hd old new w
    rw [depth_eq ctx ctx']
    exact .bind (finishJoin_sim hU E h1 h2 _ _ _ _) (by omega) (fun _ _ => .pure)
  simp only [tryJoinEdge, Sherman.tryJoinEdge]
  refine .ite (fun _ => .pure) (fun _ => ?_)
  rcases lhs with _ | l <;> rcases rhs with _ | r
  · exact .error
  · refine .bind (handleAt_sim _ _ _ _) (by omega) (fun ⟨_, _⟩ _ => .tick (by omega) ?_)
    dsimp only
    rcases E.sl.tryJoin _ _ with new | ⟨a, b⟩
    · refine .bind (setSliceAt_sim _ _ _ _) (by omega) (fun ⟨_, _⟩ h1 => .bindOp (by omega) (fun _ _ => ?_))
      obtain ⟨f1, f2⟩ := setSliceAt_fit hl hc h1
      exact (fin _ _ f1 f2 _ _ _ _).mono (by omega)
    · exact .bind (setSliceAt_sim _ _ _ _) (by omega) (fun ⟨_, _⟩ h1 => .pure)
  · refine .bind (handleAt_sim _ _ _ _) (by omega) (fun ⟨_, _⟩ _ => .tick (by omega) ?_)
    dsimp only
    rcases E.sl.tryJoin _ _ with new | ⟨a, b⟩
    · refine .bind (setSliceAt_sim _ _ _ _) (by omega) (fun ⟨_, _⟩ h1 => .bindOp (by omega) (fun _ _ => ?_))
      obtain ⟨f1, f2⟩ := setSliceAt_fit hl hc h1
      exact (fin _ _ f1 f2 _ _ _ _).mono (by omega)
    · exact .bind (setSliceAt_sim _ _ _ _) (by omega) (fun ⟨_, _⟩ h1 => .pure)
  · refine .bind (handleAt_sim _ _ _ _) (by omega) (fun ⟨_, _⟩ _ => ?_)
    refine .bind (handleAt_sim _ _ _ _) (by omega) (fun ⟨_, _⟩ _ => .tick (by omega) ?_)
    dsimp only
    rcases E.sl.tryJoin _ _ with mid | ⟨a, b⟩
    · refine .bindOp (by omega) (fun _ _ => .tick (by omega) ?_)
      rcases E.sl.tryJoin _ _ with new | ⟨a, b⟩
      · exact .error
      · refine .bind (setSliceAt_sim _ _ _ _) (by omega) (fun ⟨_, c1⟩ h1 => ?_)
        obtain ⟨f1, f2⟩ := setSliceAt_fit hl hc h1
        dsimp only
        have := depth_eq ctx c1
        refine .bind (setSliceAt_sim _ _ _ _) (by omega) (fun ⟨_, _⟩ h2 => ?_)
        obtain ⟨f1, f2⟩ := setSliceAt_fit f1 f2 h2
        exact (fin _ _ f1 f2 _ _ _ _).mono (by omega)
    · refine .bind (setSliceAt_sim _ _ _ _) (by omega) (fun ⟨_, c1⟩ h1 => .tick (by omega) ?_)
      obtain ⟨f1, f2⟩ := setSliceAt_fit hl hc h1
      dsimp only
      have := depth_eq ctx c1
      rcases E.sl.tryJoin _ _ with new | ⟨a, b⟩
      · refine .bind (setSliceAt_sim _ _ _ _) (by omega) (fun ⟨_, _⟩ h2 => .bindOp (by omega) (fun _ _ => ?_))
        obtain ⟨f1, f2⟩ := setSliceAt_fit f1 f2 h2
        exact (fin _ _ f1 f2 _ _ _ _).mono (by omega)
      · exact .bind (setSliceAt_sim _ _ _ _) (by omega) (fun ⟨_, _⟩ h2 => .pure)

theorem tryJoinEdge_fit {K H : Nat} {E : Env I S} {leaf leaf' : Tree I S 1} {ctx ctx' : Ctx I S H 1} (hl : Fit K leaf) (hc : FitC K ctx)
    {lhs rhs : Option (Nat × Nat)} {s s' : S} {size : I} {w : World}
    (e : Sherman.tryJoinEdge E leaf ctx lhs rhs s size w = .ok (.inr (leaf', ctx', s'))) : Fit K leaf' ∧ FitC K ctx' := by
  simp only [Sherman.tryJoinEdge] at e
  split at e
  · cases e
    exact ⟨hl, hc⟩
  split at e
  · cases e
  · obtain ⟨⟨_, _⟩, -, e⟩ := R.bind_eq_ok.1 e
    dsimp only at e
    split at e
    · obtain ⟨⟨_, _⟩, -, e⟩ := R.bind_eq_ok.1 e
      obtain ⟨_, -, e⟩ := R.bind_eq_ok.1 e
      obtain ⟨_, -, e⟩ := R.bind_eq_ok.1 e
      cases e
    · obtain ⟨⟨_, _⟩, h1, e⟩ := R.bind_eq_ok.1 e
      cases e
      exact setSliceAt_fit hl hc h1
  · obtain ⟨⟨_, _⟩, -, e⟩ := R.bind_eq_ok.1 e
    dsimp only at e
    split at e
    · obtain ⟨⟨_, _⟩, -, e⟩ := R.bind_eq_ok.1 e
      obtain ⟨_, -, e⟩ := R.bind_eq_ok.1 e
      obtain ⟨_, -, e⟩ := R.bind_eq_ok.1 e
      cases e
    · obtain ⟨⟨_, _⟩, h1, e⟩ := R.bind_eq_ok.1 e
      cases e
      exact setSliceAt_fit hl hc h1
  · obtain ⟨⟨_, _⟩, -, e⟩ := R.bind_eq_ok.1 e
    obtain ⟨⟨_, _⟩, -, e⟩ := R.bind_eq_ok.1 e
    dsimp only at e
    split at e
    · obtain ⟨_, -, e⟩ := R.bind_eq_ok.1 e
      split at e
      · cases e
      · obtain ⟨⟨_, _⟩, -, e⟩ := R.bind_eq_ok.1 e
        obtain ⟨⟨_, _⟩, -, e⟩ := R.bind_eq_ok.1 e
        obtain ⟨_, -, e⟩ := R.bind_eq_ok.1 e
        cases e
    · obtain ⟨⟨_, _⟩, h1, e⟩ := R.bind_eq_ok.1 e
      obtain ⟨f1, f2⟩ := setSliceAt_fit hl hc h1
      dsimp only at e
      split at e
      · obtain ⟨⟨_, _⟩, -, e⟩ := R.bind_eq_ok.1 e
        obtain ⟨_, -, e⟩ := R.bind_eq_ok.1 e
        obtain ⟨_, -, e⟩ := R.bind_eq_ok.1 e
        cases e
      · obtain ⟨⟨_, _⟩, h2, e⟩ := R.bind_eq_ok.1 e
        cases e
        exact setSliceAt_fit f1 f2 h2

theorem insertEdge_sim {K U : Nat} (hU : K + 10 ≤ U) {H : Nat} (E : Env I S) {leaf : Tree I S 1} {ctx : Ctx I S H 1} (hl : Fit K leaf) (hc : FitC K ctx)
    (idx : Nat) (lhs rhs : Option (Nat × Nat)) (s : S) (size : I) (w : World) :
    Takes (insertEdge E leaf ctx idx lhs rhs s size w) (Sherman.insertEdge E leaf ctx idx lhs rhs s size w) (15 * (depth ctx * U) + 18 * U) := by
  simp only [insertEdge, Sherman.insertEdge]
  refine .bindLift (fun _ _ => .bind (tryJoinEdge_sim hU E hl hc _ _ _ _ _) (by omega) (fun x h1 => ?_))
  rcases x with r | ⟨leaf', ctx', s'⟩
  · exact .pure
  · obtain ⟨f1, f2⟩ := tryJoinEdge_fit hl hc h1
    dsimp only
    exact .bind (noJoin_sim hU E _ _ f1 f2 _ _ _ _ _) (by rw [depth_eq ctx' ctx]; omega) (fun _ _ => .pure)

/-! ## Inside of a slice -/

theorem descend_sim {H h : Nat} (n : Tree I S (h + 1)) (ctx : Ctx I S H (h + 1)) : Takes (descend n ctx) (Sherman.descend n ctx) h := by
  induction h with
  | zero => exact .pure
  | succ h ih =>
    simp only [descend, Sherman.descend]
    exact .tick (by omega) (.bindLift (fun _ _ => ih _ _))

theorem descend_fit {K H h : Nat} {n : Tree I S (h + 1)} {ctx : Ctx I S H (h + 1)} (hn : FitT K n) (hc : FitC K ctx) {l : Tree I S 1} {c : Ctx I S H 1}
    (e : Sherman.descend n ctx = .ok (l, c)) : Fit K l ∧ FitC K c := by
  induction h with
  | zero =>
    cases e
    exact ⟨hn.1, hc⟩
  | succ h ih =>
    simp only [Sherman.descend] at e
    obtain ⟨_, h1, e⟩ := R.bind_eq_ok.1 e
    obtain ⟨a1, a2⟩ := fitC_frame hn hc h1
    exact ih a1 a2 e

theorem rhsLeaf_sim {H h : Nat} (n : Tree I S (h + 1)) (ctx : Ctx I S H (h + 1)) (k : Nat) : Takes (rhsLeaf n ctx k) (Sherman.rhsLeaf n ctx k) h := by
  cases h with
  | zero => exact .pure
  | succ h =>
    simp only [rhsLeaf, Sherman.rhsLeaf]
    exact .bindLift (fun _ _ => .bind (descend_sim _ _) (by omega) (fun ⟨_, _⟩ _ => .pure))

theorem rhsLeaf_fit {K H h : Nat} {n : Tree I S (h + 1)} {ctx : Ctx I S H (h + 1)} {k : Nat} (hn : FitT K n) (hc : FitC K ctx) {l : Tree I S 1} {c : Ctx I S H 1}
    {i : Nat} (e : Sherman.rhsLeaf n ctx k = .ok (l, c, i)) : Fit K l ∧ FitC K c := by
  cases h with
  | zero =>
    cases e
    exact ⟨hn.1, hc⟩
  | succ h =>
    simp only [Sherman.rhsLeaf] at e
    obtain ⟨_, h1, e⟩ := R.bind_eq_ok.1 e
    obtain ⟨⟨_, _⟩, h2, e⟩ := R.bind_eq_ok.1 e
    cases e
    obtain ⟨a1, a2⟩ := fitC_frame hn hc h1
    exact descend_fit a1 a2 h2

theorem insertRhs_sim {K U : Nat} (hU : K + 10 ≤ U) {D h : Nat} (E : Env I S) (nop skip : Bool) {n : Tree I S (h + 1)} {ctx : Ctx I S (D + 1) (h + 1)}
    (hn : FitT K n) (hc : FitC K ctx) (k : Nat) (z : I) (mode : Bool) (fst : Sized I S) (snd : Option (Sized I S)) (w : World) :
    Takes (insertRhs E nop skip n ctx k z mode fst snd w) (Sherman.insertRhs E nop skip n ctx k z mode fst snd w) (12 * (D * U) + 16 * U) := by
  have hd : D * 10 ≤ D * U := Nat.mul_le_mul_left _ (by omega)
  have hh := depth_add ctx
  simp only [insertRhs, Sherman.insertRhs]
  refine .bindLift (fun _ _ => .bind (sliceSize_sim _ _ _ _) (by omega) (fun _ _ => ?_))
  refine .bind (rhsLeaf_sim _ _ _) (by omega) (fun ⟨l, c, i⟩ h1 => ?_)
  obtain ⟨f1, f2⟩ := rhsLeaf_fit hn hc h1
  have e : depth c = D := by have := depth_add c; omega
  exact (noJoin_sim hU E _ _ f1 f2 _ _ _ _ _).mono (by rw [e]; omega)

theorem fitT_setSlice {K h k : Nat} {n n' : Tree I S (h + 1)} {s : S} (hn : FitT K n) (e : Node.setSlice n k s = .ok n') : FitT K n' := by
  refine ⟨fit_setSlice hn.1 e, ?_⟩
  simp only [Node.setSlice] at e
  split at e
  · cases e
  · cases e
    exact hn.2

theorem insertSplit_sim {K U : Nat} (hU : K + 10 ≤ U) {D h : Nat} (E : Env I S) (nop : Bool) {n : Tree I S (h + 1)} {ctx : Ctx I S (D + 1) (h + 1)}
    (hn : FitT K n) (hc : FitC K ctx) (k : Nat) (p : I) (s : S) (size : I) (w : World) :
    Takes (insertSplit E nop n ctx k p s size w) (Sherman.insertSplit E nop n ctx k p s size w) (12 * (D * U) + 17 * U) := by
  have hh := depth_add ctx
  have hd : depth ctx * U ≤ D * U := Nat.mul_le_mul_right _ (by omega)
  simp only [insertSplit, Sherman.insertSplit]
  refine .bind (sliceSize_sim _ _ _ _) (by omega) (fun _ _ => .bindLift (fun _ _ => .tick (by omega) ?_))
  refine .bindLift (fun n1 h1 => .bindOp (by omega) (fun _ _ => .ite (fun _ => ?_) (fun _ => ?_)))
  · exact .bind (insertRhs_sim hU E _ _ (fitT_setSlice hn h1) hc _ _ _ _ _ _) (by omega) (fun _ _ => .pure)
  have f1 := fitT_setSlice hn h1
  refine .tick (by omega) ?_
  rcases E.sl.tryJoin _ _ with mid | ⟨a, b⟩
  · refine .bindOp (by omega) (fun _ _ => .tick (by omega) ?_)
    rcases E.sl.tryJoin _ _ with new | ⟨a, b⟩
    · refine .bindLift (fun n2 h2 => .bind (emit_sim _ _ _) (by omega) (fun _ _ => .bindOp (by omega) (fun _ _ => .bindOp (by omega) (fun _ _ => ?_))))
      exact .bind (opKey_sim hU _ _ _ ctx hc ((fitT_setSlice f1 h2).1.mono (by omega)) _ _ _ _ _) (by omega) (fun ⟨_, _⟩ _ => .pure)
    · refine .bindLift (fun n2 h2 => .bind (emit_sim _ _ _) (by omega) (fun _ _ => ?_))
      exact .bind (insertRhs_sim hU E _ _ (fitT_setSlice f1 h2) hc _ _ _ _ _ _) (by omega) (fun _ _ => .pure)
  · refine .bindLift (fun n2 h2 => .tick (by omega) ?_)
    rcases E.sl.tryJoin _ _ with new | ⟨a, b⟩
    · refine .bindOp (by omega) (fun _ _ => ?_)
      exact .bind (insertRhs_sim hU E _ _ (fitT_setSlice f1 h2) hc _ _ _ _ _ _) (by omega) (fun _ _ => .pure)
    · exact .bind (insertRhs_sim hU E _ _ (fitT_setSlice f1 h2) hc _ _ _ _ _ _) (by omega) (fun _ _ => .pure)

/-! ## Insertion, lookup -/

theorem insertAt_sim {K U : Nat} (hU : K + 10 ≤ U) {D : Nat} (E : Env I S) (nop : Bool) {pt : Point I S (D + 1)} (hp : FitP K pt) (s : S) (size : I) (w : World) :
    Takes (insertAt E nop pt s size w) (Sherman.insertAt E nop pt s size w) (15 * (D * U) + 18 * U) := by
  cases pt with
  | edge leaf ctx i l r =>
    have e : depth ctx = D := by have := depth_add ctx; omega
    have := insertEdge_sim hU E hp.1.1 hp.2 i l r s size w
    rwa [e] at this
  | split h n ctx k p => exact (insertSplit_sim hU E nop hp.1 hp.2 k p s size w).mono (by omega)

theorem installRoot_sim (E : Env I S) {H : Nat} (len : Nat) (post : Post I S (H + 1)) (path : List Nat) (hd : Option (Nat × Nat)) (w : World) :
    Takes (installRoot E len post path hd w) (Sherman.installRoot E len post path hd w) 5 := by
  cases post with
  | done t =>
    simp only [installRoot, Sherman.installRoot]
    steps
  | newRoot l k z r =>
    simp only [installRoot, Sherman.installRoot]
    refine .bind (makeNewParent_sim _ _ _ _ _ _) (by omega) (fun ⟨_, _⟩ _ => ?_)
    dsimp only
    steps

/-- Every node has at most `K` keys, and `K + 1` children; the leaves are `h` levels below the root.  Used in proofs (arrays of src/tree/node.rs:435-593). -/
def FitR (K h : Nat) (t : RleTree I S) : Prop := ∀ r, t.root = some r → r.h ≤ h ∧ FitT K r.tree

theorem insert_sim {K U h : Nat} (hU : K + 11 ≤ U) (E : Env I S) {t : RleTree I S} (ht : FitR K h t) (nop : Bool) (hints : List Nat) (idx : I) (s : S) (size : I) (w : World) :
    Takes (insert E t nop hints idx s size w) (t.insert E nop hints idx s size w) (16 * (h * U) + 20 * U) := by
  simp only [insert, RleTree.insert]
  refine .tick (by omega) (.bindLift (fun _ _ => .bindLift (fun _ _ => ?_)))
  rcases hr : t.root with _ | r
  · dsimp only
    refine .tick (by omega) (.bindLift (fun ⟨t', w'⟩ _ => ?_))
    dsimp only
    cases t'.root with
    | none => exact .error
    | some r => exact .pure
  · obtain ⟨h1, h2⟩ := ht r hr
    have hm := Nat.mul_le_mul_right U h1
    have hs : (r.h + 1) * U = r.h * U + U := Nat.succ_mul r.h U
    dsimp only
    refine .bind (findPoint_sim hU E _ .top h2 trivial _ _ _ _) (by omega) (fun pt hp => ?_)
    refine .bind (insertAt_sim (K := K) (U := U) (by omega) E nop (findPoint_fit (ctx := .top) h2 trivial hp) _ _ _) (by omega) (fun ⟨_, _, _, _⟩ _ => ?_)
    dsimp only
    refine .ite (fun _ => .bindLift (fun _ _ => ?_)) (fun _ => .bindPure ?_)
    · exact (installRoot_sim _ _ _ _ _ _).mono (by omega)
    · exact (installRoot_sim _ _ _ _ _ _).mono (by omega)

theorem getLoop_sim {K U : Nat} (hU : K + 14 ≤ U) (ix : IdxOps I) (idx : I) {h : Nat} {n : Tree I S (h + 1)} (hn : FitT K n) (hints : Option (List Nat)) (target : I) :
    Takes (getLoop ix idx n hints target) (Sherman.getLoop ix idx n hints target) ((h + 1) * U) := by
  induction h generalizing hints target with
  | zero =>
    have h1 := hn.1.1
    simp only [getLoop, Sherman.getLoop, Nat.zero_add, Nat.one_mul]
    refine .tick (by omega) (.bind (searchStep_sim _ _ _ _) (by omega) (fun x _ => ?_))
    cases x with
    | key k p => exact (getKey_sim _ _ _ _ _ _).mono (by omega)
    | child c p =>
      dsimp only
      steps
  | succ h ih =>
    have h1 := hn.1.1
    simp only [getLoop, Sherman.getLoop]
    rw [Nat.succ_mul]
    refine .tick (by omega) (.bind (searchStep_sim _ _ _ _) (by omega) (fun x _ => ?_))
    cases x with
    | key k p => exact (getKey_sim _ _ _ _ _ _).mono (by omega)
    | child c p =>
      refine .bindOp (by omega) (fun _ _ => .bindLift (fun ch he => ?_))
      exact (ih (hn.2 ch (List.mem_of_getElem? (child_mem he))) _ _).mono (by omega)

theorem cursorLoop_sim {K U : Nat} (hU : K + 14 ≤ U) (ix : IdxOps I) {h : Nat} {n : Tree I S (h + 1)} (hn : FitT K n) (target : I) :
    Takes (cursorLoop ix n target) (Sherman.cursorLoop ix n target) ((h + 1) * U) := by
  induction h generalizing target with
  | zero =>
    simp only [cursorLoop, Sherman.cursorLoop, Nat.zero_add, Nat.one_mul]
    refine .tick (by omega) .pure
  | succ h ih =>
    have h1 := hn.1.1
    simp only [cursorLoop, Sherman.cursorLoop]
    rw [Nat.succ_mul]
    refine .tick (by omega) (.bind (searchStep_sim _ _ _ _) (by omega) (fun x _ => ?_))
    cases x with
    | key k p => exact .pure
    | child c p =>
      refine .bindOp (by omega) (fun _ _ => .bindLift (fun ch he => ?_))
      exact .bind (ih (hn.2 ch (List.mem_of_getElem? (child_mem he))) _) (by omega) (fun _ _ => .pure)

theorem get_sim {K U h : Nat} (hU : K + 14 ≤ U) (E : Env I S) {t : RleTree I S} (ht : FitR K h t) (hints : List Nat) (idx : I) :
    Takes (get E t hints idx) (t.get E hints idx) (h * U + 2 * U) := by
  simp only [get, RleTree.get]
  refine .tick (by omega) (.bindLift (fun _ _ => .bindLift (fun _ _ => ?_)))
  rcases hr : t.root with _ | r
  · exact .error
  · obtain ⟨h1, h2⟩ := ht r hr
    have hm := Nat.mul_le_mul_right U h1
    exact (getLoop_sim hU _ _ h2 _ _).mono (by rw [Nat.succ_mul]; omega)

theorem cursorTo_sim {K U h : Nat} (hU : K + 14 ≤ U) (E : Env I S) {t : RleTree I S} (ht : FitR K h t) (idx : I) :
    Takes (cursorTo E t idx) (t.cursorTo E idx) (h * U + 2 * U) := by
  simp only [cursorTo, RleTree.cursorTo]
  refine .tick (by omega) (.bindLift (fun _ _ => .bindLift (fun _ _ => ?_)))
  rcases hr : t.root with _ | r
  · exact .error
  · obtain ⟨h1, h2⟩ := ht r hr
    have hm := Nat.mul_le_mul_right U h1
    exact (cursorLoop_sim hU _ h2 _).mono (by rw [Nat.succ_mul]; omega)

end Tk
end Sherman
