import Verif.Mono
import Verif.NodeLemmas
import Verif.Rep
/-!
# A tree returned by an insertion has a size within the bound of the index type
-/
namespace Sherman
variable {S C : Type}

/-- Stored size of the root above a subtree of size `s`. -/
def Ctx.rootSize {H : Nat} : {h : Nat} → Ctx Nat S H h → Nat → Nat
  | _, .top, s => s
  | _, .frame _ size _ _ _ up, _ => up.rootSize size

theorem bind_ok_iff {α β : Type} {x : R α} {f : α → R β} {b : β} :
    (x >>= f) = .ok b ↔ ∃ a, x = .ok a ∧ f a = .ok b := R.bind_eq_ok

section
variable {MAX : Nat}

theorem addR_le {x y z : Nat} (h : (natIdx MAX).addR x y = .ok z) : z ≤ MAX := by
  simp only [natIdx] at h; split at h <;> cases h; omega

theorem addL_le {x y z : Nat} (h : (natIdx MAX).addL x y = .ok z) : z ≤ MAX := by
  simp only [natIdx] at h; split at h <;> cases h; omega

theorem subL_le' {x y z : Nat} (h : (natIdx MAX).subL x y = .ok z) : z ≤ x := by
  simp only [natIdx] at h; split at h <;> cases h; omega

theorem setKeyPossWith_size {n n' : Node Nat S C} {f : Nat → R Nat} {i : Nat} (h : n.setKeyPossWith f i = .ok n') :
    f n.size = .ok n'.size := by
  simp only [Node.setKeyPossWith, bind_ok_iff] at h
  obtain ⟨_, _, _, _, s, h2, h3⟩ := h
  cases h3; exact h2

theorem shiftKeys_size {n n' : Node Nat S C} {incr : Bool} {i p o w : Nat}
    (h : n.shiftKeys (natIdx MAX) incr i p o w = .ok n') : n'.size ≤ max MAX n.size := by
  simp only [Node.shiftKeys, bind_ok_iff] at h
  obtain ⟨_, _, _, _, _, _, h⟩ := h
  split at h
  · simp only [bind_ok_iff] at h
    obtain ⟨d, _, h⟩ := h
    have := setKeyPossWith_size h
    have := addL_le this; omega
  · simp only [bind_ok_iff] at h
    obtain ⟨d, _, h⟩ := h
    have := setKeyPossWith_size h
    have := subL_le' this; omega

theorem setKeyPos_size {n n' : Node Nat S C} {k p : Nat} (h : n.setKeyPos k p = .ok n') : n'.size = n.size := by
  unfold Node.setKeyPos at h
  split at h
  · cases h
  · cases h; rfl

theorem setSlice_size {n n' : Node Nat S C} {k : Nat} {s : S} (h : n.setSlice k s = .ok n') : n'.size = n.size := by
  unfold Node.setSlice at h
  split at h
  · cases h
  · cases h; rfl

theorem mapSizes_size {m : Maps Nat} {hd : Bool} {ht : Nat} {n : Node Nat S C} {cok : COK} {ov : Option Nat} {o w : Nat} {r}
    (h : mapSizes (natIdx MAX) m hd ht n cok ov o w = .ok r) : r.1.size = n.size := by
  unfold mapSizes at h
  split at h
  · cases h; rfl
  · simp only [bind_ok_iff] at h
    obtain ⟨_, _, _, _, _, _, _, _, _, _, _, _, _, _, _, _, h⟩ := h
    cases cok with
    | child c => cases h; rfl
    | key k =>
      simp only [bind_ok_iff] at h
      obtain ⟨_, _, _, _, _, _, _, h1, h⟩ := h
      cases h
      exact setKeyPos_size h1

theorem opStep_size {m : Maps Nat} {hd : Bool} {ht : Nat} {n : Node Nat S C} {cok : COK} {ov : Option Nat} {o w : Nat} {r}
    (h : opStep (natIdx MAX) m hd ht n cok ov o w = .ok r) : r.1.size ≤ max MAX n.size := by
  simp only [opStep, bind_ok_iff] at h
  obtain ⟨⟨n1, ov1, o1, w1⟩, h1, h⟩ := h
  have e1 := mapSizes_size h1
  simp only [bind_ok_iff] at h e1
  obtain ⟨_, _, n2, h2, h⟩ := h
  cases h
  have := shiftKeys_size h2
  simp only at this ⊢
  omega

theorem opUp_size {H : Nat} {m : Maps Nat} {hd : Bool} {h : Nat} {ctx : Ctx Nat S H h} {t : Tree Nat S h} {o w : Nat}
    {path : List Nat} {r} (hr : opUp (natIdx MAX) m hd ctx t o w path = .ok r) :
    szN r.1 ≤ max MAX (ctx.rootSize (szN t)) := by
  induction ctx generalizing o w path with
  | top => cases hr; simp only [Ctx.rootSize]; omega
  | frame ptr size keys kl kr up ih =>
    simp only [opUp, bind_ok_iff] at hr
    obtain ⟨⟨n', oldN⟩, h1, h2⟩ := hr
    have e1 := opStep_size h1
    have e2 := ih h2
    cases up with
    | top => simp only [Ctx.rootSize] at e2 ⊢; exact Nat.le_trans e2 (by change max MAX n'.size ≤ _; simp only [plugNode] at e1; omega)
    | frame => simpa only [Ctx.rootSize] using e2

theorem opKey_size {H : Nat} {m : Maps Nat} {hd : Bool} {h : Nat} {ctx : Ctx Nat S H (h + 1)} {n : Tree Nat S (h + 1)}
    {k : Nat} {ov : Option Nat} {o w : Nat} {path : List Nat} {r}
    (hr : opKey (natIdx MAX) m hd ctx n k ov o w path = .ok r) :
    szN r.1 ≤ max MAX (ctx.rootSize (Node.size n)) := by
  simp only [opKey, bind_ok_iff] at hr
  obtain ⟨⟨n', oldN⟩, h1, h2⟩ := hr
  have e1 := opStep_size h1
  have e2 := opUp_size h2
  cases ctx with
  | top =>
    simp only [Ctx.rootSize] at e2 ⊢
    have : szN (h := h + 1) n' = n'.size := rfl
    rw [this] at e2
    simp only at e1; omega
  | frame => simpa only [Ctx.rootSize] using e2

theorem insertKeyAndChild_size [HasPtr C] {n : Node Nat S C} {mx i : Nat} {s : S} {ref : Option Nat} {c : C} {w : World} {r}
    (h : n.insertKeyAndChild mx i s ref c w = .ok r) : r.1.size = n.size := by
  simp only [Node.insertKeyAndChild, bind_ok_iff] at h
  obtain ⟨_, _, _, _, h⟩ := h
  cases h; rfl

/-- Stored size of the tree in a result, if it is complete. -/
def Post.sizeLe {H : Nat} (b : Nat) : Post Nat S H → Prop
  | .done t => szN t ≤ b
  | .newRoot .. => True

/-- The root's stored size is within the bound, unless the subtree itself is the root. -/
def Ctx.Fits {H h : Nat} (b : Nat) (ctx : Ctx Nat S H h) : Prop := ∀ s, ctx.rootSize s ≤ max b s

theorem Ctx.Fits.top {H b : Nat} : Ctx.Fits b (Ctx.top : Ctx Nat S H H) := fun s => by simp [Ctx.rootSize]; omega

theorem Ctx.Fits.up {H h b : Nat} {ptr size : Nat} {keys : List (Key Nat S)} {kl kr : List (Tree Nat S h)}
    {up : Ctx Nat S H (h + 1)} (hf : Ctx.Fits b (.frame ptr size keys kl kr up)) :
    up.rootSize size ≤ b ∧ Ctx.Fits b up := by
  have h0 := hf 0
  simp only [Ctx.rootSize, Nat.max_zero] at h0
  refine ⟨h0, ?_⟩
  cases up with
  | top => exact Ctx.Fits.top
  | frame => intro s; simp only [Ctx.rootSize] at h0 ⊢; omega

theorem Ctx.Fits.down {H h b : Nat} {ptr size : Nat} {keys : List (Key Nat S)} {kl kr : List (Tree Nat S h)}
    {up : Ctx Nat S H (h + 1)} (hf : Ctx.Fits b up) (hs : size ≤ b) :
    Ctx.Fits b (.frame ptr size keys kl kr up) := by
  intro s
  have := hf size
  simp only [Ctx.rootSize]; omega

theorem Ctx.Fits.of {H h b s : Nat} {ctx : Ctx Nat S H h} (hs : ctx.rootSize s ≤ b) : ctx.Fits b := by
  cases ctx with
  | top => exact Ctx.Fits.top
  | frame => intro x; simp only [Ctx.rootSize] at hs ⊢; omega

variable {E : Env Nat S} (hE : E.ix = natIdx MAX)
include hE

theorem bubbleRoom_size [HasPtr C] {cb : Cb} {sz : C → Nat} {p : Node Nat S C} {c : Nat} {b : Bubble Nat S C} {path : List Nat}
    {w : World} {r} (h : bubbleRoom E cb sz p c b path w = .ok r) : r.1.size = p.size := by
  simp only [bubbleRoom, bind_ok_iff] at h
  obtain ⟨_, _, _, _, _, _, _, h1, _, _, _, h2, _, _, h⟩ := h
  cases h
  rw [setKeyPos_size h2, insertKeyAndChild_size h1]

theorem bubbleFinish_size {H : Nat} {cb : Cb} {m : Maps Nat} {h : Nat} {ctx : Ctx Nat S H h}
    {b : Bubble Nat S (Tree Nat S h)} {hd : Bool} {path : List Nat} {w : World} {r}
    (hr : bubbleFinish E cb m ctx b hd path w = .ok r) (hs : ctx.Fits MAX) :
    r.1.sizeLe MAX := by
  induction ctx generalizing hd path w with
  | top =>
    simp only [bubbleFinish, bind_ok_iff] at hr
    obtain ⟨_, _, _, _, hr⟩ := hr
    cases hr; trivial
  | frame ptr size keys kl kr up ih =>
    simp only [bubbleFinish, bind_ok_iff] at hr
    obtain ⟨_, _, hr⟩ := hr
    split at hr
    · simp only [bind_ok_iff] at hr
      obtain ⟨_, h1, _, h2, hr⟩ := hr
      cases hr
      have e1 := bubbleRoom_size hE h1
      rw [hE] at h2
      have e2 := opKey_size h2
      rw [e1] at e2
      have := hs.up.1
      simp only [plugNode] at e2
      simp only [Post.sizeLe]; omega
    · simp only [bind_ok_iff] at hr
      obtain ⟨_, _, hr⟩ := hr
      exact ih hr hs.up.2

theorem leafRoom_size {cb : Cb} {n : Tree Nat S 1} {i : Nat} {ov : Option Nat} {f : Sized Nat S}
    {s : Option (Sized Nat S)} {ad : Nat} {w : World} {r} (h : leafRoom E cb n i ov f s ad w = .ok r) :
    Node.size r.1 = Node.size n := by
  simp only [leafRoom, bind_ok_iff] at h
  cases ov with
  | some nl =>
    simp only [bind_ok_iff] at h
    obtain ⟨_, _, _, _, _, _, _, _, _, h1, _, h2, h⟩ := h
    have e1 := setKeyPos_size h2
    have e2 := insertKeyAndChild_size h1
    cases s with
    | none =>
      simp only [bind_ok_iff, R.pure_eq, R.bind_ok] at h
      obtain ⟨_, _, _, _, _, _, h⟩ := h
      cases h
      simp only; rw [e1]; exact e2
    | some s =>
      simp only [bind_ok_iff, R.pure_eq, R.bind_ok] at h
      obtain ⟨_, h3, _, _, _, h4, _, _, _, _, _, _, h⟩ := h
      cases h
      have e3 := setKeyPos_size h4
      have e4 := insertKeyAndChild_size h3
      simp only; rw [e3, e4, e1]; exact e2
  | none =>
    simp only [bind_ok_iff] at h
    obtain ⟨_, h1, h⟩ := h
    have e2 := insertKeyAndChild_size h1
    cases s with
    | none =>
      simp only [bind_ok_iff, R.pure_eq, R.bind_ok] at h
      obtain ⟨_, _, _, _, h⟩ := h
      cases h
      exact e2
    | some s =>
      simp only [bind_ok_iff, R.pure_eq, R.bind_ok] at h
      obtain ⟨_, h3, _, _, _, h4, _, _, _, _, h⟩ := h
      cases h
      have e3 := setKeyPos_size h4
      have e4 := insertKeyAndChild_size h3
      simp only; rw [e3, e4]; exact e2

theorem noJoin_size {H : Nat} {cb : Cb} {m : Maps Nat} {n : Tree Nat S 1} {ctx : Ctx Nat S H 1} {i : Nat}
    {ov : Option Nat} {f : Sized Nat S} {s : Option (Sized Nat S)} {w : World} {r}
    (h : noJoin E cb m n ctx i ov f s w = .ok r) (hn : ctx.rootSize (Node.size n) ≤ MAX) :
    r.1.sizeLe MAX := by
  simp only [noJoin, bind_ok_iff] at h
  obtain ⟨_, _, _, _, h⟩ := h
  have key : ∀ (one ad : Nat), ((usub (2 * E.M) one >>= fun lim => if Node.len n ≥ lim then do
      let (b, w) ← leafSplit E cb n i ov f s w
      bubbleFinish E cb m ctx b false [] w
    else do
      let (n, ovPos, old, new, w) ← leafRoom E cb n i ov f s ad w
      let (t, path) ← opKey E.ix m false ctx n (i + one) ovPos old new []
      pure (.done t, path, ctx.readUp (ptrT n) w)) = .ok r) → r.1.sizeLe MAX := by
    intro one ad h
    simp only [bind_ok_iff] at h
    obtain ⟨_, _, h⟩ := h
    split at h
    · simp only [bind_ok_iff] at h
      obtain ⟨_, _, h⟩ := h
      exact bubbleFinish_size hE h (.of hn)
    · simp only [bind_ok_iff] at h
      obtain ⟨_, h1, _, h2, h⟩ := h
      cases h
      have e1 := leafRoom_size hE h1
      rw [hE] at h2
      have e2 := opKey_size h2
      rw [e1] at e2
      simp only [Post.sizeLe]; omega
  cases s with
  | none => exact key 0 f.size h
  | some s =>
    simp only [bind_ok_iff, R.pure_eq, R.bind_ok] at h
    obtain ⟨ad, _, h⟩ := h
    exact key 1 ad (by simpa only [bind_ok_iff, R.pure_eq, R.bind_ok] using h)

omit hE in
theorem climb_fits {H h k : Nat} {t : Tree Nat S (h + 1)} {ctx : Ctx Nat S H (h + 1)} {r} (hr : climb k t ctx = .ok r)
    (hn : ctx.rootSize (Node.size t) ≤ MAX) :
    r.2.2.rootSize (Node.size r.2.1) ≤ MAX := by
  induction k generalizing h with
  | zero => cases hr; exact hn
  | succ k ih =>
    cases ctx with
    | top => cases hr
    | frame ptr size keys kl kr up => exact ih (h := h + 1) hr hn

theorem finishJoin_size {H : Nat} {leaf : Tree Nat S 1} {ctx : Ctx Nat S H 1} {hd : Nat × Nat} {o n : Nat} {w : World} {r}
    (h : finishJoin E leaf ctx hd o n w = .ok r) (hn : ctx.rootSize (Node.size leaf) ≤ MAX) :
    r.1.sizeLe MAX := by
  simp only [finishJoin, bind_ok_iff] at h
  obtain ⟨⟨g, n1, cx⟩, h1, _, _, _, h2, h⟩ := h
  cases h
  have e1 := climb_fits h1 hn
  rw [hE] at h2
  have e2 := opKey_size h2
  simp only [Post.sizeLe] at e1 e2 ⊢; omega

omit hE in
theorem setSliceUp_root {H n h : Nat} {ctx ctx' : Ctx Nat S H h} {k : Nat} {s : S}
    (hr : setSliceUp n ctx k s = .ok ctx') : ctx'.rootSize = ctx.rootSize := by
  induction n generalizing h with
  | zero =>
    cases ctx with
    | top => cases hr
    | frame ptr size keys kl kr up =>
      simp only [setSliceUp] at hr
      split at hr
      · cases hr
      · cases hr; rfl
  | succ n ih =>
    cases ctx with
    | top => cases hr
    | frame ptr size keys kl kr up =>
      simp only [setSliceUp, bind_ok_iff] at hr
      obtain ⟨up', h1, hr⟩ := hr
      cases hr
      have := ih h1
      funext x
      simp only [Ctx.rootSize, this]

omit hE in
theorem setSliceAt_fits {H : Nat} {leaf : Tree Nat S 1} {ctx : Ctx Nat S H 1} {hd : Nat × Nat} {s : S} {r}
    (hr : setSliceAt leaf ctx hd s = .ok r) (hn : ctx.rootSize (Node.size leaf) ≤ MAX) :
    r.2.rootSize (Node.size r.1) ≤ MAX := by
  obtain ⟨n, k⟩ := hd
  cases n with
  | zero =>
    simp only [setSliceAt, bind_ok_iff] at hr
    obtain ⟨n', h1, hr⟩ := hr
    cases hr
    show ctx.rootSize (Node.size n') ≤ MAX
    rw [setSlice_size h1]; exact hn
  | succ n =>
    simp only [setSliceAt, bind_ok_iff] at hr
    obtain ⟨n', h1, hr⟩ := hr
    cases hr
    show Ctx.rootSize n' (Node.size leaf) ≤ MAX
    rw [setSliceUp_root h1]; exact hn

theorem tryJoinEdge_size {H : Nat} {leaf : Tree Nat S 1} {ctx : Ctx Nat S H 1} {l r : Option (Nat × Nat)} {s : S}
    {z : Nat} {w : World} {x} (h : tryJoinEdge E leaf ctx l r s z w = .ok x) (hn : ctx.rootSize (Node.size leaf) ≤ MAX) :
    match x with
    | .inl p => p.1.sizeLe MAX
    | .inr (leaf, ctx, _) => ctx.rootSize (Node.size leaf) ≤ MAX := by
  unfold tryJoinEdge at h
  split at h
  · cases h; exact hn
  · split at h
    · cases h
    · simp only [bind_ok_iff] at h
      obtain ⟨_, _, h⟩ := h
      split at h
      · simp only [bind_ok_iff] at h
        obtain ⟨_, h1, _, _, _, h2, h⟩ := h
        cases h
        have := setSliceAt_fits h1 hn
        exact finishJoin_size hE h2 this
      · simp only [bind_ok_iff] at h
        obtain ⟨_, h1, h⟩ := h
        cases h
        exact setSliceAt_fits h1 hn
    · simp only [bind_ok_iff] at h
      obtain ⟨_, _, h⟩ := h
      split at h
      · simp only [bind_ok_iff] at h
        obtain ⟨_, h1, _, _, _, h2, h⟩ := h
        cases h
        have := setSliceAt_fits h1 hn
        exact finishJoin_size hE h2 this
      · simp only [bind_ok_iff] at h
        obtain ⟨_, h1, h⟩ := h
        cases h
        exact setSliceAt_fits h1 hn
    · simp only [bind_ok_iff] at h
      obtain ⟨_, _, _, _, h⟩ := h
      split at h
      · simp only [bind_ok_iff] at h
        obtain ⟨_, _, h⟩ := h
        split at h
        · cases h
        · simp only [bind_ok_iff] at h
          obtain ⟨_, h1, _, h3, _, h2, h⟩ := h
          cases h
          have := setSliceAt_fits h1 hn
          have := setSliceAt_fits h3 this
          exact finishJoin_size hE h2 this
      · simp only [bind_ok_iff] at h
        obtain ⟨_, h1, h⟩ := h
        have := setSliceAt_fits h1 hn
        split at h
        · simp only [bind_ok_iff] at h
          obtain ⟨_, h3, _, _, _, h2, h⟩ := h
          cases h
          have := setSliceAt_fits h3 this
          exact finishJoin_size hE h2 this
        · simp only [bind_ok_iff] at h
          obtain ⟨_, h3, h⟩ := h
          cases h
          exact setSliceAt_fits h3 this

theorem insertEdge_size {H : Nat} {leaf : Tree Nat S 1} {ctx : Ctx Nat S H 1} {i : Nat} {l r : Option (Nat × Nat)} {s : S}
    {z : Nat} {w : World} {x} (h : insertEdge E leaf ctx i l r s z w = .ok x) (hn : ctx.rootSize (Node.size leaf) ≤ MAX) : x.2.1.sizeLe MAX := by
  simp only [insertEdge, bind_ok_iff] at h
  obtain ⟨_, _, y, h1, h⟩ := h
  have := tryJoinEdge_size hE h1 hn
  split at h
  · cases h; exact this
  · simp only [bind_ok_iff] at h
    obtain ⟨_, h2, h⟩ := h
    cases h
    exact noJoin_size hE h2 this

omit hE in
theorem descend_root {H h : Nat} {n : Tree Nat S (h + 1)} {ctx : Ctx Nat S H (h + 1)} {r}
    (hr : descend n ctx = .ok r) (hn : ctx.rootSize (Node.size n) ≤ MAX) :
    r.2.rootSize (Node.size r.1) ≤ MAX := by
  induction h with
  | zero => cases hr; exact hn
  | succ h ih =>
    simp only [descend, bind_ok_iff] at hr
    obtain ⟨x, h1, hr⟩ := hr
    exact ih hr hn

omit hE in
theorem rhsLeaf_root {H h k : Nat} {n : Tree Nat S (h + 1)} {ctx : Ctx Nat S H (h + 1)} {r}
    (hr : rhsLeaf n ctx k = .ok r) (hn : ctx.rootSize (Node.size n) ≤ MAX) :
    r.2.1.rootSize (Node.size r.1) ≤ MAX := by
  cases h with
  | zero => cases hr; exact hn
  | succ h =>
    simp only [rhsLeaf, bind_ok_iff] at hr
    obtain ⟨x, h1, _, h2, hr⟩ := hr
    cases hr
    exact descend_root h2 hn

theorem insertRhs_size {H h : Nat} {nop skip : Bool} {n : Tree Nat S (h + 1)} {ctx : Ctx Nat S H (h + 1)} {k : Nat}
    {newLhs : Nat} {lm : Bool} {f : Sized Nat S} {s : Option (Sized Nat S)} {w : World} {r}
    (hr : insertRhs E nop skip n ctx k newLhs lm f s w = .ok r) (hn : ctx.rootSize (Node.size n) ≤ MAX) :
    r.1.sizeLe MAX := by
  simp only [insertRhs, bind_ok_iff] at hr
  obtain ⟨_, _, _, _, _, h1, hr⟩ := hr
  exact noJoin_size hE hr (rhsLeaf_root h1 hn)

theorem insertSplit_size {H h : Nat} {nop : Bool} {n : Tree Nat S (h + 1)} {ctx : Ctx Nat S H (h + 1)} {k p : Nat}
    {s : S} {z : Nat} {w : World} {r}
    (hr : insertSplit E nop n ctx k p s z w = .ok r) (hn : ctx.rootSize (Node.size n) ≤ MAX) :
    r.2.1.sizeLe MAX := by
  simp only [insertSplit, bind_ok_iff] at hr
  obtain ⟨_, _, _, _, n', h1, _, _, hr⟩ := hr
  have e1 : ctx.rootSize (Node.size n') ≤ MAX := by rw [setSlice_size h1]; exact hn
  split at hr
  · simp only [bind_ok_iff] at hr
    obtain ⟨_, h2, hr⟩ := hr
    cases hr
    exact insertRhs_size hE h2 e1
  · split at hr
    · simp only [bind_ok_iff] at hr
      obtain ⟨_, _, hr⟩ := hr
      split at hr
      · simp only [bind_ok_iff] at hr
        obtain ⟨n2, h2, _, _, _, _, _, _, _, h3, hr⟩ := hr
        cases hr
        have e2 : ctx.rootSize (Node.size n2) ≤ MAX := by rw [setSlice_size h2]; exact e1
        rw [hE] at h3
        have := opKey_size h3
        simp only [Post.sizeLe]; omega
      · simp only [bind_ok_iff] at hr
        obtain ⟨n2, h2, _, _, _, h3, hr⟩ := hr
        cases hr
        exact insertRhs_size hE h3 (by rw [setSlice_size h2]; exact e1)
    · simp only [bind_ok_iff] at hr
      obtain ⟨n2, h2, hr⟩ := hr
      have e2 : ctx.rootSize (Node.size n2) ≤ MAX := by rw [setSlice_size h2]; exact e1
      split at hr
      · simp only [bind_ok_iff] at hr
        obtain ⟨_, _, _, h3, hr⟩ := hr
        cases hr
        exact insertRhs_size hE h3 e2
      · simp only [bind_ok_iff] at hr
        obtain ⟨_, h3, hr⟩ := hr
        cases hr
        exact insertRhs_size hE h3 e2

omit hE in
/-- The root's stored size at the point found. -/
def Point.rootSize {H : Nat} : Point Nat S H → Nat
  | .edge leaf ctx _ _ _ => ctx.rootSize (Node.size leaf)
  | .split _ n ctx _ _ => ctx.rootSize (Node.size n)

omit hE in
theorem findPoint_root {H h : Nat} {n : Tree Nat S (h + 1)} {ctx : Ctx Nat S H (h + 1)} {hints : Option (List Nat)}
    {t : Nat} {l r : Option (Nat × Nat)} {pt} (hr : findPoint E n ctx hints t l r = .ok pt) :
    pt.rootSize = ctx.rootSize (Node.size n) := by
  induction h generalizing hints t l r with
  | zero =>
    simp only [findPoint, bind_ok_iff] at hr
    obtain ⟨x, h1, hr⟩ := hr
    split at hr
    · simp only [bind_ok_iff] at hr
      obtain ⟨_, _, _, _, hr⟩ := hr
      cases hr; rfl
    · cases hr; rfl
  | succ h ih =>
    simp only [findPoint, bind_ok_iff] at hr
    obtain ⟨x, h1, hr⟩ := hr
    split at hr
    · simp only [bind_ok_iff] at hr
      obtain ⟨_, _, _, _, hr⟩ := hr
      cases hr; rfl
    · simp only [bind_ok_iff] at hr
      obtain ⟨_, _, _, _, hr⟩ := hr
      exact ih hr

theorem insertAt_size {H : Nat} {nop : Bool} {pt : Point Nat S H} {s : S} {z : Nat} {w : World} {x}
    (h : insertAt E nop pt s z w = .ok x) (hn : pt.rootSize ≤ MAX) : x.2.1.sizeLe MAX := by
  cases pt with
  | edge => exact insertEdge_size hE h hn
  | split => exact insertSplit_size hE h hn

theorem installRoot_size {H len : Nat} {post : Post Nat S (H + 1)} {path : List Nat} {handle : Option (Nat × Nat)}
    {w : World} {r} (h : installRoot E len post path handle w = .ok r) (hn : post.sizeLe MAX) : r.1.size E ≤ MAX := by
  cases post with
  | done t =>
    simp only [installRoot, bind_ok_iff] at h
    obtain ⟨_, _, h⟩ := h
    cases h
    exact hn
  | newRoot l k kz rr =>
    simp only [installRoot, bind_ok_iff] at h
    obtain ⟨⟨t', w2⟩, h3, _, _, h⟩ := h
    cases h
    simp only [makeNewParent, bind_ok_iff] at h3
    obtain ⟨_, _, _, h4, h3⟩ := h3
    cases h3
    rw [hE] at h4
    exact addR_le h4

/-- A tree within the bound is within the bound after an insertion that returns. -/
theorem insert_size_le {t : RleTree Nat S} {nop : Bool} {hints : List Nat} {idx : Nat} {s : S} {z : Nat} {w : World} {r}
    (h : t.insert E nop hints idx s z w = .ok r) (ht : t.size E ≤ MAX) (hz : z ≤ MAX) : r.1.size E ≤ MAX := by
  simp only [RleTree.insert, bind_ok_iff] at h
  obtain ⟨_, _, _, _, h⟩ := h
  split at h
  · simp only [bind_ok_iff] at h
    obtain ⟨⟨t', w'⟩, h1, h⟩ := h
    simp only [RleTree.new, bind_ok_iff] at h1
    obtain ⟨_, _, _, _, _, _, h1⟩ := h1
    cases h1
    cases h
    exact hz
  · rename_i root hroot
    simp only [bind_ok_iff] at h
    obtain ⟨pt, h1, ⟨dlen, post, path, w'⟩, h2, h⟩ := h
    have e1 := findPoint_root h1
    simp only [RleTree.size, hroot] at ht
    have e2 := insertAt_size hE h2 (by rw [e1]; exact ht)
    split at h
    · simp only [bind_ok_iff] at h
      obtain ⟨_, _, h⟩ := h
      exact installRoot_size hE h e2
    · exact installRoot_size hE h e2

end
end Sherman
