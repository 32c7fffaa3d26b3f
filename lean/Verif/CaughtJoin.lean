import Verif.CaughtProps
/-!
# Insertions of slices that join, with panics of index operations

(src/tree/insert.rs)

`Verif/Caught.lean` has the insertions of slices that do not join.  Here `do_insert_full_edge_try_join` and `do_insert_full_split_key` are added, so that the
slices are arbitrary.  While a slice is out of its place (C57: one sum, and joining three slices, which is not implemented) a panic leaves something that
is not a tree of this model; then nothing is said about what is left (`none`).
-/
namespace Sherman
variable {I S C : Type}

/-- The end of `do_insert_full_edge_try_join` for a single join; all slices are in their places.  src/tree/insert.rs:810-823 -/
def finishJoinC {H : Nat} (E : Env I S) (leaf : Tree I S 1) (ctx : Ctx I S H 1) (hd : Nat × Nat) (old new : I) (w : World) :
    Lv (Tree I S H) (Post I S H × List Nat × World) := do
  let r ← leave (ctx.close leaf) (climb hd.1 leaf ctx)
  match r with
  | ⟨_, n, c⟩ => do
    let w ← leave (ctx.close leaf) (emit ⟨false, false⟩ (.insertion (Node.ptr n) hd.2) w)
    let (t, path) ← opKeyC E.ix (Maps.identity E.ix) false c n hd.2 none old new []
    pure (.done t, path, c.readUp (ptrT n) w)

/-- `do_insert_full_edge_try_join`; src/tree/insert.rs:670-824.  `none`: a slice is out of its place (739-793). -/
def tryJoinEdgeC {H : Nat} (E : Env I S) (leaf : Tree I S 1) (ctx : Ctx I S H 1) (lhs rhs : Option (Nat × Nat)) (slice : S) (size : I) (w : World) :
    Lv (Option (Tree I S H)) (JoinResult I S H) := do
  let ix := E.ix
  if !E.sl.mayJoin then pure (.inr (leaf, ctx, slice))
  else
    match lhs, rhs with
    | none, none => .error (.unreachable "edges have at least one key on either side", some (ctx.close leaf))
    | some l, none => do
      let (ls, lsize) ← leave (some (ctx.close leaf)) (handleAt ix leaf ctx l)
      match E.sl.tryJoin ls slice with
      | .inl new => do
        let (leaf, ctx) ← leave (some (ctx.close leaf)) (setSliceAt leaf ctx l new)
        let newSize ← leave (some (ctx.close leaf)) (ix.addR lsize size)
        let r ← within some (finishJoinC E leaf ctx l lsize newSize w)
        pure (.inl r)
      | .inr (ls, s) => do
        let (leaf, ctx) ← leave (some (ctx.close leaf)) (setSliceAt leaf ctx l ls)
        pure (.inr (leaf, ctx, s))
    | none, some r => do
      let (rs, rsize) ← leave (some (ctx.close leaf)) (handleAt ix leaf ctx r)
      match E.sl.tryJoin slice rs with
      | .inl new => do
        let (leaf, ctx) ← leave (some (ctx.close leaf)) (setSliceAt leaf ctx r new)
        let newSize ← leave (some (ctx.close leaf)) (ix.addL rsize size)
        let r ← within some (finishJoinC E leaf ctx r rsize newSize w)
        pure (.inl r)
      | .inr (s, rs) => do
        let (leaf, ctx) ← leave (some (ctx.close leaf)) (setSliceAt leaf ctx r rs)
        pure (.inr (leaf, ctx, s))
    | some l, some r => do
      let (ls, lsize) ← leave (some (ctx.close leaf)) (handleAt ix leaf ctx l)
      let (rs, rsize) ← leave (some (ctx.close leaf)) (handleAt ix leaf ctx r)
      match E.sl.tryJoin ls slice with
      | .inl mid => do
        let midSize ← leave none (ix.addR lsize size)
        match E.sl.tryJoin mid rs with
        | .inl _ => .error (.todo "handle_join_deletion", none)
        | .inr (mid, rs) => do
          let (leaf, ctx) ← leave none (setSliceAt leaf ctx r rs)
          let (leaf, ctx) ← leave none (setSliceAt leaf ctx l mid)
          let r ← within some (finishJoinC E leaf ctx l lsize midSize w)
          pure (.inl r)
      | .inr (ls, s) => do
        let (leaf, ctx) ← leave (some (ctx.close leaf)) (setSliceAt leaf ctx l ls)
        match E.sl.tryJoin s rs with
        | .inl new => do
          let (leaf, ctx) ← leave (some (ctx.close leaf)) (setSliceAt leaf ctx r new)
          let newSize ← leave (some (ctx.close leaf)) (ix.addR size rsize)
          let r ← within some (finishJoinC E leaf ctx r rsize newSize w)
          pure (.inl r)
        | .inr (s, rs) => do
          let (leaf, ctx) ← leave (some (ctx.close leaf)) (setSliceAt leaf ctx r rs)
          pure (.inr (leaf, ctx, s))

/-- `do_insert_full_edge`; src/tree/insert.rs:483-523.  With the tree, a panic leaves the change of `root.len`. -/
def insertEdgeJ {H : Nat} (E : Env I S) (leaf : Tree I S 1) (ctx : Ctx I S H 1) (idx : Nat) (lhs rhs : Option (Nat × Nat)) (slice : S) (size : I) (w : World) :
    Lv (Option (Tree I S H × Nat)) (Nat × Post I S H × List Nat × World) := do
  leave (some (ctx.close leaf, 0)) (weakAssert (idx ≤ Node.len leaf) "do_insert_full_edge")
  let r ← within (Option.map fun t => (t, 0)) (tryJoinEdgeC E leaf ctx lhs rhs slice size w)
  match r with
  | .inl r => pure (0, r)
  | .inr (leaf, ctx, slice) => do
    let r ← within (fun t => some (t, 1)) (noJoinC E ⟨false, false⟩ (Maps.identity E.ix) leaf ctx idx none ⟨slice, size⟩ none w)
    pure (1, r)

/-- `do_insert_full_split_key`; src/tree/insert.rs:529-652.  With the tree, a panic leaves the change of `root.len`; `none`: a slice is out of its place (573). -/
def insertSplitJ {H h : Nat} (E : Env I S) (nop : Bool) (n : Tree I S (h + 1)) (ctx : Ctx I S H (h + 1)) (k : Nat) (posInKey : I) (slice : S) (size : I)
    (w : World) : Lv (Option (Tree I S H × Nat)) (Nat × Post I S H × List Nat × World) := do
  let ix := E.ix
  let keySize ← leave (some (ctx.close n, 0)) (Node.sliceSize ix (szT ix) n k)
  let key ← leave (some (ctx.close n, 0)) (Node.handle n k)
  let (ls, rs) := E.sl.splitAt key.slice posInKey
  let n ← leave (some (ctx.close n, 0)) (Node.setSlice n k ls)
  let rsize ← leave (some (Ctx.close (h := h + 1) ctx n, 0)) (ix.subL keySize posInKey)
  let lsize := posInKey
  if !E.sl.mayJoin then do
    let r ← within (fun t => some (t, 2)) (insertRhsC E nop false n ctx k lsize false ⟨slice, size⟩ (some ⟨rs, rsize⟩) w)
    pure (2, r)
  else
    match E.sl.tryJoin ls slice with
    | .inl mid => do
      let midSize ← leave none (ix.addR lsize size)
      match E.sl.tryJoin mid rs with
      | .inl new => do
        let n ← leave none (Node.setSlice n k new)
        let w ← leave (some (Ctx.close (h := h + 1) ctx n, 0)) (emit ⟨false, false⟩ (.insertion (Node.ptr n) k) w)
        let old ← leave (some (Ctx.close (h := h + 1) ctx n, 0)) (ix.addR lsize rsize)
        let newSize ← leave (some (Ctx.close (h := h + 1) ctx n, 0)) (ix.addR midSize rsize)
        let (t, path) ← within (fun t => some (t, 0)) (opKeyC ix (Maps.identity ix) false ctx n k none old newSize [])
        pure (0, .done t, path, ctx.readUp (some n.ptr) w)
      | .inr (l, r) => do
        let n ← leave none (Node.setSlice n k l)
        let w ← leave (some (Ctx.close (h := h + 1) ctx n, 1)) (emit ⟨false, false⟩ (.insertion (Node.ptr n) k) w)
        let r ← within (fun t => some (t, 1)) (insertRhsC E nop true n ctx k midSize true ⟨r, rsize⟩ none w)
        pure (1, r)
    | .inr (l, s) => do
      let n ← leave none (Node.setSlice n k l)
      match E.sl.tryJoin s rs with
      | .inl new => do
        let newSize ← leave (some (Ctx.close (h := h + 1) ctx n, 1)) (ix.addR size rsize)
        let r ← within (fun t => some (t, 1)) (insertRhsC E nop false n ctx k lsize false ⟨new, newSize⟩ none w)
        pure (1, r)
      | .inr (s, r) => do
        let r ← within (fun t => some (t, 2)) (insertRhsC E nop false n ctx k lsize false ⟨s, size⟩ (some ⟨r, rsize⟩) w)
        pure (2, r)

/-- `do_insert_full`; src/tree/insert.rs:439-471 -/
def insertAtJ (E : Env I S) {H : Nat} (nop : Bool) (pt : Point I S H) (slice : S) (size : I) (w : World) :
    Lv (Option (Tree I S H × Nat)) (Nat × Post I S H × List Nat × World) :=
  match pt with
  | .edge leaf ctx idx lhs rhs => insertEdgeJ E leaf ctx idx lhs rhs slice size w
  | .split _ n ctx k posInKey => insertSplitJ E nop n ctx k posInKey slice size w

/-- `insert_internal`, without references or sharing.  `none`: a slice is out of its place.  src/tree/insert.rs:41-197 -/
def RleTree.insertJ (E : Env I S) (t : RleTree I S) (nop : Bool) (hints : List Nat) (idx : I) (slice : S)
    (size : I) (w : World) : Lv (Option (RleTree I S)) (RleTree I S × Inserted) :=
  match t.root with
  | none => leave (some t) (t.insert E nop hints idx slice size w)
  | some root => do
    leave (some t) (check (!E.ix.lt (t.size E) idx) "cannot insert new slice, index out of bounds")
    leave (some t) (check (!E.ix.le size E.ix.zero) "cannot insert new slice, size is not greater than zero")
    let pt ← leave (some t) (findPoint E root.tree .top (some hints) idx none none)
    let (dlen, post, path, w) ← within (Option.map fun l => (⟨some ⟨root.h, l.1, root.len + l.2⟩⟩ : RleTree I S))
      (insertAtJ E nop pt slice size { w with events := [], fst := none })
    leave (some (⟨some ⟨root.h, post.left, root.len + dlen⟩⟩ : RleTree I S)) (installRoot E (root.len + dlen) post path none w)

/-! ## Slices that do not join -/

theorem within_bind {T T' α β : Type} (g : T → T') (x : Lv T α) (f : α → Lv T β) : within g (x >>= f) = within g x >>= fun a => within g (f a) := by
  cases x with
  | ok a => rfl
  | error e => rfl

theorem within_leave {T T' α : Type} (g : T → T') (t : T) (x : R α) : within g (leave t x) = leave (g t) x := by
  cases x <;> rfl

theorem within_within {T T' T'' α : Type} (g : T → T') (g' : T' → T'') (x : Lv T α) : within g' (within g x) = within (fun t => g' (g t)) x := by
  cases x <;> rfl

/-- For slices that do not join these are the functions of `Verif/Caught.lean`. -/
theorem RleTree.insertJ_eq {E : Env I S} (hj : E.sl.mayJoin = false) (t : RleTree I S) (nop : Bool) (hints : List Nat) (idx : I) (s : S) (z : I) (w : World) :
    t.insertJ E nop hints idx s z w = within some (t.insertC E nop hints idx s z w) := by
  have hat : ∀ {H : Nat} (pt : Point I S H) (w : World), insertAtJ E nop pt s z w = within some (insertAtC E nop pt s z w) := by
    intro H pt w
    cases pt with
    | edge leaf ctx i l r =>
      simp only [insertAtJ, insertAtC, insertEdgeJ, tryJoinEdgeC, hj, Bool.not_false, if_true, within_bind, within_leave, within_within]
      rfl
    | split h n ctx k p =>
      simp only [insertAtJ, insertAtC, insertSplitJ, hj, Bool.not_false, if_true, within_bind, within_leave, within_within]
      rfl
  unfold RleTree.insertJ RleTree.insertC
  cases t.root with
  | none => exact (within_leave _ _ _).symm
  | some root =>
    simp only [within_bind, within_leave, within_within, hat]
    rfl

/-! ## Rules -/

section
variable {E : Env I S} (hc : Civil E.ix)
include hc

theorem finishJoinC_meets {M H : Nat} {leaf : Tree I S 1} {ctx : Ctx I S H 1} {hd : Nat × Nat} {old new : I} {w : World} (he : EdgeOk 1 M leaf ctx)
    (hin : HdIn leaf ctx hd) : Meets E.ix.debug (finishJoinC E leaf ctx hd old new w) (finishJoin E leaf ctx hd old new w) (FillT 1 M 1) := by
  have f0 := close_fill ctx leaf he.1 he.2
  unfold finishJoinC finishJoin
  refine Meets.step (climb_leaf he hin) f0 fun r h => ?_
  obtain ⟨h', n, c⟩ := r
  obtain ⟨h1, h2, h3⟩ := h
  dsimp only
  refine Meets.step emit_plain f0 fun _ _ => ?_
  exact Meets.bind (opKeyC_meets hc h1 h2 h3 (fun h => by cases h)) (opKey_safe hc h1 h2 h3 (fun h => by cases h)) fun r _ => Meets.pure

/-- What is left, if it is a tree, has keys everywhere. -/
def LeftFill {H : Nat} (M : Nat) (l : Option (Tree I S H)) : Prop := ∀ t, l = some t → FillT 1 M 1 t

omit hc in
theorem leftFill_some {M H : Nat} {t : Tree I S H} (h : FillT 1 M 1 t) : LeftFill M (some t) := by rintro _ ⟨⟩; exact h

omit hc in
theorem leftFill_none {M H : Nat} : LeftFill M (none : Option (Tree I S H)) := by rintro _ ⟨⟩

omit hc in
theorem Meets.err' {T α : Type} {d : Bool} {f : Fault} {t : T} {L : T → Prop} (hf : Harmless d f) (hl : L t) :
    Meets d (.error (f, t) : Lv T α) (.error f) L := ⟨(fun a h => by cases h), (fun f t h => by cases h; exact ⟨hf, hl⟩)⟩

theorem tryJoinEdgeC_meets {M H : Nat} {leaf : Tree I S 1} {ctx : Ctx I S H 1} {lhs rhs : Option (Nat × Nat)} {s : S} {z : I} {w : World}
    (he : EdgeOk 1 M leaf ctx) (hl : ∀ l, lhs = some l → HdIn leaf ctx l) (hr : ∀ r, rhs = some r → HdIn leaf ctx r) :
    Meets E.ix.debug (tryJoinEdgeC E leaf ctx lhs rhs s z w) (tryJoinEdge E leaf ctx lhs rhs s z w) (LeftFill M) := by
  have fill : ∀ {leaf' : Tree I S 1} {ctx' : Ctx I S H 1}, EdgeOk 1 M leaf' ctx' → LeftFill M (some (ctx'.close leaf')) :=
    fun he => leftFill_some (close_fill _ _ he.1 he.2)
  have fin : ∀ {leaf' : Tree I S 1} {ctx' : Ctx I S H 1} {hd : Nat × Nat} {a b : I} {w : World}, EdgeOk 1 M leaf' ctx' → HdIn leaf' ctx' hd →
      Meets E.ix.debug (within some (finishJoinC E leaf' ctx' hd a b w) >>= fun r => (Pure.pure (.inl r) : Lv (Option (Tree I S H)) (JoinResult I S H)))
        (finishJoin E leaf' ctx' hd a b w >>= fun r => (Pure.pure (.inl r) : R (JoinResult I S H))) (LeftFill M) :=
    fun he hin => Meets.bind ((finishJoinC_meets hc he hin).within fun t ht => leftFill_some ht) (finishJoin_safe hc he hin) fun r _ => Meets.pure
  unfold tryJoinEdgeC tryJoinEdge
  dsimp only
  split
  · exact Meets.pure
  · match lhs, rhs with
    | none, none => exact Meets.err' trivial (fill he)
    | some l, none =>
      have hl := hl l rfl
      refine Meets.step (handleAt_safe hc he hl) (fill he) fun r _ => ?_
      obtain ⟨ls, lsize⟩ := r
      dsimp only
      rcases E.sl.tryJoin ls s with new | ⟨a, b⟩
      · refine Meets.step (setSliceAt_safe he hl) (fill he) fun r h1 => ?_
        obtain ⟨leaf1, ctx1⟩ := r
        dsimp only
        ixstep hc, (fill h1.1)
        exact fin h1.1 (h1.2.2 _ hl)
      · refine Meets.step (setSliceAt_safe he hl) (fill he) fun r h1 => ?_
        exact Meets.pure
    | none, some r =>
      have hr := hr r rfl
      refine Meets.step (handleAt_safe hc he hr) (fill he) fun r _ => ?_
      obtain ⟨ls, lsize⟩ := r
      dsimp only
      rcases E.sl.tryJoin s ls with new | ⟨a, b⟩
      · refine Meets.step (setSliceAt_safe he hr) (fill he) fun r h1 => ?_
        obtain ⟨leaf1, ctx1⟩ := r
        dsimp only
        ixstep hc, (fill h1.1)
        exact fin h1.1 (h1.2.2 _ hr)
      · refine Meets.step (setSliceAt_safe he hr) (fill he) fun r h1 => ?_
        exact Meets.pure
    | some l, some r =>
      have hl := hl l rfl
      have hr := hr r rfl
      refine Meets.step (handleAt_safe hc he hl) (fill he) fun x _ => ?_
      obtain ⟨ls, lsize⟩ := x
      refine Meets.step (handleAt_safe hc he hr) (fill he) fun x _ => ?_
      obtain ⟨rs, rsize⟩ := x
      dsimp only
      rcases E.sl.tryJoin ls s with mid | ⟨a, b⟩
      · ixstep hc, leftFill_none
        rcases E.sl.tryJoin mid rs with new | ⟨a, b⟩
        · exact Meets.err' trivial leftFill_none
        · refine Meets.step (setSliceAt_safe he hr) leftFill_none fun x h1 => ?_
          obtain ⟨leaf1, ctx1⟩ := x
          refine Meets.step (setSliceAt_safe h1.1 (h1.2.2 _ hl)) leftFill_none fun x h2 => ?_
          obtain ⟨leaf2, ctx2⟩ := x
          have h2 := h1.trans h2
          exact fin h2.1 (h2.2.2 _ hl)
      · refine Meets.step (setSliceAt_safe he hl) (fill he) fun x h1 => ?_
        obtain ⟨leaf1, ctx1⟩ := x
        dsimp only
        rcases E.sl.tryJoin b rs with new | ⟨c, d⟩
        · refine Meets.step (setSliceAt_safe h1.1 (h1.2.2 _ hr)) (fill h1.1) fun x h2 => ?_
          obtain ⟨leaf2, ctx2⟩ := x
          have h2 := h1.trans h2
          dsimp only
          ixstep hc, (fill h2.1)
          exact fin h2.1 (h2.2.2 _ hr)
        · refine Meets.step (setSliceAt_safe h1.1 (h1.2.2 _ hr)) (fill h1.1) fun x h2 => ?_
          exact Meets.pure

/-- The same for a tree with the change of `root.len`. -/
def LeftFill' {H : Nat} (M : Nat) (l : Option (Tree I S H × Nat)) : Prop := ∀ t, l = some t → FillT 1 M 1 t.1

omit hc in
theorem leftFill'_some {M H : Nat} {t : Tree I S H} {d : Nat} (h : FillT 1 M 1 t) : LeftFill' M (some (t, d)) := by rintro _ ⟨⟩; exact h

omit hc in
theorem leftFill'_none {M H : Nat} : LeftFill' M (none : Option (Tree I S H × Nat)) := by rintro _ ⟨⟩

theorem insertEdgeJ_meets {H : Nat} {leaf : Tree I S 1} {ctx : Ctx I S H 1} {idx : Nat} {lhs rhs : Option (Nat × Nat)} {s : S} {z : I} {w : World}
    (hM : 3 ≤ E.M) (he : EdgeOk 1 E.M leaf ctx) (hi : idx ≤ (Node.keys leaf).length) (hl : ∀ l, lhs = some l → HdIn leaf ctx l)
    (hr : ∀ r, rhs = some r → HdIn leaf ctx r) (hw : w.fst = none) :
    Meets E.ix.debug (insertEdgeJ E leaf ctx idx lhs rhs s z w) (insertEdge E leaf ctx idx lhs rhs s z w) (LeftFill' E.M) := by
  unfold insertEdgeJ insertEdge
  refine Meets.step (Safe.weak (decide_eq_true hi)) (leftFill'_some (close_fill _ _ he.1 he.2)) fun _ _ => ?_
  refine Meets.bind ((tryJoinEdgeC_meets hc he hl hr).within ?_) (tryJoinEdge_safe hc he hl hr) fun r h => ?_
  · intro t ht u hu
    cases t with
    | none => cases hu
    | some t => cases hu; exact ht _ rfl
  · match r, h with
    | .inl p, h => exact Meets.pure
    | .inr (leaf', ctx', s'), h =>
      have hi' : idx ≤ (Node.keys leaf').length := by rw [h.2]; exact hi
      exact Meets.bind ((noJoinC_meets hc hM h.1.1 h.1.2 hi' (fun h => by cases h) hw (fun h => by cases h)).within fun t ht => leftFill'_some ht)
        (noJoin_safe hc (μ := 1) (by omega) (by omega) h.1.1 h.1.2 hi' (fun h => by cases h) hw (fun h => by cases h)) fun r _ => Meets.pure

theorem insertSplitJ_meets {nop : Bool} {H h : Nat} {n : Tree I S (h + 1)} {ctx : Ctx I S H (h + 1)} {k : Nat} {p : I} {s : S} {z : I} {w : World}
    (hM : 3 ≤ E.M) (hx : ctx.Shape 1 E.M) (hn : FillT 1 E.M (ctx.low 1) n) (hk : k < (Node.keys n).length) (hw : w.fst = none) :
    Meets E.ix.debug (insertSplitJ E nop n ctx k p s z w) (insertSplit E nop n ctx k p s z w) (LeftFill' E.M) := by
  have fill : ∀ {n : Tree I S (h + 1)} {d : Nat}, FillT 1 E.M (ctx.low 1) n → LeftFill' E.M (some (ctx.close n, d)) :=
    fun hn => leftFill'_some (close_fill _ _ hx hn)
  have set : ∀ {n : Tree I S (h + 1)} (s : S), FillT 1 E.M (ctx.low 1) n → k < (Node.keys n).length →
      Safe E.ix.debug (Node.setSlice n k s) fun n' => FillT 1 E.M (ctx.low 1) (h := h + 1) n' ∧ k < (Node.keys n').length := by
    intro n s hn hk
    exact (setSlice_safe hk).mono fun n' hs => ⟨hn.same hs, by rw [hs.1]; exact hk⟩
  have rhs : ∀ {n : Tree I S (h + 1)} {skip : Bool} {newLhs : I} {mode : Bool} {fst : Sized I S} {snd : Option (Sized I S)} {w : World} (d : Nat),
      FillT 1 E.M (ctx.low 1) n → k < (Node.keys n).length → w.fst = none →
      Meets E.ix.debug (within (fun t => some (t, d)) (insertRhsC E nop skip n ctx k newLhs mode fst snd w) >>= fun r => Pure.pure (d, r))
        (insertRhs E nop skip n ctx k newLhs mode fst snd w >>= fun r => Pure.pure (d, r)) (LeftFill' E.M) :=
    fun d hn hk hw => Meets.bind ((insertRhsC_meets hc hM hx hn hk hw).within fun t ht => leftFill'_some ht)
      (insertRhs_safe hc (μ := 1) (by omega) (by omega) hx hn hk hw) fun r _ => Meets.pure
  unfold insertSplitJ insertSplit
  refine Meets.step (sliceSize_safe hc hk hn.arity).triv (fill hn) fun _ _ => ?_
  refine Meets.step (handle_safe hk).triv (fill hn) fun key _ => ?_
  generalize E.sl.splitAt key.slice p = sp
  obtain ⟨ls, rs⟩ := sp
  dsimp only
  refine Meets.step (set _ hn hk) (fill hn) fun n1 h1 => ?_
  obtain ⟨hn1, hk1⟩ := h1
  ixstep hc, (fill (n := n1) hn1)
  split
  · exact rhs 2 hn1 hk1 hw
  · rcases E.sl.tryJoin ls s with mid | ⟨a, b⟩
    · ixstep hc, leftFill'_none
      rcases E.sl.tryJoin mid rs with new | ⟨a, b⟩
      · refine Meets.step (set _ hn1 hk1) leftFill'_none fun n2 h2 => ?_
        obtain ⟨hn2, hk2⟩ := h2
        refine Meets.step emit_plain (fill (n := n2) hn2) fun _ _ => ?_
        ixstep hc, (fill (n := n2) hn2)
        ixstep hc, (fill (n := n2) hn2)
        exact Meets.bind ((opKeyC_meets hc hx hn2 hk2 (fun h => by cases h)).within fun t ht => leftFill'_some ht)
          (opKey_safe hc hx hn2 hk2 (fun h => by cases h)) fun r _ => Meets.pure
      · refine Meets.step (set _ hn1 hk1) leftFill'_none fun n2 h2 => ?_
        obtain ⟨hn2, hk2⟩ := h2
        refine Meets.step emit_plain (fill (n := n2) hn2) fun w' hw' => ?_
        exact rhs 1 hn2 hk2 (hw'.trans hw)
    · refine Meets.step (set _ hn1 hk1) leftFill'_none fun n2 h2 => ?_
      obtain ⟨hn2, hk2⟩ := h2
      rcases E.sl.tryJoin b rs with new | ⟨c, d⟩
      · ixstep hc, (fill (n := n2) hn2)
        exact rhs 1 hn2 hk2 hw
      · exact rhs 2 hn2 hk2 hw

theorem insertJ_meets (hM : 3 ≤ E.M) (hr : E.refs = false) {t : RleTree I S} (ht : t.Shape 1 E.M) (nop : Bool) (hints : List Nat) (idx : I) (s : S) (z : I)
    (w : World) : Meets E.ix.debug (t.insertJ E nop hints idx s z w) (t.insert E nop hints idx s z w) fun l => ∀ t', l = some t' → t'.Shape 1 E.M := by
  have hμ : 1 ≤ E.M → 1 ≤ 1 ∧ 1 ≤ E.M := fun h => ⟨le_rfl, h⟩
  have ht' : ∀ t', some t = some t' → t'.Shape 1 E.M := by rintro _ ⟨⟩; exact ht
  unfold RleTree.insertJ
  cases hroot : t.root with
  | none => exact Meets.leave (rleInsert_safe hc hμ ht) ht'
  | some root =>
    obtain ⟨-, hsh⟩ := ht root hroot
    have fin : ∀ (l : Tree I S (root.h + 1) × Nat), FillT 1 E.M 1 l.1 → RleTree.Shape 1 E.M (⟨some ⟨root.h, l.1, root.len + l.2⟩⟩ : RleTree I S) := by
      rintro l hl r ⟨⟩
      exact ⟨hμ (by omega), hl⟩
    unfold RleTree.insert
    simp only [hroot, hr]
    refine Meets.step (Safe.check (by simp [debugMsgs])) ht' fun _ _ => ?_
    refine Meets.step (Safe.check (by simp [debugMsgs])) ht' fun _ _ => ?_
    refine Meets.step (findPoint_safe hc root.tree .top (some hints) idx none none (by omega) trivial hsh (fun l h => by cases h) (fun l h => by cases h)) ht'
      fun pt hpt => ?_
    have hia : Safe E.ix.debug (insertAt E nop pt s z { w with events := [], fst := none }) fun r => r.2.1.Shape 1 E.M := by
      cases pt with
      | edge leaf ctx i lhs rhs => exact insertEdge_safe hc (by omega) (by omega) hpt.1 hpt.2.1 hpt.2.2.1 hpt.2.2.2 rfl
      | split h n ctx k p => exact insertSplit_safe hc (by omega) (by omega) hpt.1 hpt.2.1 hpt.2.2 rfl
    have hm : Meets E.ix.debug (insertAtJ E nop pt s z { w with events := [], fst := none }) (insertAt E nop pt s z { w with events := [], fst := none })
        (LeftFill' E.M) := by
      cases pt with
      | edge leaf ctx i lhs rhs => exact insertEdgeJ_meets hc hM hpt.1 hpt.2.1 hpt.2.2.1 hpt.2.2.2 rfl
      | split h n ctx k p => exact insertSplitJ_meets hc hM hpt.1 hpt.2.1 hpt.2.2 rfl
    refine Meets.bind (hm.within ?_) hia fun r hr' => ?_
    · intro l hl t' h
      cases l with
      | none => cases h
      | some l => cases h; exact fin l (hl l rfl)
    · obtain ⟨dlen, post, path, w1⟩ := r
      refine Meets.leave (installRoot_safe hc (by omega) hr') ?_
      rintro _ ⟨⟩
      exact fin (_, dlen) (Post.left_fill hr')

end

/-! ## Programs -/

/-- The insertion, with what is left of the tree if it panics.  src/tree/insert.rs:41-197 -/
def Attempt.runJ (E : Env I S) (t : RleTree I S) (a : Attempt I S) : Lv (Option (RleTree I S)) (RleTree I S × Inserted) :=
  t.insertJ E a.nop a.hints a.idx a.slice a.size a.world

/-- The tree with which a program goes on that catches the panic, if there is one; `none` if a slice is out of its place.  src/tree/insert.rs:41-197 -/
def RleTree.attemptJ (E : Env I S) (t : RleTree I S) (a : Attempt I S) : Option (RleTree I S) :=
  match a.runJ E t with
  | .ok r => some r.1
  | .error e => e.2

/-- A program of insertions whose panics are caught.  It gives `none` if one of them left a slice out of its place.  src/tree/insert.rs:41-197 -/
def RleTree.attemptsJ (E : Env I S) : RleTree I S → List (Attempt I S) → Option (RleTree I S)
  | t, [] => some t
  | t, a :: as => (t.attemptJ E a).bind fun t' => t'.attemptsJ E as

theorem attemptsJ_shape {E : Env I S} (hc : Civil E.ix) (hM : 3 ≤ E.M) (hr : E.refs = false) (as : List (Attempt I S)) :
    ∀ {t t' : RleTree I S}, t.Shape 1 E.M → t.attemptsJ E as = some t' → t'.Shape 1 E.M := by
  induction as with
  | nil => intro t t' ht h; cases h; exact ht
  | cons a as ih =>
    intro t t' ht h
    obtain ⟨t1, h1, h2⟩ := Option.bind_eq_some_iff.1 h
    refine ih ?_ h2
    have hm := insertJ_meets hc hM hr ht a.nop a.hints a.idx a.slice a.size a.world
    unfold RleTree.attemptJ Attempt.runJ at h1
    split at h1
    · rename_i r hx
      cases h1
      exact (rleInsert_safe hc (fun h => ⟨le_rfl, h⟩) ht).out (hm.ok r hx)
    · rename_i e hx
      exact (hm.err e.1 e.2 hx).2 t1 h1

/-- Specification: the insertion returns what it returns in the model without catching, or it panics. -/
def Attempt.FineJ (E : Env I S) (t : RleTree I S) (a : Attempt I S) : Prop :=
  (∀ r, a.runJ E t = .ok r → t.insert E a.nop a.hints a.idx a.slice a.size a.world = .ok r) ∧ ∀ f t', a.runJ E t = .error (f, t') → Harmless E.ix.debug f

/-- **C55.** After any number of insertions of arbitrary slices, of which some panicked, no node is without keys, if no slice was left out of its place.
(Missing: `M` below 3; a slice out of its place, for which see C57.) -/
theorem caught_join_keyed_partial {E : Env I S} (hc : Civil E.ix) (hM : 3 ≤ E.M) (hr : E.refs = false) (as : List (Attempt I S)) {t : RleTree I S}
    (h : RleTree.attemptsJ E ⟨none⟩ as = some t) : ∀ r, t.root = some r → KeyedT E.M r.tree :=
  fun r hroot => (attemptsJ_shape hc hM hr as (t := ⟨none⟩) (by rintro r ⟨⟩) h r hroot).2.keyed le_rfl

/-- **C55.** Then another insertion, `get`, `cursor_to`, and any calls of `next` and `next_back` on an iterator with any bounds return or panic; the iterator
yields entries of the tree.  (Missing: `M` below 3; a slice out of its place.) -/
theorem caught_join_usable_partial {E : Env I S} (hc : Civil E.ix) (hM : 3 ≤ E.M) (hr : E.refs = false) (as : List (Attempt I S)) {t : RleTree I S}
    (h : RleTree.attemptsJ E ⟨none⟩ as = some t) :
    (∀ a : Attempt I S, a.FineJ E t) ∧
    (∀ hints idx, Defined E.ix.debug (t.get E hints idx)) ∧ (∀ idx, Defined E.ix.debug (t.cursorTo E idx)) ∧
    ∀ it : Iter I S, it.Fresh t → ∀ bs, Defined E.ix.debug (it.calls E.ix bs) ∧
      ∀ es it', it.calls E.ix bs = .ok (es, it') → ∀ e ∈ es, ∃ c ∈ t.places, (c.ptr, c.idx) = (e.ptr, e.idx) := by
  have ht : t.Shape 1 E.M := attemptsJ_shape hc hM hr as (t := ⟨none⟩) (by rintro r ⟨⟩) h
  refine ⟨fun a => ?_, fun hints idx => (rleGet_safe hc ht).defined, fun idx => (rleCursorTo_safe hc ht).defined, fun it hi bs => ?_⟩
  · have hm := insertJ_meets hc hM hr ht a.nop a.hints a.idx a.slice a.size a.world
    exact ⟨hm.ok, fun f t' h => (hm.err f t' h).1⟩
  · have h1 := fresh_safe hc ht hi bs
    exact ⟨h1.defined, fun es it' hx => h1.out hx⟩

/-! ## When a slice is left out of its place -/

/-- Specification: the new slice joined with what is to its left, and the sum of their sizes panicked, or the result also joined with what is to its right. -/
def Lost (E : Env I S) (slice : S) (size : I) (f : Fault) : Prop :=
  ∃ left mid, E.sl.tryJoin left slice = .inl mid ∧
    ((∃ a, E.ix.addR a size = .error f) ∨ ∃ right new, E.sl.tryJoin mid right = .inl new ∧ f = .todo "handle_join_deletion")

/-- If nothing is known of what is left, then the failure has this property. -/
def NoneOnly {T α : Type} (P : Fault → Prop) (x : Lv (Option T) α) : Prop := ∀ f, x = .error (f, none) → P f

namespace NoneOnly
variable {T T' α β : Type} {P : Fault → Prop}

theorem pure {a : α} : NoneOnly P (Pure.pure a : Lv (Option T) α) := fun f h => by cases h

theorem bind {x : Lv (Option T) α} {k : α → Lv (Option T) β} (hx : NoneOnly P x) (hk : ∀ a, x = .ok a → NoneOnly P (k a)) : NoneOnly P (x >>= k) := by
  intro f h
  cases hx' : x with
  | ok a => rw [hx'] at h; exact hk a hx' f h
  | error e => rw [hx'] at h; cases h; exact hx f hx'

theorem leave {t : T} {x : R α} : NoneOnly P (Sherman.leave (some t) x) := by
  intro f h
  cases x with
  | ok a => cases h
  | error e => cases h

theorem gone {x : R α} (hx : ∀ f, x = .error f → P f) : NoneOnly P (Sherman.leave (none : Option T) x) := by
  intro f h
  cases x with
  | ok a => cases h
  | error e => cases h; exact hx _ rfl

theorem within {g : T → T'} {x : Lv T α} : NoneOnly P (Sherman.within (fun t => some (g t)) x) := by
  intro f h
  cases x with
  | ok a => cases h
  | error e => cases h

theorem map {g : T → T'} {x : Lv (Option T) α} (hx : NoneOnly P x) : NoneOnly P (Sherman.within (Option.map g) x) := by
  intro f h
  cases x with
  | ok a => cases h
  | error e =>
    obtain ⟨f', t⟩ := e
    cases t with
    | none => cases h; exact hx _ rfl
    | some t => cases h

/-- One step that leaves the tree. -/
theorem step {t : T} {x : R α} {k : α → Lv (Option T) β} (hk : ∀ a, NoneOnly P (k a)) : NoneOnly P (Sherman.leave (some t) x >>= k) :=
  leave.bind fun a _ => hk a

/-- One step after which nothing is known. -/
theorem goneStep {x : R α} {k : α → Lv (Option T) β} (hx : ∀ f, x = .error f → P f) (hk : ∀ a, NoneOnly P (k a)) :
    NoneOnly P (Sherman.leave (none : Option T) x >>= k) := (gone hx).bind fun a _ => hk a

/-- A last step. -/
theorem last {g : T → T'} {x : Lv T α} {k : α → β} : NoneOnly P (Sherman.within (fun t => some (g t)) x >>= fun a => (Pure.pure (k a) : Lv (Option T') β)) :=
  within.bind fun _ _ => pure
end NoneOnly

/-- An access outside of an array, or worse. -/
def Fault.isUb : Fault → Prop
  | .ub _ => True
  | _ => False

theorem setSlice_ub {n : Node I S C} {k : Nat} {s : S} {f : Fault} (h : n.setSlice k s = .error f) : f.isUb := by
  unfold Node.setSlice at h
  split at h <;> cases h
  trivial

theorem setSliceUp_ub {H : Nat} : ∀ {a h : Nat} {ctx : Ctx I S H h} {k : Nat} {s : S} {f : Fault}, setSliceUp a ctx k s = .error f → f.isUb := by
  intro a
  induction a with
  | zero =>
    intro h ctx k s f hx
    cases ctx with
    | top => cases hx; trivial
    | frame ptr size keys kl kr up =>
      unfold setSliceUp at hx
      split at hx <;> cases hx
      trivial
  | succ a ih =>
    intro h ctx k s f hx
    cases ctx with
    | top => cases hx; trivial
    | frame ptr size keys kl kr up =>
      unfold setSliceUp at hx
      cases hy : setSliceUp a up k s with
      | ok c => rw [hy] at hx; cases hx
      | error e => rw [hy] at hx; cases hx; exact ih hy

theorem setSliceAt_ub {H : Nat} {leaf : Tree I S 1} {ctx : Ctx I S H 1} {hd : Nat × Nat} {s : S} {f : Fault} (h : setSliceAt leaf ctx hd s = .error f) : f.isUb := by
  have err : ∀ {α β : Type} {x : R α} {k : α → β}, (x >>= fun a => (Except.ok (k a) : R β)) = .error f → x = .error f := by
    intro α β x k h
    cases x with
    | ok a => cases h
    | error e => cases h; rfl
  obtain ⟨a, k⟩ := hd
  cases a with
  | zero => exact setSlice_ub (err h)
  | succ a => exact setSliceUp_ub (err h)

theorem tryJoinEdgeC_none {E : Env I S} {H : Nat} {leaf : Tree I S 1} {ctx : Ctx I S H 1} {lhs rhs : Option (Nat × Nat)} {s : S} {z : I} {w : World} :
    NoneOnly (fun f => f.isUb ∨ Lost E s z f) (tryJoinEdgeC E leaf ctx lhs rhs s z w) := by
  unfold tryJoinEdgeC
  dsimp only
  split
  · exact .pure
  · match lhs, rhs with
    | none, none => exact fun f h => by cases h
    | some l, none =>
      refine .step fun r => ?_
      split
      · exact .step fun _ => .step fun _ => .last
      · exact .step fun _ => .pure
    | none, some r =>
      refine .step fun r => ?_
      split
      · exact .step fun _ => .step fun _ => .last
      · exact .step fun _ => .pure
    | some l, some r =>
      refine .step fun ls => .step fun rs => ?_
      cases hj : E.sl.tryJoin ls.1 s with
      | inl mid =>
        refine .goneStep (fun f h => .inr ⟨_, _, hj, .inl ⟨_, h⟩⟩) fun _ => ?_
        cases hj' : E.sl.tryJoin mid rs.1 with
        | inl new => exact fun f h => by cases h; exact .inr ⟨_, _, hj, .inr ⟨_, _, hj', rfl⟩⟩
        | inr p =>
          exact .goneStep (fun f h => .inl (setSliceAt_ub h)) fun _ => .goneStep (fun f h => .inl (setSliceAt_ub h)) fun _ => .last
      | inr p =>
        refine .step fun r => ?_
        split
        · exact .step fun _ => .step fun _ => .last
        · exact .step fun _ => .pure

theorem insertAtJ_none {E : Env I S} {H : Nat} {nop : Bool} {pt : Point I S H} {s : S} {z : I} {w : World} :
    NoneOnly (fun f => f.isUb ∨ Lost E s z f) (insertAtJ E nop pt s z w) := by
  cases pt with
  | edge leaf ctx i lhs rhs =>
    unfold insertAtJ insertEdgeJ
    refine .step fun _ => (NoneOnly.map tryJoinEdgeC_none).bind fun r _ => ?_
    split
    · exact .pure
    · exact .last
  | split h n ctx k p =>
    unfold insertAtJ insertSplitJ
    refine .step fun _ => .step fun key => ?_
    dsimp only
    refine .step fun n1 => .step fun rsize => ?_
    split
    · exact .last
    · cases hj : E.sl.tryJoin (E.sl.splitAt key.slice p).1 s with
      | inl mid =>
        refine .goneStep (fun f h => .inr ⟨_, _, hj, .inl ⟨_, h⟩⟩) fun _ => ?_
        split
        · exact .goneStep (fun f h => .inl (setSlice_ub h)) fun _ => .step fun _ => .step fun _ => .step fun _ => .last
        · exact .goneStep (fun f h => .inl (setSlice_ub h)) fun _ => .step fun _ => .last
      | inr p =>
        refine .goneStep (fun f h => .inl (setSlice_ub h)) fun _ => ?_
        split
        · exact .step fun _ => .last
        · exact .last

/-- **C55.** A slice is left out of its place only if the new slice joined with what is to its left, and then the sum of their sizes panicked, or the result
joined with what is to its right as well, at an edge, which is not implemented.  So for slices that join without such panics the theorems above apply. -/
theorem caught_join_lost {E : Env I S} (hc : Civil E.ix) (hM : 3 ≤ E.M) (hr : E.refs = false) (as : List (Attempt I S)) {t : RleTree I S}
    (h : RleTree.attemptsJ E ⟨none⟩ as = some t) (a : Attempt I S) {f : Fault} (hf : a.runJ E t = .error (f, none)) : Lost E a.slice a.size f := by
  have ht : t.Shape 1 E.M := attemptsJ_shape hc hM hr as (t := ⟨none⟩) (by rintro r ⟨⟩) h
  have hh := ((insertJ_meets hc hM hr ht a.nop a.hints a.idx a.slice a.size a.world).err f none hf).1
  have hn : NoneOnly (fun f => f.isUb ∨ Lost E a.slice a.size f) (a.runJ E t) := by
    unfold Attempt.runJ RleTree.insertJ
    cases t.root with
    | none => exact .leave
    | some root => exact .step fun _ => .step fun _ => .step fun _ => (NoneOnly.map insertAtJ_none).bind fun r _ => .leave
  rcases hn f hf with hu | hl
  · cases f with
    | ub m => cases hh
    | _ => cases hu
  · exact hl

/-- **C55.** Slices that do not join are never left out of their place. -/
theorem caught_nojoin_kept {E : Env I S} (hj : E.sl.mayJoin = false) (t : RleTree I S) (a : Attempt I S) : t.attemptJ E a = some (t.attempt E a) := by
  unfold RleTree.attemptJ RleTree.attempt Attempt.runJ Attempt.run
  rw [RleTree.insertJ_eq hj]
  cases t.insertC E a.nop a.hints a.idx a.slice a.size a.world <;> rfl

/-! ## Instances -/

/-- As `byteEnv`, with `Constant<char>` as slices.  The trait: src/public_traits.rs:15-36, 244-296 -/
def joinEnv (M : Nat) : Env Nat Char := ⟨(byteEnv M).ix, constSl Char, M, false⟩

/-- What a program of insertions leaves, if no slice is out of its place. -/
def afterJ (M : Nat) (as : List (Attempt Nat Char)) : Option (Nat × Nat × List Char) := (RleTree.attemptsJ (joinEnv M) ⟨none⟩ as).map (lookAt M)

/-- Joining 'a' of size 250 with 'a' at the start makes the tree too large; the slices stay.  Inserting 'a' of size 254 in the middle of 'a', or between
'a' and 'b', leaves 'a' out of its place; inserting 'b' there does not. -/
example : afterJ 3 [put 0 0 'a' 4, put 10 4 'b' 3, put 20 5 'c' 2, put 30 9 'b' 1, put 40 0 'a' 250] = some (10, 4, ['a', 'b', 'c', 'b']) ∧
    afterJ 3 [put 0 0 'a' 4, put 10 4 'b' 3, put 20 5 'c' 2, put 30 9 'b' 1, put 40 2 'a' 254] = none ∧
    afterJ 3 [put 0 0 'a' 4, put 10 4 'b' 3, put 20 4 'a' 254] = none ∧ afterJ 3 [put 0 0 'a' 4, put 10 4 'b' 3, put 20 4 'b' 254] = some (7, 2, ['a', 'b']) := by decide +kernel

example (t : RleTree Nat Char) (h : RleTree.attemptsJ (joinEnv 3) ⟨none⟩ [put 0 0 'a' 4, put 10 4 'b' 3, put 20 5 'c' 2, put 40 0 'a' 250] = some t) :
    ∀ a : Attempt Nat Char, a.FineJ (joinEnv 3) t := (caught_join_usable_partial (E := joinEnv 3) (byteEnv_civil 3) (by decide) rfl _ h).1

end Sherman
