import Verif.TickProps
import Verif.AnyIndexProps
import Verif.IterProps
/-!
# Counting the steps of iteration

The functions of `Verif/Iter.lean` once more, with a count of steps as in `Verif/Tick.lean`.  The comparison of two handles is one of addresses, not of
positions, and counts nothing.
-/
namespace Sherman

/-- `m` has the result `r`, after at most `n` steps, of which `Φ` many are left over for the result.  Used in proofs; no counterpart in the code
(steps of src/tree/iter.rs:184-678). -/
def Pays {α : Type} (m : T α) (r : R α) (Φ : α → Nat) (n : Nat) : Prop := m.2 = r ∧ m.1 ≤ n ∧ ∀ x, r = .ok x → m.1 + Φ x ≤ n

namespace Pays
variable {α β : Type} {Φ : α → Nat} {Ψ : β → Nat}

theorem takes {m : T α} {r : R α} {n : Nat} (h : Pays m r Φ n) : Takes m r n := ⟨h.1, h.2.1⟩

theorem ok {a : α} {n : Nat} (h : Φ a ≤ n) : Pays (Pure.pure a : T α) (.ok a) Φ n :=
  ⟨rfl, Nat.zero_le _, fun x e => by cases e; show 0 + _ ≤ _; omega⟩

theorem error {e : Fault} {n : Nat} : Pays (T.error e : T α) (.error e) Φ n := ⟨rfl, Nat.zero_le _, fun x e => by cases e⟩

theorem lift {r : R α} {n : Nat} (h : ∀ x, r = .ok x → Φ x ≤ n) : Pays (liftM r : T α) r Φ n :=
  ⟨rfl, Nat.zero_le _, fun x e => by have := h x e; show 0 + _ ≤ _; omega⟩

theorem mono {m : T α} {r : R α} {a n : Nat} (h : Pays m r Φ a) (hn : a ≤ n) : Pays m r Φ n :=
  ⟨h.1, Nat.le_trans h.2.1 hn, fun x e => Nat.le_trans (h.2.2 x e) hn⟩

theorem bind {m : T α} {r : R α} {f : α → T β} {g : α → R β} {a n : Nat} (h : Pays m r Φ a) (ha : a ≤ n)
    (k : ∀ x, r = .ok x → Pays (f x) (g x) Ψ (n - a + Φ x)) : Pays (m >>= f) (r >>= g) Ψ n := by
  obtain ⟨c, r'⟩ := m
  obtain ⟨rfl, h2, h3⟩ := h
  change c ≤ a at h2
  cases r' with
  | error e => exact ⟨rfl, Nat.le_trans h2 ha, fun x e => by cases e⟩
  | ok x =>
    obtain ⟨k1, k2, k3⟩ := k x rfl
    have h3 : c + Φ x ≤ a := h3 x rfl
    refine ⟨k1, ?_, fun y hy => ?_⟩
    · show c + (f x).1 ≤ n
      omega
    · have := k3 y hy
      show c + (f x).1 + Ψ y ≤ n
      omega

theorem of {m : T α} {r : R α} {n : Nat} (h : Takes m r n) : Pays m r (fun _ => 0) n := ⟨h.1, h.2, fun _ _ => h.2⟩

theorem bindTakes {m : T α} {r : R α} {f : α → T β} {g : α → R β} {a n : Nat} (h : Takes m r a) (ha : a ≤ n)
    (k : ∀ x, r = .ok x → Pays (f x) (g x) Ψ (n - a)) : Pays (m >>= f) (r >>= g) Ψ n := bind (of h) ha k

theorem bindLift {r : R α} {f : α → T β} {g : α → R β} {n : Nat} (k : ∀ x, r = .ok x → Pays (f x) (g x) Ψ n) :
    Pays ((liftM r : T α) >>= f) (r >>= g) Ψ n := bindTakes (a := 0) .lift (Nat.zero_le _) k

theorem bindOp {r : R α} {f : α → T β} {g : α → R β} {n : Nat} (h : 1 ≤ n) (k : ∀ x, r = .ok x → Pays (f x) (g x) Ψ (n - 1)) :
    Pays (T.op r >>= f) (r >>= g) Ψ n := bindTakes (.op (Nat.le_refl _)) h k

theorem tick {a : Nat} {f : Unit → T β} {r : R β} {n : Nat} (ha : a ≤ n) (k : Pays (f ()) r Ψ (n - a)) : Pays (T.tick a >>= f) r Ψ n := by
  refine ⟨k.1, ?_, fun x hx => ?_⟩
  · have := k.2.1
    show a + (f ()).1 ≤ n
    omega
  · have := k.2.2 x hx
    show a + (f ()).1 + Ψ x ≤ n
    omega

end Pays

namespace Tk
variable {I S : Type}

/-- `SliceHandle::slice_size`; src/tree/node.rs:2887-2905 -/
def headSize (ix : IdxOps I) {H : Nat} (hd : Head I S H) : T I := Tk.sliceSize ix (szT ix) hd.node hd.idx

/-- `exclStep`, with the comparison with the target; src/tree/iter.rs:281-313 -/
def exclStep (ix : IdxOps I) (leaf : Bool) {h : Nat} (n : Tree I S (h + 1)) (excluded : Bool) (target : I) (r : Step I) : T (Step I) := do
  T.tick 1
  match r with
  | .key k kpos =>
    if excluded && ix.eq kpos target then
      if leaf then
        if k = 0 then T.error (.panic "internal error")
        else do
          let p ← Node.keyPos n (k - 1)
          pure (.key (k - 1) p)
      else do
        let cs ← Node.childSize (szT ix) n k
        let p ← T.op (ix.subR kpos cs)
        pure (.child k p)
    else pure r
  | .child c cpos =>
    if excluded && ix.eq cpos target then
      if c = 0 then T.error (.panic "internal error")
      else do
        let p ← Node.keyPos n (c - 1)
        pure (.key (c - 1) p)
    else pure r

/-- `lastStep`, with the subtraction in `child_pos`; src/tree/iter.rs:315-334 -/
def lastStep (ix : IdxOps I) (leaf : Bool) {h : Nat} (n : Tree I S (h + 1)) : T (Step I) :=
  if leaf then do
    let i ← usub (Node.len n) 1
    let p ← Node.keyPos n i
    pure (.key i p)
  else do
    let p ← T.op (Node.childPos ix (szT ix) n (Node.len n))
    pure (.child (Node.len n) p)

/-- `stackStep`; src/tree/iter.rs:277-335 -/
def stackStep (ix : IdxOps I) (leaf : Bool) {h : Nat} (n : Tree I S (h + 1)) (hint : Option Nat) (excluded : Bool) (target : I) : T (Step I) := do
  T.tick 1
  if !ix.eq target (Node.size n) then do
    let r ← Tk.searchStep ix n hint target
    Tk.exclStep ix leaf n excluded target r
  else Tk.lastStep ix leaf n

/-- `stackKey`; src/tree/iter.rs:338-347 -/
def stackKey (ix : IdxOps I) {H h : Nat} (n : Tree I S (h + 1)) (ctx : Ctx I S H (h + 1)) (headPos : I) (k : Nat) (kpos : I) : T (IterStack I S H) := do
  let _ ← Node.handle n k
  let p ← T.op (ix.addR headPos kpos)
  let hd : Head I S H := ⟨h, n, ctx, k⟩
  let size ← headSize ix hd
  let stop ← T.op (ix.addR p size)
  pure ⟨hd, stop⟩

/-- The loop of `make_stack`, a step for each level; src/tree/iter.rs:274-373 -/
def stackLoop (ix : IdxOps I) (excluded : Bool) {H : Nat} : {h : Nat} → Tree I S (h + 1) → Ctx I S H (h + 1) → Option (List Nat) → I → I →
    T (IterStack I S H)
  | 0, n, ctx, hints, headPos, target => do
    T.tick 1
    match ← Tk.stackStep ix true n (headHint hints) excluded target with
    | .key k kpos => Tk.stackKey ix n ctx headPos k kpos
    | .child _ _ => T.error (.panic "internal error")
  | _ + 1, n, ctx, hints, headPos, target => do
    T.tick 1
    match ← Tk.stackStep ix false n (headHint hints) excluded target with
    | .key k kpos => Tk.stackKey ix n ctx headPos k kpos
    | .child c cpos => do
      let ch ← Node.child n c
      let target ← T.op (ix.subL target cpos)
      let headPos ← T.op (ix.addR headPos cpos)
      Tk.stackLoop ix excluded ch (ctx.enter n c) (hints.map List.tail) headPos target

/-- `make_stack`; src/tree/iter.rs:257-375 -/
def makeStack (ix : IdxOps I) {H : Nat} (root : Tree I S (H + 1)) (hints : Option (List Nat)) (target : IterBound I) : T (IterStack I S (H + 1)) :=
  match target with
  | .included i => Tk.stackLoop ix false root .top hints ix.zero i
  | .excluded i => Tk.stackLoop ix true root .top hints ix.zero i

/-- The way down in `fwd_step`, a step for each level; src/tree/iter.rs:389-418 -/
def firstBelow {H : Nat} : {h : Nat} → Tree I S (h + 1) → Ctx I S H (h + 1) → Nat → T (Head I S H)
  | 0, _, _, _ => T.error (.ub "into_child of a leaf")
  | 1, n, ctx, c => do
    T.tick 1
    let ch ← Node.child n c
    check (1 ≤ Node.len (C := Tree I S 0) ch) "assert: child.leaf().len() >= 1"
    pure ⟨0, ch, ctx.enter n c, 0⟩
  | _ + 2, n, ctx, c => do
    T.tick 1
    let ch ← Node.child n c
    Tk.firstBelow ch (ctx.enter n c) 0

/-- The way up in `fwd_step`, a step for each level; src/tree/iter.rs:428-465 -/
def nextAbove {H : Nat} : {h : Nat} → Tree I S h → Ctx I S H h → T (Head I S H)
  | _, _, .top => T.error (.panic "internal error")
  | _, n, .frame ptr size keys kl kr up => do
    T.tick 1
    let parent := plugNode ptr size keys kl n kr
    if kl.length < Node.len parent then pure ⟨_, parent, up, kl.length⟩
    else Tk.nextAbove (h := _ + 1) parent up

/-- The new head in `fwd_step`; src/tree/iter.rs:384-467 -/
def succ {H : Nat} (hd : Head I S H) : T (Head I S H) :=
  match hd with
  | ⟨_ + 1, n, ctx, k⟩ => Tk.firstBelow n ctx (k + 1)
  | ⟨0, n, ctx, k⟩ => if k + 1 < Node.len n then pure ⟨0, n, ctx, k + 1⟩ else Tk.nextAbove (h := 1) n ctx

/-- `fwd_step`; src/tree/iter.rs:384-467 -/
def fwdStep (ix : IdxOps I) {H : Nat} (s : IterStack I S H) : T (IterStack I S H) := do
  let hd ← Tk.succ s.head
  let size ← headSize ix hd
  let stop ← T.op (ix.addR s.endPos size)
  pure ⟨hd, stop⟩

/-- The way down in `bkwd_step`; src/tree/iter.rs:474-506 -/
def lastBelow {H : Nat} : {h : Nat} → Tree I S (h + 1) → Ctx I S H (h + 1) → Nat → T (Head I S H)
  | 0, _, _, _ => T.error (.ub "into_child of a leaf")
  | 1, n, ctx, c => do
    T.tick 1
    let ch ← Node.child n c
    check (Node.len (C := Tree I S 0) ch ≠ 0) "assert: child.leaf().len() != 0"
    let k ← usub (Node.len (C := Tree I S 0) ch) 1
    pure ⟨0, ch, ctx.enter n c, k⟩
  | h + 2, n, ctx, c => do
    T.tick 1
    let ch ← Node.child n c
    Tk.lastBelow ch (ctx.enter n c) (Node.len (C := Tree I S (h + 1)) ch)

/-- The way up in `bkwd_step`; src/tree/iter.rs:516-556 -/
def prevAbove {H : Nat} : {h : Nat} → Tree I S h → Ctx I S H h → T (Head I S H)
  | _, _, .top => T.error (.panic "internal error")
  | _, n, .frame ptr size keys kl kr up => do
    T.tick 1
    let parent := plugNode ptr size keys kl n kr
    if kl.length ≠ 0 then pure ⟨_, parent, up, kl.length - 1⟩
    else Tk.prevAbove (h := _ + 1) parent up

/-- The new head in `bkwd_step`; src/tree/iter.rs:469-558 -/
def pred {H : Nat} (hd : Head I S H) : T (Head I S H) :=
  match hd with
  | ⟨_ + 1, n, ctx, k⟩ => Tk.lastBelow n ctx k
  | ⟨0, n, ctx, k⟩ => if k ≠ 0 then pure ⟨0, n, ctx, k - 1⟩ else Tk.prevAbove (h := 1) n ctx

/-- `bkwd_step`; src/tree/iter.rs:469-558 -/
def bkwdStep (ix : IdxOps I) {H : Nat} (s : IterStack I S H) : T (IterStack I S H) := do
  let hd ← Tk.pred s.head
  let size ← headSize ix s.head
  let stop ← T.op (ix.subR s.endPos size)
  pure ⟨hd, stop⟩

/-- `Iter::new`, called by `iter` and `iter_with_cursor`: at most eight comparisons.  src/tree/iter.rs:192-255, src/tree/mod.rs:578-610 -/
def iter [LinearOrder I] (E : Env I S) (t : RleTree I S) (cursor : List Nat) (range : Range.Rng I) : T (Iter I S) := do
  T.tick 8
  t.iter E cursor range

/-- The end of `next`; src/tree/iter.rs:606-622 -/
def yieldFwd (it : Iter I S) (st : IterState I S) (fwd : IterStack I S (st.H + 1)) (nextStart : I) : T (Option (Entry I S) × Iter I S) :=
  if Iter.metBy st.bkwd fwd.head then
    pure (none, { it with state := none })
  else do
    let e ← fwd.head.entry nextStart fwd.endPos
    pure (some e, { it with state := some { st with fwd := some fwd } })

/-- `Iterator::next`; src/tree/iter.rs:570-624 -/
def next (ix : IdxOps I) (it : Iter I S) : T (Option (Entry I S) × Iter I S) :=
  match it.state with
  | none => pure (none, it)
  | some st =>
    match st.fwd with
    | some fwd => do
      let nextStart := fwd.endPos
      T.tick 1
      if Iter.pastEnd ix it.stop nextStart then pure (none, { it with state := none })
      else do
        let fwd ← Tk.fwdStep ix fwd
        Tk.yieldFwd it st fwd nextStart
    | none => do
      let s ← Tk.makeStack ix st.root st.cursor (.included it.start)
      let size ← headSize ix s.head
      let nextStart ← T.op (ix.subR s.endPos size)
      Tk.yieldFwd it { st with cursor := none } s nextStart

/-- The end of `next_back`; src/tree/iter.rs:661-675 -/
def yieldBkwd (ix : IdxOps I) (it : Iter I S) (st : IterState I S) (bkwd : IterStack I S (st.H + 1)) : T (Option (Entry I S) × Iter I S) :=
  if Iter.metBy st.fwd bkwd.head then
    pure (none, { it with state := none })
  else do
    let size ← headSize ix bkwd.head
    let start ← T.op (ix.subR bkwd.endPos size)
    let e ← bkwd.head.entry start bkwd.endPos
    pure (some e, { it with state := some { st with bkwd := some bkwd } })

/-- `DoubleEndedIterator::next_back`; src/tree/iter.rs:634-677 -/
def nextBack (ix : IdxOps I) (it : Iter I S) : T (Option (Entry I S) × Iter I S) :=
  match it.state with
  | none => pure (none, it)
  | some st =>
    match st.bkwd with
    | some bkwd => do
      let size ← headSize ix bkwd.head
      let nextEnd ← T.op (ix.subR bkwd.endPos size)
      T.tick 1
      if ix.le nextEnd it.start then pure (none, { it with state := none })
      else do
        let bkwd ← Tk.bkwdStep ix bkwd
        Tk.yieldBkwd ix it st bkwd
    | none => do
      let s ← Tk.makeStack ix st.root st.cursor it.stop
      Tk.yieldBkwd ix it { st with cursor := none } s

/-- Calls of `next` and `next_back` as told; src/tree/iter.rs:560-678 -/
def runIter (ix : IdxOps Nat) (it : Iter Nat S) : List Bool → T (List (Option (Entry Nat S)))
  | [] => pure []
  | false :: ops => do
    let (x, it) ← Tk.next ix it
    let xs ← Tk.runIter ix it ops
    pure (x :: xs)
  | true :: ops => do
    let (x, it) ← Tk.nextBack ix it
    let xs ← Tk.runIter ix it ops
    pure (x :: xs)

/-! ## How many steps -/

theorem headSize_sim (ix : IdxOps I) {H : Nat} (hd : Head I S H) : Takes (headSize ix hd) (hd.sliceSize ix) 2 := sliceSize_sim _ _ _ _

theorem exclStep_sim (ix : IdxOps I) (leaf : Bool) {h : Nat} (n : Tree I S (h + 1)) (ex : Bool) (t : I) (r : Step I) :
    Takes (Tk.exclStep ix leaf n ex t r) (Sherman.exclStep ix leaf n ex t r) 2 := by
  cases r with
  | key k p =>
    simp only [Tk.exclStep, Sherman.exclStep]
    steps
  | child c p =>
    simp only [Tk.exclStep, Sherman.exclStep]
    steps

theorem lastStep_sim (ix : IdxOps I) (leaf : Bool) {h : Nat} (n : Tree I S (h + 1)) : Takes (Tk.lastStep ix leaf n) (Sherman.lastStep ix leaf n) 1 := by
  simp only [Tk.lastStep, Sherman.lastStep]
  steps

theorem stackStep_sim (ix : IdxOps I) (leaf : Bool) {h : Nat} (n : Tree I S (h + 1)) (hint : Option Nat) (ex : Bool) (t : I) :
    Takes (Tk.stackStep ix leaf n hint ex t) (Sherman.stackStep ix leaf n hint ex t) ((Node.keys n).length + 10) := by
  simp only [Tk.stackStep, Sherman.stackStep]
  refine .tick (by omega) (.ite (fun _ => ?_) (fun _ => (lastStep_sim _ _ _).mono (by omega)))
  exact .bind (searchStep_sim _ _ _ _) (by omega) (fun _ _ => (exclStep_sim _ _ _ _ _ _).mono (by omega))

theorem stackKey_sim (ix : IdxOps I) {H h : Nat} (n : Tree I S (h + 1)) (ctx : Ctx I S H (h + 1)) (p : I) (k : Nat) (kp : I) :
    Takes (Tk.stackKey ix n ctx p k kp) (Sherman.stackKey ix n ctx p k kp) 4 := by
  simp only [Tk.stackKey, Sherman.stackKey]
  refine .bindLift (fun _ _ => .bindOp (by omega) (fun _ _ => .bind (headSize_sim _ _) (by omega) (fun _ _ => ?_)))
  steps

theorem stackLoop_sim (ix : IdxOps I) {M : Nat} (ex : Bool) {H : Nat} : ∀ {h : Nat} {lo : Nat} (n : Tree I S (h + 1)) (ctx : Ctx I S H (h + 1))
    (hints : Option (List Nat)) (p t : I), FillT M M lo n →
    Takes (Tk.stackLoop ix ex n ctx hints p t) (Sherman.stackLoop ix ex n ctx hints p t) ((2 * M + 15) * (h + 1)) := by
  intro h
  induction h with
  | zero =>
    intro lo n ctx hints p t hn
    have hl := (fillT_succ.1 hn).2.1
    simp only [Tk.stackLoop, Sherman.stackLoop]
    refine .tick (by omega) (.bind (stackStep_sim _ _ _ _ _ _) (by omega) (fun s _ => ?_))
    cases s with
    | key k kp => exact (stackKey_sim _ _ _ _ _ _).mono (by omega)
    | child c cp => exact .error
  | succ h ih =>
    intro lo n ctx hints p t hn
    have hl := (fillT_succ.1 hn).2.1
    rw [Nat.mul_add _ (h + 1), Nat.mul_one]
    simp only [Tk.stackLoop, Sherman.stackLoop]
    refine .tick (by omega) (.bind (stackStep_sim _ _ _ _ _ _) (by omega) (fun s _ => ?_))
    cases s with
    | key k kp => exact (stackKey_sim _ _ _ _ _ _).mono (by omega)
    | child c cp =>
      refine .bindLift (fun ch hch => .bindOp (by omega) (fun _ _ => .bindOp (by omega) (fun _ _ => (ih (lo := M) ch _ _ _ _ ?_).mono (by omega))))
      exact (fillT_succ.1 hn).2.2.2 ch (List.mem_of_getElem? (child_mem hch))

theorem makeStack_sim (ix : IdxOps I) {M lo H : Nat} {root : Tree I S (H + 1)} (hints : Option (List Nat)) (b : IterBound I) (hr : FillT M M lo root) :
    Takes (Tk.makeStack ix root hints b) (Sherman.makeStack ix root hints b) ((2 * M + 15) * (H + 1)) := by
  cases b <;> exact stackLoop_sim ix _ root _ _ _ _ hr

/-! ## Steps up and down

A node in which the iterator has come to the last child will be left upwards; the steps up, and those down again on the other side, are paid for when
the last child is entered. -/

end Tk

/-- The number of nodes above that have been entered at their last child: those that the loop over parents of `fwd_step` will leave.  src/tree/iter.rs:428-465 -/
def Ctx.lasts {I S : Type} {H : Nat} : {h : Nat} → Ctx I S H h → Nat
  | _, .top => 0
  | _, .frame _ _ keys kl _ up => (if kl.length < keys.length then 0 else 1) + up.lasts

/-- The number of nodes above that have been entered at their first child: those that the loop over parents of `bkwd_step` will leave.  src/tree/iter.rs:516-556 -/
def Ctx.firsts {I S : Type} {H : Nat} : {h : Nat} → Ctx I S H h → Nat
  | _, .top => 0
  | _, .frame _ _ _ kl _ up => (if kl.length ≠ 0 then 0 else 1) + up.firsts

/-- What forward iteration has saved up.  src/tree/iter.rs:384-467 -/
def Head.savedF {I S : Type} {H : Nat} (hd : Head I S H) : Nat := 2 * hd.ctx.lasts + hd.h

/-- What backward iteration has saved up.  src/tree/iter.rs:469-558 -/
def Head.savedB {I S : Type} {H : Nat} (hd : Head I S H) : Nat := 2 * hd.ctx.firsts + hd.h

namespace Tk
variable {I S : Type}

theorem lasts_le {H : Nat} : ∀ {h : Nat} (ctx : Ctx I S H h), ctx.lasts + h ≤ H := by
  intro h ctx
  induction ctx with
  | top => simp [Ctx.lasts]
  | frame p z keys kl kr up ih =>
    simp only [Ctx.lasts]
    split <;> omega

theorem firsts_le {H : Nat} : ∀ {h : Nat} (ctx : Ctx I S H h), ctx.firsts + h ≤ H := by
  intro h ctx
  induction ctx with
  | top => simp [Ctx.firsts]
  | frame p z keys kl kr up ih =>
    simp only [Ctx.firsts]
    split <;> omega

theorem savedF_le {H : Nat} (hd : Head I S H) : hd.savedF + 2 ≤ 2 * H := by
  have := lasts_le hd.ctx
  simp only [Head.savedF]
  omega

theorem savedB_le {H : Nat} (hd : Head I S H) : hd.savedB + 2 ≤ 2 * H := by
  have := firsts_le hd.ctx
  simp only [Head.savedB]
  omega

theorem nextAbove_pays {H : Nat} : ∀ {h : Nat} (ctx : Ctx I S H h) (n : Tree I S h),
    Pays (Tk.nextAbove n ctx) (Sherman.nextAbove n ctx) Head.savedF (2 * ctx.lasts + h + 1) := by
  intro h ctx
  induction ctx with
  | top => intro n; exact .error
  | frame p z keys kl kr up ih =>
    intro n
    unfold Tk.nextAbove Sherman.nextAbove
    refine .tick (by omega) ?_
    dsimp only
    simp only [Ctx.lasts]
    have hlen : Node.len (plugNode p z keys kl n kr) = keys.length := rfl
    rw [hlen]
    split
    · refine .ok ?_
      simp only [Head.savedF]
      omega
    · exact (ih _).mono (by omega)

theorem prevAbove_pays {H : Nat} : ∀ {h : Nat} (ctx : Ctx I S H h) (n : Tree I S h),
    Pays (Tk.prevAbove n ctx) (Sherman.prevAbove n ctx) Head.savedB (2 * ctx.firsts + h + 1) := by
  intro h ctx
  induction ctx with
  | top => intro n; exact .error
  | frame p z keys kl kr up ih =>
    intro n
    unfold Tk.prevAbove Sherman.prevAbove
    refine .tick (by omega) ?_
    dsimp only
    simp only [Ctx.firsts]
    split
    · refine .ok ?_
      simp only [Head.savedB]
      omega
    · exact (ih _).mono (by omega)

theorem firstBelow_pays {M : Nat} (hM : 1 ≤ M) {H : Nat} : ∀ {h lo : Nat} (n : Tree I S (h + 2)) (ctx : Ctx I S H (h + 2)) (c : Nat), FillT M M lo n →
    c ≤ (Node.keys n).length →
    Pays (Tk.firstBelow n ctx c) (Sherman.firstBelow n ctx c) Head.savedF (2 * ctx.lasts + (if c < (Node.keys n).length then 0 else 2) + h + 1) := by
  have hent : ∀ {h : Nat} (n : Tree I S (h + 2)) (ctx : Ctx I S H (h + 2)) (c : Nat), (Node.kids n).length = (Node.keys n).length + 1 →
      c ≤ (Node.keys n).length → (ctx.enter n c).lasts = (if c < (Node.keys n).length then 0 else 1) + ctx.lasts := by
    intro h n ctx c ha hc
    simp only [Ctx.enter, Ctx.lasts, List.length_take]
    rw [Nat.min_eq_left (by omega)]
  intro h
  induction h with
  | zero =>
    intro lo n ctx c hn hc
    simp only [Tk.firstBelow, Sherman.firstBelow]
    refine .tick (by omega) (.bindLift (fun ch hch => .bindLift (fun _ _ => .ok ?_)))
    simp only [Head.savedF]
    rw [hent n ctx c hn.arity hc]
    split <;> omega
  | succ h ih =>
    intro lo n ctx c hn hc
    simp only [Tk.firstBelow, Sherman.firstBelow]
    refine .tick (by omega) (.bindLift (fun ch hch => ?_))
    have hs := (fillT_succ.1 hn).2.2.2 ch (List.mem_of_getElem? (child_mem hch))
    have hl : 1 ≤ (Node.keys ch).length := hM.trans (fillT_succ.1 hs).1
    have := ih ch (ctx.enter n c) 0 hs (Nat.zero_le _)
    rw [hent n ctx c hn.arity hc, if_pos (show 0 < (Node.keys ch).length from hl)] at this
    refine this.mono ?_
    split <;> omega

theorem lastBelow_pays {M : Nat} (hM : 1 ≤ M) {H : Nat} : ∀ {h lo : Nat} (n : Tree I S (h + 2)) (ctx : Ctx I S H (h + 2)) (c : Nat), FillT M M lo n →
    c ≤ (Node.keys n).length →
    Pays (Tk.lastBelow n ctx c) (Sherman.lastBelow n ctx c) Head.savedB (2 * ctx.firsts + (if c ≠ 0 then 0 else 2) + h + 1) := by
  have hent : ∀ {h : Nat} (n : Tree I S (h + 2)) (ctx : Ctx I S H (h + 2)) (c : Nat), (Node.kids n).length = (Node.keys n).length + 1 →
      c ≤ (Node.keys n).length → (ctx.enter n c).firsts = (if c ≠ 0 then 0 else 1) + ctx.firsts := by
    intro h n ctx c ha hc
    simp only [Ctx.enter, Ctx.firsts, List.length_take]
    rw [Nat.min_eq_left (by omega)]
  intro h
  induction h with
  | zero =>
    intro lo n ctx c hn hc
    simp only [Tk.lastBelow, Sherman.lastBelow]
    refine .tick (by omega) (.bindLift (fun ch hch => .bindLift (fun _ _ => .bindLift (fun _ _ => .ok ?_))))
    simp only [Head.savedB]
    rw [hent n ctx c hn.arity hc]
    split <;> omega
  | succ h ih =>
    intro lo n ctx c hn hc
    simp only [Tk.lastBelow, Sherman.lastBelow]
    refine .tick (by omega) (.bindLift (fun ch hch => ?_))
    have hs := (fillT_succ.1 hn).2.2.2 ch (List.mem_of_getElem? (child_mem hch))
    have hl : 1 ≤ (Node.keys ch).length := hM.trans (fillT_succ.1 hs).1
    have := ih ch (ctx.enter n c) (Node.keys ch).length hs (Nat.le_refl _)
    rw [hent n ctx c hn.arity hc, if_pos (show (Node.keys ch).length ≠ 0 by omega)] at this
    refine this.mono ?_
    split <;> omega

theorem succ_pays {M : Nat} (hM : 1 ≤ M) {H : Nat} {root : Tree I S H} {hd : Head I S H} (h : hd.Ok M M root) :
    Pays (Tk.succ hd) hd.succ Head.savedF (hd.savedF + 2) := by
  obtain ⟨g, n, ctx, k⟩ := hd
  obtain ⟨-, hn, hk, -⟩ := h
  dsimp only at hn hk
  cases g with
  | zero =>
    unfold Tk.succ Head.succ
    dsimp only
    split
    · refine .ok ?_
      simp only [Head.savedF]
      omega
    · refine (nextAbove_pays ctx n).mono ?_
      simp only [Head.savedF]
      omega
  | succ g =>
    refine (firstBelow_pays hM n ctx (k + 1) hn hk).mono ?_
    simp only [Head.savedF]
    split <;> omega

theorem pred_pays {M : Nat} (hM : 1 ≤ M) {H : Nat} {root : Tree I S H} {hd : Head I S H} (h : hd.Ok M M root) :
    Pays (Tk.pred hd) hd.pred Head.savedB (hd.savedB + 2) := by
  obtain ⟨g, n, ctx, k⟩ := hd
  obtain ⟨-, hn, hk, -⟩ := h
  dsimp only at hn hk
  cases g with
  | zero =>
    unfold Tk.pred Head.pred
    dsimp only
    split
    · refine .ok ?_
      simp only [Head.savedB]
      omega
    · refine (prevAbove_pays ctx n).mono ?_
      simp only [Head.savedB]
      omega
  | succ g =>
    refine (lastBelow_pays hM n ctx k hn (by omega)).mono ?_
    simp only [Head.savedB]
    split <;> omega

end Tk
end Sherman
