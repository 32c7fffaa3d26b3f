import Verif.IndexHom
import Verif.Iter
/-!
# Iteration looks at indices only through the `Index` operations and the order
-/
namespace Sherman
variable {I J S : Type} {H : Nat} {B : Fault → Prop} {f : I → J} {E : Env I S} {F : Env J S}

def IterBound.mi (f : I → J) : IterBound I → IterBound J
  | .included i => .included (f i)
  | .excluded i => .excluded (f i)

def Head.mi (f : I → J) (hd : Head I S H) : Head J S H := ⟨hd.h, miT f hd.node, hd.ctx.mi f, hd.idx⟩

def IterStack.mi (f : I → J) (s : IterStack I S H) : IterStack J S H := ⟨s.head.mi f, f s.endPos⟩

def IterState.mi (f : I → J) (s : IterState I S) : IterState J S :=
  ⟨s.H, miT f s.root, s.cursor, s.fwd.map (IterStack.mi f), s.bkwd.map (IterStack.mi f)⟩

def Iter.mi (f : I → J) (it : Iter I S) : Iter J S := ⟨f it.start, it.stop.mi f, it.state.map (IterState.mi f)⟩

def Range.StartBound.mi (f : I → J) : Range.StartBound I → Range.StartBound J
  | .included i => .included (f i)
  | .unbounded => .unbounded

def Range.EndBound.mi (f : I → J) : Range.EndBound I → Range.EndBound J
  | .included i => .included (f i)
  | .excluded i => .excluded (f i)
  | .unbounded => .unbounded

def Range.Rng.mi (f : I → J) (r : Range.Rng I) : Range.Rng J := ⟨r.start.mi f, r.stop.mi f⟩

theorem Head.mi_sliceSize (hh : IHom B f E F) (hd : Head I S H) : ISim B (hd.sliceSize E.ix) ((hd.mi f).sliceSize F.ix) f :=
  Node.mi_sliceSize (g := miT f) hh (miT_size hh) hd.node hd.idx

theorem Head.mi_same (a b : Head I S H) : (a.mi f).same (b.mi f) = a.same b := rfl

theorem mi_enter {h : Nat} (n : Tree I S (h + 1)) (c : Nat) (ctx : Ctx I S H (h + 1)) :
    (ctx.mi f).enter (miT f n) c = (ctx.enter n c).mi f := by
  simp only [Ctx.enter, Ctx.mi, List.map_take, List.map_drop]
  rfl

theorem mi_childPos (hh : IHom B f E F) {h : Nat} (n : Tree I S (h + 1)) (i : Nat) :
    ISim B (Node.childPos E.ix (szT E.ix) n i) (Node.childPos F.ix (szT F.ix) (miT f n) i) f := by
  have e1 : Node.len (miT f n) = Node.len n := Node.mi_len (f := f) (g := miT f) n
  have e3 : Node.nextPos (miT f n) i = f (Node.nextPos n i) := Node.mi_nextPos (f := f) (g := miT f) n i
  unfold Node.childPos
  rw [e1, e3]
  exact ISim.same fun _ => ISim.bind (Node.mi_childSize (f := f) (g := miT f) (miT_size hh) n i) fun _ => hh.subR _ _

theorem mi_exclStep (hh : IHom B f E F) (leaf : Bool) {h : Nat} (n : Tree I S (h + 1)) (ex : Bool) (t : I) (r : Step I) :
    ISim B (exclStep E.ix leaf n ex t r) (exclStep F.ix leaf (miT f n) ex (f t) (r.mi f)) (Step.mi f) := by
  cases r with
  | key k p =>
    simp only [exclStep, Step.mi, hh.eq]
    refine ISim.ite (fun _ => ISim.ite (fun _ => ISim.ite (fun _ => ISim.err) fun _ => ?_) fun _ => ?_) fun _ => ISim.ok rfl
    · exact ISim.bind (Node.mi_keyPos (f := f) (g := miT f) n _) fun _ => ISim.ok rfl
    · exact ISim.bind (Node.mi_childSize (f := f) (g := miT f) (miT_size hh) n k) fun _ => ISim.bind (hh.subR _ _) fun _ => ISim.ok rfl
  | child c p =>
    simp only [exclStep, Step.mi, hh.eq]
    refine ISim.ite (fun _ => ISim.ite (fun _ => ISim.err) fun _ => ?_) fun _ => ISim.ok rfl
    exact ISim.bind (Node.mi_keyPos (f := f) (g := miT f) n _) fun _ => ISim.ok rfl

theorem mi_lastStep (hh : IHom B f E F) (leaf : Bool) {h : Nat} (n : Tree I S (h + 1)) :
    ISim B (lastStep E.ix leaf n) (lastStep F.ix leaf (miT f n)) (Step.mi f) := by
  have e1 : Node.len (miT f n) = Node.len n := Node.mi_len (f := f) (g := miT f) n
  unfold lastStep
  rw [e1]
  refine ISim.ite (fun _ => ISim.same fun _ => ?_) fun _ => ?_
  · exact ISim.bind (Node.mi_keyPos (f := f) (g := miT f) n _) fun _ => ISim.ok rfl
  · exact ISim.bind (mi_childPos hh n _) fun _ => ISim.ok rfl

theorem mi_stackStep (hh : IHom B f E F) (leaf : Bool) {h : Nat} (n : Tree I S (h + 1)) (hint : Option Nat) (ex : Bool) (t : I) :
    ISim B (stackStep E.ix leaf n hint ex t) (stackStep F.ix leaf (miT f n) hint ex (f t)) (Step.mi f) := by
  have e1 : Node.size (miT f n) = f (Node.size n) := rfl
  unfold stackStep
  rw [e1, hh.eq]
  exact ISim.ite (fun _ => ISim.bind (mi_searchStep hh n hint t) fun r => mi_exclStep hh leaf n ex t r) fun _ => mi_lastStep hh leaf n

theorem mi_stackKey (hh : IHom B f E F) {h : Nat} (n : Tree I S (h + 1)) (ctx : Ctx I S H (h + 1)) (p : I) (k : Nat) (kp : I) :
    ISim B (stackKey E.ix n ctx p k kp) (stackKey F.ix (miT f n) (ctx.mi f) (f p) k (f kp)) (IterStack.mi f) := by
  unfold stackKey
  refine ISim.bind (Node.mi_handle (f := f) (g := miT f) n k) fun _ => ISim.bind (hh.addR _ _) fun _ => ?_
  exact ISim.bind (Head.mi_sliceSize hh ⟨h, n, ctx, k⟩) fun _ => ISim.bind (hh.addR _ _) fun _ => ISim.ok rfl

theorem mi_stackLoop (hh : IHom B f E F) (ex : Bool) {h : Nat} (n : Tree I S (h + 1)) (ctx : Ctx I S H (h + 1))
    (hints : Option (List Nat)) (p t : I) :
    ISim B (stackLoop E.ix ex n ctx hints p t) (stackLoop F.ix ex (miT f n) (ctx.mi f) hints (f p) (f t)) (IterStack.mi f) := by
  induction h generalizing hints p t with
  | zero =>
    simp only [stackLoop]
    refine ISim.bind (mi_stackStep hh true n _ ex t) fun st => ?_
    cases st with
    | key k kp => exact mi_stackKey hh n ctx p k kp
    | child c cp => exact ISim.err
  | succ h ih =>
    simp only [stackLoop]
    refine ISim.bind (mi_stackStep hh false n _ ex t) fun st => ?_
    cases st with
    | key k kp => exact mi_stackKey hh n ctx p k kp
    | child c cp =>
      simp only [Step.mi]
      refine ISim.bind (Node.mi_child (f := f) (g := miT f (h := h + 1)) n c) fun ch => ISim.bind (hh.subL _ _) fun _ =>
        ISim.bind (hh.addR _ _) fun _ => ?_
      rw [mi_enter]
      exact ih ch _ _ _ _

theorem mi_makeStack (hh : IHom B f E F) (root : Tree I S (H + 1)) (hints : Option (List Nat)) (t : IterBound I) :
    ISim B (makeStack E.ix root hints t) (makeStack F.ix (miT f root) hints (t.mi f)) (IterStack.mi f) := by
  cases t with
  | included i =>
    simp only [makeStack, IterBound.mi, hh.zero]
    exact mi_stackLoop hh false root .top hints _ i
  | excluded i =>
    simp only [makeStack, IterBound.mi, hh.zero]
    exact mi_stackLoop hh true root .top hints _ i

theorem mi_firstBelow {h : Nat} (n : Tree I S (h + 1)) (ctx : Ctx I S H (h + 1)) (c : Nat) :
    ISim B (firstBelow n ctx c) (firstBelow (miT f n) (ctx.mi f) c) (Head.mi f) := by
  induction h generalizing c with
  | zero => exact ISim.err
  | succ h ih =>
    cases h with
    | zero =>
      simp only [firstBelow]
      refine ISim.bind (Node.mi_child (f := f) (g := miT f (h := 1)) n c) fun ch => ?_
      have e1 : Node.len (C := Tree J S 0) (miT f (h := 1) ch) = Node.len (C := Tree I S 0) ch := Node.mi_len (f := f) (g := miT f (h := 0)) ch
      rw [e1, mi_enter]
      exact ISim.same fun _ => ISim.ok rfl
    | succ h =>
      simp only [firstBelow]
      refine ISim.bind (Node.mi_child (f := f) (g := miT f (h := h + 2)) n c) fun ch => ?_
      rw [mi_enter]
      exact ih ch _ 0

theorem mi_nextAbove {h : Nat} (ctx : Ctx I S H h) (n : Tree I S h) :
    ISim B (nextAbove n ctx) (nextAbove (miT f n) (ctx.mi f)) (Head.mi f) := by
  induction ctx with
  | top => exact ISim.err
  | frame p z ks kl kr up ih =>
    simp only [Ctx.mi, nextAbove]
    rw [mi_plugNode, Node.mi_len, List.length_map]
    refine ISim.ite (fun _ => ISim.ok rfl) fun _ => ?_
    exact ih (plugNode p z ks kl n kr)

theorem Head.mi_succ (hd : Head I S H) : ISim B hd.succ (hd.mi f).succ (Head.mi f) := by
  obtain ⟨h, n, ctx, k⟩ := hd
  cases h with
  | zero =>
    have e1 : Node.len (miT f n) = Node.len n := Node.mi_len (f := f) (g := miT f) n
    simp only [Head.mi, Head.succ]
    rw [e1]
    exact ISim.ite (fun _ => ISim.ok rfl) fun _ => mi_nextAbove ctx n
  | succ h => exact mi_firstBelow n ctx (k + 1)

theorem mi_fwdStep (hh : IHom B f E F) (s : IterStack I S H) :
    ISim B (s.fwdStep E.ix) ((s.mi f).fwdStep F.ix) (IterStack.mi f) :=
  ISim.bind (Head.mi_succ s.head) fun hd => ISim.bind (Head.mi_sliceSize hh hd) fun _ => ISim.bind (hh.addR _ _) fun _ => ISim.ok rfl

theorem mi_lastBelow {h : Nat} (n : Tree I S (h + 1)) (ctx : Ctx I S H (h + 1)) (c : Nat) :
    ISim B (lastBelow n ctx c) (lastBelow (miT f n) (ctx.mi f) c) (Head.mi f) := by
  induction h generalizing c with
  | zero => exact ISim.err
  | succ h ih =>
    cases h with
    | zero =>
      simp only [lastBelow]
      refine ISim.bind (Node.mi_child (f := f) (g := miT f (h := 1)) n c) fun ch => ?_
      have e1 : Node.len (C := Tree J S 0) (miT f (h := 1) ch) = Node.len (C := Tree I S 0) ch := Node.mi_len (f := f) (g := miT f (h := 0)) ch
      rw [e1, mi_enter]
      exact ISim.same fun _ => ISim.same fun _ => ISim.ok rfl
    | succ h =>
      simp only [lastBelow]
      refine ISim.bind (Node.mi_child (f := f) (g := miT f (h := h + 2)) n c) fun ch => ?_
      have e1 : Node.len (C := Tree J S (h + 1)) (miT f (h := h + 2) ch) = Node.len (C := Tree I S (h + 1)) ch :=
        Node.mi_len (f := f) (g := miT f (h := h + 1)) ch
      rw [mi_enter, e1]
      exact ih ch _ _

theorem mi_prevAbove {h : Nat} (ctx : Ctx I S H h) (n : Tree I S h) :
    ISim B (prevAbove n ctx) (prevAbove (miT f n) (ctx.mi f)) (Head.mi f) := by
  induction ctx with
  | top => exact ISim.err
  | frame p z ks kl kr up ih =>
    simp only [Ctx.mi, prevAbove]
    rw [mi_plugNode, List.length_map]
    refine ISim.ite (fun _ => ISim.ok rfl) fun _ => ?_
    exact ih (plugNode p z ks kl n kr)

theorem Head.mi_pred (hd : Head I S H) : ISim B hd.pred (hd.mi f).pred (Head.mi f) := by
  obtain ⟨h, n, ctx, k⟩ := hd
  cases h with
  | zero => exact ISim.ite (fun _ => ISim.ok rfl) fun _ => mi_prevAbove ctx n
  | succ h => exact mi_lastBelow n ctx k

theorem mi_bkwdStep (hh : IHom B f E F) (s : IterStack I S H) :
    ISim B (s.bkwdStep E.ix) ((s.mi f).bkwdStep F.ix) (IterStack.mi f) :=
  ISim.bind (Head.mi_pred s.head) fun hd => ISim.bind (Head.mi_sliceSize hh s.head) fun _ => ISim.bind (hh.subR _ _) fun _ => ISim.ok rfl

theorem Head.mi_entry (hd : Head I S H) (a b : I) : ISim B (hd.entry a b) ((hd.mi f).entry (f a) (f b)) (Entry.mi f) :=
  ISim.bind (Node.mi_handle (f := f) (g := miT f) hd.node hd.idx) fun _ => ISim.ok rfl

theorem mi_pastEnd (hh : IHom B f E F) (s : IterBound I) (p : I) : Iter.pastEnd F.ix (s.mi f) (f p) = Iter.pastEnd E.ix s p := by
  cases s <;> simp only [Iter.pastEnd, IterBound.mi, hh.lt, hh.le]

theorem mi_metBy (s : Option (IterStack I S H)) (hd : Head I S H) : Iter.metBy (s.map (IterStack.mi f)) (hd.mi f) = Iter.metBy s hd := by
  cases s <;> rfl

/-- Apply a map of indices to what a step of an iterator returns. -/
def stepMi (f : I → J) (x : Option (Entry I S) × Iter I S) : Option (Entry J S) × Iter J S := (x.1.map (Entry.mi f), x.2.mi f)

theorem mi_yieldFwd (it : Iter I S) (st : IterState I S) (fwd : IterStack I S (st.H + 1)) (p : I) :
    ISim B (Iter.yieldFwd it st fwd p) (Iter.yieldFwd (it.mi f) (st.mi f) (fwd.mi f) (f p)) (stepMi f) := by
  have e := mi_metBy (f := f) st.bkwd fwd.head
  unfold Iter.yieldFwd
  change ISim B _ (if Iter.metBy (st.bkwd.map (IterStack.mi f)) (fwd.head.mi f) = true then _ else _) _
  rw [e]
  exact ISim.ite (fun _ => ISim.ok rfl) fun _ => ISim.bind (Head.mi_entry fwd.head p fwd.endPos) fun _ => ISim.ok rfl

theorem Iter.mi_next (hh : IHom B f E F) (it : Iter I S) : ISim B (it.next E.ix) ((it.mi f).next F.ix) (stepMi f) := by
  obtain ⟨start, stop, state⟩ := it
  cases state with
  | none => exact ISim.ok rfl
  | some st =>
    obtain ⟨Hh, root, cursor, fwd, bkwd⟩ := st
    cases fwd with
    | none =>
      refine ISim.bind (mi_makeStack hh root cursor (.included start)) fun s => ISim.bind (Head.mi_sliceSize hh s.head) fun _ =>
        ISim.bind (hh.subR _ _) fun p => ?_
      exact mi_yieldFwd ⟨start, stop, some ⟨Hh, root, cursor, none, bkwd⟩⟩ ⟨Hh, root, none, none, bkwd⟩ s p
    | some fwd =>
      have e := mi_pastEnd hh stop fwd.endPos
      change ISim B (if Iter.pastEnd E.ix stop fwd.endPos = true then _ else _)
        (if Iter.pastEnd F.ix (stop.mi f) (f fwd.endPos) = true then _ else _) _
      rw [e]
      refine ISim.ite (fun _ => ISim.ok rfl) fun _ => ISim.bind (mi_fwdStep hh fwd) fun s => ?_
      exact mi_yieldFwd ⟨start, stop, some ⟨Hh, root, cursor, some fwd, bkwd⟩⟩ ⟨Hh, root, cursor, some fwd, bkwd⟩ s fwd.endPos

theorem mi_yieldBkwd (hh : IHom B f E F) (it : Iter I S) (st : IterState I S) (bk : IterStack I S (st.H + 1)) :
    ISim B (Iter.yieldBkwd E.ix it st bk) (Iter.yieldBkwd F.ix (it.mi f) (st.mi f) (bk.mi f)) (stepMi f) := by
  have e := mi_metBy (f := f) st.fwd bk.head
  unfold Iter.yieldBkwd
  change ISim B _ (if Iter.metBy (st.fwd.map (IterStack.mi f)) (bk.head.mi f) = true then _ else _) _
  rw [e]
  exact ISim.ite (fun _ => ISim.ok rfl) fun _ => ISim.bind (Head.mi_sliceSize hh bk.head) fun _ => ISim.bind (hh.subR _ _) fun p =>
    ISim.bind (Head.mi_entry bk.head p bk.endPos) fun _ => ISim.ok rfl

theorem Iter.mi_nextBack (hh : IHom B f E F) (it : Iter I S) : ISim B (it.nextBack E.ix) ((it.mi f).nextBack F.ix) (stepMi f) := by
  obtain ⟨start, stop, state⟩ := it
  cases state with
  | none => exact ISim.ok rfl
  | some st =>
    obtain ⟨Hh, root, cursor, fwd, bkwd⟩ := st
    cases bkwd with
    | none =>
      refine ISim.bind (mi_makeStack hh root cursor stop) fun s => ?_
      exact mi_yieldBkwd hh ⟨start, stop, some ⟨Hh, root, cursor, fwd, none⟩⟩ ⟨Hh, root, none, fwd, none⟩ s
    | some bk =>
      refine ISim.bind (Head.mi_sliceSize hh bk.head) fun _ => ISim.bind (hh.subR _ _) fun p => ?_
      have e := hh.le p start
      change ISim B _ (if F.ix.le (f p) (f start) = true then _ else _) _
      rw [e]
      refine ISim.ite (fun _ => ISim.ok rfl) fun _ => ISim.bind (mi_bkwdStep hh bk) fun s => ?_
      exact mi_yieldBkwd hh ⟨start, stop, some ⟨Hh, root, cursor, fwd, some bk⟩⟩ ⟨Hh, root, cursor, fwd, some bk⟩ s

/-- Making an iterator commutes with a strictly increasing map that commutes with the operations on indices. -/
theorem RleTree.mi_iter [LinearOrder I] [LinearOrder J] (hh : IHom B f E F) (hf : ∀ a b, f a ≤ f b ↔ a ≤ b) (t : RleTree I S)
    (cursor : List Nat) (r : Range.Rng I) : ISim B (t.iter E cursor r) ((t.mi f).iter F cursor (r.mi f)) (Iter.mi f) := by
  have hlt : ∀ a b, f a < f b ↔ a < b := fun a b => by rw [← not_le, ← not_le, hf]
  unfold RleTree.iter
  rw [mi_treeSize hh]
  obtain ⟨rs, re⟩ := r
  generalize t.size E = sz
  obtain ⟨root⟩ := t
  cases rs <;> cases re <;>
    simp only [Iter.new, Range.Rng.mi, Range.StartBound.mi, Range.EndBound.mi, Range.startsAfterEnd, Range.isEmptyNaive,
      Range.overlapsNaive, Range.startPastEnd, Range.endBeforeStart, Range.ofRangeFrom, ge_iff_le, gt_iff_lt, hf, hlt, hh.zero, hh.lt] <;>
    refine ISim.same fun _ => ISim.same fun _ => ISim.same fun _ => ISim.ok ?_ <;>
    simp only [Iter.mi, IterBound.mi, RleTree.mi] <;> split <;> simp [IterState.mi, Function.comp_def]

/-- `next` and `next_back` as told. -/
def gRunIter (ix : IdxOps I) (it : Iter I S) : List Bool → R (List (Option (Entry I S)))
  | [] => pure []
  | false :: ops => do
    let (x, it) ← it.next ix
    let xs ← gRunIter ix it ops
    pure (x :: xs)
  | true :: ops => do
    let (x, it) ← it.nextBack ix
    let xs ← gRunIter ix it ops
    pure (x :: xs)

theorem mi_gRunIter (hh : IHom B f E F) (it : Iter I S) (ops : List Bool) :
    ISim B (gRunIter E.ix it ops) (gRunIter F.ix (it.mi f) ops) (List.map (Option.map (Entry.mi f))) := by
  induction ops generalizing it with
  | nil => exact ISim.ok rfl
  | cons b ops ih =>
    cases b with
    | false => exact ISim.bind (Iter.mi_next hh it) fun x => ISim.bind (ih x.2) fun _ => ISim.ok rfl
    | true => exact ISim.bind (Iter.mi_nextBack hh it) fun x => ISim.bind (ih x.2) fun _ => ISim.ok rfl

end Sherman
