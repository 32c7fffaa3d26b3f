import Verif.CowIter
import Verif.CowLinkStep
/-!
# Iteration on memory does what iteration on the tree does

If memory holds a tree, and no first or last child in it stores a link that names, with its index, a node above its parent, then the stack makes
up for all links that are wrong.
-/
namespace Sherman.Cow
variable {I S : Type}

/-- Memory holds the tree, all its children have links, and a link of a first or last child does not name, with that child's index, one of the nodes above
the child's parent.  `A` are the addresses of the nodes above. -/
def Fit (H : Heap I S) (L : LinkMap) : {h : Nat} → List Nat → Tree I S h → Prop
  | 0, _, _ => True
  | h + 1, A, n => readT H (h + 1) (Node.ptr n) = .ok n ∧ (∃ nd, H.mem (Node.ptr n) = some nd ∧ nd.height = h) ∧
      (∀ i k c, (Node.kids n)[i]? = some k → ptrT k = some c → ∃ l, L c = some l ∧ ((i = 0 ∨ i = (Node.keys n).length) → ∀ a ∈ A, l ≠ (a, i))) ∧
      ∀ k ∈ Node.kids n, Fit H L (h := h) (Node.ptr n :: A) k

/-- The addresses of the nodes above a place, nearest first. -/
def above {Ht : Nat} : {h : Nat} → Ctx I S Ht h → List Nat
  | _, .top => []
  | _, .frame ptr _ _ _ _ up => ptr :: above up

/-- The tree around a subtree. -/
def fill {Ht : Nat} : {h : Nat} → Ctx I S Ht h → Tree I S h → Tree I S Ht
  | _, .top, n => n
  | h, .frame ptr size keys kl kr up, n => fill up (h := h + 1) (plugNode ptr size keys kl n kr)

theorem Fit.down {H : Heap I S} {L : LinkMap} {Ht h : Nat} {ctx : Ctx I S Ht h} {n : Tree I S h} (hf : Fit H L [] (fill ctx n)) :
    Fit H L (above ctx) n := by
  induction ctx with
  | top => exact hf
  | frame ptr size keys kl kr up ih =>
    have h1 := ih hf
    exact h1.2.2.2 n (by show n ∈ kl ++ n :: kr; simp)

theorem mem_fill {Ht h : Nat} {ctx : Ctx I S Ht h} {n : Tree I S h} {x : Nat} (hx : x ∈ addrs n) : x ∈ addrs (fill ctx n) := by
  induction ctx with
  | top => exact hx
  | frame ptr size keys kl kr up ih =>
    exact ih (List.mem_cons_of_mem _ (List.mem_flatMap.2 ⟨n, (by show n ∈ kl ++ n :: kr; simp), hx⟩))

theorem ctx_le {Ht h : Nat} (ctx : Ctx I S Ht h) : h ≤ Ht := by
  induction ctx with
  | top => exact Nat.le_refl _
  | frame ptr size keys kl kr up ih => omega

/-- Each parent is on the stack, or else the stored link names it. -/
def Cov (L : LinkMap) {Ht : Nat} : {h : Nat} → Tree I S h → Ctx I S Ht h → List ((Nat × Nat) × Nat) → Prop
  | _, _, .top, st => st = []
  | h, n, .frame ptr size keys kl kr up, st =>
    (∃ rest, st = ((ptr, h), kl.length) :: rest ∧ Cov L (h := h + 1) (plugNode ptr size keys kl n kr) up rest) ∨
    ((∃ c, ptrT n = some c ∧ L c = some (ptr, kl.length)) ∧ Cov L (h := h + 1) (plugNode ptr size keys kl n kr) up st)

theorem Cov.congr {L L' : LinkMap} {Ht h : Nat} {ctx : Ctx I S Ht h} {n : Tree I S h} {st : List ((Nat × Nat) × Nat)} (hc : Cov L n ctx st)
    (he : ∀ x ∈ addrs (fill ctx n), L' x = L x) : Cov L' n ctx st := by
  induction ctx generalizing st with
  | top => exact hc
  | frame ptr size keys kl kr up ih =>
    rcases hc with ⟨rest, h1, h2⟩ | ⟨⟨c, h1, h2⟩, h3⟩
    · exact .inl ⟨rest, h1, ih h2 he⟩
    · refine .inr ⟨⟨c, h1, ?_⟩, ih h3 he⟩
      rw [he c ?_, h2]
      refine mem_fill (ctx := .frame ptr size keys kl kr up) ?_
      rename_i h
      cases h with
      | zero => cases h1
      | succ h => cases h1; rw [addrs_succ]; simp

theorem Cov.high {L : LinkMap} {Ht h : Nat} {ctx : Ctx I S Ht h} {n : Tree I S h} {st : List ((Nat × Nat) × Nat)} (hc : Cov L n ctx st) :
    ∀ e ∈ st, h ≤ e.1.2 := by
  induction ctx generalizing st with
  | top => cases hc; simp
  | frame ptr size keys kl kr up ih =>
    rcases hc with ⟨rest, rfl, h2⟩ | ⟨-, h3⟩
    · intro e he
      rcases List.mem_cons.1 he with rfl | he
      · exact Nat.le_refl _
      · have := ih h2 e he; omega
    · intro e he
      have := ih h3 e he; omega

/-! ## Reading nodes -/

/-- An internal node with what is read of its children. -/
def cut {h : Nat} (n : Tree I S (h + 2)) : Tree I S 2 :=
  (⟨Node.ptr n, Node.size n, Node.keys n, (Node.kids n).map fun k : Tree I S (h + 1) => (stub (ptrOf k) (Node.size k) : Tree I S 1)⟩ : Node I S (Tree I S 1))

theorem Fit.get {H : Heap I S} {L : LinkMap} {h : Nat} {n : Tree I S (h + 1)} {A : List Nat} (hf : Fit H L A n) :
    ∃ nd, H.mem (Node.ptr n) = some nd ∧ nd.height = h ∧ nd.keys = Node.keys n ∧ nd.size = Node.size n ∧
      List.Forall₂ (fun q k => readT H h q = .ok k) nd.kids (Node.kids n) := by
  obtain ⟨h1, ⟨nd, h2, h3⟩, -⟩ := hf
  obtain ⟨nd0, ks, g1, g2, g3⟩ := readT_succ.1 h1
  rw [h2] at g1; cases g1
  refine ⟨nd, h2, h3, ?_, ?_, ?_⟩
  · rw [g3]
  · rw [g3]
  · have : Node.kids n = ks := by rw [g3]
    rw [this]; exact g2

theorem rdLeaf_eq {H : Heap I S} {L : LinkMap} {n : Tree I S 1} {A : List Nat} (hf : Fit H L A n) : rdLeaf H (Node.ptr n) = .ok n := by
  obtain ⟨nd, h1, h2, h3, h4, h5⟩ := hf.get
  simp only [rdLeaf, get_ok.2 h1, R.bind_ok, R.pure_eq]
  have hk : nd.kids.map (fun _ => ()) = Node.kids n := by
    refine List.ext_getElem ?_ ?_
    · simp only [List.length_map]; exact h5.length_eq
    · intros; rfl
  exact congrArg Except.ok (show (⟨Node.ptr n, nd.size, nd.keys, nd.kids.map fun _ => ()⟩ : Node I S (Tree I S 0)) = n by
    rw [h3, h4]
    exact congrArg (fun k : List (Tree I S 0) => (⟨Node.ptr n, Node.size n, Node.keys n, k⟩ : Node I S (Tree I S 0))) hk)

theorem rdInternal_eq {H : Heap I S} {L : LinkMap} {h : Nat} {n : Tree I S (h + 2)} {A : List Nat} (hf : Fit H L A n) : rdInternal H (Node.ptr n) = .ok (cut n) := by
  obtain ⟨nd, h1, h2, h3, h4, h5⟩ := hf.get
  have hne : nd.height ≠ 0 := by omega
  have hm : (nd.kids.mapM fun q => (do let c ← H.get q; pure (stub q c.size : Tree I S 1) : R (Tree I S 1))) =
      .ok ((Node.kids n).map fun k : Tree I S (h + 1) => (stub (ptrOf k) (Node.size k) : Tree I S 1)) := by
    clear h3 h4 h2 hne h1
    generalize Node.kids n = ks at h5
    generalize nd.kids = qs at h5
    induction h5 with
    | nil => rfl
    | cons g1 g2 ih =>
      rename_i q k qs ks
      obtain ⟨nq, ks', e1, e2, e3⟩ := readT_succ.1 g1
      have es : Node.size k = nq.size := by rw [e3]
      have ep : ptrOf k = q := by rw [e3]; rfl
      rw [List.mapM_cons, get_ok.2 e1, ih]
      simp only [R.bind_ok, R.pure_eq, List.map_cons, es, ep]
  unfold rdInternal
  simp only [get_ok.2 h1, R.bind_ok, hne, if_false]
  rw [hm, h3, h4]
  rfl

theorem childSize_cut (ix : IdxOps I) {h : Nat} (n : Tree I S (h + 2)) (i : Nat) :
    Node.childSize (szT ix) (cut n) i = Node.childSize (szT ix) n i := by
  have e : Node.kids (cut n) = (Node.kids n).map fun k : Tree I S (h + 1) => (stub (ptrOf k) (Node.size k) : Tree I S 1) := rfl
  unfold Node.childSize Node.child
  rw [e, List.getElem?_map]
  cases (Node.kids n)[i]? <;> rfl

theorem sliceSize_cut (ix : IdxOps I) {h : Nat} (n : Tree I S (h + 2)) (k : Nat) :
    Node.sliceSize ix (szT ix) (cut n) k = Node.sliceSize ix (szT ix) n k := by
  unfold Node.sliceSize
  rw [childSize_cut]
  rfl

theorem searchStep_cut (ix : IdxOps I) {h : Nat} (n : Tree I S (h + 2)) (hint : Option Nat) (target : I) :
    searchStep ix (cut n) hint target = searchStep ix n hint target := by
  have h1 : hintStep ix (cut n) hint target = hintStep ix n hint target := by
    cases hint with
    | none => rfl
    | some c => simp only [hintStep]; erw [childSize_cut]; rfl
  have h2 : fullStep ix (cut n) target = fullStep ix n target := by
    simp only [fullStep, childSize_cut]; rfl
  unfold searchStep
  rw [h1, h2]
  rfl

theorem stackStep_cut (ix : IdxOps I) {h : Nat} (n : Tree I S (h + 2)) (hint : Option Nat) (excl : Bool) (target : I) :
    stackStep ix false (cut n) hint excl target = stackStep ix false n hint excl target := by
  have h1 : ∀ r, exclStep ix false (cut n) excl target r = exclStep ix false n excl target r := by
    intro r
    cases r with
    | key k kpos => simp only [exclStep, childSize_cut]; rfl
    | child c cpos => rfl
  have h2 : lastStep ix false (cut n) = lastStep ix false n := by
    simp only [lastStep, Node.childPos, childSize_cut]; rfl
  unfold stackStep
  rw [searchStep_cut, h2]
  simp only [h1]
  rfl

theorem child_cut {h : Nat} {n : Tree I S (h + 2)} {c : Nat} {ch : Tree I S (h + 1)} (hc : Node.child n c = .ok ch) :
    Node.child (cut n) c = .ok (stub (ptrOf ch) (Node.size ch) : Tree I S 1) := by
  have e : Node.kids (cut n) = (Node.kids n).map fun k : Tree I S (h + 1) => (stub (ptrOf k) (Node.size k) : Tree I S 1) := rfl
  unfold Node.child at hc ⊢
  rw [e, List.getElem?_map]
  cases hk : (Node.kids n)[c]? with
  | none => rw [hk] at hc; cases hc
  | some k => rw [hk] at hc; cases hc; rfl

theorem child_ok {h : Nat} {n : Tree I S (h + 2)} {c : Nat} {ch : Tree I S (h + 1)} (hc : Node.child n c = .ok ch) : (Node.kids n)[c]? = some ch := by
  unfold Node.child at hc
  cases hk : (Node.kids n)[c]? with
  | none => rw [hk] at hc; cases hc
  | some k => rw [hk] at hc; cases hc; rfl

theorem sliceSize_head {ix : IdxOps I} {H : Heap I S} {L : LinkMap} {Ht : Nat} (hd : Head I S Ht) {A : List Nat} (hf : Fit H L A hd.node) :
    (⟨Node.ptr hd.node, hd.h, hd.idx⟩ : MHead).sliceSize ix H = hd.sliceSize ix := by
  obtain ⟨h, n, ctx, k⟩ := hd
  cases h with
  | zero => simp only [MHead.sliceSize, rdLeaf_eq hf, R.bind_ok]; rfl
  | succ h => simp only [MHead.sliceSize, rdInternal_eq hf, R.bind_ok, sliceSize_cut]; rfl

theorem entry_head {H : Heap I S} {L : LinkMap} {Ht : Nat} (hd : Head I S Ht) {A : List Nat} (hf : Fit H L A hd.node) (a b : I) :
    (⟨Node.ptr hd.node, hd.h, hd.idx⟩ : MHead).entry H a b = hd.entry a b := by
  obtain ⟨nd, h1, -, h3, -⟩ := hf.get
  simp only [MHead.entry, Head.entry, get_ok.2 h1, R.bind_ok, Node.handle, h3]
  cases (Node.keys hd.node)[hd.idx]? <;> rfl

/-! ## Going down -/

theorem fill_enter {Ht h : Nat} {n : Tree I S (h + 2)} {ctx : Ctx I S Ht (h + 2)} {c : Nat} {ch : Tree I S (h + 1)} (hc : Node.child n c = .ok ch) :
    fill (ctx.enter n c) ch = fill ctx n := by
  have hk := child_ok hc
  obtain ⟨hlt, hk⟩ := List.getElem?_eq_some_iff.1 hk
  show fill ctx (h := h + 2) (plugNode (Node.ptr n) (Node.size n) (Node.keys n) ((Node.kids n).take c) ch ((Node.kids n).drop (c + 1))) = _
  congr 1
  have : (Node.kids n).take c ++ ch :: (Node.kids n).drop (c + 1) = Node.kids n := by
    rw [← hk]; simp
  show (⟨Node.ptr n, Node.size n, Node.keys n, (Node.kids n).take c ++ ch :: (Node.kids n).drop (c + 1)⟩ : Node I S (Tree I S (h + 1))) = n
  rw [this]
  rfl

theorem plug_enter {h : Nat} {n : Tree I S (h + 2)} {c : Nat} {ch : Tree I S (h + 1)} (hc : Node.child n c = .ok ch) :
    (plugNode (Node.ptr n) (Node.size n) (Node.keys n) ((Node.kids n).take c) ch ((Node.kids n).drop (c + 1)) : Node I S (Tree I S (h + 1))) = n :=
  fill_enter (ctx := .top) hc

/-- The stack after going down to a child. -/
theorem cov_enter {H : Heap I S} {L : LinkMap} {Ht h : Nat} {n : Tree I S (h + 2)} {ctx : Ctx I S Ht (h + 2)} {st : List ((Nat × Nat) × Nat)}
    {A : List Nat} (hf : Fit H L A n) (hv : Cov L n ctx st) {c : Nat} {ch : Tree I S (h + 1)} (hc : Node.child n c = .ok ch) {start : Nat}
    (hs : start = Node.ptr n ∨ (start ∈ A ∧ (c = 0 ∨ c = (Node.keys n).length))) :
    Cov L ch (ctx.enter n c) (pushM L start (Node.ptr n) (h + 1) c (ptrOf ch) st) := by
  have hk := child_ok hc
  have hlt := (List.getElem?_eq_some_iff.1 hk).1
  obtain ⟨-, -, hl, -⟩ := hf
  obtain ⟨⟨q, i⟩, e1, e2⟩ := hl c ch (ptrOf ch) hk rfl
  have hlen : ((Node.kids n).take c).length = c := by rw [List.length_take]; omega
  have hcov : ∀ st', Cov L n ctx st' → Cov L (h := h + 2)
      (plugNode (Node.ptr n) (Node.size n) (Node.keys n) ((Node.kids n).take c) ch ((Node.kids n).drop (c + 1))) ctx st' := by
    intro st' h'
    rw [plug_enter hc]; exact h'
  simp only [pushM, e1]
  by_cases hp : (q, i) = (start, c)
  · simp only [hp, ne_eq, not_true_eq_false, if_false]
    cases hp
    right
    rcases hs with rfl | ⟨h1, h2⟩
    · exact ⟨⟨ptrOf ch, rfl, by rw [e1, hlen]⟩, hcov _ hv⟩
    · exact absurd rfl (e2 h2 _ h1)
  · simp only [ne_eq, hp, not_false_eq_true, if_true]
    left
    exact ⟨st, by rw [hlen], hcov _ hv⟩

/-- A head on memory stands for one in the tree. -/
structure SimHead (L : LinkMap) {Ht : Nat} (root : Tree I S Ht) (hd : Head I S Ht) (m : MHead) (st : List ((Nat × Nat) × Nat)) : Prop where
  head : m = ⟨Node.ptr hd.node, hd.h, hd.idx⟩
  tree : fill hd.ctx hd.node = root
  cov : Cov L hd.node hd.ctx st

theorem firstBelow_sim {H : Heap I S} {L : LinkMap} {Ht h : Nat} {n : Tree I S (h + 1)} {ctx : Ctx I S Ht (h + 1)} {st : List ((Nat × Nat) × Nat)}
    (hf : Fit H L [] (fill ctx n)) (hv : Cov L n ctx st) {c start : Nat}
    (hs : start = Node.ptr n ∨ (start ∈ above ctx ∧ c = 0)) {hd : Head I S Ht} (hr : firstBelow n ctx c = .ok hd) :
    ∃ m st', firstBelowM H L start h (Node.ptr n) c st = .ok (m, st') ∧ SimHead L (fill ctx n) hd m st' := by
  induction h generalizing st c with
  | zero => cases hr
  | succ h ih =>
    cases h with
    | zero =>
      simp only [firstBelow, bind_ok_iff] at hr
      obtain ⟨ch, hc, u, hu, hr⟩ := hr
      cases hr
      have hfill := fill_enter (ctx := ctx) hc
      have hfc : Fit H L (above (ctx.enter n c)) ch := Fit.down (ctx := ctx.enter n c) (by rw [hfill]; exact hf)
      have hp : ptrOf (stub (ptrOf ch) (Node.size ch) : Tree I S 1) = ptrOf ch := rfl
      have hl : rdLeaf H (ptrOf ch) = .ok ch := rdLeaf_eq hfc
      simp only [firstBelowM, rdInternal_eq hf.down, R.bind_ok, child_cut hc, hp, hl, hu, R.pure_eq]
      refine ⟨_, _, rfl, rfl, hfill, cov_enter hf.down hv hc ?_⟩
      exact hs.imp id fun h => ⟨h.1, .inl h.2⟩
    | succ h =>
      simp only [firstBelow, bind_ok_iff] at hr
      obtain ⟨ch, hc, hr⟩ := hr
      have hfill := fill_enter (ctx := ctx) hc
      have hp : ptrOf (stub (ptrOf ch) (Node.size ch) : Tree I S 1) = ptrOf ch := rfl
      simp only [firstBelowM, rdInternal_eq hf.down, R.bind_ok, child_cut hc, hp]
      have hcov : Cov L ch (ctx.enter n c) (pushM L start (Node.ptr n) (h + 2) c (ptrOf ch) st) := by
        refine cov_enter hf.down hv hc ?_
        exact hs.imp id fun h => ⟨h.1, .inl h.2⟩
      rw [← hfill] at hf ⊢
      refine ih hf hcov ?_ hr
      right
      refine ⟨?_, rfl⟩
      rcases hs with rfl | ⟨h1, -⟩
      · exact List.mem_cons_self
      · exact List.mem_cons_of_mem _ h1

theorem lastBelow_sim {H : Heap I S} {L : LinkMap} {Ht h : Nat} {n : Tree I S (h + 1)} {ctx : Ctx I S Ht (h + 1)} {st : List ((Nat × Nat) × Nat)}
    (hf : Fit H L [] (fill ctx n)) (hv : Cov L n ctx st) {c start : Nat}
    (hs : start = Node.ptr n ∨ (start ∈ above ctx ∧ c = (Node.keys n).length)) {hd : Head I S Ht} (hr : lastBelow n ctx c = .ok hd) :
    ∃ m st', lastBelowM H L start h (Node.ptr n) c st = .ok (m, st') ∧ SimHead L (fill ctx n) hd m st' := by
  induction h generalizing st c with
  | zero => cases hr
  | succ h ih =>
    cases h with
    | zero =>
      simp only [lastBelow, bind_ok_iff] at hr
      obtain ⟨ch, hc, u, hu, k, hk, hr⟩ := hr
      cases hr
      have hfill := fill_enter (ctx := ctx) hc
      have hfc : Fit H L (above (ctx.enter n c)) ch := Fit.down (ctx := ctx.enter n c) (by rw [hfill]; exact hf)
      have hp : ptrOf (stub (ptrOf ch) (Node.size ch) : Tree I S 1) = ptrOf ch := rfl
      have hl : rdLeaf H (ptrOf ch) = .ok ch := rdLeaf_eq hfc
      simp only [lastBelowM, rdInternal_eq hf.down, R.bind_ok, child_cut hc, hp, hl, hu, hk, R.pure_eq]
      refine ⟨_, _, rfl, rfl, hfill, cov_enter hf.down hv hc ?_⟩
      exact hs.imp id fun h => ⟨h.1, .inr h.2⟩
    | succ h =>
      simp only [lastBelow, bind_ok_iff] at hr
      obtain ⟨ch, hc, hr⟩ := hr
      have hfill := fill_enter (ctx := ctx) hc
      have hp : ptrOf (stub (ptrOf ch) (Node.size ch) : Tree I S 1) = ptrOf ch := rfl
      have hfc : Fit H L (above (ctx.enter n c)) ch := Fit.down (ctx := ctx.enter n c) (by rw [hfill]; exact hf)
      obtain ⟨nd, g1, g2, g3, -⟩ := hfc.get
      have hg : H.get (ptrOf ch) = .ok nd := get_ok.2 g1
      simp only [lastBelowM, rdInternal_eq hf.down, R.bind_ok, child_cut hc, hp, hg, g3]
      have hcov : Cov L ch (ctx.enter n c) (pushM L start (Node.ptr n) (h + 2) c (ptrOf ch) st) := by
        refine cov_enter hf.down hv hc ?_
        exact hs.imp id fun h => ⟨h.1, .inr h.2⟩
      rw [← hfill] at hf ⊢
      refine ih hf hcov ?_ hr
      right
      refine ⟨?_, rfl⟩
      rcases hs with rfl | ⟨h1, -⟩
      · exact List.mem_cons_self
      · exact List.mem_cons_of_mem _ h1

/-! ## Going up -/

theorem parentM_eq {L : LinkMap} {Hr h : Nat} {n : Tree I S (h + 1)} {ptr : Nat} {size : I} {keys : List (Key I S)} {kl kr : List (Tree I S (h + 1))}
    {up : Ctx I S (Hr + 1) (h + 2)} {st : List ((Nat × Nat) × Nat)} (hv : Cov L n (.frame ptr size keys kl kr up) st) :
    ∃ st', parentM L Hr h (Node.ptr n) st = .ok ((ptr, kl.length), st') ∧ st'.length ≤ st.length ∧
      Cov L (h := h + 2) (plugNode ptr size keys kl n kr) up st' := by
  rcases hv with ⟨rest, rfl, h2⟩ | ⟨⟨c, h1, h2⟩, h3⟩
  · exact ⟨rest, by simp [parentM], by simp, h2⟩
  · cases h1
    have hle := ctx_le up
    have hne : h ≠ Hr := by omega
    refine ⟨st, ?_, Nat.le_refl _, h3⟩
    cases st with
    | nil => simp only [parentM, hne, if_false, h2]; rfl
    | cons e st =>
      obtain ⟨⟨pp, ph⟩, c⟩ := e
      have hh := h3.high _ (List.mem_cons_self)
      have hne' : ph ≠ h + 1 := by
        have hh : h + 2 ≤ ph := hh
        omega
      simp only [parentM, hne, hne', if_false, h2]; rfl

theorem nextAbove_sim {H : Heap I S} {L : LinkMap} {Hr h : Nat} {n : Tree I S (h + 1)} {ctx : Ctx I S (Hr + 1) (h + 1)}
    {st : List ((Nat × Nat) × Nat)} (hf : Fit H L [] (fill ctx n)) (hv : Cov L n ctx st) {fuel : Nat} (hfu : Hr < fuel + h)
    {hd : Head I S (Hr + 1)} (hr : nextAbove (h := h + 1) n ctx = .ok hd) :
    ∃ m st', nextAboveM H L Hr fuel h (Node.ptr n) st = .ok (m, st') ∧ SimHead L (fill ctx n) hd m st' := by
  induction fuel generalizing h st with
  | zero =>
    have := ctx_le ctx
    omega
  | succ fuel ih =>
    cases ctx with
    | top => cases hr
    | frame ptr size keys kl kr up =>
      obtain ⟨st', e1, -, e3⟩ := parentM_eq hv
      have hf' : Fit H L [] (fill up (h := h + 2) (plugNode ptr size keys kl n kr)) := hf
      obtain ⟨nd, g1, -, g3, -⟩ := hf'.down.get
      have g1 : H.mem ptr = some nd := g1
      have g3 : nd.keys = keys := g3
      simp only [nextAboveM, e1, R.bind_ok, get_ok.2 g1, g3]
      simp only [nextAbove] at hr
      by_cases hc : kl.length < keys.length
      · have hc' : kl.length < Node.len (plugNode ptr size keys kl n kr : Node I S (Tree I S (h + 1))) := hc
        simp only [hc', if_true] at hr
        cases hr
        simp only [hc, if_true]
        exact ⟨_, _, rfl, rfl, rfl, e3⟩
      · have hc' : ¬ kl.length < Node.len (plugNode ptr size keys kl n kr : Node I S (Tree I S (h + 1))) := hc
        simp only [hc', if_false] at hr
        simp only [hc, if_false]
        exact ih (h := h + 1) hf' e3 (by omega) hr

theorem prevAbove_sim {H : Heap I S} {L : LinkMap} {Hr h : Nat} {n : Tree I S (h + 1)} {ctx : Ctx I S (Hr + 1) (h + 1)}
    {st : List ((Nat × Nat) × Nat)} (hf : Fit H L [] (fill ctx n)) (hv : Cov L n ctx st) {fuel : Nat} (hfu : Hr < fuel + h)
    {hd : Head I S (Hr + 1)} (hr : prevAbove (h := h + 1) n ctx = .ok hd) :
    ∃ m st', prevAboveM L Hr fuel h (Node.ptr n) st = .ok (m, st') ∧ SimHead L (fill ctx n) hd m st' := by
  induction fuel generalizing h st with
  | zero =>
    have := ctx_le ctx
    omega
  | succ fuel ih =>
    cases ctx with
    | top => cases hr
    | frame ptr size keys kl kr up =>
      obtain ⟨st', e1, -, e3⟩ := parentM_eq hv
      have hf' : Fit H L [] (fill up (h := h + 2) (plugNode ptr size keys kl n kr)) := hf
      simp only [prevAboveM, e1, R.bind_ok]
      simp only [prevAbove] at hr
      by_cases hc : kl.length ≠ 0
      · rw [if_pos hc] at hr ⊢
        cases hr
        exact ⟨_, _, rfl, rfl, rfl, e3⟩
      · rw [if_neg hc] at hr ⊢
        exact ih (h := h + 1) hf' e3 (by omega) hr

/-! ## Steps -/

/-- A stack on memory stands for one in the tree. -/
structure SimStack (L : LinkMap) {Hr : Nat} (root : Tree I S (Hr + 1)) (s : IterStack I S (Hr + 1)) (m : MStack I) : Prop where
  head : SimHead L root s.head m.head m.stack
  height : m.rootHeight = Hr
  pos : m.endPos = s.endPos

theorem SimHead.fit {H : Heap I S} {L L' : LinkMap} {Ht : Nat} {root : Tree I S Ht} {hd : Head I S Ht} {m : MHead} {st : List ((Nat × Nat) × Nat)}
    (h : SimHead L root hd m st) (hf : Fit H L' [] root) : Fit H L' (above hd.ctx) hd.node := by
  rw [← h.tree] at hf; exact hf.down

theorem SimHead.size {ix : IdxOps I} {H : Heap I S} {L L' : LinkMap} {Ht : Nat} {root : Tree I S Ht} {hd : Head I S Ht} {m : MHead}
    {st : List ((Nat × Nat) × Nat)} (h : SimHead L root hd m st) (hf : Fit H L' [] root) : m.sliceSize ix H = hd.sliceSize ix := by
  rw [h.head]; exact sliceSize_head hd (h.fit hf)

theorem fwdStep_sim {ix : IdxOps I} {H : Heap I S} {L : LinkMap} {Hr : Nat} {root : Tree I S (Hr + 1)} (hf : Fit H L [] root)
    {s s' : IterStack I S (Hr + 1)} {m : MStack I} (hs : SimStack L root s m) (hr : s.fwdStep ix = .ok s') :
    ∃ m', m.fwdStep ix H L = .ok m' ∧ SimStack L root s' m' := by
  simp only [IterStack.fwdStep, bind_ok_iff] at hr
  obtain ⟨hd, h1, size, h2, stop, h3, h4⟩ := hr
  cases h4
  obtain ⟨⟨hhd, htree, hcov⟩, hheight, hpos⟩ := hs
  have key : ∃ mh st', m.succ H L = .ok (mh, st') ∧ SimHead L root hd mh st' := by
    obtain ⟨⟨h, n, ctx, k⟩, endPos⟩ := s
    obtain ⟨stack, rh, mh, ep⟩ := m
    simp only at hhd htree hcov hheight hpos
    subst hhd hheight hpos htree
    cases h with
    | succ h =>
      obtain ⟨mh, st', e1, e2⟩ := firstBelow_sim hf hcov (.inl rfl) h1
      exact ⟨mh, st', e1, e2⟩
    | zero =>
      simp only [MStack.succ, rdLeaf_eq hf.down, R.bind_ok]
      simp only [Head.succ] at h1
      by_cases hc : k + 1 < Node.len n
      · simp only [hc, if_true] at h1 ⊢
        cases h1
        exact ⟨_, _, rfl, rfl, rfl, hcov⟩
      · simp only [hc, if_false] at h1 ⊢
        exact nextAbove_sim hf hcov (by omega) h1
  obtain ⟨mh, st', e1, e2⟩ := key
  simp only [MStack.fwdStep, e1, R.bind_ok, e2.size hf, h2, hpos, h3, R.pure_eq]
  exact ⟨_, rfl, e2, hheight, rfl⟩

theorem bkwdStep_sim {ix : IdxOps I} {H : Heap I S} {L : LinkMap} {Hr : Nat} {root : Tree I S (Hr + 1)} (hf : Fit H L [] root)
    {s s' : IterStack I S (Hr + 1)} {m : MStack I} (hs : SimStack L root s m) (hr : s.bkwdStep ix = .ok s') :
    ∃ m', m.bkwdStep ix H L = .ok m' ∧ SimStack L root s' m' := by
  simp only [IterStack.bkwdStep, bind_ok_iff] at hr
  obtain ⟨hd, h1, size, h2, stop, h3, h4⟩ := hr
  cases h4
  have hsz := hs.head.size (ix := ix) hf
  obtain ⟨⟨hhd, htree, hcov⟩, hheight, hpos⟩ := hs
  have key : ∃ mh st', m.pred H L = .ok (mh, st') ∧ SimHead L root hd mh st' := by
    clear hsz h2 h3
    obtain ⟨⟨h, n, ctx, k⟩, endPos⟩ := s
    obtain ⟨stack, rh, mh, ep⟩ := m
    simp only at hhd htree hcov hheight hpos
    subst hhd hheight hpos htree
    cases h with
    | succ h =>
      obtain ⟨mh, st', e1, e2⟩ := lastBelow_sim hf hcov (.inl rfl) h1
      exact ⟨mh, st', e1, e2⟩
    | zero =>
      simp only [MStack.pred]
      simp only [Head.pred] at h1
      by_cases hc : k ≠ 0
      · rw [if_pos hc] at h1 ⊢
        cases h1
        exact ⟨_, _, rfl, rfl, rfl, hcov⟩
      · rw [if_neg hc] at h1 ⊢
        exact prevAbove_sim hf hcov (by omega) h1
  obtain ⟨mh, st', e1, e2⟩ := key
  simp only [MStack.bkwdStep, e1, R.bind_ok, hsz, h2, hpos, h3, R.pure_eq]
  exact ⟨_, rfl, e2, hheight, rfl⟩

theorem stackKey_sim {ix : IdxOps I} {H : Heap I S} {L : LinkMap} {Hr h : Nat} {n : Tree I S (h + 1)} {ctx : Ctx I S (Hr + 1) (h + 1)}
    {st : List ((Nat × Nat) × Nat)} (hf : Fit H L [] (fill ctx n)) (hv : Cov L n ctx st) {headPos kpos : I} {k : Nat} {s : IterStack I S (Hr + 1)}
    (hr : stackKey ix n ctx headPos k kpos = .ok s) :
    ∃ m, stackKeyM ix H Hr (Node.ptr n) h st headPos k kpos = .ok m ∧ SimStack L (fill ctx n) s m := by
  simp only [stackKey, bind_ok_iff] at hr
  obtain ⟨_, -, p, h1, size, h2, stop, h3, h4⟩ := hr
  cases h4
  have hsz := sliceSize_head (ix := ix) (⟨h, n, ctx, k⟩ : Head I S (Hr + 1)) (Fit.down hf)
  simp only at hsz
  simp only [stackKeyM, h1, R.bind_ok, hsz, h2, h3, R.pure_eq]
  exact ⟨_, rfl, ⟨rfl, rfl, hv⟩, rfl, rfl⟩

theorem stackLoop_sim {ix : IdxOps I} {H : Heap I S} {L : LinkMap} {Hr h : Nat} {n : Tree I S (h + 1)} {ctx : Ctx I S (Hr + 1) (h + 1)}
    {st : List ((Nat × Nat) × Nat)} (hf : Fit H L [] (fill ctx n)) (hv : Cov L n ctx st) {excl : Bool} {hints : Option (List Nat)} {headPos target : I}
    {s : IterStack I S (Hr + 1)} (hr : stackLoop ix excl n ctx hints headPos target = .ok s) :
    ∃ m, stackLoopM ix H L Hr excl h (Node.ptr n) st hints headPos target = .ok m ∧ SimStack L (fill ctx n) s m := by
  induction h generalizing st hints headPos target with
  | zero =>
    simp only [stackLoop, bind_ok_iff] at hr
    obtain ⟨r, h1, hr⟩ := hr
    simp only [stackLoopM, rdLeaf_eq hf.down, R.bind_ok, h1]
    cases r with
    | child c cpos => cases hr
    | key k kpos => exact stackKey_sim hf hv hr
  | succ h ih =>
    simp only [stackLoop, bind_ok_iff] at hr
    obtain ⟨r, h1, hr⟩ := hr
    simp only [stackLoopM, rdInternal_eq hf.down, R.bind_ok, stackStep_cut, h1]
    cases r with
    | key k kpos => exact stackKey_sim hf hv hr
    | child c cpos =>
      simp only [bind_ok_iff] at hr
      obtain ⟨ch, hc, t', h2, p', h3, hr⟩ := hr
      have hp : ptrOf (stub (ptrOf ch) (Node.size ch) : Tree I S 1) = ptrOf ch := rfl
      have hfill := fill_enter (ctx := ctx) hc
      simp only [child_cut hc, R.bind_ok, h2, h3, hp]
      have hcov := cov_enter hf.down hv hc (.inl rfl)
      rw [← hfill] at hf ⊢
      exact ih hf hcov hr

theorem makeStack_sim {ix : IdxOps I} {H : Heap I S} {L : LinkMap} {Hr : Nat} {root : Tree I S (Hr + 1)} (hf : Fit H L [] root)
    {hints : Option (List Nat)} {target : IterBound I} {s : IterStack I S (Hr + 1)} (hr : makeStack ix root hints target = .ok s) :
    ∃ m, makeStackM ix H L Hr (Node.ptr root) hints target = .ok m ∧ SimStack L root s m := by
  cases target with
  | included i => exact stackLoop_sim (ctx := .top) hf rfl hr
  | excluded i => exact stackLoop_sim (ctx := .top) hf rfl hr

/-! ## Iterators -/

def SimOpt (L : LinkMap) {Hr : Nat} (root : Tree I S (Hr + 1)) : Option (IterStack I S (Hr + 1)) → Option (MStack I) → Prop
  | none, none => True
  | some s, some m => SimStack L root s m
  | _, _ => False

structure SimState (L : LinkMap) (st : IterState I S) (ms : MState I) : Prop where
  h : ms.h = st.H
  p : ms.p = Node.ptr st.root
  cursor : ms.cursor = st.cursor
  fwd : SimOpt L st.root st.fwd ms.fwd
  bkwd : SimOpt L st.root st.bkwd ms.bkwd

def SimStates (L : LinkMap) : Option (IterState I S) → Option (MState I) → Prop
  | none, none => True
  | some st, some ms => SimState L st ms
  | _, _ => False

/-- An iterator on memory stands for one on a tree. -/
structure Sim (L : LinkMap) (it : Iter I S) (m : MIter I) : Prop where
  start : m.start = it.start
  stop : m.stop = it.stop
  state : SimStates L it.state m.state

/-- The tree of an iterator. -/
def Rooted (P : {h : Nat} → Tree I S (h + 1) → Prop) (it : Iter I S) : Prop := ∀ st, it.state = some st → P st.root

theorem metBy_sim {L : LinkMap} {Hr : Nat} {root : Tree I S (Hr + 1)} {o : Option (IterStack I S (Hr + 1))} {mo : Option (MStack I)}
    (ho : SimOpt L root o mo) {s : IterStack I S (Hr + 1)} {m : MStack I} (hs : SimStack L root s m) :
    MIter.metBy mo m.head = Iter.metBy o s.head := by
  cases o with
  | none => cases mo with
    | none => rfl
    | some _ => cases ho
  | some a => cases mo with
    | none => cases ho
    | some b =>
      have h1 : b.head = _ := ho.head.head
      have h2 : m.head = _ := hs.head.head
      simp only [MIter.metBy, Iter.metBy, h1, h2]
      rfl

theorem yieldFwd_sim {H : Heap I S} {L : LinkMap} {it : Iter I S} {m : MIter I} (hs : Sim L it m) {st : IterState I S} {ms : MState I}
    (hst : SimState L st ms) (hf : Fit H L [] st.root) {s : IterStack I S (st.H + 1)} {k : MStack I} (hk : SimStack L st.root s k) {nextStart : I}
    {x : Option (Entry I S)} {it' : Iter I S} (hr : Iter.yieldFwd it st s nextStart = .ok (x, it')) :
    ∃ m', MIter.yieldFwd H m ms k nextStart = .ok (x, m') ∧ Sim L it' m' := by
  simp only [Iter.yieldFwd, MIter.yieldFwd, metBy_sim hst.bkwd hk] at hr ⊢
  by_cases hm : Iter.metBy st.bkwd s.head = true
  · simp only [hm, if_true] at hr ⊢
    cases hr
    exact ⟨_, rfl, hs.start, hs.stop, trivial⟩
  · simp only [hm] at hr ⊢
    simp only [Bool.false_eq_true, if_false, bind_ok_iff] at hr
    obtain ⟨e, h1, hr⟩ := hr
    cases hr
    have he : k.head.entry H nextStart k.endPos = .ok e := by
      rw [hk.head.head, hk.pos, entry_head _ (hk.head.fit hf)]; exact h1
    simp only [Bool.false_eq_true, if_false, he, R.bind_ok, R.pure_eq]
    exact ⟨_, rfl, hs.start, hs.stop, hst.h, hst.p, hst.cursor, hk, hst.bkwd⟩

theorem yieldBkwd_sim {ix : IdxOps I} {H : Heap I S} {L : LinkMap} {it : Iter I S} {m : MIter I} (hs : Sim L it m) {st : IterState I S} {ms : MState I}
    (hst : SimState L st ms) (hf : Fit H L [] st.root) {s : IterStack I S (st.H + 1)} {k : MStack I} (hk : SimStack L st.root s k)
    {x : Option (Entry I S)} {it' : Iter I S} (hr : Iter.yieldBkwd ix it st s = .ok (x, it')) :
    ∃ m', MIter.yieldBkwd ix H m ms k = .ok (x, m') ∧ Sim L it' m' := by
  simp only [Iter.yieldBkwd, MIter.yieldBkwd, metBy_sim hst.fwd hk] at hr ⊢
  by_cases hm : Iter.metBy st.fwd s.head = true
  · simp only [hm, if_true] at hr ⊢
    cases hr
    exact ⟨_, rfl, hs.start, hs.stop, trivial⟩
  · simp only [hm] at hr ⊢
    simp only [Bool.false_eq_true, if_false, bind_ok_iff] at hr
    obtain ⟨size, h1, start, h2, e, h3, hr⟩ := hr
    cases hr
    have he : k.head.entry H start k.endPos = .ok e := by
      rw [hk.head.head, hk.pos, entry_head _ (hk.head.fit hf)]; exact h3
    simp only [Bool.false_eq_true, if_false, hk.head.size hf, h1, R.bind_ok, hk.pos, h2, R.pure_eq]
    rw [hk.pos] at he
    simp only [he, R.bind_ok]
    exact ⟨_, rfl, hs.start, hs.stop, hst.h, hst.p, hst.cursor, hst.fwd, hk⟩

/-- `next` on memory. -/
theorem next_sim {ix : IdxOps I} {H : Heap I S} {L : LinkMap} {it : Iter I S} {m : MIter I} (hs : Sim L it m) (hf : Rooted (Fit H L []) it)
    {x : Option (Entry I S)} {it' : Iter I S} (hr : it.next ix = .ok (x, it')) : ∃ m', m.next ix H L = .ok (x, m') ∧ Sim L it' m' := by
  obtain ⟨start, stop, state⟩ := it
  obtain ⟨mstart, mstop, mstate⟩ := m
  obtain ⟨h1, h2, h3⟩ := hs
  simp only at h1 h2 h3
  subst h1 h2
  cases state with
  | none =>
    cases mstate with
    | some _ => cases h3
    | none =>
      cases hr
      exact ⟨_, rfl, rfl, rfl, trivial⟩
  | some st =>
    cases mstate with
    | none => cases h3
    | some ms =>
      have hst : SimState L st ms := h3
      have hf := hf st rfl
      have hsim : Sim L (⟨mstart, mstop, some st⟩ : Iter I S) ⟨mstart, mstop, some ms⟩ := ⟨rfl, rfl, hst⟩
      obtain ⟨sH, sroot, scur, sfwd, sbkwd⟩ := st
      obtain ⟨mh, mp, mcur, mfwd, mbkwd⟩ := ms
      cases sfwd with
      | some s =>
        cases mfwd with
        | none => cases hst.fwd
        | some k =>
          have hk : SimStack L sroot s k := hst.fwd
          simp only [Iter.next, MIter.next, hk.pos] at hr ⊢
          by_cases hp : Iter.pastEnd ix mstop s.endPos = true
          · simp only [hp, if_true] at hr ⊢
            cases hr
            exact ⟨_, rfl, rfl, rfl, trivial⟩
          · simp only [hp] at hr ⊢
            simp only [Bool.false_eq_true, if_false, bind_ok_iff] at hr
            obtain ⟨s', g1, g2⟩ := hr
            obtain ⟨k', g3, g4⟩ := fwdStep_sim hf hk g1
            simp only [Bool.false_eq_true, if_false, g3, R.bind_ok]
            exact yieldFwd_sim hsim hst hf g4 g2
      | none =>
        cases mfwd with
        | some _ => cases hst.fwd
        | none =>
          simp only [Iter.next, bind_ok_iff] at hr
          obtain ⟨s', g1, size, g2, ns, g3, g4⟩ := hr
          obtain ⟨k', g5, g6⟩ := makeStack_sim hf g1
          have e1 : mh = sH := hst.h
          have e2 : mp = Node.ptr sroot := hst.p
          have e3 : mcur = scur := hst.cursor
          simp only [MIter.next, e1, e2, e3, g5, R.bind_ok, g6.head.size hf, g2, g6.pos, g3]
          exact yieldFwd_sim (st := ⟨sH, sroot, none, none, sbkwd⟩) (ms := ⟨sH, Node.ptr sroot, none, none, mbkwd⟩) hsim ⟨rfl, rfl, rfl, hst.fwd, hst.bkwd⟩ hf g6 g4

/-- `next_back` on memory. -/
theorem nextBack_sim {ix : IdxOps I} {H : Heap I S} {L : LinkMap} {it : Iter I S} {m : MIter I} (hs : Sim L it m) (hf : Rooted (Fit H L []) it)
    {x : Option (Entry I S)} {it' : Iter I S} (hr : it.nextBack ix = .ok (x, it')) : ∃ m', m.nextBack ix H L = .ok (x, m') ∧ Sim L it' m' := by
  obtain ⟨start, stop, state⟩ := it
  obtain ⟨mstart, mstop, mstate⟩ := m
  obtain ⟨h1, h2, h3⟩ := hs
  simp only at h1 h2 h3
  subst h1 h2
  cases state with
  | none =>
    cases mstate with
    | some _ => cases h3
    | none =>
      cases hr
      exact ⟨_, rfl, rfl, rfl, trivial⟩
  | some st =>
    cases mstate with
    | none => cases h3
    | some ms =>
      have hst : SimState L st ms := h3
      have hf := hf st rfl
      have hsim : Sim L (⟨mstart, mstop, some st⟩ : Iter I S) ⟨mstart, mstop, some ms⟩ := ⟨rfl, rfl, hst⟩
      obtain ⟨sH, sroot, scur, sfwd, sbkwd⟩ := st
      obtain ⟨mh, mp, mcur, mfwd, mbkwd⟩ := ms
      cases sbkwd with
      | some s =>
        cases mbkwd with
        | none => cases hst.bkwd
        | some k =>
          have hk : SimStack L sroot s k := hst.bkwd
          simp only [Iter.nextBack, bind_ok_iff] at hr
          obtain ⟨size, g1, ne, g2, hr⟩ := hr
          simp only [MIter.nextBack, hk.head.size hf, g1, R.bind_ok, hk.pos, g2]
          by_cases hp : ix.le ne mstart = true
          · simp only [hp, if_true] at hr ⊢
            cases hr
            exact ⟨_, rfl, rfl, rfl, trivial⟩
          · simp only [hp] at hr ⊢
            simp only [Bool.false_eq_true, if_false, bind_ok_iff] at hr
            obtain ⟨s', g3, g4⟩ := hr
            obtain ⟨k', g5, g6⟩ := bkwdStep_sim hf hk g3
            simp only [Bool.false_eq_true, if_false, g5, R.bind_ok]
            exact yieldBkwd_sim hsim hst hf g6 g4
      | none =>
        cases mbkwd with
        | some _ => cases hst.bkwd
        | none =>
          simp only [Iter.nextBack, bind_ok_iff] at hr
          obtain ⟨s', g1, g4⟩ := hr
          obtain ⟨k', g5, g6⟩ := makeStack_sim hf g1
          have e1 : mh = sH := hst.h
          have e2 : mp = Node.ptr sroot := hst.p
          have e3 : mcur = scur := hst.cursor
          simp only [MIter.nextBack, e1, e2, e3, g5, R.bind_ok]
          exact yieldBkwd_sim (st := ⟨sH, sroot, none, sfwd, none⟩) (ms := ⟨sH, Node.ptr sroot, none, mfwd, none⟩) hsim ⟨rfl, rfl, rfl, hst.fwd, hst.bkwd⟩ hf g6 g4

/-- Links of the tree that are the same. -/
theorem SimStack.congr {L L' : LinkMap} {Hr : Nat} {root : Tree I S (Hr + 1)} {s : IterStack I S (Hr + 1)} {m : MStack I} (h : SimStack L root s m)
    (he : ∀ x ∈ addrs root, L' x = L x) : SimStack L' root s m :=
  ⟨⟨h.head.head, h.head.tree, h.head.cov.congr (by rw [h.head.tree]; exact he)⟩, h.height, h.pos⟩

theorem Sim.congr {L L' : LinkMap} {it : Iter I S} {m : MIter I} (h : Sim L it m)
    (he : Rooted (fun root => ∀ x ∈ addrs root, L' x = L x) it) : Sim L' it m := by
  refine ⟨h.start, h.stop, ?_⟩
  obtain ⟨start, stop, state⟩ := it
  obtain ⟨mstart, mstop, mstate⟩ := m
  have h3 := h.state
  simp only at h3 ⊢
  cases state with
  | none => cases mstate with
    | none => trivial
    | some _ => cases h3
  | some st => cases mstate with
    | none => cases h3
    | some ms =>
      have he := he st rfl
      obtain ⟨a, b, c, d, e⟩ := (h3 : SimState L st ms)
      refine (⟨a, b, c, ?_, ?_⟩ : SimState L' st ms)
      · cases hf : st.fwd with
        | none => rw [hf] at d; cases hm : ms.fwd with
          | none => trivial
          | some _ => rw [hm] at d; cases d
        | some s => rw [hf] at d; cases hm : ms.fwd with
          | none => rw [hm] at d; cases d
          | some k => rw [hm] at d; exact SimStack.congr d he
      · cases hf : st.bkwd with
        | none => rw [hf] at e; cases hm : ms.bkwd with
          | none => trivial
          | some _ => rw [hm] at e; cases e
        | some s => rw [hf] at e; cases hm : ms.bkwd with
          | none => rw [hm] at e; cases e
          | some k => rw [hm] at e; exact SimStack.congr e he

theorem next_rooted {P : {h : Nat} → Tree I S (h + 1) → Prop} {ix : IdxOps I} {it it' : Iter I S} {x : Option (Entry I S)} (h : Rooted P it)
    (hr : it.next ix = .ok (x, it')) : Rooted P it' := by
  obtain ⟨start, stop, state⟩ := it
  have hy : ∀ (st : IterState I S) s ns, P st.root → Iter.yieldFwd ⟨start, stop, state⟩ st s ns = .ok (x, it') → Rooted P it' := by
    intro st s ns hp hr
    simp only [Iter.yieldFwd] at hr
    split at hr
    · cases hr; intro st' h'; cases h'
    · simp only [bind_ok_iff] at hr
      obtain ⟨e, -, hr⟩ := hr
      cases hr; intro st' h'; cases h'; exact hp
  cases state with
  | none => cases hr; exact h
  | some st =>
    have hp := h st rfl
    simp only [Iter.next] at hr
    split at hr
    · split at hr
      · cases hr; intro st' h'; cases h'
      · simp only [bind_ok_iff] at hr
        obtain ⟨s, -, hr⟩ := hr
        exact hy st _ _ hp hr
    · simp only [bind_ok_iff] at hr
      obtain ⟨s, -, _, -, _, -, hr⟩ := hr
      exact hy { st with cursor := none } _ _ hp hr

theorem nextBack_rooted {P : {h : Nat} → Tree I S (h + 1) → Prop} {ix : IdxOps I} {it it' : Iter I S} {x : Option (Entry I S)} (h : Rooted P it)
    (hr : it.nextBack ix = .ok (x, it')) : Rooted P it' := by
  obtain ⟨start, stop, state⟩ := it
  have hy : ∀ (st : IterState I S) s, P st.root → Iter.yieldBkwd ix ⟨start, stop, state⟩ st s = .ok (x, it') → Rooted P it' := by
    intro st s hp hr
    simp only [Iter.yieldBkwd] at hr
    split at hr
    · cases hr; intro st' h'; cases h'
    · simp only [bind_ok_iff] at hr
      obtain ⟨_, -, _, -, e, -, hr⟩ := hr
      cases hr; intro st' h'; cases h'; exact hp
  cases state with
  | none => cases hr; exact h
  | some st =>
    have hp := h st rfl
    simp only [Iter.nextBack] at hr
    split at hr
    · simp only [bind_ok_iff] at hr
      obtain ⟨_, -, _, -, hr⟩ := hr
      split at hr
      · cases hr; intro st' h'; cases h'
      · simp only [bind_ok_iff] at hr
        obtain ⟨s, -, hr⟩ := hr
        exact hy st _ hp hr
    · simp only [bind_ok_iff] at hr
      obtain ⟨s, -, hr⟩ := hr
      exact hy { st with cursor := none } _ hp hr

end Sherman.Cow
