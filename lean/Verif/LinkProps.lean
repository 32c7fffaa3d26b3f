import Verif.LinkInsert
import Verif.RefMoves
import Verif.Alike
import Verif.TreeProps
/-!
# Parent links are right after every operation (C21)

Trees that do not share nodes (`param::NoFeatures`, `param::AllowSliceRefs`) in one memory.  The specification `Linked` says,
without reference to any operation, that every node stores the address of the node that holds it and its index there, and the
root stores `None`.  The walks of the code from a node to the root along the stored links are modelled here and shown to give
what the other modules compute from the root.
-/
namespace Sherman
variable {I S : Type}

/-! ## Specification -/

/-- Below the root of this subtree, every node's link says which node holds it, and where. -/
def LinkedT (L : LinkMap) : {h : Nat} → Tree I S h → Prop
  | 0, _ => True
  | _ + 1, n => ∀ i c, n.kids[i]? = some c → (∀ q, ptrT c = some q → L q = some (n.ptr, i)) ∧ LinkedT L c

/-- The root has no parent, and everything below is linked. -/
def Linked (L : LinkMap) (t : RleTree I S) : Prop :=
  ∀ r, t.root = some r → (∀ q, ptrT r.tree = some q → L q = none) ∧ LinkedT L r.tree

/-! ## Model -/

/-- Clone the children in order; the loop src/tree/node.rs:1165-1176 -/
def cloneKids {C : Type} (f : C → World → C × World) : List C → World → List C × World
  | [], w => ([], w)
  | c :: cs, w =>
    let (c', w) := f c w
    let (cs', w) := cloneKids f cs w
    (c' :: cs', w)

/-- `deep_clone`; src/tree/node.rs:1117-1215.  The children are cloned first and get their `idx_in_parent` at once, but their
`parent` when the node that holds them has been allocated; here both are written then.  (In between nothing reads them: the
index is meaningless while `parent` is `None`.)  The new nodes are not shared, so the accesses are recorded as `setOwned`.
The references are of type `()` for `param::NoFeatures`. -/
def deepCloneT : {h : Nat} → Tree I S h → World → Tree I S h × World
  | 0, t, w => (t, w)
  | _ + 1, n, w =>
    let (kids, w) := cloneKids deepCloneT n.kids w
    let p := w.next
    ({ n with ptr := p, kids := kids, keys := n.keys.map fun k => { k with ref := none } }, linkFrom p 0 kids w.alloc)

/-- `clone` with `param::NoFeatures`; src/tree/mod.rs:763-781 -/
def RleTree.cloneNodes (t : RleTree I S) (w : World) : RleTree I S × World :=
  match t.root with
  | none => (t, w)
  | some r =>
    let (n, w) := deepCloneT r.tree w
    (⟨some { r with tree := n }⟩, w)

/-- Several trees in one memory: the trees, the next unused address, and what the nodes' `parent` and `idx_in_parent` hold.
src/tree/node.rs:440-469 -/
structure Forest (I S : Type) where
  trees : List (RleTree I S)
  next : Nat
  links : LinkMap

namespace Forest

/-- What an operation on a tree starts with: nothing recorded yet. -/
def world (st : Forest I S) : World := ⟨st.next, [], [], none, []⟩

/-- Tree `i`. -/
def tree (st : Forest I S) (i : Nat) : R (RleTree I S) :=
  match st.trees[i]? with
  | some t => .ok t
  | none => .error (.unreachable "no such tree")

/-- `RleTree::new_empty`; src/tree/mod.rs:324-328 -/
def newEmpty (E : Env I S) (st : Forest I S) : R (Forest I S) := do
  let t ← RleTree.newEmpty E
  pure { st with trees := st.trees ++ [t] }

/-- `RleTree::new`; src/tree/mod.rs:339-358.  Its accesses to links are carried out in memory. -/
def new (E : Env I S) (st : Forest I S) (s : S) (size : I) : R (Forest I S) := do
  let (t, w) ← RleTree.new E s size st.world
  let L ← runLinks .unshared st.links w.links
  pure ⟨st.trees ++ [t], w.next, L⟩

/-- `insert_with_cursor` on tree `i`; src/tree/mod.rs:695-702.  Its accesses to links are carried out in memory. -/
def insert (E : Env I S) (st : Forest I S) (i : Nat) (nop : Bool) (hints : List Nat) (idx : I) (s : S) (size : I) :
    R (Forest I S × Inserted) := do
  let t ← st.tree i
  let (t, out) ← t.insert E nop hints idx s size st.world
  let L ← runLinks .unshared st.links out.world.links
  pure (⟨st.trees.set i t, out.world.next, L⟩, out)

/-- References to runs of tree `i` are made or dropped (`replace_refid`): does not touch links; src/tree/node.rs:2938-2947 -/
def relabel (st : Forest I S) (i : Nat) (f : Nat → Nat → Option Nat → Option Nat) : R (Forest I S) := do
  let t ← st.tree i
  pure { st with trees := st.trees.set i (t.relabel f) }

/-- `clone` of tree `i`; src/tree/mod.rs:763-781 -/
def clone (st : Forest I S) (i : Nat) : R (Forest I S) := do
  let t ← st.tree i
  let (t, w) := t.cloneNodes st.world
  let L ← runLinks .unshared st.links w.links
  pure ⟨st.trees ++ [t], w.next, L⟩

/-- Drop tree `i` (what dropping does is in `Verif/Destroy.lean`); its place stays, empty. -/
def drop (st : Forest I S) (i : Nat) : R (Forest I S) := do
  let _ ← st.tree i
  pure { st with trees := st.trees.set i ⟨none⟩ }

/-- States of programs with any number of trees.  Memory starts with arbitrary contents. -/
inductive Run (E : Env I S) : Forest I S → Prop
  | start (n : Nat) (L : LinkMap) : Run E ⟨[], n, L⟩
  | newEmpty {st st' : Forest I S} : Run E st → st.newEmpty E = .ok st' → Run E st'
  | new {st st' : Forest I S} {s : S} {size : I} : Run E st → st.new E s size = .ok st' → Run E st'
  | insert {st st' : Forest I S} {i : Nat} {nop : Bool} {hints : List Nat} {idx : I} {s : S} {size : I} {out : Inserted} :
      Run E st → st.insert E i nop hints idx s size = .ok (st', out) → Run E st'
  | relabel {st st' : Forest I S} {i : Nat} {f} : Run E st → st.relabel i f = .ok st' → Run E st'
  | clone {st st' : Forest I S} {i : Nat} : Run E st → st.clone i = .ok st' → Run E st'
  | drop {st st' : Forest I S} {i : Nat} : Run E st → st.drop i = .ok st' → Run E st'

end Forest

/-- The node at an address: what dereferencing a `NodePtr` finds.  src/tree/node.rs:68, 825-830 -/
def nodeAt (p : Nat) : {h : Nat} → Tree I S h → Option ((h : Nat) × Tree I S (h + 1))
  | 0, _ => none
  | h + 1, n => if n.ptr = p then some ⟨h, n⟩ else n.kids.findSome? (nodeAt p)

/-- The loop `while let Ok((parent, child_idx)) = node.into_parent() { cursor.prepend_to_path(child_idx) }`, at most `f` rounds;
src/tree/entry.rs:119-122, src/tree/mod.rs:511-522.  Running out of rounds is an error. -/
def upPath (L : LinkMap) : Nat → Nat → List Nat → R (List Nat)
  | 0, _, _ => .error (.ub "too many rounds")
  | f + 1, p, path =>
    match L p with
    | none => pure path
    | some (q, i) => upPath L f q (i :: path)

/-- The loop of `SliceHandle::range`, at most `f` rounds; src/tree/node.rs:3133-3138.  `t` is the memory the nodes are read from;
a parent that is not there is undefined behaviour. -/
def upPos (ix : IdxOps I) (L : LinkMap) {H : Nat} (t : Tree I S H) : Nat → Nat → I → R I
  | 0, _, _ => .error (.ub "too many rounds")
  | f + 1, p, pos =>
    match L p with
    | none => pure pos
    | some (q, i) =>
      match nodeAt q t with
      | none => .error (.ub "dangling parent")
      | some ⟨_, n⟩ => do
        let cp ← n.childPos ix (szT ix) i
        let pos ← ix.addL pos cp
        upPos ix L t f q pos

/-- `SliceHandle::range` without the final addition: position and size; src/tree/node.rs:3124-3141 -/
def rangeUp (ix : IdxOps I) (L : LinkMap) (f : Nat) (p k : Nat) {H : Nat} (t : Tree I S H) : R (I × I) :=
  match nodeAt p t with
  | none => .error (.ub "dangling SliceHandle")
  | some ⟨_, n⟩ => do
    let pos ← n.keyPos k
    let size ← n.sliceSize ix (szT ix) k
    let pos ← upPos ix L t f p pos
    pure (pos, size)

/-- `SliceRef::range` along the links; src/tree/slice_ref.rs:728-767 -/
def RefTree.rangeUp (E : Env I S) (L : LinkMap) (f : Nat) (st : RefTree I S) (id : Nat) : R (I × I) := do
  match ← st.resolve id with
  | none => .error (.panic "cannot borrow: slice is no longer present in the tree")
  | some (p, k) =>
    match st.tree.root with
    | none => .error (.ub "dangling SliceHandle")
    | some r => do
      let (pos, size) ← Sherman.rangeUp E.ix L f p k r.tree
      let stop ← E.ix.addR pos size
      pure (pos, stop)

/-- `SliceRef::cursor` along the links; src/tree/slice_ref.rs:781-820, src/tree/entry.rs:107-126 -/
def RefTree.cursorUp (L : LinkMap) (f : Nat) (st : RefTree I S) (id : Nat) : R (List Nat) := do
  match ← st.resolve id with
  | none => .error (.panic "cannot borrow: slice is no longer present in the tree")
  | some (p, _) =>
    match st.tree.root with
    | none => .error (.ub "dangling SliceHandle")
    | some r =>
      match nodeAt p r.tree with
      | none => .error (.ub "dangling SliceHandle")
      | some _ => upPath L f p []

/-! ## From facts to the specification -/

theorem kidF_get {C : Type} [HasPtr C] {p i j q : Nat} {l : List C} {c : C} (h : l[j]? = some c) (hq : HasPtr.addr c = some q) :
    Fact.child q p (i + j) ∈ kidF p i l := by
  induction l generalizing i j with
  | nil => simp at h
  | cons a l ih =>
    simp only [kidF, Multiset.mem_add]
    cases j with
    | zero =>
      simp at h; subst h
      left; simp [hang, hq]
    | succ j =>
      right
      have := ih (i := i + 1) (j := j) (by simpa using h)
      rwa [show i + 1 + j = i + (j + 1) by omega] at this

/-- Nothing is shared: all nodes are tracked. -/
local notation "𝒰" => Mode.unshared.tr

theorem treeF_all {h : Nat} {n : Tree I S (h + 1)} : treeF 𝒰 n = nodeF (treeF 𝒰) n := if_pos trivial

theorem linkedT_of {L0 L : LinkMap} {h : Nat} {t : Tree I S h} (hf : ∀ f ∈ treeF 𝒰 t, f.Holds .unshared L0 L) : LinkedT L t := by
  induction h with
  | zero => trivial
  | succ h ih =>
    intro i c hc
    simp only [treeF_all, nodeF, Multiset.mem_add] at hf
    refine ⟨fun q hq => ?_, ih fun f hm => hf f (.inr ?_)⟩
    · have := hf _ (.inl (.inr (kidF_get (i := 0) hc hq)))
      simpa [Fact.Holds, Mode.unshared, Sharing.unshared] using this
    · exact mem_sum_map.2 ⟨c, List.mem_of_getElem? hc, hm⟩

theorem linked_of {L0 L : LinkMap} {t : RleTree I S} (hf : ∀ f ∈ t.F 𝒰, f.Holds .unshared L0 L) : Linked L t := by
  intro r hr
  simp only [RleTree.F, hr, Multiset.mem_add] at hf
  refine ⟨fun q hq => ?_, linkedT_of fun f hm => hf f (.inl hm)⟩
  have := hf (.orphan q) (.inr (by simp [free, hq]))
  exact this.1

/-! ## Clones -/

section
variable {md : Mode} {L0 : LinkMap} {w w' : World} {F : Multiset Fact} {C : Type} [HasPtr C]

/-- Children that do not hang anywhere yet. -/
def freeF (l : List C) : Multiset Fact := (l.map fun c => free (HasPtr.addr c)).sum

theorem Lk.linkFree {ks : List C} (p i : Nat) (h : Lk md L0 w (freeF ks + F)) : Lk md L0 (Sherman.linkFrom p i ks w) (kidF p i ks + F) := by
  induction ks generalizing i w F with
  | nil => simpa [freeF, kidF, Sherman.linkFrom] using h
  | cons c cs ih =>
    simp only [freeF, List.map_cons, List.sum_cons] at h
    have h1 := Lk.setOwned (F := freeF cs + F) p i (h.congr (by simp only [freeF]; ac_rfl)) (Slot.free _)
    have h2 := ih (i + 1) (F := hang (HasPtr.addr c) p i + F) (h1.congr (by ac_rfl))
    simp only [Sherman.linkFrom, kidF]
    exact h2.congr (by ac_rfl)

/-- All nodes have one child more than keys. -/
def Arity (F : Multiset Fact) : Prop := ∀ k n, Fact.arity k n ∈ F → k + 1 = n

theorem Lk.cloneKids {fc : C → Multiset Fact} {f : C → World → C × World} {ks : List C}
    (hf : ∀ c ∈ ks, ∀ (w : World) (F : Multiset Fact), Lk md L0 w F →
      Lk md L0 (f c w).2 (fc (f c w).1 + free (HasPtr.addr (f c w).1) + F)) (h : Lk md L0 w F) :
    Lk md L0 (Sherman.cloneKids f ks w).2 (((Sherman.cloneKids f ks w).1.map fc).sum + freeF (Sherman.cloneKids f ks w).1 + F) ∧
      (Sherman.cloneKids f ks w).1.length = ks.length := by
  induction ks generalizing w F with
  | nil => exact ⟨by simpa [Sherman.cloneKids, freeF] using h, rfl⟩
  | cons c cs ih =>
    have h1 := hf c (by simp) w F h
    obtain ⟨h2, h3⟩ := ih (fun c hc => hf c (by simp [hc])) h1
    simp only [Sherman.cloneKids, List.map_cons, List.sum_cons, List.length_cons, freeF] at h2 h3 ⊢
    exact ⟨h2.congr (by ac_rfl), by rw [h3]⟩

end

theorem Lk.deepClone {L0 : LinkMap} {h : Nat} : ∀ {t : Tree I S h} {w : World} {F : Multiset Fact}, Arity (treeF 𝒰 t) → Lk .unshared L0 w F →
    Lk .unshared L0 (deepCloneT t w).2 (treeF 𝒰 (deepCloneT t w).1 + free (ptrT (deepCloneT t w).1) + F) := by
  induction h with
  | zero =>
    intro t w F _ h
    exact h.congr (by simp [deepCloneT, treeF, ptrT, free])
  | succ h ih =>
    intro t w F ha hl
    have ha' : ∀ c ∈ Node.kids t, Arity (treeF 𝒰 c) := fun c hc k n hm =>
      ha k n (by simp only [treeF_all, nodeF, Multiset.mem_add]; exact .inr (mem_sum_map.2 ⟨c, hc, hm⟩))
    obtain ⟨h1, h2⟩ := Lk.cloneKids (fc := treeF 𝒰) (f := deepCloneT) (ks := Node.kids t)
      (fun c hc w F hl => ih (ha' c hc) hl) hl
    have har : (Node.keys t).length + 1 = (Node.kids t).length :=
      ha _ _ (by simp only [treeF_all, nodeF, Multiset.mem_add, Multiset.mem_singleton, true_or])
    have h3 := (Lk.alloc h1)
    generalize hk : Sherman.cloneKids deepCloneT (Node.kids t) w = kw at h1 h2 h3
    obtain ⟨ks, w1⟩ := kw
    dsimp only at h1 h2 h3
    have h4 := Lk.linkFree (F := free (some w1.next) + (List.map (treeF 𝒰) ks).sum + F) w1.next 0 (h3.congr (by ac_rfl))
    have h5 := h4.addArity (k := (Node.keys t).length) (n := ks.length) (by rw [h2]; exact har)
    simp only [deepCloneT, hk, ptrT]
    refine h5.congr ?_
    refine Eq.trans ?_ (congrArg (fun x => x + free (some w1.next) + F) treeF_all).symm
    simp only [nodeF, List.length_map]
    ac_rfl

theorem Lk.cloneNodes {L0 : LinkMap} {t : RleTree I S} {w : World} {F : Multiset Fact} (ha : Arity (t.F 𝒰)) (h : Lk .unshared L0 w F) :
    Lk .unshared L0 (t.cloneNodes w).2 ((t.cloneNodes w).1.F 𝒰 + F) := by
  cases hr : t.root with
  | none => simpa [RleTree.cloneNodes, hr, RleTree.F] using h
  | some r =>
    have : Arity (treeF 𝒰 r.tree) := fun k n hm => ha k n (by simp [RleTree.F, hr, hm])
    simpa [RleTree.cloneNodes, hr, RleTree.F] using Lk.deepClone this h

theorem relabelT_F {f} {h : Nat} {t : Tree I S h} : treeF 𝒰 (relabelT f t) = treeF 𝒰 t ∧ ptrT (relabelT f t) = ptrT t := by
  induction h with
  | zero => exact ⟨rfl, rfl⟩
  | succ h ih =>
    refine ⟨?_, rfl⟩
    have hk : ∀ (l : List (Tree I S h)) (p i : Nat), kidF p i (l.map (relabelT f)) = kidF p i l := by
      intro l p
      induction l with
      | nil => intro i; rfl
      | cons c l ihl =>
        intro i
        have : HasPtr.addr (relabelT f c) = HasPtr.addr c := (ih (t := c)).2
        simp only [List.map_cons, kidF, ihl, this]
    refine treeF_all.trans (Eq.trans ?_ treeF_all.symm)
    simp only [relabelT, nodeF, relabelK_length, List.length_map, hk, List.map_map]
    congr 2
    exact List.map_congr_left fun c _ => (ih (t := c)).1

theorem relabel_F {f} {t : RleTree I S} : (t.relabel f).F 𝒰 = t.F 𝒰 := by
  cases hr : t.root with
  | none => simp [RleTree.relabel, RleTree.F, hr]
  | some r => simp [RleTree.relabel, RleTree.F, hr, relabelT_F]

/-- The clone has the same nodes with the same contents, except for addresses and references. -/
theorem deepClone_alike {h : Nat} : ∀ {t : Tree I S h} {w : World}, Alike (relabelT (fun _ _ _ => none) t) (deepCloneT t w).1 := by
  have hkeys : ∀ (p i : Nat) (ks : List (Key I S)), relabelK (fun _ _ _ => none) p i ks = ks.map fun k => { k with ref := none } := by
    intro p i ks
    induction ks generalizing i with
    | nil => rfl
    | cons k ks ih => simp only [relabelK, ih, List.map_cons]
  induction h with
  | zero => intro t w; rfl
  | succ h ih =>
    intro t w
    refine alike_node.2 ⟨rfl, hkeys _ _ _, ?_⟩
    simp only [relabelT, deepCloneT]
    generalize Node.kids t = l
    induction l generalizing w with
    | nil => rfl
    | cons c l ihl =>
      simp only [List.map_cons, Sherman.cloneKids]
      rw [ihl]
      congr 1
      exact ih

/-- The clone has the same runs as the original. -/
theorem cloneNodes_alike {t : RleTree I S} {w : World} : (t.relabel fun _ _ _ => none).Alike (t.cloneNodes w).1 := by
  obtain ⟨r⟩ := t
  cases r with
  | none => trivial
  | some r => exact ⟨rfl, rfl, deepClone_alike⟩

/-! ## The invariant of a memory -/

namespace Forest

/-- The facts of all trees. -/
noncomputable def F (st : Forest I S) : Multiset Fact := (st.trees.map (RleTree.F 𝒰)).sum

/-- They hold of the memory. -/
def Inv (st : Forest I S) : Prop := Lk .unshared st.links st.world st.F

theorem tree_ok {st : Forest I S} {i : Nat} {t : RleTree I S} : st.tree i = .ok t ↔ st.trees[i]? = some t := by
  unfold tree; split <;> simp_all

end Forest

theorem Fact.Holds.unshared {L0 L : LinkMap} {f : Fact} (h : f.Holds .unshared L0 L) (L1 : LinkMap) : f.Holds .unshared L1 L := by
  cases f <;> simpa [Fact.Holds, Mode.unshared] using h

theorem Lk.restart {L0 L : LinkMap} {w : World} {F : Multiset Fact} (h : Lk .unshared L0 w F)
    (hr : runLinks .unshared L0 w.links = .ok L) : Lk .unshared L ⟨w.next, [], [], none, []⟩ F := by
  obtain ⟨⟨L', h1, h2, _⟩, h3, h4, h5⟩ := h
  rw [show runLinks Mode.unshared.toSharing L0 w.links = .ok L from hr] at h1; cases h1
  exact ⟨⟨L, rfl, fun f hf => (h2 f hf).unshared _, fun _ _ => rfl⟩, h3, h4, h5⟩

theorem sum_set {α : Type} {f : α → Multiset Fact} {l : List α} {i : Nat} {x y : α} (h : l[i]? = some x) :
    ∃ G, (l.map f).sum = f x + G ∧ ((l.set i y).map f).sum = f y + G := by
  induction l generalizing i with
  | nil => simp at h
  | cons a l ih =>
    cases i with
    | zero => simp at h; subst h; exact ⟨(l.map f).sum, by simp, by simp⟩
    | succ i =>
      obtain ⟨G, h1, h2⟩ := ih (by simpa using h)
      exact ⟨f a + G, by simp only [List.map_cons, List.sum_cons, h1]; ac_rfl,
        by simp only [List.set_cons_succ, List.map_cons, List.sum_cons, h2]; ac_rfl⟩

theorem Lk.sub {L0 : LinkMap} {w : World} {F G : Multiset Fact} (h : Lk .unshared L0 w (F + G)) (hw : w.links = []) :
    Lk .unshared L0 w G := by
  obtain ⟨⟨L, h1, h2, _⟩, h3, h4, h5⟩ := h
  rw [hw] at h1
  cases h1
  refine ⟨⟨L0, by rw [hw]; rfl, fun f hf => h2 f (by simp [hf]), fun _ _ => rfl⟩, ?_, fun p hp => h4 p (by simp [hp]), h5⟩
  rw [owners_add] at h3
  exact (Multiset.nodup_add.1 h3).2.1

theorem wayTr_true {h : Nat} {path : List Nat} {t : Tree I S h} : WayTr (fun _ => True) path t := by
  induction h generalizing path with
  | zero => trivial
  | succ h ih => cases path with
    | nil => trivial
    | cons => exact ⟨trivial, fun _ _ => ih⟩

namespace Forest

theorem Inv.mem {st : Forest I S} (h : st.Inv) {t : RleTree I S} (ht : t ∈ st.trees) : ∀ f ∈ t.F 𝒰, f.Holds .unshared st.links st.links := by
  obtain ⟨L, h1, h2, _⟩ := h.run
  cases h1
  exact fun f hf => h2 f (mem_sum_map.2 ⟨t, ht, hf⟩)

theorem Inv.insert {E : Env I S} {st : Forest I S} (hi : st.Inv) {i : Nat} {t t' : RleTree I S} {nop : Bool} {hints : List Nat} {idx : I}
    {s : S} {size : I} {out : Inserted} (ht : st.trees[i]? = some t)
    (h : t.insert E nop hints idx s size st.world = .ok (t', out)) :
    ∃ L, runLinks .unshared st.links out.world.links = .ok L ∧ Inv ⟨st.trees.set i t', out.world.next, L⟩ := by
  obtain ⟨G, h1, h2⟩ := sum_set (f := RleTree.F 𝒰) (y := t') ht
  have h3 := Lk.insert (F := G) h (fun _ _ _ _ => wayTr_true) (hi.congr h1)
  obtain ⟨L, hL, _⟩ := h3.run
  exact ⟨L, hL, (h3.restart hL).congr h2.symm⟩

theorem Inv.clone {st : Forest I S} (hi : st.Inv) {i : Nat} {t : RleTree I S} (ht : st.trees[i]? = some t) :
    ∃ L, runLinks .unshared st.links (t.cloneNodes st.world).2.links = .ok L ∧
      Inv ⟨st.trees ++ [(t.cloneNodes st.world).1], (t.cloneNodes st.world).2.next, L⟩ := by
  have ha : Arity (t.F 𝒰) := fun k n hm => hi.mem (List.mem_of_getElem? ht) _ hm
  have h3 := Lk.cloneNodes ha hi
  obtain ⟨L, hL, _⟩ := h3.run
  refine ⟨L, hL, (h3.restart hL).congr ?_⟩
  simp only [F, List.map_append, List.sum_append, List.map_cons, List.map_nil, List.sum_cons, List.sum_nil, add_zero]
  exact add_comm _ _

theorem Inv.set {st : Forest I S} (hi : st.Inv) {i : Nat} {t t' : RleTree I S} (ht : st.trees[i]? = some t)
    (h : t'.F 𝒰 = t.F 𝒰 ∨ t'.F 𝒰 = 0) : Inv { st with trees := st.trees.set i t' } := by
  obtain ⟨G, h1, h2⟩ := sum_set (f := RleTree.F 𝒰) (y := t') ht
  rcases h with h | h
  · exact hi.congr (by simp only [F, h1, h2, h])
  · exact (Lk.sub (hi.congr h1) rfl).congr (by simp only [F, h2, h, zero_add])

/-- The invariant holds of every state. -/
theorem Run.inv {E : Env I S} {st : Forest I S} (h : Run E st) : st.Inv := by
  induction h with
  | start n L => exact ⟨⟨L, rfl, by simp [F], fun _ _ => rfl⟩, by simp [F], by simp [F], fun _ _ => trivial⟩
  | newEmpty _ h ih =>
    simp only [Forest.newEmpty, RleTree.newEmpty, bind_ok_iff] at h
    obtain ⟨t, ⟨_, _, _, _, h1⟩, h2⟩ := h
    cases h1; cases h2
    exact ih.congr (by simp [F, RleTree.F])
  | @new st st' s size _ h ih =>
    simp only [Forest.new, bind_ok_iff] at h
    obtain ⟨⟨t, w⟩, h1, L, h2, h3⟩ := h
    cases h3
    have h4 := Lk.new h1 ih
    refine (h4.restart h2).congr ?_
    simp only [F, List.map_append, List.sum_append, List.map_cons, List.map_nil, List.sum_cons, List.sum_nil, add_zero]
    exact add_comm _ _
  | insert _ h ih =>
    simp only [Forest.insert, bind_ok_iff, tree_ok] at h
    obtain ⟨t, h1, ⟨t', out⟩, h2, L, h3, h4⟩ := h
    cases h4
    obtain ⟨L', h5, h6⟩ := ih.insert h1 h2
    rw [h3] at h5; cases h5
    exact h6
  | relabel _ h ih =>
    simp only [Forest.relabel, bind_ok_iff, tree_ok] at h
    obtain ⟨t, h1, h2⟩ := h
    cases h2
    exact ih.set h1 (.inl relabel_F)
  | clone _ h ih =>
    simp only [Forest.clone, bind_ok_iff, tree_ok] at h
    obtain ⟨t, h1, L, h3, h4⟩ := h
    cases h4
    obtain ⟨L', h5, h6⟩ := ih.clone h1
    rw [h3] at h5; cases h5
    exact h6
  | drop _ h ih =>
    simp only [Forest.drop, bind_ok_iff, tree_ok] at h
    obtain ⟨t, h1, h2⟩ := h
    cases h2
    exact ih.set h1 (.inr (by simp [RleTree.F]))

/-- **C21.** At every moment between operations, in every tree, each node's stored parent and index are those of the node that
really holds it, and the root's parent is `None`: in the tree changed by the last operation and in all others. -/
theorem Run.linked {E : Env I S} {st : Forest I S} (h : Run E st) : ∀ t ∈ st.trees, Linked st.links t :=
  fun _ ht => linked_of (h.inv.mem ht)

/-- **C21.** No insertion ever follows a wrong parent link, or finds one where it relies on there being none: an insertion
into a tree of a program does what `RleTree.insert` says, which knows the parents from the tree itself. -/
theorem Run.insert_eq {E : Env I S} {st : Forest I S} (h : Run E st) {i : Nat} {t : RleTree I S} (ht : st.trees[i]? = some t)
    (nop : Bool) (hints : List Nat) (idx : I) (s : S) (size : I) :
    (∀ t' out, t.insert E nop hints idx s size st.world = .ok (t', out) →
      ∃ L, st.insert E i nop hints idx s size = .ok (⟨st.trees.set i t', out.world.next, L⟩, out)) ∧
    ∀ e, t.insert E nop hints idx s size st.world = .error e → st.insert E i nop hints idx s size = .error e := by
  have h0 : st.tree i = .ok t := tree_ok.2 ht
  constructor
  · intro t' out h1
    obtain ⟨L, h2, _⟩ := h.inv.insert ht h1
    exact ⟨L, by simp only [Forest.insert, h0, R.bind_ok, h1, h2]; rfl⟩
  · intro e h1
    simp only [Forest.insert, h0, R.bind_ok, h1]; rfl

/-- Cloning always returns. -/
theorem Run.clone_returns {E : Env I S} {st : Forest I S} (h : Run E st) {i : Nat} {t : RleTree I S} (ht : st.trees[i]? = some t) :
    ∃ L, st.clone i = .ok ⟨st.trees ++ [(t.cloneNodes st.world).1], (t.cloneNodes st.world).2.next, L⟩ := by
  obtain ⟨L, h2, _⟩ := h.inv.clone ht
  exact ⟨L, by simp only [Forest.clone, tree_ok.2 ht, R.bind_ok, h2]; rfl⟩

end Forest

/-! ## Walking up -/

theorem firstKid_get {C X : Type} {f : C → R (Option X)} {l : List C} {i j : Nat} {x : X}
    (h : firstKid f i l = .ok (some (j, x))) : ∃ k c, j = i + k ∧ l[k]? = some c ∧ f c = .ok (some x) := by
  induction l generalizing i with
  | nil => cases h
  | cons c l ih =>
    simp only [firstKid, bind_ok_iff] at h
    obtain ⟨o, h1, h2⟩ := h
    cases o with
    | some y =>
      cases h2
      exact ⟨0, c, rfl, rfl, h1⟩
    | none =>
      obtain ⟨k, c', rfl, h3, h4⟩ := ih h2
      exact ⟨k + 1, c', by omega, by simpa using h3, h4⟩

theorem upPath_in {L : LinkMap} {p : Nat} {h : Nat} : ∀ {n : Tree I S (h + 1)} {path : List Nat}, LinkedT L n →
    pathIn p n = .ok (some path) → path.length ≤ h ∧ (∀ f acc, upPath L (f + path.length) p acc = upPath L f (Node.ptr n) (path ++ acc)) := by
  induction h with
  | zero =>
    intro n path _ hp
    unfold pathIn at hp
    split at hp
    · rename_i he; cases hp; exact ⟨Nat.le_refl _, fun f acc => by rw [he]; rfl⟩
    · simp only [bind_ok_iff] at hp
      obtain ⟨o, h1, h2⟩ := hp
      cases o with
      | none => cases h2
      | some x =>
        obtain ⟨k, c, _, _, h3⟩ := firstKid_get h1
        cases h3
  | succ h ih =>
    intro n path hl hp
    unfold pathIn at hp
    split at hp
    · rename_i he; cases hp; exact ⟨Nat.zero_le _, fun f acc => by rw [he]; rfl⟩
    · simp only [bind_ok_iff] at hp
      obtain ⟨o, h1, h2⟩ := hp
      cases o with
      | none => cases h2
      | some x =>
        obtain ⟨j, path'⟩ := x
        cases h2
        obtain ⟨k, c, rfl, h3, h4⟩ := firstKid_get h1
        obtain ⟨h5, h6⟩ := hl k c h3
        obtain ⟨h7, h8⟩ := ih h6 h4
        refine ⟨by simp; omega, fun f acc => ?_⟩
        have e : f + ((0 + k) :: path').length = (f + 1) + path'.length := by simp; omega
        rw [e, h8]
        simp only [upPath, h5 _ rfl, Nat.zero_add, List.cons_append]

theorem nodeAt_ptr {p : Nat} {h : Nat} {t : Tree I S h} {x} (hx : nodeAt p t = some x) : p ∈ treeP t ∧ Node.ptr x.2 = p := by
  induction h with
  | zero => cases hx
  | succ h ih =>
    simp only [treeP, nodeP, Multiset.mem_add, Multiset.mem_singleton]
    unfold nodeAt at hx
    split at hx
    · rename_i he; cases hx; exact ⟨.inl he.symm, he⟩
    · obtain ⟨c, hc, h1⟩ := List.exists_of_findSome?_eq_some hx
      exact ⟨.inr (mem_sum_map.2 ⟨c, hc, (ih h1).1⟩), (ih h1).2⟩

theorem nodeAt_none {p : Nat} {h : Nat} {t : Tree I S h} (hp : p ∉ treeP t) : nodeAt p t = none := by
  cases hx : nodeAt p t with
  | none => rfl
  | some x => exact absurd (nodeAt_ptr hx).1 hp

/-- With distinct addresses, a node of a child is the node of that address. -/
theorem nodeAt_kid {q h i : Nat} {n : Tree I S (h + 1)} {c : Tree I S h} {x} (hn : (treeP n).Nodup)
    (hc : (Node.kids n)[i]? = some c) (hx : nodeAt q c = some x) : nodeAt q n = some x := by
  have hq := (nodeAt_ptr hx).1
  simp only [treeP, nodeP] at hn
  obtain ⟨_, n2, n3⟩ := Multiset.nodup_add.1 hn
  have hne : ¬ Node.ptr n = q := by
    intro he
    exact (Multiset.disjoint_left.1 n3) (by rw [he]; simp) (mem_sum_map.2 ⟨c, List.mem_of_getElem? hc, hq⟩)
  obtain ⟨A, B, hk, _⟩ : ∃ A B, Node.kids n = A ++ c :: B ∧ A.length = i := by
    obtain ⟨hi, rfl⟩ := List.getElem?_eq_some_iff.1 hc
    exact ⟨(Node.kids n).take i, (Node.kids n).drop (i + 1), by simp, by simp; omega⟩
  have hA : ∀ a ∈ A, nodeAt q a = none := by
    intro a ha
    apply nodeAt_none
    rw [hk, List.map_append, List.map_cons] at n2
    exact not_mem_of_nodup n2 hq _ (List.mem_map_of_mem ha)
  unfold nodeAt
  rw [if_neg hne, hk, List.findSome?_append]
  rw [List.findSome?_eq_none_iff.2 hA]
  simp [hx]

/-- What is known of a walk from `p` up to the node `n`. -/
theorem upPos_in {ix : IdxOps I} {L : LinkMap} {H p k : Nat} {t : Tree I S H} {h : Nat} : ∀ {n : Tree I S (h + 1)}, LinkedT L n →
    (treeP n).Nodup → (∀ q x, nodeAt q n = some x → nodeAt q t = some x) → p ∈ treeP n →
    ∃ d x, ∃ g : I → R I, d ≤ h ∧ nodeAt p n = some x ∧
      (rangeIn ix p k n = do
        let pos ← Node.keyPos x.2 k
        let size ← Node.sliceSize ix (szT ix) x.2 k
        let pos ← g pos
        pure (some (pos, size))) ∧
      ∀ f pos, upPos ix L t (f + d) p pos = (g pos >>= upPos ix L t f (Node.ptr n)) := by
  induction h with
  | zero =>
    intro n hl hn hm hp
    have he : Node.ptr n = p := by
      simp only [treeP, nodeP, Multiset.mem_add, Multiset.mem_singleton] at hp
      rcases hp with hp | hp
      · exact hp.symm
      · obtain ⟨c, _, hc⟩ := mem_sum_map.1 hp
        simp [treeP] at hc
    refine ⟨0, ⟨0, n⟩, pure, Nat.le_refl _, by simp [nodeAt, he], ?_, fun f pos => by rw [he]; rfl⟩
    simp only [rangeIn, he, if_true]
    rfl
  | succ h ih =>
    intro n hl hn hm hp
    by_cases he : Node.ptr n = p
    · refine ⟨0, ⟨_, n⟩, pure, Nat.zero_le _, by simp [nodeAt, he], ?_, fun f pos => by rw [he]; rfl⟩
      simp only [rangeIn, he, if_true]
      rfl
    · have hn' := hn
      simp only [treeP, nodeP] at hn'
      simp only [treeP, nodeP, Multiset.mem_add, Multiset.mem_singleton] at hp
      rcases hp with hp | hp
      · exact absurd hp.symm he
      obtain ⟨c, hc, hpc⟩ := mem_sum_map.1 hp
      obtain ⟨i, hi⟩ := List.getElem?_of_mem hc
      obtain ⟨n1, n2, n3⟩ := Multiset.nodup_add.1 hn'
      obtain ⟨h5, h6⟩ := hl i c hi
      have hcn : (treeP c).Nodup := Multiset.nodup_of_le (le_sum_map hc) n2
      obtain ⟨d, x, g, g1, g2, g3, g4⟩ := ih (n := c) h6 hcn (fun q x hx => hm q x (nodeAt_kid hn hi hx)) hpc
      obtain ⟨A, B, hk, hA⟩ : ∃ A B, Node.kids n = A ++ c :: B ∧ A.length = i := by
        obtain ⟨hi', rfl⟩ := List.getElem?_eq_some_iff.1 hi
        exact ⟨(Node.kids n).take i, (Node.kids n).drop (i + 1), by simp, by simp; omega⟩
      have hAn : ∀ a ∈ A, rangeIn ix p k a = .ok none := by
        intro a ha
        apply (walk_absent ix p k _).1
        rw [hk, List.map_append, List.map_cons] at n2
        exact not_mem_of_nodup n2 hpc _ (List.mem_map_of_mem ha)
      have hmn : nodeAt (Node.ptr n) t = some ⟨_, n⟩ := hm _ _ (by simp [nodeAt])
      refine ⟨d + 1, x, fun pos => do
        let pos ← g pos
        let cp ← Node.childPos ix (szT ix) n i
        ix.addL pos cp, by omega, nodeAt_kid hn hi g2, ?_, ?_⟩
      · have hfk : firstKid (rangeIn ix p k) 0 (Node.kids n) = (do
            let pos ← Node.keyPos x.2 k
            let size ← Node.sliceSize ix (szT ix) x.2 k
            let pos ← g pos
            pure (some (i, pos, size))) := by
          have : ∀ (A : List (Tree I S (h + 1))) (j : Nat), (∀ a ∈ A, rangeIn ix p k a = .ok none) →
              firstKid (rangeIn ix p k) j (A ++ c :: B) = (do
                let pos ← Node.keyPos x.2 k
                let size ← Node.sliceSize ix (szT ix) x.2 k
                let pos ← g pos
                pure (some (j + A.length, pos, size))) := by
            intro A
            induction A with
            | nil =>
              intro j _
              simp only [List.nil_append, firstKid, g3, bind_assoc, pure_bind, List.length_nil, Nat.add_zero]
            | cons a A iha =>
              intro j ha
              simp only [List.cons_append, firstKid, ha a (by simp), R.bind_ok]
              rw [iha (j + 1) (fun b hb => ha b (by simp [hb]))]
              simp only [List.length_cons, show j + 1 + A.length = j + (A.length + 1) by omega]
          rw [hk, this A 0 hAn, hA, Nat.zero_add]
        rw [rangeIn, if_neg he, hfk]
        simp only [bind_assoc, pure_bind]
      · intro f pos
        rw [show f + (d + 1) = (f + 1) + d by omega, g4]
        simp only [bind_assoc]
        congr 1
        funext pos
        simp only [upPos, h5 _ rfl, hmn]

theorem upPos_root {ix : IdxOps I} {L : LinkMap} {H : Nat} {t : Tree I S H} {f p : Nat} {pos : I} (h : L p = none) (hf : 0 < f) :
    upPos ix L t f p pos = pure pos := by
  obtain ⟨f, rfl⟩ : ∃ g, f = g + 1 := ⟨f - 1, by omega⟩
  simp only [upPos, h]

theorem upPath_root {L : LinkMap} {f p : Nat} {acc : List Nat} (h : L p = none) (hf : 0 < f) : upPath L f p acc = pure acc := by
  obtain ⟨f, rfl⟩ : ∃ g, f = g + 1 := ⟨f - 1, by omega⟩
  simp only [upPath, h]

/-- Walking up from a handle gives what `rangeIn` computes from the root; one round per level is enough. -/
theorem rangeUp_eq {ix : IdxOps I} {L : LinkMap} {t : RleTree I S} {r : Root I S} (hl : Linked L t) (hr : t.root = some r)
    (hn : t.P.Nodup) {f p k : Nat} (hf : r.h < f) :
    rangeUp ix L f p k r.tree = (do
      match ← rangeIn ix p k r.tree with
      | none => .error (.ub "dangling SliceHandle")
      | some x => pure x) := by
  obtain ⟨h1, h2⟩ := hl r hr
  have hn' : (treeP r.tree).Nodup := by simpa [RleTree.P, hr] using hn
  by_cases hp : p ∈ treeP r.tree
  · obtain ⟨d, x, g, g1, g2, g3, g4⟩ := upPos_in (ix := ix) (k := k) (t := r.tree) h2 hn' (fun _ _ h => h) hp
    have e : f = (f - d) + d := by omega
    have hroot : ∀ pos, upPos ix L r.tree (f - d) (Node.ptr r.tree) pos = pure pos :=
      fun pos => upPos_root (h1 _ rfl) (by omega)
    rw [rangeUp, g2, g3]
    simp only [bind_assoc, pure_bind]
    congr 1; funext kp
    congr 1; funext size
    rw [e, g4]
    simp only [hroot, bind_assoc, pure_bind]
  · rw [rangeUp, nodeAt_none hp, (walk_absent ix p k hp).1]
    rfl

/-- The path collected on the way up is that computed by `pathIn` from the root. -/
theorem upPath_eq {L : LinkMap} {t : RleTree I S} {r : Root I S} (hl : Linked L t) (hr : t.root = some r) {f p : Nat}
    {path : List Nat} (hf : r.h < f) (hp : pathIn p r.tree = .ok (some path)) : upPath L f p [] = .ok path := by
  obtain ⟨h1, h2⟩ := hl r hr
  obtain ⟨h3, h4⟩ := upPath_in h2 hp
  have e : f = (f - path.length) + path.length := by omega
  rw [e, h4, upPath_root (h1 _ rfl) (by omega), List.append_nil]
  rfl

theorem pathIn_total {p : Nat} {h : Nat} {t : Tree I S h} : ∃ o, pathIn p t = .ok o ∧ (o = none → nodeAt p t = none) ∧
    (nodeAt p t = none → o = none) := by
  induction h with
  | zero => exact ⟨none, rfl, fun _ => rfl, fun _ => rfl⟩
  | succ h ih =>
    have hk : ∀ (l : List (Tree I S h)) (j : Nat), ∃ o, firstKid (pathIn p) j l = .ok o ∧
        (o = none → l.findSome? (nodeAt p) = none) ∧ (l.findSome? (nodeAt p) = none → o = none) := by
      intro l
      induction l with
      | nil => exact fun j => ⟨none, rfl, fun _ => rfl, fun _ => rfl⟩
      | cons c l ihl =>
        intro j
        obtain ⟨o, h1, h2, h3⟩ := ih (t := c)
        cases o with
        | some x =>
          refine ⟨some (j, x), by simp only [firstKid, h1, R.bind_ok]; rfl, by simp, ?_⟩
          intro hn
          rw [List.findSome?_cons] at hn
          cases hx : nodeAt p c with
          | none => cases h3 hx
          | some y => rw [hx] at hn; cases hn
        | none =>
          obtain ⟨o', g1, g2, g3⟩ := ihl (j + 1)
          have hc := h2 rfl
          exact ⟨o', by simp only [firstKid, h1, R.bind_ok]; exact g1, by rw [List.findSome?_cons, hc]; exact g2,
            by rw [List.findSome?_cons, hc]; exact g3⟩
    by_cases he : Node.ptr t = p
    · exact ⟨some [], by simp only [pathIn, he, if_true]; rfl, by simp, by simp [nodeAt, he]⟩
    · obtain ⟨o, h1, h2, h3⟩ := hk (Node.kids t) 0
      simp only [pathIn, nodeAt, he, if_false, h1, R.bind_ok]
      cases o with
      | none => exact ⟨none, rfl, fun _ => h2 rfl, fun _ => rfl⟩
      | some x => exact ⟨some (x.1 :: x.2), rfl, by simp, fun hn => by cases h3 hn⟩

/-- **C21.** With right links, `SliceRef::range` and `SliceRef::cursor`, which walk up along the links, give what
`RefTree.range` and `RefTree.cursor` compute from the root, errors included. -/
theorem RefTree.up_eq {E : Env I S} {L : LinkMap} {st : RefTree I S} (hl : Linked L st.tree) (hn : st.tree.P.Nodup) {f : Nat}
    (hf : ∀ r, st.tree.root = some r → r.h < f) (id : Nat) :
    st.rangeUp E L f id = st.range E id ∧ st.cursorUp L f id = st.cursor id := by
  constructor
  · unfold RefTree.rangeUp RefTree.range
    congr 1; funext o
    cases o with
    | none => rfl
    | some x =>
      obtain ⟨p, k⟩ := x
      cases hr : st.tree.root with
      | none => rfl
      | some r =>
        dsimp only
        rw [rangeUp_eq hl hr hn (hf r hr)]
        simp only [bind_assoc]
        congr 1; funext o
        cases o <;> rfl
  · unfold RefTree.cursorUp RefTree.cursor
    congr 1; funext o
    cases o with
    | none => rfl
    | some x =>
      obtain ⟨p, k⟩ := x
      cases hr : st.tree.root with
      | none => rfl
      | some r =>
        dsimp only
        obtain ⟨o, h1, h2, h3⟩ := pathIn_total (p := p) (t := r.tree)
        rw [h1, R.bind_ok]
        cases o with
        | none => rw [h2 rfl]
        | some path =>
          cases hx : nodeAt p r.tree with
          | none => cases h3 hx
          | some x => exact upPath_eq hl hr (hf r hr) h1

/-- The downward loop of `cursor_to`: the address of the node at which the descent ends; src/tree/mod.rs:483-509 -/
def cursorEnd (ix : IdxOps I) : {h : Nat} → Tree I S (h + 1) → I → R Nat
  | 0, n, _ => pure (Node.ptr n)
  | _ + 1, n, target => do
    match ← searchStep ix n none target with
    | .key _ _ => pure (Node.ptr n)
    | .child c cpos => do
      let target ← ix.subL target cpos
      let ch ← Node.child n c
      cursorEnd ix ch target

/-- `cursor_to` on a tree that does not share nodes, with its loop back up along the links; src/tree/mod.rs:459-529 -/
def RleTree.cursorToUp (E : Env I S) (L : LinkMap) (f : Nat) (t : RleTree I S) (idx : I) : R (List Nat) := do
  check (!E.ix.lt idx E.ix.zero) "index out of bounds, less than zero"
  check (E.ix.lt idx (t.size E)) "index out of bounds"
  match t.root with
  | none => .error (.panic "`self.root` should be `Some` if `0 <= idx < size`")
  | some r => do
    let p ← cursorEnd E.ix r.tree idx
    upPath L f p []

theorem cursorEnd_up {ix : IdxOps I} {L : LinkMap} {h : Nat} : ∀ {n : Tree I S (h + 1)} {target : I}, LinkedT L n →
    (∀ e, cursorLoop ix n target = .error e → cursorEnd ix n target = .error e) ∧
    ∀ path, cursorLoop ix n target = .ok path → path.length ≤ h ∧ ∃ p, cursorEnd ix n target = .ok p ∧
      ∀ f acc, upPath L (f + path.length) p acc = upPath L f (Node.ptr n) (path ++ acc) := by
  induction h with
  | zero =>
    intro n target _
    refine ⟨fun e he => by simp [cursorLoop, pure, Except.pure] at he, fun path hp => ?_⟩
    simp only [cursorLoop] at hp
    cases hp
    exact ⟨Nat.le_refl _, Node.ptr n, rfl, fun f acc => rfl⟩
  | succ h ih =>
    intro n target hl
    simp only [cursorEnd, cursorLoop]
    cases hs : searchStep ix n none target with
    | error e => exact ⟨fun e' he => by cases he; rfl, fun path hp => by cases hp⟩
    | ok o =>
      simp only [R.bind_ok]
      cases o with
      | key k kpos =>
        dsimp only
        refine ⟨fun e he => (by cases he), fun path hp => ?_⟩
        cases hp
        exact ⟨Nat.zero_le _, _, rfl, fun f acc => rfl⟩
      | child c cpos =>
        dsimp only
        cases ht : ix.subL target cpos with
        | error e => exact ⟨fun e' he => by cases he; rfl, fun path hp => by cases hp⟩
        | ok tg =>
          simp only [R.bind_ok]
          cases hch : Node.child n c with
          | error e => exact ⟨fun e' he => by cases he; rfl, fun path hp => by cases hp⟩
          | ok ch =>
            have hc : (Node.kids n)[c]? = some ch := by
              unfold Node.child at hch
              split at hch
              · rename_i x hx; cases hch; exact hx
              · cases hch
            obtain ⟨h5, h6⟩ := hl c ch hc
            obtain ⟨i1, i2⟩ := ih (n := ch) (target := tg) h6
            simp only [R.bind_ok]
            cases hcl : cursorLoop ix ch tg with
            | error e =>
              refine ⟨fun e' he => ?_, fun path hp => by cases hp⟩
              rw [i1 e hcl]; cases he; rfl
            | ok path' =>
              obtain ⟨j1, p, j2, j3⟩ := i2 path' hcl
              refine ⟨fun e he => (by cases he), fun path hp => ?_⟩
              cases hp
              refine ⟨by simp; omega, p, j2, fun f acc => ?_⟩
              rw [show f + (c :: path').length = (f + 1) + path'.length by simp; omega, j3]
              simp only [upPath, h5 _ rfl, List.cons_append]

/-- **C21.** `cursor_to`, which collects the path on its way back up along the links, gives the path chosen on the way down. -/
theorem RleTree.cursorToUp_eq {E : Env I S} {L : LinkMap} {t : RleTree I S} (hl : Linked L t) {f : Nat}
    (hf : ∀ r, t.root = some r → r.h < f) (idx : I) : t.cursorToUp E L f idx = t.cursorTo E idx := by
  unfold RleTree.cursorToUp RleTree.cursorTo
  congr 1; funext _
  congr 1; funext _
  cases hr : t.root with
  | none => rfl
  | some r =>
    dsimp only
    obtain ⟨h1, h2⟩ := hl r hr
    obtain ⟨i1, i2⟩ := cursorEnd_up (ix := E.ix) (target := idx) h2
    cases hc : cursorLoop E.ix r.tree idx with
    | error e => rw [i1 e hc]; rfl
    | ok path =>
      obtain ⟨j1, p, j2, j3⟩ := i2 path hc
      have := hf r hr
      rw [j2, R.bind_ok, show f = (f - path.length) + path.length by omega, j3, upPath_root (h1 _ rfl) (by omega), List.append_nil]
      rfl

/-! ## Ancestors in the model -/

/-- The tree made of a subtree and what is around it. -/
def Ctx.close {H : Nat} : {h : Nat} → Ctx I S H h → Tree I S h → Tree I S H
  | _, .top, t => t
  | _, .frame ptr size keys kl kr up, t => up.close (plugNode ptr size keys kl t kr)

theorem Ctx.close_linked {L : LinkMap} {H h : Nat} {ctx : Ctx I S H h} {t : Tree I S h} (hl : LinkedT L (ctx.close t)) : LinkedT L t := by
  induction ctx with
  | top => exact hl
  | frame ptr size keys kl kr up ih =>
    have h1 : LinkedT L (show Tree I S (_ + 1) from plugNode ptr size keys kl t kr) := ih hl
    exact (h1 kl.length t (by simp [plugNode])).2

/-- **C21.** The other modules represent the ancestors of a node by a `Ctx`, and `into_parent` (used by insertion, iteration, and
in src/tree/fix.rs) by taking its innermost frame.  In a tree with right links this is what following the link of the node does:
the link holds the address of the frame and the number of children to the left. -/
theorem Ctx.up_link {L : LinkMap} {H h : Nat} {ptr : Nat} {size : I} {keys : List (Key I S)} {kl kr : List (Tree I S (h + 1))}
    {up : Ctx I S H (h + 2)} {t : Tree I S (h + 1)} (hl : LinkedT L ((Ctx.frame ptr size keys kl kr up).close t)) :
    L (Node.ptr t) = some (ptr, kl.length) := by
  have h1 : LinkedT L (show Tree I S (h + 2) from plugNode ptr size keys kl t kr) := Ctx.close_linked (ctx := up) hl
  exact (h1 kl.length t (by simp [plugNode])).1 _ rfl

/-! ## References -/

theorem owners_kidF {C : Type} [HasPtr C] {p i : Nat} {l : List C} : owners (kidF p i l) = (l.map fun c => ownerOf (HasPtr.addr c)).sum := by
  induction l generalizing i with
  | nil => rfl
  | cons c l ih => simp only [kidF, owners_add, ih, List.map_cons, List.sum_cons, (Slot.hang (HasPtr.addr c) p i).owners]

theorem owners_sum {α : Type} {f : α → Multiset Fact} {l : List α} : owners (l.map f).sum = (l.map fun c => owners (f c)).sum := by
  induction l with
  | nil => rfl
  | cons c l ih => simp [ih]

theorem owners_treeF {h : Nat} {t : Tree I S h} : owners (treeF 𝒰 t) + ownerOf (ptrT t) = treeP t := by
  induction h with
  | zero => simp [treeF, ptrT, ownerOf, treeP]
  | succ h ih =>
    simp only [treeF_all, nodeF, treeP, nodeP, owners_add, owners_arity, owners_kidF, owners_sum, zero_add]
    have : ∀ l : List (Tree I S h), (l.map fun c => ownerOf (HasPtr.addr c)).sum + (l.map fun c => owners (treeF 𝒰 c)).sum =
        (l.map treeP).sum := by
      intro l
      induction l with
      | nil => rfl
      | cons c l ihl =>
        simp only [List.map_cons, List.sum_cons, ← ihl, ← ih (t := c)]
        have e : HasPtr.addr c = ptrT c := rfl
        rw [e]; ac_rfl
    rw [this (Node.kids t), add_comm]
    rfl

theorem owners_F {t : RleTree I S} : owners (t.F 𝒰) = t.P := by
  cases hr : t.root with
  | none => simp [RleTree.F, RleTree.P, hr]
  | some r =>
    simp only [RleTree.F, RleTree.P, hr, owners_add, (Slot.free _).owners]
    exact owners_treeF

/-- No address is used twice. -/
theorem Forest.Run.nodup {E : Env I S} {st : Forest I S} (h : Forest.Run E st) : ∀ t ∈ st.trees, t.P.Nodup := by
  intro t ht
  rw [← owners_F]
  have h1 := h.inv.ids
  simp only [Forest.F, owners_sum] at h1
  exact Multiset.nodup_of_le (le_sum_map (f := fun t : RleTree I S => owners (t.F 𝒰)) ht) h1

/-- A program with one tree and references to its runs, seen as a program on memory. -/
theorem Live.memory {MAX rcMax : Nat} {E : Env Nat S} {st : RefTree Nat S} {ids : List Nat} (h : Live MAX rcMax E st ids) :
    ∃ L, Forest.Run E ⟨[st.tree], st.next, L⟩ := by
  induction h with
  | @empty t n h =>
    refine ⟨fun _ => none, .newEmpty (.start n (fun _ => none)) ?_⟩
    simp only [Forest.newEmpty, h, R.bind_ok]; rfl
  | @single t s size n w _ h =>
    have hl : Lk .unshared (fun _ => none) w (t.F 𝒰 + 0) :=
      Lk.new h ⟨⟨_, rfl, by simp, fun _ _ => rfl⟩, by simp, by simp, fun _ _ => trivial⟩
    obtain ⟨L, hL, _⟩ := hl.run
    refine ⟨L, .new (s := s) (size := size) (.start n (fun _ => none)) ?_⟩
    simp only [Forest.new, Forest.world, h, R.bind_ok, show runLinks .unshared _ w.links = _ from hL]; rfl
  | @insert st st' ids nop hints idx s size out _ _ h ih =>
    obtain ⟨L, hL⟩ := ih
    simp only [RefTree.insert, bind_ok_iff] at h
    obtain ⟨⟨t, o⟩, h1, rv, _, h2⟩ := h
    cases h2
    obtain ⟨L', h3⟩ := (hL.insert_eq (i := 0) rfl nop hints idx s size).1 t o h1
    exact ⟨L', .insert hL h3⟩
  | @makeRef st st' ids hd id _ h ih =>
    obtain ⟨L, hL⟩ := ih
    simp only [RefTree.makeRef, bind_ok_iff] at h
    obtain ⟨c, _, h⟩ := h
    split at h
    · simp only [bind_ok_iff] at h
      obtain ⟨_, _, h⟩ := h
      cases h; exact ⟨L, hL⟩
    · simp only [bind_ok_iff] at h
      obtain ⟨_, _, ⟨id', rv'⟩, _, h⟩ := h
      cases h
      exact ⟨L, .relabel (i := 0) hL rfl⟩
  | cloneRef _ _ h ih =>
    obtain ⟨L, hL⟩ := ih
    simp only [RefTree.cloneRef, bind_ok_iff] at h
    obtain ⟨_, _, h⟩ := h
    cases h; exact ⟨L, hL⟩

/-- **C21.** Whatever a program with references did, the links in memory are right, and `range()` and `cursor()` of a reference
and `cursor_to` walk up along them to the true result. -/
theorem live_walks {MAX rcMax : Nat} {E : Env Nat S} {st : RefTree Nat S} {ids : List Nat} (h : Live MAX rcMax E st ids) :
    ∃ L, Forest.Run E ⟨[st.tree], st.next, L⟩ ∧ Linked L st.tree ∧
      ∀ f, (∀ r, st.tree.root = some r → r.h < f) →
        (∀ id, st.rangeUp E L f id = st.range E id ∧ st.cursorUp L f id = st.cursor id) ∧
        ∀ idx, st.tree.cursorToUp E L f idx = st.tree.cursorTo E idx := by
  obtain ⟨L, hL⟩ := h.memory
  have h1 := hL.linked st.tree (by simp)
  have h2 := hL.nodup st.tree (by simp)
  exact ⟨L, hL, h1, fun f hf => ⟨fun id => RefTree.up_eq h1 h2 hf id, fun idx => RleTree.cursorToUp_eq h1 hf idx⟩⟩

/-! ## An instance -/

/-- Nine insertions at alternating ends of a tree with at most two keys per node, then a clone, then one more insertion into the
first tree. -/
def exMem : R (Forest Nat Char) := do
  let st ← Forest.newEmpty exEnv ⟨[], 100, fun _ => some (7, 7)⟩
  let st ← "abcdefghi".toList.foldlM (fun (st : Forest Nat Char) c => do
    let (st, _) ← st.insert exEnv 0 false [] (if st.next % 2 = 0 then 0 else 1) c 1
    pure st) st
  let st ← st.clone 0
  let (st, _) ← st.insert exEnv 0 false [] 2 'z' 3
  pure st

theorem exMem_run {st : Forest Nat Char} (h : exMem = .ok st) : Forest.Run exEnv st := by
  have hf : ∀ (l : List Char) {a b : Forest Nat Char}, Forest.Run exEnv a → l.foldlM (fun (st : Forest Nat Char) c => do
      let (st, _) ← st.insert exEnv 0 false [] (if st.next % 2 = 0 then 0 else 1) c 1
      pure st) a = .ok b → Forest.Run exEnv b := by
    intro l
    induction l with
    | nil => intro a b ha hb; cases hb; exact ha
    | cons c l ih =>
      intro a b ha hb
      simp only [List.foldlM_cons, bind_ok_iff] at hb
      obtain ⟨a', ⟨⟨a'', out⟩, h1, h2⟩, h3⟩ := hb
      cases h2
      exact ih (.insert ha h1) h3
  simp only [exMem, bind_ok_iff] at h
  obtain ⟨s0, h0, s1, h1, s2, h2, ⟨s3, out⟩, h3, h4⟩ := h
  cases h4
  exact .insert (.clone (hf _ (.newEmpty (.start _ _) h0) h1) h2) h3

/-- It returns; both trees have three levels; node 103, a leaf created by the first tree, is by now child 0 of node 105, which is
child 1 of the root 106; node 113 is child 1 of node 114 in the clone. -/
example : ∃ st, exMem = .ok st ∧ Forest.Run exEnv st ∧ (∀ t ∈ st.trees, Linked st.links t) ∧
    (st.trees.map fun t => t.root.map Root.h) = [some 2, some 2] ∧
    [103, 105, 106, 113, 114, 115].map st.links = [some (105, 0), some (106, 1), none, some (114, 1), some (115, 1), none] := by
  have h : exMem.map (fun st => ((st.trees.map fun t => t.root.map Root.h), [103, 105, 106, 113, 114, 115].map st.links)) =
      .ok ([some 2, some 2], [some (105, 0), some (106, 1), none, some (114, 1), some (115, 1), none]) := by decide +kernel
  cases he : exMem with
  | error e => rw [he] at h; cases h
  | ok st =>
    rw [he] at h
    simp only [Except.map, Except.ok.injEq, Prod.mk.injEq] at h
    have hr := exMem_run he
    exact ⟨st, rfl, hr, hr.linked, h.1, h.2⟩

/-- The specification rejects wrong links: a child whose link names the wrong index. -/
example : ¬ LinkedT (I := Nat) (S := Char) (h := 2) (fun _ => some (5, 1))
    (⟨5, 2, [], [(⟨6, 2, [], []⟩ : Tree Nat Char 1)]⟩ : Tree Nat Char 2) := by
  intro h
  have := (h 0 _ rfl).1 6 rfl
  simp at this

end Sherman
