import Verif.Insert
/-!
# The tree looks at slices only through the `Slice` operations

If a map `f` from one slice type to another commutes with `split_at` and `try_join`, then it commutes with every step of an
insertion.  (With `f` forgetting marks on slices, this lets a proof follow a marked slice through the unmarked program.)
-/
namespace Sherman
variable {I S T C D : Type} {Ht : Nat}

/-- `f` commutes with the operations of the two slice types. -/
structure Hom (f : S → T) (E : Env I S) (F : Env I T) : Prop where
  ix : F.ix = E.ix
  M : F.M = E.M
  refs : F.refs = E.refs
  may : F.sl.mayJoin = E.sl.mayJoin
  split : ∀ s p, F.sl.splitAt (f s) p = (f (E.sl.splitAt s p).1, f (E.sl.splitAt s p).2)
  join : ∀ a b, F.sl.tryJoin (f a) (f b) = (E.sl.tryJoin a b).map f (Prod.map f f)

/-- Apply `f` to the slice of a key. -/
def Key.er (f : S → T) (k : Key I S) : Key I T := ⟨k.pos, f k.slice, k.ref⟩

/-- Apply `f` to the slices of a node and `g` to its children. -/
def Node.er (f : S → T) (g : C → D) (n : Node I S C) : Node I T D := ⟨n.ptr, n.size, n.keys.map (Key.er f), n.kids.map g⟩

/-- Apply `f` to the slices of a tree. -/
def erT (f : S → T) : {h : Nat} → Tree I S h → Tree I T h
  | 0, _ => ()
  | h + 1, n => Node.er f (erT f (h := h)) n

/-- Apply `f` to the slices above a subtree. -/
def Ctx.er (f : S → T) : {h : Nat} → Ctx I S Ht h → Ctx I T Ht h
  | _, .top => .top
  | _, .frame p z ks kl kr up => .frame p z (ks.map (Key.er f)) (kl.map (erT f)) (kr.map (erT f)) (up.er f)

/-- Apply `f` to the slices of a split under way. -/
def Bubble.er (f : S → T) (g : C → D) (b : Bubble I S C) : Bubble I T D :=
  ⟨g b.lhs, b.key.er f, b.keySize, g b.rhs, b.oldSize, b.shift, b.side, b.inserted⟩

def Post.er (f : S → T) : Post I S Ht → Post I T Ht
  | .done t => .done (erT f t)
  | .newRoot l k z r => .newRoot (erT f l) (k.er f) z (erT f r)

def Sized.er (f : S → T) (s : Sized I S) : Sized I T := ⟨f s.slice, s.size⟩

def Point.er (f : S → T) : Point I S Ht → Point I T Ht
  | .edge l c i a b => .edge (erT f l) (c.er f) i a b
  | .split h n c k p => .split h (erT f n) (c.er f) k p

def RleTree.er (f : S → T) (t : RleTree I S) : RleTree I T := ⟨t.root.map fun r => ⟨r.h, erT f r.tree, r.len⟩⟩

variable {f : S → T} {g : C → D}

theorem bindc {α β : Type} {x : R α} {k l : α → R β} (h : ∀ a, k a = l a) : (x >>= k) = (x >>= l) := by
  rw [funext h]

theorem bassoc {α β γ : Type} (x : R α) (k : α → R β) (l : β → R γ) : (x >>= k) >>= l = x >>= fun a => k a >>= l := by
  cases x <;> rfl

/-- One step of a computation and of its image. -/
theorem bindE {α α' β β' : Type} {x : R α} {x' : R α'} {e : α → α'} {k : α → R β} {k' : α' → R β'} {e2 : β → β'}
    (hx : x' = x >>= fun a => .ok (e a)) (hk : ∀ a, k' (e a) = k a >>= fun b => .ok (e2 b)) :
    (x' >>= k') = (x >>= k) >>= fun b => .ok (e2 b) := by
  subst hx
  cases x with
  | error e => rfl
  | ok a => exact hk a

/-- One step that does not depend on the slices. -/
theorem bindS {α β β' : Type} {x x' : R α} {k : α → R β} {k' : α → R β'} {e2 : β → β'}
    (hx : x' = x) (hk : ∀ a, k' a = k a >>= fun b => .ok (e2 b)) :
    (x' >>= k') = (x >>= k) >>= fun b => .ok (e2 b) := by
  subst hx
  cases x' with
  | error e => rfl
  | ok a => exact hk a

/-! ## Nodes -/

@[simp] theorem Node.er_ptr (n : Node I S C) : (n.er f g).ptr = n.ptr := rfl
@[simp] theorem Node.er_size (n : Node I S C) : (n.er f g).size = n.size := rfl
@[simp] theorem Node.er_keys (n : Node I S C) : (n.er f g).keys = n.keys.map (Key.er f) := rfl
@[simp] theorem Node.er_kids (n : Node I S C) : (n.er f g).kids = n.kids.map g := rfl
@[simp] theorem Key.er_pos (k : Key I S) : (k.er f).pos = k.pos := rfl
@[simp] theorem Key.er_slice (k : Key I S) : (k.er f).slice = f k.slice := rfl
@[simp] theorem Key.er_ref (k : Key I S) : (k.er f).ref = k.ref := rfl
@[simp] theorem Node.er_len (n : Node I S C) : (n.er f g).len = n.len := by simp [Node.len]

@[simp] theorem Node.er_tryKeyPos (n : Node I S C) (i : Nat) : (n.er f g).tryKeyPos i = n.tryKeyPos i := by
  simp [Node.tryKeyPos, Function.comp_def]

@[simp] theorem Node.er_nextPos (n : Node I S C) (i : Nat) : (n.er f g).nextPos i = n.nextPos i := by
  simp [Node.nextPos]

@[simp] theorem Node.er_keyPos (n : Node I S C) (i : Nat) : (n.er f g).keyPos i = n.keyPos i := by
  simp only [Node.keyPos, Node.er_keys, List.getElem?_map]
  cases n.keys[i]? <;> rfl

theorem Node.er_child (n : Node I S C) (i : Nat) : (n.er f g).child i = n.child i >>= fun c => .ok (g c) := by
  simp only [Node.child, Node.er_kids, List.getElem?_map]
  cases n.kids[i]? <;> rfl

theorem Node.er_childSize {sz : C → I} {sz' : D → I} (hs : ∀ c, sz' (g c) = sz c) (n : Node I S C) (i : Nat) :
    (n.er f g).childSize sz' i = n.childSize sz i := by
  simp only [Node.childSize, Node.er_child, bassoc]
  exact bindc fun a => by simp [hs]

theorem Node.er_sliceSize {ix : IdxOps I} {sz : C → I} {sz' : D → I} (hs : ∀ c, sz' (g c) = sz c) (n : Node I S C) (i : Nat) :
    (n.er f g).sliceSize ix sz' i = n.sliceSize ix sz i := by
  simp only [Node.sliceSize, Node.er_keyPos, Node.er_childSize hs, Node.er_nextPos]

theorem Node.er_setKeyPos (n : Node I S C) (k : Nat) (p : I) :
    (n.er f g).setKeyPos k p = n.setKeyPos k p >>= fun n => .ok (n.er f g) := by
  simp only [Node.setKeyPos, Node.er_keys, List.getElem?_map]
  cases n.keys[k]? <;> simp [Node.er, Key.er, List.map_set]

theorem Node.er_setSlice (n : Node I S C) (k : Nat) (s : S) :
    (n.er f g).setSlice k (f s) = n.setSlice k s >>= fun n => .ok (n.er f g) := by
  simp only [Node.setSlice, Node.er_keys, List.getElem?_map]
  cases n.keys[k]? <;> simp [Node.er, Key.er, List.map_set]

theorem Node.er_handle (n : Node I S C) (k : Nat) :
    (n.er f g).handle k = n.handle k >>= fun k => .ok (k.er f) := by
  simp only [Node.handle, Node.er_keys, List.getElem?_map]
  cases n.keys[k]? <;> simp

theorem er_mapPos (u : I → R I) (ks : List (Key I S)) :
    Node.mapPos u (ks.map (Key.er f)) = Node.mapPos u ks >>= fun ks => .ok (ks.map (Key.er f)) := by
  induction ks with
  | nil => rfl
  | cons k ks ih =>
    simp only [List.map_cons, Node.mapPos, Key.er_pos, ih, bassoc]
    exact bindc fun p => bindc fun l => rfl

theorem Node.er_setKeyPossWith (n : Node I S C) (u : I → R I) (i : Nat) :
    (n.er f g).setKeyPossWith u i = n.setKeyPossWith u i >>= fun n => .ok (n.er f g) := by
  simp only [Node.setKeyPossWith, Node.er_keys, Node.er_len, Node.er_size, ← List.map_drop, er_mapPos, bassoc, R.bind_ok]
  exact bindc fun _ => bindc fun l => bindc fun z => by simp [Node.er, List.map_take]

theorem Node.er_shiftKeys {ix : IdxOps I} (n : Node I S C) (b : Bool) (i : Nat) (p o z : I) :
    (n.er f g).shiftKeys ix b i p o z = n.shiftKeys ix b i p o z >>= fun n => .ok (n.er f g) := by
  cases b <;>
  · simp only [Node.shiftKeys, Node.er_len, Node.er_setKeyPossWith, bassoc, if_true, Bool.false_eq_true, if_false]

theorem Node.er_shiftKeysAuto {ix : IdxOps I} (n : Node I S C) (i : Nat) (p o z : I) :
    (n.er f g).shiftKeysAuto ix i p o z = n.shiftKeysAuto ix i p o z >>= fun n => .ok (n.er f g) :=
  Node.er_shiftKeys n _ i p o z

theorem er_updateFrom (p i : Nat) (ks : List (Key I S)) (w : World) :
    updateFrom p i (ks.map (Key.er f)) w = updateFrom p i ks w := by
  induction ks generalizing i w with
  | nil => rfl
  | cons k ks ih => simp only [List.map_cons, updateFrom, Key.er_ref, ih]

/-- `g` keeps the addresses of children. -/
class HomPtr {C D : Type} [HasPtr C] [HasPtr D] (g : C → D) : Prop where
  addr : ∀ c, HasPtr.addr (g c) = HasPtr.addr c

instance {h : Nat} : HomPtr (erT f : Tree I S h → Tree I T h) := ⟨fun _ => by cases h <;> rfl⟩

theorem er_linkFrom [HasPtr C] [HasPtr D] [HomPtr g] (p i : Nat) (ks : List C) (w : World) :
    linkFrom p i (ks.map g) w = linkFrom p i ks w := by
  induction ks generalizing i w with
  | nil => rfl
  | cons k ks ih => simp only [List.map_cons, linkFrom, HomPtr.addr, ih]

theorem er_indexFrom [HasPtr C] [HasPtr D] [HomPtr g] (p i : Nat) (ks : List C) (w : World) :
    indexFrom p i (ks.map g) w = indexFrom p i ks w := by
  induction ks generalizing i w with
  | nil => rfl
  | cons k ks ih => simp only [List.map_cons, indexFrom, HomPtr.addr, ih]

theorem Node.er_split [HasPtr C] [HasPtr D] [HomPtr g] (n : Node I S C) (mid : Nat) (w : World) :
    (n.er f g).split mid w = n.split mid w >>= fun r => .ok (r.1.er f g, r.2.1.er f, r.2.2.1.er f g, r.2.2.2) := by
  simp only [Node.split, Node.er_keys, List.getElem?_map]
  cases n.keys[mid]? with
  | none => rfl
  | some k =>
    simp only [Option.map_some, Key.er_ref, ← List.map_drop, er_updateFrom, Node.er_kids, er_linkFrom]
    simp [Node.er, List.map_take, List.map_drop]

theorem Node.er_insertKC [HasPtr C] [HasPtr D] [HomPtr g] (n : Node I S C) (mx i : Nat) (s : S) (r : Option Nat) (c : C) (w : World) :
    Node.insertKeyAndChild mx (n.er f g) i (f s) r (g c) w =
      Node.insertKeyAndChild mx n i s r c w >>= fun x => .ok (x.1.er f g, x.2) := by
  have e : (⟨n.nextPos i, f s, r⟩ : Key I T) = Key.er f ⟨n.nextPos i, s, r⟩ := rfl
  simp only [Node.insertKeyAndChild, Node.er_len, Node.er_nextPos, Node.er_ptr, Node.er_keys, ← List.map_drop, bassoc, e,
    ← List.map_cons, er_updateFrom, Node.er_kids, er_indexFrom, HomPtr.addr]
  exact bindc fun _ => bindc fun _ => by simp [Node.er, List.map_take]

theorem Node.er_pushKC [HasPtr C] [HasPtr D] [HomPtr g] (n : Node I S C) (mx : Nat) (s : S) (r : Option Nat) (c : C) (z : I) (w : World) :
    Node.pushKeyAndChild mx (n.er f g) (f s) r (g c) z w =
      Node.pushKeyAndChild mx n s r c z w >>= fun x => .ok (x.1.er f g, x.2) := by
  simp only [Node.pushKeyAndChild, Node.er_len, HomPtr.addr, bassoc]
  exact bindc fun _ => by simp [Node.er, Key.er]

theorem Node.er_replaceFirstChild [HasPtr C] [HasPtr D] [HomPtr g] (n : Node I S C) (c : C) (w : World) :
    (n.er f g).replaceFirstChild (g c) w = n.replaceFirstChild c w >>= fun x => .ok (x.1.er f g, g x.2.1, x.2.2) := by
  simp only [Node.replaceFirstChild, Node.er_kids, HomPtr.addr]
  cases n.kids <;> simp [Node.er]

@[simp] theorem erT_size (ix : IdxOps I) {h : Nat} (t : Tree I S h) : szT ix (erT f t) = szT ix t := by
  cases h <;> rfl

@[simp] theorem erT_ptr {h : Nat} (t : Tree I S h) : ptrT (erT f t) = ptrT t := by
  cases h <;> rfl

@[simp] theorem Ctx.er_readUp {h : Nat} (ctx : Ctx I S Ht h) (a : Option Nat) (w : World) : (ctx.er f).readUp a w = ctx.readUp a w := by
  induction ctx generalizing a w with
  | top => rfl
  | frame p z ks kl kr up ih => simp [Ctx.er, Ctx.readUp, ih]

theorem er_makeNewParent {ix : IdxOps I} {h : Nat} (l r : Tree I S (h + 1)) (k : Key I S) (z : I) (w : World) :
    makeNewParent ix (erT f l) (k.er f) z (erT f r) w = makeNewParent ix l k z r w >>= fun x => .ok (erT f x.1, x.2) := by
  simp only [makeNewParent, erT_size, bassoc]
  exact bindc fun _ => bindc fun _ => rfl

theorem er_plugNode (p : Nat) (z : I) (ks : List (Key I S)) (kl : List C) (c : C) (kr : List C) :
    plugNode p z (ks.map (Key.er f)) (kl.map g) (g c) (kr.map g) = (plugNode p z ks kl c kr).er f g := by
  simp [plugNode, Node.er]

/-! ## Sizes on the way up -/

theorem er_opPos {ix : IdxOps I} (n : Node I S C) (cok : COK) (ov : Option I) (o : I) :
    opPos ix (n.er f g) cok ov o = opPos ix n cok ov o := by
  cases ov <;> cases cok <;> simp [opPos]

theorem er_mapSizes {ix : IdxOps I} (m : Maps I) (hd : Bool) (ht : Nat) (n : Node I S C) (cok : COK) (ov : Option I) (o z : I) :
    mapSizes ix m hd ht (n.er f g) cok ov o z = mapSizes ix m hd ht n cok ov o z >>= fun x => .ok (x.1.er f g, x.2) := by
  unfold mapSizes
  split
  · rfl
  · simp only [er_opPos, bassoc]
    refine bindc fun _ => bindc fun _ => bindc fun _ => bindc fun _ => bindc fun _ => bindc fun _ => bindc fun _ => bindc fun _ => ?_
    cases cok with
    | child c => rfl
    | key k =>
      simp only [Node.er_keyPos, Node.er_setKeyPos, bassoc]
      refine bindc fun _ => bindc fun _ => bindc fun _ => bindc fun _ => rfl

theorem er_opStep {ix : IdxOps I} (m : Maps I) (hd : Bool) (ht : Nat) (n : Node I S C) (cok : COK) (ov : Option I) (o z : I) :
    opStep ix m hd ht (n.er f g) cok ov o z = opStep ix m hd ht n cok ov o z >>= fun x => .ok (x.1.er f g, x.2) := by
  simp only [opStep, er_mapSizes, bassoc, R.bind_ok]
  refine bindc fun x => ?_
  obtain ⟨n, ov, o, z⟩ := x
  simp only [er_opPos, Node.er_shiftKeysAuto, bassoc]
  exact bindc fun _ => bindc fun _ => rfl

theorem er_opUp {ix : IdxOps I} (m : Maps I) (hd : Bool) {h : Nat} (ctx : Ctx I S Ht h) (t : Tree I S h) (o z : I)
    (path : List Nat) :
    opUp ix m hd (ctx.er f) (erT f t) o z path = opUp ix m hd ctx t o z path >>= fun x => .ok (erT f x.1, x.2) := by
  induction ctx generalizing o z path with
  | top => rfl
  | frame p zz ks kl kr up ih =>
    simp only [Ctx.er, opUp, er_plugNode, List.length_map, er_opStep, bassoc, R.bind_ok]
    refine bindc fun x => ?_
    obtain ⟨n, on⟩ := x
    exact ih n on _ _

theorem er_opKey {ix : IdxOps I} (m : Maps I) (hd : Bool) {h : Nat} (ctx : Ctx I S Ht (h + 1)) (n : Tree I S (h + 1)) (k : Nat)
    (ov : Option I) (o z : I) (path : List Nat) :
    opKey ix m hd (ctx.er f) (erT f n) k ov o z path = opKey ix m hd ctx n k ov o z path >>= fun x => .ok (erT f x.1, x.2) := by
  have e := er_opStep (f := f) (g := erT f) (ix := ix) m hd h n (.key k) ov o z
  simp only [opKey, erT]
  rw [e]
  simp only [bassoc, R.bind_ok]
  refine bindc fun x => ?_
  obtain ⟨n, on⟩ := x
  exact er_opUp m hd ctx n on _ _

/-! ## Bubbling -/

theorem er_emitKey (cb : Cb) (b : Bool) (n : Node I S C) (k : Nat) (w : World) :
    emitKey cb b (n.er f g) k w = emitKey cb b n k w := by
  simp only [emitKey, Node.er_handle, bassoc]
  rfl

variable {E : Env I S} {F : Env I T}

section
variable {sz : C → I} {sz' : D → I}

theorem er_bubbleRoom [HasPtr C] [HasPtr D] [HomPtr g] (hh : Hom f E F) (hs : ∀ c, sz' (g c) = sz c) (cb : Cb) (n : Node I S C) (c : Nat) (b : Bubble I S C)
    (path : List Nat) (w : World) :
    bubbleRoom F cb sz' (n.er f g) c (b.er f g) path w =
      bubbleRoom E cb sz n c b path w >>= fun x => .ok (x.1.er f g, x.2) := by
  simp only [bubbleRoom, Bubble.er, hs, hh.ix, hh.M, Node.er_nextPos, Key.er_slice, Key.er_ref, Node.er_insertKC, bassoc, R.bind_ok]
  refine bindc fun _ => bindc fun _ => bindc fun x => ?_
  obtain ⟨a, b, c, d⟩ := x
  simp only [bassoc]
  refine bindc fun y => ?_
  obtain ⟨n, p, w⟩ := y
  simp only [Node.er_setKeyPos, er_emitKey, bassoc, R.bind_ok]
  exact bindc fun _ => bindc fun _ => bindc fun _ => rfl

theorem er_bubbleInsertHalf [HasPtr C] [HasPtr D] [HomPtr g] (hh : Hom f E F) (hs : ∀ c, sz' (g c) = sz c) (cb : Cb) (n : Node I S C) (c : Nat) (b : Bubble I S C)
    (sh : Option (Shift I)) (path : List Nat) (w : World) :
    bubbleInsertHalf F cb sz' (n.er f g) c (b.er f g) sh path w =
      bubbleInsertHalf E cb sz n c b sh path w >>= fun x => .ok (x.1.er f g, x.2) := by
  simp only [bubbleInsertHalf, Bubble.er, hs, hh.ix, hh.M, Node.er_nextPos, Key.er_slice, Key.er_ref, Node.er_insertKC, bassoc, R.bind_ok]
  refine bindc fun _ => bindc fun _ => bindc fun x => ?_
  obtain ⟨a, b, c, d⟩ := x
  simp only [bassoc]
  refine bindc fun _ => bindc fun _ => bindc fun _ => bindc fun y => ?_
  obtain ⟨n, p, w⟩ := y
  simp only [Node.er_setKeyPos, Node.er_shiftKeys, er_emitKey, bassoc, R.bind_ok]
  exact bindc fun _ => bindc fun _ => bindc fun _ => rfl

theorem er_firstPos (M : Nat) (n : Node I S C) : firstPos M (n.er f g) = firstPos M n := by
  simp only [firstPos, Node.er_tryKeyPos, Node.er_size]

theorem er_firstSize (hs : ∀ c, sz' (g c) = sz c) (M c : Nat) (o : I) (n : Node I S C) :
    firstSize sz' M c o (n.er f g) = firstSize sz M c o n := by
  simp only [firstSize, Node.er_childSize hs]

theorem er_bubbleSplit [HasPtr C] [HasPtr D] [HomPtr g] (hh : Hom f E F) (hs : ∀ c, sz' (g c) = sz c) (cb : Cb) (n : Node I S C) (c : Nat) (b : Bubble I S C)
    (path : List Nat) (w : World) :
    bubbleSplit F cb sz' (n.er f g) c (b.er f g) path w =
      bubbleSplit E cb sz n c b path w >>= fun x => .ok (x.1.er f (Node.er f g), x.2) := by
  simp only [bubbleSplit, hh.ix, hh.M, Node.er_split, bassoc, R.bind_ok]
  refine bindc fun mid => bindc fun x => ?_
  obtain ⟨p, key, rhs, w1⟩ := x
  simp only [er_firstPos, er_firstSize hs, bassoc]
  refine bindc fun _ => bindc fun _ => bindc fun _ => bindc fun kz => ?_
  have e : ({ Node.er f g p with size := (Key.er f key).pos } : Node I T D) = Node.er f g { p with size := key.pos } := rfl
  rw [e]
  split
  · simp only [Node.er_shiftKeys, bassoc, R.bind_ok]
    refine bindc fun rhs => ?_
    simp only [Bubble.er]
    cases hk : keepShift E.M c b.shift kz with | mk ks sh => ?_
    simp only
    split
    · have := er_bubbleInsertHalf hh hs cb { p with size := key.pos } c b sh path w1
      simp only [Bubble.er] at this
      rw [this]
      simp only [bassoc, R.bind_ok]
      refine bindc fun y => ?_
      rfl
    · simp only [bassoc]
      refine bindc fun c' => bindc fun sh => ?_
      have := er_bubbleInsertHalf hh hs cb rhs c' b sh path w1
      simp only [Bubble.er] at this
      rw [this]
      simp only [bassoc, R.bind_ok]
      refine bindc fun y => ?_
      rfl
  · simp only [Bubble.er, hs, Node.er_replaceFirstChild, bassoc, R.bind_ok]
    refine bindc fun y => ?_
    obtain ⟨rhs, old, w1⟩ := y
    simp only [hs, Node.er_size, bassoc, Key.er_slice, Key.er_ref, Node.er_pushKC, R.bind_ok]
    refine bindc fun _ => bindc fun _ => bindc fun z => ?_
    obtain ⟨p, w2⟩ := z
    simp only [Node.er_keyPos, Node.er_shiftKeysAuto, bassoc, R.bind_ok]
    exact bindc fun _ => bindc fun _ => rfl

end

theorem er_bubbleFinish (hh : Hom f E F) (cb : Cb) (m : Maps I) {h : Nat} (ctx : Ctx I S Ht h) (b : Bubble I S (Tree I S h))
    (hd : Bool) (path : List Nat) (w : World) :
    bubbleFinish F cb m (ctx.er f) (b.er f (erT f)) hd path w =
      bubbleFinish E cb m ctx b hd path w >>= fun x => .ok (x.1.er f, x.2) := by
  induction ctx generalizing hd path w with
  | top =>
    simp only [Ctx.er, bubbleFinish, Bubble.er, erT_ptr, bassoc]
    refine bindc fun _ => bindc fun _ => rfl
  | @frame h' p zz ks kl kr up ih =>
    simp only [Ctx.er, bubbleFinish, Bubble.er, erT_ptr, bassoc, er_plugNode, List.length_map, Node.er_len, hh.M]
    refine bindc fun x => ?_
    obtain ⟨hd', sh⟩ := x
    simp only
    split
    · have := er_bubbleRoom (g := erT f) (sz := szT E.ix) (sz' := szT F.ix) hh (fun c => by rw [hh.ix, erT_size]) cb (plugNode p zz ks kl b.lhs kr) kl.length
        { b with side := mapSide m h' (ptrT b.lhs) w.fst b.side, shift := sh }
      simp only [Bubble.er] at this
      rw [this]
      simp only [bassoc, R.bind_ok]
      refine bindc fun y => ?_
      obtain ⟨n, ov, o, z, path, w⟩ := y
      have := er_opKey (f := f) (ix := E.ix) m hd' up n kl.length (some ov) o z path
      simp only [erT] at this
      simp only [hh.ix, this, bassoc, R.bind_ok, Ctx.er_readUp]
      exact bindc fun _ => rfl
    · have := er_bubbleSplit (g := erT f) (sz := szT E.ix) (sz' := szT F.ix) hh (fun c => by rw [hh.ix, erT_size]) cb (plugNode p zz ks kl b.lhs kr) kl.length
        { b with side := mapSide m h' (ptrT b.lhs) w.fst b.side, shift := sh }
      simp only [Bubble.er] at this
      rw [this]
      simp only [bassoc, R.bind_ok]
      refine bindc fun y => ?_
      obtain ⟨b, path, w⟩ := y
      exact ih b hd' path w

/-! ## Leaves

`L n` is `erT f n` for a leaf, with the type of a node. -/

local notation "L" => Node.er f (erT f (h := 0))

theorem szL (ix : IdxOps I) (c : Tree I S 0) : szT ix (erT f c) = szT ix c := rfl

theorem er_leafInsert (hh : Hom f E F) (n : Node I S (Tree I S 0)) (i : Nat) (s : S) (w : World) :
    leafInsert F (L n) i (f s) w = leafInsert E n i s w >>= fun x => Except.ok (α := Tree I T 1 × I × World) (L x.1, x.2) := by
  simp only [leafInsert, hh.M]
  exact Node.er_insertKC (f := f) (g := erT f (h := 0)) n _ i s none () w

theorem er_leafPush (hh : Hom f E F) (n : Node I S (Tree I S 0)) (s : S) (r : Option Nat) (z : I) (w : World) :
    leafPush F (L n) (f s) r z w = leafPush E n s r z w >>= fun x => Except.ok (α := Tree I T 1 × World) (L x.1, x.2) := by
  simp only [leafPush, hh.M]
  exact Node.er_pushKC (f := f) (g := erT f (h := 0)) n _ s r () z w

theorem er_setSize (n : Node I S C) (z : I) :
    ({ ptr := n.ptr, size := z, keys := n.keys.map (Key.er f), kids := n.kids.map g } : Node I T D) =
      Node.er f g { ptr := n.ptr, size := z, keys := n.keys, kids := n.kids } := rfl

theorem er_leafSplitSmall (hh : Hom f E F) (cb : Cb) (n : Node I S (Tree I S 0)) (i : Nat) (ov : Option I) (a b : Sized I S) (w : World) :
    leafSplitSmall F cb (L n) i ov (a.er f) (b.er f) w =
      leafSplitSmall E cb n i ov a b w >>= fun x => .ok (x.1.er f (erT f), x.2) := by
  simp only [leafSplitSmall, hh.ix, hh.M, Node.er_len, Node.er_size, Node.er_split, bassoc, R.bind_ok]
  refine bindc fun _ => bindc fun _ => bindc fun _ => bindc fun _ => bindc fun x => ?_
  obtain ⟨n', mid, rhs, w⟩ := x
  simp only [Sized.er, Key.er_slice, Key.er_ref, Node.er_ptr, Node.er_keys, Node.er_kids, er_setSize]
  split
  · simp only [er_leafPush hh, bassoc, R.bind_ok]
    refine bindc fun x => bindc fun y => ?_
    refine bindc fun _ => bindc fun _ => rfl
  · simp only [er_leafPush hh, bassoc, R.bind_ok]
    exact bindc fun x => bindc fun y => rfl

theorem er_leafInsertHalf (hh : Hom f E F) (cb : Cb) (n : Node I S (Tree I S 0)) (i : Nat) (ov : Option I) (a : Sized I S)
    (b : Option (Sized I S)) (w : World) :
    leafInsertHalf F cb (L n) i ov (a.er f) (b.map (Sized.er f)) w =
      leafInsertHalf E cb n i ov a b w >>= fun x => Except.ok (α := Tree I T 1 × World) (L x.1, x.2) := by
  have key : ∀ pos old new : I,
      (do
        let (n, _, w) ← leafInsert F (L n) i (f a.slice) w
        let fstPos ← E.ix.addR pos new
        let n ← Node.setKeyPos n i fstPos
        let new ← E.ix.addR new a.size
        let (n, new, start, w) ← match b.map (Sized.er f) with
          | none => pure (n, new, i + 1, w)
          | some s => do
            let (n, _, w) ← leafInsert F n (i + 1) s.slice w
            let new ← E.ix.addR new s.size
            let sndPos ← E.ix.addR fstPos a.size
            let n ← Node.setKeyPos n (i + 1) sndPos
            pure (n, new, i + 2, w)
        let n ← Node.shiftKeys E.ix n true start pos old new
        let _ ← Node.handle n i
        let w ← emit cb (.insertion n.ptr i) w
        pure (n, w) : R (Tree I T 1 × World)) =
      ((do
        let (n, _, w) ← leafInsert E n i a.slice w
        let fstPos ← E.ix.addR pos new
        let n ← Node.setKeyPos n i fstPos
        let new ← E.ix.addR new a.size
        let (n, new, start, w) ← match b with
          | none => pure (n, new, i + 1, w)
          | some s => do
            let (n, _, w) ← leafInsert E n (i + 1) s.slice w
            let new ← E.ix.addR new s.size
            let sndPos ← E.ix.addR fstPos a.size
            let n ← Node.setKeyPos n (i + 1) sndPos
            pure (n, new, i + 2, w)
        let n ← Node.shiftKeys E.ix n true start pos old new
        let _ ← Node.handle n i
        let w ← emit cb (.insertion n.ptr i) w
        pure (n, w) : R (Tree I S 1 × World)) >>= fun x => Except.ok (α := Tree I T 1 × World) (L x.1, x.2)) := by
    intro pos old new
    simp only [er_leafInsert hh, bassoc, R.bind_ok]
    refine bindc fun y => bindc fun fp => ?_
    obtain ⟨n1, z1, w1⟩ := y
    change Node I S (Tree I S 0) at n1
    simp only [Node.er_setKeyPos, bassoc, R.bind_ok]
    refine bindc fun n1 => bindc fun new => ?_
    cases b with
    | none =>
      simp only [Option.map_none, R.pure_eq, R.bind_ok, Node.er_shiftKeys, bassoc, Node.er_handle]
      exact bindc fun n2 => bindc fun k => bindc fun w => rfl
    | some b =>
      simp only [Option.map_some, Sized.er, er_leafInsert hh, bassoc, R.bind_ok]
      refine bindc fun z => bindc fun _ => bindc fun _ => ?_
      obtain ⟨n1, z1, w1⟩ := z
      change Node I S (Tree I S 0) at n1
      simp only [Node.er_setKeyPos, bassoc, R.bind_ok]
      refine bindc fun n2 => ?_
      simp only [R.pure_eq, R.bind_ok, Node.er_shiftKeys, bassoc, Node.er_handle]
      exact bindc fun n2 => bindc fun k => bindc fun w => rfl
  cases ov with
  | none =>
    have := key (Node.nextPos n i) E.ix.zero E.ix.zero
    simp only [leafInsertHalf, hh.ix, Node.er_nextPos, R.pure_eq, R.bind_ok]
    exact this
  | some z =>
    simp only [leafInsertHalf, hh.ix, Node.er_keyPos, Node.er_sliceSize (szL E.ix), R.pure_eq, R.bind_ok, bassoc]
    refine bindc fun k => bindc fun p => bindc fun ss => ?_
    have := key p ss z
    simp only [R.pure_eq, R.bind_ok, bassoc] at this
    exact this

theorem er_prependSnd (hh : Hom f E F) (n : Node I S (Tree I S 0)) (b : Option (Sized I S)) (w : World) :
    prependSnd F (L n) (b.map (Sized.er f)) w = prependSnd E n b w >>= fun x => Except.ok (α := Tree I T 1 × World) (L x.1, x.2) := by
  cases b with
  | none => rfl
  | some b =>
    simp only [prependSnd, Option.map_some, Sized.er, er_leafInsert hh, bassoc, R.bind_ok, hh.ix]
    refine bindc fun x => ?_
    obtain ⟨n1, z1, w1⟩ := x
    change Node I S (Tree I S 0) at n1
    simp only [Node.er_shiftKeys, bassoc, R.bind_ok]
    exact bindc fun _ => rfl

theorem er_splitPlace (hh : Hom f E F) (cb : Cb) (at_ : Side ⊕ Side) (n : Node I S (Tree I S 0)) (key : Key I S) (kz : I)
    (rhs : Node I S (Tree I S 0))
    (rs oz : I) (i mid : Nat) (ov : Option I) (a : Sized I S) (b : Option (Sized I S)) (w : World) :
    splitPlace F cb at_ (L n) (key.er f) kz (L rhs) rs oz i mid ov (a.er f) (b.map (Sized.er f)) w =
      splitPlace E cb at_ n key kz rhs rs oz i mid ov a b w >>= fun x => .ok (x.1.er f (erT f), x.2) := by
  simp only [splitPlace, hh.ix]
  cases at_ with
  | inr sd =>
    cases sd with
    | right =>
      simp only [Node.er_size, Key.er_slice, Key.er_ref, er_leafPush hh, bassoc, R.bind_ok]
      refine bindc fun _ => bindc fun x => ?_
      obtain ⟨n1, w1⟩ := x
      change Node I S (Tree I S 0) at n1
      simp only [Node.er_len]
      refine bindc fun _ => ?_
      simp only [Node.er_ptr]
      refine bindc fun _ => ?_
      simp only [er_prependSnd hh, bassoc, R.bind_ok]
      exact bindc fun y => rfl
    | left =>
      cases b with
      | none => rfl
      | some b =>
        simp only [Option.map_some, Node.er_size, Key.er_slice, Key.er_ref, er_leafPush hh, bassoc, R.bind_ok, Sized.er]
        refine bindc fun _ => bindc fun _ => bindc fun x => ?_
        obtain ⟨n1, w1⟩ := x
        change Node I S (Tree I S 0) at n1
        simp only [er_leafPush hh, bassoc, R.bind_ok]
        refine bindc fun x => ?_
        obtain ⟨n1, w1⟩ := x
        change Node I S (Tree I S 0) at n1
        simp only [Node.er_handle, Node.er_len, Node.er_ptr, bassoc]
        refine bindc fun _ => bindc fun _ => bindc fun _ => bindc fun _ => rfl
  | inl sd =>
    cases sd with
    | left =>
      simp only [er_leafInsertHalf hh, bassoc, R.bind_ok]
      exact bindc fun _ => rfl
    | right =>
      simp only [er_leafInsertHalf hh, bassoc, R.bind_ok]
      exact bindc fun _ => bindc fun _ => rfl

theorem er_leafSplit (hh : Hom f E F) (cb : Cb) (n : Node I S (Tree I S 0)) (i : Nat) (ov : Option I) (a : Sized I S)
    (b : Option (Sized I S)) (w : World) :
    leafSplit F cb (L n) i ov (a.er f) (b.map (Sized.er f)) w =
      leafSplit E cb n i ov a b w >>= fun x => .ok (x.1.er f (erT f), x.2) := by
  simp only [leafSplit, hh.ix, hh.M, Node.er_len]
  split
  · cases b with
    | none => rfl
    | some b => exact er_leafSplitSmall hh cb n i ov a b w
  · simp only [Option.isSome_map, Node.er_split, bassoc, R.bind_ok]
    refine bindc fun x => ?_
    obtain ⟨mid, at_⟩ := x
    simp only
    refine bindc fun y => ?_
    obtain ⟨n', key, rhs, w⟩ := y
    simp only [Node.er_len, Node.er_ptr, Node.er_size, Node.er_tryKeyPos, Key.er_pos]
    refine bindc fun _ => bindc fun _ => bindc fun z => ?_
    obtain ⟨kz, ov⟩ := z
    simp only [Node.er_shiftKeys, bassoc, R.bind_ok]
    refine bindc fun rhs => ?_
    exact er_splitPlace hh cb at_ { ptr := n'.ptr, size := key.pos, keys := n'.keys, kids := n'.kids } key kz rhs _ _ i mid ov a b _

theorem er_leafRoom (hh : Hom f E F) (cb : Cb) (n : Node I S (Tree I S 0)) (i : Nat) (ov : Option I) (a : Sized I S)
    (b : Option (Sized I S)) (ad : I) (w : World) :
    leafRoom F cb (L n) i ov (a.er f) (b.map (Sized.er f)) ad w =
      leafRoom E cb n i ov a b ad w >>= fun x => Except.ok (α := Tree I T 1 × Option I × I × I × World) (L x.1, x.2) := by
  simp only [leafRoom, hh.ix]
  cases ov with
  | some z =>
    simp only [Node.er_keyPos, Node.er_sliceSize (szL E.ix), Sized.er, er_leafInsert hh, bassoc, R.bind_ok]
    refine bindc fun _ => bindc fun _ => bindc fun _ => bindc fun _ => bindc fun x => ?_
    obtain ⟨n1, z1, w1⟩ := x
    change Node I S (Tree I S 0) at n1
    simp only [Node.er_setKeyPos, bassoc, R.bind_ok]
    refine bindc fun n1 => ?_
    cases b with
    | none =>
      simp only [Option.map_none, R.pure_eq, R.bind_ok, bassoc, Node.er_handle, Node.er_ptr]
    | some b =>
      simp only [Option.map_some, Sized.er, er_leafInsert hh, R.pure_eq, R.bind_ok, bassoc]
      refine bindc fun x => bindc fun _ => ?_
      obtain ⟨n1, z1, w1⟩ := x
      change Node I S (Tree I S 0) at n1
      simp only [Node.er_setKeyPos, R.bind_ok, bassoc, Node.er_handle, Node.er_ptr]
  | none =>
    simp only [Sized.er, er_leafInsert hh, bassoc, R.bind_ok]
    refine bindc fun x => ?_
    obtain ⟨n1, z1, w1⟩ := x
    change Node I S (Tree I S 0) at n1
    cases b with
    | none =>
      simp only [Option.map_none, R.pure_eq, R.bind_ok, bassoc, Node.er_handle, Node.er_ptr]
    | some b =>
      simp only [Option.map_some, Sized.er, er_leafInsert hh, R.pure_eq, R.bind_ok, bassoc]
      refine bindc fun x => bindc fun _ => ?_
      obtain ⟨n1, z1, w1⟩ := x
      change Node I S (Tree I S 0) at n1
      simp only [Node.er_setKeyPos, R.bind_ok, bassoc, Node.er_handle, Node.er_ptr]

theorem er_noJoin (hh : Hom f E F) (cb : Cb) (m : Maps I) (n : Node I S (Tree I S 0)) (ctx : Ctx I S Ht 1) (i : Nat) (ov : Option I)
    (a : Sized I S) (b : Option (Sized I S)) (w : World) :
    noJoin F cb m (L n) (ctx.er f) i ov (a.er f) (b.map (Sized.er f)) w =
      noJoin E cb m n ctx i ov a b w >>= fun x => .ok (x.1.er f, x.2) := by
  have key : ∀ (one : Nat) (added : I),
      (do
        let lim ← usub (2 * E.M) one
        if Node.len n ≥ lim then do
          let (b, w) ← leafSplit F cb (L n) i ov (a.er f) (b.map (Sized.er f)) w
          bubbleFinish F cb m (ctx.er f) b false [] w
        else do
          let (n, ovPos, old, new, w) ← leafRoom F cb (L n) i ov (a.er f) (b.map (Sized.er f)) added w
          let (t, path) ← opKey E.ix m false (ctx.er f) n (i + one) ovPos old new []
          pure (Post.done t, path, (ctx.er f).readUp (ptrT n) w)) =
      ((do
        let lim ← usub (2 * E.M) one
        if Node.len n ≥ lim then do
          let (b, w) ← leafSplit E cb n i ov a b w
          bubbleFinish E cb m ctx b false [] w
        else do
          let (n, ovPos, old, new, w) ← leafRoom E cb n i ov a b added w
          let (t, path) ← opKey E.ix m false ctx n (i + one) ovPos old new []
          pure (Post.done t, path, ctx.readUp (ptrT n) w)) >>= fun x => .ok (x.1.er f, x.2)) := by
    intro one added
    simp only [bassoc]
    refine bindc fun lim => ?_
    split
    · simp only [er_leafSplit hh, bassoc, R.bind_ok]
      refine bindc fun x => ?_
      exact er_bubbleFinish hh cb m ctx x.1 false [] x.2
    · simp only [er_leafRoom hh, bassoc, R.bind_ok]
      refine bindc fun x => ?_
      obtain ⟨n1, ov1, o1, z1, w1⟩ := x
      rw [← bassoc]
      exact bindE (er_opKey (f := f) (ix := E.ix) m false ctx n1 (i + one) ov1 o1 z1 []) fun y => by
        simp only [Ctx.er_readUp, erT_ptr]; rfl
  simp only [noJoin, hh.ix, hh.M, Node.er_len, bassoc]
  refine bindc fun _ => bindc fun _ => ?_
  cases b with
  | none =>
    have := key 0 a.size
    simp only [Option.map_none, bassoc, R.bind_ok, R.pure_eq] at this ⊢
    exact this
  | some b =>
    simp only [Option.map_some, bassoc, R.bind_ok, R.pure_eq]
    refine bindc fun ad => ?_
    have := key 1 ad
    simp only [Option.map_some, bassoc, R.bind_ok, R.pure_eq] at this
    exact this

/-! ## Searching -/

theorem er_hintStep (ix : IdxOps I) {h : Nat} (n : Tree I S (h + 1)) (hint : Option Nat) (t : I) :
    hintStep ix (erT f n) hint t = hintStep ix n hint t := by
  cases h with
  | zero => rfl
  | succ h =>
    cases hint with
    | none => rfl
    | some c =>
      have e1 : Node.len (erT f n) = Node.len n := Node.er_len (f := f) (g := erT f) n
      have e2 : Node.childSize (szT ix) (erT f n) c = Node.childSize (szT ix) n c := Node.er_childSize (f := f) (g := erT f) (erT_size ix) n c
      have e3 : Node.nextPos (erT f n) c = Node.nextPos n c := Node.er_nextPos (f := f) (g := erT f) n c
      simp only [hintStep]
      erw [e1, e2, e3]

theorem er_fullStep (ix : IdxOps I) {h : Nat} (n : Tree I S (h + 1)) (t : I) :
    fullStep ix (erT f n) t = fullStep ix n t := by
  have e1 : Node.len (erT f n) = Node.len n := Node.er_len (f := f) (g := erT f) n
  have e2 : ∀ c, Node.childSize (szT ix) (erT f n) c = Node.childSize (szT ix) n c :=
    fun c => Node.er_childSize (f := f) (g := erT f) (erT_size ix) n c
  have e3 : ∀ c, Node.nextPos (erT f n) c = Node.nextPos n c := fun c => Node.er_nextPos (f := f) (g := erT f) n c
  have e4 : ∀ c, Node.keyPos (erT f n) c = Node.keyPos n c := fun c => Node.er_keyPos (f := f) (g := erT f) n c
  have e5 : (Node.keys (erT f n)).map (·.pos) = (Node.keys n).map (·.pos) := by
    have : Node.keys (erT f n) = (Node.keys n).map (Key.er f) := rfl
    rw [this, List.map_map]
    rfl
  unfold fullStep
  erw [e5, e1]
  refine bindc fun r => ?_
  rcases r with i | (_ | k)
  · simp only
    erw [e4]
  · rfl
  · simp only
    erw [e2, e3, e4]

theorem er_searchStep (ix : IdxOps I) {h : Nat} (n : Tree I S (h + 1)) (hint : Option Nat) (t : I) :
    searchStep ix (erT f n) hint t = searchStep ix n hint t := by
  simp only [searchStep, er_hintStep, er_fullStep]
  rfl

theorem er_findStep (ix : IdxOps I) {h : Nat} (n : Tree I S (h + 1)) (hint : Option Nat) (t : I) :
    findStep ix (erT f n) hint t = findStep ix n hint t := by
  have e2 : ∀ c, Node.childSize (szT ix) (erT f n) c = Node.childSize (szT ix) n c :=
    fun c => Node.er_childSize (f := f) (g := erT f) (erT_size ix) n c
  simp only [findStep, er_searchStep]
  refine bindc fun r => ?_
  cases r with
  | child c p => rfl
  | key k p =>
    simp only
    split
    · erw [e2]
    · rfl

theorem er_adjacent (hh : Hom f E F) (h : Nat) (n : Node I S C) (c : Nat) (l r : Option (Nat × Nat)) :
    adjacent F h (n.er f g) c l r = adjacent E h n c l r := by
  simp only [adjacent, hh.may, Node.er_len]

theorem er_frame {h : Nat} (n : Tree I S (h + 2)) (c : Nat) (ctx : Ctx I S Ht (h + 2)) :
    Ctx.frame (Node.ptr (erT f n)) (Node.size (erT f n)) (Node.keys (erT f n)) ((Node.kids (erT f n)).take c)
        ((Node.kids (erT f n)).drop (c + 1)) (ctx.er f) =
      (Ctx.frame (Node.ptr n) (Node.size n) (Node.keys n) ((Node.kids n).take c) ((Node.kids n).drop (c + 1)) ctx).er f := by
  simp only [Ctx.er, List.map_take, List.map_drop]
  rfl

theorem er_findPoint (hh : Hom f E F) {h : Nat} (n : Tree I S (h + 1)) (ctx : Ctx I S Ht (h + 1)) (hints : Option (List Nat)) (t : I)
    (l r : Option (Nat × Nat)) :
    findPoint F (erT f n) (ctx.er f) hints t l r = findPoint E n ctx hints t l r >>= fun p => .ok (p.er f) := by
  induction h generalizing hints t l r with
  | zero =>
    simp only [findPoint, hh.ix]
    refine bindS (er_findStep E.ix n _ t) fun st => ?_
    cases st with
    | child c p =>
      have := er_adjacent (f := f) (g := erT f (h := 0)) hh 0 n c l r
      simp only
      erw [this]
      rfl
    | key k p =>
      refine bindE (Node.er_handle (f := f) (g := erT f (h := 0)) n k) fun _ => ?_
      exact bindS rfl fun d => rfl
  | succ h ih =>
    simp only [findPoint, hh.ix]
    refine bindS (er_findStep E.ix n _ t) fun st => ?_
    cases st with
    | child c p =>
      have := er_adjacent (f := f) (g := erT f (h := h + 1)) hh (h + 1) n c l r
      simp only
      erw [this]
      refine bindS rfl fun t' => ?_
      refine bindE (Node.er_child (f := f) (g := erT f (h := h + 1)) n c) fun ch => ?_
      rw [er_frame]
      exact ih ch _ _ _ _ _
    | key k p =>
      refine bindE (Node.er_handle (f := f) (g := erT f (h := h + 1)) n k) fun _ => ?_
      exact bindS rfl fun d => rfl

/-! ## Joins -/

theorem er_climb (k : Nat) {h : Nat} (t : Tree I S (h + 1)) (ctx : Ctx I S Ht (h + 1)) :
    climb k (erT f t) (ctx.er f) = climb k t ctx >>= fun x => .ok ⟨x.1, erT f x.2.1, x.2.2.er f⟩ := by
  induction k generalizing h with
  | zero => rfl
  | succ k ih =>
    cases ctx with
    | top => rfl
    | frame p z ks kl kr up =>
      simp only [Ctx.er, climb, er_plugNode]
      exact ih (plugNode p z ks kl t kr) up

theorem er_setSliceUp (k : Nat) {h : Nat} (ctx : Ctx I S Ht h) (i : Nat) (s : S) :
    setSliceUp k (ctx.er f) i (f s) = setSliceUp k ctx i s >>= fun c => .ok (c.er f) := by
  induction k generalizing h with
  | zero =>
    cases ctx with
    | top => rfl
    | frame p z ks kl kr up =>
      simp only [Ctx.er, setSliceUp, List.getElem?_map]
      cases ks[i]? with
      | none => rfl
      | some k => simp [Ctx.er, List.map_set, Key.er]
  | succ k ih =>
    cases ctx with
    | top => rfl
    | frame p z ks kl kr up =>
      simp only [Ctx.er, setSliceUp]
      exact bindE (ih up) fun _ => rfl

theorem er_setSliceAt (leaf : Tree I S 1) (ctx : Ctx I S Ht 1) (hd : Nat × Nat) (s : S) :
    setSliceAt (erT f leaf) (ctx.er f) hd (f s) = setSliceAt leaf ctx hd s >>= fun x => .ok (erT f x.1, x.2.er f) := by
  obtain ⟨_ | n, k⟩ := hd
  · simp only [setSliceAt]
    exact bindE (Node.er_setSlice (f := f) (g := erT f (h := 0)) leaf k s) fun _ => rfl
  · simp only [setSliceAt]
    exact bindE (er_setSliceUp n ctx k s) fun _ => rfl

theorem er_handleAt (ix : IdxOps I) (leaf : Tree I S 1) (ctx : Ctx I S Ht 1) (hd : Nat × Nat) :
    handleAt ix (erT f leaf) (ctx.er f) hd = handleAt ix leaf ctx hd >>= fun x => .ok (f x.1, x.2) := by
  unfold handleAt
  refine bindE (er_climb hd.1 leaf ctx) fun x => ?_
  obtain ⟨h', n, c⟩ := x
  refine bindE (Node.er_handle (f := f) (g := erT f) n hd.2) fun key => ?_
  exact bindS (Node.er_sliceSize (f := f) (g := erT f) (erT_size ix) n hd.2) fun z => rfl

theorem er_finishJoin (hh : Hom f E F) (leaf : Tree I S 1) (ctx : Ctx I S Ht 1) (hd : Nat × Nat) (o z : I) (w : World) :
    finishJoin F (erT f leaf) (ctx.er f) hd o z w = finishJoin E leaf ctx hd o z w >>= fun x => .ok (x.1.er f, x.2) := by
  unfold finishJoin
  refine bindE (er_climb hd.1 leaf ctx) fun x => ?_
  obtain ⟨h', n, c⟩ := x
  refine bindS rfl fun w => ?_
  refine bindE (e := fun x => (erT f x.1, x.2)) ?_ fun y => by
    simp only [Ctx.er_readUp, erT_ptr]; rfl
  rw [hh.ix]
  exact er_opKey _ false c n hd.2 none o z []

/-- Apply `f` to the outcome of an attempt to join. -/
def erJ (f : S → T) : JoinResult I S Ht → JoinResult I T Ht
  | .inl r => .inl (r.1.er f, r.2)
  | .inr (l, c, s) => .inr (erT f l, c.er f, f s)

theorem er_tryJoinEdge (hh : Hom f E F) (leaf : Tree I S 1) (ctx : Ctx I S Ht 1) (l r : Option (Nat × Nat)) (s : S) (z : I)
    (w : World) :
    tryJoinEdge F (erT f leaf) (ctx.er f) l r (f s) z w = tryJoinEdge E leaf ctx l r s z w >>= fun x => .ok (erJ f x) := by
  simp only [tryJoinEdge, hh.may, hh.ix]
  split
  · rfl
  · cases l with
    | none =>
      cases r with
      | none => rfl
      | some r =>
        refine bindE (er_handleAt E.ix leaf ctx r) fun x => ?_
        obtain ⟨rs, rz⟩ := x
        simp only [hh.join]
        cases hj : E.sl.tryJoin s rs with
        | inl m =>
          simp only [Sum.map_inl]
          refine bindE (er_setSliceAt leaf ctx r m) fun x => ?_
          refine bindS rfl fun nz => ?_
          exact bindE (er_finishJoin hh x.1 x.2 r rz nz w) fun _ => rfl
        | inr p =>
          simp only [Sum.map_inr, Prod.map]
          exact bindE (er_setSliceAt leaf ctx r p.2) fun x => rfl
    | some l =>
      cases r with
      | none =>
        refine bindE (er_handleAt E.ix leaf ctx l) fun x => ?_
        obtain ⟨ls, lz⟩ := x
        simp only [hh.join]
        cases hj : E.sl.tryJoin ls s with
        | inl m =>
          simp only [Sum.map_inl]
          refine bindE (er_setSliceAt leaf ctx l m) fun x => ?_
          refine bindS rfl fun nz => ?_
          exact bindE (er_finishJoin hh x.1 x.2 l lz nz w) fun _ => rfl
        | inr p =>
          simp only [Sum.map_inr, Prod.map]
          exact bindE (er_setSliceAt leaf ctx l p.1) fun x => rfl
      | some r =>
        refine bindE (er_handleAt E.ix leaf ctx l) fun x => ?_
        obtain ⟨ls, lz⟩ := x
        refine bindE (er_handleAt E.ix leaf ctx r) fun x => ?_
        obtain ⟨rs, rz⟩ := x
        simp only [hh.join]
        cases hj : E.sl.tryJoin ls s with
        | inl m =>
          simp only [Sum.map_inl]
          refine bindS rfl fun mz => ?_
          simp only [hh.join]
          cases hj2 : E.sl.tryJoin m rs with
          | inl _ => rfl
          | inr p =>
            simp only [Sum.map_inr, Prod.map]
            refine bindE (er_setSliceAt leaf ctx r p.2) fun x => ?_
            refine bindE (er_setSliceAt x.1 x.2 l p.1) fun x => ?_
            exact bindE (er_finishJoin hh x.1 x.2 l lz mz w) fun _ => rfl
        | inr p =>
          simp only [Sum.map_inr, Prod.map]
          refine bindE (er_setSliceAt leaf ctx l p.1) fun x => ?_
          simp only [hh.join]
          cases hj2 : E.sl.tryJoin p.2 rs with
          | inl m =>
            simp only [Sum.map_inl]
            refine bindE (er_setSliceAt x.1 x.2 r m) fun x => ?_
            refine bindS rfl fun nz => ?_
            exact bindE (er_finishJoin hh x.1 x.2 r rz nz w) fun _ => rfl
          | inr q =>
            simp only [Sum.map_inr, Prod.map]
            exact bindE (er_setSliceAt x.1 x.2 r q.2) fun x => rfl

theorem er_insertEdge (hh : Hom f E F) (leaf : Tree I S 1) (ctx : Ctx I S Ht 1) (i : Nat) (l r : Option (Nat × Nat)) (s : S) (z : I)
    (w : World) :
    insertEdge F (erT f leaf) (ctx.er f) i l r (f s) z w =
      insertEdge E leaf ctx i l r s z w >>= fun x => .ok (x.1, x.2.1.er f, x.2.2) := by
  have e1 : Node.len (erT f leaf) = Node.len leaf := Node.er_len (f := f) (g := erT f (h := 0)) leaf
  unfold insertEdge
  refine bindS (by erw [e1]) fun _ => ?_
  refine bindE (er_tryJoinEdge hh leaf ctx l r s z w) fun x => ?_
  rcases x with x | ⟨lf, c, s⟩
  · rfl
  · refine bindE (e := fun x => (x.1.er f, x.2)) ?_ fun y => rfl
    rw [hh.ix]
    exact er_noJoin hh _ _ lf c i none ⟨s, z⟩ none w

theorem er_descend {h : Nat} (n : Tree I S (h + 1)) (ctx : Ctx I S Ht (h + 1)) :
    descend (erT f n) (ctx.er f) = descend n ctx >>= fun x => .ok (erT f x.1, x.2.er f) := by
  induction h with
  | zero => rfl
  | succ h ih =>
    simp only [descend]
    refine bindE (Node.er_child (f := f) (g := erT f (h := h + 1)) n 0) fun ch => ?_
    have := er_frame (f := f) n 0 ctx
    simp only [Nat.zero_add] at this
    rw [this]
    exact ih ch _

theorem er_rhsLeaf {h : Nat} (n : Tree I S (h + 1)) (ctx : Ctx I S Ht (h + 1)) (k : Nat) :
    rhsLeaf (erT f n) (ctx.er f) k = rhsLeaf n ctx k >>= fun x => .ok (erT f x.1, x.2.1.er f, x.2.2) := by
  cases h with
  | zero => rfl
  | succ h =>
    simp only [rhsLeaf]
    refine bindE (Node.er_child (f := f) (g := erT f (h := h + 1)) n (k + 1)) fun ch => ?_
    rw [er_frame]
    exact bindE (er_descend ch _) fun _ => rfl

theorem er_insertRhs (hh : Hom f E F) (nop skip : Bool) {h : Nat} (n : Tree I S (h + 1)) (ctx : Ctx I S Ht (h + 1)) (k : Nat) (nl : I)
    (lm : Bool) (a : Sized I S) (b : Option (Sized I S)) (w : World) :
    insertRhs F nop skip (erT f n) (ctx.er f) k nl lm (a.er f) (b.map (Sized.er f)) w =
      insertRhs E nop skip n ctx k nl lm a b w >>= fun x => .ok (x.1.er f, x.2) := by
  simp only [insertRhs, hh.ix]
  refine bindS (Node.er_keyPos (f := f) (g := erT f) n k) fun lp => ?_
  refine bindS (Node.er_sliceSize (f := f) (g := erT f) (erT_size E.ix) n k) fun ol => ?_
  refine bindE (er_rhsLeaf n ctx k) fun x => ?_
  exact er_noJoin hh _ _ x.1 x.2.1 x.2.2 _ a b w

theorem er_insertSplit (hh : Hom f E F) (nop : Bool) {h : Nat} (n : Tree I S (h + 1)) (ctx : Ctx I S Ht (h + 1)) (k : Nat) (p : I)
    (s : S) (z : I) (w : World) :
    insertSplit F nop (erT f n) (ctx.er f) k p (f s) z w =
      insertSplit E nop n ctx k p s z w >>= fun x => .ok (x.1, x.2.1.er f, x.2.2) := by
  simp only [insertSplit, hh.ix, hh.may]
  refine bindS (Node.er_sliceSize (f := f) (g := erT f) (erT_size E.ix) n k) fun kz => ?_
  refine bindE (Node.er_handle (f := f) (g := erT f) n k) fun key => ?_
  simp only [Key.er_slice, hh.split]
  refine bindE (Node.er_setSlice (f := f) (g := erT f) n k _) fun n => ?_
  refine bindS rfl fun rz => ?_
  split
  · exact bindE (er_insertRhs hh nop false n ctx k p false ⟨s, z⟩ (some ⟨_, rz⟩) w) fun _ => rfl
  · simp only [hh.join]
    cases E.sl.tryJoin (E.sl.splitAt key.slice p).1 s with
    | inl m =>
      simp only [Sum.map_inl]
      refine bindS rfl fun mz => ?_
      simp only [hh.join]
      cases E.sl.tryJoin m (E.sl.splitAt key.slice p).2 with
      | inl new =>
        simp only [Sum.map_inl]
        refine bindE (Node.er_setSlice (f := f) (g := erT f) n k new) fun n => ?_
        refine bindS rfl fun w => ?_
        refine bindS rfl fun o => ?_
        refine bindS rfl fun nz => ?_
        exact bindE (er_opKey _ false ctx n k none o nz []) fun _ => by
          simp only [Ctx.er_readUp]; rfl
      | inr q =>
        simp only [Sum.map_inr, Prod.map]
        refine bindE (Node.er_setSlice (f := f) (g := erT f) n k q.1) fun n => ?_
        refine bindS rfl fun w => ?_
        exact bindE (er_insertRhs hh nop true n ctx k mz true ⟨q.2, rz⟩ none w) fun _ => rfl
    | inr q =>
      simp only [Sum.map_inr, Prod.map]
      refine bindE (Node.er_setSlice (f := f) (g := erT f) n k q.1) fun n => ?_
      simp only [hh.join]
      cases E.sl.tryJoin q.2 (E.sl.splitAt key.slice p).2 with
      | inl new =>
        simp only [Sum.map_inl]
        refine bindS rfl fun nz => ?_
        exact bindE (er_insertRhs hh nop false n ctx k p false ⟨new, nz⟩ none w) fun _ => rfl
      | inr r =>
        simp only [Sum.map_inr, Prod.map]
        exact bindE (er_insertRhs hh nop false n ctx k p false ⟨r.1, z⟩ (some ⟨r.2, rz⟩) w) fun _ => rfl

theorem er_insertAt (hh : Hom f E F) (nop : Bool) (pt : Point I S Ht) (s : S) (z : I) (w : World) :
    insertAt F nop (pt.er f) (f s) z w = insertAt E nop pt s z w >>= fun x => .ok (x.1, x.2.1.er f, x.2.2) := by
  cases pt with
  | edge leaf ctx i l r => exact er_insertEdge hh leaf ctx i l r s z w
  | split h n ctx k p => exact er_insertSplit hh nop n ctx k p s z w

theorem er_installRoot (hh : Hom f E F) (len : Nat) (post : Post I S (Ht + 1)) (path : List Nat) (hd : Option (Nat × Nat)) (w : World) :
    installRoot F len (post.er f) path hd w = installRoot E len post path hd w >>= fun x => .ok (x.1.er f, x.2) := by
  cases post with
  | done t =>
    simp only [Post.er, installRoot, hh.refs]
    exact bindS rfl fun _ => rfl
  | newRoot l k z r =>
    simp only [Post.er, installRoot, hh.refs, hh.ix]
    refine bindE (er_makeNewParent l r k z w) fun x => ?_
    exact bindS rfl fun _ => rfl

theorem er_new (hh : Hom f E F) (s : S) (z : I) (w : World) :
    RleTree.new F (f s) z w = RleTree.new E s z w >>= fun x => .ok (x.1.er f, x.2) := by
  simp only [RleTree.new, hh.M, hh.ix]
  exact bindS rfl fun _ => bindS rfl fun _ => bindS rfl fun _ => rfl

theorem er_treeSize (hh : Hom f E F) (t : RleTree I S) : (t.er f).size F = t.size E := by
  obtain ⟨_ | r⟩ := t
  · simp [RleTree.size, RleTree.er, hh.ix]
  · rfl

/-- Insertion commutes with a map of slices that commutes with the operations on slices. -/
theorem RleTree.er_insert (hh : Hom f E F) (t : RleTree I S) (nop : Bool) (hints : List Nat) (i : I) (s : S) (z : I) (w : World) :
    (t.er f).insert F nop hints i (f s) z w = t.insert E nop hints i s z w >>= fun x => .ok (x.1.er f, x.2) := by
  simp only [RleTree.insert, hh.ix, er_treeSize hh]
  refine bindS rfl fun _ => bindS rfl fun _ => ?_
  obtain ⟨_ | r⟩ := t
  · simp only [RleTree.er, Option.map_none]
    refine bindE (er_new hh s z w) fun x => ?_
    obtain ⟨⟨_ | r⟩, w⟩ := x
    · rfl
    · simp only [RleTree.er, Option.map_some, hh.refs]
      rfl
  · simp only [RleTree.er, Option.map_some]
    refine bindE (er_findPoint hh r.tree .top (some hints) i none none) fun pt => ?_
    refine bindE (er_insertAt hh nop pt s z _) fun x => ?_
    simp only [hh.refs]
    split
    · exact bindS rfl fun hd => er_installRoot hh _ _ _ _ _
    · exact er_installRoot hh _ _ _ _ _

end Sherman
