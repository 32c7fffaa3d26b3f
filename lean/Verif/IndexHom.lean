import Verif.Erase
/-!
# The tree looks at indices only through the `Index` operations

If a map `f` from one index type to another commutes with the operations of the two types, except where an operation of the
first fails in one of the ways `B`, then it commutes with every step of an insertion and of a lookup, with the same exception.
-/
namespace Sherman
variable {I J S C D α β γ δ : Type} {Ht : Nat} {B : Fault → Prop}

/-- `y` is the image of `x`, unless `x` fails in one of the ways `B`. -/
def ISim (B : Fault → Prop) (x : R α) (y : R β) (m : α → β) : Prop :=
  (∃ e, B e ∧ x = .error e) ∨ y = x >>= fun a => .ok (m a)

theorem ISim.bind {x : R α} {y : R β} {m : α → β} {k : α → R γ} {l : β → R δ} {m2 : γ → δ} (hx : ISim B x y m)
    (hk : ∀ a, ISim B (k a) (l (m a)) m2) : ISim B (x >>= k) (y >>= l) m2 := by
  rcases hx with ⟨e, he, rfl⟩ | rfl
  · exact .inl ⟨e, he, rfl⟩
  · cases x with
    | error e => exact .inr rfl
    | ok a => exact hk a

theorem ISim.same {x : R α} {k : α → R γ} {l : α → R δ} {m2 : γ → δ} (hk : ∀ a, ISim B (k a) (l a) m2) :
    ISim B (x >>= k) (x >>= l) m2 := by
  cases x with
  | error e => exact .inr rfl
  | ok a => exact hk a

theorem ISim.ok {a : α} {b : β} {m : α → β} (h : b = m a) : ISim B (.ok a) (.ok b) m := .inr (by rw [h]; rfl)

theorem ISim.pure {a : α} {b : β} {m : α → β} (h : b = m a) : ISim B (Pure.pure a : R α) (Pure.pure b : R β) m := ISim.ok h

theorem ISim.err {e : Fault} {m : α → β} : ISim B (.error e) (.error e) m := .inr rfl

theorem ISim.ite {c : Prop} [Decidable c] [d2 : Decidable c] {x x' : R α} {y y' : R β} {m : α → β} (h1 : c → ISim B x y m)
    (h2 : ¬ c → ISim B x' y' m) : ISim B (if c then x else x') (@_root_.ite _ c d2 y y') m := by
  by_cases h : c
  · simpa only [h, if_true] using h1 h
  · simpa only [h, if_false] using h2 h

theorem ISim.of_eq {x : R α} {y : R β} {m : α → β} (h : y = x >>= fun a => .ok (m a)) : ISim B x y m := .inr h

/-- `f` commutes with the operations of the two index types, and both types of trees are otherwise the same. -/
structure IHom (B : Fault → Prop) (f : I → J) (E : Env I S) (F : Env J S) : Prop where
  zero : F.ix.zero = f E.ix.zero
  debug : F.ix.debug = E.ix.debug ∨ (F.ix.debug = false ∧ ∀ m, B (.panic m))
  cmp : ∀ a b, F.ix.cmp (f a) (f b) = E.ix.cmp a b
  addR : ∀ a b, ISim B (E.ix.addR a b) (F.ix.addR (f a) (f b)) f
  addL : ∀ a b, ISim B (E.ix.addL a b) (F.ix.addL (f a) (f b)) f
  subR : ∀ a b, ISim B (E.ix.subR a b) (F.ix.subR (f a) (f b)) f
  subL : ∀ a b, ISim B (E.ix.subL a b) (F.ix.subL (f a) (f b)) f
  M : F.M = E.M
  refs : F.refs = E.refs
  may : F.sl.mayJoin = E.sl.mayJoin
  split : ∀ s p, F.sl.splitAt s (f p) = E.sl.splitAt s p
  join : F.sl.tryJoin = E.sl.tryJoin

/-- Apply `f` to the position of a key. -/
def Key.mi (f : I → J) (k : Key I S) : Key J S := ⟨f k.pos, k.slice, k.ref⟩

/-- Apply `f` to the positions of a node and `g` to its children. -/
def Node.mi (f : I → J) (g : C → D) (n : Node I S C) : Node J S D := ⟨n.ptr, f n.size, n.keys.map (Key.mi f), n.kids.map g⟩

/-- Apply `f` to the positions in a tree. -/
def miT (f : I → J) : {h : Nat} → Tree I S h → Tree J S h
  | 0, _ => ()
  | h + 1, n => Node.mi f (miT f (h := h)) n

def Ctx.mi (f : I → J) : {h : Nat} → Ctx I S Ht h → Ctx J S Ht h
  | _, .top => .top
  | _, .frame p z ks kl kr up => .frame p (f z) (ks.map (Key.mi f)) (kl.map (miT f)) (kr.map (miT f)) (up.mi f)

def Shift.mi (f : I → J) (s : Shift I) : Shift J := ⟨f s.pos, f s.oldSize, f s.newSize⟩

def Maps.mi (f : I → J) (m : Maps I) : Maps J := ⟨m.sizes, m.cursor, m.lhsHeight, m.lhsK, f m.lhsPos, f m.oldLhs, f m.newLhs⟩

def Bubble.mi (f : I → J) (g : C → D) (b : Bubble I S C) : Bubble J S D :=
  ⟨g b.lhs, b.key.mi f, f b.keySize, g b.rhs, f b.oldSize, b.shift.map (Shift.mi f), b.side, b.inserted⟩

def Post.mi (f : I → J) : Post I S Ht → Post J S Ht
  | .done t => .done (miT f t)
  | .newRoot l k z r => .newRoot (miT f l) (k.mi f) (f z) (miT f r)

def Sized.mi (f : I → J) (s : Sized I S) : Sized J S := ⟨s.slice, f s.size⟩

def Step.mi (f : I → J) : Step I → Step J
  | .child c p => .child c (f p)
  | .key k p => .key k (f p)

def Point.mi (f : I → J) : Point I S Ht → Point J S Ht
  | .edge l c i a b => .edge (miT f l) (c.mi f) i a b
  | .split h n c k p => .split h (miT f n) (c.mi f) k (f p)

def Entry.mi (f : I → J) (e : Entry I S) : Entry J S := ⟨f e.start, f e.stop, e.slice, e.ptr, e.idx, e.ref⟩

def RleTree.mi (f : I → J) (t : RleTree I S) : RleTree J S := ⟨t.root.map fun r => ⟨r.h, miT f r.tree, r.len⟩⟩

variable {f : I → J} {g : C → D} {E : Env I S} {F : Env J S}

theorem IHom.lt (hh : IHom B f E F) (a b : I) : F.ix.lt (f a) (f b) = E.ix.lt a b := by simp only [IdxOps.lt, hh.cmp]
theorem IHom.le (hh : IHom B f E F) (a b : I) : F.ix.le (f a) (f b) = E.ix.le a b := by simp only [IdxOps.le, hh.cmp]
theorem IHom.eq (hh : IHom B f E F) (a b : I) : F.ix.eq (f a) (f b) = E.ix.eq a b := by simp only [IdxOps.eq, hh.cmp]

/-! ## Nodes -/

@[simp] theorem Node.mi_ptr (n : Node I S C) : (n.mi f g).ptr = n.ptr := rfl
@[simp] theorem Node.mi_size (n : Node I S C) : (n.mi f g).size = f n.size := rfl
@[simp] theorem Node.mi_keys (n : Node I S C) : (n.mi f g).keys = n.keys.map (Key.mi f) := rfl
@[simp] theorem Node.mi_kids (n : Node I S C) : (n.mi f g).kids = n.kids.map g := rfl
@[simp] theorem Key.mi_pos (k : Key I S) : (k.mi f).pos = f k.pos := rfl
@[simp] theorem Key.mi_slice (k : Key I S) : (k.mi f).slice = k.slice := rfl
@[simp] theorem Key.mi_ref (k : Key I S) : (k.mi f).ref = k.ref := rfl
@[simp] theorem Node.mi_len (n : Node I S C) : (n.mi f g).len = n.len := by simp [Node.len]

@[simp] theorem Node.mi_tryKeyPos (n : Node I S C) (i : Nat) : (n.mi f g).tryKeyPos i = (n.tryKeyPos i).map f := by
  simp [Node.tryKeyPos, Function.comp_def]

@[simp] theorem Node.mi_nextPos (n : Node I S C) (i : Nat) : (n.mi f g).nextPos i = f (n.nextPos i) := by
  simp only [Node.nextPos, Node.mi_tryKeyPos, Node.mi_size]
  cases n.tryKeyPos i <;> rfl

theorem Node.mi_keyPos (n : Node I S C) (i : Nat) : ISim B (n.keyPos i) ((n.mi f g).keyPos i) f := by
  refine .of_eq ?_
  simp only [Node.keyPos, Node.mi_keys, List.getElem?_map]
  cases n.keys[i]? <;> rfl

theorem Node.mi_child (n : Node I S C) (i : Nat) : ISim B (n.child i) ((n.mi f g).child i) g := by
  refine .of_eq ?_
  simp only [Node.child, Node.mi_kids, List.getElem?_map]
  cases n.kids[i]? <;> rfl

theorem Node.mi_childSize {sz : C → I} {sz' : D → J} (hs : ∀ c, sz' (g c) = f (sz c)) (n : Node I S C) (i : Nat) :
    ISim B (n.childSize sz i) ((n.mi f g).childSize sz' i) f :=
  ISim.bind (Node.mi_child n i) fun c => ISim.ok (hs c)

theorem Node.mi_sliceSize (hh : IHom B f E F) {sz : C → I} {sz' : D → J} (hs : ∀ c, sz' (g c) = f (sz c)) (n : Node I S C) (i : Nat) :
    ISim B (n.sliceSize E.ix sz i) ((n.mi f g).sliceSize F.ix sz' i) f := by
  simp only [Node.sliceSize, Node.mi_nextPos]
  exact ISim.bind (Node.mi_keyPos n i) fun _ => ISim.bind (Node.mi_childSize hs n _) fun _ => ISim.bind (hh.subR _ _) fun _ => hh.subL _ _

theorem Node.mi_setKeyPos (n : Node I S C) (k : Nat) (p : I) :
    ISim B (n.setKeyPos k p) ((n.mi f g).setKeyPos k (f p)) (Node.mi f g) := by
  refine .of_eq ?_
  simp only [Node.setKeyPos, Node.mi_keys, List.getElem?_map]
  cases n.keys[k]? <;> simp [Node.mi, Key.mi, List.map_set]

theorem Node.mi_setSlice (n : Node I S C) (k : Nat) (s : S) :
    ISim B (n.setSlice k s) ((n.mi f g).setSlice k s) (Node.mi f g) := by
  refine .of_eq ?_
  simp only [Node.setSlice, Node.mi_keys, List.getElem?_map]
  cases n.keys[k]? <;> simp [Node.mi, Key.mi, List.map_set]

theorem Node.mi_handle (n : Node I S C) (k : Nat) : ISim B (n.handle k) ((n.mi f g).handle k) (Key.mi f) := by
  refine .of_eq ?_
  simp only [Node.handle, Node.mi_keys, List.getElem?_map]
  cases n.keys[k]? <;> simp

theorem mi_mapPos {u : I → R I} {v : J → R J} (hu : ∀ x, ISim B (u x) (v (f x)) f) (ks : List (Key I S)) :
    ISim B (Node.mapPos u ks) (Node.mapPos v (ks.map (Key.mi f))) (List.map (Key.mi f)) := by
  induction ks with
  | nil => exact ISim.ok rfl
  | cons k ks ih =>
    simp only [List.map_cons, Node.mapPos, Key.mi_pos]
    exact ISim.bind (hu _) fun _ => ISim.bind ih fun _ => ISim.ok rfl

theorem Node.mi_setKeyPossWith {u : I → R I} {v : J → R J} (hu : ∀ x, ISim B (u x) (v (f x)) f) (n : Node I S C) (i : Nat) :
    ISim B (n.setKeyPossWith u i) ((n.mi f g).setKeyPossWith v i) (Node.mi f g) := by
  simp only [Node.setKeyPossWith, Node.mi_keys, Node.mi_len, Node.mi_size, ← List.map_drop]
  refine ISim.same fun _ => ISim.bind (mi_mapPos hu _) fun l => ISim.bind (hu _) fun z => ISim.ok ?_
  simp [Node.mi, List.map_take]

theorem Node.mi_shiftKeys (hh : IHom B f E F) (n : Node I S C) (b : Bool) (i : Nat) (p o z : I) :
    ISim B (n.shiftKeys E.ix b i p o z) ((n.mi f g).shiftKeys F.ix b i (f p) (f o) (f z)) (Node.mi f g) := by
  simp only [Node.shiftKeys, Node.mi_len]
  refine ISim.same fun _ => ISim.bind (hh.addR _ _) fun _ => ISim.bind (hh.addR _ _) fun _ => ?_
  cases b
  · exact ISim.bind (hh.subR _ _) fun _ => Node.mi_setKeyPossWith (fun x => hh.subL x _) _ _
  · exact ISim.bind (hh.subL _ _) fun _ => Node.mi_setKeyPossWith (fun x => hh.addL x _) _ _

theorem Node.mi_shiftKeysAuto (hh : IHom B f E F) (n : Node I S C) (i : Nat) (p o z : I) :
    ISim B (n.shiftKeysAuto E.ix i p o z) ((n.mi f g).shiftKeysAuto F.ix i (f p) (f o) (f z)) (Node.mi f g) := by
  simp only [Node.shiftKeysAuto, hh.lt]
  exact Node.mi_shiftKeys hh n _ i p o z

theorem mi_updateFrom (p i : Nat) (ks : List (Key I S)) (w : World) :
    updateFrom p i (ks.map (Key.mi f)) w = updateFrom p i ks w := by
  induction ks generalizing i w with
  | nil => rfl
  | cons k ks ih => simp only [List.map_cons, updateFrom, Key.mi_ref, ih]

/-- `g` keeps the addresses of children. -/
class MiPtr {C D : Type} [HasPtr C] [HasPtr D] (g : C → D) : Prop where
  addr : ∀ c, HasPtr.addr (g c) = HasPtr.addr c

instance {h : Nat} : MiPtr (miT f : Tree I S h → Tree J S h) := ⟨fun _ => by cases h <;> rfl⟩

theorem mi_linkFrom [HasPtr C] [HasPtr D] [MiPtr g] (p i : Nat) (ks : List C) (w : World) :
    linkFrom p i (ks.map g) w = linkFrom p i ks w := by
  induction ks generalizing i w with
  | nil => rfl
  | cons k ks ih => simp only [List.map_cons, linkFrom, MiPtr.addr, ih]

theorem mi_indexFrom [HasPtr C] [HasPtr D] [MiPtr g] (p i : Nat) (ks : List C) (w : World) :
    indexFrom p i (ks.map g) w = indexFrom p i ks w := by
  induction ks generalizing i w with
  | nil => rfl
  | cons k ks ih => simp only [List.map_cons, indexFrom, MiPtr.addr, ih]

theorem Node.mi_split [HasPtr C] [HasPtr D] [MiPtr g] (n : Node I S C) (mid : Nat) (w : World) :
    ISim B (n.split mid w) ((n.mi f g).split mid w) fun r => (r.1.mi f g, r.2.1.mi f, r.2.2.1.mi f g, r.2.2.2) := by
  refine .of_eq ?_
  simp only [Node.split, Node.mi_keys, List.getElem?_map]
  cases n.keys[mid]? with
  | none => rfl
  | some k =>
    simp only [Option.map_some, Key.mi_ref, ← List.map_drop, mi_updateFrom, Node.mi_kids, mi_linkFrom]
    simp [Node.mi, List.map_take, List.map_drop]

theorem Node.mi_insertKC [HasPtr C] [HasPtr D] [MiPtr g] (n : Node I S C) (mx i : Nat) (s : S) (r : Option Nat) (c : C) (w : World) :
    ISim B (Node.insertKeyAndChild mx n i s r c w) (Node.insertKeyAndChild mx (n.mi f g) i s r (g c) w)
      fun x => (x.1.mi f g, f x.2.1, x.2.2) := by
  have e : (⟨f (n.nextPos i), s, r⟩ : Key J S) = Key.mi f ⟨n.nextPos i, s, r⟩ := rfl
  simp only [Node.insertKeyAndChild, Node.mi_len, Node.mi_nextPos, Node.mi_ptr, Node.mi_keys, ← List.map_drop, e,
    ← List.map_cons, mi_updateFrom, Node.mi_kids, mi_indexFrom, MiPtr.addr]
  exact ISim.same fun _ => ISim.same fun _ => ISim.ok (by simp [Node.mi, List.map_take])

theorem Node.mi_pushKC [HasPtr C] [HasPtr D] [MiPtr g] (n : Node I S C) (mx : Nat) (s : S) (r : Option Nat) (c : C) (z : I) (w : World) :
    ISim B (Node.pushKeyAndChild mx n s r c z w) (Node.pushKeyAndChild mx (n.mi f g) s r (g c) (f z) w)
      fun x => (x.1.mi f g, x.2) := by
  simp only [Node.pushKeyAndChild, Node.mi_len, MiPtr.addr]
  exact ISim.same fun _ => ISim.ok (by simp [Node.mi, Key.mi])

theorem Node.mi_replaceFirstChild [HasPtr C] [HasPtr D] [MiPtr g] (n : Node I S C) (c : C) (w : World) :
    ISim B (n.replaceFirstChild c w) ((n.mi f g).replaceFirstChild (g c) w) fun x => (x.1.mi f g, g x.2.1, x.2.2) := by
  refine .of_eq ?_
  simp only [Node.replaceFirstChild, Node.mi_kids, MiPtr.addr]
  cases n.kids <;> simp [Node.mi]

theorem miT_size (hh : IHom B f E F) {h : Nat} (t : Tree I S h) : szT F.ix (miT f t) = f (szT E.ix t) := by
  cases h
  · exact hh.zero
  · rfl

@[simp] theorem miT_ptr {h : Nat} (t : Tree I S h) : ptrT (miT f t) = ptrT t := by
  cases h <;> rfl

@[simp] theorem Ctx.mi_readUp {h : Nat} (ctx : Ctx I S Ht h) (a : Option Nat) (w : World) : (ctx.mi f).readUp a w = ctx.readUp a w := by
  induction ctx generalizing a w with
  | top => rfl
  | frame p z ks kl kr up ih => simp [Ctx.mi, Ctx.readUp, ih]

theorem mi_makeNewParent (hh : IHom B f E F) {h : Nat} (l r : Tree I S (h + 1)) (k : Key I S) (z : I) (w : World) :
    ISim B (makeNewParent E.ix l k z r w) (makeNewParent F.ix (miT f l) (k.mi f) (f z) (miT f r) w) fun x => (miT f x.1, x.2) := by
  simp only [makeNewParent, miT_size hh]
  exact ISim.bind (hh.addR _ _) fun _ => ISim.bind (hh.addR _ _) fun _ => ISim.ok rfl

theorem mi_plugNode (p : Nat) (z : I) (ks : List (Key I S)) (kl : List C) (c : C) (kr : List C) :
    plugNode p (f z) (ks.map (Key.mi f)) (kl.map g) (g c) (kr.map g) = (plugNode p z ks kl c kr).mi f g := by
  simp [plugNode, Node.mi]

theorem mi_identity (hh : IHom B f E F) : Maps.identity F.ix = (Maps.identity E.ix).mi f := by
  simp [Maps.identity, Maps.mi, hh.zero]

/-! ## Sizes on the way up -/

theorem mi_opPos (hh : IHom B f E F) (n : Node I S C) (cok : COK) (ov : Option I) (o : I) :
    ISim B (opPos E.ix n cok ov o) (opPos F.ix (n.mi f g) cok (ov.map f) (f o)) f := by
  cases ov with
  | some p => exact ISim.ok rfl
  | none =>
    cases cok with
    | child c =>
      simp only [opPos, Option.map_none, Node.mi_nextPos]
      exact hh.subL _ _
    | key k => exact Node.mi_keyPos n k

theorem mi_mapSizes (hh : IHom B f E F) (m : Maps I) (hd : Bool) (ht : Nat) (n : Node I S C) (cok : COK) (ov : Option I) (o z : I) :
    ISim B (mapSizes E.ix m hd ht n cok ov o z) (mapSizes F.ix (m.mi f) hd ht (n.mi f g) cok (ov.map f) (f o) (f z))
      fun x => (x.1.mi f g, x.2.1.map f, f x.2.2.1, f x.2.2.2) := by
  unfold mapSizes
  refine ISim.ite (fun _ => ?_) (fun _ => ?_)
  · exact ISim.ok rfl
  · refine ISim.bind (hh.addR _ _) fun _ => ISim.bind (hh.addR _ _) fun _ => ISim.bind (mi_opPos hh n cok ov o) fun _ =>
      ISim.bind (hh.subL _ _) fun _ => ISim.bind (hh.addL _ _) fun _ => ISim.bind (hh.addL _ _) fun _ => ISim.bind (hh.addL _ _) fun _ =>
      ISim.bind (hh.addL _ _) fun _ => ?_
    cases cok with
    | child c => exact ISim.ok rfl
    | key k =>
      exact ISim.bind (Node.mi_keyPos n _) fun _ => ISim.bind (hh.subL _ _) fun _ => ISim.bind (hh.addL _ _) fun _ =>
        ISim.bind (Node.mi_setKeyPos n _ _) fun _ => ISim.ok rfl

theorem mi_opStep (hh : IHom B f E F) (m : Maps I) (hd : Bool) (ht : Nat) (n : Node I S C) (cok : COK) (ov : Option I) (o z : I) :
    ISim B (opStep E.ix m hd ht n cok ov o z) (opStep F.ix (m.mi f) hd ht (n.mi f g) cok (ov.map f) (f o) (f z))
      fun x => (x.1.mi f g, f x.2) := by
  refine ISim.bind (mi_mapSizes hh m hd ht n cok ov o z) fun x => ?_
  obtain ⟨n, ov, o, z⟩ := x
  exact ISim.bind (mi_opPos hh n cok ov o) fun _ => ISim.bind (Node.mi_shiftKeysAuto hh _ _ _ _ _) fun _ => ISim.ok rfl

theorem mi_opUp (hh : IHom B f E F) (m : Maps I) (hd : Bool) {h : Nat} (ctx : Ctx I S Ht h) (t : Tree I S h) (o z : I)
    (path : List Nat) :
    ISim B (opUp E.ix m hd ctx t o z path) (opUp F.ix (m.mi f) hd (ctx.mi f) (miT f t) (f o) (f z) path) fun x => (miT f x.1, x.2) := by
  induction ctx generalizing o z path with
  | top => exact ISim.ok rfl
  | frame p zz ks kl kr up ih =>
    simp only [Ctx.mi, opUp, mi_plugNode, List.length_map]
    refine ISim.bind (mi_opStep (g := miT f) hh m hd _ _ _ none _ _) fun x => ?_
    obtain ⟨n, on⟩ := x
    exact ih n on _ _

theorem mi_opKey (hh : IHom B f E F) (m : Maps I) (hd : Bool) {h : Nat} (ctx : Ctx I S Ht (h + 1)) (n : Tree I S (h + 1)) (k : Nat)
    (ov : Option I) (o z : I) (path : List Nat) :
    ISim B (opKey E.ix m hd ctx n k ov o z path) (opKey F.ix (m.mi f) hd (ctx.mi f) (miT f n) k (ov.map f) (f o) (f z) path)
      fun x => (miT f x.1, x.2) := by
  refine ISim.bind (mi_opStep (g := miT f) hh m hd h n (.key k) ov o z) fun x => ?_
  obtain ⟨n, on⟩ := x
  exact mi_opUp hh m hd ctx n on _ _

/-! ## Bubbling -/

theorem mi_emitKey (cb : Cb) (b : Bool) (n : Node I S C) (k : Nat) (w : World) :
    emitKey cb b (n.mi f g) k w = emitKey cb b n k w := by
  simp only [emitKey, Node.handle, Node.mi_keys, List.getElem?_map]
  cases n.keys[k]? <;> rfl

theorem mi_roomNums (hh : IHom B f E F) (s : Option (Shift I)) (n o t : I) :
    ISim B (roomNums E.ix s n o t) (roomNums F.ix (s.map (Shift.mi f)) (f n) (f o) (f t))
      fun x => (f x.1, f x.2.1, f x.2.2.1, f x.2.2.2) := by
  cases s with
  | none => exact ISim.bind (hh.subR _ _) fun _ => ISim.ok rfl
  | some k => exact ISim.bind (hh.addL _ _) fun _ => ISim.bind (hh.addL _ _) fun _ => ISim.bind (hh.addR _ _) fun _ => ISim.ok rfl

theorem mi_halfNums (hh : IHom B f E F) (s : Option (Shift I)) (n o : I) :
    ISim B (halfNums E.ix s n o) (halfNums F.ix (s.map (Shift.mi f)) (f n) (f o))
      fun x => (f x.1, f x.2.1, f x.2.2.1, f x.2.2.2) := by
  cases s with
  | none => exact ISim.bind (hh.subR _ _) fun _ => ISim.ok (by simp [hh.zero])
  | some k => exact ISim.bind (hh.addR _ _) fun _ => ISim.ok rfl

section
variable {sz : C → I} {sz' : D → J}

theorem mi_bubbleRoom [HasPtr C] [HasPtr D] [MiPtr g] (hh : IHom B f E F) (hs : ∀ c, sz' (g c) = f (sz c)) (cb : Cb) (n : Node I S C) (c : Nat)
    (b : Bubble I S C) (path : List Nat) (w : World) :
    ISim B (bubbleRoom E cb sz n c b path w) (bubbleRoom F cb sz' (n.mi f g) c (b.mi f g) path w)
      fun x => (x.1.mi f g, f x.2.1, f x.2.2.1, f x.2.2.2.1, x.2.2.2.2) := by
  simp only [bubbleRoom, Bubble.mi, hs, hh.M, Node.mi_nextPos, Key.mi_slice, Key.mi_ref]
  refine ISim.bind (hh.addR _ _) fun _ => ISim.bind (hh.addR _ _) fun _ => ISim.bind (mi_roomNums hh _ _ _ _) fun x => ?_
  obtain ⟨a, b, c, d⟩ := x
  refine ISim.bind (Node.mi_insertKC n _ _ _ _ _ _) fun y => ?_
  obtain ⟨n, p, w⟩ := y
  refine ISim.bind (hh.addR _ _) fun _ => ISim.bind (Node.mi_setKeyPos n _ _) fun n => ?_
  simp only [mi_emitKey]
  exact ISim.same fun _ => ISim.ok rfl

theorem mi_bubbleInsertHalf [HasPtr C] [HasPtr D] [MiPtr g] (hh : IHom B f E F) (hs : ∀ c, sz' (g c) = f (sz c)) (cb : Cb) (n : Node I S C)
    (c : Nat) (b : Bubble I S C) (sh : Option (Shift I)) (path : List Nat) (w : World) :
    ISim B (bubbleInsertHalf E cb sz n c b sh path w) (bubbleInsertHalf F cb sz' (n.mi f g) c (b.mi f g) (sh.map (Shift.mi f)) path w)
      fun x => (x.1.mi f g, x.2) := by
  simp only [bubbleInsertHalf, Bubble.mi, hs, hh.M, Node.mi_nextPos, Key.mi_slice, Key.mi_ref]
  refine ISim.bind (hh.addR _ _) fun _ => ISim.bind (hh.addR _ _) fun _ => ISim.bind (mi_halfNums hh _ _ _) fun x => ?_
  obtain ⟨a, b, c, d⟩ := x
  refine ISim.bind (hh.addR _ _) fun _ => ISim.bind (hh.addR _ _) fun _ => ISim.bind (hh.addR _ _) fun _ =>
    ISim.bind (Node.mi_insertKC n _ _ _ _ _ _) fun y => ?_
  obtain ⟨n, p, w⟩ := y
  refine ISim.bind (Node.mi_setKeyPos n _ _) fun n => ISim.bind (Node.mi_shiftKeys hh n _ _ _ _ _) fun n => ?_
  simp only [mi_emitKey]
  exact ISim.same fun _ => ISim.ok rfl

theorem mi_firstPos (M : Nat) (n : Node I S C) : ISim B (firstPos M n) (firstPos M (n.mi f g)) f := by
  refine .of_eq ?_
  simp only [firstPos, Node.mi_tryKeyPos, Node.mi_size]
  cases n.tryKeyPos 0 with
  | some p => rfl
  | none =>
    simp only [Option.map_none]
    split <;> rfl

theorem mi_firstSize (hs : ∀ c, sz' (g c) = f (sz c)) (M c : Nat) (o : I) (n : Node I S C) :
    ISim B (firstSize sz M c o n) (firstSize sz' M c (f o) (n.mi f g)) f := by
  simp only [firstSize]
  split
  · exact ISim.ok rfl
  · exact Node.mi_childSize hs n 0

theorem mi_keepShift (M c : Nat) (s : Option (Shift I)) (z : I) :
    keepShift M c (s.map (Shift.mi f)) (f z) = (f (keepShift M c s z).1, (keepShift M c s z).2.map (Shift.mi f)) := by
  cases s with
  | none => rfl
  | some s =>
    simp only [keepShift, Option.map_some]
    split <;> rfl

theorem mi_relShift (hh : IHom B f E F) (s : Option (Shift I)) (z : I) :
    ISim B (relShift E.ix s z) (relShift F.ix (s.map (Shift.mi f)) (f z)) (Option.map (Shift.mi f)) := by
  cases s with
  | none => exact ISim.ok rfl
  | some s => exact ISim.bind (hh.subL _ _) fun _ => ISim.ok rfl

theorem mi_midSize (s : Option (Shift I)) (z : I) : midSize (s.map (Shift.mi f)) (f z) = f (midSize s z) := by
  cases s <;> rfl

theorem mi_bubbleSplit [HasPtr C] [HasPtr D] [MiPtr g] (hh : IHom B f E F) (hs : ∀ c, sz' (g c) = f (sz c)) (cb : Cb) (n : Node I S C) (c : Nat)
    (b : Bubble I S C) (path : List Nat) (w : World) :
    ISim B (bubbleSplit E cb sz n c b path w) (bubbleSplit F cb sz' (n.mi f g) c (b.mi f g) path w)
      fun x => (x.1.mi f (Node.mi f g), x.2) := by
  simp only [bubbleSplit, hh.M]
  refine ISim.same fun mid => ISim.bind (Node.mi_split n mid w) fun x => ?_
  obtain ⟨p, key, rhs, w1⟩ := x
  have e : ({ Node.mi f g p with size := (Key.mi f key).pos } : Node J S D) = Node.mi f g { p with size := key.pos } := rfl
  dsimp only
  rw [e]
  refine ISim.bind (mi_firstPos _ rhs) fun _ => ISim.bind (mi_firstSize hs _ _ _ rhs) fun _ => ISim.bind (hh.subR _ _) fun rs =>
    ISim.bind (hh.subL _ _) fun kz => ?_
  split
  · rw [hh.zero]
    refine ISim.bind (Node.mi_shiftKeys hh rhs _ _ _ _ _) fun rhs => ?_
    have ek : keepShift E.M c (b.mi f g).shift (f kz) = _ := mi_keepShift (f := f) E.M c b.shift kz
    rw [ek]
    cases hk : keepShift E.M c b.shift kz with | mk ks sh => ?_
    dsimp only
    split
    · refine ISim.bind (mi_bubbleInsertHalf hh hs cb _ c b sh path w1) fun y => ?_
      exact ISim.ok rfl
    · refine ISim.same fun c' => ISim.bind (mi_relShift hh sh rs) fun sh => ?_
      refine ISim.bind (mi_bubbleInsertHalf hh hs cb rhs c' b sh path w1) fun y => ?_
      exact ISim.ok rfl
  · have em : midSize (b.mi f g).shift (f kz) = _ := mi_midSize (f := f) b.shift kz
    rw [em]
    refine ISim.bind (Node.mi_replaceFirstChild rhs b.rhs w1) fun y => ?_
    obtain ⟨rhs, old, w1⟩ := y
    dsimp only
    simp only [hs]
    refine ISim.bind (hh.addR _ _) fun _ => ISim.bind (hh.addR _ _) fun _ => ISim.bind (Node.mi_pushKC _ _ _ _ _ _ _) fun z => ?_
    obtain ⟨p, w2⟩ := z
    dsimp only
    refine ISim.bind (Node.mi_keyPos rhs 0) fun _ => ?_
    have ez : sz' (b.mi f g).rhs = f (sz b.rhs) := hs _
    rw [hh.zero, ez]
    exact ISim.bind (Node.mi_shiftKeysAuto hh rhs _ _ _ _) fun _ => ISim.ok rfl

end

theorem mi_mapSide (m : Maps I) (h : Nat) (p : Option Nat) (q : Option (Nat × Nat)) (s : Option Side) :
    mapSide (m.mi f) h p q s = mapSide m h p q s := rfl

theorem mi_mapShift (m : Maps I) (h : Nat) (hd : Bool) (s : Option (Shift I)) :
    ISim B (mapShift m h hd s) (mapShift (m.mi f) h hd (s.map (Shift.mi f))) fun x => (x.1, x.2.map (Shift.mi f)) := by
  simp only [mapShift, Maps.mi, Option.isNone_map]
  refine ISim.ite (fun _ => ?_) (fun _ => ?_)
  · exact ISim.same fun _ => ISim.ite (fun _ => ISim.ok rfl) (fun _ => ISim.ok rfl)
  · exact ISim.ok rfl

theorem mi_bubbleFinish (hh : IHom B f E F) (cb : Cb) (m : Maps I) {h : Nat} (ctx : Ctx I S Ht h) (b : Bubble I S (Tree I S h))
    (hd : Bool) (path : List Nat) (w : World) :
    ISim B (bubbleFinish E cb m ctx b hd path w) (bubbleFinish F cb (m.mi f) (ctx.mi f) (b.mi f (miT f)) hd path w)
      fun x => (x.1.mi f, x.2) := by
  induction ctx generalizing hd path w with
  | top =>
    simp only [Ctx.mi, bubbleFinish, mi_mapSide, Bubble.mi, miT_ptr]
    refine ISim.bind (mi_mapShift m _ hd b.shift) fun x => ?_
    obtain ⟨_, sh⟩ := x
    simp only [Option.isNone_map]
    exact ISim.same fun _ => ISim.ok rfl
  | @frame h' p zz ks kl kr up ih =>
    simp only [Ctx.mi, bubbleFinish, mi_mapSide, List.length_map, hh.M]
    refine ISim.bind (mi_mapShift m _ hd b.shift) fun x => ?_
    obtain ⟨hd', sh⟩ := x
    have e1 : (Bubble.mi f (miT f) b).lhs = miT f b.lhs := rfl
    have e2 : (Bubble.mi f (miT f) b).side = b.side := rfl
    have e3 : ({ Bubble.mi f (miT f) b with side := mapSide m h' (ptrT b.lhs) w.fst b.side, shift := sh.map (Shift.mi f) } :
        Bubble J S (Tree J S h')) = Bubble.mi f (miT f) { b with side := mapSide m h' (ptrT b.lhs) w.fst b.side, shift := sh } := rfl
    simp only [e1, e2, miT_ptr, mi_plugNode, Node.mi_len]
    split
    · refine ISim.bind (mi_bubbleRoom (g := miT f) (sz := szT E.ix) (sz' := szT F.ix) hh (miT_size hh) cb (plugNode p zz ks kl b.lhs kr) kl.length
        { b with side := mapSide m h' (ptrT b.lhs) w.fst b.side, shift := sh } _ _) fun y => ?_
      obtain ⟨n, ov, o, z, path, w⟩ := y
      refine ISim.bind (mi_opKey hh m hd' up n kl.length (some ov) o z path) fun _ => ISim.ok ?_
      simp only [Ctx.mi_readUp]
      rfl
    · refine ISim.bind (mi_bubbleSplit (g := miT f) (sz := szT E.ix) (sz' := szT F.ix) hh (miT_size hh) cb (plugNode p zz ks kl b.lhs kr) kl.length
        { b with side := mapSide m h' (ptrT b.lhs) w.fst b.side, shift := sh } _ _) fun y => ?_
      obtain ⟨b, path, w⟩ := y
      exact ih b hd' path w

/-! ## Leaves

`L n` is `miT f n` for a leaf, with the type of a node. -/

local notation "L" => Node.mi f (miT f (h := 0))

theorem mi_leafInsert (hh : IHom B f E F) (n : Node I S (Tree I S 0)) (i : Nat) (s : S) (w : World) :
    ISim B (leafInsert E n i s w) (leafInsert F (L n) i s w) fun x => ((L x.1 : Tree J S 1), f x.2.1, x.2.2) := by
  simp only [leafInsert, hh.M]
  exact Node.mi_insertKC (f := f) (g := miT f (h := 0)) n _ i s none () w

theorem mi_leafPush (hh : IHom B f E F) (n : Node I S (Tree I S 0)) (s : S) (r : Option Nat) (z : I) (w : World) :
    ISim B (leafPush E n s r z w) (leafPush F (L n) s r (f z) w) fun x => ((L x.1 : Tree J S 1), x.2) := by
  simp only [leafPush, hh.M]
  exact Node.mi_pushKC (f := f) (g := miT f (h := 0)) n _ s r () z w

theorem mi_setSize (n : Node I S C) (z : I) :
    ({ Node.mi f g n with size := f z } : Node J S D) = Node.mi f g { n with size := z } := rfl

theorem mi_leafSplitSmall (hh : IHom B f E F) (cb : Cb) (n : Node I S (Tree I S 0)) (i : Nat) (ov : Option I) (a b : Sized I S) (w : World) :
    ISim B (leafSplitSmall E cb n i ov a b w) (leafSplitSmall F cb (L n) i (ov.map f) (a.mi f) (b.mi f) w)
      fun x => (x.1.mi f (miT f), x.2) := by
  simp only [leafSplitSmall, hh.M, Node.mi_len, Option.isSome_map]
  refine ISim.same fun _ => ISim.same fun _ => ISim.same fun _ => ISim.same fun _ => ISim.bind (Node.mi_split n 0 w) fun x => ?_
  obtain ⟨n', mid, rhs, w⟩ := x
  dsimp only
  rw [hh.zero, mi_setSize, mi_setSize]
  have eo : (Option.map f ov).getD (L n).size = f (ov.getD n.size) := by cases ov <;> rfl
  rw [eo]
  refine ISim.ite (fun _ => ?_) (fun _ => ?_)
  · refine ISim.bind (mi_leafPush hh _ _ _ _ _) fun x => ISim.bind (mi_leafPush hh _ _ _ _ _) fun y => ?_
    exact ISim.same fun _ => ISim.same fun _ => ISim.ok rfl
  · refine ISim.bind (mi_leafPush hh _ _ _ _ _) fun x => ISim.bind (mi_leafPush hh _ _ _ _ _) fun y => ?_
    exact ISim.ok rfl

theorem mi_szL (hh : IHom B f E F) (c : Tree I S 0) : szT F.ix (miT f c) = f (szT E.ix c) := hh.zero

theorem mi_leafInsertHalf (hh : IHom B f E F) (cb : Cb) (n : Node I S (Tree I S 0)) (i : Nat) (ov : Option I) (a : Sized I S)
    (b : Option (Sized I S)) (w : World) :
    ISim B (leafInsertHalf E cb n i ov a b w) (leafInsertHalf F cb (L n) i (ov.map f) (a.mi f) (b.map (Sized.mi f)) w)
      fun x => ((L x.1 : Tree J S 1), x.2) := by
  have key : ∀ pos old new : I,
      ISim B (do
        let (n, _, w) ← leafInsert E n i a.slice w
        let fstPos ← E.ix.addR pos new
        let n ← Node.setKeyPos n i fstPos
        let new ← E.ix.addR new a.size
        let (n, new, start, w) ← match b with
          | none => pure (n, new, i + 1, w)
          | some s => do
            let (n, _, w) ← leafInsert E n (i + 1) s.slice w
            let new ← E.ix.addR new s.size
            let sndPos ← E.ix.addR fstPos a.size
            let n ← Node.setKeyPos n (i + 1) sndPos
            pure (n, new, i + 2, w)
        let n ← Node.shiftKeys E.ix n true start pos old new
        let _ ← Node.handle n i
        let w ← emit cb (.insertion n.ptr i) w
        pure (n, w) : R (Tree I S 1 × World))
      (do
        let (n, _, w) ← leafInsert F (L n) i (a.mi f).slice w
        let fstPos ← F.ix.addR (f pos) (f new)
        let n ← Node.setKeyPos n i fstPos
        let new ← F.ix.addR (f new) (a.mi f).size
        let (n, new, start, w) ← match b.map (Sized.mi f) with
          | none => pure (n, new, i + 1, w)
          | some s => do
            let (n, _, w) ← leafInsert F n (i + 1) s.slice w
            let new ← F.ix.addR new s.size
            let sndPos ← F.ix.addR fstPos (a.mi f).size
            let n ← Node.setKeyPos n (i + 1) sndPos
            pure (n, new, i + 2, w)
        let n ← Node.shiftKeys F.ix n true start (f pos) (f old) new
        let _ ← Node.handle n i
        let w ← emit cb (.insertion n.ptr i) w
        pure (n, w) : R (Tree J S 1 × World)) fun x => ((L x.1 : Tree J S 1), x.2) := by
    intro pos old new
    refine ISim.bind (mi_leafInsert hh n _ _ _) fun y => ?_
    obtain ⟨n1, z1, w1⟩ := y
    change Node I S (Tree I S 0) at n1
    refine ISim.bind (hh.addR _ _) fun fp => ISim.bind (Node.mi_setKeyPos (f := f) (g := miT f (h := 0)) n1 _ _) fun n1 =>
      ISim.bind (hh.addR _ _) fun new => ?_
    cases b with
    | none =>
      simp only [Option.map_none, R.pure_eq, R.bind_ok]
      refine ISim.bind (Node.mi_shiftKeys hh n1 _ _ _ _ _) fun n2 => ISim.bind (Node.mi_handle n2 _) fun k => ?_
      exact ISim.same fun _ => ISim.ok rfl
    | some b =>
      simp only [Option.map_some, R.pure_eq, bassoc, R.bind_ok]
      refine ISim.bind (mi_leafInsert hh n1 _ _ _) fun z => ?_
      obtain ⟨n1, z1, w1⟩ := z
      change Node I S (Tree I S 0) at n1
      simp only [bassoc]
      refine ISim.bind (hh.addR _ _) fun _ => ISim.bind (hh.addR _ _) fun _ =>
        ISim.bind (Node.mi_setKeyPos (f := f) (g := miT f (h := 0)) n1 _ _) fun n1 => ?_
      refine ISim.bind (Node.mi_shiftKeys hh n1 _ _ _ _ _) fun n2 => ISim.bind (Node.mi_handle n2 _) fun k => ?_
      exact ISim.same fun _ => ISim.ok rfl
  cases ov with
  | none =>
    have := key (Node.nextPos n i) E.ix.zero E.ix.zero
    simp only [leafInsertHalf, Option.map_none, R.pure_eq, R.bind_ok, Node.mi_nextPos, hh.zero] at this ⊢
    exact this
  | some z =>
    simp only [leafInsertHalf, Option.map_some, R.pure_eq, R.bind_ok, bassoc]
    refine ISim.same fun k => ISim.bind (Node.mi_keyPos n k) fun p => ISim.bind (Node.mi_sliceSize hh (mi_szL hh) n k) fun ss => ?_
    have := key p ss z
    simp only [R.pure_eq, R.bind_ok, bassoc] at this
    exact this

theorem mi_midResize (hh : IHom B f E F) (ov : Option I) (at_ : Side ⊕ Side) (i m : Nat) (r k : I) :
    ISim B (midResize E.ix ov at_ i m r k) (midResize F.ix (ov.map f) at_ i m (f r) (f k)) fun x => (f x.1, x.2.map f) := by
  cases ov with
  | none => exact ISim.bind (hh.subL _ _) fun _ => ISim.ok rfl
  | some s =>
    rcases at_ with (_ | _) | _
    · exact ISim.bind (hh.subL _ _) fun _ => ISim.ok rfl
    · simp only [midResize, Option.map_some]
      exact ISim.ite (fun _ => ISim.ok rfl) fun _ => ISim.bind (hh.subL _ _) fun _ => ISim.ok rfl
    · exact ISim.ok rfl

theorem mi_prependSnd (hh : IHom B f E F) (n : Node I S (Tree I S 0)) (b : Option (Sized I S)) (w : World) :
    ISim B (prependSnd E n b w) (prependSnd F (L n) (b.map (Sized.mi f)) w) fun x => ((L x.1 : Tree J S 1), x.2) := by
  cases b with
  | none => exact ISim.ok rfl
  | some b =>
    simp only [prependSnd, Option.map_some, hh.zero]
    refine ISim.bind (mi_leafInsert hh n _ _ _) fun x => ?_
    obtain ⟨n1, z1, w1⟩ := x
    change Node I S (Tree I S 0) at n1
    exact ISim.bind (Node.mi_shiftKeys hh n1 _ _ _ _ _) fun _ => ISim.ok rfl

theorem mi_splitPlace (hh : IHom B f E F) (cb : Cb) (at_ : Side ⊕ Side) (n : Node I S (Tree I S 0)) (key : Key I S) (kz : I)
    (rhs : Node I S (Tree I S 0))
    (rs oz : I) (i mid : Nat) (ov : Option I) (a : Sized I S) (b : Option (Sized I S)) (w : World) :
    ISim B (splitPlace E cb at_ n key kz rhs rs oz i mid ov a b w)
      (splitPlace F cb at_ (L n) (key.mi f) (f kz) (L rhs) (f rs) (f oz) i mid (ov.map f) (a.mi f) (b.map (Sized.mi f)) w)
      fun x => (x.1.mi f (miT f), x.2) := by
  simp only [splitPlace]
  rcases at_ with (_ | _) | (_ | _)
  · exact ISim.bind (mi_leafInsertHalf hh cb n i ov a b w) fun _ => ISim.ok rfl
  · exact ISim.same fun _ => ISim.bind (mi_leafInsertHalf hh cb rhs _ ov a b w) fun _ => ISim.ok rfl
  · cases b with
    | none => exact ISim.err
    | some b =>
      refine ISim.bind (hh.addR _ _) fun _ => ISim.bind (hh.addR _ _) fun _ => ISim.bind (mi_leafPush hh n _ _ _ _) fun x => ?_
      obtain ⟨n1, w1⟩ := x
      change Node I S (Tree I S 0) at n1
      refine ISim.bind (mi_leafPush hh n1 _ _ _ _) fun x => ?_
      obtain ⟨n1, w1⟩ := x
      change Node I S (Tree I S 0) at n1
      simp only [Node.mi_len]
      refine ISim.bind (Node.mi_handle n1 _) fun _ => ISim.bind (Node.mi_handle n1 _) fun _ => ?_
      exact ISim.same fun _ => ISim.same fun _ => ISim.ok rfl
  · refine ISim.bind (hh.addR _ _) fun _ => ISim.bind (mi_leafPush hh n _ _ _ _) fun x => ?_
    obtain ⟨n1, w1⟩ := x
    change Node I S (Tree I S 0) at n1
    simp only [Node.mi_len]
    refine ISim.same fun _ => ISim.same fun _ => ?_
    exact ISim.bind (mi_prependSnd hh rhs _ _) fun _ => ISim.ok rfl

theorem mi_leafSplit (hh : IHom B f E F) (cb : Cb) (n : Node I S (Tree I S 0)) (i : Nat) (ov : Option I) (a : Sized I S)
    (b : Option (Sized I S)) (w : World) :
    ISim B (leafSplit E cb n i ov a b w) (leafSplit F cb (L n) i (ov.map f) (a.mi f) (b.map (Sized.mi f)) w)
      fun x => (x.1.mi f (miT f), x.2) := by
  simp only [leafSplit, hh.M, Node.mi_len, hh.zero]
  refine ISim.ite (fun _ => ?_) (fun _ => ?_)
  · cases b with
    | none => exact ISim.err
    | some b => exact mi_leafSplitSmall hh cb n i ov a b w
  · simp only [Option.isSome_map]
    refine ISim.same fun x => ?_
    obtain ⟨mid, at_⟩ := x
    refine ISim.bind (Node.mi_split n mid w) fun y => ?_
    obtain ⟨n', key, rhs, w⟩ := y
    have eo : (Option.map f (rhs.tryKeyPos 0)).getD (f n'.size) = f ((rhs.tryKeyPos 0).getD n'.size) := by
      cases rhs.tryKeyPos 0 <;> rfl
    simp only [Node.mi_len, Node.mi_ptr, Node.mi_size, Node.mi_tryKeyPos, Key.mi_pos, eo]
    refine ISim.same fun _ => ISim.same fun _ => ISim.bind (mi_midResize hh ov at_ i mid _ _) fun z => ?_
    obtain ⟨kz, ov⟩ := z
    refine ISim.bind (Node.mi_shiftKeys hh rhs _ _ _ _ _) fun rhs => ?_
    exact mi_splitPlace hh cb at_ { n' with size := key.pos } key kz rhs _ _ i mid ov a b _

theorem mi_leafRoom (hh : IHom B f E F) (cb : Cb) (n : Node I S (Tree I S 0)) (i : Nat) (ov : Option I) (a : Sized I S)
    (b : Option (Sized I S)) (ad : I) (w : World) :
    ISim B (leafRoom E cb n i ov a b ad w) (leafRoom F cb (L n) i (ov.map f) (a.mi f) (b.map (Sized.mi f)) (f ad) w)
      fun x => ((L x.1 : Tree J S 1), x.2.1.map f, f x.2.2.1, f x.2.2.2.1, x.2.2.2.2) := by
  have fin : ∀ (n : Node I S (Tree I S 0)) (op : Option I) (o z : I) (w : World), ISim B
      (do
        let _ ← Node.handle n i
        let w ← emit cb (.insertion n.ptr i) w
        pure (n, op, o, z, w) : R (Tree I S 1 × Option I × I × I × World))
      (do
        let _ ← Node.handle (L n) i
        let w ← emit cb (.insertion (L n).ptr i) w
        pure (L n, op.map f, f o, f z, w) : R (Tree J S 1 × Option J × J × J × World))
      fun x => ((L x.1 : Tree J S 1), x.2.1.map f, f x.2.2.1, f x.2.2.2.1, x.2.2.2.2) := by
    intro n op o z w
    exact ISim.bind (Node.mi_handle n i) fun _ => ISim.same fun _ => ISim.ok rfl
  simp only [leafRoom, hh.zero]
  cases ov with
  | some z =>
    simp only [Option.map_some, bassoc]
    refine ISim.same fun k => ISim.bind (Node.mi_keyPos n k) fun p => ISim.bind (Node.mi_sliceSize hh (mi_szL hh) n k) fun ss =>
      ISim.bind (hh.addR _ _) fun _ => ISim.bind (mi_leafInsert hh n _ _ _) fun x => ?_
    obtain ⟨n1, z1, w1⟩ := x
    change Node I S (Tree I S 0) at n1
    simp only [bassoc]
    refine ISim.bind (Node.mi_setKeyPos (f := f) (g := miT f (h := 0)) n1 _ _) fun n1 => ?_
    cases b with
    | none =>
      simp only [Option.map_none, R.pure_eq, R.bind_ok]
      exact ISim.bind (hh.addR _ _) fun _ => fin n1 (some p) ss _ w1
    | some b =>
      simp only [Option.map_some, R.pure_eq, R.bind_ok, bassoc]
      refine ISim.bind (mi_leafInsert hh n1 _ _ _) fun x => ?_
      obtain ⟨n1, z1, w1⟩ := x
      change Node I S (Tree I S 0) at n1
      simp only [bassoc]
      refine ISim.bind (hh.addR _ _) fun _ => ISim.bind (Node.mi_setKeyPos (f := f) (g := miT f (h := 0)) n1 _ _) fun n1 =>
        ISim.bind (hh.addR _ _) fun _ => fin n1 (some p) ss _ w1
  | none =>
    simp only [Option.map_none, bassoc]
    refine ISim.bind (mi_leafInsert hh n _ _ _) fun x => ?_
    obtain ⟨n1, z1, w1⟩ := x
    change Node I S (Tree I S 0) at n1
    cases b with
    | none => exact fin n1 none _ ad w1
    | some b =>
      simp only [Option.map_some, R.pure_eq, R.bind_ok, bassoc]
      refine ISim.bind (mi_leafInsert hh n1 _ _ _) fun x => ?_
      obtain ⟨n1, z2, w1⟩ := x
      change Node I S (Tree I S 0) at n1
      simp only [bassoc]
      exact ISim.bind (hh.addR _ _) fun _ => ISim.bind (Node.mi_setKeyPos (f := f) (g := miT f (h := 0)) n1 _ _) fun n1 =>
        fin n1 (some z1) _ ad w1

theorem mi_noJoin (hh : IHom B f E F) (cb : Cb) (m : Maps I) (n : Node I S (Tree I S 0)) (ctx : Ctx I S Ht 1) (i : Nat) (ov : Option I)
    (a : Sized I S) (b : Option (Sized I S)) (w : World) :
    ISim B (noJoin E cb m n ctx i ov a b w) (noJoin F cb (m.mi f) (L n) (ctx.mi f) i (ov.map f) (a.mi f) (b.map (Sized.mi f)) w)
      fun x => (x.1.mi f, x.2) := by
  have key : ∀ (one : Nat) (added : I), ISim B
      (do
        let lim ← usub (2 * E.M) one
        if Node.len n ≥ lim then do
          let (b, w) ← leafSplit E cb n i ov a b w
          bubbleFinish E cb m ctx b false [] w
        else do
          let (n, ovPos, old, new, w) ← leafRoom E cb n i ov a b added w
          let (t, path) ← opKey E.ix m false ctx n (i + one) ovPos old new []
          pure (Post.done t, path, ctx.readUp (ptrT n) w))
      (do
        let lim ← usub (2 * E.M) one
        if Node.len n ≥ lim then do
          let (b, w) ← leafSplit F cb (L n) i (ov.map f) (a.mi f) (b.map (Sized.mi f)) w
          bubbleFinish F cb (m.mi f) (ctx.mi f) b false [] w
        else do
          let (n, ovPos, old, new, w) ← leafRoom F cb (L n) i (ov.map f) (a.mi f) (b.map (Sized.mi f)) (f added) w
          let (t, path) ← opKey F.ix (m.mi f) false (ctx.mi f) n (i + one) ovPos old new []
          pure (Post.done t, path, (ctx.mi f).readUp (ptrT n) w))
      fun x => (x.1.mi f, x.2) := by
    intro one added
    refine ISim.same fun lim => ISim.ite (fun _ => ?_) (fun _ => ?_)
    · refine ISim.bind (mi_leafSplit hh cb n i ov a b w) fun x => ?_
      exact mi_bubbleFinish hh cb m ctx x.1 false [] x.2
    · refine ISim.bind (mi_leafRoom hh cb n i ov a b added w) fun x => ?_
      obtain ⟨n1, ov1, o1, z1, w1⟩ := x
      refine ISim.bind (mi_opKey hh m false ctx n1 (i + one) ov1 o1 z1 []) fun y => ISim.ok ?_
      simp only [Ctx.mi_readUp]
      rfl
  simp only [noJoin, hh.M, Node.mi_len, Option.isSome_map]
  refine ISim.same fun _ => ISim.same fun _ => ?_
  cases b with
  | none =>
    have := key 0 a.size
    simp only [Option.map_none, bassoc, R.bind_ok, R.pure_eq] at this ⊢
    exact this
  | some b =>
    simp only [Option.map_some, bassoc, R.bind_ok, R.pure_eq]
    refine ISim.bind (hh.addR _ _) fun ad => ?_
    have := key 1 ad
    simp only [Option.map_some, bassoc, R.bind_ok, R.pure_eq] at this
    exact this

/-! ## Searching -/

/-- An assertion checked in debug builds only. -/
theorem mi_check (hh : IHom B f E F) (c : Bool) (m : String) :
    ISim B (check (!E.ix.debug || c) m) (check (!F.ix.debug || c) m) fun x => x := by
  rcases hh.debug with h | ⟨h, hb⟩
  · exact .inr (by rw [h]; cases check (!E.ix.debug || c) m <;> rfl)
  · by_cases hc : (!E.ix.debug || c) = true
    · rw [hc]
      exact .inr (by simp [h, check])
    · exact .inl ⟨_, hb m, by simp [check, hc]⟩

theorem mi_bsearch (hh : IHom B f E F) (xs : List I) (t : I) (l r : Nat) :
    bsearch F.ix (xs.map f) (f t) l r = bsearch E.ix xs t l r := by
  induction hn : r - l using Nat.strongRecOn generalizing l r with
  | _ n ih =>
    unfold bsearch
    by_cases hlt : l < r
    · simp only [hlt, dite_true, List.getElem?_map]
      cases xs[l + (r - l) / 2]? with
      | none => rfl
      | some x =>
        simp only [Option.map_some, hh.cmp]
        cases E.ix.cmp x t
        · exact ih _ (by omega) _ _ rfl
        · rfl
        · exact ih _ (by omega) _ _ rfl
    · simp [hlt]

theorem mi_hintStep (hh : IHom B f E F) {h : Nat} (n : Tree I S (h + 1)) (hint : Option Nat) (t : I) :
    ISim B (hintStep E.ix n hint t) (hintStep F.ix (miT f n) hint (f t)) (Option.map (Step.mi f)) := by
  cases h with
  | zero => exact ISim.ok rfl
  | succ h =>
    cases hint with
    | none => exact ISim.ok rfl
    | some c =>
      have e1 : Node.len (miT f n) = Node.len n := Node.mi_len (f := f) (g := miT f) n
      have e3 : Node.nextPos (miT f n) c = f (Node.nextPos n c) := Node.mi_nextPos (f := f) (g := miT f) n c
      simp only [hintStep]
      rw [e1, e3]
      refine ISim.ite (fun _ => ISim.ok rfl) (fun _ => ?_)
      refine ISim.bind (Node.mi_childSize (f := f) (g := miT f) (miT_size hh) n c) fun cs => ISim.bind (hh.subR _ _) fun p => ?_
      simp only [hh.le, hh.lt]
      exact ISim.ite (fun _ => ISim.ok rfl) (fun _ => ISim.ok rfl)

theorem mi_fullStep (hh : IHom B f E F) {h : Nat} (n : Tree I S (h + 1)) (t : I) :
    ISim B (fullStep E.ix n t) (fullStep F.ix (miT f n) (f t)) (Step.mi f) := by
  have e1 : Node.len (miT f n) = Node.len n := Node.mi_len (f := f) (g := miT f) n
  have e3 : ∀ c, Node.nextPos (miT f n) c = f (Node.nextPos n c) := fun c => Node.mi_nextPos (f := f) (g := miT f) n c
  have e5 : (Node.keys (miT f n)).map (·.pos) = ((Node.keys n).map (·.pos)).map f := by
    have : Node.keys (miT f n) = (Node.keys n).map (Key.mi f) := rfl
    rw [this, List.map_map, List.map_map]
    rfl
  unfold fullStep
  have e6 : bsearch F.ix ((Node.keys (miT f n)).map (·.pos)) (f t) 0 (Node.len (miT f n)) =
      bsearch E.ix ((Node.keys n).map (·.pos)) t 0 (Node.len n) := by rw [e5, e1, mi_bsearch hh]
  erw [e6]
  refine ISim.same fun r => ?_
  rcases r with i | (_ | k)
  · exact ISim.bind (Node.mi_keyPos (f := f) (g := miT f) n i) fun _ => ISim.ok rfl
  · exact ISim.ok (by simp [Step.mi, hh.zero])
  · simp only [e3, hh.le]
    refine ISim.bind (Node.mi_childSize (f := f) (g := miT f) (miT_size hh) n _) fun cs => ?_
    refine ISim.bind (mi_check hh _ _) fun _ => ISim.bind (hh.subR _ _) fun st => ?_
    simp only [hh.lt]
    exact ISim.ite (fun _ => ISim.bind (Node.mi_keyPos (f := f) (g := miT f) n _) fun _ => ISim.ok rfl) (fun _ => ISim.ok rfl)

theorem mi_searchStep (hh : IHom B f E F) {h : Nat} (n : Tree I S (h + 1)) (hint : Option Nat) (t : I) :
    ISim B (searchStep E.ix n hint t) (searchStep F.ix (miT f n) hint (f t)) (Step.mi f) := by
  have e1 : Node.size (miT f n) = f (Node.size n) := rfl
  simp only [searchStep, e1, hh.le]
  refine ISim.bind (mi_check hh _ _) fun _ => ISim.bind (mi_hintStep hh n hint t) fun r => ?_
  cases r with
  | none => exact mi_fullStep hh n t
  | some r => exact ISim.ok rfl

theorem mi_findStep (hh : IHom B f E F) {h : Nat} (n : Tree I S (h + 1)) (hint : Option Nat) (t : I) :
    ISim B (findStep E.ix n hint t) (findStep F.ix (miT f n) hint (f t)) (Step.mi f) := by
  refine ISim.bind (mi_searchStep hh n hint t) fun r => ?_
  cases r with
  | child c p => exact ISim.ok rfl
  | key k p =>
    simp only [Step.mi, hh.eq]
    refine ISim.ite (fun _ => ?_) (fun _ => ISim.ok rfl)
    exact ISim.bind (Node.mi_childSize (f := f) (g := miT f) (miT_size hh) n _) fun cs => ISim.bind (hh.subR _ _) fun _ => ISim.ok rfl

theorem mi_adjacent (hh : IHom B f E F) (h : Nat) (n : Node I S C) (c : Nat) (l r : Option (Nat × Nat)) :
    adjacent F h (n.mi f g) c l r = adjacent E h n c l r := by
  simp only [adjacent, hh.may, Node.mi_len]

theorem mi_frame {h : Nat} (n : Tree I S (h + 2)) (c : Nat) (ctx : Ctx I S Ht (h + 2)) :
    Ctx.frame (Node.ptr (miT f n)) (Node.size (miT f n)) (Node.keys (miT f n)) ((Node.kids (miT f n)).take c)
        ((Node.kids (miT f n)).drop (c + 1)) (ctx.mi f) =
      (Ctx.frame (Node.ptr n) (Node.size n) (Node.keys n) ((Node.kids n).take c) ((Node.kids n).drop (c + 1)) ctx).mi f := by
  simp only [Ctx.mi, List.map_take, List.map_drop]
  rfl

theorem mi_nextHints (hints : Option (List Nat)) (r : Step I) : nextHints hints (r.mi f) = nextHints hints r := by
  cases r <;> rcases hints with _ | _ | _ <;> rfl

theorem mi_nextHints' (hints : Option (List Nat)) (c : Nat) (p : I) :
    nextHints hints (.child c (f p)) = nextHints hints (.child c p) := mi_nextHints (f := f) hints (.child c p)

theorem mi_findPoint (hh : IHom B f E F) {h : Nat} (n : Tree I S (h + 1)) (ctx : Ctx I S Ht (h + 1)) (hints : Option (List Nat)) (t : I)
    (l r : Option (Nat × Nat)) :
    ISim B (findPoint E n ctx hints t l r) (findPoint F (miT f n) (ctx.mi f) hints (f t) l r) (Point.mi f) := by
  induction h generalizing hints t l r with
  | zero =>
    simp only [findPoint]
    refine ISim.bind (mi_findStep hh n _ t) fun st => ?_
    cases st with
    | child c p =>
      have := mi_adjacent (g := miT f (h := 0)) hh 0 n c l r
      refine ISim.ok ?_
      erw [this]
      rfl
    | key k p => exact ISim.bind (Node.mi_handle (f := f) (g := miT f (h := 0)) n k) fun _ => ISim.bind (hh.subL _ _) fun d => ISim.ok rfl
  | succ h ih =>
    simp only [findPoint]
    refine ISim.bind (mi_findStep hh n _ t) fun st => ?_
    cases st with
    | child c p =>
      have := mi_adjacent (g := miT f (h := h + 1)) hh (h + 1) n c l r
      simp only [Step.mi]
      erw [this]
      refine ISim.bind (hh.subL _ _) fun t' => ISim.bind (Node.mi_child (f := f) (g := miT f (h := h + 1)) n c) fun ch => ?_
      rw [mi_frame, mi_nextHints']
      exact ih ch _ _ _ _ _
    | key k p => exact ISim.bind (Node.mi_handle (f := f) (g := miT f (h := h + 1)) n k) fun _ => ISim.bind (hh.subL _ _) fun d => ISim.ok rfl

/-! ## Joins -/

theorem mi_climb (k : Nat) {h : Nat} (t : Tree I S (h + 1)) (ctx : Ctx I S Ht (h + 1)) :
    ISim B (climb k t ctx) (climb k (miT f t) (ctx.mi f)) fun x => ⟨x.1, miT f x.2.1, x.2.2.mi f⟩ := by
  induction k generalizing h with
  | zero => exact ISim.ok rfl
  | succ k ih =>
    cases ctx with
    | top => exact ISim.err
    | frame p z ks kl kr up =>
      simp only [Ctx.mi, climb, mi_plugNode]
      exact ih (plugNode p z ks kl t kr) up

theorem mi_setSliceUp (k : Nat) {h : Nat} (ctx : Ctx I S Ht h) (i : Nat) (s : S) :
    ISim B (setSliceUp k ctx i s) (setSliceUp k (ctx.mi f) i s) (Ctx.mi f) := by
  induction k generalizing h with
  | zero =>
    cases ctx with
    | top => exact ISim.err
    | frame p z ks kl kr up =>
      refine .of_eq ?_
      simp only [Ctx.mi, setSliceUp, List.getElem?_map]
      cases ks[i]? with
      | none => rfl
      | some k => simp [Ctx.mi, List.map_set, Key.mi]
  | succ k ih =>
    cases ctx with
    | top => exact ISim.err
    | frame p z ks kl kr up =>
      simp only [Ctx.mi, setSliceUp]
      exact ISim.bind (ih up) fun _ => ISim.ok rfl

theorem mi_setSliceAt (leaf : Tree I S 1) (ctx : Ctx I S Ht 1) (hd : Nat × Nat) (s : S) :
    ISim B (setSliceAt leaf ctx hd s) (setSliceAt (miT f leaf) (ctx.mi f) hd s) fun x => (miT f x.1, x.2.mi f) := by
  obtain ⟨_ | n, k⟩ := hd
  · exact ISim.bind (Node.mi_setSlice (f := f) (g := miT f (h := 0)) leaf k s) fun _ => ISim.ok rfl
  · exact ISim.bind (mi_setSliceUp n ctx k s) fun _ => ISim.ok rfl

theorem mi_handleAt (hh : IHom B f E F) (leaf : Tree I S 1) (ctx : Ctx I S Ht 1) (hd : Nat × Nat) :
    ISim B (handleAt E.ix leaf ctx hd) (handleAt F.ix (miT f leaf) (ctx.mi f) hd) fun x => (x.1, f x.2) := by
  unfold handleAt
  refine ISim.bind (mi_climb hd.1 leaf ctx) fun x => ?_
  obtain ⟨h', n, c⟩ := x
  exact ISim.bind (Node.mi_handle (f := f) (g := miT f) n hd.2) fun key =>
    ISim.bind (Node.mi_sliceSize (g := miT f) hh (miT_size hh) n hd.2) fun z => ISim.ok rfl

theorem mi_finishJoin (hh : IHom B f E F) (leaf : Tree I S 1) (ctx : Ctx I S Ht 1) (hd : Nat × Nat) (o z : I) (w : World) :
    ISim B (finishJoin E leaf ctx hd o z w) (finishJoin F (miT f leaf) (ctx.mi f) hd (f o) (f z) w) fun x => (x.1.mi f, x.2) := by
  unfold finishJoin
  refine ISim.bind (mi_climb hd.1 leaf ctx) fun x => ?_
  obtain ⟨h', n, c⟩ := x
  refine ISim.same fun w => ?_
  rw [mi_identity hh]
  refine ISim.bind (mi_opKey hh _ false c n hd.2 none o z []) fun y => ISim.ok ?_
  simp only [Ctx.mi_readUp, miT_ptr]
  rfl

/-- Apply `f` to the outcome of an attempt to join. -/
def miJ (f : I → J) : JoinResult I S Ht → JoinResult J S Ht
  | .inl r => .inl (r.1.mi f, r.2)
  | .inr (l, c, s) => .inr (miT f l, c.mi f, s)

theorem mi_tryJoinEdge (hh : IHom B f E F) (leaf : Tree I S 1) (ctx : Ctx I S Ht 1) (l r : Option (Nat × Nat)) (s : S) (z : I)
    (w : World) :
    ISim B (tryJoinEdge E leaf ctx l r s z w) (tryJoinEdge F (miT f leaf) (ctx.mi f) l r s (f z) w) (miJ f) := by
  simp only [tryJoinEdge, hh.may, hh.join]
  refine ISim.ite (fun _ => ISim.ok rfl) (fun _ => ?_)
  cases l with
  | none =>
    cases r with
    | none => exact ISim.err
    | some r =>
      refine ISim.bind (mi_handleAt hh leaf ctx r) fun x => ?_
      obtain ⟨rs, rz⟩ := x
      dsimp only
      cases hj : E.sl.tryJoin s rs with
      | inl m =>
        exact ISim.bind (mi_setSliceAt leaf ctx r m) fun x => ISim.bind (hh.addL _ _) fun nz =>
          ISim.bind (mi_finishJoin hh x.1 x.2 r rz nz w) fun _ => ISim.ok rfl
      | inr p => exact ISim.bind (mi_setSliceAt leaf ctx r p.2) fun x => ISim.ok rfl
  | some l =>
    cases r with
    | none =>
      refine ISim.bind (mi_handleAt hh leaf ctx l) fun x => ?_
      obtain ⟨ls, lz⟩ := x
      dsimp only
      cases hj : E.sl.tryJoin ls s with
      | inl m =>
        exact ISim.bind (mi_setSliceAt leaf ctx l m) fun x => ISim.bind (hh.addR _ _) fun nz =>
          ISim.bind (mi_finishJoin hh x.1 x.2 l lz nz w) fun _ => ISim.ok rfl
      | inr p => exact ISim.bind (mi_setSliceAt leaf ctx l p.1) fun x => ISim.ok rfl
    | some r =>
      refine ISim.bind (mi_handleAt hh leaf ctx l) fun x => ?_
      obtain ⟨ls, lz⟩ := x
      refine ISim.bind (mi_handleAt hh leaf ctx r) fun x => ?_
      obtain ⟨rs, rz⟩ := x
      dsimp only
      cases hj : E.sl.tryJoin ls s with
      | inl m =>
        refine ISim.bind (hh.addR _ _) fun mz => ?_
        cases hj2 : E.sl.tryJoin m rs with
        | inl _ => exact ISim.err
        | inr p =>
          exact ISim.bind (mi_setSliceAt leaf ctx r p.2) fun x => ISim.bind (mi_setSliceAt x.1 x.2 l p.1) fun x =>
            ISim.bind (mi_finishJoin hh x.1 x.2 l lz mz w) fun _ => ISim.ok rfl
      | inr p =>
        refine ISim.bind (mi_setSliceAt leaf ctx l p.1) fun x => ?_
        dsimp only
        cases hj2 : E.sl.tryJoin p.2 rs with
        | inl m =>
          exact ISim.bind (mi_setSliceAt x.1 x.2 r m) fun x => ISim.bind (hh.addR _ _) fun nz =>
            ISim.bind (mi_finishJoin hh x.1 x.2 r rz nz w) fun _ => ISim.ok rfl
        | inr q => exact ISim.bind (mi_setSliceAt x.1 x.2 r q.2) fun x => ISim.ok rfl

theorem mi_insertEdge (hh : IHom B f E F) (leaf : Tree I S 1) (ctx : Ctx I S Ht 1) (i : Nat) (l r : Option (Nat × Nat)) (s : S) (z : I)
    (w : World) :
    ISim B (insertEdge E leaf ctx i l r s z w) (insertEdge F (miT f leaf) (ctx.mi f) i l r s (f z) w)
      fun x => (x.1, x.2.1.mi f, x.2.2) := by
  have e1 : Node.len (miT f leaf) = Node.len leaf := Node.mi_len (f := f) (g := miT f (h := 0)) leaf
  unfold insertEdge
  rw [e1]
  refine ISim.same fun _ => ISim.bind (mi_tryJoinEdge hh leaf ctx l r s z w) fun x => ?_
  rcases x with x | ⟨lf, c, s⟩
  · exact ISim.ok rfl
  · simp only [miJ, mi_identity hh]
    exact ISim.bind (mi_noJoin hh _ _ lf c i none ⟨s, z⟩ none w) fun _ => ISim.ok rfl

theorem mi_descend {h : Nat} (n : Tree I S (h + 1)) (ctx : Ctx I S Ht (h + 1)) :
    ISim B (descend n ctx) (descend (miT f n) (ctx.mi f)) fun x => (miT f x.1, x.2.mi f) := by
  induction h with
  | zero => exact ISim.ok rfl
  | succ h ih =>
    simp only [descend]
    refine ISim.bind (Node.mi_child (f := f) (g := miT f (h := h + 1)) n 0) fun ch => ?_
    have := mi_frame (f := f) n 0 ctx
    simp only [Nat.zero_add] at this
    rw [this]
    exact ih ch _

theorem mi_rhsLeaf {h : Nat} (n : Tree I S (h + 1)) (ctx : Ctx I S Ht (h + 1)) (k : Nat) :
    ISim B (rhsLeaf n ctx k) (rhsLeaf (miT f n) (ctx.mi f) k) fun x => (miT f x.1, x.2.1.mi f, x.2.2) := by
  cases h with
  | zero => exact ISim.ok rfl
  | succ h =>
    simp only [rhsLeaf]
    refine ISim.bind (Node.mi_child (f := f) (g := miT f (h := h + 1)) n (k + 1)) fun ch => ?_
    rw [mi_frame]
    exact ISim.bind (mi_descend ch _) fun _ => ISim.ok rfl

theorem mi_insertRhs (hh : IHom B f E F) (nop skip : Bool) {h : Nat} (n : Tree I S (h + 1)) (ctx : Ctx I S Ht (h + 1)) (k : Nat) (nl : I)
    (lm : Bool) (a : Sized I S) (b : Option (Sized I S)) (w : World) :
    ISim B (insertRhs E nop skip n ctx k nl lm a b w)
      (insertRhs F nop skip (miT f n) (ctx.mi f) k (f nl) lm (a.mi f) (b.map (Sized.mi f)) w) fun x => (x.1.mi f, x.2) := by
  simp only [insertRhs]
  refine ISim.bind (Node.mi_keyPos (f := f) (g := miT f) n k) fun lp =>
    ISim.bind (Node.mi_sliceSize (g := miT f) hh (miT_size hh) n k) fun ol => ISim.bind (mi_rhsLeaf n ctx k) fun x => ?_
  have e : (if h = 0 then some (f nl) else none) = (if h = 0 then some nl else none).map f := by split <;> rfl
  rw [e]
  exact mi_noJoin hh _ ⟨decide (h ≠ 0), lm && !nop, h, k, lp, ol, nl⟩ x.1 x.2.1 x.2.2 _ a b w

theorem mi_insertSplit (hh : IHom B f E F) (nop : Bool) {h : Nat} (n : Tree I S (h + 1)) (ctx : Ctx I S Ht (h + 1)) (k : Nat) (p : I)
    (s : S) (z : I) (w : World) :
    ISim B (insertSplit E nop n ctx k p s z w) (insertSplit F nop (miT f n) (ctx.mi f) k (f p) s (f z) w)
      fun x => (x.1, x.2.1.mi f, x.2.2) := by
  simp only [insertSplit, hh.may, hh.join, hh.split]
  refine ISim.bind (Node.mi_sliceSize (g := miT f) hh (miT_size hh) n k) fun kz =>
    ISim.bind (Node.mi_handle (f := f) (g := miT f) n k) fun key => ?_
  simp only [Key.mi_slice]
  refine ISim.bind (Node.mi_setSlice (f := f) (g := miT f) n k _) fun n => ISim.bind (hh.subL _ _) fun rz => ?_
  refine ISim.ite (fun _ => ?_) (fun _ => ?_)
  · exact ISim.bind (mi_insertRhs hh nop false n ctx k p false ⟨s, z⟩ (some ⟨_, rz⟩) w) fun _ => ISim.ok rfl
  · cases E.sl.tryJoin (E.sl.splitAt key.slice p).1 s with
    | inl m =>
      refine ISim.bind (hh.addR _ _) fun mz => ?_
      cases E.sl.tryJoin m (E.sl.splitAt key.slice p).2 with
      | inl new =>
        refine ISim.bind (Node.mi_setSlice (f := f) (g := miT f) n k new) fun n => ISim.same fun w =>
          ISim.bind (hh.addR _ _) fun o => ISim.bind (hh.addR _ _) fun nz => ?_
        rw [mi_identity hh]
        refine ISim.bind (mi_opKey hh _ false ctx n k none o nz []) fun _ => ISim.ok ?_
        simp only [Ctx.mi_readUp]
        rfl
      | inr q =>
        refine ISim.bind (Node.mi_setSlice (f := f) (g := miT f) n k q.1) fun n => ISim.same fun w => ?_
        exact ISim.bind (mi_insertRhs hh nop true n ctx k mz true ⟨q.2, rz⟩ none w) fun _ => ISim.ok rfl
    | inr q =>
      refine ISim.bind (Node.mi_setSlice (f := f) (g := miT f) n k q.1) fun n => ?_
      cases E.sl.tryJoin q.2 (E.sl.splitAt key.slice p).2 with
      | inl new =>
        exact ISim.bind (hh.addR _ _) fun nz =>
          ISim.bind (mi_insertRhs hh nop false n ctx k p false ⟨new, nz⟩ none w) fun _ => ISim.ok rfl
      | inr r => exact ISim.bind (mi_insertRhs hh nop false n ctx k p false ⟨r.1, z⟩ (some ⟨r.2, rz⟩) w) fun _ => ISim.ok rfl

theorem mi_insertAt (hh : IHom B f E F) (nop : Bool) (pt : Point I S Ht) (s : S) (z : I) (w : World) :
    ISim B (insertAt E nop pt s z w) (insertAt F nop (pt.mi f) s (f z) w) fun x => (x.1, x.2.1.mi f, x.2.2) := by
  cases pt with
  | edge leaf ctx i l r => exact mi_insertEdge hh leaf ctx i l r s z w
  | split h n ctx k p => exact mi_insertSplit hh nop n ctx k p s z w

theorem mi_installRoot (hh : IHom B f E F) (len : Nat) (post : Post I S (Ht + 1)) (path : List Nat) (hd : Option (Nat × Nat)) (w : World) :
    ISim B (installRoot E len post path hd w) (installRoot F len (post.mi f) path hd w) fun x => (x.1.mi f, x.2) := by
  cases post with
  | done t =>
    simp only [Post.mi, installRoot, hh.refs]
    exact ISim.same fun _ => ISim.ok rfl
  | newRoot l k z r =>
    simp only [Post.mi, installRoot, hh.refs]
    exact ISim.bind (mi_makeNewParent hh l r k z w) fun x => ISim.same fun _ => ISim.ok rfl

theorem mi_new (hh : IHom B f E F) (s : S) (z : I) (w : World) :
    ISim B (RleTree.new E s z w) (RleTree.new F s (f z) w) fun x => (x.1.mi f, x.2) := by
  simp only [RleTree.new, hh.M, hh.zero, hh.le]
  refine ISim.same fun _ => ISim.same fun _ => ISim.same fun _ => ISim.ok ?_
  simp only [RleTree.mi, Option.map_some, newRoot, hh.zero]
  rfl

theorem mi_treeSize (hh : IHom B f E F) (t : RleTree I S) : (t.mi f).size F = f (t.size E) := by
  obtain ⟨_ | r⟩ := t
  · exact hh.zero
  · rfl

/-- Insertion commutes with a map of indices that commutes with the operations on indices. -/
theorem RleTree.mi_insert (hh : IHom B f E F) (t : RleTree I S) (nop : Bool) (hints : List Nat) (i : I) (s : S) (z : I) (w : World) :
    ISim B (t.insert E nop hints i s z w) ((t.mi f).insert F nop hints (f i) s (f z) w) fun x => (x.1.mi f, x.2) := by
  simp only [RleTree.insert, mi_treeSize hh, hh.lt, hh.zero, hh.le]
  refine ISim.same fun _ => ISim.same fun _ => ?_
  obtain ⟨_ | r⟩ := t
  · simp only [RleTree.mi, Option.map_none]
    refine ISim.bind (mi_new hh s z w) fun x => ?_
    obtain ⟨⟨_ | r⟩, w⟩ := x
    · exact ISim.err
    · simp only [RleTree.mi, Option.map_some, hh.refs]
      exact ISim.ok rfl
  · simp only [RleTree.mi, Option.map_some]
    refine ISim.bind (mi_findPoint hh r.tree .top (some hints) i none none) fun pt =>
      ISim.bind (mi_insertAt hh nop pt s z _) fun x => ?_
    simp only [hh.refs]
    exact ISim.ite (fun _ => ISim.same fun hd => mi_installRoot hh _ _ _ _ _) fun _ => ISim.same fun hd => mi_installRoot hh _ _ _ _ _

theorem mi_getKey (hh : IHom B f E F) (idx : I) {h : Nat} (n : Tree I S (h + 1)) (t : I) (k : Nat) (p : I) :
    ISim B (getKey E.ix idx n t k p) (getKey F.ix (f idx) (miT f n) (f t) k (f p)) (Entry.mi f) := by
  exact ISim.bind (Node.mi_handle (f := f) (g := miT f) n k) fun _ => ISim.bind (hh.subL _ _) fun _ => ISim.bind (hh.subR _ _) fun _ =>
    ISim.bind (Node.mi_sliceSize (g := miT f) hh (miT_size hh) n k) fun _ => ISim.bind (hh.addR _ _) fun _ => ISim.ok rfl

theorem mi_getLoop (hh : IHom B f E F) (idx : I) {h : Nat} (n : Tree I S (h + 1)) (hints : Option (List Nat)) (t : I) :
    ISim B (getLoop E.ix idx n hints t) (getLoop F.ix (f idx) (miT f n) hints (f t)) (Entry.mi f) := by
  induction h generalizing hints t with
  | zero =>
    simp only [getLoop]
    refine ISim.bind (mi_searchStep hh n _ t) fun st => ?_
    cases st with
    | key k p => exact mi_getKey hh idx n t k p
    | child c p => exact ISim.bind (hh.subL _ _) fun _ => ISim.err
  | succ h ih =>
    simp only [getLoop]
    refine ISim.bind (mi_searchStep hh n _ t) fun st => ?_
    cases st with
    | key k p => exact mi_getKey hh idx n t k p
    | child c p =>
      simp only [Step.mi, mi_nextHints']
      exact ISim.bind (hh.subL _ _) fun _ =>
        ISim.bind (Node.mi_child (f := f) (g := miT f (h := h + 1)) n c) fun ch => ih ch _ _

/-- Lookup commutes with a map of indices that commutes with the operations on indices. -/
theorem RleTree.mi_get (hh : IHom B f E F) (t : RleTree I S) (hints : List Nat) (i : I) :
    ISim B (t.get E hints i) ((t.mi f).get F hints (f i)) (Entry.mi f) := by
  simp only [RleTree.get, mi_treeSize hh, hh.lt, hh.zero]
  refine ISim.same fun _ => ISim.same fun _ => ?_
  obtain ⟨_ | r⟩ := t
  · exact ISim.err
  · exact mi_getLoop hh i r.tree _ i

theorem mi_cursorLoop (hh : IHom B f E F) {h : Nat} (n : Tree I S (h + 1)) (t : I) :
    ISim B (cursorLoop E.ix n t) (cursorLoop F.ix (miT f n) (f t)) fun x => x := by
  induction h generalizing t with
  | zero => exact ISim.ok rfl
  | succ h ih =>
    simp only [cursorLoop]
    refine ISim.bind (mi_searchStep hh n _ t) fun st => ?_
    cases st with
    | key k p => exact ISim.ok rfl
    | child c p =>
      exact ISim.bind (hh.subL _ _) fun _ =>
        ISim.bind (Node.mi_child (f := f) (g := miT f (h := h + 1)) n c) fun ch => ISim.bind (ih ch _) fun _ => ISim.ok rfl

theorem RleTree.mi_cursorTo (hh : IHom B f E F) (t : RleTree I S) (i : I) :
    ISim B (t.cursorTo E i) ((t.mi f).cursorTo F (f i)) fun x => x := by
  simp only [RleTree.cursorTo, mi_treeSize hh, hh.lt, hh.zero]
  refine ISim.same fun _ => ISim.same fun _ => ?_
  obtain ⟨_ | r⟩ := t
  · exact ISim.err
  · exact mi_cursorLoop hh r.tree i

end Sherman
