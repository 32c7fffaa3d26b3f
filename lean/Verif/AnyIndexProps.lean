import Verif.AnyIndexRefs
/-!
# Any implementation of `Index`

`Index` is a safe trait, so nothing that unsafe code relies on may depend on what its operations return: the documentation of `Index::TRUSTED` says that
the field "is never used to change the behavior of unsafe code" (src/public_traits.rs:27-35), and the panics for a "bad index implementation"
(src/tree/iter.rs:178-184) say what may happen instead.  Here the operations are arbitrary functions that may fail; `Slice` is arbitrary as well.  The
theorems say that the functions of the tree then return or panic, but never violate a precondition of unsafe code, in programs of any length.  With
`debug := false` this also holds in builds without debug assertions, where the assertions about positions do not exist.

Not covered: functions that return something else when called again with the same arguments; what the tree does after a panic inside of a
function of `Index` that the program catches (C55, `Verif/CaughtProps.lean`); trees with `param::AllowCow`.
-/
namespace Sherman
variable {I S : Type}

local notation "𝒰" => Mode.unshared.tr

/-- Specification: the computation does not fail except by panicking. -/
def Defined {α : Type} (debug : Bool) (x : R α) : Prop := ∀ f, x = .error f → Harmless debug f

theorem Safe.defined {α : Type} {d : Bool} {x : R α} {Q : α → Prop} (h : Safe d x Q) : Defined d x := fun _ hf => h.fault hf

/-- Specification: `2M` keys at most, one at least in the root and `M` in other nodes; one more child than keys; all leaves are at the same depth (this is in
the type).  In C08 the same is part of a statement that also says that sizes and positions are right; here they may be anything. -/
def Balanced (M : Nat) (t : RleTree I S) : Prop := ∀ r, t.root = some r → ShapeT M 1 r.tree

theorem clone_shape {μ M : Nat} {h : Nat} : ∀ {lo : Nat} {t : Tree I S h} (w : World), FillT μ M lo t → FillT μ M lo (deepCloneT t w).1 := by
  induction h with
  | zero => intro lo t w _; trivial
  | succ h ih =>
    intro lo t w hs
    obtain ⟨h1, h2, h3, h4⟩ := fillT_succ.1 hs
    have hk : ∀ (l : List (Tree I S h)) (w : World), (∀ c ∈ l, FillT μ M μ c) →
        (cloneKids deepCloneT l w).1.length = l.length ∧ ∀ c ∈ (cloneKids deepCloneT l w).1, FillT μ M μ c := by
      intro l
      induction l with
      | nil => intro w _; exact ⟨rfl, by simp [cloneKids]⟩
      | cons c l ihl =>
        intro w hl
        obtain ⟨g1, g2⟩ := ihl (deepCloneT c w).2 fun x hx => hl x (by simp [hx])
        simp only [cloneKids]
        refine ⟨by simp [g1], fun x hx => ?_⟩
        rcases List.mem_cons.1 hx with rfl | hx
        · exact ih w (hl c (by simp))
        · exact g2 x hx
    obtain ⟨g1, g2⟩ := hk (Node.kids t) w h4
    exact shape_mk (k := (Node.keys t).length) (l := (cloneKids deepCloneT (Node.kids t) w).1) (by simp [deepCloneT]) rfl h1 h2 (by rw [g1, h3]) g2

theorem Forest.Run.shapes {E : Env I S} (hc : Civil E.ix) {st : Forest I S} (h : Forest.Run E st) : ∀ t ∈ st.trees, t.Shape E.M E.M := by
  have set : ∀ {l : List (RleTree I S)} {i : Nat} {t : RleTree I S}, (∀ t ∈ l, t.Shape E.M E.M) → t.Shape E.M E.M → ∀ t' ∈ l.set i t, t'.Shape E.M E.M := by
    intro l i t hl ht t' hm
    rcases List.mem_or_eq_of_mem_set hm with hm | rfl
    · exact hl _ hm
    · exact ht
  have app : ∀ {l : List (RleTree I S)} {t : RleTree I S}, (∀ t ∈ l, t.Shape E.M E.M) → t.Shape E.M E.M → ∀ t' ∈ l ++ [t], t'.Shape E.M E.M := by
    intro l t hl ht t' hm
    rcases List.mem_append.1 hm with hm | hm
    · exact hl _ hm
    · rw [List.mem_singleton.1 hm]; exact ht
  induction h with
  | start n L => exact fun t ht => by cases ht
  | newEmpty _ h ih =>
    simp only [Forest.newEmpty, bind_ok_iff] at h
    obtain ⟨t, h1, h2⟩ := h
    cases h2
    simp only [RleTree.newEmpty, bind_ok_iff] at h1
    obtain ⟨_, _, _, _, h1⟩ := h1
    cases h1
    exact app ih (by rintro r ⟨⟩)
  | new _ h ih =>
    simp only [Forest.new, bind_ok_iff] at h
    obtain ⟨⟨t, w⟩, h1, L, _, h2⟩ := h
    cases h2
    exact app ih ((rleNew_safe (μ := E.M) fun h => ⟨h, le_rfl⟩).out h1)
  | insert _ h ih =>
    simp only [Forest.insert, bind_ok_iff, Forest.tree_ok] at h
    obtain ⟨t, h0, ⟨t', out⟩, h1, L, _, h2⟩ := h
    cases h2
    exact set ih ((rleInsert_safe hc (fun h => ⟨h, le_rfl⟩) (ih t (List.mem_of_getElem? h0))).out h1)
  | relabel _ h ih =>
    simp only [Forest.relabel, bind_ok_iff, Forest.tree_ok] at h
    obtain ⟨t, h0, h1⟩ := h
    cases h1
    exact set ih (ih t (List.mem_of_getElem? h0)).relabel
  | clone _ h ih =>
    simp only [Forest.clone, bind_ok_iff, Forest.tree_ok] at h
    obtain ⟨t, h0, L, _, h1⟩ := h
    cases h1
    refine app ih ?_
    have ht := ih t (List.mem_of_getElem? h0)
    unfold RleTree.cloneNodes
    split
    · exact ht
    · rename_i r hr
      rintro r' ⟨⟩
      exact ⟨(ht r hr).1, clone_shape _ (ht r hr).2⟩
  | drop _ h ih =>
    simp only [Forest.drop, bind_ok_iff, Forest.tree_ok] at h
    obtain ⟨t, h0, h1⟩ := h
    cases h1
    exact set ih (by rintro r ⟨⟩)

/-! ## Trees -/

/-- **C52.** Every tree that a program makes is balanced, whatever the index operations return. -/
theorem any_balanced {E : Env I S} (hc : Civil E.ix) {st : Forest I S} (h : Forest.Run E st) : ∀ t ∈ st.trees, Balanced E.M t :=
  fun t ht r hr => fillT_shape.1 (h.shapes hc t ht r hr).2

/-- **C52.** Making a tree and inserting into one (with any cursor), including all accesses to parent links, are defined behaviour. -/
theorem any_insert {E : Env I S} (hc : Civil E.ix) {st : Forest I S} (h : Forest.Run E st) {i : Nat} {t : RleTree I S} (ht : st.trees[i]? = some t)
    (nop : Bool) (hints : List Nat) (idx : I) (s : S) (size : I) :
    Defined E.ix.debug (st.insert E i nop hints idx s size) ∧ Defined E.ix.debug (st.new E s size) ∧ Defined E.ix.debug (st.clone i) := by
  refine ⟨fun f hf => ?_, fun f hf => ?_, fun f hf => ?_⟩
  · have h1 := rleInsert_safe hc (fun h => ⟨h, le_rfl⟩) (nop := nop) (hints := hints) (idx := idx) (s := s) (z := size) (w := st.world) (h.shapes hc t (List.mem_of_getElem? ht))
    obtain ⟨g1, g2⟩ := h.insert_eq ht nop hints idx s size
    cases hx : t.insert E nop hints idx s size st.world with
    | ok r =>
      obtain ⟨L, g⟩ := g1 r.1 r.2 hx
      rw [g] at hf; cases hf
    | error e =>
      rw [g2 e hx] at hf
      cases hf
      exact h1.fault hx
  · have h1 := rleNew_safe (E := E) (μ := E.M) (fun h => ⟨h, le_rfl⟩) (s := s) (z := size) (w := st.world)
    cases hx : RleTree.new E s size st.world with
    | ok r =>
      obtain ⟨t', w⟩ := r
      obtain ⟨L, hL, _⟩ := (Lk.new (md := .unshared) hx (h.inv : Lk .unshared st.links st.world st.F)).run
      simp only [Forest.new, hx, R.bind_ok, show runLinks .unshared st.links w.links = _ from hL] at hf
      cases hf
    | error e =>
      simp only [Forest.new, hx] at hf
      cases hf
      exact h1.fault hx
  · obtain ⟨L, g⟩ := h.clone_returns ht
    rw [g] at hf; cases hf

/-- **C52.** `get` (with any cursor), and `cursor_to` with its walk up along the parent links. -/
theorem any_get {E : Env I S} (hc : Civil E.ix) {st : Forest I S} (h : Forest.Run E st) {t : RleTree I S} (ht : t ∈ st.trees) (idx : I) :
    (∀ hints, Defined E.ix.debug (t.get E hints idx)) ∧
    ∀ f, (∀ r, t.root = some r → r.h < f) → Defined E.ix.debug (t.cursorToUp E st.links f idx) := by
  have hs := h.shapes hc t ht
  refine ⟨fun hints => (rleGet_safe hc hs).defined, fun f hf => ?_⟩
  rw [RleTree.cursorToUp_eq (h.linked t ht) hf]
  exact (rleCursorTo_safe hc hs).defined

/-! ## Iteration -/

/-- An iterator over a tree from which nothing was taken yet: any bounds, any cursor.  `Iter::new` chooses the bounds; which ranges it rejects (by panicking)
depends on the comparison of indices.  src/tree/iter.rs:192-255 -/
def Iter.Fresh (t : RleTree I S) (it : Iter I S) : Prop :=
  it.state = none ∨ ∃ r c, t.root = some r ∧ it.state = some ⟨r.h, r.tree, c, none, none⟩

/-- A sequence of calls of `next` (`false`) and `next_back` (`true`).  src/tree/iter.rs:570-677 -/
def Iter.calls (ix : IdxOps I) : List Bool → Iter I S → R (List (Entry I S) × Iter I S)
  | [], it => pure ([], it)
  | b :: bs, it => do
    let (e, it) ← (bif b then it.nextBack ix else it.next ix)
    let (es, it) ← calls ix bs it
    pure (e.toList ++ es, it)

theorem Iter.calls_safe {ix : IdxOps I} (hc : Civil ix) {μ M : Nat} (hM : 1 ≤ μ) {Q : Nat × Nat → Prop} (bs : List Bool) : ∀ {it : Iter I S}, it.Ok μ M Q →
    Safe ix.debug (Iter.calls ix bs it) fun r => (∀ e ∈ r.1, Q (e.ptr, e.idx)) ∧ r.2.Ok μ M Q := by
  induction bs with
  | nil => intro it h; exact ⟨by simp, h⟩
  | cons b bs ih =>
    intro it h
    unfold Iter.calls
    have h1 : Safe ix.debug (bif b then it.nextBack ix else it.next ix) (Iter.Yields μ M Q) := by
      cases b
      · exact Iter.next_safe hc hM h
      · exact Iter.nextBack_safe hc hM h
    refine h1.bind ?_
    rintro ⟨e, it⟩ ⟨he, hi⟩
    refine (ih hi).bind ?_
    rintro ⟨es, it⟩ ⟨hes, hi⟩
    refine ⟨fun x hx => ?_, hi⟩
    rcases List.mem_append.1 hx with hx | hx
    · exact he x (by simpa using hx)
    · exact hes x hx

theorem fresh_safe {E : Env I S} (hc : Civil E.ix) {μ : Nat} {t : RleTree I S} (ht : t.Shape μ E.M) {it : Iter I S} (hi : it.Fresh t) (bs : List Bool) :
    Safe E.ix.debug (it.calls E.ix bs) fun r => ∀ e ∈ r.1, ∃ c ∈ t.places, c.at = (e.ptr, e.idx) := by
  rcases hi with hi | ⟨r, c, hr, hi⟩
  · have : ∀ bs : List Bool, it.calls E.ix bs = .ok ([], it) := by
      intro bs
      induction bs with
      | nil => rfl
      | cons b bs ih =>
        unfold Iter.calls
        cases b
        · simp only [Iter.next, hi, R.pure_eq, R.bind_ok, cond_false, ih]; rfl
        · simp only [Iter.nextBack, hi, R.pure_eq, R.bind_ok, cond_true, ih]; rfl
    rw [this]
    exact fun e he => by cases he
  · refine (Iter.calls_safe (M := E.M) (Q := fun a => Place r.tree a) hc (ht r hr).1.1 bs ?_).mono fun x hx e he => ?_
    · intro st hst
      rw [hi] at hst
      cases hst
      exact ⟨(ht r hr).2, fun a ha => ha, fun f hf => (by cases hf), fun b hb => (by cases hb)⟩
    · obtain ⟨c, h1, h2⟩ := hx.1 e he
      exact ⟨c, by unfold RleTree.places; rw [hr]; exact h1, h2⟩

/-- **C52.** Any calls of `next` and `next_back` on an iterator over any range, with any cursor; every entry that they yield is one of the tree. -/
theorem any_iter {E : Env I S} (hc : Civil E.ix) {st : Forest I S} (h : Forest.Run E st) {t : RleTree I S} (ht : t ∈ st.trees) {it : Iter I S}
    (hi : it.Fresh t) (bs : List Bool) : Defined E.ix.debug (it.calls E.ix bs) ∧
      ∀ es it', it.calls E.ix bs = .ok (es, it') → ∀ e ∈ es, ∃ c ∈ t.places, (c.ptr, c.idx) = (e.ptr, e.idx) := by
  have h1 := fresh_safe hc (h.shapes hc t ht) hi bs
  exact ⟨h1.defined, fun es it' hx => h1.out hx⟩

/-- **C52.** `iter` itself, for an index type whose comparison is a linear order (otherwise arbitrary): it panics or gives such an iterator. -/
theorem any_iter_new [LinearOrder I] {E : Env I S} (t : RleTree I S) (cursor : List Nat) (range : Range.Rng I) :
    Defined E.ix.debug (t.iter E cursor range) ∧ ∀ it, t.iter E cursor range = .ok it → it.Fresh t := by
  have : Safe E.ix.debug (t.iter E cursor range) fun it => it.Fresh t := by
    unfold RleTree.iter Iter.new
    dsimp only
    refine (Safe.check (by simp [debugMsgs])).op' fun _ => ?_
    refine (Safe.check (by simp [debugMsgs])).op' fun _ => ?_
    refine (Safe.check (by simp [debugMsgs])).op' fun _ => ?_
    have key : ∀ (c : Prop) [Decidable c] (a : I) (b : IterBound I),
        Iter.Fresh t ⟨a, b, (if c then none else t.root).map fun r => ⟨r.h, r.tree, some cursor, none, none⟩⟩ := by
      intro c _ a b
      unfold Iter.Fresh
      dsimp only
      split
      · exact .inl rfl
      · cases hr : t.root with
        | none => exact .inl rfl
        | some r => exact .inr ⟨r, some cursor, rfl, rfl⟩
    exact key _ _ _
  exact ⟨this.defined, fun it hx => this.out hx⟩

/-! ## References -/

/-- The program in memory. -/
theorem RefRun.memory {rcMax : Nat} {E : Env I S} {st : RefTree I S} {ids : List Nat} (h : RefRun rcMax E st ids) :
    ∃ L, Forest.Run E ⟨[st.tree], st.next, L⟩ := by
  induction h with
  | @empty t n h =>
    refine ⟨fun _ => none, .newEmpty (.start n (fun _ => none)) ?_⟩
    simp only [Forest.newEmpty, h, R.bind_ok]; rfl
  | @single t s size n w h =>
    have hl : Lk .unshared (fun _ => none) w (t.F 𝒰 + 0) :=
      Lk.new h ⟨⟨_, rfl, by simp, fun _ _ => rfl⟩, by simp, by simp, fun _ _ => trivial⟩
    obtain ⟨L, hL, _⟩ := hl.run
    refine ⟨L, .new (s := s) (size := size) (.start n (fun _ => none)) ?_⟩
    simp only [Forest.new, Forest.world, h, R.bind_ok, show runLinks .unshared _ w.links = _ from hL]; rfl
  | @insert st st' ids nop hints idx s size out _ h ih =>
    obtain ⟨L, hL⟩ := ih
    simp only [RefTree.insert, bind_ok_iff] at h
    obtain ⟨⟨t, o⟩, h1, rv, _, h2⟩ := h
    cases h2
    obtain ⟨L', h3⟩ := (hL.insert_eq (i := 0) rfl nop hints idx s size).1 t o h1
    exact ⟨L', .insert hL h3⟩
  | @makeRef st st' ids hd id _ h ih =>
    obtain ⟨L, hL⟩ := ih
    simp only [RefTree.makeRef, bind_ok_iff] at h
    obtain ⟨c, _, h⟩ := h
    split at h
    · simp only [bind_ok_iff] at h
      obtain ⟨_, _, h⟩ := h
      cases h; exact ⟨L, hL⟩
    · simp only [bind_ok_iff] at h
      obtain ⟨_, _, ⟨id', rv'⟩, _, h⟩ := h
      cases h
      exact ⟨L, .relabel (i := 0) hL rfl⟩
  | cloneRef _ _ h ih =>
    obtain ⟨L, hL⟩ := ih
    simp only [RefTree.cloneRef, bind_ok_iff] at h
    obtain ⟨_, _, h⟩ := h
    cases h; exact ⟨L, hL⟩

/-- **C52.** Insertion into a tree with references, including what it does to the store of references; `insert_ref`, if the parts of a split slice
rejoin once the new slice has joined one (otherwise see C20); `get(..).make_ref()`; `make_ref()` on what an iterator yields. -/
theorem any_refs {rcMax : Nat} {E : Env I S} (hc : Civil E.ix) {st : RefTree I S} {ids : List Nat} (h : RefRun rcMax E st ids) :
    (∀ nop hints idx s size, Defined E.ix.debug (st.insert E nop hints idx s size)) ∧
    (E.refs = true → ∀ nop hints idx s size, (∀ key p, Rejoins E.sl key p s) → Defined E.ix.debug (st.insertRef rcMax E nop hints idx s size)) ∧
    (∀ idx, Defined E.ix.debug (st.refAt rcMax E idx)) ∧
    ∀ it : Iter I S, it.Fresh st.tree → ∀ bs es it', it.calls E.ix bs = .ok (es, it') → ∀ e ∈ es, Defined E.ix.debug (st.makeRef rcMax (e.ptr, e.idx)) := by
  have hi := h.ok hc
  refine ⟨fun nop hints idx s size => (hi.insert hc nop hints idx s size).defined,
    fun hr nop hints idx s size hs => (hi.insertRef hc hr nop hints idx size hs).defined, fun idx => ?_, fun it hf bs es it' hx e he => ?_⟩
  · refine Safe.defined (Q := fun _ => True) ?_
    refine (rleGet_safe hc hi.shape).bind ?_
    rintro e ⟨root, hr, c, hcm, he⟩
    rw [← he]
    exact (hi.makeRef (by unfold RleTree.places; rw [hr]; exact hcm)).triv
  · obtain ⟨c, hcm, hce⟩ := (fresh_safe hc hi.shape hf bs).out hx e he
    rw [← hce]
    exact (hi.makeRef hcm).defined

/-- **C52.** Every reference stays attached to an entry of the tree, the one it was found with by `borrow_slice`; cloning it, and `range` and `cursor`, which
walk up along the parent links, are defined behaviour; `cursor` and `borrow_slice` always return. -/
theorem any_ref {rcMax : Nat} {E : Env I S} (hc : Civil E.ix) {st : RefTree I S} {ids : List Nat} (h : RefRun rcMax E st ids) {id : Nat} (hid : id ∈ ids) :
    (∃ c ∈ st.tree.places, c.ref = some id ∧ st.slice id = .ok c.slice) ∧ Defined E.ix.debug (st.cloneRef rcMax id) ∧
    ∃ L, Forest.Run E ⟨[st.tree], st.next, L⟩ ∧ ∀ f, (∀ r, st.tree.root = some r → r.h < f) →
      Defined E.ix.debug (st.rangeUp E L f id) ∧ ∃ path, st.cursorUp L f id = .ok path := by
  have hi := h.ok hc
  obtain ⟨L, hL⟩ := h.memory
  refine ⟨hi.slice hid, (hi.cloneRef hid).defined, L, hL, fun f hf => ?_⟩
  obtain ⟨e1, e2⟩ := RefTree.up_eq (E := E) (hL.linked st.tree (by simp)) (hL.nodup st.tree (by simp)) hf id
  rw [e1, e2]
  exact ⟨(hi.range hc hid).defined, hi.cursor hid⟩

/-! ## Instances -/

/-- Unsigned integers whose subtraction panics on overflow, which `natIdx` reports in another way.  src/public_traits.rs:298-328 -/
def checkedIdx (max : Nat) : IdxOps Nat :=
  { natIdx max with
    subL := fun a b => if b ≤ a then .ok (a - b) else .error (.panic "attempt to subtract with overflow")
    subR := fun a b => if b ≤ a then .ok (a - b) else .error (.panic "attempt to subtract with overflow") }

example (max : Nat) : Civil (checkedIdx max) := by
  constructor <;> intro x y f h <;> simp only [checkedIdx, natIdx] at h <;> split at h <;> cases h
  · trivial
  · trivial
  · exact .inr (by simp [debugMsgs])
  · exact .inr (by simp [debugMsgs])

/-- `u8` in a release build: arithmetic wraps, and there are no debug assertions.  src/public_traits.rs:298-328 -/
def wrapIdx : IdxOps Nat :=
  ⟨0, fun a b => .ok ((a + b) % 256), fun a b => .ok ((a + b) % 256), fun a b => .ok ((256 + a - b) % 256), fun a b => .ok ((256 + a - b) % 256), compare, false⟩

/-- Operations and a comparison that make no sense; subtracting 7 from the right panics.  The trait: src/public_traits.rs:15-36, 244-296 -/
def badIdx : IdxOps Nat :=
  ⟨0, fun a b => .ok (3 * a + b), fun a b => .ok (a + 5 * b), fun a b => .ok (a + b), fun a b => if b = 7 then .error (.panic "seven") else .ok (2 * a + b),
    fun a b => compare (a % 5) (b % 7), false⟩

theorem wrapIdx_civil : Civil wrapIdx := by constructor <;> intro x y f h <;> cases h

theorem badIdx_civil : Civil badIdx := by
  constructor <;> intro x y f h <;> try cases h
  simp only [badIdx] at h
  split at h <;> cases h
  exact .inr (by simp [debugMsgs])

/-- Trees of characters with `M = 1` and references, over these operations. -/
def anyEnv (ix : IdxOps Nat) : Env Nat Char := ⟨ix, constSl Char, 1, true⟩

/-- Insert letters at these positions, make a reference to the entry found at position 0, and insert once more. -/
def exAny (ix : IdxOps Nat) (poss : List Nat) : R (RefTree Nat Char × Nat) := do
  let t ← RleTree.newEmpty (anyEnv ix)
  let st ← poss.foldlM (fun (st : RefTree Nat Char) i => do
    let (st, _) ← st.insert (anyEnv ix) false [] i (Char.ofNat (97 + st.next)) (i + 1)
    pure st) ⟨t, Recycle.empty, 0⟩
  let (id, st) ← st.refAt 100 (anyEnv ix) 0
  let (st, _) ← st.insert (anyEnv ix) false [] 0 'z' 9
  pure (st, id)

theorem exAny_run {ix : IdxOps Nat} {poss : List Nat} {st : RefTree Nat Char} {id : Nat} (h : exAny ix poss = .ok (st, id)) :
    RefRun 100 (anyEnv ix) st [id] := by
  have hf : ∀ (l : List Nat) {a b : RefTree Nat Char}, RefRun 100 (anyEnv ix) a [] → l.foldlM (fun (st : RefTree Nat Char) i => do
      let (st, _) ← st.insert (anyEnv ix) false [] i (Char.ofNat (97 + st.next)) (i + 1)
      pure st) a = .ok b → RefRun 100 (anyEnv ix) b [] := by
    intro l
    induction l with
    | nil => intro a b ha hb; cases hb; exact ha
    | cons c l ih =>
      intro a b ha hb
      simp only [List.foldlM_cons, bind_ok_iff] at hb
      obtain ⟨a', ⟨⟨a'', out⟩, h1, h2⟩, h3⟩ := hb
      cases h2
      exact ih (.insert ha h1) h3
  simp only [exAny, bind_ok_iff] at h
  obtain ⟨t, h0, s1, h1, ⟨id', s2⟩, h2, ⟨s3, out⟩, h3, h4⟩ := h
  cases h4
  simp only [RefTree.refAt, bind_ok_iff] at h2
  obtain ⟨e, _, h2⟩ := h2
  exact .insert (.makeRef (hf _ (.empty h0) h1) h2) h3

/-- What is looked at in the example: the height, the number of entries, the slice and the range of the reference, and what `get(3)` returns. -/
structure ExLook where
  height : Option Nat
  entries : Nat
  slice : Option Char
  range : Option (Nat × Nat)
  got : Option (Nat × Char)
  deriving DecidableEq

def exLook (ix : IdxOps Nat) (x : RefTree Nat Char × Nat) : ExLook :=
  ⟨x.1.tree.root.map Root.h, x.1.tree.places.length, (x.1.slice x.2).toOption, (x.1.range (anyEnv ix) x.2).toOption,
    (x.1.tree.get (anyEnv ix) [] 3).toOption.map fun e => (e.start, e.slice)⟩

/-- Nine insertions with the senseless operations give a tree of four levels and 17 entries; the reference is to an 'a' with a senseless range, and `get(3)` returns
an entry whose range does not contain 3. -/
example : ∃ st id, RefRun 100 (anyEnv badIdx) st [id] ∧ st.tree.root.map Root.h = some 3 ∧ st.tree.places.length = 17 ∧
    (st.slice id).toOption = some 'a' ∧ (st.range (anyEnv badIdx) id).toOption = some (71798488067673313547050, 148500328025419313844315) ∧
    (st.tree.get (anyEnv badIdx) [] 3).toOption.map (fun e => (e.start, e.slice)) = some (65033082264128103064, 'd') := by
  have h : (exAny badIdx [0, 1, 0, 1, 0, 0, 0, 0, 0]).toOption.map (exLook badIdx) = some ⟨some 3, 17, some 'a',
      some (71798488067673313547050, 148500328025419313844315), some (65033082264128103064, 'd')⟩ := by decide +kernel
  cases he : exAny badIdx [0, 1, 0, 1, 0, 0, 0, 0, 0] with
  | error e => rw [he] at h; cases h
  | ok x =>
    obtain ⟨st, id⟩ := x
    rw [he] at h
    simp only [Except.toOption, Option.map_some, Option.some.injEq, exLook, ExLook.mk.injEq] at h
    exact ⟨st, id, exAny_run he, h.1, h.2.1, h.2.2.1, h.2.2.2.1, h.2.2.2.2⟩

/-- In a release build the size of a tree can wrap around: ten slices of together 336. -/
example : ∃ st id, RefRun 100 (anyEnv wrapIdx) st [id] ∧ st.tree.size (anyEnv wrapIdx) = 80 ∧ st.tree.places.length = 3 := by
  have h : (exAny wrapIdx [0, 1, 3, 5, 10, 20, 40, 80, 159]).map (fun x => (x.1.tree.size (anyEnv wrapIdx), x.1.tree.places.length)) = .ok (80, 3) := by
    decide +kernel
  cases he : exAny wrapIdx [0, 1, 3, 5, 10, 20, 40, 80, 159] with
  | error e => rw [he] at h; cases h
  | ok x =>
    obtain ⟨st, id⟩ := x
    rw [he] at h
    simp only [Except.map, Except.ok.injEq, Prod.mk.injEq] at h
    exact ⟨st, id, exAny_run he, h.1, h.2⟩

/-- What is excluded: an operation that itself violates a precondition of unsafe code. -/
example : ¬ Civil ({ badIdx with addL := fun _ _ => .error (.ub "unsafe code") } : IdxOps Nat) := fun h => h.addL 0 0 _ rfl

/-- The hypothesis about `insert_ref` holds for `Constant`. -/
example (key : Char) (p : Nat) (s : Char) : Rejoins (constSl Char) key p s := by
  intro _ mid h
  simp only [constSl] at h ⊢
  split at h
  · cases h; exact ⟨key, by simp⟩
  · cases h

end Sherman
