import Verif.CowProps
import Verif.LinkInsert
/-!
# Parent links in trees that share nodes

(src/tree/node.rs, src/tree/insert.rs)

With `param::AllowCow` a node can have several parents but stores the link to only one; the link may also point to a node that was
freed long ago.  `LSt` adds the stored links to the memory of `Verif/Cow.lean`.  An insertion sets the links of the nodes on its
way down, and relies on no others.

* The link of a freed node stays in the map; its address is never used again.
-/
namespace Sherman.Cow
variable {I S : Type}

/-! ## Model -/

/-- Nodes with more than one owner: those whose `strong_count` is not unique.  src/tree/cow.rs:26-30 -/
def shared (H : Heap I S) (c : Nat) : Bool :=
  match H.mem c with
  | none => false
  | some nd => nd.count != 1

/-- `ensure_unique`; the copy that `shallow_clone` makes has the link of the original.  src/tree/node.rs:2571-2609, 1027-1030, 1044-1046 -/
def ensureUniqueL (imax : Nat) (H : Heap I S) (L : LinkMap) (h p : Nat) : R (Heap I S × LinkMap × Nat) := do
  let nd ← H.get p
  if nd.count = 1 then pure (H, L, p)
  else do
    let (H, p') ← shallowClone imax H h p
    let H ← dropRef h H p
    pure (H, L.put p' (L p), p')

/-- The descent of an insertion: `into_child` sets the link of each child on the way.  src/tree/node.rs:2030-2083 -/
def unshareDownL (imax : Nat) : (path : List Nat) → Heap I S → LinkMap → (h p : Nat) → R (Heap I S × LinkMap)
  | [], H, L, _, _ => pure (H, L)
  | c :: path, H, L, h, p => do
    let nd ← H.get p
    let q ← match nd.kids[c]? with
      | none => .error (.ub "into_child")
      | some q => pure q
    let (H, L, q') ← ensureUniqueL imax H L (h - 1) q
    let nd ← H.get p
    unshareDownL imax path (H.put p { nd with kids := nd.kids.set c q' }) (L.put q' (some (p, c))) (h - 1) q'

/-- `make_unique` and `remove_parent` on the root, then the descent.  src/tree/insert.rs:92-102 -/
def unshareL (imax : Nat) (path : List Nat) (H : Heap I S) (L : LinkMap) (h p : Nat) : R (Heap I S × LinkMap × Nat) := do
  let (H, L, p) ← ensureUniqueL imax H L h p
  let (H, L) ← unshareDownL imax path H (L.put p none) h p
  pure (H, L, p)

/-- Trees with copy-on-write, and the parent link that each node stores.  src/tree/node.rs:440-469 -/
structure LSt (I S : Type) where
  st : St I S
  links : LinkMap

namespace LSt

/-- `insert` and its variants; as `St.insert`, with all accesses to links.  The descent to the right of a key that is split comes
before anything that changes the shape of the tree, so that it can be done beforehand, as in `St.insert`.
src/tree/insert.rs:41-197 -/
def insert (E : Env I S) (imax : Nat) (s : LSt I S) (i : Nat) (nop : Bool) (hints : List Nat) (idx : I) (slice : S) (size : I) :
    R (LSt I S) := do
  match ← s.st.tree i with
  | none => do
    let (t, out) ← RleTree.insert E ⟨none⟩ nop hints idx slice size ⟨s.st.heap.next, [], [], none, []⟩
    let L ← runLinks ⟨true, shared s.st.heap⟩ s.links out.world.links
    pure ⟨s.st.store i s.st.heap t out.world.next, L⟩
  | some r => do
    let t ← readT s.st.heap (r.h + 1) r.p
    check (!E.ix.lt (Node.size t) idx) "cannot insert new slice, index out of bounds"
    check (!E.ix.le size E.ix.zero) "cannot insert new slice, size is not greater than zero"
    let path ← wayDown E t hints idx slice
    let (H, L, p) ← unshareL imax path s.st.heap s.links r.h r.p
    let t ← readT H (r.h + 1) p
    let (t, out) ← RleTree.insert E ⟨some ⟨r.h, t, r.len⟩⟩ nop hints idx slice size ⟨H.next, [], [], none, []⟩
    let L ← runLinks ⟨true, shared H⟩ L out.world.links
    pure ⟨s.st.store i H t out.world.next, L⟩

/-- One operation.  `clone` and `drop` do not touch links.  src/tree/node.rs:1087-1105, src/tree/mod.rs:245-294 -/
def step (E : Env I S) (imax : Nat) (s : LSt I S) : Op I S → R (LSt I S)
  | .insert i nop hints idx slice size => s.insert E imax i nop hints idx slice size
  | op => do
    let st ← s.st.step E imax true op
    pure { s with st := st }

/-- No trees, no nodes.  No counterpart in the code (before any call of src/tree/mod.rs:315-360) -/
def init : LSt I S := ⟨St.init, fun _ => none⟩

/-- A program; no counterpart in the code (calls of src/tree/mod.rs:315-805). -/
def run (E : Env I S) (imax : Nat) (s : LSt I S) (ops : List (Op I S)) : R (LSt I S) :=
  ops.foldlM (fun s op => s.step E imax op) s

end LSt

/-- Addresses of the nodes of a tree. -/
def addrs : {h : Nat} → Tree I S h → List Nat
  | 0, _ => []
  | h + 1, n => Node.ptr n :: (Node.kids n).flatMap (addrs (h := h))

/-! ## The way down -/

theorem ensureUniqueL_cases (imax : Nat) (H : Heap I S) (L : LinkMap) (h p : Nat) :
    (∃ H' L' p', ensureUnique imax H h p = .ok (H', p') ∧ ensureUniqueL imax H L h p = .ok (H', L', p') ∧ ∀ x, x ≠ p' → L' x = L x) ∨
    ∃ f, ensureUnique imax H h p = .error f ∧ ensureUniqueL imax H L h p = .error f := by
  simp only [ensureUnique, ensureUniqueL]
  cases hg : H.get p with
  | error f => exact .inr ⟨f, rfl, rfl⟩
  | ok nd =>
    simp only [R.bind_ok]
    by_cases hc : nd.count = 1
    · simp only [hc, if_true]
      exact .inl ⟨H, L, p, rfl, rfl, fun _ _ => rfl⟩
    · simp only [hc, if_false]
      cases hs : shallowClone imax H h p with
      | error f => exact .inr ⟨f, rfl, rfl⟩
      | ok x =>
        obtain ⟨H1, p'⟩ := x
        simp only [R.bind_ok]
        cases hd : dropRef h H1 p with
        | error f => exact .inr ⟨f, rfl, rfl⟩
        | ok H2 => exact .inl ⟨H2, _, p', rfl, rfl, fun x hx => by simp [LinkMap.put, hx]⟩

/-- Links do not matter for what the descent does to memory. -/
theorem unshareDownL_map (imax : Nat) (path : List Nat) (H : Heap I S) (L : LinkMap) (h p : Nat) :
    (unshareDownL imax path H L h p).map Prod.fst = unshareDown imax path H h p := by
  induction path generalizing H L h p with
  | nil => rfl
  | cons c path ih =>
    simp only [unshareDown, unshareDownL]
    cases hg : H.get p with
    | error f => rfl
    | ok nd =>
      simp only [R.bind_ok]
      cases hk : nd.kids[c]? with
      | none => rfl
      | some q =>
        simp only [R.pure_eq, R.bind_ok]
        rcases ensureUniqueL_cases imax H L (h - 1) q with ⟨H', L', p', e1, e2, -⟩ | ⟨f, e1, e2⟩
        · simp only [e1, e2, R.bind_ok]
          cases hg' : H'.get p with
          | error f => rfl
          | ok nd' => simp only [R.bind_ok]; exact ih ..
        · simp only [e1, e2]; rfl

theorem unshareL_map (imax : Nat) (path : List Nat) (H : Heap I S) (L : LinkMap) (h p : Nat) :
    (unshareL imax path H L h p).map (fun x => (x.1, x.2.2)) = unshare imax path H h p := by
  simp only [unshare, unshareL]
  rcases ensureUniqueL_cases imax H L h p with ⟨H', L', p', e1, e2, -⟩ | ⟨f, e1, e2⟩
  · simp only [e1, e2, R.bind_ok]
    rw [← unshareDownL_map imax path H' (L'.put p' none) h p']
    cases unshareDownL imax path H' (L'.put p' none) h p' with
    | error f => rfl
    | ok x => rfl
  · simp only [e1, e2]; rfl

/-- No node lists a child twice. -/
def Simple (H : Heap I S) : Prop := ∀ p nd, H.mem p = some nd → (refsOf (some nd)).Nodup

/-- The links on a way down are those of the way. -/
def LWay (H : Heap I S) (L : LinkMap) : List Nat → Nat → Prop
  | [], _ => True
  | c :: path, p => ∀ nd q, H.mem p = some nd → nd.kids[c]? = some q → L q = some (p, c) ∧ LWay H L path q

theorem Uniq.simple {H H' : Heap I S} {h p p' : Nat} (u : Uniq H H' h p p') (hs : Simple H) : Simple H' := by
  intro x nd hx
  rcases u.back x nd hx with rfl | ⟨n, h1, h2⟩
  · obtain ⟨n, n', h1, h2, h3, -⟩ := u.new
    rw [hx] at h2; cases h2
    rw [← h3.refs]; exact hs p n h1
  · rw [← h2.refs]; exact hs x n h1

theorem nodup_set {l : List Nat} {c q' : Nat} (hl : l.Nodup) (hq : q' ∉ l ∨ l[c]? = some q') : (l.set c q').Nodup := by
  rcases hq with hq | hq
  · exact List.Nodup.set hl hq
  · have : l.set c q' = l := by
      obtain ⟨h1, h2⟩ := List.getElem?_eq_some_iff.1 hq
      subst h2
      exact List.set_getElem_self h1
    rw [this]; exact hl

theorem unshareDownL_spec {imax : Nat} {H H' : Heap I S} {L : LinkMap} {out : Nat → Nat} (hi : Inv H out) (hs : Simple H) {path : List Nat} {h p : Nat}
    {nd : HNode I S} (hm : H.mem p = some nd) (hh : nd.height = h) (hc : nd.count = 1) {t : Tree I S (h + 1)} (ht : readT H (h + 1) p = .ok t)
    (hf : Fits t path) (hd : unshareDown imax path H h p = .ok H') :
    ∃ L' X, unshareDownL imax path H L h p = .ok (H', L') ∧ Inv H' out ∧ Way H' path p X ∧ Simple H' ∧ LWay H' L' path p ∧
      (∀ x, x ∉ X → L' x = L x) ∧ L' p = L p ∧
      (∀ x nd, H.mem x = some nd → x ∉ X → ∃ nd', H'.mem x = some nd' ∧ nd.Same nd') ∧
      (∀ x nd, H.mem x = some nd → h ≤ nd.height → x ≠ p → H'.mem x = some nd) := by
  induction path generalizing H L h p nd with
  | nil =>
    cases hd
    exact ⟨L, [p], rfl, hi, ⟨rfl, nd, hm, hc⟩, hs, trivial, fun _ _ => rfl, rfl, fun x nd h _ => ⟨nd, h, .refl _⟩, fun x nd h _ _ => h⟩
  | cons c path ih =>
    obtain ⟨nd0, ks, r1, r2, rfl⟩ := readT_succ.1 ht
    rw [hm] at r1; cases r1
    obtain ⟨h0, k, f1, f2⟩ := hf
    obtain ⟨q, hcq, hrq⟩ := forall₂_get r2 f1
    have hne : nd.height ≠ 0 := by omega
    have fr : refsOf (some nd) = nd.kids := by simp only [refsOf, hne, if_false]
    obtain ⟨ndq, hq, hhq⟩ := hi.ht p nd hm q (by rw [fr]; exact List.mem_of_getElem? hcq)
    cases h with
    | zero => omega
    | succ h =>
      have eh : ndq.height = h := by omega
      subst eh
      simp only [unshareDown, get_ok.2 hm, R.bind_ok, hcq, R.pure_eq, Nat.add_sub_cancel] at hd
      simp only [unshareDownL, get_ok.2 hm, R.bind_ok, hcq, R.pure_eq, Nat.add_sub_cancel]
      rcases ensureUnique_spec (imax := imax) hi hq with ⟨H1, q', e, u, -⟩ | e
      swap
      · rw [e] at hd; cases hd
      rcases ensureUniqueL_cases imax H L ndq.height q with ⟨H1', L1, q1, e1, e2, e3⟩ | ⟨f, e1, -⟩
      swap
      · rw [e] at e1; cases e1
      rw [e] at e1; cases e1
      rw [e] at hd
      rw [e2]
      simp only [R.bind_ok] at hd ⊢
      obtain ⟨k1, k2, k3, k4, k5, k6⟩ := redirect hi hm hne hcq hq u
      rw [get_ok.2 k2] at hd ⊢
      simp only [R.bind_ok] at hd ⊢
      obtain ⟨t', k7, k8⟩ := k6 k hrq
      obtain ⟨nq, nq', g1, g2, g3, g4⟩ := u.new
      rw [hq] at g1; cases g1
      have hmq' : (H1.put p { nd with kids := nd.kids.set c q' }).mem q' = some nq' := by simp [Heap.put, k3, g2]
      have hself : (H1.put p { nd with kids := nd.kids.set c q' }).mem p = some { nd with kids := nd.kids.set c q' } := by simp [Heap.put]
      have hother : ∀ x, x ≠ p → (H1.put p { nd with kids := nd.kids.set c q' }).mem x = H1.mem x := fun x hx => by simp [Heap.put, hx]
      have hs1 : Simple (H1.put p { nd with kids := nd.kids.set c q' }) := by
        intro x n hx
        by_cases hxp : x = p
        · subst hxp
          rw [hself] at hx; cases hx
          have e0 : refsOf (some { nd with kids := nd.kids.set c q' }) = nd.kids.set c q' := by simp only [refsOf, hne, if_false]
          rw [e0]
          have hnd := hs x nd hm
          rw [fr] at hnd
          refine nodup_set hnd ?_
          rcases u.fresh with rfl | rfl
          · exact .inr hcq
          · left
            intro hmem
            obtain ⟨n, a1, -⟩ := hi.ht x nd hm _ (by rw [fr]; exact hmem)
            have := hi.lt _ _ a1
            omega
        · rw [hother x hxp] at hx; exact u.simple hs x n hx
      obtain ⟨L', X, i1, i2, i3, i4, i5, i6, i7, i8, i9⟩ := ih (L := L1.put q' (some (p, c))) k4 hs1 hmq' g3.1.symm g4 k7 (f2.alike k8) hd
      have hmp' : H'.mem p = some { nd with kids := nd.kids.set c q' } :=
        i9 p _ hself (by show ndq.height ≤ nd.height; omega) (Ne.symm k3)
      have hlt : c < nd.kids.length := (List.getElem?_eq_some_iff.1 hcq).1
      have hw : Way H' (c :: path) p (p :: X) := ⟨{ nd with kids := nd.kids.set c q' }, q', X, hmp', hc, hne, by simp [hlt], rfl, i3⟩
      have hL : ∀ x, x ∉ X → L' x = L x := fun x hx => by
        rw [i6 x hx]
        have hxq : x ≠ q' := fun e => hx (e ▸ i3.head.1)
        simp only [LinkMap.put, hxq, if_false]
        exact e3 x hxq
      refine ⟨L', p :: X, i1, i2, hw, i4, ?_, ?_, ?_, ?_, ?_⟩
      · intro n q0 hn hq0
        rw [hmp'] at hn; cases hn
        simp only [List.getElem?_set_self hlt, Option.some.injEq] at hq0
        subst hq0
        exact ⟨by rw [i7]; simp [LinkMap.put], i5⟩
      · intro x hx
        simp only [List.mem_cons, not_or] at hx
        exact hL x hx.2
      · exact hL p (List.nodup_cons.1 (hw.nodup i2)).1
      · intro x n hx hnx
        simp only [List.mem_cons, not_or] at hnx
        obtain ⟨n', a1, a2⟩ := u.keep x n hx
        obtain ⟨n'', a3, a4⟩ := i8 x n' (by rw [hother x hnx.1]; exact a1) hnx.2
        exact ⟨n'', a3, a2.trans a4⟩
      · intro x n hx hle hxp
        have hxq : x ≠ q := by rintro rfl; rw [hq] at hx; cases hx; omega
        have a1 := u.high x n hx (by omega) hxq
        refine i9 x n (by rw [hother x hxp]; exact a1) (by omega) ?_
        rintro rfl
        rw [g2] at a1; cases a1
        have := g3.1
        omega

/-- After the descent all nodes on the way have the right links, and the root none.  Nothing has happened to other nodes. -/
theorem unshareL_spec {imax : Nat} {H H' : Heap I S} {L : LinkMap} {out : Nat → Nat} (hi : Inv H out) (hs : Simple H) {path : List Nat} {h p p' : Nat}
    {nd : HNode I S} (hm : H.mem p = some nd) (hh : nd.height = h) {t : Tree I S (h + 1)} (ht : readT H (h + 1) p = .ok t)
    (hf : Fits t path) (ho : 0 < out p) (hd : unshare imax path H h p = .ok (H', p')) :
    ∃ L' X, unshareL imax path H L h p = .ok (H', L', p') ∧ Way H' path p' X ∧ Simple H' ∧ LWay H' L' path p' ∧ L' p' = none ∧
      (∀ x, x ∉ X → L' x = L x) ∧ ∀ x nd, H.mem x = some nd → x ∉ X → ∃ nd', H'.mem x = some nd' ∧ nd.Same nd' := by
  subst hh
  simp only [unshare] at hd
  simp only [unshareL]
  rcases ensureUnique_spec (imax := imax) hi hm with ⟨H1, p1, e, u, -⟩ | e
  swap
  · rw [e] at hd; cases hd
  rcases ensureUniqueL_cases imax H L nd.height p with ⟨H1', L1, q1, e1, e2, e3⟩ | ⟨f, e1, -⟩
  swap
  · rw [e] at e1; cases e1
  rw [e] at e1; cases e1
  rw [e] at hd
  rw [e2]
  simp only [R.bind_ok, bind_ok_iff] at hd ⊢
  obtain ⟨H2, hd, hp⟩ := hd
  cases hp
  have k := u.root hi (out' := fun x => out x + (if x = p' then 1 else 0) - (if x = p then 1 else 0)) (fun x => by
    by_cases hx : x = p
    · subst hx; simp only [if_true]; split <;> omega
    · simp [hx])
  obtain ⟨t1, a1, a2⟩ := u.alike hi hm ht
  obtain ⟨nq, nq', g1, g2, g3, g4⟩ := u.new
  rw [hm] at g1; cases g1
  obtain ⟨L', X, i1, -, i3, i4, i5, i6, i7, i8, -⟩ := unshareDownL_spec (L := L1.put p' none) k (u.simple hs) g2 g3.1.symm g4 a1 (hf.alike a2) hd
  rw [i1]
  refine ⟨L', X, ⟨_, rfl, rfl⟩, i3, i4, i5, by rw [i7]; simp [LinkMap.put], fun x hx => ?_, fun x n hx hnx => ?_⟩
  · rw [i6 x hx]
    have hxq : x ≠ p' := fun e => hx (e ▸ i3.head.1)
    simp only [LinkMap.put, hxq, if_false]
    exact e3 x hxq
  · obtain ⟨n', b1, b2⟩ := u.keep x n hx
    obtain ⟨n'', b3, b4⟩ := i8 x n' b1 hnx
    exact ⟨n'', b3, b2.trans b4⟩

/-! ## The links of a tree before an insertion -/

section
variable {H : Heap I S} {X : List Nat}

/-- During an insertion the nodes on its way and new nodes have the right links, and are not shared. -/
def cowMode (H : Heap I S) (X : List Nat) (h1 : ∀ x ∈ X, ∃ nd, H.mem x = some nd ∧ nd.count = 1)
    (h2 : ∀ p nd, H.mem p = some nd → p < H.next) : Mode where
  cow := true
  sh := shared H
  tr := Ow H X
  own := by
    rintro c (hc | hc)
    · obtain ⟨nd, g1, g2⟩ := h1 c hc
      simp [shared, g1, g2]
    · cases hm : H.mem c with
      | none => simp [shared, hm]
      | some nd => have := h2 c nd hm; omega
  solo := fun h => by cases h

theorem kidF_leaf (p i : Nat) (ks : List (Tree I S 0)) : kidF p i ks = 0 := by
  induction ks generalizing i with
  | nil => rfl
  | cons k ks ih => simp only [kidF, ih]; rfl

theorem kidF_kids {h : Nat} {l : List Nat} {ks : List (Tree I S (h + 1))} (hr : List.Forall₂ (fun q k => readT H (h + 1) q = .ok k) l ks) (p i : Nat) :
    owners (kidF p i ks) = (l : Multiset Nat) ∧ ∀ f ∈ kidF p i ks, ∃ j q, l[j]? = some q ∧ f = .child q p (i + j) := by
  induction hr generalizing i with
  | nil => exact ⟨rfl, fun f hf => by simp [kidF] at hf⟩
  | @cons q k l ks h1 h2 ih =>
    obtain ⟨g1, g2⟩ := ih (i + 1)
    have ha : HasPtr.addr k = some q := by
      obtain ⟨_, _, _, _, e⟩ := readT_succ.1 h1
      rw [e]; rfl
    simp only [kidF, ha, hang]
    refine ⟨by rw [owners_add, g1, owners_child]; rfl, fun f hf => ?_⟩
    simp only [Multiset.mem_add, Multiset.mem_singleton] at hf
    rcases hf with rfl | hf
    · exact ⟨0, q, rfl, rfl⟩
    · obtain ⟨j, q2, e1, e2⟩ := g2 f hf
      exact ⟨j + 1, q2, e1, by rw [e2]; congr 1; omega⟩

theorem sum_untracked {tr : Nat → Prop} {h : Nat} {l : List Nat} {ks : List (Tree I S (h + 1))}
    (hr : List.Forall₂ (fun q k => readT H (h + 1) q = .ok k) l ks) (hl : ∀ q ∈ l, ¬ tr q) : (ks.map (treeF tr)).sum = 0 := by
  induction hr with
  | nil => rfl
  | @cons q k l ks h1 h2 ih =>
    have hp : Node.ptr k = q := by
      obtain ⟨_, _, _, _, e⟩ := readT_succ.1 h1
      rw [e]
    rw [List.map_cons, List.sum_cons, ih (fun q hq => hl q (by simp [hq])), add_zero]
    exact if_neg (by rw [hp]; exact hl q (by simp))

theorem sum_leaf {tr : Nat → Prop} (ks : List (Tree I S 0)) : (ks.map (treeF tr)).sum = 0 := by
  induction ks with
  | nil => rfl
  | cons k ks ih => rw [List.map_cons, List.sum_cons, ih]; rfl

end

section
variable {H : Heap Nat S} {X : List Nat}

theorem way_facts {out : Nat → Nat} (hi : Inv H out) (hs : Simple H) {L : LinkMap} {md : Mode} (hmd : md.tr = Ow H X) {path : List Nat} {h p : Nat}
    {Xs : List Nat} (w : Way H path p Xs) {nd : HNode Nat S} (hm : H.mem p = some nd) (hh : nd.height = h) (hsub : ∀ x ∈ Xs, x ∈ X)
    (hlow : ∀ x ∈ X, x ∈ Xs ∨ ∃ nx, H.mem x = some nx ∧ nd.height < nx.height) {t : Tree Nat S (h + 1)} (ht : readT H (h + 1) p = .ok t)
    (hL : LWay H L path p) {M lo : Nat} {es : List (Ent S)} (hrep : Rep M lo t es) :
    WayTr (Ow H X) path t ∧ (∀ f ∈ treeF (Ow H X) t, f.Holds md L L) ∧ (owners (treeF (Ow H X) t)).Nodup ∧
      ∀ c ∈ owners (treeF (Ow H X) t), ∃ nc, H.mem c = some nc ∧ nc.height < h := by
  have har := Rep.kids_len hrep
  induction path generalizing h p Xs nd lo es with
  | nil =>
    obtain ⟨rfl, -⟩ := w
    obtain ⟨nd0, ks, r1, r2, rfl⟩ := readT_succ.1 ht
    rw [hm] at r1; cases r1
    have hb : Ow H X p := .inl (hsub p (by simp))
    have e0 := treeF_act (tr := Ow H X) (n := ((⟨p, nd.size, nd.keys, ks⟩ : Node Nat S (Tree Nat S h)) : Tree Nat S (h + 1))) hb
    rw [e0]
    refine ⟨hb, ?_⟩
    show (∀ f ∈ ({Fact.arity nd.keys.length ks.length} + kidF p 0 ks + (ks.map (treeF (Ow H X))).sum : Multiset Fact), _) ∧
      (owners ({Fact.arity nd.keys.length ks.length} + kidF p 0 ks + (ks.map (treeF (Ow H X))).sum)).Nodup ∧
      ∀ c ∈ owners ({Fact.arity nd.keys.length ks.length} + kidF p 0 ks + (ks.map (treeF (Ow H X))).sum), _
    have har : ks.length = nd.keys.length + 1 := har
    cases h with
    | zero =>
      rw [kidF_leaf, sum_leaf]
      simp [Fact.Holds, har]
    | succ h =>
      have f1 : refsOf (some nd) = nd.kids := by simp [refsOf, hh]
      have hun : ∀ q ∈ nd.kids, ¬ Ow H X q := by
        intro q hq
        obtain ⟨nq, g1, g2⟩ := hi.ht p nd hm q (by rw [f1]; exact hq)
        have := hi.lt q nq g1
        rintro (hx | hx)
        · rcases hlow q hx with hx | ⟨nx, hx1, hx2⟩
          · simp only [List.mem_singleton] at hx; subst hx; rw [hm] at g1; cases g1; omega
          · rw [g1] at hx1; cases hx1; omega
        · omega
      rw [sum_untracked r2 hun]
      obtain ⟨k1, k2⟩ := kidF_kids r2 p 0
      simp only [add_zero, owners_add, owners_arity, k1, zero_add, Multiset.coe_nodup, Multiset.mem_add, Multiset.mem_singleton, Multiset.mem_coe]
      refine ⟨?_, by rw [← f1]; exact hs p nd hm, fun c hc => ?_⟩
      · rintro f (rfl | hf)
        · exact har.symm
        · obtain ⟨j, q, e1, rfl⟩ := k2 f hf
          exact .inr ⟨by rw [hmd]; exact hun q (List.mem_of_getElem? e1), rfl⟩
      · obtain ⟨nq, g1, g2⟩ := hi.ht p nd hm c (by rw [f1]; exact hc)
        exact ⟨nq, g1, by omega⟩
  | cons c path ih =>
    obtain ⟨nd', q, X', h1, h2, h3, h4, rfl, h5⟩ := w
    rw [hm] at h1; cases h1
    obtain ⟨nd0, ks, r1, r2, rfl⟩ := readT_succ.1 ht
    rw [hm] at r1; cases r1
    have hb : Ow H X p := .inl (hsub p (by simp))
    have hqm : q ∈ nd.kids := List.mem_of_getElem? h4
    have f1 : refsOf (some nd) = nd.kids := by simp only [refsOf, h3, if_false]
    obtain ⟨nq, hq, hhq⟩ := hi.ht p nd hm q (by rw [f1]; exact hqm)
    obtain ⟨k, hk1, hk2⟩ := forall₂_get' r2 h4
    obtain ⟨hL1, hL2⟩ := hL nd q hm h4
    have hsim := hs p nd hm
    rw [f1] at hsim
    have hkr : ∃ e, Rep M M k e := Rep.kid hrep (List.mem_of_getElem? hk1)
    obtain ⟨ek, hkr⟩ := hkr
    have har : ks.length = nd.keys.length + 1 := har
    cases h with
    | zero => omega
    | succ h =>
      obtain ⟨ho, i1, i2, i3⟩ := ih h5 hq (by omega) (fun x hx => hsub x (by simp [hx])) (fun x hx => by
        rcases hlow x hx with hx | ⟨nx, g1, g2⟩
        · rcases List.mem_cons.1 hx with rfl | hx
          · exact .inr ⟨nd, hm, by omega⟩
          · exact .inl hx
        · exact .inr ⟨nx, g1, by omega⟩) hk2 hL2 hkr (Rep.kids_len hkr)
      have hlt : c < nd.kids.length := (List.getElem?_eq_some_iff.1 h4).1
      have hltk : c < ks.length := (List.getElem?_eq_some_iff.1 hk1).1
      have hside : ∀ j q2, nd.kids[j]? = some q2 → j ≠ c → ¬ Ow H X q2 := by
        intro j q2 hj hne
        obtain ⟨n2, g1, g2⟩ := hi.ht p nd hm q2 (by rw [f1]; exact List.mem_of_getElem? hj)
        have := hi.lt q2 n2 g1
        rintro (hx | hx)
        · rcases hlow q2 hx with hx | ⟨nx, hx1, hx2⟩
          · rcases List.mem_cons.1 hx with rfl | hx
            · rw [hm] at g1; cases g1; omega
            · have : q2 = q := h5.top hi hq hx g1 (by omega)
              subst this
              have h6 := count_two h4 hj hne
              have h7 := List.nodup_iff_count_le_one.1 hsim q2
              omega
          · rw [g1] at hx1; cases hx1; omega
        · omega
      have hT : ((ks.take c).map (treeF (Ow H X))).sum = 0 := by
        refine sum_untracked (l := nd.kids.take c) (List.forall₂_take c r2) (fun q2 hq2 => ?_)
        obtain ⟨j, hj1, hj2⟩ := List.getElem_of_mem hq2
        simp only [List.length_take] at hj1
        refine hside j q2 ?_ (by omega)
        rw [List.getElem_take] at hj2
        rw [← hj2]; exact List.getElem?_eq_getElem _
      have hD : ((ks.drop (c + 1)).map (treeF (Ow H X))).sum = 0 := by
        refine sum_untracked (l := nd.kids.drop (c + 1)) (List.forall₂_drop (c + 1) r2) (fun q2 hq2 => ?_)
        obtain ⟨j, hj1, hj2⟩ := List.getElem_of_mem hq2
        simp only [List.length_drop] at hj1
        refine hside (c + 1 + j) q2 ?_ (by omega)
        rw [List.getElem_drop] at hj2
        rw [← hj2]; exact List.getElem?_eq_getElem _
      have hsum : (ks.map (treeF (Ow H X))).sum = treeF (Ow H X) k := by
        have e1 : ks = ks.take c ++ k :: ks.drop (c + 1) := by
          have : ks[c] = k := (List.getElem?_eq_some_iff.1 hk1).2
          rw [← this, List.getElem_cons_drop, List.take_append_drop]
        rw [e1, List.map_append, List.sum_append, List.map_cons, List.sum_cons, hT, hD, zero_add, add_zero]
      have e0 := treeF_act (tr := Ow H X) (n := ((⟨p, nd.size, nd.keys, ks⟩ : Node Nat S (Tree Nat S (h + 1))) : Tree Nat S (h + 2))) hb
      rw [e0]
      refine ⟨⟨hb, fun k' hk' => ?_⟩, ?_⟩
      · have hk' : ks[c]? = some k' := hk'
        rw [hk1] at hk'; cases hk'
        exact ho
      show (∀ f ∈ ({Fact.arity nd.keys.length ks.length} + kidF p 0 ks + (ks.map (treeF (Ow H X))).sum : Multiset Fact), _) ∧
        (owners ({Fact.arity nd.keys.length ks.length} + kidF p 0 ks + (ks.map (treeF (Ow H X))).sum)).Nodup ∧
        ∀ c ∈ owners ({Fact.arity nd.keys.length ks.length} + kidF p 0 ks + (ks.map (treeF (Ow H X))).sum), _
      rw [hsum]
      obtain ⟨k1, k2⟩ := kidF_kids r2 p 0
      simp only [owners_add, owners_arity, k1, zero_add, Multiset.mem_add, Multiset.mem_singleton, Multiset.mem_coe]
      have hkid : ∀ x ∈ nd.kids, ∃ nc, H.mem x = some nc ∧ nc.height = h := fun x hx => by
        obtain ⟨nq, g1, g2⟩ := hi.ht p nd hm x (by rw [f1]; exact hx)
        exact ⟨nq, g1, by omega⟩
      refine ⟨?_, ?_, ?_⟩
      · rintro f ((rfl | hf) | hf)
        · exact har.symm
        · obtain ⟨j, q2, e1, rfl⟩ := k2 f hf
          by_cases hj : j = c
          · subst hj
            rw [h4] at e1; cases e1
            refine .inl ⟨md.own _ ?_, by rw [hL1]; simp⟩
            rw [hmd]
            exact .inl (hsub _ (List.mem_cons_of_mem _ h5.head.1))
          · exact .inr ⟨by rw [hmd]; exact hside j q2 e1 hj, rfl⟩
        · exact i1 f hf
      · rw [Multiset.nodup_add]
        refine ⟨by simpa using hsim, i2, ?_⟩
        rw [Multiset.disjoint_left]
        intro x hx hx'
        obtain ⟨n1, a1, a2⟩ := hkid x (by simpa using hx)
        obtain ⟨n2, b1, b2⟩ := i3 x hx'
        rw [a1] at b1; cases b1
        omega
      · rintro x (hx | hx)
        · obtain ⟨n1, a1, a2⟩ := hkid x hx
          exact ⟨n1, a1, by omega⟩
        · obtain ⟨n1, a1, a2⟩ := i3 x hx
          exact ⟨n1, a1, by omega⟩

end

/-! ## After an insertion -/

section
variable {H : Heap I S} {X : List Nat}

theorem owners_sum_le {C : Type} {f : C → Multiset Fact} {l : List C} {c : C} (hc : c ∈ l) : owners (f c) ≤ owners (l.map f).sum := by
  induction l with
  | nil => simp at hc
  | cons a l ih =>
    rw [List.map_cons, List.sum_cons, owners_add]
    rcases List.mem_cons.1 hc with rfl | hc
    · exact Multiset.le_add_right _ _
    · exact (ih hc).trans (Multiset.le_add_left _ _)

theorem kidF_ptrs {h : Nat} (ks : List (Tree I S (h + 1))) (p i : Nat) : owners (kidF p i ks) = ((ks.map ptrOf : List Nat) : Multiset Nat) := by
  induction ks generalizing i with
  | nil => rfl
  | cons k ks ih =>
    have ha : HasPtr.addr k = some (ptrOf k) := rfl
    simp only [kidF, ha, hang, owners_add, owners_child, ih, List.map_cons]
    rfl

theorem mem_owners_sum {C : Type} {f : C → Multiset Fact} {l : List C} {x : Nat} (hx : x ∈ owners (l.map f).sum) : ∃ c ∈ l, x ∈ owners (f c) := by
  induction l with
  | nil => simp at hx
  | cons k ks ih =>
    rw [List.map_cons, List.sum_cons, owners_add, Multiset.mem_add] at hx
    rcases hx with hx | hx
    · exact ⟨k, by simp, hx⟩
    · obtain ⟨k', h1, h2⟩ := ih hx
      exact ⟨k', by simp [h1], h2⟩

theorem treeF_out {tr : Nat → Prop} {h : Nat} {n : Tree I S (h + 1)} (e : ¬ tr (Node.ptr n)) : treeF tr n = 0 := if_neg e

/-- Changed nodes do not list a child twice. -/
theorem openT_simple {h : Nat} {t : Tree I S h} (hn : (owners (treeF (Ow H X) t)).Nodup) : ∀ e ∈ openT H X t, (refsOf (some e.2)).Nodup := by
  induction h with
  | zero => intro e he; simp [openT] at he
  | succ h ih =>
    intro e he
    by_cases hb : Ow H X (Node.ptr t)
    · rw [treeF_act hb] at hn
      simp only [actF, nodeF, owners_add, owners_arity, zero_add] at hn
      rw [openT_pos hb, List.mem_cons, List.mem_flatMap] at he
      rcases he with rfl | ⟨k, hk, he⟩
      · cases h with
        | zero => simp [refsOf, toHNode]
        | succ h =>
          have h1 := (Multiset.nodup_add.1 hn).1
          rw [kidF_ptrs] at h1
          exact h1
      · exact ih (Multiset.nodup_of_le (owners_sum_le hk) (Multiset.nodup_add.1 hn).2.1) e he
    · simp [openT, hb] at he

/-- Every fact about a child comes from a node in memory. -/
theorem treeF_ref {out : Nat → Nat} (hi : Inv H out) {tr : Nat → Prop} {h p : Nat} {nd : HNode I S} (hm : H.mem p = some nd) (hh : nd.height = h)
    {t : Tree I S (h + 1)} (ht : readT H (h + 1) p = .ok t) {x : Nat} (hx : x ∈ owners (treeF tr t)) :
    ∃ z j nz, Fact.child x z j ∈ treeF tr t ∧ tr z ∧ H.mem z = some nz ∧ x ∈ refsOf (some nz) := by
  induction h generalizing p nd with
  | zero =>
    obtain ⟨nd0, ks, r1, r2, rfl⟩ := readT_succ.1 ht
    exfalso
    by_cases hb : tr p
    · have e0 := treeF_act (tr := tr) (n := ((⟨p, nd0.size, nd0.keys, ks⟩ : Node I S (Tree I S 0)) : Tree I S 1)) hb
      rw [e0] at hx
      have hx : x ∈ owners ({Fact.arity nd0.keys.length ks.length} + kidF p 0 ks + (ks.map (treeF tr)).sum) := hx
      rw [kidF_leaf, sum_leaf] at hx
      simp at hx
    · have e0 := treeF_out (tr := tr) (n := ((⟨p, nd0.size, nd0.keys, ks⟩ : Node I S (Tree I S 0)) : Tree I S 1)) hb
      rw [e0] at hx; simp at hx
  | succ h ih =>
    obtain ⟨nd0, ks, r1, r2, rfl⟩ := readT_succ.1 ht
    rw [hm] at r1; cases r1
    have f1 : refsOf (some nd) = nd.kids := by simp [refsOf, hh]
    by_cases hb : tr p
    swap
    · have e0 := treeF_out (tr := tr) (n := ((⟨p, nd.size, nd.keys, ks⟩ : Node I S (Tree I S (h + 1))) : Tree I S (h + 2))) hb
      rw [e0] at hx; simp at hx
    have e0 := treeF_act (tr := tr) (n := ((⟨p, nd.size, nd.keys, ks⟩ : Node I S (Tree I S (h + 1))) : Tree I S (h + 2))) hb
    rw [e0] at hx ⊢
    have hx : x ∈ owners ({Fact.arity nd.keys.length ks.length} + kidF p 0 ks + (ks.map (treeF tr)).sum) := hx
    show ∃ z j nz, Fact.child x z j ∈ ({Fact.arity nd.keys.length ks.length} + kidF p 0 ks + (ks.map (treeF tr)).sum : Multiset Fact) ∧ _
    simp only [owners_add, owners_arity, zero_add, Multiset.mem_add] at hx
    rcases hx with hx | hx
    · have k2 : ∀ (i : Nat) (l : List Nat) (ks : List (Tree I S (h + 1))), List.Forall₂ (fun q k => readT H (h + 1) q = .ok k) l ks →
          x ∈ owners (kidF p i ks) → ∃ j, Fact.child x p j ∈ kidF p i ks := by
        intro i l ks hr
        induction hr generalizing i with
        | nil => intro hx; simp [kidF] at hx
        | @cons q k l ks h1 h2 ihk =>
          intro hx
          have ha : HasPtr.addr k = some q := by
            obtain ⟨_, _, _, _, e⟩ := readT_succ.1 h1
            rw [e]; rfl
          simp only [kidF, ha, hang, owners_add, owners_child, Multiset.mem_add, Multiset.mem_singleton] at hx ⊢
          rcases hx with rfl | hx
          · exact ⟨i, .inl rfl⟩
          · obtain ⟨j, hj⟩ := ihk (i + 1) hx
            exact ⟨j, .inr hj⟩
      obtain ⟨j, hj⟩ := k2 0 _ _ r2 hx
      obtain ⟨k1, -⟩ := kidF_kids r2 p 0
      refine ⟨p, j, nd, ?_, hb, hm, by rw [f1]; rw [k1] at hx; simpa using hx⟩
      simp [hj]
    · obtain ⟨k, hk, hx⟩ := mem_owners_sum hx
      obtain ⟨i, hi1, rfl⟩ := List.getElem_of_mem hk
      have hl := r2.length_eq
      have hrd := (List.forall₂_iff_get.1 r2).2 i (by omega) hi1
      have hmem : nd.kids[i]'(by omega) ∈ nd.kids := List.getElem_mem _
      obtain ⟨nq, g1, g2⟩ := hi.ht p nd hm _ (by rw [f1]; exact hmem)
      obtain ⟨z, j, nz, b1, b2⟩ := ih g1 (by omega) hrd hx
      refine ⟨z, j, nz, ?_, b2⟩
      have := mem_sum_map.2 ⟨_, hk, b1⟩
      simp only [Multiset.mem_add]
      exact .inr this

/-- The nodes of a tree that has nothing of `Y`: any reference to one of them from `Y` is not the only one. -/
theorem read_off {out : Nat → Nat} (hi : Inv H out) {Y : Nat → Prop}
    (cl : ∀ x nd, H.mem x = some nd → ¬ Y x → ∀ q ∈ refsOf (some nd), ¬ Y q) {h p : Nat} {nd : HNode I S} (hm : H.mem p = some nd)
    (hh : nd.height = h) (hp : ¬ Y p) (hp' : ∀ z nz, H.mem z = some nz → Y z → p ∈ refsOf (some nz) → 2 ≤ cnt H p)
    {t : Tree I S (h + 1)} (ht : readT H (h + 1) p = .ok t) :
    ∀ x ∈ addrs t, ¬ Y x ∧ ∀ z nz, H.mem z = some nz → Y z → x ∈ refsOf (some nz) → 2 ≤ cnt H x := by
  induction h generalizing p nd with
  | zero =>
    obtain ⟨nd0, ks, r1, r2, rfl⟩ := readT_succ.1 ht
    intro x hx
    have hx : x ∈ p :: ks.flatMap (addrs (h := 0)) := hx
    rw [List.mem_cons, List.mem_flatMap] at hx
    rcases hx with rfl | ⟨k, _, hx⟩
    · exact ⟨hp, hp'⟩
    · simp [addrs] at hx
  | succ h ih =>
    obtain ⟨nd0, ks, r1, r2, rfl⟩ := readT_succ.1 ht
    rw [hm] at r1; cases r1
    have f1 : refsOf (some nd) = nd.kids := by simp [refsOf, hh]
    intro x hx
    have hx : x ∈ p :: ks.flatMap (addrs (h := h + 1)) := hx
    rw [List.mem_cons, List.mem_flatMap] at hx
    rcases hx with rfl | ⟨k, hk, hx⟩
    · exact ⟨hp, hp'⟩
    · obtain ⟨i, hi1, rfl⟩ := List.getElem_of_mem hk
      have hl := r2.length_eq
      have hrd := (List.forall₂_iff_get.1 r2).2 i (by omega) hi1
      have hmem : nd.kids[i]'(by omega) ∈ nd.kids := List.getElem_mem _
      obtain ⟨nq, g1, g2⟩ := hi.ht p nd hm _ (by rw [f1]; exact hmem)
      refine ih g1 (by omega) (cl p nd hm hp _ (by rw [f1]; exact hmem)) (fun z nz hz hY hr => ?_) hrd x hx
      have hne : z ≠ p := by rintro rfl; exact hp hY
      have a1 := refsIn_two (hi.lt z nz hz) (hi.lt p nd hm) hne (nd.kids[i]'(by omega))
      have a2 := hi.cnt (nd.kids[i]'(by omega))
      rw [hz, hm, f1] at a1
      have a3 := List.count_pos_iff.2 hr
      have a4 := List.count_pos_iff.2 hmem
      omega

end

end Sherman.Cow
