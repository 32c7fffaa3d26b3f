import Verif.CowLinked
/-!
# One insertion with stored links

Insertion with links (`LSt.insert`) does the same to memory as without, and keeps the invariants on links.
-/
namespace Sherman.Cow
variable {I S : Type}

/-- Addresses of the nodes of a tree. -/
def _root_.Sherman.RleTree.addrs (t : RleTree I S) : List Nat :=
  match t.root with
  | none => []
  | some r => Cow.addrs r.tree

theorem leaf_owners {tr : Nat → Prop} (t : Tree I S 1) : owners (treeF tr t) = 0 := by
  by_cases hb : tr (Node.ptr t)
  · rw [treeF_act hb]
    simp only [actF, nodeF, kidF_leaf, sum_leaf, owners_add, owners_arity, owners_zero]; rfl
  · rw [treeF_out hb]; rfl

theorem addrs_live {H : Heap I S} {out : Nat → Nat} (hi : Inv H out) {h p : Nat} {nd : HNode I S} (hm : H.mem p = some nd) (hh : nd.height = h)
    {t : Tree I S (h + 1)} (ht : readT H (h + 1) p = .ok t) : ∀ x ∈ addrs t, x < H.next := by
  intro x hx
  have := (read_off hi (Y := fun x => H.next ≤ x) (fun x nd hx _ q hq => by
    obtain ⟨nq, g1, -⟩ := hi.ht x nd hx q hq
    have := hi.lt q nq g1
    omega) hm hh (by have := hi.lt p nd hm; omega) (fun z nz hz hY => by have := hi.lt z nz hz; omega) ht x hx).1
  omega

theorem opened_all {h : Nat} {t : Tree I S h} {path : List Nat} : Opened (fun _ => True) t path := by
  induction h generalizing path with
  | zero => cases path <;> trivial
  | succ h ih =>
    cases path with
    | nil => trivial
    | cons c path => exact ⟨trivial, fun k _ => ih⟩

theorem treeM_all {h : Nat} (t : Tree I S h) :
    treeM (fun _ => True) t = (((addrs t).map Sum.inl : List (Tok I S)) : Multiset (Tok I S)) := by
  induction h with
  | zero => rfl
  | succ h ih =>
    have e : treeM (fun _ => True) t = {Sum.inl (Node.ptr t)} + ((Node.kids t).map (treeM (fun _ => True) (h := h))).sum := if_pos trivial
    have hs : ∀ l : List (Tree I S h), (l.map (treeM (fun _ => True) (h := h))).sum =
        (((l.flatMap (addrs (h := h))).map Sum.inl : List (Tok I S)) : Multiset (Tok I S)) := by
      intro l
      induction l with
      | nil => rfl
      | cons a l il =>
        rw [List.map_cons, List.sum_cons, il, ih a, List.flatMap_cons, List.map_append]
        rfl
    rw [e, hs]
    rfl

/-- Insertion does not make an address occur twice. -/
theorem insert_nodup {E : Env I S} {h len : Nat} {t : Tree I S (h + 1)} {nop : Bool} {hints : List Nat} {idx : I} {s : S} {z : I} {r : Root I S}
    {o : Inserted} {w : World} {path : List Nat} (hr : RleTree.insert E ⟨some ⟨h, t, len⟩⟩ nop hints idx s z w = .ok (⟨some r⟩, o))
    (hw : wayDown E t hints idx s = .ok path) :
    w.next ≤ o.world.next ∧ ((addrs t).Nodup → (∀ x ∈ addrs t, x < w.next) → (addrs r.tree).Nodup) := by
  obtain ⟨h1, h2, -⟩ := insert_keeps (B := fun _ => True) hr rfl hw opened_all (fun _ _ => trivial) (fun _ _ => trivial)
  refine ⟨h1, fun hn hlt => ?_⟩
  have e1 : (⟨some r⟩ : RleTree I S).M (fun _ => True) = (((addrs r.tree).map Sum.inl : List (Tok I S)) : Multiset (Tok I S)) :=
    (treeM_open (B := fun _ => True) trivial).symm.trans (treeM_all r.tree)
  have e2 : actM (fun _ => True) t = (((addrs t).map Sum.inl : List (Tok I S)) : Multiset (Tok I S)) :=
    (treeM_open (B := fun _ => True) trivial).symm.trans (treeM_all t)
  have h2 : (⟨some r⟩ : RleTree I S).M (fun _ => True) = actM (fun _ => True) t + fresh I S w.next o.world.next := h2
  rw [e1, e2, fresh, Multiset.coe_add, ← List.map_append] at h2
  have hp : ((addrs r.tree).map (Sum.inl : Nat → Tok I S)).Perm ((addrs t ++ List.range' w.next (o.world.next - w.next)).map Sum.inl) :=
    Multiset.coe_eq_coe.1 h2
  have hnd : (((addrs t ++ List.range' w.next (o.world.next - w.next))).map (Sum.inl : Nat → Tok I S)).Nodup := by
    refine List.Nodup.map Sum.inl_injective ?_
    rw [List.nodup_append]
    refine ⟨hn, List.nodup_range', fun a ha b hb => ?_⟩
    have := hlt a ha
    rw [List.mem_range'_1] at hb
    omega
  exact (hp.nodup_iff.2 hnd).of_map _

theorem kidF_child {h : Nat} {ks : List (Tree I S (h + 1))} {x : Nat} (hx : x ∈ ks.map ptrOf) (p i : Nat) : ∃ j, Fact.child x p j ∈ kidF p i ks := by
  induction ks generalizing i with
  | nil => simp at hx
  | cons k ks ih =>
    have ha : HasPtr.addr k = some (ptrOf k) := rfl
    simp only [kidF, ha, hang]
    rcases List.mem_cons.1 hx with rfl | hx
    · exact ⟨i, by simp⟩
    · obtain ⟨j, hj⟩ := ih hx (i + 1)
      exact ⟨j, Multiset.mem_add.2 (.inr hj)⟩

theorem mem_map_sum {C : Type} {f : C → Multiset Fact} {l : List C} {c : C} (hc : c ∈ l) {x : Fact} (hx : x ∈ f c) : x ∈ (l.map f).sum := by
  induction l with
  | nil => simp at hc
  | cons a l ih =>
    rw [List.map_cons, List.sum_cons, Multiset.mem_add]
    rcases List.mem_cons.1 hc with rfl | hc
    · exact .inl hx
    · exact .inr (ih hc)

/-- There is a fact for each child of a node that may be changed. -/
theorem openT_child {H : Heap I S} {X : List Nat} {h : Nat} {t : Tree I S h} {y : Nat} {n : HNode I S} (he : (y, n) ∈ openT H X t) {x : Nat}
    (hx : x ∈ refsOf (some n)) : ∃ j, Fact.child x y j ∈ treeF (Ow H X) t := by
  induction h with
  | zero => simp [openT] at he
  | succ h ih =>
    by_cases hb : Ow H X (Node.ptr t)
    swap
    · simp [openT, hb] at he
    rw [treeF_act hb]
    rw [openT_pos hb, List.mem_cons, List.mem_flatMap] at he
    simp only [actF, nodeF, Multiset.mem_add]
    rcases he with he | ⟨k, hk, he⟩
    · cases he
      cases h with
      | zero => simp [refsOf, toHNode] at hx
      | succ h =>
        have hx : x ∈ (Node.kids t).map ptrOf := hx
        obtain ⟨j, hj⟩ := kidF_child hx (Node.ptr t) 0
        exact ⟨j, .inl (.inr hj)⟩
    · obtain ⟨j, hj⟩ := ih he
      exact ⟨j, .inr (mem_map_sum hk hj)⟩

theorem exists_parent {H : Heap I S} {x : Nat} (h : 0 < refsIn H x) : ∃ y n, H.mem y = some n ∧ x ∈ refsOf (some n) := by
  unfold refsIn at h
  obtain ⟨q, -, hq⟩ := Finset.exists_ne_zero_of_sum_ne_zero (Nat.pos_iff_ne_zero.1 h)
  have := List.count_pos_iff.1 (Nat.pos_iff_ne_zero.2 hq)
  cases hm : H.mem q with
  | none => rw [hm] at this; simp [refsOf] at this
  | some n => rw [hm] at this; exact ⟨q, n, hm, this⟩

/-- One insertion: the links never stop it, and it touches no link of a node of another tree. -/
theorem insertL_step {imax : Nat} {E : Env Nat S} {st : St Nat S} (ok : st.Ok) (hsim : Simple st.heap) (L : LinkMap) {i : Nat} {t : RleTree Nat S}
    (hv : st.view i = .ok t) {es : List (Ent S)} (hh : Holds E t es) (nop : Bool) (hints : List Nat) (idx : Nat) (s : S) (z : Nat) :
    (∃ st' L', st.insert E imax i nop hints idx s z = .ok st' ∧ LSt.insert E imax ⟨st, L⟩ i nop hints idx s z = .ok ⟨st', L'⟩ ∧
      Simple st'.heap ∧ (Linked st.heap L → Linked st'.heap L') ∧ (∀ t', st'.view i = .ok t' → (t.addrs.Nodup → t'.addrs.Nodup) ∧ ∀ r, t'.root = some r → L' (ptrOf r.tree) = none) ∧
      ∀ j tj, j ≠ i → st.view j = .ok tj → st'.view j = .ok tj ∧ ∀ x ∈ tj.addrs, L' x = L x) ∨
    ∃ f, st.insert E imax i nop hints idx s z = .error f ∧ LSt.insert E imax ⟨st, L⟩ i nop hints idx s z = .error f := by
  have hlt : i < st.trees.length := by
    by_contra hc
    rw [St.view, St.tree_error (fun r h => by rw [List.getElem?_eq_none (by omega)] at h; cases h)] at hv
    cases hv
  rcases St.view_cases hv with ⟨hi, rfl⟩ | ⟨r, t0, hi, ht0, rfl⟩
  · -- first insertion
    simp only [St.insert, LSt.insert, St.tree_ok.2 hi, R.bind_ok]
    cases hr : RleTree.insert E ⟨none⟩ nop hints idx s z ⟨st.heap.next, [], [], none, []⟩ with
    | error f => exact .inr ⟨f, rfl, rfl⟩
    | ok res =>
      obtain ⟨t2, o⟩ := res
      left
      obtain ⟨t', e1, e2, e3⟩ := insert_first hr
      subst e1
      have hlk : Lk (cowMode st.heap [] (fun x hx => by simp at hx) ok.inv.lt) L ⟨st.heap.next, [], [], none, []⟩ ((⟨none⟩ : RleTree Nat S).F (Ow st.heap []) + 0) :=
        ⟨⟨L, rfl, fun f hf => by simp [RleTree.F] at hf, fun _ _ => rfl⟩, by simp [RleTree.F], fun p hp => by simp [RleTree.F] at hp, fun p hp => .inr hp⟩
      have hlk' := Lk.insert hr (fun root h => by cases h) hlk
      obtain ⟨L', l1, l2, l3⟩ := hlk'.run
      have l1 : runLinks ⟨true, shared st.heap⟩ L o.world.links = .ok L' := l1
      simp only [R.bind_ok, R.pure_eq, l1]
      obtain ⟨-, k2, -, k4⟩ := new_write (out' := held (st.trees.set i (some (some ⟨0, st.heap.next, 1⟩)))) ok.inv e2 (fun x => by
        have := held_set hi (some (some ⟨0, st.heap.next, 1⟩)) x
        simp only [rootW] at this
        omega)
      have hst : st.store i st.heap ⟨some ⟨0, t', 1⟩⟩ o.world.next =
          ⟨writeT st.heap t' (st.heap.next + 1), st.trees.set i (some (some ⟨0, st.heap.next, 1⟩))⟩ := by
        have e4 : ptrOf t' = st.heap.next := e2
        simp only [St.store, St.setTree, e4, e3]
      have hL : ∀ x, x < st.heap.next → L' x = L x := fun x hx => l3 x (by
        have e5 : ptrT t' = some st.heap.next := congrArg some e2
        simp only [RleTree.F, leaf_owners, e5, free, owners_add, owners_orphan, owners_zero, zero_add, add_zero, Multiset.mem_singleton]
        omega)
      have hback : ∀ y n, (writeT st.heap t' (st.heap.next + 1)).mem y = some n → (y = st.heap.next ∧ n.height = 0) ∨ st.heap.mem y = some n := by
        intro y n hy
        simp only [writeT] at hy
        split at hy
        · rename_i e he
          cases hy
          have := mem_of_lookup he
          simp only [nodesT, List.mem_cons, List.mem_flatMap, List.not_mem_nil, and_false, exists_false, or_false, Prod.mk.injEq] at this
          rw [this.1, this.2]
          exact .inl ⟨e2, rfl⟩
        · exact .inr hy
      refine ⟨_, L', rfl, rfl, ?_, fun hl => ?_, fun tv htv => ?_, fun j tj hji htj => ?_⟩
      rotate_left
      · rw [hst]
        refine hl.step (fun x n hx hlt => ?_) (Nat.le_succ _) (fun y n hy x hx => .inr ?_)
        · rcases hback x n hx with ⟨h, -⟩ | h
          · omega
          · exact ⟨n, h, rfl⟩
        · rcases hback y n hy with ⟨-, h⟩ | h
          · simp [refsOf, h] at hx
          · obtain ⟨nx, g1, -⟩ := ok.inv.ht y n h x hx
            exact ⟨hL x (ok.inv.lt _ _ g1), y, n, h, hx, rfl⟩
      · rw [hst] at htv
        have hrd := k2
        rw [St.view_some (List.getElem?_set_self hlt) hrd] at htv
        cases htv
        refine ⟨fun _ => ?_, fun r0 hr0 => ?_⟩
        swap
        · cases hr0
          have hpr : ptrT t' = some (ptrOf t') := rfl
          exact (l2 (.orphan (ptrOf t')) (by simp [RleTree.F, hpr, free])).1
        show (addrs t').Nodup
        rw [addrs_succ]
        have : ∀ l : List (Tree Nat S 0), l.flatMap (addrs (h := 0)) = [] := fun l => by simp [addrs]
        rw [this]
        simp
      rotate_right
      · rw [hst]
        intro x nd hx
        simp only [writeT] at hx
        split at hx
        · rename_i e he
          cases hx
          have := mem_of_lookup he
          simp only [nodesT, List.mem_cons, List.mem_flatMap, List.not_mem_nil, and_false, exists_false, or_false, Prod.mk.injEq] at this
          rw [this.2]
          simp [refsOf, toHNode]
        · exact hsim x nd hx
      · rw [hst]
        have hj : (st.trees.set i (some (some ⟨0, st.heap.next, 1⟩)))[j]? = st.trees[j]? := List.getElem?_set_ne (Ne.symm hji)
        rcases St.view_cases htj with ⟨hn, rfl⟩ | ⟨rj, t0, hn, ht0, rfl⟩
        · exact ⟨St.view_none (by dsimp only; rw [hj]; exact hn), fun x hx => by simp [RleTree.addrs] at hx⟩
        · refine ⟨St.view_some (by dsimp only; rw [hj]; exact hn) (readT_ext (fun x nd h => k4 x nd h) ht0), fun x hx => l3 x ?_⟩
          obtain ⟨nd, h1, h2⟩ := ok.root j rj hn
          have := addrs_live ok.inv h1 h2 ht0 x hx
          have e5 : ptrT t' = some st.heap.next := congrArg some e2
          simp only [RleTree.F, leaf_owners, e5, free, owners_add, owners_orphan, owners_zero, zero_add, add_zero, Multiset.mem_singleton]
          omega
  · obtain ⟨nd, hm, hht⟩ := ok.root i r hi
    simp only [St.insert, LSt.insert, St.tree_ok.2 hi, R.bind_ok, ht0]
    cases hc1 : check (!E.ix.lt (Node.size t0) idx) "cannot insert new slice, index out of bounds" with
    | error f => exact .inr ⟨f, rfl, rfl⟩
    | ok u1 =>
    cases hc2 : check (!E.ix.le z E.ix.zero) "cannot insert new slice, size is not greater than zero" with
    | error f => exact .inr ⟨f, rfl, rfl⟩
    | ok u2 =>
    simp only [R.bind_ok]
    have hrep : Rep E.M 1 t0 es := hh.2.1
    rcases wayDown_fits (E := E) hrep (hints := hints) (idx := idx) (s := s) with ⟨path, hw, hf⟩ | ⟨f, h1, h2⟩
    swap
    · exact .inr ⟨f, by rw [h2]; rfl, by rw [h2]; rfl⟩
    rw [hw]
    simp only [R.bind_ok]
    have hpos : 0 < held st.trees r.p := by
      have := held_one hi r.p
      simp only [rootW, if_true] at this
      omega
    rcases unshare_spec (imax := imax) ok.inv hm hht ht0 hf hpos with ⟨H', p', -, e, hinv, -, -, stay, ⟨nd', hm', hht'⟩, t', ht', alt⟩ | e
    swap
    · refine .inr ⟨tooMany, by rw [e]; rfl, ?_⟩
      have := unshareL_map imax path st.heap L r.h r.p
      rw [e] at this
      cases hu : unshareL imax path st.heap L r.h r.p with
      | ok x => rw [hu] at this; cases this
      | error f => rw [hu] at this; cases this; rfl
    obtain ⟨L1, X, eL, way, hsim', lway, hroot, hfr, hsame⟩ := unshareL_spec (L := L) ok.inv hsim hm hht ht0 hf hpos e
    simp only [e, eL, R.bind_ok, ht']
    have alr : RleTree.Alike (⟨some ⟨r.h, t0, r.len⟩⟩ : RleTree Nat S) ⟨some ⟨r.h, t', r.len⟩⟩ := ⟨rfl, rfl, alt⟩
    cases hr : RleTree.insert E ⟨some ⟨r.h, t', r.len⟩⟩ nop hints idx s z ⟨H'.next, [], [], none, []⟩ with
    | error f => exact .inr ⟨f, rfl, rfl⟩
    | ok res =>
      obtain ⟨t2, o⟩ := res
      left
      let ts1 := st.trees.set i (some (some ⟨r.h, p', r.len⟩))
      have hi1 : Inv H' (held ts1) := hinv _ (fun x => held_set hi (some (some ⟨r.h, p', r.len⟩)) x)
      have hts1 : ts1[i]? = some (some (some ⟨r.h, p', r.len⟩)) := List.getElem?_set_self hlt
      have hpos1 : 0 < held ts1 p' := by
        have := held_one hts1 p'
        simp only [rootW, if_true] at this
        omega
      have hw' : wayDown E t' hints idx s = .ok path := by rw [← wayDown_alike alt]; exact hw
      obtain ⟨r', e1, k1, k2, k3, k4, k5⟩ := insert_write hi1 way hm' hht' hpos1 ht' hr hw'
      subst e1
      -- links
      have hrep' : Rep E.M 1 t' es := (alr.holds hh).2.1
      obtain ⟨f1, f2, f3, f4⟩ := way_facts hi1 hsim' (X := X) (md := cowMode H' X way.one hi1.lt) rfl way hm' hht' (fun x hx => hx) (fun x hx => .inl hx)
        ht' lway hrep'
      have hp' : Node.ptr t' = p' := by
        obtain ⟨_, _, _, _, e⟩ := readT_succ.1 ht'
        rw [e]
      have hpt : ptrT t' = some p' := congrArg some hp'
      have hlk : Lk (cowMode H' X way.one hi1.lt) L1 ⟨H'.next, [], [], none, []⟩ ((⟨some ⟨r.h, t', r.len⟩⟩ : RleTree Nat S).F (Ow H' X) + 0) := by
        refine ⟨⟨L1, rfl, fun f hf => ?_, fun _ _ => rfl⟩, ?_, fun x hx => ?_, fun p hp => .inr hp⟩
        · simp only [RleTree.F, hpt, free, add_zero, Multiset.mem_add, Multiset.mem_singleton] at hf
          rcases hf with hf | rfl
          · exact f2 f hf
          · exact ⟨hroot, .inl way.head.1⟩
        · simp only [RleTree.F, hpt, free, add_zero, owners_add, owners_orphan]
          rw [add_comm, Multiset.singleton_add, Multiset.nodup_cons]
          refine ⟨fun hx => ?_, f3⟩
          obtain ⟨nc, a1, a2⟩ := f4 p' hx
          rw [hm'] at a1; cases a1
          omega
        · simp only [RleTree.F, hpt, free, add_zero, owners_add, owners_orphan, Multiset.mem_add, Multiset.mem_singleton] at hx
          rcases hx with hx | rfl
          · obtain ⟨nc, a1, -⟩ := f4 x hx
            exact hi1.lt _ _ a1
          · exact hi1.lt _ _ hm'
      have hlk' := Lk.insert hr (fun root h path' hpath' => by
        cases h
        rw [hw'] at hpath'; cases hpath'
        exact f1) hlk
      obtain ⟨L', l1, l2, l3⟩ := hlk'.run
      have l1 : runLinks ⟨true, shared H'⟩ L1 o.world.links = .ok L' := l1
      simp only [R.bind_ok, R.pure_eq, l1]
      have hst : st.store i H' ⟨some r'⟩ o.world.next =
          ⟨writeT H' r'.tree o.world.next, st.trees.set i (some (some ⟨r'.h, ptrOf r'.tree, r'.len⟩))⟩ := rfl
      rw [hst]
      have hset : ∀ j, j ≠ i → (st.trees.set i (some (some ⟨r'.h, ptrOf r'.tree, r'.len⟩)))[j]? = st.trees[j]? :=
        fun j hji => List.getElem?_set_ne (Ne.symm hji)
      have hinv2 : Inv (writeT H' r'.tree o.world.next) (held (st.trees.set i (some (some ⟨r'.h, ptrOf r'.tree, r'.len⟩)))) := by
        refine k2 _ (fun x => ?_)
        have g1 := held_set hi (some (some ⟨r.h, p', r.len⟩)) x
        have g2 := held_set hi (some (some ⟨r'.h, ptrOf r'.tree, r'.len⟩)) x
        simp only [rootW] at g1 g2
        show held (st.trees.set i (some (some ⟨r'.h, ptrOf r'.tree, r'.len⟩))) x + _ = held (st.trees.set i (some (some ⟨r.h, p', r.len⟩))) x + _
        omega
      obtain ⟨hnx, hnd⟩ := insert_nodup hr hw'
      have hnx : H'.next ≤ o.world.next := hnx
      have hap := way.apart hi1 hpos1
      have hout : ∀ y n, H'.mem y = some n → ¬ Ow H' X y → ∀ x ∈ refsOf (some n), ¬ Ow H' X x := fun y ny hy hyO q hq => by
        obtain ⟨nq, c1, -⟩ := hi1.ht y ny hy q hq
        have := hi1.lt _ _ c1
        rintro (h | h)
        · exact hap y ny hy (fun h => hyO (.inl h)) q hq h
        · omega
      have hrootO : Ow H' X (ptrOf r'.tree) := (l2 (.orphan (ptrOf r'.tree)) (by
        have hpr : ptrT r'.tree = some (ptrOf r'.tree) := rfl
        simp [RleTree.F, hpr, free])).2
      refine ⟨_, L', rfl, rfl, fun x n hx => ?_, fun hl => ?_, fun tv htv => ?_, fun j tj hji htj => ?_⟩
      rotate_left
      · obtain ⟨hl1, -, -⟩ := unshareL_linked ok.inv hl hm hht ht0 hf hpos eL
        refine hl1.step (fun x n hx hlt => (k5 x n hx).2 hlt) hnx (fun y n hy x hx => ?_)
        rcases (k5 y n hy).1 with hop | ⟨hyO, hy'⟩
        · -- a node that was changed
          obtain ⟨j, hj⟩ := openT_child hop hx
          rcases l2 _ (show Fact.child x y j ∈ (⟨some r'⟩ : RleTree Nat S).F (Ow H' X) + 0 by simp [RleTree.F, hj]) with c6 | c6
          · left
            refine ⟨y, j, c6.2, hinv2.lt y n hy, fun nq hq => ?_⟩
            rw [hy] at hq; cases hq; rfl
          · right
            have hxO : ¬ Ow H' X x := c6.1
            refine ⟨c6.2, ?_⟩
            obtain ⟨nx, d1, d2⟩ := hinv2.ht y n hy x hx
            have d3 : H'.mem x = some nx := by rw [← k4 x hxO]; exact d1
            have hxp : x ≠ p' := fun e => hxO (.inl (e ▸ way.head.1))
            have hxr : x ≠ ptrOf r'.tree := fun e => hxO (e ▸ hrootO)
            have g1 := held_set hi (some (some ⟨r.h, p', r.len⟩)) x
            have g2 := held_set hi (some (some ⟨r'.h, ptrOf r'.tree, r'.len⟩)) x
            simp only [rootW] at g1 g2
            simp only [hxp, if_false] at g1
            simp only [hxr, if_false] at g2
            have g3 := hinv2.cnt x
            have g4 := hi1.cnt x
            rw [cnt_some d1] at g3
            rw [cnt_some d3] at g4
            have g5 := refsIn_le (hinv2.lt y n hy) x
            rw [hy] at g5
            have g6 := List.count_pos_iff.2 hx
            obtain ⟨y0, n0, e1, e2⟩ := exists_parent (H := H') (x := x) (by
              have g4 : nx.count = refsIn H' x + held (st.trees.set i (some (some ⟨r.h, p', r.len⟩))) x := g4
              omega)
            obtain ⟨nx', e3, e4⟩ := hi1.ht y0 n0 e1 x e2
            rw [d3] at e3; cases e3
            exact ⟨y0, n0, e1, e2, by omega⟩
        · -- a node that was not changed
          right
          have hxO := hout y n hy' hyO x hx
          refine ⟨?_, y, n, hy', hx, rfl⟩
          by_cases ho : x ∈ owners ((⟨some r'⟩ : RleTree Nat S).F (Ow H' X) + 0)
          swap
          · exact l3 x ho
          simp only [RleTree.F, add_zero, owners_add, Multiset.mem_add] at ho
          rcases ho with ho | ho
          · obtain ⟨ndr, hmr, hhr⟩ := k3
            obtain ⟨z, q, nz, c1, c2, c3, c4⟩ := treeF_ref hinv2 hmr hhr k1 ho
            rcases l2 _ (show Fact.child x z q ∈ (⟨some r'⟩ : RleTree Nat S).F (Ow H' X) + 0 by simp [RleTree.F, c1]) with c6 | c6
            · exfalso
              have c7 : shared H' x = false := c6.1
              have hzy : z ≠ y := fun e => hyO (e ▸ c2)
              have a1 := refsIn_two (hinv2.lt z nz c3) (hinv2.lt y n hy) hzy x
              rw [c3, hy] at a1
              have a2 := List.count_pos_iff.2 c4
              have a3 := List.count_pos_iff.2 hx
              have a4 := hinv2.cnt x
              unfold cnt at a4
              rw [k4 x hxO] at a4
              cases hx' : H'.mem x with
              | none => rw [hx'] at a4; simp at a4; omega
              | some n =>
                rw [hx'] at a4
                simp only [shared, hx', bne_eq_false_iff_eq] at c7
                simp only at a4
                omega
            · exact c6.2
          · exfalso
            have hpr : ptrT r'.tree = some (ptrOf r'.tree) := rfl
            rw [hpr] at ho
            simp only [free, owners_orphan, Multiset.mem_singleton] at ho
            exact hxO (ho ▸ hrootO)
      · have hv2 : St.view (⟨writeT H' r'.tree o.world.next, st.trees.set i (some (some ⟨r'.h, ptrOf r'.tree, r'.len⟩))⟩ : St Nat S) i =
            .ok ⟨some ⟨r'.h, r'.tree, r'.len⟩⟩ :=
          St.view_some (r := ⟨r'.h, ptrOf r'.tree, r'.len⟩) (List.getElem?_set_self hlt) k1
        rw [hv2] at htv
        cases htv
        refine ⟨fun hn => ?_, fun r0 hr0 => ?_⟩
        swap
        · cases hr0
          have hpr : ptrT r'.tree = some (ptrOf r'.tree) := rfl
          exact (l2 (.orphan (ptrOf r'.tree)) (by simp [RleTree.F, hpr, free])).1
        obtain ⟨t'', hr1, hr2⟩ := unshare_repath ok.inv hsim hm hht ht0 hf hpos e
        rw [ht'] at hr1; cases hr1
        exact hnd (hr2.nodup hn (addrs_live ok.inv hm hht ht0)).1 (addrs_live hi1 hm' hht' ht')
      rotate_right
      · rcases (k5 x n hx).1 with h | h
        · refine openT_simple (H := H') (X := X) (t := r'.tree) ?_ _ h
          refine Multiset.nodup_of_le ?_ hlk'.ids
          simp only [RleTree.F, owners_add]
          exact (Multiset.le_add_right _ _).trans (Multiset.le_add_right _ _)
        · exact hsim' x n h.2
      · rcases St.view_cases htj with ⟨hn, rfl⟩ | ⟨rj, u0, hn, hu0, rfl⟩
        · exact ⟨St.view_none (by dsimp only; rw [hset j hji]; exact hn), fun x hx => by simp [RleTree.addrs] at hx⟩
        have hoff : rj.p ∉ X := by
          intro hx
          have h1 := way.others hi1 hpos1 hx
          have hj1 : ts1[j]? = some (some (some rj)) := by rw [List.getElem?_set_ne (Ne.symm hji)]; exact hn
          have h2 := held_two hts1 hj1 hji rj.p
          simp only [rootW, if_true] at h2
          split_ifs at h1 h2 <;> omega
        obtain ⟨n0, h1, h2⟩ := ok.root j rj hn
        -- the tree is untouched
        have hu1 : readT H' (rj.h + 1) rj.p = .ok u0 := by
          refine readT_frame (Z := fun x => x ∉ X ∧ ∃ n, st.heap.mem x = some n) (fun x hx => ?_) ⟨hoff, n0, h1⟩ h1 h2 hu0
          obtain ⟨hxX, n, hxn⟩ := hx
          obtain ⟨n', a1, a2⟩ := hsame x n hxn hxX
          refine ⟨n, n', hxn, a1, a2, fun q hq => ?_⟩
          obtain ⟨nq, b1, b2⟩ := ok.inv.ht x n hxn q hq
          rw [a2.refs] at hq
          exact ⟨⟨hap x n' a1 hxX q hq, nq, b1⟩, nq, b1, b2⟩
        obtain ⟨n1, h3, h4⟩ := stay _ _ h1
        have hu2 := read_outside hi1 hap k4 h3 (by rw [← h4, h2]) hoff hu1
        refine ⟨St.view_some (by dsimp only; rw [hset j hji]; exact hn) hu2, fun x hx => ?_⟩
        have hnOw : ¬ Ow H' X rj.p := by
          have := hi1.lt _ _ h3
          rintro (h | h)
          · exact hoff h
          · omega
        have hm2 : (writeT H' r'.tree o.world.next).mem rj.p = some n1 := by rw [k4 _ hnOw]; exact h3
        obtain ⟨b1, b2⟩ := read_off hinv2 (Y := Ow H' X) (fun y ny hy hyO q hq => by
          rw [k4 y hyO] at hy
          obtain ⟨nq, c1, -⟩ := hi1.ht y ny hy q hq
          have := hi1.lt _ _ c1
          rintro (h | h)
          · exact hap y ny hy (fun h => hyO (.inl h)) q hq h
          · omega) hm2 (by rw [← h4, h2]) hnOw (fun y ny hy hyO hq => by
          have c1 := refsIn_le (hinv2.lt y ny hy) rj.p
          have c2 := hinv2.cnt rj.p
          have c3 := held_one (show (st.trees.set i (some (some ⟨r'.h, ptrOf r'.tree, r'.len⟩)))[j]? = some (some (some rj)) by rw [hset j hji]; exact hn) rj.p
          simp only [rootW, if_true] at c3
          rw [hy] at c1
          have c4 := List.count_pos_iff.2 hq
          omega) hu2 x hx
        rw [← hfr x (fun h => b1 (.inl h))]
        by_cases ho : x ∈ owners ((⟨some r'⟩ : RleTree Nat S).F (Ow H' X) + 0)
        swap
        · exact l3 x ho
        simp only [RleTree.F, add_zero, owners_add, Multiset.mem_add] at ho
        rcases ho with ho | ho
        · obtain ⟨ndr, hmr, hhr⟩ := k3
          obtain ⟨y, q, ny, c1, c2, c3, c4⟩ := treeF_ref hinv2 hmr hhr k1 ho
          have c5 := b2 y ny c3 c2 c4
          rcases l2 _ (show Fact.child x y q ∈ (⟨some r'⟩ : RleTree Nat S).F (Ow H' X) + 0 by simp [RleTree.F, c1]) with c6 | c6
          · exfalso
            have c7 : shared H' x = false := c6.1
            unfold cnt at c5
            rw [k4 x b1] at c5
            cases hx' : H'.mem x with
            | none => rw [hx'] at c5; simp at c5
            | some n =>
              rw [hx'] at c5
              simp only [shared, hx', bne_eq_false_iff_eq] at c7
              simp only at c5
              omega
          · exact c6.2
        · exfalso
          have hpr : ptrT r'.tree = some (ptrOf r'.tree) := rfl
          rw [hpr] at ho
          simp only [free, owners_orphan, Multiset.mem_singleton] at ho
          have := (l2 (.orphan x) (by simp [RleTree.F, hpr, free, ho])).2
          exact b1 this

end Sherman.Cow
