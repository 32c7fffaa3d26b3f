import Verif.AnyIndexIter
import Verif.Track
/-!
# Arbitrary implementations of `Index`: references
-/
namespace Sherman
variable {I S : Type}
variable {μ : Nat}

theorem weave_refs {p : Nat} : ∀ {ks : List (Key I S)} {cs : List (List (Cell S))} (i : Nat), cs.length = ks.length + 1 →
    (↑((weave p i cs ks).filterMap Cell.refAt) : Multiset (Nat × Nat × Nat)) =
      keyH p i ks + (cs.map fun l => (↑(l.filterMap Cell.refAt) : Multiset (Nat × Nat × Nat))).sum := by
  intro ks
  induction ks with
  | nil =>
    intro cs i hl
    obtain ⟨c, rfl⟩ := List.length_eq_one_iff.1 hl
    simp only [weave, keyH, filterMap_under, List.map_cons, List.map_nil, List.sum_cons, List.sum_nil, zero_add, add_zero]
  | cons key ks ih =>
    intro cs i hl
    cases cs with
    | nil => simp at hl
    | cons c cs =>
      have h1 := ih (cs := cs) (i + 1) (by simpa using hl)
      simp only [weave, keyH, List.map_cons, List.sum_cons, List.filterMap_append, filterMap_under]
      cases hrf : key.ref with
      | none =>
        simp only [List.filterMap_cons, Cell.refAt, Option.map_none]
        rw [← Multiset.coe_add, h1]
        simp only [refH]; rw [zero_add]; ac_rfl
      | some r =>
        simp only [List.filterMap_cons, Cell.refAt, Option.map_some]
        rw [← Multiset.coe_add, ← Multiset.cons_coe, h1, ← Multiset.singleton_add]
        simp only [refH]; ac_rfl

theorem treeH_shape {M h : Nat} : ∀ {lo : Nat} {t : Tree I S h}, FillT μ M lo t → treeH t = ↑((cells t).filterMap Cell.refAt) := by
  induction h with
  | zero => intro lo t _; rfl
  | succ h ih =>
    intro lo t hs
    have ha : (Node.kids t).length = (Node.keys t).length + 1 := hs.arity
    have h1 := weave_refs (p := Node.ptr t) (ks := Node.keys t) (cs := (Node.kids t).map cells) 0 (by simpa using ha)
    show nodeH treeH t = _
    unfold cells nodeH
    rw [h1, List.map_map]
    congr 2
    exact List.map_congr_left fun c hc => ih ((fillT_succ.1 hs).2.2.2 c hc)

theorem RleTree.Shape.refs {M : Nat} {t : RleTree I S} (h : t.Shape μ M) : t.H = ↑(t.places.filterMap Cell.refAt) := by
  obtain ⟨root⟩ := t
  cases root with
  | none => rfl
  | some r => exact treeH_shape (h r rfl).2

theorem shape_relabel {M : Nat} {f : Nat → Nat → Option Nat → Option Nat} {h : Nat} : ∀ {lo : Nat} {t : Tree I S h}, FillT μ M lo t →
    FillT μ M lo (relabelT f t) := by
  induction h with
  | zero => intro lo t _; trivial
  | succ h ih =>
    intro lo t hs
    obtain ⟨h1, h2, h3, h4⟩ := fillT_succ.1 hs
    refine shape_mk (k := (Node.keys t).length) (l := (Node.kids t).map (relabelT f)) relabelK_length rfl h1 h2 ?_ ?_
    · rw [List.length_map]; exact h3
    · intro c hcm
      obtain ⟨c', hm, rfl⟩ := List.mem_map.1 hcm
      exact ih (h4 c' hm)

theorem RleTree.Shape.relabel {M : Nat} {t : RleTree I S} (h : t.Shape μ M) {f : Nat → Nat → Option Nat → Option Nat} : (t.relabel f).Shape μ M := by
  obtain ⟨root⟩ := t
  cases root with
  | none => exact h
  | some r =>
    rintro root ⟨⟩
    exact ⟨(h r rfl).1, shape_relabel (h r rfl).2⟩

/-- States of a tree with references, and the ids held by the `SliceRef`s handed out so far, for any implementation of `Index`.  (`Live` in
`Verif/RefProps.lean` is the same for the unsigned integers.)
src/tree/mod.rs:324-358, 695-764, src/tree/entry.rs:147-151, src/tree/slice_ref.rs:835-852 -/
inductive RefRun (rcMax : Nat) (E : Env I S) : RefTree I S → List Nat → Prop
  | empty {t : RleTree I S} {n : Nat} : RleTree.newEmpty E = .ok t → RefRun rcMax E ⟨t, Recycle.empty, n⟩ []
  | single {t : RleTree I S} {s : S} {size : I} {n : Nat} {w : World} :
      RleTree.new E s size ⟨n, [], [], none, []⟩ = .ok (t, w) → RefRun rcMax E ⟨t, Recycle.empty, w.next⟩ []
  | insert {st st' : RefTree I S} {ids : List Nat} {nop : Bool} {hints : List Nat} {idx : I} {s : S} {size : I} {out} :
      RefRun rcMax E st ids → st.insert E nop hints idx s size = .ok (st', out) → RefRun rcMax E st' ids
  | makeRef {st st' : RefTree I S} {ids : List Nat} {h : Nat × Nat} {id : Nat} : RefRun rcMax E st ids →
      st.makeRef rcMax h = .ok (id, st') → RefRun rcMax E st' (id :: ids)
  | cloneRef {st st' : RefTree I S} {ids : List Nat} {id id' : Nat} : RefRun rcMax E st ids → id ∈ ids →
      st.cloneRef rcMax id = .ok (id', st') → RefRun rcMax E st' (id' :: ids)

/-- What holds of every such state. -/
structure RefOk (E : Env I S) (st : RefTree I S) (ids : List Nat) : Prop where
  shape : st.tree.Shape E.M E.M
  own : Own (absS st.refs) ⟨st.next, [], [], none, []⟩ st.tree.P st.tree.H 0
  store : RInv st.refs
  ids : ∀ r ∈ ids, ∃ h, absS st.refs r = some h

/-- The store knows where a reference is. -/
theorem RefOk.at {E : Env I S} {st : RefTree I S} {ids : List Nat} (h : RefOk E st ids) {r : Nat} (hr : ∃ x, absS st.refs r = some x) :
    ∃ c ∈ st.tree.places, c.ref = some r ∧ absS st.refs r = some (some c.at) := by
  obtain ⟨x, hx⟩ := hr
  have h1 := h.own.keep _ rfl r x hx
  rw [add_zero, Multiset.mem_map] at h1
  obtain ⟨y, hy, rfl⟩ := h1
  obtain ⟨σ, g1, g2, _⟩ := h.own.run
  cases g1
  have h2 := g2 y hy
  rw [h.shape.refs, Multiset.mem_coe, List.mem_filterMap] at hy
  obtain ⟨c, hc, he⟩ := hy
  unfold Cell.refAt at he
  cases hcr : c.ref with
  | none => rw [hcr] at he; cases he
  | some r =>
    rw [hcr] at he
    cases he
    exact ⟨c, hc, hcr, h2⟩

theorem runLog_keeps {log : List StoreCmd} : ∀ {σ σ' : Store}, runLog σ log = .ok σ' → ∀ r, (∃ h, σ r = some h) → ∃ h, σ' r = some h := by
  induction log with
  | nil => intro σ σ' h r hr; cases h; exact hr
  | cons cmd log ih =>
    intro σ σ' h r hr
    simp only [runLog, List.foldlM_cons, bind_ok_iff] at h
    obtain ⟨σ1, h1, h2⟩ := h
    refine ih h2 r ?_
    obtain ⟨x, hx⟩ := hr
    cases cmd with
    | update q p i =>
      simp only [runCmd] at h1
      split at h1
      · cases h1
      · cases h1
        by_cases e : r = q
        · exact ⟨some (p, i), by simp [e]⟩
        · exact ⟨x, by simp [e, hx]⟩
    | suspend q =>
      simp only [runCmd] at h1
      split at h1
      · cases h1
      · cases h1
      · cases h1
        by_cases e : r = q
        · exact ⟨none, by simp [e]⟩
        · exact ⟨x, by simp [e, hx]⟩

theorem RefOk.insert {E : Env I S} (hc : Civil E.ix) {st : RefTree I S} {ids : List Nat} (hi : RefOk E st ids) (nop : Bool) (hints : List Nat)
    (idx : I) (s : S) (size : I) : Safe E.ix.debug (st.insert E nop hints idx s size) fun r => RefOk E r.1 ids := by
  have hs := rleInsert_safe hc (fun h => ⟨h, le_rfl⟩) (nop := nop) (hints := hints) (idx := idx) (s := s) (z := size) (w := ⟨st.next, [], [], none, []⟩) hi.shape
  cases ht : st.tree.insert E nop hints idx s size ⟨st.next, [], [], none, []⟩ with
  | error f =>
    rw [ht] at hs
    simp only [RefTree.insert, ht]
    exact hs
  | ok r =>
    obtain ⟨t, out⟩ := r
    rw [ht] at hs
    let rv0 := if st.tree.root.isNone then Recycle.empty else st.refs
    have h0 : Own (absS rv0) ⟨st.next, [], [], none, []⟩ st.tree.P st.tree.H 0 ∧ RInv rv0 ∧ ∀ r ∈ ids, ∃ h, absS rv0 r = some h := by
      by_cases hroot : st.tree.root.isNone = true
      · have e : rv0 = Recycle.empty := if_pos hroot
        have e0 := Option.isNone_iff_eq_none.1 hroot
        have e1 : st.tree.P = 0 := by
          unfold RleTree.P
          rw [e0]
        have e2 : st.tree.H = 0 := by
          unfold RleTree.H
          rw [e0]
        rw [e, e1, e2]
        refine ⟨Own.none, rinv_empty, fun r hr => ?_⟩
        obtain ⟨c, hcm, _⟩ := hi.at (hi.ids r hr)
        unfold RleTree.places at hcm
        rw [e0] at hcm
        cases hcm
      · have e : rv0 = st.refs := if_neg hroot
        rw [e]
        exact ⟨hi.own, hi.store, hi.ids⟩
    have h1 := Own.insert (P := 0) (H := 0) (U := 0) ht (h0.1.congr (by simp) (by simp) rfl)
    have h1 := h1.congr (add_zero _) (add_zero _) rfl
    obtain ⟨σ, g1, _⟩ := h1.run
    obtain ⟨rv, k1, k2, k3⟩ := storeLog_runLog g1 h0.2.1
    have he : st.insert E nop hints idx s size = .ok (⟨t, rv, out.world.next⟩, out.path, out.handle) := by
      simp only [RefTree.insert, bind_ok_iff]
      exact ⟨_, ht, rv, k1, rfl⟩
    rw [he]
    refine ⟨hs, ?_, k3, fun r hr => ?_⟩
    · simp only [k2]
      exact h1.start g1
    · simp only [k2]
      exact runLog_keeps g1 r (h0.2.2 r hr)

/-- A reference is made for an entry of the tree. -/
theorem RefOk.makeRef {E : Env I S} {rcMax : Nat} {d : Bool} {st : RefTree I S} {ids : List Nat} (hi : RefOk E st ids) {c : Cell S}
    (hcm : c ∈ st.tree.places) : Safe d (st.makeRef rcMax c.at) fun r => RefOk E r.2 (r.1 :: ids) := by
  have hnd := places_nodup hi.own.addrs
  have hd := deref_place hnd hcm
  obtain ⟨A, B, hAB⟩ := List.append_of_mem hcm
  obtain ⟨σ, g1, g2, _⟩ := hi.own.run
  cases g1
  unfold RefTree.makeRef
  rw [hd, R.bind_ok]
  have hclone : ∀ {rv : Recycle.RecycleVec Stored} {r : Nat} {x}, absS rv r = some x → Safe d (Recycle.clone rcMax rv r) fun _ => True := by
    intro rv r x hx
    obtain ⟨k, hk⟩ := absS_some hx
    unfold Recycle.clone
    rw [hk]
    dsimp only
    split
    · exact trivial
    · exact .inr (by simp [debugMsgs])
  cases hr : c.ref with
  | some r =>
    dsimp only
    have hin : absS st.refs r = some (some c.at) := by
      refine g2 (r, c.at) ?_
      rw [hi.shape.refs, Multiset.mem_coe, List.mem_filterMap]
      exact ⟨c, hcm, by simp [Cell.refAt, hr, Cell.at]⟩
    have hs := hclone (rv := st.refs) hin
    cases h1 : Recycle.clone rcMax st.refs r with
    | error f => rw [h1] at hs; exact hs
    | ok x =>
      obtain ⟨id, rv⟩ := x
      obtain ⟨rfl, h2, h3⟩ := clone_abs hi.store h1
      refine ⟨hi.shape, by simp only [h2]; exact hi.own, h3, fun q hq => ?_⟩
      simp only [h2]
      rcases List.mem_cons.1 hq with rfl | hq
      · exact ⟨_, hin⟩
      · exact hi.ids q hq
  | none =>
    dsimp only
    obtain ⟨s, hsinv⟩ := hi.store
    obtain ⟨id, rv1, h1, -⟩ := Recycle.push_step hsinv (.handle (some c.at))
    rw [h1, R.bind_ok]
    obtain ⟨p1, p2, p3⟩ := push_abs hi.store h1
    have hs := hclone (rv := rv1) (r := id) (x := some c.at) (by rw [p2]; simp)
    dsimp only
    cases h2 : Recycle.clone rcMax rv1 id with
    | error f => rw [h2] at hs; exact hs
    | ok x =>
      obtain ⟨id2, rv2⟩ := x
      obtain ⟨rfl, q2, q3⟩ := clone_abs p3 h2
      have hfresh : ∀ x ∈ st.tree.H, x.1 ≠ id2 := by
        intro x hx e
        have := g2 x hx
        rw [e, p1] at this
        cases this
      have hpl := places_setRef hnd hAB id2
      have hshape : (st.tree.setRef c.at id2).Shape E.M E.M := hi.shape.relabel
      have hH : (st.tree.setRef c.at id2).H = (id2, c.at) ::ₘ st.tree.H := by
        rw [hshape.refs, hpl, hi.shape.refs, hAB, List.filterMap_append, List.filterMap_append, List.filterMap_cons, List.filterMap_cons]
        have e2 : Cell.refAt c = none := by simp [Cell.refAt, hr]
        have e3 : Cell.refAt { c with ref := some id2 } = some (id2, c.at) := rfl
        rw [e2, e3, Multiset.cons_coe, Multiset.coe_eq_coe]
        exact List.perm_middle
      refine ⟨hshape, ?_, q3, ?_⟩
      · obtain ⟨⟨σ, r1, r2, r3⟩, o2, o3, o4, o5⟩ := hi.own
        cases r1
        refine ⟨⟨_, rfl, ?_, by simp⟩, ?_, ?_, ?_, ?_⟩
        · intro x hx
          simp only at hx ⊢
          rw [q2, p2]
          rw [hH, Multiset.mem_cons] at hx
          rcases hx with rfl | hx
          · simp
          · exact (if_neg (hfresh x hx)).trans (r2 x hx)
        · rw [hH, add_zero, Multiset.map_cons, Multiset.nodup_cons]
          rw [add_zero] at o2
          refine ⟨?_, o2⟩
          intro hm
          obtain ⟨x, hx, e⟩ := Multiset.mem_map.1 hm
          exact hfresh x hx e
        · have e : (st.tree.setRef c.at id2).P = st.tree.P := P_relabel
          rw [e]; exact o3
        · have e : (st.tree.setRef c.at id2).P = st.tree.P := P_relabel
          rw [e]; exact o4
        · intro σ hσ x y hx
          cases hσ
          simp only at hx
          rw [q2, p2] at hx
          rw [hH, add_zero, Multiset.map_cons, Multiset.mem_cons]
          by_cases hxi : x = id2
          · exact .inl hxi
          · right
            have := o5 _ rfl x y (by simpa [hxi] using hx)
            simpa using this
      · intro q hq
        simp only
        rw [q2, p2]
        by_cases e : q = id2
        · exact ⟨_, if_pos e⟩
        · rcases List.mem_cons.1 hq with h | hq
          · exact absurd h e
          · obtain ⟨x, hx⟩ := hi.ids q hq
            exact ⟨x, (if_neg e).trans hx⟩

theorem RefOk.cloneRef {E : Env I S} {rcMax : Nat} {d : Bool} {st : RefTree I S} {ids : List Nat} (hi : RefOk E st ids) {id : Nat} (hid : id ∈ ids) :
    Safe d (st.cloneRef rcMax id) fun r => RefOk E r.2 (r.1 :: ids) := by
  obtain ⟨x, hx⟩ := hi.ids id hid
  obtain ⟨k, hk⟩ := absS_some hx
  unfold RefTree.cloneRef
  cases h1 : Recycle.clone rcMax st.refs id with
  | error f =>
    unfold Recycle.clone at h1
    rw [hk] at h1
    dsimp only at h1
    split at h1
    · cases h1
    · cases h1; exact .inr (by simp [debugMsgs])
  | ok x =>
    obtain ⟨id', rv⟩ := x
    obtain ⟨rfl, h2, h3⟩ := clone_abs hi.store h1
    refine ⟨hi.shape, by simp only [h2]; exact hi.own, h3, fun q hq => ?_⟩
    simp only [h2]
    rcases List.mem_cons.1 hq with rfl | hq
    · exact hi.ids _ hid
    · exact hi.ids q hq

/-- Every state of a program satisfies the invariant. -/
theorem RefRun.ok {E : Env I S} (hc : Civil E.ix) {rcMax : Nat} {st : RefTree I S} {ids : List Nat} (h : RefRun rcMax E st ids) : RefOk E st ids := by
  induction h with
  | @empty t n h =>
    simp only [RleTree.newEmpty, bind_ok_iff] at h
    obtain ⟨_, _, _, _, h⟩ := h
    cases h
    exact ⟨(by rintro root ⟨⟩), Own.none, rinv_empty, by simp⟩
  | @single t s size n w h =>
    have h0 := rleNew_safe (μ := E.M) (E := E) (s := s) (z := size) (w := ⟨n, [], [], none, []⟩) fun h => ⟨h, le_rfl⟩
    rw [h] at h0
    refine ⟨h0, ?_, rinv_empty, by simp⟩
    have h1 := Own.new (σ0 := absS Recycle.empty) (P := 0) (H := 0) (U := 0) h Own.none
    have hw : w.log = [] := by
      simp only [RleTree.new, bind_ok_iff] at h
      obtain ⟨_, _, _, _, _, _, h⟩ := h
      cases h; rfl
    exact (h1.congr (add_zero _) (add_zero _) rfl).start (by rw [hw]; rfl)
  | @insert st st' ids nop hints idx s size out _ h ih =>
    have := ih.insert hc nop hints idx s size
    rw [h] at this
    exact this
  | @makeRef st st' ids hd id _ h ih =>
    have hcm : ∃ c ∈ st.tree.places, c.at = hd := by
      simp only [RefTree.makeRef, bind_ok_iff] at h
      obtain ⟨c, h1, _⟩ := h
      exact ⟨c, deref_mem h1⟩
    obtain ⟨c, hcm, rfl⟩ := hcm
    have := ih.makeRef (rcMax := rcMax) (d := true) hcm
    rw [h] at this
    exact this
  | @cloneRef st st' ids id id' _ hid h ih =>
    have := ih.cloneRef (rcMax := rcMax) (d := true) hid
    rw [h] at this
    exact this

/-! ## Using references -/

theorem weave_own {p i : Nat} {cs : List (List (Cell S))} {ks : List (Key I S)} {c : Cell S} (h : c ∈ weave p i cs ks) :
    (c.ptr = p ∧ c.idx < i + ks.length) ∨ ∃ l ∈ cs, ∃ c' ∈ l, c'.at = c.at := by
  induction cs generalizing i ks with
  | nil => simp [weave] at h
  | cons l cs ih =>
    cases ks with
    | nil =>
      simp only [weave, List.mem_map] at h
      obtain ⟨c', h1, rfl⟩ := h
      exact .inr ⟨l, by simp, c', h1, rfl⟩
    | cons k ks =>
      simp only [weave, List.mem_append, List.mem_map, List.mem_cons] at h
      rcases h with ⟨c', h1, rfl⟩ | rfl | h
      · exact .inr ⟨l, by simp, c', h1, rfl⟩
      · exact .inl ⟨rfl, by simp⟩
      · rcases ih h with ⟨h1, h2⟩ | ⟨l', h1, h2⟩
        · exact .inl ⟨h1, by simp only [List.length_cons]; omega⟩
        · exact .inr ⟨l', by simp [h1], h2⟩

/-- A place of a node is one of its own keys, or is in one of its children. -/
theorem Place.cases {h : Nat} {n : Tree I S (h + 1)} {a : Nat × Nat} (hp : Place n a) :
    (a.1 = Node.ptr n ∧ a.2 < (Node.keys n).length) ∨ ∃ c ∈ Node.kids n, Place c a := by
  obtain ⟨c, hc, rfl⟩ := hp
  unfold cells at hc
  rcases weave_own hc with h | ⟨l, hl, c', h1, h2⟩
  · exact .inl ⟨h.1, by have := h.2; simp only [Cell.at]; omega⟩
  · obtain ⟨k, hk, rfl⟩ := List.mem_map.1 hl
    exact .inr ⟨k, hk, c', h1, h2⟩

theorem Place.ptr {h : Nat} {t : Tree I S h} {a : Nat × Nat} (hp : Place t a) : a.1 ∈ treeP t := by
  obtain ⟨c, hc, rfl⟩ := hp
  exact cells_ptr hc

/-- `SliceHandle::range` of a place of the tree. -/
theorem rangeIn_safe {ix : IdxOps I} (hc : Civil ix) {M : Nat} {a : Nat × Nat} : ∀ {h lo : Nat} {t : Tree I S h}, FillT μ M lo t → (treeP t).Nodup →
    Place t a → Safe ix.debug (rangeIn ix a.1 a.2 t) fun o => o ≠ none := by
  intro h
  induction h with
  | zero => rintro lo t _ _ ⟨c, hcm, _⟩; cases hcm
  | succ h ih =>
    intro lo n hs hn hp
    have ha : (Node.kids n).length = (Node.keys n).length + 1 := hs.arity
    simp only [treeP, nodeP] at hn
    obtain ⟨_, n2, n3⟩ := Multiset.nodup_add.1 hn
    have hne : ∀ c ∈ Node.kids n, Place c a → ¬ Node.ptr n = a.1 := by
      intro c hcm hpl e
      exact Multiset.disjoint_left.1 n3 (Multiset.mem_singleton.2 rfl) (mem_sum_map.2 ⟨c, hcm, e ▸ hpl.ptr⟩)
    unfold rangeIn
    rcases hp.cases with ⟨h1, h2⟩ | ⟨c, hcm, hpl⟩
    · rw [if_pos h1.symm]
      exact (keyPos_safe h2).op fun _ => (sliceSize_safe hc h2 ha).op fun _ => by simp [Safe, pure, Except.pure]
    · rw [if_neg (hne c hcm hpl)]
      have hk : ∀ (l : List (Tree I S h)) (j : Nat), (∀ c ∈ l, FillT μ M μ c) → ((l.map treeP).sum).Nodup → (∃ c ∈ l, Place c a) →
          Safe ix.debug (firstKid (rangeIn ix a.1 a.2) j l) fun o => ∃ x, o = some x ∧ x.1 < j + l.length := by
        intro l
        induction l with
        | nil => rintro j _ _ ⟨c, hcm, _⟩; cases hcm
        | cons c l ihl =>
          rintro j hsh hnd ⟨c', hcm, hpl⟩
          simp only [List.map_cons, List.sum_cons] at hnd
          obtain ⟨m1, m2, m3⟩ := Multiset.nodup_add.1 hnd
          unfold firstKid
          rcases List.mem_cons.1 hcm with rfl | hcm
          · refine (ih (hsh _ (by simp)) m1 hpl).bind fun o ho => ?_
            cases o with
            | none => exact absurd rfl ho
            | some x => exact ⟨_, rfl, by simp⟩
          · have habs : a.1 ∉ treeP c := fun hm => Multiset.disjoint_left.1 m3 hm (mem_sum_map.2 ⟨c', hcm, hpl.ptr⟩)
            rw [(walk_absent ix a.1 a.2 habs).1, R.bind_ok]
            refine (ihl (j + 1) (fun x hx => hsh x (by simp [hx])) m2 ⟨c', hcm, hpl⟩).mono ?_
            rintro o ⟨x, rfl, hx⟩
            exact ⟨x, rfl, by simp only [List.length_cons]; omega⟩
      refine (hk (Node.kids n) 0 (fillT_succ.1 hs).2.2.2 n2 ⟨c, hcm, hpl⟩).bind ?_
      rintro o ⟨⟨j, pos, size⟩, rfl, hj⟩
      dsimp only at hj ⊢
      refine Safe.op (x := Node.childPos _ _ _ _) ?_ fun _ => ?_
      · unfold Node.childPos
        refine (Safe.weak (decide_eq_true (by simp only [Node.len]; omega))).op fun _ => ?_
        exact (childSize_safe (by omega)).op fun _ => hc.sSubR _ _
      exact (hc.sAddL _ _).op fun _ => by simp [Safe, pure, Except.pure]

theorem nodeAt_some {p : Nat} {h : Nat} {t : Tree I S h} (hp : p ∈ treeP t) : nodeAt p t ≠ none := by
  induction h with
  | zero => simp [treeP] at hp
  | succ h ih =>
    unfold nodeAt
    by_cases he : Node.ptr t = p
    · rw [if_pos he]; exact fun e => by cases e
    · rw [if_neg he]
      simp only [treeP, nodeP, Multiset.mem_add, Multiset.mem_singleton] at hp
      obtain ⟨c, hcm, hpc⟩ := mem_sum_map.1 (hp.resolve_left fun e => he e.symm)
      intro e
      exact ih hpc (List.findSome?_eq_none_iff.1 e c hcm)

/-- The handle of a reference that was handed out. -/
theorem RefOk.resolve {E : Env I S} {st : RefTree I S} {ids : List Nat} (h : RefOk E st ids) {id : Nat} (hid : id ∈ ids) :
    ∃ c ∈ st.tree.places, c.ref = some id ∧ st.resolve id = .ok (some c.at) := by
  obtain ⟨c, h1, h2, h3⟩ := h.at (h.ids id hid)
  obtain ⟨cnt, hv⟩ := absS_some h3
  have hget : Recycle.get st.refs id = .ok (.handle (some c.at)) := by simp only [Recycle.get, hv]
  exact ⟨c, h1, h2, by simp only [RefTree.resolve, hget, R.bind_ok]; rfl⟩

theorem RefOk.range {E : Env I S} (hc : Civil E.ix) {st : RefTree I S} {ids : List Nat} (h : RefOk E st ids) {id : Nat} (hid : id ∈ ids) :
    Safe E.ix.debug (st.range E id) fun _ => True := by
  obtain ⟨c, h1, _, h3⟩ := h.resolve hid
  unfold RefTree.range
  rw [h3, R.bind_ok]
  dsimp only [Cell.at]
  have hn := h.own.addrs
  unfold RleTree.places at h1
  cases hr : st.tree.root with
  | none => rw [hr] at h1; cases h1
  | some r =>
    rw [hr] at h1
    dsimp only at h1 ⊢
    have hn : (treeP r.tree).Nodup := by
      have e : st.tree.P = treeP r.tree := by unfold RleTree.P; rw [hr]
      rw [← e]; exact hn
    refine (rangeIn_safe hc (h.shape r hr).2 hn ⟨c, h1, rfl⟩).bind fun o ho => ?_
    cases o with
    | none => exact absurd rfl ho
    | some x => exact (hc.sAddR _ _).op fun _ => trivial

/-- The path to a reference is found. -/
theorem RefOk.cursor {E : Env I S} {st : RefTree I S} {ids : List Nat} (h : RefOk E st ids) {id : Nat} (hid : id ∈ ids) :
    ∃ path, st.cursor id = .ok path := by
  obtain ⟨c, h1, _, h3⟩ := h.resolve hid
  unfold RefTree.cursor
  rw [h3, R.bind_ok]
  dsimp only [Cell.at]
  unfold RleTree.places at h1
  cases hr : st.tree.root with
  | none => rw [hr] at h1; cases h1
  | some r =>
    rw [hr] at h1
    dsimp only at h1 ⊢
    obtain ⟨o, g1, g2, g3⟩ := pathIn_total (p := c.ptr) (t := r.tree)
    rw [g1, R.bind_ok]
    cases o with
    | none => exact absurd (g2 rfl) (nodeAt_some (cells_ptr h1))
    | some path => exact ⟨path, rfl⟩

/-- The slice of a reference can be read, and it is the one of the entry that carries the reference. -/
theorem RefOk.slice {E : Env I S} {st : RefTree I S} {ids : List Nat} (h : RefOk E st ids) {id : Nat} (hid : id ∈ ids) :
    ∃ c ∈ st.tree.places, c.ref = some id ∧ st.slice id = .ok c.slice := by
  obtain ⟨c, h1, h2, h3⟩ := h.resolve hid
  refine ⟨c, h1, h2, ?_⟩
  unfold RefTree.slice
  rw [h3, R.bind_ok]
  dsimp only
  rw [deref_place (places_nodup h.own.addrs) h1]
  rfl

/-! ## `insert_ref` -/

theorem TagAt.place {q : S → Prop} {M : Nat} {x : Nat × Nat} : ∀ {h lo : Nat} {t : Tree I S h} {path : List Nat}, FillT μ M lo t → TagAt q t path x → Place t x := by
  intro h
  induction h with
  | zero => intro lo t path _ hx; cases hx
  | succ h ih =>
    intro lo t path hs hx
    cases path with
    | nil =>
      obtain ⟨h1, s, h2, _⟩ := hx
      have hk : x.2 < (Node.keys t).length := by
        have := (List.getElem?_eq_some_iff.1 h2).1
        simpa [Node.sls] using this
      have := place_key hs hk
      have e : (Node.ptr t, x.2) = x := by rw [h1]
      rw [e] at this; exact this
    | cons c path =>
      obtain ⟨ch, h1, h2⟩ := hx
      have hm := List.mem_of_getElem? h1
      exact place_kid hs hm (ih ((fillT_succ.1 hs).2.2.2 ch hm) h2)

/-- `insert_ref`, if the two parts of a slice that is split rejoin when the new slice joins the first one (C20 says what happens otherwise). -/
theorem RefOk.insertRef {E : Env I S} (hc : Civil E.ix) (hrefs : E.refs = true) {rcMax : Nat} {st : RefTree I S} {ids : List Nat} (hi : RefOk E st ids)
    (nop : Bool) (hints : List Nat) (idx : I) {s : S} (size : I) (hs : ∀ key p, Rejoins E.sl key p s) :
    Safe E.ix.debug (st.insertRef rcMax E nop hints idx s size) fun r => RefOk E r.1 (r.2.2 :: ids) := by
  have h0 := hi.insert hc nop hints idx s size
  unfold RefTree.insertRef
  cases h1 : st.insert E nop hints idx s size with
  | error f => rw [h1] at h0; exact h0
  | ok r =>
    obtain ⟨st', path, hd⟩ := r
    rw [h1] at h0
    have h0 : RefOk E st' ids := h0
    simp only [RefTree.insert, bind_ok_iff] at h1
    obtain ⟨⟨t, out⟩, h2, rv, _, h4⟩ := h1
    cases h4
    have hm := insert_tag (q := fun _ => True) (E := E) ⟨fun _ _ => trivial, fun _ _ => trivial, fun _ _ => trivial⟩ h2 trivial (by
      intro root pt hroot hpt
      refine ⟨?_, ?_⟩
      · cases pt with
        | edge => trivial
        | split h n ctx k p => exact .inr fun s' _ => hs s' p
      · rintro h n ctx k p rfl e
        have e1 := (findPoint_own hpt).2
        have hP : st.tree.P = treeP root.tree := by unfold RleTree.P; rw [hroot]
        have hmem : Node.ptr n ∈ st.tree.P := by
          rw [hP, ← add_zero (treeP root.tree)]
          have e2 : (Ctx.top : Ctx I S (root.h + 1) (root.h + 1)).P = 0 := rfl
          rw [e2] at e1
          rw [← e1]
          simp [Point.P, treeP, nodeP]
        have := hi.own.used _ hmem
        rw [e] at this
        exact absurd this (Nat.lt_irrefl _))
    obtain ⟨root, r1, gp, x, r2, _, r4⟩ := hm
    simp only [R.bind_ok]
    rw [r4 hrefs]
    have hr1 : t.root = some root := r1
    have hpl : Place root.tree x := r2.place (h0.shape root hr1).2
    obtain ⟨c, hcm, rfl⟩ := hpl
    have hcm : c ∈ t.places := by unfold RleTree.places; rw [hr1]; exact hcm
    exact (h0.makeRef (rcMax := rcMax) hcm).bind fun r hr => hr

end Sherman
