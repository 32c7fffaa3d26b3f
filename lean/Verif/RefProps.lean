import Verif.RefWalk
/-!
# C19: a slice reference keeps naming its run

Histories of a tree with slice references, and what resolving a reference gives after any such history.
-/
namespace Sherman
variable {S : Type} {MAX rcMax : Nat} {E : Env Nat S}

/-- States of a tree with references, and the ids held by the `SliceRef`s handed out so far.  A program creates a tree, then
inserts, makes references to runs and clones references, in any order.  Addresses start anywhere. -/
inductive Live (MAX rcMax : Nat) (E : Env Nat S) : RefTree Nat S → List Nat → Prop
  | empty {t : RleTree Nat S} {n : Nat} : RleTree.newEmpty E = .ok t → Live MAX rcMax E ⟨t, Recycle.empty, n⟩ []
  | single {t : RleTree Nat S} {s : S} {size n : Nat} {w : World} : size ≤ MAX →
      RleTree.new E s size ⟨n, [], [], none, []⟩ = .ok (t, w) → Live MAX rcMax E ⟨t, Recycle.empty, w.next⟩ []
  | insert {st st' : RefTree Nat S} {ids : List Nat} {nop : Bool} {hints : List Nat} {idx : Nat} {s : S} {size : Nat} {out} :
      Live MAX rcMax E st ids → size ≤ MAX → st.insert E nop hints idx s size = .ok (st', out) → Live MAX rcMax E st' ids
  | makeRef {st st' : RefTree Nat S} {ids : List Nat} {h : Nat × Nat} {id : Nat} : Live MAX rcMax E st ids →
      st.makeRef rcMax h = .ok (id, st') → Live MAX rcMax E st' (id :: ids)
  | cloneRef {st st' : RefTree Nat S} {ids : List Nat} {id id' : Nat} : Live MAX rcMax E st ids → id ∈ ids →
      st.cloneRef rcMax id = .ok (id', st') → Live MAX rcMax E st' (id' :: ids)

/-- What holds of every such state. -/
structure LiveInv (MAX : Nat) (E : Env Nat S) (st : RefTree Nat S) (ids : List Nat) : Prop where
  reach : Reach MAX E st.tree
  own : Own (absS st.refs) ⟨st.next, [], [], none, []⟩ st.tree.P st.tree.H 0
  store : RInv st.refs
  ids : ∀ r ∈ ids, r ∈ refsOf st.tree.runs

theorem Holds.refs {t : RleTree Nat S} {es : List (Ent S)} (h : Holds E t es) : refsOf es = t.places.filterMap (·.ref) := by
  have h1 := congrArg (List.filterMap Prod.snd) h.places
  rw [List.filterMap_map, List.filterMap_map] at h1
  exact h1.symm

theorem refAt_fst {l : List (Cell S)} : (l.filterMap Cell.refAt).map Prod.fst = l.filterMap (·.ref) := by
  induction l with
  | nil => rfl
  | cons c l ih =>
    cases hc : c.ref with
    | none =>
      have : Cell.refAt c = none := by simp [Cell.refAt, hc]
      simp only [List.filterMap_cons, this, hc, ih]
    | some r =>
      have : Cell.refAt c = some (r, c.at) := by simp [Cell.refAt, hc, Cell.at]
      simp only [List.filterMap_cons, this, hc, List.map_cons, ih]

theorem Holds.nodup {t : RleTree Nat S} {es : List (Ent S)} (h : Holds E t es) {σ : Store} {w : World}
    (ho : Own σ w t.P t.H 0) : (refsOf es).Nodup := by
  have h1 := ho.ids
  rw [h.H, add_zero, Multiset.map_coe, refAt_fst, ← h.refs, Multiset.coe_nodup] at h1
  exact h1

theorem Own.start {σ σ' : Store} {w : World} {P : Multiset Nat} {H : Multiset (Nat × Nat × Nat)}
    (h : Own σ w P H 0) (hr : runLog σ w.log = .ok σ') : Own σ' ⟨w.next, [], [], none, []⟩ P H 0 := by
  obtain ⟨⟨σ2, a, b, c⟩, d, e, f, g⟩ := h
  rw [hr] at a
  cases a
  exact ⟨⟨σ', rfl, b, c⟩, d, e, f, fun σ hσ => by cases hσ; exact g σ' hr⟩

theorem absS_empty (r : Nat) : absS Recycle.empty r = none := rfl

/-- Nothing yet. -/
theorem Own.none {n : Nat} : Own (absS Recycle.empty) ⟨n, [], [], none, []⟩ 0 0 0 :=
  ⟨⟨_, rfl, by simp, by simp⟩, by simp, by simp, by simp, fun σ hσ r h hr => by cases hσ; cases hr⟩

theorem rinv_empty : RInv Recycle.empty := ⟨_, Recycle.inv_empty⟩

theorem deref_mem {I : Type} {t : RleTree I S} {h : Nat × Nat} {c : Cell S} (hd : t.deref h = .ok c) : c ∈ t.places ∧ c.at = h := by
  unfold RleTree.deref at hd
  split at hd
  · rename_i c' hc
    cases hd
    exact ⟨List.mem_of_find?_eq_some hc, by simpa using List.find?_some hc⟩
  · cases hd

theorem deref_place {I : Type} {t : RleTree I S} {c : Cell S} (hn : (t.places.map Cell.at).Nodup) (hc : c ∈ t.places) :
    t.deref c.at = .ok c := by
  obtain ⟨A, B, h⟩ := List.append_of_mem hc
  unfold RleTree.deref
  rw [h] at hn ⊢
  have : (A ++ c :: B).find? (fun x => x.at == c.at) = some c := by
    rw [List.find?_append]
    have h1 : A.find? (fun x => x.at == c.at) = none := by
      rw [List.find?_eq_none]
      intro x hx he
      rw [List.map_append, List.nodup_append] at hn
      exact hn.2.2 x.at (List.mem_map_of_mem hx) c.at (by simp) (by simpa using he)
    rw [h1]
    simp
  rw [this]

/-- Setting a reference only touches the place. -/
theorem places_setRef {I : Type} {t : RleTree I S} {c : Cell S} {A B : List (Cell S)} (hn : (t.places.map Cell.at).Nodup)
    (h : t.places = A ++ c :: B) (id : Nat) : (t.setRef c.at id).places = A ++ { c with ref := some id } :: B := by
  unfold RleTree.setRef
  rw [places_relabel, h, List.map_append, List.map_cons]
  rw [h, List.map_append, List.map_cons, List.nodup_append, List.nodup_cons] at hn
  obtain ⟨_, ⟨hB, _⟩, hA⟩ := hn
  have key : ∀ l : List (Cell S), (∀ x ∈ l, x.at ≠ c.at) →
      l.map (Cell.relabel fun p i r => if (p, i) = c.at then some id else r) = l := by
    intro l hl
    induction l with
    | nil => rfl
    | cons x l ih =>
      rw [List.map_cons, ih (fun y hy => hl y (by simp [hy]))]
      have : ¬ (x.ptr, x.idx) = c.at := hl x (by simp)
      simp only [Cell.relabel, if_neg this]
  rw [key A (fun x hx he => hA x.at (List.mem_map_of_mem hx) c.at (by simp) he),
    key B (fun x hx he => hB (by rw [← he]; exact List.mem_map_of_mem hx))]
  have : (c.ptr, c.idx) = c.at := rfl
  simp only [Cell.relabel, this, if_true]

theorem makeRef_inv (hE : E.ix = natIdx MAX) {st st' : RefTree Nat S} {ids : List Nat} {h : Nat × Nat} {id : Nat}
    (hi : LiveInv MAX E st ids) (hm : st.makeRef rcMax h = .ok (id, st')) : LiveInv MAX E st' (id :: ids) ∧
      ∃ A c B, st.tree.places = A ++ c :: B ∧ c.at = h ∧ st'.tree.places = A ++ { c with ref := some id } :: B ∧
        (c.ref = none ∨ c.ref = some id) ∧ (c.ref = none → id ∉ refsOf st.tree.runs) ∧
        st'.tree.runs.map (fun e => (e.size, e.slice)) = st.tree.runs.map (fun e => (e.size, e.slice)) := by
  have hh := (hi.reach.holds hE).2.1
  have hnd := places_nodup hi.own.addrs
  simp only [RefTree.makeRef, bind_ok_iff] at hm
  obtain ⟨c, hc, hm⟩ := hm
  obtain ⟨hmem, hat⟩ := deref_mem hc
  obtain ⟨A, B, hAB⟩ := List.append_of_mem hmem
  cases hr : c.ref with
  | some r =>
    rw [hr] at hm
    simp only [bind_ok_iff] at hm
    obtain ⟨⟨id1, rv⟩, h1, hm⟩ := hm
    cases hm
    obtain ⟨rfl, h2, h3⟩ := clone_abs hi.store h1
    refine ⟨⟨hi.reach, by simp only [h2]; exact hi.own, h3, ?_⟩, A, c, B, hAB, hat, ?_, .inr hr, by simp [hr], rfl⟩
    · intro r hr'
      rcases List.mem_cons.1 hr' with rfl | hr'
      · rw [hh.refs, List.mem_filterMap]
        exact ⟨c, hmem, hr⟩
      · exact hi.ids r hr'
    · simp only [hAB]
      obtain ⟨a1, a2, a3, a4, a5⟩ := c
      simp only at hr
      subst hr; rfl
  | none =>
    rw [hr] at hm
    simp only [bind_ok_iff] at hm
    obtain ⟨⟨id1, rv1⟩, h1, ⟨id2, rv2⟩, h2, hm⟩ := hm
    obtain ⟨p1, p2, p3⟩ := push_abs hi.store h1
    obtain ⟨q1, q2, q3⟩ := clone_abs p3 h2
    simp only at q1
    subst q1
    obtain rfl : id = id2 := by cases hm; rfl
    obtain rfl : st' = { st with refs := rv2, tree := st.tree.setRef h id } := by cases hm; rfl
    clear hm
    have hfresh : id ∉ refsOf st.tree.runs := by
      intro hm
      rw [hh.refs, ← refAt_fst, List.mem_map] at hm
      obtain ⟨x, hx, rfl⟩ := hm
      obtain ⟨σ, r1, r2, _⟩ := hi.own.run
      cases r1
      have := r2 x (by rw [hh.H]; exact hx)
      rw [p1] at this; cases this
    have hpl := places_setRef hnd hAB id
    rw [hat] at hpl
    have hh' := (hh.relabel (fun p i r => if (p, i) = h then some id else r))
    have hreach : Reach MAX E (st.tree.setRef h id) := hi.reach.relabel _
    have hH : (st.tree.setRef h id).H = (id, h) ::ₘ st.tree.H := by
      have e1 : (st.tree.setRef h id).H = ↑((st.tree.setRef h id).places.filterMap Cell.refAt) := hh'.1.H
      rw [e1, hpl, hh.H, hAB, List.filterMap_append, List.filterMap_append, List.filterMap_cons, List.filterMap_cons]
      have e2 : Cell.refAt c = none := by simp [Cell.refAt, hr]
      have e3 : Cell.refAt { c with ref := some id } = some (id, h) := by
        rw [← hat]; rfl
      rw [e2, e3, Multiset.cons_coe, Multiset.coe_eq_coe]
      exact List.perm_middle
    refine ⟨⟨hreach, ?_, q3, ?_⟩, A, c, B, hAB, hat, hpl, .inl hr, fun _ => hfresh, hh'.2⟩
    · obtain ⟨⟨σ, r1, r2, r3⟩, o2, o3, o4, o5⟩ := hi.own
      cases r1
      refine ⟨⟨_, rfl, ?_, by simp⟩, ?_, ?_, ?_, ?_⟩
      · intro x hx
        rw [q2, p2]
        simp only at hx ⊢
        rw [hH, Multiset.mem_cons] at hx
        rcases hx with rfl | hx
        · simp
        · have := r2 x hx
          have hne : ¬ x.1 = id := by intro he; rw [he, p1] at this; cases this
          rw [if_neg hne]; exact this
      · rw [hH, add_zero, Multiset.map_cons, Multiset.nodup_cons]
        rw [add_zero] at o2
        refine ⟨?_, o2⟩
        intro hm
        rw [hh.H, Multiset.map_coe, refAt_fst, Multiset.mem_coe, ← hh.refs] at hm
        exact hfresh hm
      · have e : (st.tree.setRef h id).P = st.tree.P := P_relabel
        rw [e]; exact o3
      · have e : (st.tree.setRef h id).P = st.tree.P := P_relabel
        rw [e]; exact o4
      · intro σ hσ x y hx
        cases hσ
        rw [q2, p2] at hx
        rw [hH, add_zero, Multiset.map_cons, Multiset.mem_cons]
        by_cases hxi : x = id
        · exact .inl hxi
        · right
          have := o5 _ rfl x y (by simpa [hxi] using hx)
          simpa using this
    · have hnew : refsOf (st.tree.setRef h id).runs = (st.tree.setRef h id).places.filterMap (·.ref) := hh'.1.refs
      intro r hr'
      change r ∈ refsOf (st.tree.setRef h id).runs
      rw [hnew, hpl]
      rcases List.mem_cons.1 hr' with rfl | hr'
      · simp
      · have := hi.ids r hr'
        rw [hh.refs, hAB] at this
        simp only [List.filterMap_append, List.filterMap_cons, hr, List.mem_append] at this ⊢
        rcases this with h1 | h1
        · exact .inl h1
        · exact .inr (by simp [h1])

theorem insert_inv (hE : E.ix = natIdx MAX) {st : RefTree Nat S} {ids : List Nat} {nop : Bool} {hints : List Nat} {idx : Nat}
    {s : S} {size : Nat} {t : RleTree Nat S} {out : Inserted} (hi : LiveInv MAX E st ids) (hs : size ≤ MAX)
    (ht : st.tree.insert E nop hints idx s size ⟨st.next, [], [], none, []⟩ = .ok (t, out)) :
    ∃ st', st.insert E nop hints idx s size = .ok (st', out.path, out.handle) ∧ st'.tree = t ∧ LiveInv MAX E st' ids := by
  obtain ⟨⟨hM, hM'⟩, hh, hb⟩ := hi.reach.holds hE
  let rv0 := if st.tree.root.isNone then Recycle.empty else st.refs
  have h0 : Own (absS rv0) ⟨st.next, [], [], none, []⟩ st.tree.P st.tree.H 0 ∧ RInv rv0 := by
    by_cases hroot : st.tree.root.isNone = true
    · have e : rv0 = Recycle.empty := if_pos hroot
      rw [e]
      have e1 : st.tree.P = 0 := by
        unfold RleTree.P
        rw [Option.isNone_iff_eq_none.1 hroot]
      have e2 : st.tree.H = 0 := by
        unfold RleTree.H
        rw [Option.isNone_iff_eq_none.1 hroot]
      rw [e1, e2]
      exact ⟨Own.none, rinv_empty⟩
    · have e : rv0 = st.refs := if_neg hroot
      rw [e]
      exact ⟨hi.own, hi.store⟩
  have h1 := Own.insert (P := 0) (H := 0) (U := 0) ht (h0.1.congr (by simp) (by simp) rfl)
  have h1 := h1.congr (add_zero _) (add_zero _) rfl
  obtain ⟨σ, g1, _⟩ := h1.run
  obtain ⟨rv, k1, k2, k3⟩ := storeLog_runLog g1 h0.2
  refine ⟨⟨t, rv, out.world.next⟩, ?_, rfl, hi.reach.insert hs ht, ?_, k3, ?_⟩
  · simp only [RefTree.insert, bind_ok_iff]
    exact ⟨_, ht, rv, k1, rfl⟩
  · simp only [k2]
    exact h1.start g1
  · obtain ⟨c1, _, _, es', c2, c3, _⟩ := insert_returned hE hM hM' hh hb hs ht
    intro r hr
    simp only
    rw [c3.runs, specInsert_refs c1 c2]
    exact hi.ids r hr

theorem RefTree.insert_ok {I S : Type} {E : Env I S} {st st' : RefTree I S} {nop : Bool} {hints : List Nat} {idx : I} {s : S} {size : I}
    {path : List Nat} {h : Option (Nat × Nat)} (hi : st.insert E nop hints idx s size = .ok (st', path, h)) :
    ∃ t out, st.tree.insert E nop hints idx s size ⟨st.next, [], [], none, []⟩ = .ok (t, out) ∧ st'.tree = t ∧
      path = out.path ∧ h = out.handle := by
  simp only [RefTree.insert, bind_ok_iff] at hi
  obtain ⟨⟨t, out⟩, h1, rv, _, h2⟩ := hi
  cases h2
  exact ⟨t, out, h1, rfl, rfl, rfl⟩

/-- Every state of a program satisfies the invariant. -/
theorem Live.inv (hE : E.ix = natIdx MAX) {st : RefTree Nat S} {ids : List Nat} (h : Live MAX rcMax E st ids) :
    LiveInv MAX E st ids := by
  induction h with
  | @empty t n h =>
    refine ⟨.empty h, ?_, rinv_empty, by simp⟩
    simp only [RleTree.newEmpty, bind_ok_iff] at h
    obtain ⟨_, _, _, _, h⟩ := h
    cases h
    exact Own.none
  | @single t s size n w hs h =>
    refine ⟨.single hs h, ?_, rinv_empty, by simp⟩
    have h1 := Own.new (σ0 := absS Recycle.empty) (P := 0) (H := 0) (U := 0) h
      Own.none
    have hw : w.log = [] := by
      simp only [RleTree.new, bind_ok_iff] at h
      obtain ⟨_, _, _, _, _, _, h⟩ := h
      cases h; rfl
    exact (h1.congr (add_zero _) (add_zero _) rfl).start (by rw [hw]; rfl)
  | @insert st st' ids nop hints idx s size out _ hs h ih =>
    obtain ⟨path, hd⟩ := out
    obtain ⟨t, out, h1, rfl, rfl, rfl⟩ := RefTree.insert_ok h
    obtain ⟨st2, h2, _, h3⟩ := insert_inv hE ih hs h1
    rw [h] at h2
    cases h2
    exact h3
  | makeRef _ h ih => exact (makeRef_inv hE ih h).1
  | @cloneRef st st' ids id id' _ hid h ih =>
    simp only [RefTree.cloneRef, bind_ok_iff] at h
    obtain ⟨⟨i, rv⟩, h1, h⟩ := h
    cases h
    obtain ⟨rfl, h2, h3⟩ := clone_abs ih.store h1
    refine ⟨ih.reach, by simp only [h2]; exact ih.own, h3, ?_⟩
    intro r hr
    rcases List.mem_cons.1 hr with rfl | hr
    · exact ih.ids _ hid
    · exact ih.ids _ hr

theorem mem_refsOf {es : List (Ent S)} {r : Nat} (h : r ∈ refsOf es) : ∃ A e B, es = A ++ e :: B ∧ e.ref = some r := by
  obtain ⟨e, he, hr⟩ := List.mem_filterMap.1 h
  obtain ⟨A, B, rfl⟩ := List.append_of_mem he
  exact ⟨A, e, B, rfl, hr⟩

/-! ## C19 -/

/-- C19: after any history, each `SliceRef` that was handed out resolves; `range()`, the borrowed slice and `cursor()` are
those of one run, the one that carries the reference. -/
theorem ref_resolves (hE : E.ix = natIdx MAX) {st : RefTree Nat S} {ids : List Nat} (h : Live MAX rcMax E st ids) {r : Nat}
    (hr : r ∈ ids) :
    ∃ A e B c, st.tree.runs = A ++ e :: B ∧ e.ref = some r ∧ st.tree.places[A.length]? = some c ∧
      st.resolve r = .ok (some (c.ptr, c.idx)) ∧ st.range E r = .ok (total A, total A + e.size) ∧
      st.slice r = .ok e.slice ∧ st.cursor r = .ok c.path := by
  have hi := h.inv hE
  obtain ⟨_, hh, hb⟩ := hi.reach.holds hE
  obtain ⟨A, e, B, h1, h2⟩ := mem_refsOf (hi.ids r hr)
  have hnd := places_nodup hi.own.addrs
  obtain ⟨σ, k1, k2, _⟩ := hi.own.run
  cases k1
  obtain ⟨⟨root⟩, refs, next⟩ := st
  cases root with
  | none =>
    have : A ++ e :: B = [] := h1.symm.trans rfl
    simp at this
  | some root =>
    simp only at hh hb hnd k2 h1
    rw [h1] at hh hb
    obtain ⟨c, g1, g2, g3⟩ := walk_run hh.2.1 hh.1 hb hi.own.addrs
    have hcr : c.slice = e.slice ∧ c.ref = e.ref := by
      have := congrArg (fun l => l[A.length]?) hh.places
      simp only [List.getElem?_map, RleTree.places, g1] at this
      simp at this
      exact this
    have hres : absS refs r = some (some c.at) := by
      refine k2 (r, c.at) ?_
      rw [hh.H, Multiset.mem_coe, List.mem_filterMap]
      refine ⟨c, List.mem_of_getElem? g1, ?_⟩
      simp [Cell.refAt, hcr.2, h2, Cell.at]
    obtain ⟨cnt, hv⟩ := absS_some hres
    have hget : Recycle.get refs r = .ok (.handle (some c.at)) := by simp only [Recycle.get, hv]
    have hresolve : RefTree.resolve ⟨⟨some root⟩, refs, next⟩ r = .ok (some c.at) := by
      simp only [RefTree.resolve, hget, R.bind_ok]; rfl
    have hadd : total A + e.size ≤ MAX := by simp at hb; omega
    refine ⟨A, e, B, c, h1, h2, g1, hresolve, ?_, ?_, ?_⟩
    · simp only [RefTree.range, hresolve, R.bind_ok, Cell.at, hE, g2, addR_ok hadd]; rfl
    · simp only [RefTree.slice, hresolve, R.bind_ok, deref_place hnd (List.mem_of_getElem? g1), R.pure_eq, hcr.1]
    · simp only [RefTree.cursor, hresolve, R.bind_ok, Cell.at, g3]; rfl

/-- C19: references of different runs are different. -/
theorem ref_unique (hE : E.ix = natIdx MAX) {st : RefTree Nat S} {ids : List Nat} (h : Live MAX rcMax E st ids)
    {A B A' B' : List (Ent S)} {e e' : Ent S} {r : Nat} (h1 : st.tree.runs = A ++ e :: B) (h2 : st.tree.runs = A' ++ e' :: B')
    (hr : e.ref = some r) (hr' : e'.ref = some r) : A = A' ∧ e = e' ∧ B = B' := by
  have hi := h.inv hE
  have hn := (hi.reach.holds hE).2.1.nodup hi.own
  rw [h1] at h2
  rw [h1] at hn
  rcases List.append_eq_append_iff.mp h2 with ⟨a, ha, hb⟩ | ⟨a, ha, hb⟩
  · cases a with
    | nil => simp at ha hb; simp [ha, hb]
    | cons x a =>
      simp at hb
      obtain ⟨rfl, rfl⟩ := hb
      simp [refsOf_cons, hr, hr', List.nodup_append] at hn
  · cases a with
    | nil => simp at ha hb; simp [ha, hb]
    | cons x a =>
      simp at hb
      obtain ⟨rfl, rfl⟩ := hb
      subst ha
      simp [refsOf_cons, hr, hr', List.nodup_append] at hn

end Sherman
