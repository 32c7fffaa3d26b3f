import Verif.MockIter
import Verif.PathProps
/-!
# C36: the tree and the `Mock` agree
-/
namespace Sherman
variable {S : Type} {MAX rcMax : Nat} {E : Env Nat S}

/-- What making a reference does to the runs of a tree. -/
theorem refAt_runs (hE : E.ix = natIdx MAX) {st st' : RefTree Nat S} {ids : List Nat} (h : Live MAX rcMax E st ids) {idx id : Nat}
    (hr : st.refAt rcMax E idx = .ok (id, st')) :
    Live MAX rcMax E st' (id :: ids) ∧ ∃ A e B, st.tree.runs = A ++ e :: B ∧ st'.tree.runs = A ++ { e with ref := some id } :: B ∧
      total A ≤ idx ∧ idx < total A + e.size ∧ (e.ref = none ∨ e.ref = some id) := by
  have hi := h.inv hE
  obtain ⟨_, hh, _⟩ := hi.reach.holds hE
  simp only [RefTree.refAt, bind_ok_iff] at hr
  obtain ⟨ent, hg, hm⟩ := hr
  have hidx : idx < st.tree.size E := (get_panics_iff hE hi.reach [] idx).2.2 ⟨ent, hg⟩
  obtain ⟨a, e, b, path, ptr, k, g1, g2, g3, g4, g5, _⟩ := get_cursorTo_spec hE hi.reach hidx
  rw [g5] at hg
  cases hg
  have hcell : st.tree.places[a.length]? = some ⟨path, ptr, k, e.slice, e.ref⟩ := by
    unfold RleTree.places
    cases hroot : st.tree.root with
    | none =>
      have : st.tree.runs = [] := by unfold RleTree.runs; rw [hroot]
      rw [this] at g1; simp at g1
    | some r => exact g4 r hroot
  obtain ⟨hi', A, c, B, m1, m2, m3, m4, m5, m6⟩ := makeRef_inv hE hi hm
  have hh' := (hi'.reach.holds hE).2.1
  obtain ⟨A', e', B', s1, s2, s3, s4⟩ := makeRef_spans m1 m3 m4 hh hh' m6
  have hAa : A.length = a.length := by
    have hnd := places_nodup hi.own.addrs
    have e1 : (st.tree.places.map Cell.at)[A.length]? = some c.at := by rw [List.getElem?_map, m1]; simp
    have e2 : (st.tree.places.map Cell.at)[a.length]? = some c.at := by
      rw [List.getElem?_map, hcell, m2]; rfl
    have l1 := lt_of_get? e1
    have l2 := lt_of_get? e2
    exact (List.getElem?_inj l1 hnd).1 (e1.trans e2.symm)
  have g1' := g1
  rw [s1] at g1'
  obtain ⟨rfl, q⟩ := List.append_inj g1' (by omega)
  simp only [List.cons.injEq] at q
  obtain ⟨rfl, rfl⟩ := q
  exact ⟨h.makeRef hm, A', e', B', s1, s2, g2, g3, by rw [s4]; exact m4⟩

namespace Mock

/-- `Mock::insert`: its result is given by `gap`, hence by the specification of insertion; it overflows only if the new total
does not fit. -/
theorem insert_agree {sl : SliceOps Nat S} (hj : LawfulJoin sl) {m : Mock Nat S} {es ms : List (Ent S)} {prs : List (Nat × Nat)}
    (hm : Holds m ms) (hA : List.Forall₂ (Agree prs m.refs) es ms) {idx : Nat} {s : S} {size : Nat} {mk : Bool}
    (hidx : idx ≤ total es) (hs : 0 < size) (hb : total es ≤ MAX) :
    (MAX < total es + size ∧ m.insert (natIdx MAX) sl idx s size mk = .error .overflow) ∨
    (total es + size ≤ MAX ∧ ∃ m' o gs ms', m.insert (natIdx MAX) sl idx s size mk = .ok (m', o) ∧ Holds m' ms' ∧
      List.Forall₂ (Agree prs m'.refs) gs ms' ∧ total gs = total es + size ∧
      (∀ es', specInsert sl es idx s size = .ok es' → gs = es') ∧
      (∀ A l r B x y, sl.mayJoin = true → es = A ++ l :: r :: B → idx = total A + l.size → sl.tryJoin l.slice s = .inl x →
        sl.tryJoin x r.slice = .inl y → gs = A ++ ⟨l.size + size + r.size, y, l.ref.or r.ref⟩ :: B) ∧
      (mk = true → o = some m.refs.length ∧ ∃ A e B n, ms' = A ++ e :: B ∧ e.ref = some n ∧ m'.refs[m.refs.length]? = some n ∧
        total A ≤ idx ∧ idx + size ≤ total A + e.size)) := by
  have hmap : ∀ {l k : List (Ent S)}, List.Forall₂ (Agree prs m.refs) l k → total l = total k := by
    intro l k h
    induction h with
    | nil => rfl
    | cons h1 _ ih => simp [h1.1, ih]
  have hpos : ∀ {l k : List (Ent S)}, List.Forall₂ (Agree prs m.refs) l k → Pos k → Pos l := by
    intro l k h
    induction h with
    | nil => intro _; exact Pos.nil
    | cons h1 _ ih => intro hp; have := Pos.cons.1 hp; exact Pos.cons.2 ⟨by rw [h1.1]; exact this.1, ih this.2⟩
  have hesp : Pos es := hpos hA hm.pos
  have htot := hmap hA
  -- the two checks
  have hc1 : check (!(natIdx MAX).eq size (natIdx MAX).zero) "invalid insertion size" = .ok () := by
    simp [natIdx, IdxOps.eq, check]; omega
  have hc2 : check (!(natIdx MAX).lt (m.size (natIdx MAX)) idx) "index out of bounds" = .ok () := by
    rw [size_mruns hm.runs]; simp [natIdx, IdxOps.lt, check, Nat.compare_eq_lt]; omega
  -- position of the new run
  have hplace : ∀ (L Z : List (Ent S)) (n : Nat), idx = total L → ∃ A e B, gap sl L Z s size (fun _ _ => some n) = A ++ e :: B ∧
      e.ref = some n ∧ total A ≤ idx ∧ idx + size ≤ total A + e.size := by
    intro L Z n hL
    have := offerL_total (sl := sl) (L := L) (s := s)
    refine ⟨_, _, _, rfl, rfl, by omega, ?_⟩
    simp only; omega
  obtain ⟨L, Z, o, hcut, rfl, rfl, h4⟩ := cutAt_spec hidx
  have hgapcase : ∀ (m1 : Mock Nat S) (L1 Z1 L1' Z1' : List (Ent S)), Holds m1 (L1' ++ Z1') → m1.refs = m.refs →
      List.Forall₂ (Agree prs m.refs) L1 L1' → List.Forall₂ (Agree prs m.refs) Z1 Z1' →
      m.cut (natIdx MAX) sl (total L + o) = .ok (m1, L1'.length) → total L1' = total L + o → total (L1' ++ Z1') = total (L ++ Z) →
      (∀ es', specInsert sl (L ++ Z) (total L + o) s size = .ok es' → gap sl L1 Z1 s size (fun a b => a.or b) = es') →
      (∀ A l r B x y, sl.mayJoin = true → L ++ Z = A ++ l :: r :: B → total L + o = total A + l.size → sl.tryJoin l.slice s = .inl x →
        sl.tryJoin x r.slice = .inl y → gap sl L1 Z1 s size (fun a b => a.or b) = A ++ ⟨l.size + size + r.size, y, l.ref.or r.ref⟩ :: B) →
      (MAX < total (L ++ Z) + size ∧ m.insert (natIdx MAX) sl (total L + o) s size mk = .error .overflow) ∨
      (total (L ++ Z) + size ≤ MAX ∧ ∃ m' o' gs ms', m.insert (natIdx MAX) sl (total L + o) s size mk = .ok (m', o') ∧ Holds m' ms' ∧
        List.Forall₂ (Agree prs m'.refs) gs ms' ∧ total gs = total (L ++ Z) + size ∧
        (∀ es', specInsert sl (L ++ Z) (total L + o) s size = .ok es' → gs = es') ∧
        (∀ A l r B x y, sl.mayJoin = true → L ++ Z = A ++ l :: r :: B → total L + o = total A + l.size → sl.tryJoin l.slice s = .inl x →
          sl.tryJoin x r.slice = .inl y → gs = A ++ ⟨l.size + size + r.size, y, l.ref.or r.ref⟩ :: B) ∧
        (mk = true → o' = some m.refs.length ∧ ∃ A e B n, ms' = A ++ e :: B ∧ e.ref = some n ∧ m'.refs[m.refs.length]? = some n ∧
          total A ≤ total L + o ∧ total L + o + size ≤ total A + e.size)) := by
    intro m1 L1 Z1 L1' Z1' g1 g2 g3 g4 g5 g6 g7 g8 g9
    have hq : m.insert (natIdx MAX) sl (total L + o) s size mk =
        (joinLhs (natIdx MAX) sl (total L1') ⟨m1, L1'.length, s, total L1', 0, size, none, none, none⟩ >>= fun x =>
          joinRhs (natIdx MAX) sl x >>= fun x => finish (natIdx MAX) mk x) := by
      unfold insert
      rw [hc1, hc2]
      simp only [R.bind_ok, g5, g6]
      rfl
    rcases insertGap g1 (mk := mk) (s := s) hs (MAX := MAX) (by omega) hq with ⟨k1, k2⟩ | ⟨k1, m', n, o', k2, k3, k4, k5⟩
    · exact .inl ⟨by omega, k2⟩
    · right
      refine ⟨by omega, m', o', _, _, k2, k3, ?_, ?_, g8, g9, ?_⟩
      · rw [k4, g2]
        exact gap_agree g3 g4 g1.labelled g1.ids.nodup
      · have h1 := hmap g3
        have h2 := hmap g4
        simp only [total_append] at g7
        rw [gap_total, h1, h2]; simp; omega
      · intro hmk
        subst hmk
        obtain ⟨A, e, B, p1, p2, p3, p4⟩ := hplace L1' Z1' n (by omega)
        refine ⟨by rw [k5, g2]; rfl, A, e, B, n, p1, p2, ?_, p3, p4⟩
        rw [k4, List.getElem?_append_right]
        · have : (remapOpt (remapOpt m1.refs (offerL sl L1' s).2.2.2 n) (offerR sl Z1' (offerL sl L1' s).2.1).2.2.2 n).length = m.refs.length := by
            rw [← g2]
            cases (offerL sl L1' s).2.2.2 <;> cases (offerR sl Z1' (offerL sl L1' s).2.1).2.2.2 <;> simp [remapOpt, mapRemap]
          simp [this]
        · rw [← g2]
          cases (offerL sl L1' s).2.2.2 <;> cases (offerR sl Z1' (offerL sl L1' s).2.1).2.2.2 <;> simp [remapOpt, mapRemap]
  have hsplit : ∃ L' Z', ms = L' ++ Z' ∧ List.Forall₂ (Agree prs m.refs) L L' ∧ List.Forall₂ (Agree prs m.refs) Z Z' := by
    refine ⟨ms.take L.length, ms.drop L.length, (List.take_append_drop _ _).symm, ?_, ?_⟩
    · have := List.forall₂_take L.length hA; simpa using this
    · have := List.forall₂_drop L.length hA; simpa using this
  obtain ⟨L', Z', rfl, hL, hZ⟩ := hsplit
  have tL := hmap hL
  have tZ := hmap hZ
  by_cases ho : o = 0
  · subst ho
    refine hgapcase m L Z L' Z' hm rfl hL hZ ?_ (by omega) (by simp [tL, tZ]) ?_ ?_
    · rw [show total L + 0 = total L' by omega]; exact cut_edge hm
    · intro es' hspec
      simp only [specInsert, hcut] at hspec
      exact (specEdge_gap hj hspec).symm
    · intro A l r B x y hmj he hi hx hy
      have : L = A ++ [l] ∧ Z = r :: B := by
        have hp1 : Pos ((A ++ [l]) ++ r :: B) := by have := hesp; rw [he] at this; simpa using this
        have e1 := cutAt_edge (L := A ++ [l]) (R := r :: B) hp1
        rw [show A ++ [l] ++ r :: B = L ++ Z by rw [he]; simp, show total (A ++ [l]) = total L + 0 by simp; omega, hcut] at e1
        cases e1; exact ⟨rfl, rfl⟩
      obtain ⟨rfl, rfl⟩ := this
      simp [gap, offerL_concat, offerR, hx, hy]
  · rcases h4 with ⟨_, h⟩ | ⟨e, Z0, rfl, hoe⟩
    · exact absurd h ho
    cases hZ with
    | @cons _ e' _ Z0' h1 h2 =>
    have hoe' : o < e'.size := by rw [← h1.1]; exact hoe
    obtain ⟨m1, c1, c2, c3⟩ := cut_inside (MAX := MAX) (sl := sl) hm (by omega) hoe'
    refine hgapcase m1 (L ++ [⟨o, (sl.splitAt e.slice o).1, e.ref⟩]) (⟨e.size - o, (sl.splitAt e.slice o).2, none⟩ :: Z0) _ _ c2 c3
      (List.rel_append hL (.cons ⟨rfl, by rw [h1.2.1], h1.2.2⟩ .nil)) (.cons ⟨by rw [h1.1], by rw [h1.2.1], by simp⟩ h2)
      (by rw [tL, c1]; simp) (by simp; omega) (by have := hmap h2; simp [h1.1]; omega) ?_ ?_
    · intro es' hspec
      obtain ⟨o, rfl⟩ : ∃ k, o = k + 1 := ⟨o - 1, by omega⟩
      simp only [specInsert, hcut] at hspec
      cases hspec
      exact (specSplit_gap hj).symm
    · intro A l r B x y hmj he hi hx hy
      exfalso
      have hp1 : Pos ((A ++ [l]) ++ r :: B) := by have := hesp; rw [he] at this; simpa using this
      have e1 := cutAt_edge (L := A ++ [l]) (R := r :: B) hp1
      rw [show A ++ [l] ++ r :: B = L ++ e :: Z0 by rw [he]; simp, show total (A ++ [l]) = total L + o by simp; omega, hcut] at e1
      cases e1; exact ho rfl

/-- Programs run on a tree and on a mock together.  `prs` are the pairs of references made by the same calls. -/
inductive Both (MAX rcMax : Nat) (E : Env Nat S) : RefTree Nat S → Mock Nat S → List (Nat × Nat) → Prop
  | empty {t : RleTree Nat S} {n : Nat} : RleTree.newEmpty E = .ok t → Both MAX rcMax E ⟨t, Recycle.empty, n⟩ newEmpty []
  | single {t : RleTree Nat S} {s : S} {size n : Nat} {w : World} {m : Mock Nat S} : size ≤ MAX →
      RleTree.new E s size ⟨n, [], [], none, []⟩ = .ok (t, w) → Mock.new E.ix s size = .ok m →
      Both MAX rcMax E ⟨t, Recycle.empty, w.next⟩ m []
  | insert {st st' : RefTree Nat S} {m m' : Mock Nat S} {prs : List (Nat × Nat)} {nop : Bool} {hints : List Nat} {idx : Nat} {s : S}
      {size : Nat} {out o} : Both MAX rcMax E st m prs → size ≤ MAX → st.insert E nop hints idx s size = .ok (st', out) →
      m.insert E.ix E.sl idx s size false = .ok (m', o) → Both MAX rcMax E st' m' prs
  | makeRef {st st' : RefTree Nat S} {m m' : Mock Nat S} {prs : List (Nat × Nat)} {idx id k : Nat} : Both MAX rcMax E st m prs →
      st.refAt rcMax E idx = .ok (id, st') → m.makeRef E.ix idx = .ok (k, m') → Both MAX rcMax E st' m' ((id, k) :: prs)
  | insertRef {st st' : RefTree Nat S} {m m' : Mock Nat S} {prs : List (Nat × Nat)} {nop : Bool} {hints : List Nat} {idx : Nat} {s : S}
      {size id k : Nat} {path : List Nat} : Both MAX rcMax E st m prs → size ≤ MAX → E.refs = true → prs.length + 1 < rcMax →
      SplitFollows E st.tree idx s → st.insertRef rcMax E nop hints idx s size = .ok (st', path, id) →
      m.insert E.ix E.sl idx s size true = .ok (m', some k) → Both MAX rcMax E st' m' ((id, k) :: prs)
  | cloneRef {st st' : RefTree Nat S} {m : Mock Nat S} {prs : List (Nat × Nat)} {id id' k : Nat} : Both MAX rcMax E st m prs →
      (id, k) ∈ prs → st.cloneRef rcMax id = .ok (id', st') → Both MAX rcMax E st' m ((id', k) :: prs)

theorem Both.live (hE : E.ix = natIdx MAX) {st : RefTree Nat S} {m : Mock Nat S} {prs : List (Nat × Nat)} (h : Both MAX rcMax E st m prs) :
    Live MAX rcMax E st (prs.map Prod.fst) := by
  induction h with
  | empty h => exact .empty h
  | single h1 h2 h3 => exact .single h1 h2
  | insert _ h1 h2 _ ih => exact ih.insert h1 h2
  | makeRef _ h1 h2 ih => exact (refAt_runs hE ih h1).1
  | insertRef _ hs _ _ _ h1 _ ih =>
    simp only [RefTree.insertRef, bind_ok_iff] at h1
    obtain ⟨⟨st1, path, hd⟩, h2, h1⟩ := h1
    cases hd with
    | none => cases h1
    | some hd =>
      simp only [bind_ok_iff] at h1
      obtain ⟨⟨id', st2⟩, h3, h1⟩ := h1
      cases h1
      exact (ih.insert hs h2).makeRef h3
  | cloneRef _ hm h ih => exact ih.cloneRef (List.mem_map_of_mem (f := Prod.fst) hm) h

/-- What making a reference does to the runs. -/
theorem makeRef_runs (hE : E.ix = natIdx MAX) {st st' : RefTree Nat S} {ids : List Nat} (h : Live MAX rcMax E st ids) {hd : Nat × Nat} {id : Nat}
    (hm : st.makeRef rcMax hd = .ok (id, st')) :
    ∃ A e B, st.tree.runs = A ++ e :: B ∧ st'.tree.runs = A ++ { e with ref := some id } :: B ∧ (e.ref = none ∨ e.ref = some id) := by
  have hi := h.inv hE
  obtain ⟨hi', A, c, B, m1, m2, m3, m4, m5, m6⟩ := makeRef_inv hE hi hm
  obtain ⟨A', e', B', s1, s2, s3, s4⟩ := makeRef_spans m1 m3 m4 (hi.reach.holds hE).2.1 (hi'.reach.holds hE).2.1 m6
  exact ⟨A', e', B', s1, s2, by rw [s4]; exact m4⟩

/-- A run of the tree gets a reference that the mock has made of the same run. -/
theorem agree_label (hE : E.ix = natIdx MAX) {st st' : RefTree Nat S} {ids : List Nat} {prs : List (Nat × Nat)} {refs : List Nat}
    (h : Live MAX rcMax E st ids) (hp : ∀ p ∈ prs, p.1 ∈ ids) {id k n : Nat} (hL : Live MAX rcMax E st' (id :: ids))
    {A B A' B' : List (Ent S)} {e e' : Ent S} (r1 : st.tree.runs = A ++ e :: B) (r2 : st'.tree.runs = A ++ { e with ref := some id } :: B)
    (r5 : e.ref = none ∨ e.ref = some id) (a1 : List.Forall₂ (Agree prs refs) A A') (a2 : Agree prs refs e e')
    (a3 : List.Forall₂ (Agree prs refs) B B') (hn : e'.ref = some n) (hk : refs[k]? = some n) :
    List.Forall₂ (Agree ((id, k) :: prs) refs) st'.tree.runs (A' ++ e' :: B') := by
  have hne : ∀ x ∈ A ++ B, x.ref ≠ some id := by
    intro x hx hc
    have hn := ((hL.inv hE).reach.holds hE).2.1.nodup (hL.inv hE).own
    rw [r2] at hn
    simp only [refsOf_append, refsOf_cons, List.nodup_append, List.mem_append] at hn hx
    have hmem : ∀ {l : List (Ent S)}, x ∈ l → id ∈ refsOf l := fun h => List.mem_filterMap.2 ⟨x, h, hc⟩
    rcases hx with hx | hx
    · exact hn.2.2 _ (hmem hx) id (by simp) rfl
    · exact hn.2.1.2.2 id (by simp) _ (hmem hx) rfl
  have hall : ∀ {l l' : List (Ent S)}, (∀ x ∈ l, x.ref ≠ some id) → List.Forall₂ (Agree prs refs) l l' →
      List.Forall₂ (Agree ((id, k) :: prs) refs) l l' := by
    intro l l' hl h
    induction h with
    | nil => exact .nil
    | cons h _ ih =>
      refine .cons ⟨h.1, h.2.1, fun r k hk hr => ?_⟩ (ih fun x hx => hl x (by simp [hx]))
      rcases List.mem_cons.1 hk with hk | hk
      · cases hk; exact absurd hr (hl _ (by simp))
      · exact h.2.2 r k hk hr
  rw [r2]
  refine List.rel_append (hall (fun x hx => hne x (by simp [hx])) a1) (.cons ?_ (hall (fun x hx => hne x (by simp [hx])) a3))
  refine ⟨a2.1, a2.2.1, fun r j hj hr => ?_⟩
  cases hr
  rcases List.mem_cons.1 hj with hj | hj
  · cases hj
    exact ⟨n, hn, hk⟩
  · rcases r5 with r5 | r5
    · -- a new id is not among those handed out before
      exfalso
      have := (h.inv hE).ids id (hp _ hj)
      rw [r1] at this
      simp only [refsOf_append, refsOf_cons, r5, List.mem_append] at this
      rcases this with this | this
      · obtain ⟨x, hx, hc⟩ := List.mem_filterMap.1 this
        exact hne x (by simp [hx]) hc
      · rcases this with this | this
        · simp at this
        · obtain ⟨x, hx, hc⟩ := List.mem_filterMap.1 this
          exact hne x (by simp [hx]) hc
    · exact a2.2.2 id j hj r5

theorem agree_split {prs : List (Nat × Nat)} {refs : List Nat} {A B ms : List (Ent S)} {e : Ent S}
    (k2 : List.Forall₂ (Agree prs refs) (A ++ e :: B) ms) : ∃ A' e' B', ms = A' ++ e' :: B' ∧ List.Forall₂ (Agree prs refs) A A' ∧
      Agree prs refs e e' ∧ List.Forall₂ (Agree prs refs) B B' ∧ total A = total A' := by
  have g1 := List.forall₂_take A.length k2
  have g2 := List.forall₂_drop A.length k2
  simp only [List.take_left', List.drop_left'] at g1 g2
  obtain ⟨e', B', q1, q2, q3⟩ := List.forall₂_cons_left_iff.1 g2
  refine ⟨_, e', B', by rw [← q3, List.take_append_drop], g1, q1, q2, ?_⟩
  clear k2 g2 q1 q2 q3
  generalize ms.take A.length = A' at g1
  induction g1 with
  | nil => rfl
  | cons h _ ih => simp [h.1, ih]

theorem agree_more {prs : List (Nat × Nat)} {refs ex : List Nat} {l l' : List (Ent S)} (h : List.Forall₂ (Agree prs refs) l l') :
    List.Forall₂ (Agree prs (refs ++ ex)) l l' := by
  induction h with
  | nil => exact .nil
  | cons h _ ih =>
    refine .cons ⟨h.1, h.2.1, fun r k hk hr => ?_⟩ ih
    obtain ⟨sid, g1, g2⟩ := h.2.2 r k hk hr
    exact ⟨sid, g1, by rw [List.getElem?_append_left (List.getElem?_eq_some_iff.1 g2).1]; exact g2⟩

theorem Both.agree (hE : E.ix = natIdx MAX) (hj : LawfulJoin E.sl) {st : RefTree Nat S} {m : Mock Nat S} {prs : List (Nat × Nat)}
    (h : Both MAX rcMax E st m prs) : ∃ ms, Holds m ms ∧ List.Forall₂ (Agree prs m.refs) st.tree.runs ms := by
  induction h with
  | empty h =>
    simp only [RleTree.newEmpty, bind_ok_iff] at h
    obtain ⟨_, _, _, _, h⟩ := h
    cases h
    refine ⟨[], ⟨rfl, by simp [Labelled], ?_, Pos.nil⟩, .nil⟩
    intro sid i
    simp [newEmpty, sids]
  | @single t s size n w m h1 h2 h3 =>
    have hr : t.runs = [⟨size, s, none⟩] ∧ 0 < size := by
      simp only [RleTree.new, bind_ok_iff] at h2
      obtain ⟨_, c1, _, c2, _, c3, h⟩ := h2
      cases h
      have c2 := check_ok c2
      have c3 := check_ok c3
      rw [hE] at c3
      have hs0 : 0 < size := by simpa [natIdx, IdxOps.le, Nat.compare_eq_gt] using c3
      have hM : 1 ≤ E.M := by simpa using c2
      have hH : Sherman.Holds E ⟨some ⟨0, newRoot E.ix n s size, 1⟩⟩ [⟨size, s, none⟩] := by
        refine ⟨by simp [Pos.cons, Pos.nil, hs0], ?_, rfl⟩
        rw [hE]
        exact Rep.leafOf (p := n) (es := [⟨size, s, none⟩]) (by simp) (by simp; omega)
      exact ⟨hH.runs, hs0⟩
    have hm : m = ⟨[⟨size, s, 0⟩], [some 0], []⟩ := by
      unfold Mock.new at h3
      split at h3 <;> cases h3
      rfl
    rw [hr.1, hm]
    refine ⟨[⟨size, s, some 0⟩], ⟨by simp [mruns], by simp [Labelled], ?_, by simpa [Pos] using hr.2⟩, .cons ⟨rfl, rfl, by simp⟩ .nil⟩
    intro sid i
    cases sid <;> cases i <;> simp [sids]
  | @insert st st' m m' prs nop hints idx s size out o hb h1 h2 h3 ih =>
    obtain ⟨ms, k1, k2⟩ := ih
    have hL := hb.live hE
    have hi := hL.inv hE
    obtain ⟨_, c1, c2⟩ := hi.reach.holds hE
    obtain ⟨t', out', q1, q2, q3⟩ := RefTree.insert_ok (path := out.1) (h := out.2) h2
    obtain ⟨d1, d2, d3, es', d4, d5, _⟩ := insert_returned hE (hi.reach.holds hE).1.1 (hi.reach.holds hE).1.2 c1 c2 h1 q1
    rw [hE] at h3
    rcases insert_agree hj k1 k2 (MAX := MAX) (s := s) (mk := false) d1 d2 c2 with ⟨_, e2⟩ | ⟨_, m2, o2, gs, ms', e2, e3, e4, _, e6, _⟩
    · rw [e2] at h3; cases h3
    · rw [e2] at h3
      cases h3
      exact ⟨ms', e3, by rw [q2, d5.runs, ← e6 es' d4]; exact e4⟩
  | @makeRef st st' m m' prs idx id k hb h1 h2 ih =>
    obtain ⟨ms, k1, k2⟩ := ih
    obtain ⟨hL, A, e, B, r1, r2, r3, r4, r5⟩ := refAt_runs hE (hb.live hE) h1
    rw [r1] at k2
    obtain ⟨A', e', B', rfl, a1, a2, a3, hAA⟩ := agree_split k2
    rw [hE, show idx = total A' + (idx - total A) by omega, makeRef_in k1 (by rw [← a2.1]; omega)] at h2
    cases h2
    have hlab := (Labelled.cons.1 (Labelled.append.1 k1.labelled).2).1
    refine ⟨A' ++ e' :: B', ⟨k1.runs, k1.labelled, k1.ids, k1.pos⟩, ?_⟩
    exact agree_label hE (hb.live hE) (fun p hp => List.mem_map_of_mem hp) hL r1 r2 r5 (agree_more a1)
      (by cases agree_more (ex := [e'.ref.getD 0]) (.cons a2 .nil); assumption) (agree_more a3) (getD_some hlab).symm (by simp)
  | @insertRef st st' m m' prs nop hints idx s size id k path hb hs hrefs hc hok h1 h2 ih =>
    obtain ⟨ms, k1, k2⟩ := ih
    have hL := hb.live hE
    have hi := hL.inv hE
    obtain ⟨_, c1, c2⟩ := hi.reach.holds hE
    have h1' := h1
    simp only [RefTree.insertRef, bind_ok_iff] at h1'
    obtain ⟨⟨st1, path1, hd⟩, q0, h1'⟩ := h1'
    cases hd with
    | none => cases h1'
    | some hd =>
    simp only [bind_ok_iff] at h1'
    obtain ⟨⟨id', st2⟩, q4, h1'⟩ := h1'
    cases h1'
    obtain ⟨t', out', q1, q2, q3⟩ := RefTree.insert_ok q0
    obtain ⟨d1, d2, d3, es', d4, d5, _⟩ := insert_returned hE (hi.reach.holds hE).1.1 (hi.reach.holds hE).1.2 c1 c2 hs q1
    rw [hE] at h2
    rcases insert_agree hj k1 k2 (MAX := MAX) (s := s) (mk := true) d1 d2 c2 with ⟨_, e2⟩ | ⟨_, m2, o2, gs, ms', e2, e3, e4, _, e6, _, e8⟩
    · rw [e2] at h2; cases h2
    rw [e2] at h2
    cases h2
    obtain ⟨f1, A', e', B', n, f2, f3, f4, f5, f6⟩ := e8 rfl
    cases f1
    -- the run with the reference
    obtain ⟨_, _, _, x, y, g1, g2, g3, g4, g5, g6⟩ := insertRef_partial hE hrefs hL (by simpa using hc) nop hints s d1 d2 (by omega) d4 hok
    rw [h1] at g1
    cases g1
    have hL1 := hL.insert hs q0
    obtain ⟨A, e, B, r1, r2, r5⟩ := makeRef_runs hE hL1 q4
    have hr : x = total A ∧ y = total A + e.size := by
      obtain ⟨A2, e2, B2, c, p1, p2, _, _, p3, _⟩ := ref_resolves hE g2 (r := id') (by simp)
      rw [g3] at p3
      cases p3
      obtain ⟨rfl, rfl, rfl⟩ := ref_unique hE g2 p1 r2 p2 rfl
      exact ⟨rfl, rfl⟩
    have hst1 : List.Forall₂ (Agree prs m'.refs) (A ++ e :: B) ms' := by rw [← r1, q2, d5.runs, ← e6 es' d4]; exact e4
    obtain ⟨A3, e3', B3, rfl, a1, a2, a3, hAA⟩ := agree_split hst1
    obtain ⟨rfl, rfl, rfl⟩ := run_unique (s := idx) f2 ⟨by omega, by have := a2.1; omega⟩ ⟨f5, by omega⟩
    exact ⟨_, e3, agree_label hE hL1 (fun p hp => List.mem_map_of_mem hp) g2 r1 r2 r5 a1 a2 a3 f3 f4⟩
  | @cloneRef st st' m prs id id' k hb hm h ih =>
    obtain ⟨ms, k1, k2⟩ := ih
    have hid : id' = id ∧ st'.tree = st.tree := by
      simp only [RefTree.cloneRef, bind_ok_iff] at h
      obtain ⟨⟨i, rv⟩, h1, h2⟩ := h
      cases h2
      unfold Recycle.clone at h1
      split at h1
      · cases h1
      · cases h1
      · split at h1
        · cases h1; exact ⟨rfl, rfl⟩
        · cases h1
    obtain ⟨rfl, ht⟩ := hid
    rw [ht]
    refine ⟨ms, k1, k2.imp fun a b h => ⟨h.1, h.2.1, fun r j hj hr => ?_⟩⟩
    rcases List.mem_cons.1 hj with hj | hj
    · cases hj; exact h.2.2 _ _ hm hr
    · exact h.2.2 r j hj hr

/-- What an observer sees of the runs. -/
def view (es : List (Ent S)) : List (Nat × S) := es.map fun e => (e.size, e.slice)

theorem view_agree {prs : List (Nat × Nat)} {refs : List Nat} {es ms : List (Ent S)} (h : List.Forall₂ (Agree prs refs) es ms) :
    view es = view ms := by
  induction h with
  | nil => rfl
  | cons h _ ih => simp only [view, List.map_cons, List.cons.injEq] at ih ⊢; exact ⟨by rw [h.1, h.2.1], ih⟩

theorem total_view {es ms : List (Ent S)} (h : view es = view ms) : total es = total ms := by
  have := congrArg (fun l => (l.map Prod.fst).sum) h
  simpa [view, total, Function.comp_def] using this

theorem listing_view {es ms : List (Ent S)} (b : Nat) (h : view es = view ms) : listing b es = listing b ms := by
  induction es generalizing ms b with
  | nil => cases ms with
    | nil => rfl
    | cons x ms => simp [view] at h
  | cons e es ih =>
    cases ms with
    | nil => simp [view] at h
    | cons x ms =>
      simp only [view, List.map_cons, List.cons.injEq, Prod.mk.injEq] at h
      simp only [listing, h.1.1, h.1.2, ih _ h.2]

/-! ## C36 -/

/-- C36: where the tree accepts an insertion, so does the mock, and they stay together. -/
theorem mock_insert (hE : E.ix = natIdx MAX) (hj : LawfulJoin E.sl) {st st' : RefTree Nat S} {m : Mock Nat S} {prs : List (Nat × Nat)}
    (h : Both MAX rcMax E st m prs) {nop : Bool} {hints : List Nat} {idx : Nat} {s : S} {size : Nat} {out} (hs : size ≤ MAX)
    (hi : st.insert E nop hints idx s size = .ok (st', out)) :
    ∃ m' o, m.insert E.ix E.sl idx s size false = .ok (m', o) ∧ Both MAX rcMax E st' m' prs := by
  obtain ⟨ms, k1, k2⟩ := h.agree hE hj
  have hv := (h.live hE).inv hE
  obtain ⟨⟨hM, hM'⟩, c1, c2⟩ := hv.reach.holds hE
  obtain ⟨t', out', q1, q2, q3⟩ := RefTree.insert_ok (path := out.1) (h := out.2) hi
  obtain ⟨d1, d2, d3, es', d4, d5, _⟩ := insert_returned hE hM hM' c1 c2 hs q1
  rcases insert_agree hj k1 k2 (MAX := MAX) (s := s) (mk := false) d1 d2 c2 with ⟨e1, e2⟩ | ⟨_, m2, o2, gs, ms', e2, _⟩
  · omega
  · rw [← hE] at e2
    exact ⟨m2, o2, e2, h.insert hs hi e2⟩

/-- C36: making a reference. -/
theorem mock_makeRef (hE : E.ix = natIdx MAX) (hj : LawfulJoin E.sl) {st st' : RefTree Nat S} {m : Mock Nat S} {prs : List (Nat × Nat)}
    (h : Both MAX rcMax E st m prs) {idx id : Nat} (hr : st.refAt rcMax E idx = .ok (id, st')) :
    ∃ k m', m.makeRef E.ix idx = .ok (k, m') ∧ Both MAX rcMax E st' m' ((id, k) :: prs) := by
  obtain ⟨ms, k1, k2⟩ := h.agree hE hj
  obtain ⟨_, A, e, B, r1, _, r3, r4, _⟩ := refAt_runs hE (h.live hE) hr
  have ht := total_view (view_agree k2)
  obtain ⟨A', e', B', o, rfl, rfl, ho⟩ := locate (es := ms) (i := idx) (by rw [← ht, r1]; simp; omega)
  have := makeRef_in (MAX := MAX) k1 ho
  rw [← hE] at this
  exact ⟨_, _, this, h.makeRef hr this⟩

/-- C36: likewise with `insert_ref` (except for the insertions of C20, which return a reference to another run). -/
theorem mock_insertRef (hE : E.ix = natIdx MAX) (hj : LawfulJoin E.sl) {st st' : RefTree Nat S} {m : Mock Nat S} {prs : List (Nat × Nat)}
    (h : Both MAX rcMax E st m prs) {nop : Bool} {hints : List Nat} {idx : Nat} {s : S} {size id : Nat} {path} (hs : size ≤ MAX) (hr : E.refs = true)
    (hc : prs.length + 1 < rcMax) (hok : SplitFollows E st.tree idx s) (hi : st.insertRef rcMax E nop hints idx s size = .ok (st', path, id)) :
    ∃ m' k, m.insert E.ix E.sl idx s size true = .ok (m', some k) ∧ Both MAX rcMax E st' m' ((id, k) :: prs) := by
  obtain ⟨ms, k1, k2⟩ := h.agree hE hj
  have hv := (h.live hE).inv hE
  obtain ⟨⟨hM, hM'⟩, c1, c2⟩ := hv.reach.holds hE
  have hi' := hi
  simp only [RefTree.insertRef, bind_ok_iff] at hi'
  obtain ⟨⟨st1, path1, hd⟩, q0, hi'⟩ := hi'
  obtain ⟨t', out', q1, q2, q3⟩ := RefTree.insert_ok q0
  obtain ⟨d1, d2, d3, es', d4, d5, _⟩ := insert_returned hE hM hM' c1 c2 hs q1
  rcases insert_agree hj k1 k2 (MAX := MAX) (s := s) (mk := true) d1 d2 c2 with ⟨e1, e2⟩ | ⟨_, m2, o2, gs, ms', e2, _, _, _, _, _, e8⟩
  · omega
  · rw [← hE] at e2
    obtain ⟨f1, -⟩ := e8 rfl
    subst f1
    exact ⟨m2, _, e2, h.insertRef hs hr hc hok hi e2⟩

/-- C36: the mock refuses an insertion exactly when the size is zero, the index is out of bounds or the total overflows. -/
theorem mock_insert_fails_iff (hE : E.ix = natIdx MAX) (hj : LawfulJoin E.sl) {st : RefTree Nat S} {m : Mock Nat S}
    {prs : List (Nat × Nat)} (h : Both MAX rcMax E st m prs) (idx : Nat) (s : S) (size : Nat) (mk : Bool) :
    (∃ f, m.insert E.ix E.sl idx s size mk = .error f) ↔ st.tree.size E < idx ∨ size = 0 ∨ MAX < st.tree.size E + size := by
  obtain ⟨ms, k1, k2⟩ := h.agree hE hj
  obtain ⟨_, c1, c2⟩ := ((h.live hE).inv hE).reach.holds hE
  have ht := total_view (view_agree k2)
  rw [c1.size hE, hE]
  by_cases hs : size = 0
  · subst hs
    simp only [true_or, or_true, iff_true]
    refine ⟨.panic "invalid insertion size", ?_⟩
    simp [insert, natIdx, IdxOps.eq, check]
  · by_cases hidx : idx ≤ total st.tree.runs
    · rcases insert_agree hj k1 k2 (MAX := MAX) (s := s) (size := size) (mk := mk) hidx (by omega) c2 with ⟨e1, e2⟩ | ⟨e1, m2, o2, gs, ms', e2, _⟩
      · rw [e2]; exact ⟨fun _ => .inr (.inr e1), fun _ => ⟨_, rfl⟩⟩
      · rw [e2]; exact ⟨fun h => (by obtain ⟨_, h⟩ := h; cases h), fun _ => by exfalso; omega⟩
    · refine ⟨fun _ => .inl (by omega), fun _ => ⟨.panic "index out of bounds", ?_⟩⟩
      have hc1 : check (!(natIdx MAX).eq size (natIdx MAX).zero) "invalid insertion size" = .ok () := by
        simp [natIdx, IdxOps.eq, check, hs]
      have hc2 : check (!(natIdx MAX).lt (m.size (natIdx MAX)) idx) "index out of bounds" = .error (.panic "index out of bounds") := by
        rw [size_mruns k1.runs]; simp [natIdx, IdxOps.lt, check, Nat.compare_eq_lt]; omega
      simp only [insert, hc1, hc2, R.bind_ok]
      rfl

/-- C36: a slice that joins with both neighbours at an edge, which makes the tree fail, is joined with both by the mock. -/
theorem mock_joins_both (hE : E.ix = natIdx MAX) (hj : LawfulJoin E.sl) {st : RefTree Nat S} {m : Mock Nat S} {prs : List (Nat × Nat)}
    (h : Both MAX rcMax E st m prs) {A B : List (Ent S)} {l r : Ent S} {s x y : S} {size : Nat} (hm : E.sl.mayJoin = true)
    (he : st.tree.runs = A ++ l :: r :: B) (hx : E.sl.tryJoin l.slice s = .inl x) (hy : E.sl.tryJoin x r.slice = .inl y)
    (hs : 0 < size) (hb : total st.tree.runs + size ≤ MAX) :
    ∃ m' o, m.insert E.ix E.sl (total A + l.size) s size false = .ok (m', o) ∧
      m'.runs.map (fun x => (x.stop, x.slice)) =
        (listing 0 (A ++ ⟨l.size + size + r.size, y, none⟩ :: B)).map fun x => (x.2.1, x.2.2.2) := by
  obtain ⟨ms, k1, k2⟩ := h.agree hE hj
  have hi : total A + l.size ≤ total st.tree.runs := by rw [he]; simp
  rw [hE]
  rcases insert_agree hj k1 k2 (MAX := MAX) (s := s) (mk := false) hi hs (by omega) with ⟨e1, _⟩ | ⟨_, m2, o2, gs, ms', e2, e3, e4, _, _, e7, _⟩
  · omega
  · refine ⟨m2, o2, e2, ?_⟩
    have hg := e7 A l r B x y hm he rfl hx hy
    have hv : view (A ++ ⟨l.size + size + r.size, y, none⟩ :: B) = view ms' := by
      rw [← view_agree e4, hg]; simp [view]
    rw [listing_view 0 hv, e3.runs]
    have : ∀ b (l : List (Ent S)), (mruns b l).map (fun x => (x.stop, x.slice)) = (listing b l).map fun x => (x.2.1, x.2.2.2) := by
      intro b l
      induction l generalizing b with
      | nil => rfl
      | cons e l ih => simp [mruns, listing, ih]
    exact this 0 ms'

/-- C36: the sizes and the runs agree. -/
theorem mock_runs (hE : E.ix = natIdx MAX) (hj : LawfulJoin E.sl) {st : RefTree Nat S} {m : Mock Nat S} {prs : List (Nat × Nat)}
    (h : Both MAX rcMax E st m prs) : m.size E.ix = st.tree.size E ∧
      m.runs.map (fun x => (x.stop, x.slice)) = (listing 0 st.tree.runs).map fun x => (x.2.1, x.2.2.2) := by
  obtain ⟨ms, k1, k2⟩ := h.agree hE hj
  obtain ⟨_, c1, c2⟩ := ((h.live hE).inv hE).reach.holds hE
  have hv := view_agree k2
  refine ⟨by rw [c1.size hE, hE, size_mruns k1.runs, total_view hv], ?_⟩
  rw [listing_view 0 hv, k1.runs]
  have : ∀ b (l : List (Ent S)), (mruns b l).map (fun x => (x.stop, x.slice)) = (listing b l).map fun x => (x.2.1, x.2.2.2) := by
    intro b l
    induction l generalizing b with
    | nil => rfl
    | cons e l ih => simp [mruns, listing, ih]
  exact this 0 ms

/-- C36: lookups agree, also in when they fail. -/
theorem mock_get (hE : E.ix = natIdx MAX) (hj : LawfulJoin E.sl) {st : RefTree Nat S} {m : Mock Nat S} {prs : List (Nat × Nat)}
    (h : Both MAX rcMax E st m prs) (hints : List Nat) (idx : Nat) (v : Nat × Nat × S) :
    m.get E.ix idx = .ok v ↔ ∃ e, st.tree.get E hints idx = .ok e ∧ v = (e.start, e.stop, e.slice) := by
  obtain ⟨ms, k1, k2⟩ := h.agree hE hj
  have hR := ((h.live hE).inv hE).reach
  obtain ⟨_, c1, c2⟩ := hR.holds hE
  have hv := view_agree k2
  have ht := total_view hv
  by_cases hidx : idx < total st.tree.runs
  · obtain ⟨a, e, b, ent, g1, g2, g3, g4, g5, g6, g7⟩ := get_covers hE hR hints (idx := idx) (by rw [c1.size hE]; exact hidx)
    have hms : ∃ A' e' B', ms = A' ++ e' :: B' ∧ total A' = total a ∧ e'.size = e.size ∧ e'.slice = e.slice := by
      rw [g1] at hv
      simp only [view, List.map_append, List.map_cons] at hv
      obtain ⟨A', m2, q1, q2, q3⟩ := List.append_eq_map_iff.1 hv
      obtain ⟨e', B', q4, q5, q6⟩ := List.map_eq_cons_iff.1 q3
      simp only [Prod.mk.injEq] at q5
      exact ⟨A', e', B', by rw [q1, q4], total_view q2, q5.1, q5.2⟩
    obtain ⟨A', e', B', rfl, w1, w2, w3⟩ := hms
    have := get_in (MAX := MAX) (o := idx - total a) k1 (by omega)
    rw [show total A' + (idx - total a) = idx by omega] at this
    rw [hE, this, g2]
    simp only [Except.ok.injEq]
    constructor
    · rintro rfl; exact ⟨ent, rfl, by rw [g3, g4, g5, w1, w2, w3]⟩
    · rintro ⟨e', rfl, rfl⟩; rw [g3, g4, g5, w1, w2, w3]
  · rw [hE, get_out k1 (by omega), (get_panics_iff hE hR hints idx).1.1 (by rw [c1.size hE]; omega)]
    simp

theorem listing_entries {o : Nat} {cs : List (Cell S)} {es : List (Ent S)} (h : cs.length = es.length) :
    (entriesFrom o cs es).map (fun x => (x.start, x.stop, x.stop - x.start, x.slice)) = listing o es := by
  induction es generalizing o cs with
  | nil => cases cs <;> simp [entriesFrom, listing]
  | cons e es ih =>
    cases cs with
    | nil => simp at h
    | cons c cs =>
      simp only [entriesFrom, listing, List.map_cons, ih (by simpa using h), List.cons.injEq, and_true, Prod.mk.injEq, true_and]
      omega

/-- C36: iteration agrees: any sequence of `next` and `next_back` yields the same, and the same ranges are refused. -/
theorem mock_iter (hE : E.ix = natIdx MAX) (hj : LawfulJoin E.sl) {st : RefTree Nat S} {m : Mock Nat S} {prs : List (Nat × Nat)}
    (h : Both MAX rcMax E st m prs) (cursor : List Nat) (r : Range.Rng Nat) :
    (∃ it it' , st.tree.iter E cursor r = .ok it ∧ m.iter E.ix r = .ok it' ∧
      ∀ ops, ∃ ys, Sherman.runIter E.ix it ops = .ok ys ∧
        runIter E.ix it' ops = .ok (ys.map fun o => o.map fun x => (x.start, x.stop, x.stop - x.start, x.slice))) ∨
    (∃ a b, st.tree.iter E cursor r = .error (.panic a) ∧ m.iter E.ix r = .error (.panic b)) := by
  obtain ⟨ms, k1, k2⟩ := h.agree hE hj
  have hL := h.live hE
  obtain ⟨_, c1, c2⟩ := (hL.inv hE).reach.holds hE
  have hv := view_agree k2
  have ht := total_view hv
  by_cases hval : ValidRange (st.tree.size E) r
  · left
    obtain ⟨it, i1, i2⟩ := Sherman.iter_deque hE hL cursor hval
    rw [c1.size hE, ht] at hval
    obtain ⟨it', j1, j2⟩ := Mock.iter_deque (MAX := MAX) k1 hval
    refine ⟨it, it', i1, by rw [hE]; exact j1, fun ops => ⟨_, i2 ops, ?_⟩⟩
    rw [hE, j2]
    congr 1
    have hmap : ∀ {X Y : Type} (f : X → Y) (l : List X) (ops : List Bool), (runDeque l ops).map (Option.map f) = runDeque (l.map f) ops := by
      intro X Y f l ops
      induction ops generalizing l with
      | nil => rfl
      | cons op ops ih => cases op <;> simp [runDeque, ih]
    rw [hmap]
    congr 1
    have hlen : st.tree.places.length = st.tree.runs.length := by
      have := congrArg List.length c1.places
      simpa using this
    rw [← listing_view 0 hv, ← listing_entries hlen, List.filter_map]
    rfl
  · right
    obtain ⟨a, ha⟩ := iterNew_invalid (MAX := MAX) hval cursor st.tree.root
    rw [c1.size hE, ht] at hval
    obtain ⟨b, hb⟩ := iter_invalid (MAX := MAX) k1 hval
    exact ⟨a, b, by unfold RleTree.iter; rw [hE]; rw [c1.size hE] at ha ⊢; exact ha, by rw [hE]; exact hb⟩

/-- C36: references made together name runs with the same range and slice ever after. -/
theorem mock_refs (hE : E.ix = natIdx MAX) (hj : LawfulJoin E.sl) {st : RefTree Nat S} {m : Mock Nat S} {prs : List (Nat × Nat)}
    (h : Both MAX rcMax E st m prs) {r k : Nat} (hr : (r, k) ∈ prs) :
    ∃ x y s, st.range E r = .ok (x, y) ∧ st.slice r = .ok s ∧ m.refRange E.ix k = .ok (some (x, y)) ∧ m.refSlice k = .ok (some s) := by
  obtain ⟨ms, k1, k2⟩ := h.agree hE hj
  have hL := h.live hE
  obtain ⟨A, e, B, c, g1, g2, _, _, g3, g4, _⟩ := ref_resolves hE hL (r := r) (List.mem_map_of_mem (f := Prod.fst) hr)
  rw [g1] at k2
  have q1 := List.forall₂_take A.length k2
  have q2 := List.forall₂_drop A.length k2
  simp only [List.take_left', List.drop_left'] at q1 q2
  obtain ⟨e', B', p1, p2, p3⟩ := List.forall₂_cons_left_iff.1 q2
  have hms : ms = ms.take A.length ++ e' :: B' := by rw [← p3, List.take_append_drop]
  obtain ⟨sid, s1, s2⟩ := p1.2.2 r k hr g2
  have htA : total (ms.take A.length) = total A := (total_view (view_agree q1)).symm
  rw [hms] at k1
  obtain ⟨t1, t2⟩ := ref_holds (MAX := MAX) k1 s2 s1
  rw [htA, ← p1.1] at t1
  rw [← p1.2.1] at t2
  exact ⟨_, _, _, g3, g4, by rw [hE]; exact t1, t2⟩

/-- Histories of the tree alone (no references yet) that the mock follows. -/
theorem both_insertLive (hE : E.ix = natIdx MAX) (hj : LawfulJoin E.sl) {ops : List (Op S)} {st st' : RefTree Nat S}
    {m : Mock Nat S} {prs : List (Nat × Nat)} (h : Both MAX rcMax E st m prs) (hs : ∀ o ∈ ops, o.size ≤ MAX)
    (hi : insertLive E st ops = .ok st') : ∃ m', Both MAX rcMax E st' m' prs := by
  induction ops generalizing st m with
  | nil => cases hi; exact ⟨m, h⟩
  | cons o ops ih =>
    simp only [insertLive, bind_ok_iff] at hi
    obtain ⟨⟨st1, out⟩, hi1, hi2⟩ := hi
    obtain ⟨m', o', _, hb⟩ := mock_insert hE hj h (hs _ (by simp)) hi1
    exact ih hb (fun o ho => hs o (by simp [ho])) hi2

/-- A history with several levels, an insertion that splits a run, and a reference, on both sides. The mock's lookup, iteration
and reference all agree with the tree's. -/
example : ∃ st m r k, Both 255 1000 exRefEnv st m [(r, k)] ∧ m.size exRefEnv.ix = 23 ∧
    (∃ v, m.get exRefEnv.ix 9 = .ok v) ∧ (∃ s, m.refSlice k = .ok (some s)) ∧
    (∃ f, m.insert exRefEnv.ix exRefEnv.sl 24 'z' 1 false = .error f) ∧
    (∃ m' o, m.insert exRefEnv.ix exRefEnv.sl 23 'z' 1 false = .ok (m', o)) := by
  have hj : LawfulJoin (constSl Char) := by intro h; cases h
  obtain ⟨st, h1, h2, h3⟩ := exLive0
  obtain ⟨m, hb⟩ := both_insertLive (E := exRefEnv) (MAX := 255) (rcMax := 1000) rfl hj (.empty (n := 100) rfl)
    (ops := exOps.take 3) (by decide) h1
  have hsz : st.tree.size exRefEnv = 23 := by rw [((h2.inv rfl).reach.holds rfl).2.1.size rfl, h3]; rfl
  obtain ⟨r, st1, x, y, g0, _, g1, g2, g3, e1, _, _⟩ := refAt_spec rfl h2 (idx := 9) (by decide) (by rw [hsz]; omega)
  obtain ⟨k, m', _, hb'⟩ := mock_makeRef rfl hj hb g0
  have hsz' : st1.tree.size exRefEnv = 23 := by
    rw [(((hb'.live rfl).inv rfl).reach.holds rfl).2.1.size rfl, total_view (show view st1.tree.runs = view st.tree.runs from e1), h3]; rfl
  have hm := (mock_runs rfl hj hb').1
  obtain ⟨x, y, s, _, _, _, hs⟩ := mock_refs rfl hj hb' (r := r) (k := k) (by simp)
  obtain ⟨_, _, _, ent, _, he, _⟩ := get_covers rfl ((hb'.live rfl).inv rfl).reach [] (idx := 9) (by rw [hsz']; omega)
  refine ⟨st1, m', r, k, hb', by rw [hm, hsz'], ?_, ⟨s, hs⟩, (mock_insert_fails_iff rfl hj hb' 24 'z' 1 false).2 (by rw [hsz']; omega), ?_⟩
  · exact ⟨_, (mock_get rfl hj hb' [] 9 _).2 ⟨ent, he, rfl⟩⟩
  · have := (mock_insert_fails_iff rfl hj hb' 23 'z' 1 false).not.2 (by rw [hsz']; omega)
    cases hc : m'.insert exRefEnv.ix exRefEnv.sl 23 'z' 1 false with
    | error f => exact absurd ⟨f, hc⟩ this
    | ok o => exact ⟨o.1, o.2, rfl⟩

/-- The edge case on which the tree fails (`doubleJoin_counterexample`): pieces `0..3` and `6..9` with `3..6` inserted between
them become one run of the mock. -/
example : ∃ st m, Both 255 1000 (⟨natIdx 255, pieceSl, 3, true⟩ : Env Nat (Nat × Nat)) st m [] ∧
    ∃ m' o, m.insert (natIdx 255) pieceSl 3 (3, 6) 3 false = .ok (m', o) ∧ m'.runs.map (fun x => (x.stop, x.slice)) = [(9, (0, 9))] := by
  have hj : LawfulJoin pieceSl := by intro h; cases h
  obtain ⟨st, h1, h2, h3⟩ := insertLive_returns (E := ⟨natIdx 255, pieceSl, 3, true⟩) (MAX := 255) (rcMax := 1000) rfl
    (.empty (n := 100) rfl) (ops := [⟨0, (0, 3), 3, false, [], exWorld⟩, ⟨3, (6, 9), 3, false, [], exWorld⟩])
    (by decide) (es' := [⟨3, (0, 3), none⟩, ⟨3, (6, 9), none⟩]) (by decide)
  obtain ⟨m, hb⟩ := both_insertLive (E := ⟨natIdx 255, pieceSl, 3, true⟩) (MAX := 255) (rcMax := 1000) rfl hj (.empty (n := 100) rfl)
    (by decide) h1
  obtain ⟨m', o, e1, e2⟩ := mock_joins_both (A := []) (B := []) (x := (0, 6)) (y := (0, 9)) (s := (3, 6)) (size := 3) rfl hj hb rfl h2
    (by decide) (by decide) (by omega) (by rw [h2]; decide)
  exact ⟨st, m, hb, m', o, e1, by rw [e2]; rfl⟩

end Mock
end Sherman
