import Verif.ClonePanicDeep
/-!
# Panics in `Clone`: states of programs
-/
namespace Sherman.Cow
variable {S : Type}

/-- An insertion, with the number of calls of `Clone` that return: it does what it does without panics of `Clone`, or it leaves another
state. -/
theorem insertC_step {MAX imax : Nat} {E : Env Nat S} (hE : E.ix = natIdx MAX) {st : St Nat S} (ok : st.Ok) {i : Nat} {t : RleTree Nat S}
    (hv : st.view i = .ok t) {es : List (Ent S)} (hp : Pos es) (hh : ∀ r, t.root = some r → Rep E.M 1 r.tree es)
    (left : Nat) (nop : Bool) (hints : List Nat) (idx : Nat) (s : S) (z : Nat) :
    (st.insertC E imax left i nop hints idx s z = (do
      let st' ← st.insert E imax i nop hints idx s z
      pure (st', .returned))) ∨
    (∃ st' r r' es' d made gone, st.insertC E imax left i nop hints idx s z = .ok (st', .panicked made gone) ∧ t.root = some r ∧
      st'.view i = .ok ⟨some r'⟩ ∧ st'.Ok ∧ st'.trees.length = st.trees.length ∧ Others st st' i ∧ idx ≤ total es ∧ 0 < z ∧
      r'.len = r.len + d ∧ Rep E.M 1 r'.tree es' ∧ made.length = left ∧
      ((es' = es ∧ d = 0 ∧ (valsIn st'.heap ++ gone).Perm (valsIn st.heap ++ made ++ [s])) ∨
        ∃ x v rest, Hurt E.sl es idx s es' x v rest ∧ d = rest.length ∧
          (valsIn st'.heap ++ gone ++ [x]).Perm (valsIn st.heap ++ made ++ v :: rest))) ∨
    st.insertC E imax left i nop hints idx s z = .error tooMany := by
  rcases St.view_cases hv with ⟨hi, rfl⟩ | ⟨r, t0, hi, ht0, rfl⟩
  · left
    simp only [St.insertC, St.tree_ok.2 hi, R.bind_ok]
  have hlt := lt_of_get hi
  obtain ⟨nd, hm, hht⟩ := ok.root i r hi
  have hrep : Rep E.M 1 t0 es := hh _ rfl
  unfold St.insertC
  simp only [St.tree_ok.2 hi, R.bind_ok, ht0]
  cases hc1 : check (!E.ix.lt (Node.size t0) idx) "cannot insert new slice, index out of bounds" with
  | error f =>
    left
    simp only [St.insert, St.tree_ok.2 hi, R.bind_ok, ht0, hc1]
    rfl
  | ok u1 =>
  cases hc2 : check (!E.ix.le z E.ix.zero) "cannot insert new slice, size is not greater than zero" with
  | error f =>
    left
    simp only [St.insert, St.tree_ok.2 hi, R.bind_ok, ht0, hc1, hc2]
    rfl
  | ok u2 =>
  have c1 := check_ok hc1
  have c2 := check_ok hc2
  rw [hE] at c1 c2
  have hidx : idx ≤ total es := by
    have hsz : Node.size t0 = total es := hrep.size
    rw [← hsz]
    simpa [natIdx, IdxOps.lt, Nat.compare_eq_lt] using c1
  have hs : 0 < z := by
    simpa [natIdx, IdxOps.le, Nat.compare_eq_gt] using c2
  have hpos : 0 < held st.trees r.p := by
    have := held_one hi r.p
    simp only [rootW, if_true] at this
    omega
  simp only [R.bind_ok]
  rcases descend_spec (imax := imax) (s := ⟨st.heap, r, left, [], []⟩) hE ok.inv hm hht hpos ht0 hrep hp hidx hints s with
    ⟨s', e⟩ | ⟨s', t', es', d, made, gone, e, e1, e2, e3, e4, e5, e6, e7, e8⟩ | ⟨s', e⟩
  · left
    simp only [e, caught, R.bind_ok]
  · right; left
    simp only [List.nil_append] at e5 e6
    subst e5 e6
    obtain ⟨t1, g1, g2⟩ := e3.read
    obtain ⟨H', ⟨h', p', len'⟩, left', made, gone⟩ := s'
    have eh : h' = r.h := e3.h
    subst eh
    simp only at e2 g1 e7 e8
    simp only [e, caught, if_true, R.bind_ok, R.pure_eq]
    let v : Option (Option CRoot) := some (some ⟨r.h, p', len'⟩)
    have hself : (st.trees.set i v)[i]? = some v := List.getElem?_set_self hlt
    have hset : ∀ j, j ≠ i → (st.trees.set i v)[j]? = st.trees[j]? := fun j hji => List.getElem?_set_ne (Ne.symm hji)
    have hoth : ∀ (j : Nat) (rj : CRoot), j ≠ i → st.trees[j]? = some (some (some rj)) → (if rj.p = r.p then 1 else 0) < held st.trees rj.p := by
      intro j rj hji hj
      have := held_two hi hj hji rj.p
      simp only [rootW, if_true] at this
      omega
    have hinv : Inv H' (held (st.trees.set i v)) := e3.inv _ (fun x => held_set hi v x)
    refine ⟨⟨H', st.trees.set i v⟩, ⟨r.h, t0, r.len⟩, ⟨r.h, t1, len'⟩, es', d, made, gone, rfl, rfl,
      St.view_some (r := ⟨r.h, p', len'⟩) hself g1, ⟨hinv, fun j rj hj => ?_⟩, by simp, fun j hji hjl => ⟨hset j hji, fun tj htj => ?_⟩, hidx, hs, e2,
      g2.rep e4, e7, e8⟩
    · dsimp only at hj
      by_cases hji : j = i
      · subst hji
        rw [hself] at hj
        obtain rfl : (⟨r.h, p', len'⟩ : CRoot) = rj := by
          simpa [v] using hj
        exact e3.root
      · rw [hset j hji] at hj
        obtain ⟨n0, h1, h2⟩ := ok.root j rj hj
        obtain ⟨u0, hu0⟩ := ok.inv.read h1 rfl
        obtain ⟨n1, _, k1, k2, -⟩ := e3.oth _ n0 u0 h1 (hoth j rj hji hj) hu0
        exact ⟨n1, k1, by rw [k2, h2]⟩
    · rcases St.view_cases htj with ⟨hn, rfl⟩ | ⟨rj, u0, hn, hu0, rfl⟩
      · exact ⟨_, St.view_none (by dsimp only; rw [hset j hji]; exact hn), RleTree.Alike.rfl' _⟩
      · obtain ⟨n0, h1, h2⟩ := ok.root j rj hn
        obtain ⟨cnt, hgt, zz, ks, kd⟩ := n0
        simp only at h2
        subst h2
        obtain ⟨n1, u1, k1, k2, k3, k4⟩ := e3.oth _ _ u0 h1 (hoth j rj hji hn) hu0
        exact ⟨_, St.view_some (by dsimp only; rw [hset j hji]; exact hn) k3, ⟨rfl, rfl, k4⟩⟩
  · right; right
    simp only [e, caught]
    rfl

/-! ## Trees that do not share nodes -/

section Calm
variable {I : Type}

/-- Does not panic, if no node is shared. -/
def Calm {α : Type} (m : CM I S α) : Prop :=
  ∀ s, Uno s.heap → (∃ a s', m s = (s', .ok a) ∧ Uno s'.heap) ∨ ∃ e s', m s = (s', .error e) ∧ ∃ msg, e = .ub msg

theorem Calm.bind {α β : Type} {m : CM I S α} {f : α → CM I S β} (h : Calm m) (g : ∀ a, Calm (f a)) : Calm (m >>= f) := by
  intro s u
  rcases h s u with ⟨a, s', e, u'⟩ | ⟨e, s', h1, h2⟩
  · rw [CM.bind_ok e]
    exact g a s' u'
  · exact .inr ⟨e, s', CM.bind_error h1, h2⟩

theorem Calm.pure {α : Type} (a : α) : Calm (CM.pure a : CM I S α) := fun s u => .inl ⟨a, s, rfl, u⟩

theorem Calm.unwind {α : Type} {m : CM I S α} (h : Calm m) (vs : List S) : Calm (CM.unwind (CM.destroy vs) m) := by
  intro s u
  rcases h s u with ⟨a, s', e, u'⟩ | ⟨e, s', h1, h2⟩
  · exact .inl ⟨a, s', CM.unwind_ok e, u'⟩
  · exact .inr ⟨e, _, CM.unwind_error h1 rfl, h2⟩

theorem Calm.lift {α : Type} {r : R α} (h : ∀ e, r = .error e → ∃ msg, e = .ub msg) : Calm (CM.lift r : CM I S α) := by
  intro s u
  cases r with
  | ok a => exact .inl ⟨a, s, rfl, u⟩
  | error e => exact .inr ⟨e, s, rfl, h e rfl⟩

theorem Calm.onHeap {α : Type} {f : Heap I S → R (Heap I S × α)} (h : ∀ H H' a, Uno H → f H = .ok (H', a) → Uno H')
    (h' : ∀ H e, f H = .error e → ∃ msg, e = .ub msg) : Calm (CM.onHeap f) := by
  intro s u
  cases hf : f s.heap with
  | ok r =>
    obtain ⟨H', a⟩ := r
    exact .inl ⟨a, _, CM.onHeap_ok hf, h _ _ _ u hf⟩
  | error e => exact .inr ⟨e, s, CM.onHeap_error hf, h' _ _ hf⟩

theorem get_error {H : Heap I S} {p : Nat} {e : Fault} (h : H.get p = .error e) : ∃ msg, e = .ub msg := by
  unfold Heap.get at h
  split at h
  · cases h
  · cases h; exact ⟨_, rfl⟩

theorem calm_ensureUniqueC (M imax h p : Nat) : Calm (ensureUniqueC M imax h p : CM I S Nat) := by
  intro s u
  unfold ensureUniqueC
  cases hm : s.heap.mem p with
  | none =>
    right
    refine ⟨.ub "access to a freed node", s, CM.bind_error (CM.onHeap_error ?_), _, rfl⟩
    simp [Heap.get, hm]
  | some nd =>
    left
    refine ⟨p, s, ?_, u⟩
    rw [CM.bind_ok (cm_get_ok hm), if_pos (u p nd hm)]
    rfl

theorem put_uno {H : Heap I S} (u : Uno H) {p : Nat} {nd : HNode I S} (h : nd.count = 1) : Uno (H.put p nd) := by
  intro x n hx
  simp only [Heap.put] at hx
  split at hx
  · cases hx; exact h
  · exact u x n hx

theorem calm_unshareDownC (M imax : Nat) (path : List Nat) : ∀ h p, Calm (unshareDownC M imax path h p : CM I S Nat) := by
  induction path with
  | nil => intro h p; exact .pure p
  | cons c path ih =>
    intro h p
    unfold unshareDownC
    refine .bind (.onHeap (fun H H' a u e => ?_) (fun H e he => ?_)) (fun q => .bind (calm_ensureUniqueC _ _ _ _) (fun q' =>
      .bind (.onHeap (fun H H' a u e => ?_) (fun H e he => ?_)) (fun _ => ih _ _)))
    · simp only [childPtr, bind_ok_iff] at e
      obtain ⟨nd, _, e⟩ := e
      split at e
      · cases e
      · cases e; exact u
    · unfold childPtr at he
      cases hg : H.get p with
      | error f => rw [hg] at he; cases he; exact get_error hg
      | ok nd =>
        rw [hg] at he
        simp only [R.bind_ok] at he
        split at he
        · cases he; exact ⟨_, rfl⟩
        · cases he
    · simp only [setChildPtr, bind_ok_iff] at e
      obtain ⟨nd, h1, e⟩ := e
      cases e
      exact put_uno u (u p nd (get_ok.1 h1))
    · unfold setChildPtr at he
      cases hg : H.get p with
      | error f => rw [hg] at he; cases he; exact get_error hg
      | ok nd => rw [hg] at he; cases he

theorem calm_makeRootUnique (M imax : Nat) : Calm (makeRootUnique M imax : CM I S Nat) := by
  intro s u
  unfold makeRootUnique
  rcases calm_ensureUniqueC M imax s.root.h s.root.p s u with ⟨a, s', e, u'⟩ | ⟨e, s', h1, h2⟩
  · rw [e]; exact .inl ⟨a, _, rfl, u'⟩
  · rw [h1]; exact .inr ⟨e, s', rfl, h2⟩

theorem calm_goDown (M imax h : Nat) (path : List Nat) : Calm (do
    let p ← makeRootUnique M imax
    unshareDownC M imax path h p : CM I S Nat) :=
  .bind (calm_makeRootUnique M imax) (fun _ => calm_unshareDownC _ _ _ _ _)

end Calm

/-- An insertion into a tree that shares nothing clones nothing. -/
theorem insertC_uno {MAX imax : Nat} {E : Env Nat S} (hE : E.ix = natIdx MAX) {st : St Nat S} (ok : st.Ok) (u : Uno st.heap) {i : Nat}
    {t : RleTree Nat S} (hv : st.view i = .ok t) {es : List (Ent S)} (hp : Pos es) (hh : ∀ r, t.root = some r → Rep E.M 1 r.tree es)
    (left : Nat) (nop : Bool) (hints : List Nat) (idx : Nat) (s : S) (z : Nat) :
    st.insertC E imax left i nop hints idx s z = (do
      let st' ← st.insert E imax i nop hints idx s z
      pure (st', .returned)) := by
  rcases St.view_cases hv with ⟨hi, rfl⟩ | ⟨r, t0, hi, ht0, rfl⟩
  · simp only [St.insertC, St.tree_ok.2 hi, R.bind_ok]
  obtain ⟨nd, hm, hht⟩ := ok.root i r hi
  have hrep : Rep E.M 1 t0 es := hh _ rfl
  unfold St.insertC
  simp only [St.tree_ok.2 hi, R.bind_ok, ht0]
  cases hc1 : check (!E.ix.lt (Node.size t0) idx) "cannot insert new slice, index out of bounds" with
  | error f =>
    simp only [St.insert, St.tree_ok.2 hi, R.bind_ok, ht0, hc1]
    rfl
  | ok u1 =>
  cases hc2 : check (!E.ix.le z E.ix.zero) "cannot insert new slice, size is not greater than zero" with
  | error f =>
    simp only [St.insert, St.tree_ok.2 hi, R.bind_ok, ht0, hc1, hc2]
    rfl
  | ok u2 =>
  have c1 := check_ok hc1
  rw [hE] at c1
  have hidx : idx ≤ total es := by
    have hsz : Node.size t0 = total es := hrep.size
    rw [← hsz]
    simpa [natIdx, IdxOps.lt, Nat.compare_eq_lt] using c1
  obtain ⟨pt, p1, p2⟩ := findPoint_spec (MAX := MAX) (m := Maps.identity (natIdx MAX)) (ctx := .top)
    (hints := some hints) (lhs := none) (rhs := none) (L := []) (R := []) hE rfl hrep hp hidx
    ⟨rfl, rfl, rfl⟩ (fun _ => ⟨trivial, trivial⟩)
  have calm : Calm (descend E imax t0 hints idx s) := by
    unfold descend
    rw [p1]
    refine .bind (.lift (fun e he => by cases he)) (fun pt => ?_)
    cases pt with
    | edge leaf ctx i l r => exact .bind (.unwind (calm_goDown _ _ _ _) _) (fun _ => .pure ())
    | split g n ctx k d =>
      refine .bind (.unwind (calm_goDown _ _ _ _) _) (fun q => .bind (.lift (fun e he => ?_)) (fun key => ?_))
      · unfold Node.handle at he
        split at he
        · cases he; exact ⟨_, rfl⟩
        · cases he
      · split
        · exact .pure ()
        · refine .bind (.onHeap (fun H H' a u e => ?_) (fun H e he => ?_)) (fun _ => .bind (fun s u => .inl ⟨(), _, rfl, u⟩) (fun _ =>
            .bind (.unwind (calm_unshareDownC _ _ _ _ _) _) (fun _ => .pure ())))
          · simp only [setKeySlice, bind_ok_iff] at e
            obtain ⟨nd, h1, e⟩ := e
            split at e
            · cases e
            · cases e
              exact put_uno u (u _ nd (get_ok.1 h1))
          · unfold setKeySlice at he
            cases hg : H.get q with
            | error f => rw [hg] at he; cases he; exact get_error hg
            | ok nd =>
              rw [hg] at he
              simp only [R.bind_ok] at he
              split at he
              · cases he; exact ⟨_, rfl⟩
              · cases he
  have hpos : 0 < held st.trees r.p := by
    have := held_one hi r.p
    simp only [rootW, if_true] at this
    omega
  simp only [R.bind_ok]
  have h1 := calm ⟨st.heap, r, left, [], []⟩ u
  rcases descend_spec (imax := imax) (s := ⟨st.heap, r, left, [], []⟩) hE ok.inv hm hht hpos ht0 hrep hp hidx hints s with
    ⟨s', e⟩ | ⟨s', t', es', d, made, gone, e, -⟩ | ⟨s', e⟩
  · simp only [e, caught, R.bind_ok]
  · rw [e] at h1
    rcases h1 with ⟨_, _, h1, -⟩ | ⟨_, _, h1, msg, rfl⟩ <;> cases h1
  · rw [e] at h1
    rcases h1 with ⟨_, _, h1, -⟩ | ⟨_, _, h1, msg, rfl⟩ <;> cases h1

/-! ## `clone` -/

/-- `clone` that copies all nodes, with the number of calls of `Clone` that return. -/
theorem clonePlainC_step {M : Nat} {I : Type} {st : St I S} (ok : st.Ok) {i : Nat} {r : CRoot} (hi : st.trees[i]? = some (some (some r)))
    {t : Tree I S (r.h + 1)} (ht : readT st.heap (r.h + 1) r.p = .ok t) (hcap : CapT M t) (left : Nat) :
    if (slicesT t).length ≤ left then
      st.clonePlainC M left i = (do
        let st' ← st.clonePlain i
        pure (st', .returned))
    else ∃ H ds, st.clonePlainC M left i = .ok ({ st with heap := H }, .panicked ((slicesT t).take left) ds) ∧
      (∀ x, H.mem x = st.heap.mem x) ∧ Inv H (held st.trees) ∧ ((slicesT t).take left).Perm (ds ++ leakedT t left) := by
  obtain ⟨nd, hm, hht⟩ := ok.root i r hi
  have h := deepCloneC_spec (M := M) r.h ⟨st.heap, r, left, [], []⟩ (held st.trees) r.p nd t ok.inv hm hht ht hcap
  simp only at h
  split at h
  · rename_i hl
    rw [if_pos hl]
    obtain ⟨H', p', e1, e2, -⟩ := h
    simp only [St.clonePlainC, St.clonePlain, St.tree_ok.2 hi, R.bind_ok, e2, caught, e1, R.pure_eq]
  · rename_i hl
    rw [if_neg hl]
    obtain ⟨H', ds, e1, e2, e3, e4⟩ := h
    refine ⟨H', ds, ?_, e2, e3, e4⟩
    simp only [St.clonePlainC, St.tree_ok.2 hi, R.bind_ok, e1, caught, if_true, R.pure_eq, List.nil_append]

/-- The same nodes. -/
theorem sameMem_step {I : Type} {st : St I S} (ok : st.Ok) {H : Heap I S} (hx : ∀ x, H.mem x = st.heap.mem x) (hi : Inv H (held st.trees)) :
    St.Ok { st with heap := H } ∧ ∀ j t, st.view j = .ok t → St.view { st with heap := H } j = .ok t := by
  refine ⟨⟨hi, fun j rj hj => ?_⟩, fun j t ht => ?_⟩
  · obtain ⟨nd, h1, h2⟩ := ok.root j rj hj
    exact ⟨nd, by rw [hx]; exact h1, h2⟩
  · rcases St.view_cases ht with ⟨hn, rfl⟩ | ⟨rj, u0, hn, hu0, rfl⟩
    · exact St.view_none (st := { st with heap := H }) hn
    · exact St.view_some (st := { st with heap := H }) hn (readT_ext (fun x nd h => by rw [hx]; exact h) hu0)

end Sherman.Cow
