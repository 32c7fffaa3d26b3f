import Verif.CowCost
import Verif.ClonePanicProps
/-!
# C45: a write copies only the way down to the changed nodes
-/
namespace Sherman.Cow
open Finset
variable {S : Type}

/-! ## Specification -/

/-- Between two states of memory: at most `w` nodes were written, none of them shared; at most `a` nodes are new; all others are as before,
except for their counts. -/
def Copies (H H' : Heap Nat S) (w a : Nat) : Prop :=
  ∃ X Y : List Nat, X.length ≤ w ∧ Y.length ≤ a ∧
    (∀ x nd, H.mem x = some nd → ∃ nd', H'.mem x = some nd' ∧
      ((nd'.size = nd.size ∧ nd'.keys = nd.keys ∧ nd'.kids = nd.kids ∧ nd'.height = nd.height) ∨ (x ∈ X ∧ nd.count = 1))) ∧
    ∀ x, H.mem x = none → H'.mem x ≠ none → x ∈ Y

/-! ## Nodes -/

/-- No node is shared: nothing is copied. -/
theorem unshareDown_uno_next {imax : Nat} {path : List Nat} {H H' : Heap Nat S} (u : Uno H) {h p : Nat}
    (hr : unshareDown imax path H h p = .ok H') : H'.next = H.next := by
  induction path generalizing H h p with
  | nil => cases hr; rfl
  | cons c path ih =>
    simp only [unshareDown, bind_ok_iff] at hr
    obtain ⟨nd, hm, hr⟩ := hr
    have hm := get_ok.1 hm
    split at hr
    · cases hr
    · rename_i q hq
      simp only [R.pure_eq, R.bind_ok, bind_ok_iff] at hr
      obtain ⟨⟨H1, q'⟩, h1, nd1, hm1, hr⟩ := hr
      rcases ensureUnique_uno (imax := imax) u (h - 1) q with e | e
      · rw [e] at h1; cases h1
        have := ih (H := H.put p { nd1 with kids := nd1.kids.set c q }) (fun x n hx => by
          simp only [Heap.put] at hx
          split at hx
          · cases hx; exact u p nd1 (get_ok.1 hm1)
          · exact u x n hx) hr
        exact this
      · rw [e] at h1; cases h1

theorem unshare_uno_next {imax : Nat} {path : List Nat} {H H' : Heap Nat S} (u : Uno H) {h p p' : Nat}
    (hr : unshare imax path H h p = .ok (H', p')) : H'.next = H.next := by
  simp only [unshare, bind_ok_iff] at hr
  obtain ⟨⟨H1, q'⟩, h1, _, h2, hr⟩ := hr
  cases hr
  rcases ensureUnique_uno (imax := imax) u h p with e | e
  · rw [e] at h1; cases h1
    exact unshareDown_uno_next u h2
  · rw [e] at h1; cases h1

/-- The first insertion into an empty tree makes one node. -/
theorem new_only {H : Heap Nat S} {t : Tree Nat S 1} (hp : Node.ptr t = H.next) {x n : Nat} (hx : x ≠ H.next) : (writeT H t n).mem x = H.mem x := by
  have e : ∀ l : List (Tree Nat S 0), l.flatMap (nodesT H (h := 0)) = [] := fun l => by
    rw [List.flatMap_eq_nil_iff]; intro a _; rfl
  have : nodesT H t = [(Node.ptr t, toHNode H t)] := by
    show (Node.ptr t, toHNode H t) :: (Node.kids t).flatMap (nodesT H (h := 0)) = _
    rw [e]
  simp only [writeT, this, hp]
  rw [List.lookup_cons, beq_eq_false_iff_ne.2 hx]
  rfl

/-- An insertion into a tree with `h` levels below its root. -/
theorem insert_cost {imax : Nat} {E : Env Nat S} {st st' : St Nat S} (ok : st.Ok) {i : Nat} {r : CRoot} (hi : st.trees[i]? = some (some (some r)))
    {t0 : Tree Nat S (r.h + 1)} (ht0 : readT st.heap (r.h + 1) r.p = .ok t0) {es : List (Ent S)} (hrep : Rep E.M 1 t0 es)
    {nop : Bool} {hints : List Nat} {idx : Nat} {s : S} {z : Nat} (h : st.insert E imax i nop hints idx s z = .ok st') :
    ∃ a, a ≤ 2 * r.h + 3 ∧ (Uno st.heap → a ≤ r.h + 2) ∧ Copies st.heap st'.heap (r.h + 1) a := by
  have hlt := lt_of_get hi
  obtain ⟨nd, hm, hht⟩ := ok.root i r hi
  simp only [St.insert, St.tree_ok.2 hi, R.bind_ok, ht0, bind_ok_iff] at h
  obtain ⟨_, _, _, _, path, hw, ⟨H', p'⟩, hun, t', ht', ⟨t2, o⟩, hr, h⟩ := h
  simp only at ht' hr h
  have hf : Fits t0 path := by
    rcases wayDown_fits (E := E) hrep (hints := hints) (idx := idx) (s := s) with ⟨path', hw', hf⟩ | ⟨f, h1, h2⟩
    · rw [hw] at hw'; cases hw'; exact hf
    · rw [hw] at h2; cases h2
  have hpos : 0 < held st.trees r.p := by
    have := held_one hi r.p
    simp only [rootW, if_true] at this
    omega
  rcases unshare_spec (imax := imax) ok.inv hm hht ht0 hf hpos with ⟨H2, p2, X, e, hinv, way, al, stay, ⟨nd', hm', hht'⟩, t1, ht1, alt⟩ | e
  swap
  · rw [hun] at e; cases e
  rw [hun] at e; cases e
  rw [ht'] at ht1; cases ht1
  let ts1 := st.trees.set i (some (some ⟨r.h, p', r.len⟩))
  have hi1 : Inv H' (held ts1) := hinv _ (fun x => held_set hi (some (some ⟨r.h, p', r.len⟩)) x)
  have hts1 : ts1[i]? = some (some (some ⟨r.h, p', r.len⟩)) := List.getElem?_set_self hlt
  have hpos1 : 0 < held ts1 p' := by
    have := held_one hts1 p'
    simp only [rootW, if_true] at this
    omega
  obtain ⟨r', e1, k1, k2, k3, k4, k5⟩ := insert_write hi1 way hm' hht' hpos1 ht' hr (by rw [← wayDown_alike alt]; exact hw)
  subst e1
  cases h
  obtain ⟨c1, c2⟩ := unshare_cost ok.inv hm hht ht0 hf hpos hun way
  have a1 := unshare_next hun
  have a2 := insert_next hr
  have a3 := hf.length
  have hnext := unshare_mono hun
  let i2 := k2 (held (st.trees.set i (some (some ⟨r'.h, ptrOf r'.tree, r'.len⟩)))) (fun x => by
    have g1 := held_set hi (some (some ⟨r.h, p', r.len⟩)) x
    have g2 := held_set hi (some (some ⟨r'.h, ptrOf r'.tree, r'.len⟩)) x
    simp only [rootW] at g1 g2
    show held (st.trees.set i (some (some ⟨r'.h, ptrOf r'.tree, r'.len⟩))) x + _ = held (st.trees.set i (some (some ⟨r.h, p', r.len⟩))) x + _
    omega)
  dsimp only at a2
  refine ⟨o.world.next - st.heap.next, by omega, fun u => by have := unshare_uno_next u hun; omega,
    X, List.range' st.heap.next (o.world.next - st.heap.next), by rw [way.length]; omega, by rw [List.length_range'],
    fun x n hx => ?_, fun x hx hx' => ?_⟩
  · obtain ⟨n1, d1, d2, d3⟩ := c1 x n hx
    by_cases hX : x ∈ X
    · have hlt1 := hi1.lt _ _ d1
      cases hm2 : (writeT H' r'.tree o.world.next).mem x with
      | none =>
        exfalso
        simp only [writeT] at hm2
        split at hm2
        · cases hm2
        · rw [d1] at hm2; cases hm2
      | some n2 => exact ⟨n2, hm2, .inr ⟨hX, d3 hX⟩⟩
    · have hsame := d2 hX
      refine ⟨n1, ?_, .inl ⟨hsame.2.1.symm, hsame.2.2.1.symm, hsame.2.2.2.symm, hsame.1.symm⟩⟩
      show (writeT H' r'.tree o.world.next).mem x = some n1
      rw [k4 x, d1]
      have := hi1.lt _ _ d1
      rintro (h | h)
      · exact hX h
      · omega
  · change (writeT H' r'.tree o.world.next).mem x ≠ none at hx'
    cases hm2 : (writeT H' r'.tree o.world.next).mem x with
    | none => exact absurd hm2 hx'
    | some n2 =>
      have hlt2 := i2.lt x n2 hm2
      have hge : st.heap.next ≤ x := by
        by_cases hxl : x < H'.next
        · obtain ⟨n0, g1, -⟩ := (k5 x n2 hm2).2 hxl
          exact c2 x hx (by rw [g1]; simp)
        · omega
      rw [List.mem_range'_1]
      simp only [writeT] at hlt2
      omega

/-! ## Calls of `Clone` -/

/-- No node is larger than it may be. -/
def Small {I : Type} (M : Nat) (H : Heap I S) : Prop := ∀ x nd, H.mem x = some nd → nd.keys.length ≤ 2 * M

section Thrifty
variable {I : Type}

theorem put_small {M : Nat} {H : Heap I S} (u : Small M H) {p : Nat} {nd : HNode I S} (h : nd.keys.length ≤ 2 * M) : Small M (H.put p nd) := by
  intro x n hx
  simp only [Heap.put] at hx
  split at hx
  · cases hx; exact h
  · exact u x n hx

theorem get_notUser {H : Heap I S} {p : Nat} {e : Fault} (h : H.get p = .error e) : e ≠ userPanic := by
  obtain ⟨msg, rfl⟩ := get_error h
  exact fun h => by cases h

theorem increment_small {M imax : Nat} {H : Heap I S} (u : Small M H) (p : Nat) :
    (∃ H', increment imax H p = .ok H' ∧ Small M H') ∨ ∃ e, increment imax H p = .error e ∧ e ≠ userPanic := by
  cases hm : H.mem p with
  | none => exact .inr ⟨.ub "access to a freed node", by simp only [increment, Heap.get, hm]; rfl, fun h => by cases h⟩
  | some nd =>
    rw [increment_spec hm]
    split
    · exact .inr ⟨_, rfl, fun h => by simp [tooMany, userPanic] at h⟩
    · exact .inl ⟨_, rfl, put_small u (u p nd hm)⟩

theorem foldlM_small {M : Nat} {f : Heap I S → Nat → R (Heap I S)}
    (hf : ∀ H q, Small M H → (∃ H', f H q = .ok H' ∧ Small M H') ∨ ∃ e, f H q = .error e ∧ e ≠ userPanic) {l : List Nat} {H : Heap I S}
    (u : Small M H) : (∃ H', l.foldlM f H = .ok H' ∧ Small M H') ∨ ∃ e, l.foldlM f H = .error e ∧ e ≠ userPanic := by
  induction l generalizing H with
  | nil => exact .inl ⟨H, rfl, u⟩
  | cons a l ih =>
    rw [List.foldlM_cons]
    rcases hf H a u with ⟨H', e, u'⟩ | ⟨e, h1, h2⟩
    · rw [e]; exact ih u'
    · rw [h1]; exact .inr ⟨e, rfl, h2⟩

theorem dropRef_small {M : Nat} (h : Nat) : ∀ (H : Heap I S) (p : Nat), Small M H →
    (∃ H', dropRef h H p = .ok H' ∧ Small M H') ∨ ∃ e, dropRef h H p = .error e ∧ e ≠ userPanic := by
  have free : ∀ (H : Heap I S) (p : Nat), Small M H → Small M (H.free p) := fun H p u x n hx => by
    simp only [Heap.free] at hx
    split at hx
    · cases hx
    · exact u x n hx
  have less : ∀ (H : Heap I S) (p : Nat) (nd : HNode I S), Small M H → H.mem p = some nd →
      (∃ H', (do let c ← usub nd.count 1; pure (H.put p { nd with count := c })) = .ok H' ∧ Small M H') ∨
        ∃ e, (do let c ← usub nd.count 1; pure (H.put p { nd with count := c }) : R (Heap I S)) = .error e ∧ e ≠ userPanic := by
    intro H p nd u hm
    cases hu : usub nd.count 1 with
    | ok c => exact .inl ⟨_, rfl, put_small u (u p nd hm)⟩
    | error e =>
      refine .inr ⟨e, rfl, ?_⟩
      unfold usub at hu
      split at hu
      · cases hu
      · cases hu; simp [userPanic]
  induction h with
  | zero =>
    intro H p u
    cases hm : H.mem p with
    | none => exact .inr ⟨.ub "access to a freed node", by simp only [dropRef, Heap.get, hm]; rfl, fun h => by cases h⟩
    | some nd =>
      simp only [dropRef, get_ok.2 hm, R.bind_ok]
      split
      · exact .inl ⟨_, rfl, free H p u⟩
      · exact less H p nd u hm
  | succ h ih =>
    intro H p u
    cases hm : H.mem p with
    | none => exact .inr ⟨.ub "access to a freed node", by simp only [dropRef, Heap.get, hm]; rfl, fun h => by cases h⟩
    | some nd =>
      simp only [dropRef, get_ok.2 hm, R.bind_ok]
      split
      · exact foldlM_small ih (free H p u)
      · exact less H p nd u hm

theorem shallowClone_small {M imax h p : Nat} {H : Heap I S} (u : Small M H) {nd : HNode I S} (hm : H.mem p = some nd) :
    (∃ H' p', shallowClone imax H h p = .ok (H', p') ∧ Small M H') ∨ ∃ e, shallowClone imax H h p = .error e ∧ e ≠ userPanic := by
  simp only [shallowClone, get_ok.2 hm, R.bind_ok]
  have fin : ∀ H' : Heap I S, Small M H' → Small M (H'.alloc { nd with count := 1 }).1 := fun H' u' x n hx => by
    simp only [Heap.alloc] at hx
    split at hx
    · cases hx; exact u p nd hm
    · exact u' x n hx
  split
  · exact .inl ⟨_, _, rfl, fin H u⟩
  · rcases foldlM_small (f := fun H q => increment imax H q) (l := nd.kids) (fun H q u => increment_small u q) u with ⟨H', e, u'⟩ | ⟨e, h1, h2⟩
    · rw [e]; exact .inl ⟨_, _, rfl, fin H' u'⟩
    · rw [h1]; exact .inr ⟨e, rfl, h2⟩

/-- Calls `Clone` at most `n` times: it does not panic in `Clone` if that many calls return. -/
def Thrifty {α : Type} (M n : Nat) (m : CM I S α) : Prop :=
  ∀ s, Small M s.heap → n ≤ s.left → (∃ a s', m s = (s', .ok a) ∧ Small M s'.heap ∧ s.left ≤ s'.left + n) ∨
    ∃ e s', m s = (s', .error e) ∧ e ≠ userPanic

theorem Thrifty.bind {α β : Type} {M n k : Nat} {m : CM I S α} {f : α → CM I S β} (h : Thrifty M n m) (g : ∀ a, Thrifty M k (f a)) :
    Thrifty M (n + k) (m >>= f) := by
  intro s u hl
  rcases h s u (by omega) with ⟨a, s', e, u', l'⟩ | ⟨e, s', h1, h2⟩
  · rw [CM.bind_ok e]
    rcases g a s' u' (by omega) with ⟨b, s2, e2, u2, l2⟩ | ⟨e2, s2, h1, h2⟩
    · exact .inl ⟨b, s2, e2, u2, by omega⟩
    · exact .inr ⟨e2, s2, h1, h2⟩
  · exact .inr ⟨e, s', CM.bind_error h1, h2⟩

theorem Thrifty.mono {α : Type} {M n k : Nat} {m : CM I S α} (h : Thrifty M n m) (hk : n ≤ k) : Thrifty M k m := by
  intro s u hl
  rcases h s u (by omega) with ⟨a, s', e, u', l'⟩ | h
  · exact .inl ⟨a, s', e, u', by omega⟩
  · exact .inr h

theorem Thrifty.pure {α : Type} {M : Nat} (a : α) : Thrifty M 0 (CM.pure a : CM I S α) := fun s u _ => .inl ⟨a, s, rfl, u, by omega⟩

theorem Thrifty.unwind {α : Type} {M n : Nat} {m : CM I S α} (h : Thrifty M n m) (vs : List S) :
    Thrifty M n (CM.unwind (CM.destroy vs) m) := by
  intro s u hl
  rcases h s u hl with ⟨a, s', e, u'⟩ | ⟨e, s', h1, h2⟩
  · exact .inl ⟨a, s', CM.unwind_ok e, u'⟩
  · exact .inr ⟨e, _, CM.unwind_error h1 rfl, h2⟩

theorem Thrifty.lift {α : Type} {M : Nat} {r : R α} (h : ∀ e, r = .error e → e ≠ userPanic) : Thrifty M 0 (CM.lift r : CM I S α) := by
  intro s u _
  cases r with
  | ok a => exact .inl ⟨a, s, rfl, u, by omega⟩
  | error e => exact .inr ⟨e, s, rfl, h e rfl⟩

theorem Thrifty.onHeap {α : Type} {M : Nat} {f : Heap I S → R (Heap I S × α)} (h : ∀ H H' a, Small M H → f H = .ok (H', a) → Small M H')
    (h' : ∀ H e, Small M H → f H = .error e → e ≠ userPanic) : Thrifty M 0 (CM.onHeap f) := by
  intro s u _
  cases hf : f s.heap with
  | ok r =>
    obtain ⟨H', a⟩ := r
    exact .inl ⟨a, _, CM.onHeap_ok hf, h _ _ _ u hf, Nat.le_refl _⟩
  | error e => exact .inr ⟨e, s, CM.onHeap_error hf, h' _ _ u hf⟩

theorem thrifty_ensureUniqueC (M imax h p : Nat) : Thrifty M (2 * M) (ensureUniqueC M imax h p : CM I S Nat) := by
  intro s u hl
  unfold ensureUniqueC
  cases hm : s.heap.mem p with
  | none =>
    right
    refine ⟨.ub "access to a freed node", s, CM.bind_error (CM.onHeap_error ?_), fun h => by cases h⟩
    simp [Heap.get, hm]
  | some nd =>
    have hk := u p nd hm
    rw [CM.bind_ok (cm_get_ok hm)]
    split
    · exact .inl ⟨p, s, rfl, u, by omega⟩
    · have h := shallowCloneC_spec (imax := imax) (h := h) (M := M) hm hk
      rw [if_pos (by omega)] at h
      rcases h with ⟨H, p', e1, e2⟩ | ⟨e, s', e1, e2⟩
      · rw [CM.bind_ok e2]
        have uH : Small M H := by
          rcases shallowClone_small (imax := imax) (h := h) u hm with ⟨H', p', e, u'⟩ | ⟨e, h1, -⟩
          · rw [e1] at e; cases e; exact u'
          · rw [e1] at h1; cases h1
        rcases dropRef_small h H p uH with ⟨H', e, u'⟩ | ⟨e, h1, h2⟩
        · left
          refine ⟨p', _, (CM.bind_ok (CM.onHeap_ok (H := H') (a := ()) (by rw [e]; rfl))).trans rfl, u', ?_⟩
          show s.left ≤ s.left - nd.keys.length + 2 * M
          omega
        · right
          exact ⟨e, _, CM.bind_error (CM.onHeap_error (by rw [h1]; rfl)), h2⟩
      · rw [CM.bind_error e2]
        refine .inr ⟨e, s', rfl, ?_⟩
        rcases shallowClone_small (imax := imax) (h := h) u hm with ⟨H', p', h1, -⟩ | ⟨e', h1, h2⟩
        · rw [e1] at h1; cases h1
        · rw [e1] at h1; cases h1; exact h2

theorem thrifty_unshareDownC (M imax : Nat) (path : List Nat) :
    ∀ h p, Thrifty M (2 * M * path.length) (unshareDownC M imax path h p : CM I S Nat) := by
  induction path with
  | nil => intro h p; exact .pure p
  | cons c path ih =>
    intro h p
    unfold unshareDownC
    refine (Thrifty.bind (.onHeap (fun H H' a u e => ?_) (fun H e u he => ?_)) (fun q => .bind (thrifty_ensureUniqueC _ _ _ _) (fun q' =>
      .bind (.onHeap (fun H H' a u e => ?_) (fun H e u he => ?_)) (fun _ => ih _ _)))).mono ?_
    · simp only [childPtr, bind_ok_iff] at e
      obtain ⟨nd, _, e⟩ := e
      split at e
      · cases e
      · cases e; exact u
    · unfold childPtr at he
      cases hg : H.get p with
      | error f => rw [hg] at he; cases he; exact get_notUser hg
      | ok nd =>
        rw [hg] at he
        simp only [R.bind_ok] at he
        split at he
        · cases he; exact fun h => by cases h
        · cases he
    · simp only [setChildPtr, bind_ok_iff] at e
      obtain ⟨nd, h1, e⟩ := e
      cases e
      exact put_small u (u p nd (get_ok.1 h1))
    · unfold setChildPtr at he
      cases hg : H.get p with
      | error f => rw [hg] at he; cases he; exact get_notUser hg
      | ok nd => rw [hg] at he; cases he
    · rw [List.length_cons, Nat.mul_add]; omega

theorem thrifty_addLen (M d : Nat) : Thrifty M 0 (addLen d : CM I S Unit) := fun _ u _ => .inl ⟨(), _, rfl, u, Nat.le_refl _⟩

theorem thrifty_makeRootUnique (M imax : Nat) : Thrifty M (2 * M) (makeRootUnique M imax : CM I S Nat) := by
  intro s u hl
  unfold makeRootUnique
  rcases thrifty_ensureUniqueC M imax s.root.h s.root.p s u hl with ⟨a, s', e, u'⟩ | ⟨e, s', h1, h2⟩
  · rw [e]; exact .inl ⟨a, _, rfl, u'⟩
  · rw [h1]; exact .inr ⟨e, s', rfl, h2⟩

theorem thrifty_goDown (M imax h : Nat) (path : List Nat) : Thrifty M (2 * M + 2 * M * path.length) (do
    let p ← makeRootUnique M imax
    unshareDownC M imax path h p : CM I S Nat) :=
  .bind (thrifty_makeRootUnique M imax) (fun _ => thrifty_unshareDownC _ _ _ _ _)

end Thrifty

/-- The way down clones at most the slices of one node per level. -/
theorem descend_thrifty {E : Env Nat S} {imax h : Nat} {t : Tree Nat S (h + 1)} {es : List (Ent S)} (hr : Rep E.M 1 t es) (hints : List Nat)
    (idx : Nat) (slice : S) {pt : Point Nat S (h + 1)} (hp : findPoint E t .top (some hints) idx none none = .ok pt) :
    Thrifty E.M (2 * E.M * (h + 1)) (descend E imax t hints idx slice) := by
  obtain ⟨fq, f1, f2, f3⟩ := findPoint_fits hr hp
  have f1 : pt.path = fq := by rw [f1]; rfl
  subst f1
  unfold descend
  rw [hp]
  intro s u hl
  have hlift : (CM.lift (.ok pt) : CM Nat S (Point Nat S (h + 1))) s = (s, .ok pt) := rfl
  rw [CM.bind_ok hlift]
  cases pt with
  | edge leaf ctx i l r =>
    have a := f2.length
    have e : (Point.edge leaf ctx i l r).path = ctx.way := rfl
    rw [e] at a
    have b := Nat.mul_le_mul_left (2 * E.M) a
    rw [Nat.mul_add] at hl ⊢
    exact ((Thrifty.bind (.unwind (thrifty_goDown _ _ _ _) _) (fun _ => Thrifty.pure ())).mono (by omega)) s u (by omega)
  | split g n ctx k d =>
    obtain ⟨⟨key, hkey⟩, f4⟩ := f3 g n ctx k d rfl
    have a := f4.length
    have e : (Point.split g n ctx k d).path = ctx.way := rfl
    rw [e, List.length_append] at a
    have b := Nat.mul_le_mul_left (2 * E.M) a
    rw [Nat.mul_add] at b
    rw [Nat.mul_add] at hl ⊢
    refine ((Thrifty.bind (k := 2 * E.M * (rhsWay g k).length) (.unwind (thrifty_goDown _ _ _ _) _) (fun q =>
      .mono (.bind (k := 2 * E.M * (rhsWay g k).length) (.lift (fun e he => by rw [hkey] at he; cases he)) (fun key => ?_)) (by omega))).mono
      (by omega)) s u (by omega)
    split
    · exact (Thrifty.pure ()).mono (Nat.zero_le _)
    · refine (Thrifty.bind (.onHeap (fun H H' a u e => ?_) (fun H e u he => ?_)) (fun _ =>
        .bind (thrifty_addLen _ _) (fun _ =>
        .bind (.unwind (thrifty_unshareDownC _ _ _ _ _) _) (fun _ => .pure ())))).mono (n := 0 + (0 + (2 * E.M * (rhsWay g k).length + 0)))
        (k := 2 * E.M * (rhsWay g k).length) (by omega)
      · simp only [setKeySlice, bind_ok_iff] at e
        obtain ⟨nd, h1, e⟩ := e
        split at e
        · cases e
        · cases e
          exact put_small u (by simpa using u _ nd (get_ok.1 h1))
      · unfold setKeySlice at he
        cases hg : H.get q with
        | error f => rw [hg] at he; cases he; exact get_notUser hg
        | ok nd =>
          rw [hg] at he
          simp only [R.bind_ok] at he
          split at he
          · cases he; exact fun h => by cases h
          · cases he

/-- Some tree variable holds the node. -/
theorem held_ex {ts : List (Option (Option CRoot))} {x : Nat} (h : 0 < held ts x) : ∃ (i : Nat) (r : CRoot), ts[i]? = some (some (some r)) ∧ r.p = x := by
  unfold held at h
  have : (ts.map (rootW · x)).sum ≠ 0 := by omega
  rw [Ne, List.sum_eq_zero_iff] at this
  push Not at this
  obtain ⟨w, hw, hne⟩ := this
  obtain ⟨o, ho, rfl⟩ := List.mem_map.1 hw
  obtain ⟨i, hi⟩ := List.getElem?_of_mem ho
  match o, hi, hne with
  | some (some r), hi, hne =>
    refine ⟨i, r, hi, ?_⟩
    simp only [rootW] at hne
    by_contra hc
    exact hne (if_neg (fun h => hc h.symm))
  | some none, _, hne => exact absurd rfl hne
  | none, _, hne => exact absurd rfl hne

/-- All nodes in memory belong to trees, and have room for their keys. -/
theorem RelC.small {MAX : Nat} {E : Env Nat S} {cow : Bool} {st : St Nat S} {ss : ListsC S} (h : RelC MAX E cow st ss) : Small E.M st.heap := by
  have hi := h.ok.inv
  -- the root of a tree
  have top : ∀ x nd, st.heap.mem x = some nd → 0 < held st.trees x → ∀ t, readT st.heap (nd.height + 1) x = .ok t → CapT E.M t := by
    intro x nd hm hx t ht
    obtain ⟨i, r, hr, rfl⟩ := held_ex hx
    obtain ⟨n1, hm1, hh⟩ := h.ok.root i r hr
    rw [hm] at hm1; cases hm1
    have hlt := lt_of_get hr
    have hss : ∃ es d, ss[i]? = some (some (es, d)) := by
      rw [h.len] at hlt
      cases hs : ss[i]? with
      | none => rw [List.getElem?_eq_none_iff] at hs; omega
      | some o =>
        cases o with
        | none => rw [h.gone i hs] at hr; cases hr
        | some es => exact ⟨es.1, es.2, rfl⟩
    obtain ⟨es, d, hss⟩ := hss
    obtain ⟨tt, hv, hx, -⟩ := h.view i es d hss
    rcases St.view_cases hv with ⟨hi', rfl⟩ | ⟨r', t0, hi', ht0, rfl⟩
    · rw [hr] at hi'; cases hi'
    · rw [hr] at hi'; cases hi'
      obtain ⟨rh, rp, rl⟩ := r
      simp only at hh ht
      subst hh
      simp only at ht0
      rw [ht] at ht0; cases ht0
      exact CapT.ofRep (hx.rep _ rfl)
  obtain ⟨B, hB⟩ : ∃ B, ∀ x nd, st.heap.mem x = some nd → nd.height ≤ B := by
    refine ⟨(range st.heap.next).sup (fun y => match st.heap.mem y with | some n => n.height | none => 0), fun x nd hm => ?_⟩
    have := Finset.le_sup (f := fun y => match st.heap.mem y with | some n => n.height | none => 0) (Finset.mem_range.2 (hi.lt x nd hm))
    simpa only [hm] using this
  have all : ∀ k x nd, B - nd.height ≤ k → st.heap.mem x = some nd → ∀ t, readT st.heap (nd.height + 1) x = .ok t → CapT E.M t := by
    intro k
    induction k with
    | zero =>
      intro x nd hk hm t ht
      by_cases hx : 0 < held st.trees x
      · exact top x nd hm hx t ht
      · exfalso
        have hc := hi.cnt x
        have hp := hi.pos x nd hm
        rw [cnt_some hm] at hc
        obtain ⟨y, -, hy⟩ := Finset.exists_ne_zero_of_sum_ne_zero (show refsIn st.heap x ≠ 0 by omega)
        cases hz : st.heap.mem y with
        | none => rw [hz] at hy; exact hy rfl
        | some ny =>
          rw [hz] at hy
          obtain ⟨n1, g1, g2⟩ := hi.ht y ny hz x (List.count_pos_iff.1 (Nat.pos_of_ne_zero hy))
          rw [hm] at g1; cases g1
          have := hB y ny hz
          omega
    | succ k ih =>
      intro x nd hk hm t ht
      by_cases hx : 0 < held st.trees x
      · exact top x nd hm hx t ht
      · have hc := hi.cnt x
        have hp := hi.pos x nd hm
        rw [cnt_some hm] at hc
        obtain ⟨y, -, hy⟩ := Finset.exists_ne_zero_of_sum_ne_zero (show refsIn st.heap x ≠ 0 by omega)
        cases hz : st.heap.mem y with
        | none => rw [hz] at hy; exact absurd rfl hy
        | some ny =>
          rw [hz] at hy
          have hmem : x ∈ Cow.refsOf (some ny) := List.count_pos_iff.1 (Nat.pos_of_ne_zero hy)
          obtain ⟨n1, g1, g2⟩ := hi.ht y ny hz x hmem
          rw [hm] at g1; cases g1
          obtain ⟨ty, hty⟩ := hi.read hz rfl
          have cy := ih y ny (by omega) hz ty hty
          obtain ⟨nd', kids, m1, m2, rfl⟩ := readT_succ.1 hty
          rw [hz] at m1; cases m1
          have hxk : x ∈ ny.kids := by
            simp only [Cow.refsOf] at hmem
            split at hmem
            · cases hmem
            · exact hmem
          obtain ⟨j, hj, hjx⟩ := List.mem_iff_getElem.1 hxk
          have hlen := m2.length_eq
          have e := List.forall₂_iff_get.1 m2
          have := e.2 j hj (by omega)
          simp only [List.get_eq_getElem] at this
          rw [hjx] at this
          have key : ∀ hh, hh = nd.height + 1 → ∀ u : Tree Nat S hh, readT st.heap hh x = .ok u → CapT E.M u → CapT E.M t := by
            rintro hh rfl u hu hc
            rw [ht] at hu; cases hu
            exact hc
          exact key ny.height g2.symm _ this (cy.2.2 _ (List.getElem_mem _))
  intro x nd hm
  obtain ⟨t, ht⟩ := hi.read hm rfl
  have := all _ x nd (Nat.le_refl _) hm t ht
  obtain ⟨nd', kids, m1, m2, rfl⟩ := readT_succ.1 ht
  rw [hm] at m1; cases m1
  exact this.1

/-! ## Programs -/

/-- A tree of a program, and the height of its nodes. -/
theorem RelC.height {MAX : Nat} {E : Env Nat S} {cow : Bool} {st : St Nat S} {ss : ListsC S} (h : RelC MAX E cow st ss) {i : Nat}
    {es : List (Ent S)} (hi : runsOf st i = .ok es) :
    (st.trees[i]? = some (some none) ∧ es = []) ∨
    ∃ (r : CRoot) (t : Tree Nat S (r.h + 1)), st.trees[i]? = some (some (some r)) ∧ readT st.heap (r.h + 1) r.p = .ok t ∧ Rep E.M 1 t es ∧
      st.view i = .ok ⟨some ⟨r.h, t, r.len⟩⟩ ∧ Pos es ∧ 2 * (E.M + 1) ^ r.h ≤ es.length + 1 := by
  obtain ⟨d, hd⟩ := h.slot hi
  obtain ⟨tt, hv, hx, -⟩ := h.view i es d hd
  rcases St.view_cases hv with ⟨hi', rfl⟩ | ⟨r, t0, hi', ht0, rfl⟩
  · exact .inl ⟨hi', hx.2.1⟩
  · have hrep : Rep E.M 1 t0 es := hx.rep _ rfl
    exact .inr ⟨r, t0, hi', ht0, hrep, hv, hx.1, hrep.countRoot⟩

/-- C45: an insertion into a tree with `n` runs, by any program that may have caught panics.  There is `h` with `2 * (M + 1) ^ h ≤ n + 2`, such
that: at most `h + 1` nodes of before are written, none of which is shared with another tree; at most `2 * h + 3` nodes are new, `h + 2` if no
nodes were shared; everything else in memory is as before, except for counts. -/
theorem insert_copies_path {MAX imax : Nat} {E : Env Nat S} (hE : E.ix = natIdx MAX) (hM : 1 ≤ E.M) (hM' : E.M ≤ 127) {cow : Bool}
    {ops : List (Op Nat S × Nat)} (hops : ∀ op ∈ ops, op.1.fits MAX) {st st' : St Nat S} {ends : List (Ended S)}
    (h : St.runC E imax cow St.init ops = .ok (st, ends)) {i : Nat} {es : List (Ent S)} (hi : runsOf st i = .ok es)
    {nop : Bool} {hints : List Nat} {idx : Nat} {s : S} {z left : Nat}
    (h' : st.stepC E imax cow (.insert i nop hints idx s z, left) = .ok (st', .returned)) :
    ∃ k a, 2 * (E.M + 1) ^ k ≤ es.length + 2 ∧ a ≤ 2 * k + 3 ∧ (cow = false → a ≤ k + 2) ∧ Copies st.heap st'.heap (k + 1) a := by
  obtain ⟨ss, -, h2⟩ := runC_sound hE hM hM' hops h
  have h' : st.insertC E imax left i nop hints idx s z = .ok (st', .returned) := h'
  rcases h2.height hi with ⟨hi', rfl⟩ | ⟨r, t, hi', ht, hrep, hv, hp, hh⟩
  · simp only [St.insertC, St.tree_ok.2 hi', R.bind_ok, bind_ok_iff] at h'
    obtain ⟨st1, h1, h3⟩ := h'
    cases h3
    refine ⟨0, 1, by simp, by omega, fun _ => by omega, ?_⟩
    simp only [St.insert, St.tree_ok.2 hi', R.bind_ok, bind_ok_iff] at h1
    obtain ⟨⟨t2, o⟩, hr, h1⟩ := h1
    obtain ⟨t', rfl, e1, e2⟩ := insert_first hr
    simp only [e2] at h1
    cases h1
    obtain ⟨k1, -, -, k4⟩ := new_write (out' := fun x => held st.trees x + (if x = st.heap.next then 1 else 0)) h2.ok.inv (t := t') e1
      (fun x => rfl)
    refine ⟨[], [st.heap.next], by simp, by simp, fun x nd hx => ⟨nd, k4 x nd hx, .inl ⟨rfl, rfl, rfl, rfl⟩⟩, fun x hx hx' => ?_⟩
    obtain ⟨n2, hn⟩ := Option.ne_none_iff_exists'.1 hx'
    by_contra hne
    have hne : x ≠ st.heap.next := by simpa using hne
    have k := new_only e1 hne (n := st.heap.next + 1)
    change (writeT st.heap t' (st.heap.next + 1)).mem x = _ at hn
    rw [k, hx] at hn
    cases hn
  · have hins : st.insert E imax i nop hints idx s z = .ok st' := by
      rcases insertC_step (imax := imax) hE h2.ok hv hp (fun r' hr' => by cases hr'; exact hrep) left nop hints idx s z with e | ⟨_, _, _, _, _, _, _, e, -⟩ | e
      · rw [h'] at e
        simp only [bind_ok_iff, eq_comm (a := Except.ok (st', Ended.returned))] at e
        obtain ⟨st1, e1, e2⟩ := e
        cases e2
        exact e1
      · rw [h'] at e; cases e
      · rw [h'] at e; cases e
    obtain ⟨a, a1, a2, a3⟩ := insert_cost h2.ok hi' ht hrep hins
    exact ⟨r.h, a, by omega, a1, fun hc => a2 (h2.uno hc), a3⟩

/-- C45: such an insertion calls `Clone` at most `2 * M * (h + 1)` times, for such an `h`: if that many calls return then it does not panic in
`Clone`. -/
theorem insert_clones_path {MAX imax : Nat} {E : Env Nat S} (hE : E.ix = natIdx MAX) (hM : 1 ≤ E.M) (hM' : E.M ≤ 127) {cow : Bool}
    {ops : List (Op Nat S × Nat)} (hops : ∀ op ∈ ops, op.1.fits MAX) {st : St Nat S} {ends : List (Ended S)}
    (h : St.runC E imax cow St.init ops = .ok (st, ends)) {i : Nat} {es : List (Ent S)} (hi : runsOf st i = .ok es) :
    ∃ k, 2 * (E.M + 1) ^ k ≤ es.length + 2 ∧ ∀ (nop : Bool) (hints : List Nat) (idx : Nat) (s : S) (z left : Nat) (st' : St Nat S) (e : Ended S),
      2 * E.M * (k + 1) ≤ left → st.stepC E imax cow (.insert i nop hints idx s z, left) = .ok (st', e) → e = .returned := by
  obtain ⟨ss, -, h2⟩ := runC_sound hE hM hM' hops h
  rcases h2.height hi with ⟨hi', rfl⟩ | ⟨r, t, hi', ht, hrep, hv, hp, hh⟩
  · refine ⟨0, by simp, fun nop hints idx s z left st' e hl h' => ?_⟩
    have h' : st.insertC E imax left i nop hints idx s z = .ok (st', e) := h'
    simp only [St.insertC, St.tree_ok.2 hi', R.bind_ok, bind_ok_iff] at h'
    obtain ⟨st1, h1, h3⟩ := h'
    cases h3
    rfl
  · refine ⟨r.h, by omega, fun nop hints idx s z left st' e hl h' => ?_⟩
    have h' : st.insertC E imax left i nop hints idx s z = .ok (st', e) := h'
    simp only [St.insertC, St.tree_ok.2 hi', R.bind_ok, ht, bind_ok_iff] at h'
    obtain ⟨_, hc1, _, hc2, ⟨s', o⟩, hc, h'⟩ := h'
    have c1 := check_ok hc1
    rw [hE] at c1
    have hidx : idx ≤ total es := by
      have hsz : Node.size t = total es := hrep.size
      rw [← hsz]
      simpa [natIdx, IdxOps.lt, Nat.compare_eq_lt] using c1
    obtain ⟨pt, p1, p2⟩ := findPoint_spec (MAX := MAX) (m := Maps.identity (natIdx MAX)) (ctx := .top)
      (hints := some hints) (lhs := none) (rhs := none) (L := []) (R := []) hE rfl hrep hp hidx
      ⟨rfl, rfl, rfl⟩ (fun _ => ⟨trivial, trivial⟩)
    rcases descend_thrifty (imax := imax) hrep hints idx s p1 ⟨st.heap, r, left, [], []⟩ h2.small hl with ⟨a, s2, e1, -⟩ | ⟨e1, s2, k1, k2⟩
    · rw [e1] at hc
      simp only [caught] at hc
      cases hc
      simp only [bind_ok_iff] at h'
      obtain ⟨st1, h1, h3⟩ := h'
      cases h3
      rfl
    · rw [k1] at hc
      simp only [caught, if_neg k2] at hc
      cases hc

/-- C45: `clone` of a copy-on-write tree calls no `Clone`, and makes no node. -/
theorem cow_clone_free {E : Env Nat S} {imax : Nat} {st st' : St Nat S} {i left : Nat} {e : Ended S}
    (h' : st.stepC E imax true (.clone i, left) = .ok (st', e)) : e = .returned ∧ Copies st.heap st'.heap 0 0 := by
  simp only [St.stepC, if_true, bind_ok_iff] at h'
  obtain ⟨st1, h1, h3⟩ := h'
  cases h3
  refine ⟨rfl, [], [], by simp, by simp, ?_⟩
  simp only [St.cloneCow, bind_ok_iff] at h1
  obtain ⟨o, -, h1⟩ := h1
  cases o with
  | none =>
    cases h1
    exact ⟨fun x nd hx => ⟨nd, hx, .inl ⟨rfl, rfl, rfl, rfl⟩⟩, fun x hx hx' => absurd hx hx'⟩
  | some r =>
    simp only [bind_ok_iff] at h1
    obtain ⟨H, h2, h1⟩ := h1
    cases h1
    simp only [increment, bind_ok_iff] at h2
    obtain ⟨nd, hg, _, -, h2⟩ := h2
    cases h2
    have hm := get_ok.1 hg
    refine ⟨fun x n hx => ?_, fun x hx hx' => ?_⟩
    · by_cases hxp : x = r.p
      · subst hxp
        rw [hm] at hx; cases hx
        exact ⟨{ nd with count := nd.count + 1 }, by simp [Heap.put], .inl ⟨rfl, rfl, rfl, rfl⟩⟩
      · exact ⟨n, by simp [Heap.put, hxp, hx], .inl ⟨rfl, rfl, rfl, rfl⟩⟩
    · by_cases hxp : x = r.p
      · subst hxp
        rw [hm] at hx; cases hx
      · simp [Heap.put, hxp, hx] at hx'

/-! ## An example -/

/-- Addresses given out, and those of the nodes that are shared, after a program. -/
def nodesAfter (cow : Bool) (prog : List (Op Nat (List Char) × Nat)) : Option (Nat × List Nat) := do
  let (st, _) ← (St.runC textEnv 1000 cow St.init prog).toOption
  some (st.heap.next, (List.range st.heap.next).filter (fun q => match st.heap.mem q with
    | some nd => nd.count ≠ 1
    | none => false))

/-- Three texts in three nodes; all are shared after `clone`, the root itself and what is below it through the root. -/
example : nodesAfter true (textProg ++ [(.clone 0, 0)]) = some (3, [2]) := by decide +kernel

/-- An insertion into the clone, with `M = 1`, `h = 1`: it returns with `2 * M * (h + 1)` calls of `Clone` allowed; the root and one leaf
were copied, the leaf was split. -/
example : lastOf true (textProg ++ [(.clone 0, 0), (.insert 1 false [] 6 ['x'] 1, 4)]) 1 =
      some ⟨none, [(4, ['a', 'a', 'a', 'a']), (2, ['b', 'b']), (1, ['x']), (2, ['b', 'b']), (4, ['c', 'c', 'c', 'c'])], 5⟩ ∧
    nodesAfter true (textProg ++ [(.clone 0, 0), (.insert 1 false [] 6 ['x'] 1, 4)]) = some (6, [0]) := by decide +kernel

/-- The other hypotheses of the theorems above are met. -/
example : textEnv.ix = natIdx 255 ∧ 1 ≤ textEnv.M ∧ textEnv.M ≤ 127 ∧ ∀ op ∈ textProg ++ [(.clone 0, 0)], op.1.fits 255 := by
  refine ⟨rfl, by decide, by decide, ?_⟩
  intro op h
  simp only [textProg, List.cons_append, List.nil_append, List.mem_cons, List.not_mem_nil, or_false] at h
  rcases h with rfl | rfl | rfl | rfl | rfl <;> simp [Op.fits]

end Sherman.Cow
