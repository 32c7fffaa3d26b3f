import Verif.CowProps
import Verif.AllocBound
/-!
# What an insertion copies

The way down is made unique; everything else stays where it is.
-/
namespace Sherman.Cow
open Finset
variable {I S : Type}

/-! ## Allocations -/

theorem increment_next {imax : Nat} {H H' : Heap I S} {p : Nat} (h : increment imax H p = .ok H') : H'.next = H.next := by
  simp only [increment, bind_ok_iff] at h
  obtain ⟨_, _, _, _, h⟩ := h
  cases h
  rfl

theorem foldlM_next {α : Type} {f : Heap I S → α → R (Heap I S)} (hf : ∀ H a H', f H a = .ok H' → H'.next = H.next) {l : List α}
    {H H' : Heap I S} (h : l.foldlM f H = .ok H') : H'.next = H.next := by
  induction l generalizing H with
  | nil => cases h; rfl
  | cons a l ih =>
    rw [List.foldlM_cons, bind_ok_iff] at h
    obtain ⟨H1, h1, h⟩ := h
    rw [ih h, hf _ _ _ h1]

theorem dropRef_nextC {h : Nat} : ∀ {H H' : Heap I S} {p : Nat}, dropRef h H p = .ok H' → H'.next = H.next := by
  induction h with
  | zero =>
    intro H H' p h
    simp only [dropRef, bind_ok_iff] at h
    obtain ⟨_, _, h⟩ := h
    split at h
    · cases h; rfl
    · simp only [bind_ok_iff] at h
      obtain ⟨_, _, h⟩ := h
      cases h; rfl
  | succ n ih =>
    intro H H' p h
    simp only [dropRef, bind_ok_iff] at h
    obtain ⟨_, _, h⟩ := h
    split at h
    · rw [foldlM_next (fun _ _ _ h => ih h) h]; rfl
    · simp only [bind_ok_iff] at h
      obtain ⟨_, _, h⟩ := h
      cases h; rfl

theorem shallowClone_next {imax h p p' : Nat} {H H' : Heap I S} (hr : shallowClone imax H h p = .ok (H', p')) : H'.next = H.next + 1 := by
  simp only [shallowClone, bind_ok_iff] at hr
  obtain ⟨nd, _, hr⟩ := hr
  split at hr
  · simp only [R.pure_eq, R.bind_ok] at hr
    cases hr; rfl
  · simp only [bind_ok_iff] at hr
    obtain ⟨H1, h1, hr⟩ := hr
    cases hr
    have := foldlM_next (fun _ _ _ h => increment_next h) h1
    simp [Heap.alloc, this]

theorem ensureUnique_next {imax h p p' : Nat} {H H' : Heap I S} (hr : ensureUnique imax H h p = .ok (H', p')) : H'.next ≤ H.next + 1 := by
  simp only [ensureUnique, bind_ok_iff] at hr
  obtain ⟨nd, _, hr⟩ := hr
  split at hr
  · cases hr; omega
  · simp only [bind_ok_iff] at hr
    obtain ⟨⟨H1, p1⟩, h1, H2, h2, hr⟩ := hr
    cases hr
    rw [dropRef_nextC h2, shallowClone_next h1]

theorem unshareDown_next {imax : Nat} {path : List Nat} {h p : Nat} {H H' : Heap I S} (hr : unshareDown imax path H h p = .ok H') :
    H'.next ≤ H.next + path.length := by
  induction path generalizing h p H with
  | nil => cases hr; simp
  | cons c path ih =>
    simp only [unshareDown, bind_ok_iff] at hr
    obtain ⟨nd, _, hr⟩ := hr
    split at hr
    · cases hr
    simp only [R.pure_eq, R.bind_ok, bind_ok_iff] at hr
    obtain ⟨⟨H1, q'⟩, h1, _, _, hr⟩ := hr
    have e1 := ensureUnique_next h1
    have e2 := ih hr
    simp only [Heap.put, List.length_cons] at e2 ⊢
    omega

theorem unshare_next {imax : Nat} {path : List Nat} {h p p' : Nat} {H H' : Heap I S} (hr : unshare imax path H h p = .ok (H', p')) :
    H'.next ≤ H.next + (path.length + 1) := by
  simp only [unshare, bind_ok_iff] at hr
  obtain ⟨⟨H1, q'⟩, h1, _, h2, hr⟩ := hr
  cases hr
  have e1 := ensureUnique_next h1
  have e2 := unshareDown_next h2
  dsimp only at e2
  omega

theorem ensureUnique_mono {imax h p p' : Nat} {H H' : Heap I S} (hr : ensureUnique imax H h p = .ok (H', p')) : H.next ≤ H'.next := by
  simp only [ensureUnique, bind_ok_iff] at hr
  obtain ⟨nd, _, hr⟩ := hr
  split at hr
  · cases hr; omega
  · simp only [bind_ok_iff] at hr
    obtain ⟨⟨H1, p1⟩, h1, H2, h2, hr⟩ := hr
    cases hr
    rw [dropRef_nextC h2, shallowClone_next h1]; omega

theorem unshareDown_mono {imax : Nat} {path : List Nat} {h p : Nat} {H H' : Heap I S} (hr : unshareDown imax path H h p = .ok H') :
    H.next ≤ H'.next := by
  induction path generalizing h p H with
  | nil => cases hr; simp
  | cons c path ih =>
    simp only [unshareDown, bind_ok_iff] at hr
    obtain ⟨nd, _, hr⟩ := hr
    split at hr
    · cases hr
    simp only [R.pure_eq, R.bind_ok, bind_ok_iff] at hr
    obtain ⟨⟨H1, q'⟩, h1, _, _, hr⟩ := hr
    have e1 := ensureUnique_mono h1
    have e2 := ih hr
    simp only [Heap.put] at e2
    omega

theorem unshare_mono {imax : Nat} {path : List Nat} {h p p' : Nat} {H H' : Heap I S} (hr : unshare imax path H h p = .ok (H', p')) :
    H.next ≤ H'.next := by
  simp only [unshare, bind_ok_iff] at hr
  obtain ⟨⟨H1, q'⟩, h1, _, h2, hr⟩ := hr
  cases hr
  exact (ensureUnique_mono h1).trans (unshareDown_mono h2)

/-! ## What is written -/

theorem Fits.length {h : Nat} {t : Tree I S (h + 1)} {path : List Nat} (hf : Fits t path) : path.length ≤ h := by
  induction path generalizing h with
  | nil => simp
  | cons c path ih =>
    obtain ⟨h0, k, _, f2⟩ := hf
    cases h with
    | zero => omega
    | succ h =>
      have := ih f2
      simp only [List.length_cons]; omega

theorem Way.length {H : Heap I S} {path : List Nat} {p : Nat} {X : List Nat} (w : Way H path p X) : X.length = path.length + 1 := by
  induction path generalizing p X with
  | nil => obtain ⟨rfl, -⟩ := w; rfl
  | cons c path ih =>
    obtain ⟨nd, q, X', h1, h2, h3, h4, rfl, h5⟩ := w
    simp [ih h5]

theorem Way.unique {H : Heap I S} {path : List Nat} {p : Nat} {X Y : List Nat} (w : Way H path p X) (v : Way H path p Y) : X = Y := by
  induction path generalizing p X Y with
  | nil => rw [w.1, v.1]
  | cons c path ih =>
    obtain ⟨nd, q, X', h1, h2, h3, h4, rfl, h5⟩ := w
    obtain ⟨nd', q', Y', k1, k2, k3, k4, rfl, k5⟩ := v
    rw [h1] at k1; cases k1
    rw [h4] at k4; cases k4
    rw [ih h5 k5]

theorem refsIn_mono {H H' : Heap I S} (hn : H.next ≤ H'.next) (hk : ∀ x nd, H.mem x = some nd → ∃ nd', H'.mem x = some nd' ∧ nd.Same nd')
    (x : Nat) : refsIn H x ≤ refsIn H' x := by
  unfold refsIn
  refine le_trans (Finset.sum_le_sum (g := fun q => (refsOf (H'.mem q)).count x) fun q _ => ?_)
    (Finset.sum_le_sum_of_subset (fun a ha => by simp only [Finset.mem_range] at ha ⊢; omega))
  cases hq : H.mem q with
  | none => simp [refsOf]
  | some nd =>
    obtain ⟨nd', h1, h2⟩ := hk q nd hq
    rw [h1, h2.refs]

/-- Making a node unique takes references only from the node that is copied. -/
theorem Uniq.countOne {H H1 : Heap I S} {out : Nat → Nat} (hi : Inv H out) {h q q' : Nat} (u : Uniq H H1 h q q') {x : Nat} (hx : x ≠ q)
    {n n1 : HNode I S} (hn : H.mem x = some n) (hn1 : H1.mem x = some n1) (hc : n1.count = 1) : n.count = 1 := by
  have h1 := u.bal x
  have h2 := refsIn_mono u.next u.keep x
  have h3 := hi.pos x n hn
  rw [cnt_some hn, cnt_some hn1, if_neg hx, hc] at h1
  omega

/-- What exists in `H'` and not in `H` is new. -/
def OnlyNew (H H' : Heap I S) : Prop := ∀ x, H.mem x = none → H'.mem x ≠ none → H.next ≤ x

theorem Uniq.onlyNew {H H1 : Heap I S} {h q q' : Nat} (u : Uniq H H1 h q q') : OnlyNew H H1 := by
  intro x hx hx'
  cases hm : H1.mem x with
  | none => exact absurd hm hx'
  | some nd' =>
    rcases u.back x nd' hm with rfl | ⟨nd, h, _⟩
    · rcases u.fresh with rfl | h
      · obtain ⟨nd, _, h1, _⟩ := u.new
        rw [hx] at h1; cases h1
      · omega
    · rw [hx] at h; cases h

/-- The nodes on the way that were there before were not shared. -/
theorem unshareDown_cost {imax : Nat} {H : Heap I S} {out : Nat → Nat} (hi : Inv H out) {path : List Nat} {h p : Nat} {nd : HNode I S}
    (hm : H.mem p = some nd) (hh : nd.height = h) (hc : nd.count = 1) {t : Tree I S (h + 1)} (ht : readT H (h + 1) p = .ok t) (hf : Fits t path)
    {H' : Heap I S} (hr : unshareDown imax path H h p = .ok H') {X : List Nat} (w : Way H' path p X) :
    (∀ x nd, H.mem x = some nd → x ∈ X → nd.count = 1) ∧ OnlyNew H H' := by
  induction path generalizing H h p nd X with
  | nil =>
    cases hr
    obtain ⟨rfl, -⟩ := w
    refine ⟨fun x n hx hxm => ?_, fun x h1 h2 => absurd h1 h2⟩
    simp only [List.mem_singleton] at hxm
    subst hxm; rw [hm] at hx; cases hx; exact hc
  | cons c path ih =>
    obtain ⟨nd0, ks, r1, r2, rfl⟩ := readT_succ.1 ht
    rw [hm] at r1; cases r1
    obtain ⟨h0, k, f1, f2⟩ := hf
    obtain ⟨q, hcq, hrq⟩ := forall₂_get r2 f1
    have hne : nd.height ≠ 0 := by omega
    obtain ⟨ndq, hq, hhq⟩ := hi.ht p nd hm q (by simp only [refsOf, hne, if_false]; exact List.mem_of_getElem? hcq)
    cases h with
    | zero => omega
    | succ h =>
      have eh : ndq.height = h := by omega
      subst eh
      simp only [unshareDown, get_ok.2 hm, R.bind_ok, hcq, R.pure_eq, Nat.add_sub_cancel] at hr
      rcases ensureUnique_spec (imax := imax) hi hq with ⟨H1, q', e, u, hsame⟩ | e
      · rw [e] at hr
        simp only [R.bind_ok] at hr
        obtain ⟨k1, k2, k3, k4, k5, k6⟩ := redirect hi hm hne hcq hq u
        rw [get_ok.2 k2] at hr
        simp only [R.bind_ok] at hr
        obtain ⟨t', k7, k8⟩ := k6 k hrq
        obtain ⟨nq, nq', g1, g2, g3, g4⟩ := u.new
        rw [hq] at g1; cases g1
        have hmq' : (H1.put p { nd with kids := nd.kids.set c q' }).mem q' = some nq' := by simp [Heap.put, k3, g2]
        have hself : (H1.put p { nd with kids := nd.kids.set c q' }).mem p = some { nd with kids := nd.kids.set c q' } := by simp [Heap.put]
        have hother : ∀ x, x ≠ p → (H1.put p { nd with kids := nd.kids.set c q' }).mem x = H1.mem x := fun x hx => by simp [Heap.put, hx]
        rcases unshareDown_spec (imax := imax) k4 hmq' g3.1.symm g4 k7 (f2.alike k8) with ⟨H'', X'', e1, e2, e3, e4, e5, e6, e7⟩ | e1
        swap
        · rw [hr] at e1; cases e1
        rw [hr] at e1; cases e1
        obtain ⟨nd', q1, X', w1, w2, w3, w4, rfl, w5⟩ := w
        have hp' := e7 p _ hself (by show ndq.height ≤ nd.height; omega) (Ne.symm k3)
        rw [hp'] at w1; cases w1
        have hq1 : q1 = q' := by
          have := (List.getElem?_eq_some_iff.1 hcq).1
          simp [this] at w4
          exact w4.symm
        subst hq1
        obtain ⟨i1, i2⟩ := ih k4 hmq' g3.1.symm g4 k7 (f2.alike k8) hr w5
        refine ⟨fun x n hx hxX => ?_, fun x h1 h2 => ?_⟩
        · by_cases hxp : x = p
          · subst hxp; rw [hm] at hx; cases hx; exact hc
          simp only [List.mem_cons, hxp, false_or] at hxX
          obtain ⟨n1, a1, a2⟩ := u.keep x n hx
          have c1 := i1 x n1 (by rw [hother x hxp]; exact a1) hxX
          by_cases hqq : q1 = q
          · obtain ⟨rfl, -⟩ := hsame hqq
            rw [hx] at a1; cases a1; exact c1
          · refine u.countOne hi ?_ hx a1 c1
            rintro rfl
            obtain ⟨n2, b1, b2⟩ := e5 x n1 (by rw [hother x hxp]; exact a1)
            obtain ⟨n3, b3, b4⟩ := e5 q1 nq' hmq'
            rw [hq] at hx; cases hx
            exact hqq (Way.top e2 w5 b3 hxX b1 (by rw [← b4, ← b2, ← a2.1, g3.1])).symm
        · by_cases h3 : H1.mem x = none
          · have := u.next
            have h4 : (H1.put p { nd with kids := nd.kids.set c q1 }).mem x = none := by
              rw [hother x (by rintro rfl; rw [hm] at h1; cases h1)]; exact h3
            have := i2 x h4 h2
            simp only [Heap.put] at this
            omega
          · exact u.onlyNew x h1 h3
      · rw [e] at hr; cases hr

/-- What making the way unique does to memory. -/
theorem unshare_cost {imax : Nat} {H : Heap I S} {out : Nat → Nat} (hi : Inv H out) {path : List Nat} {h p : Nat} {nd : HNode I S}
    (hm : H.mem p = some nd) (hh : nd.height = h) {t : Tree I S (h + 1)} (ht : readT H (h + 1) p = .ok t) (hf : Fits t path)
    (ho : 0 < out p) {H' : Heap I S} {p' : Nat} (hr : unshare imax path H h p = .ok (H', p')) {X : List Nat} (w : Way H' path p' X) :
    (∀ x nd, H.mem x = some nd → ∃ nd', H'.mem x = some nd' ∧ (x ∉ X → nd.Same nd') ∧ (x ∈ X → nd.count = 1)) ∧ OnlyNew H H' := by
  subst hh
  simp only [unshare] at hr
  rcases ensureUnique_spec (imax := imax) hi hm with ⟨H1, p1, e, u, hsame⟩ | e
  swap
  · rw [e] at hr; cases hr
  rw [e] at hr
  simp only [R.bind_ok] at hr
  have hbal : ∀ x, (fun x => out x + (if x = p1 then 1 else 0) - (if x = p then 1 else 0)) x + (if x = p then 1 else 0) =
      out x + (if x = p1 then 1 else 0) := by
    intro x
    by_cases hx : x = p
    · subst hx; simp only [if_true]; split <;> omega
    · simp [hx]
  have k := u.root hi hbal
  obtain ⟨t1, a1, a2⟩ := u.alike hi hm ht
  obtain ⟨nq, nq', g1, g2, g3, g4⟩ := u.new
  rw [hm] at g1; cases g1
  rcases unshareDown_spec (imax := imax) k g2 g3.1.symm g4 a1 (hf.alike a2) with ⟨H2, X2, e1, e2, e3, e4, e5, e6, e7⟩ | e1
  swap
  · rw [e1] at hr; cases hr
  rw [e1] at hr
  cases hr
  have hX : X2 = X := Way.unique e3 w
  subst hX
  obtain ⟨i1, i2⟩ := unshareDown_cost k g2 g3.1.symm g4 a1 (hf.alike a2) e1 e3
  refine ⟨fun x n hx => ?_, fun x h1 h2 => ?_⟩
  · obtain ⟨n1, b1, b2⟩ := u.keep x n hx
    obtain ⟨n2, b3, b4⟩ := e5 x n1 b1
    refine ⟨n2, b3, fun hxX => ?_, fun hxX => ?_⟩
    · obtain ⟨n2', c1, c2⟩ := e6 x n1 b1 hxX
      rw [b3] at c1; cases c1
      exact b2.trans c2
    · have c1 := i1 x n1 b1 hxX
      by_cases hqq : p' = p
      · obtain ⟨rfl, -⟩ := hsame hqq
        rw [hx] at b1; cases b1; exact c1
      · refine u.countOne hi ?_ hx b1 c1
        rintro rfl
        rw [hm] at hx; cases hx
        obtain ⟨n3, b5, b6⟩ := e5 p' nq' g2
        exact hqq (Way.top e2 e3 b5 hxX b3 (by rw [← b6, ← b4, ← b2.1, g3.1])).symm
  · by_cases h3 : H1.mem x = none
    · have := u.next
      have := i2 x h3 h2
      omega
    · exact u.onlyNew x h1 h3

end Sherman.Cow
