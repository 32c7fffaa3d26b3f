import Verif.CowUnshare
import Mathlib.Data.Finset.Max
/-!
# Dropping and cloning
-/
namespace Sherman.Cow
open Finset
variable {I S : Type}

/-- Every node left was there before, with the same contents. -/
def Less (H' H : Heap I S) : Prop := ∀ x nd', H'.mem x = some nd' → ∃ nd, H.mem x = some nd ∧ nd.Same nd'

theorem Less.trans {H H' H'' : Heap I S} (a : Less H'' H') (b : Less H' H) : Less H'' H := by
  intro x nd hx
  obtain ⟨n1, h1, h2⟩ := a x nd hx
  obtain ⟨n2, h3, h4⟩ := b x n1 h1
  exact ⟨n2, h3, h4.trans h2⟩

theorem Inv.alive {H : Heap I S} {out : Nat → Nat} (hi : Inv H out) {x : Nat} (ho : 0 < out x) : ∃ nd, H.mem x = some nd := by
  have h := hi.cnt x
  cases hm : H.mem x with
  | some nd => exact ⟨nd, rfl⟩
  | none => rw [cnt_none hm] at h; omega

/-- The references of several variables are given up, one after another. -/
theorem dropAll {h : Nat} (ih : ∀ (H : Heap I S) (out out' : Nat → Nat) (p : Nat) (nd : HNode I S), Inv H out → H.mem p = some nd →
      nd.height = h → (∀ x, out' x + (if x = p then 1 else 0) = out x) →
      ∃ H', dropRef h H p = .ok H' ∧ Inv H' out' ∧ H'.next = H.next ∧ Less H' H)
    {l : List Nat} {H : Heap I S} {out out' : Nat → Nat} (hi : Inv H out) (ho : ∀ x, out' x + l.count x = out x)
    (hl : ∀ q ∈ l, ∀ nd, H.mem q = some nd → nd.height = h) :
    ∃ H', l.foldlM (fun H q => dropRef h H q) H = .ok H' ∧ Inv H' out' ∧ H'.next = H.next ∧ Less H' H := by
  induction l generalizing H out with
  | nil =>
    have : out' = out := funext (fun x => by simpa using ho x)
    exact ⟨H, rfl, this ▸ hi, rfl, fun x nd hx => ⟨nd, hx, .refl _⟩⟩
  | cons q l ihl =>
    have hq : 0 < out q := by
      have := ho q
      simp only [List.count_cons_self] at this
      omega
    obtain ⟨nd, hm⟩ := hi.alive hq
    obtain ⟨H1, k1, k2, k3, k4⟩ := ih H out (fun x => out' x + l.count x) q nd hi hm (hl q (by simp) nd hm) (fun x => by
      have := ho x
      rw [List.count_cons] at this
      have e : (if (q == x) = true then 1 else 0) = (if x = q then 1 else 0) := by
        by_cases hx : x = q
        · rw [if_pos hx, if_pos (by simp [hx])]
        · rw [if_neg hx, if_neg (by simpa using Ne.symm hx)]
      rw [e] at this
      omega)
    obtain ⟨H2, g1, g2, g3, g4⟩ := ihl k2 (fun x => rfl) (fun q' hq' n hn => by
      obtain ⟨n0, e1, e2⟩ := k4 q' n hn
      rw [← e2.1]
      exact hl q' (by simp [hq']) n0 e1)
    refine ⟨H2, ?_, g2, g3.trans k3, g4.trans k4⟩
    rw [List.foldlM_cons, k1]
    exact g1

theorem drop_shared {H : Heap I S} {out out' : Nat → Nat} (hi : Inv H out) {p : Nat} {nd : HNode I S} (hm : H.mem p = some nd)
    (hc : nd.count ≠ 1) (ho : ∀ x, out' x + (if x = p then 1 else 0) = out x) :
    Inv (H.put p { nd with count := nd.count - 1 }) out' ∧ Less (H.put p { nd with count := nd.count - 1 }) H := by
  have hself : (H.put p { nd with count := nd.count - 1 }).mem p = some { nd with count := nd.count - 1 } := by simp [Heap.put]
  have hother : ∀ x, x ≠ p → (H.put p { nd with count := nd.count - 1 }).mem x = H.mem x := fun x hx => by simp [Heap.put, hx]
  have hless : Less (H.put p { nd with count := nd.count - 1 }) H := by
    intro x n hx
    by_cases hxp : x = p
    · subst hxp; rw [hself] at hx; cases hx; exact ⟨nd, hm, ⟨rfl, rfl, rfl, rfl⟩⟩
    · rw [hother x hxp] at hx; exact ⟨n, hx, .refl _⟩
  have hmore : ∀ x n, H.mem x = some n → ∃ n', (H.put p { nd with count := nd.count - 1 }).mem x = some n' ∧ n'.height = n.height := by
    intro x n hx
    by_cases hxp : x = p
    · subst hxp; rw [hm] at hx; cases hx; exact ⟨_, hself, rfl⟩
    · exact ⟨n, by rw [hother x hxp]; exact hx, rfl⟩
  have hpos := hi.pos p nd hm
  refine ⟨⟨fun x => ?_, fun x n hx => ?_, fun x n hx => ?_, fun x n hx q hq => ?_, fun x n hx h0 q hq => ?_⟩, hless⟩
  · have e1 := hi.cnt x
    have e2 := refsIn_congr (H := H) (H' := H.put p { nd with count := nd.count - 1 }) rfl (fun q => by
      by_cases hq : q = p
      · subst hq; rw [hself, hm]; rfl
      · rw [hother q hq]) x
    have e3 := ho x
    rw [e2]
    by_cases hxp : x = p
    · subst hxp
      rw [cnt_some hself]
      rw [cnt_some hm] at e1
      simp only [if_true] at e3
      simp only
      omega
    · rw [if_neg hxp] at e3
      have : cnt (H.put p { nd with count := nd.count - 1 }) x = cnt H x := by unfold cnt; rw [hother x hxp]
      omega
  · obtain ⟨n0, h1, _⟩ := hless x n hx
    exact hi.lt x n0 h1
  · by_cases hxp : x = p
    · subst hxp; rw [hself] at hx; cases hx; show 0 < nd.count - 1; omega
    · rw [hother x hxp] at hx; exact hi.pos x n hx
  · obtain ⟨n0, h1, h2⟩ := hless x n hx
    rw [← h2.refs] at hq
    obtain ⟨nq, h3, h4⟩ := hi.ht x n0 h1 q hq
    obtain ⟨nq', h5, h6⟩ := hmore q nq h3
    exact ⟨nq', h5, by rw [h6, h4, h2.1]⟩
  · obtain ⟨n0, h1, h2⟩ := hless x n hx
    exact hi.leaf x n0 h1 (by rw [h2.1]; exact h0) q (by rw [h2.2.2.2]; exact hq)

theorem drop_last {H : Heap I S} {out out' : Nat → Nat} (hi : Inv H out) {p : Nat} {nd : HNode I S} (hm : H.mem p = some nd)
    (hc : nd.count = 1) (ho : ∀ x, out' x + (if x = p then 1 else 0) = out x) :
    Inv (H.free p) (fun x => out' x + (refsOf (some nd)).count x) ∧ Less (H.free p) H := by
  have hself : (H.free p).mem p = none := by simp [Heap.free]
  have hother : ∀ x, x ≠ p → (H.free p).mem x = H.mem x := fun x hx => by simp [Heap.free, hx]
  have hless : Less (H.free p) H := by
    intro x n hx
    by_cases hxp : x = p
    · subst hxp; rw [hself] at hx; cases hx
    · rw [hother x hxp] at hx; exact ⟨n, hx, .refl _⟩
  have hp0 : refsIn H p = 0 ∧ out' p = 0 := by
    have h1 := hi.cnt p
    have h2 := ho p
    rw [cnt_some hm, hc] at h1
    simp only [if_true] at h2
    omega
  refine ⟨⟨fun x => ?_, fun x n hx => ?_, fun x n hx => ?_, fun x n hx q hq => ?_, fun x n hx h0 q hq => ?_⟩, hless⟩
  · have e1 := hi.cnt x
    have e2 := refsIn_change (H := H) (H' := H.free p) rfl (hi.lt p nd hm) (fun q hq => by rw [hother q hq]) x
    rw [hself, hm] at e2
    have e3 := ho x
    have e4 : (refsOf (none : Option (HNode I S))).count x = 0 := rfl
    rw [e4] at e2
    by_cases hxp : x = p
    · subst hxp
      rw [cnt_none hself]
      have := List.count_eq_zero.2 (mem_refs_self hi hm)
      omega
    · rw [if_neg hxp] at e3
      have : cnt (H.free p) x = cnt H x := by unfold cnt; rw [hother x hxp]
      omega
  · obtain ⟨n0, h1, _⟩ := hless x n hx
    exact hi.lt x n0 h1
  · obtain ⟨n0, h1, h2⟩ := hless x n hx
    by_cases hxp : x = p
    · subst hxp; rw [hself] at hx; cases hx
    · rw [hother x hxp] at hx; exact hi.pos x n hx
  · have hxp : x ≠ p := by rintro rfl; rw [hself] at hx; cases hx
    rw [hother x hxp] at hx
    obtain ⟨nq, h3, h4⟩ := hi.ht x n hx q hq
    have hqp : q ≠ p := by
      rintro rfl
      have := refsIn_le (hi.lt x n hx) q
      rw [hx] at this
      have h5 : 0 < (refsOf (some n)).count q := List.count_pos_iff.2 hq
      omega
    exact ⟨nq, by rw [hother q hqp]; exact h3, h4⟩
  · obtain ⟨n0, h1, h2⟩ := hless x n hx
    exact hi.leaf x n0 h1 (by rw [h2.1]; exact h0) q (by rw [h2.2.2.2]; exact hq)

/-- Giving up a reference: never an access to a freed node, and counts stay exact. -/
theorem dropRef_spec {h : Nat} : ∀ (H : Heap I S) (out out' : Nat → Nat) (p : Nat) (nd : HNode I S), Inv H out → H.mem p = some nd →
    nd.height = h → (∀ x, out' x + (if x = p then 1 else 0) = out x) →
    ∃ H', dropRef h H p = .ok H' ∧ Inv H' out' ∧ H'.next = H.next ∧ Less H' H := by
  induction h with
  | zero =>
    intro H out out' p nd hi hm hh ho
    simp only [dropRef, get_ok.2 hm, R.bind_ok]
    by_cases hc : nd.count = 1
    · simp only [hc, if_true, R.pure_eq]
      obtain ⟨k1, k2⟩ := drop_last hi hm hc ho
      have e : (fun x => out' x + (refsOf (some nd)).count x) = out' := by
        funext x
        simp [refsOf, hh]
      exact ⟨_, rfl, e ▸ k1, rfl, k2⟩
    · have hpos := hi.pos p nd hm
      have hu : usub nd.count 1 = .ok (nd.count - 1) := by simp [usub]; omega
      simp only [hc, if_false, hu, R.bind_ok, R.pure_eq]
      obtain ⟨k1, k2⟩ := drop_shared hi hm hc ho
      exact ⟨_, rfl, k1, rfl, k2⟩
  | succ h ih =>
    intro H out out' p nd hi hm hh ho
    simp only [dropRef, get_ok.2 hm, R.bind_ok]
    by_cases hc : nd.count = 1
    · simp only [hc, if_true]
      obtain ⟨k1, k2⟩ := drop_last hi hm hc ho
      have f1 : refsOf (some nd) = nd.kids := by simp [refsOf, hh]
      rw [f1] at k1
      obtain ⟨H', g1, g2, g3, g4⟩ := dropAll ih (l := nd.kids) (out' := out') k1 (fun x => rfl) (fun q hq n hn => by
        obtain ⟨n0, e1, e2⟩ := k2 q n hn
        obtain ⟨n1, e3, e4⟩ := hi.ht p nd hm q (by rw [f1]; exact hq)
        rw [e1] at e3; cases e3
        rw [← e2.1]; omega)
      exact ⟨H', g1, g2, g3, g4.trans k2⟩
    · have hpos := hi.pos p nd hm
      have hu : usub nd.count 1 = .ok (nd.count - 1) := by simp [usub]; omega
      simp only [hc, if_false, hu, R.bind_ok, R.pure_eq]
      obtain ⟨k1, k2⟩ := drop_shared hi hm hc ho
      exact ⟨_, rfl, k1, rfl, k2⟩

/-- Trees that are still held are not changed by a drop. -/
theorem read_less {H H' : Heap I S} {out out' : Nat → Nat} (hi : Inv H out) (hi' : Inv H' out') (hl : Less H' H) {h p : Nat} {nd : HNode I S}
    (hm : H'.mem p = some nd) (hh : nd.height = h) {t : Tree I S (h + 1)} (ht : readT H (h + 1) p = .ok t) :
    readT H' (h + 1) p = .ok t := by
  obtain ⟨n0, e1, e2⟩ := hl p nd hm
  refine readT_frame (Z := fun x => ∃ nd, H'.mem x = some nd) (fun x hx => ?_) ⟨nd, hm⟩ e1 (by rw [e2.1]; exact hh) ht
  obtain ⟨nx, hx⟩ := hx
  obtain ⟨n1, g1, g2⟩ := hl x nx hx
  refine ⟨n1, nx, g1, hx, g2, fun q hq => ?_⟩
  obtain ⟨nq, g3, g4⟩ := hi'.ht x nx hx q (by rw [← g2.refs]; exact hq)
  obtain ⟨nq0, g5, g6⟩ := hl q nq g3
  exact ⟨⟨nq, g3⟩, nq0, g5, by rw [g6.1, g4, g2.1]⟩

/-- If nothing is held then nothing is left. -/
theorem Inv.empty {H : Heap I S} (hi : Inv H (fun _ => 0)) (x : Nat) : H.mem x = none := by
  by_contra hne
  obtain ⟨nd, hm⟩ := Option.ne_none_iff_exists'.1 hne
  let A := (range H.next).filter (fun y => (H.mem y).isSome)
  have hA : A.Nonempty := ⟨x, by simp [A, hm, hi.lt x nd hm]⟩
  obtain ⟨y, hy, hmax⟩ := Finset.exists_max_image A (fun y => match H.mem y with | some n => n.height | none => 0) hA
  simp only [A, Finset.mem_filter, Finset.mem_range, Option.isSome_iff_exists] at hy hmax
  obtain ⟨hy1, n, hy2⟩ := hy
  have hc := hi.cnt y
  have hp := hi.pos y n hy2
  rw [cnt_some hy2] at hc
  have hr : refsIn H y ≠ 0 := by omega
  obtain ⟨z, hz1, hz2⟩ := Finset.exists_ne_zero_of_sum_ne_zero hr
  cases hz : H.mem z with
  | none => rw [hz] at hz2; exact hz2 rfl
  | some nz =>
    rw [hz] at hz2
    have hmem : y ∈ refsOf (some nz) := List.count_pos_iff.1 (Nat.pos_of_ne_zero hz2)
    obtain ⟨ny, g1, g2⟩ := hi.ht z nz hz y hmem
    rw [hy2] at g1; cases g1
    have := hmax z ⟨hi.lt z nz hz, nz, hz⟩
    rw [hz, hy2] at this
    simp only at this
    omega

/-! ## Cloning -/

/-- One more reference to a node. -/
theorem increment_inv {imax : Nat} {H : Heap I S} {out out' : Nat → Nat} (hi : Inv H out) {p : Nat} {nd : HNode I S} (hm : H.mem p = some nd)
    (ho : ∀ x, out' x = out x + (if x = p then 1 else 0)) :
    (∃ H', increment imax H p = .ok H' ∧ Inv H' out' ∧ Less H' H ∧ (∀ x n, H.mem x = some n → ∃ n', H'.mem x = some n' ∧ n.Same n')) ∨
      increment imax H p = .error tooMany := by
  rw [increment_spec hm]
  by_cases hb : imax < nd.count
  · right; simp [hb]
  · left
    simp only [hb, if_false]
    have hself : (H.put p { nd with count := nd.count + 1 }).mem p = some { nd with count := nd.count + 1 } := by simp [Heap.put]
    have hother : ∀ x, x ≠ p → (H.put p { nd with count := nd.count + 1 }).mem x = H.mem x := fun x hx => by simp [Heap.put, hx]
    have hless : Less (H.put p { nd with count := nd.count + 1 }) H := by
      intro x n hx
      by_cases hxp : x = p
      · subst hxp; rw [hself] at hx; cases hx; exact ⟨nd, hm, ⟨rfl, rfl, rfl, rfl⟩⟩
      · rw [hother x hxp] at hx; exact ⟨n, hx, .refl _⟩
    have hmore : ∀ x n, H.mem x = some n → ∃ n', (H.put p { nd with count := nd.count + 1 }).mem x = some n' ∧ n.Same n' := by
      intro x n hx
      by_cases hxp : x = p
      · subst hxp; rw [hm] at hx; cases hx; exact ⟨_, hself, ⟨rfl, rfl, rfl, rfl⟩⟩
      · exact ⟨n, by rw [hother x hxp]; exact hx, .refl _⟩
    refine ⟨_, rfl, ⟨fun x => ?_, fun x n hx => ?_, fun x n hx => ?_, fun x n hx q hq => ?_, fun x n hx h0 q hq => ?_⟩, hless, hmore⟩
    · have e1 := hi.cnt x
      have e2 := refsIn_congr (H := H) (H' := H.put p { nd with count := nd.count + 1 }) rfl (fun q => by
        by_cases hq : q = p
        · subst hq; rw [hself, hm]; rfl
        · rw [hother q hq]) x
      have e3 := ho x
      rw [e2]
      by_cases hxp : x = p
      · subst hxp
        rw [cnt_some hself]
        rw [cnt_some hm] at e1
        simp only [if_true] at e3
        simp only
        omega
      · rw [if_neg hxp] at e3
        have : cnt (H.put p { nd with count := nd.count + 1 }) x = cnt H x := by unfold cnt; rw [hother x hxp]
        omega
    · obtain ⟨n0, h1, _⟩ := hless x n hx
      exact hi.lt x n0 h1
    · by_cases hxp : x = p
      · subst hxp; rw [hself] at hx; cases hx; show 0 < nd.count + 1; omega
      · rw [hother x hxp] at hx; exact hi.pos x n hx
    · obtain ⟨n0, h1, h2⟩ := hless x n hx
      rw [← h2.refs] at hq
      obtain ⟨nq, h3, h4⟩ := hi.ht x n0 h1 q hq
      obtain ⟨nq', h5, h6⟩ := hmore q nq h3
      exact ⟨nq', h5, by rw [← h6.1, h4, h2.1]⟩
    · obtain ⟨n0, h1, h2⟩ := hless x n hx
      exact hi.leaf x n0 h1 (by rw [h2.1]; exact h0) q (by rw [h2.2.2.2]; exact hq)

/-- Nothing that was there has changed. -/
def Ext (H H' : Heap I S) : Prop := ∀ x nd, H.mem x = some nd → H'.mem x = some nd

theorem readT_ext {H H' : Heap I S} (he : Ext H H') {h p : Nat} {t : Tree I S h} (ht : readT H h p = .ok t) : readT H' h p = .ok t := by
  induction h generalizing p with
  | zero => exact ht
  | succ h ih =>
    obtain ⟨nd, ks, h1, h2, rfl⟩ := readT_succ.1 ht
    exact readT_succ.2 ⟨nd, ks, he p nd h1, h2.imp (fun _ _ h => ih h), rfl⟩

theorem alloc_inv {H : Heap I S} {out out' : Nat → Nat} (hi : Inv H out) {nd : HNode I S} (hc : nd.count = 1)
    (hk : ∀ q ∈ refsOf (some nd), ∃ nq, H.mem q = some nq ∧ nq.height + 1 = nd.height) (h0 : nd.height = 0 → ∀ q ∈ nd.kids, q = 0)
    (ho : ∀ x, out' x + (refsOf (some nd)).count x = out x + (if x = H.next then 1 else 0)) :
    Inv (H.alloc nd).1 out' ∧ Ext H (H.alloc nd).1 ∧ (H.alloc nd).1.mem H.next = some nd := by
  have hnone : H.mem H.next = none := by
    cases h : H.mem H.next with
    | none => rfl
    | some n => exact absurd (hi.lt _ _ h) (by omega)
  have hself : (H.alloc nd).1.mem H.next = some nd := by simp [Heap.alloc]
  have hother : ∀ x, x ≠ H.next → (H.alloc nd).1.mem x = H.mem x := fun x hx => by simp [Heap.alloc, hx]
  have hext : Ext H (H.alloc nd).1 := by
    intro x n hx
    rw [hother x (by have := hi.lt x n hx; omega)]; exact hx
  refine ⟨⟨fun x => ?_, fun x n hx => ?_, fun x n hx => ?_, fun x n hx q hq => ?_, fun x n hx h q hq => ?_⟩, hext, hself⟩
  · have e1 := hi.cnt x
    have e2 := refsIn_next (H := H) (H' := (H.alloc nd).1) rfl (fun q hq => by rw [hother q (by omega)]) x
    rw [hself] at e2
    have e3 := ho x
    by_cases hx : x = H.next
    · rw [if_pos hx] at e3
      have : cnt (H.alloc nd).1 x = 1 := by rw [hx, cnt_some hself, hc]
      have : cnt H x = 0 := by rw [hx, cnt_none hnone]
      omega
    · rw [if_neg hx] at e3
      have : cnt (H.alloc nd).1 x = cnt H x := by unfold cnt; rw [hother x hx]
      omega
  · show x < H.next + 1
    by_cases hxp : x = H.next
    · omega
    · rw [hother x hxp] at hx; have := hi.lt x n hx; omega
  · by_cases hxp : x = H.next
    · subst hxp; rw [hself] at hx; cases hx; omega
    · rw [hother x hxp] at hx; exact hi.pos x n hx
  · by_cases hxp : x = H.next
    · subst hxp; rw [hself] at hx; cases hx
      obtain ⟨nq, g1, g2⟩ := hk q hq
      exact ⟨nq, hext q nq g1, g2⟩
    · rw [hother x hxp] at hx
      obtain ⟨nq, g1, g2⟩ := hi.ht x n hx q hq
      exact ⟨nq, hext q nq g1, g2⟩
  · by_cases hxp : x = H.next
    · subst hxp; rw [hself] at hx; cases hx; exact h0 h q hq
    · rw [hother x hxp] at hx; exact hi.leaf x n hx h q hq

theorem Ext.trans {H H' H'' : Heap I S} (a : Ext H H') (b : Ext H' H'') : Ext H H'' := fun x nd hx => b x nd (a x nd hx)

/-- What a deep clone of a node is. -/
def Cloned (H H' : Heap I S) (out : Nat → Nat) (h p p' : Nat) : Prop :=
  Inv H' (fun x => out x + (if x = p' then 1 else 0)) ∧ Ext H H' ∧ (∃ nd, H'.mem p' = some nd ∧ nd.height = h) ∧
    ∀ t, readT H (h + 1) p = .ok t → ∃ t', readT H' (h + 1) p' = .ok t' ∧ Alike t t'

theorem cloneKids {h : Nat} (ih : ∀ (H : Heap I S) (out : Nat → Nat) (p : Nat) (nd : HNode I S), Inv H out → H.mem p = some nd →
      nd.height = h → ∃ H' p', deepClone h H p = .ok (H', p') ∧ Cloned H H' out h p p')
    {l : List Nat} {H : Heap I S} {out : Nat → Nat} (hi : Inv H out) (hl : ∀ q ∈ l, ∃ nd, H.mem q = some nd ∧ nd.height = h) :
    ∃ H' l', overKids (fun H q => deepClone h H q) H l = .ok (H', l') ∧ Inv H' (fun x => out x + l'.count x) ∧ Ext H H' ∧
      (∀ q ∈ l', ∃ nd, H'.mem q = some nd ∧ nd.height = h) ∧
      List.Forall₂ (fun q q' => ∀ t, readT H (h + 1) q = .ok t → ∃ t', readT H' (h + 1) q' = .ok t' ∧ Alike t t') l l' := by
  induction l generalizing H out with
  | nil =>
    refine ⟨H, [], rfl, ?_, fun _ _ h => h, by simp, .nil⟩
    simpa using hi
  | cons q l ihl =>
    obtain ⟨nd, g1, g2⟩ := hl q (by simp)
    obtain ⟨H1, q', k1, k2, k3, k4, k5⟩ := ih H out q nd hi g1 g2
    obtain ⟨H2, l', m1, m2, m3, m4, m5⟩ := ihl (out := fun x => out x + (if x = q' then 1 else 0)) k2 (fun q hq => by
      obtain ⟨n, e1, e2⟩ := hl q (by simp [hq])
      exact ⟨n, k3 q n e1, e2⟩)
    refine ⟨H2, q' :: l', ?_, ?_, k3.trans m3, ?_, .cons ?_ ?_⟩
    · simp only [overKids, k1, R.bind_ok, m1, R.pure_eq]
    · have e : (fun x => out x + (q' :: l').count x) = (fun x => (fun x => out x + (if x = q' then 1 else 0)) x + l'.count x) := by
        funext x
        simp only [List.count_cons, beq_iff_eq]
        by_cases hx : x = q'
        · subst hx; simp only [if_true]; omega
        · rw [if_neg hx, if_neg (Ne.symm hx)]; omega
      rw [e]; exact m2
    · intro x hx
      rcases List.mem_cons.1 hx with rfl | hx
      · obtain ⟨n, e1, e2⟩ := k4
        exact ⟨n, m3 _ _ e1, e2⟩
      · exact m4 x hx
    · intro t ht
      obtain ⟨t', e1, e2⟩ := k5 t ht
      exact ⟨t', readT_ext m3 e1, e2⟩
    · refine m5.imp (fun a b h t ht => h t (readT_ext k3 ht))

theorem deepClone_spec {h : Nat} : ∀ (H : Heap I S) (out : Nat → Nat) (p : Nat) (nd : HNode I S), Inv H out → H.mem p = some nd →
    nd.height = h → ∃ H' p', deepClone h H p = .ok (H', p') ∧ Cloned H H' out h p p' := by
  induction h with
  | zero =>
    intro H out p nd hi hm hh
    simp only [deepClone, get_ok.2 hm, R.bind_ok, R.pure_eq]
    have hr : refsOf (some { nd with count := 1 }) = [] := by simp [refsOf, hh]
    obtain ⟨k1, k2, k3⟩ := alloc_inv (nd := { nd with count := 1 }) (out' := fun x => out x + (if x = H.next then 1 else 0)) hi rfl
      (by rw [hr]; simp) (fun _ => hi.leaf p nd hm hh) (fun x => by rw [hr]; simp)
    refine ⟨_, _, rfl, k1, k2, ⟨_, k3, hh⟩, fun t ht => ?_⟩
    obtain ⟨nd0, ks, r1, r2, rfl⟩ := readT_succ.1 ht
    rw [hm] at r1; cases r1
    exact ⟨_, readT_succ.2 ⟨_, ks, k3, r2.imp (fun _ _ h => h), rfl⟩, alike_node.2 ⟨rfl, rfl, rfl⟩⟩
  | succ h ih =>
    intro H out p nd hi hm hh
    simp only [deepClone, get_ok.2 hm, R.bind_ok]
    have f1 : refsOf (some nd) = nd.kids := by simp [refsOf, hh]
    obtain ⟨H1, l', m1, m2, m3, m4, m5⟩ := cloneKids ih (l := nd.kids) hi (fun q hq => by
      obtain ⟨n, e1, e2⟩ := hi.ht p nd hm q (by rw [f1]; exact hq)
      exact ⟨n, e1, by omega⟩)
    rw [m1]
    simp only [R.bind_ok, R.pure_eq]
    have hr : refsOf (some { nd with count := 1, kids := l' }) = l' := by simp [refsOf, hh]
    obtain ⟨k1, k2, k3⟩ := alloc_inv (nd := { nd with count := 1, kids := l' }) (out' := fun x => out x + (if x = H1.next then 1 else 0)) m2 rfl
      (by
        rw [hr]
        intro q hq
        obtain ⟨n, e1, e2⟩ := m4 q hq
        exact ⟨n, e1, by show _ = nd.height; omega⟩)
      (fun h0 => by have h0 : nd.height = 0 := h0; omega) (fun x => by rw [hr]; omega)
    refine ⟨_, _, rfl, k1, m3.trans k2, ⟨_, k3, hh⟩, fun t ht => ?_⟩
    obtain ⟨nd0, ks, r1, r2, rfl⟩ := readT_succ.1 ht
    rw [hm] at r1; cases r1
    obtain ⟨ks', e1, e2⟩ := forall₂_strip (g := fun q k => readT (H1.alloc { nd with count := 1, kids := l' }).1 (h + 1) q = .ok k) m5 r2
      (fun a b t _ _ hab hat => by
        obtain ⟨t', e1, e2⟩ := hab t hat
        exact ⟨t', readT_ext k2 e1, e2⟩)
    exact ⟨_, readT_succ.2 ⟨_, ks', k3, e1, rfl⟩, alike_node.2 ⟨rfl, rfl, e2⟩⟩

end Sherman.Cow
