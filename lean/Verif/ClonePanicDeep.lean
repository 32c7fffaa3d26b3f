import Verif.ClonePanicStep
/-!
# `clone` of a tree that copies all nodes, unwound by a panic in `Clone` of a slice
-/
namespace Sherman.Cow
open Finset (range)
variable {I S : Type}

/-! ## Memory -/

/-- Nodes that are in both memories are the same except for counts. -/
def Agree (H H' : Heap I S) : Prop := ∀ x nd nd', H.mem x = some nd → H'.mem x = some nd' → nd.Same nd'

theorem Agree.symm {H H' : Heap I S} (h : Agree H H') : Agree H' H := fun x nd nd' h1 h2 => (h x nd' nd h2 h1).symm

/-- Who holds a node: a variable, or a node above it. -/
theorem Inv.holder {H : Heap I S} {out : Nat → Nat} (hi : Inv H out) {x : Nat} {nd : HNode I S} (hm : H.mem x = some nd) :
    0 < out x ∨ ∃ z nz, H.mem z = some nz ∧ x ∈ refsOf (some nz) := by
  have hc := hi.cnt x
  have hp := hi.pos x nd hm
  rw [cnt_some hm] at hc
  by_cases ho : 0 < out x
  · exact .inl ho
  · right
    have hr : refsIn H x ≠ 0 := by omega
    obtain ⟨z, hz1, hz2⟩ := Finset.exists_ne_zero_of_sum_ne_zero hr
    cases hz : H.mem z with
    | none => rw [hz] at hz2; exact (hz2 rfl).elim
    | some nz =>
      rw [hz] at hz2
      exact ⟨z, nz, hz, List.count_pos_iff.1 (Nat.pos_of_ne_zero hz2)⟩

theorem Inv.height_bound {H : Heap I S} {out : Nat → Nat} (hi : Inv H out) : ∃ B, ∀ x nd, H.mem x = some nd → nd.height ≤ B := by
  refine ⟨∑ y ∈ range H.next, (match H.mem y with | some n => n.height | none => 0), fun x nd hm => ?_⟩
  have := Finset.single_le_sum (f := fun y => match H.mem y with | some n => n.height | none => 0) (s := range H.next) (fun _ _ => Nat.zero_le _)
    (Finset.mem_range.2 (hi.lt x nd hm))
  simpa [hm] using this

/-- With the same variables, the same nodes are in use. -/
theorem Agree.alive {H H' : Heap I S} {out : Nat → Nat} (hi : Inv H out) (hi' : Inv H' out) (ha : Agree H H') {x : Nat} {nd : HNode I S}
    (hm : H.mem x = some nd) : ∃ nd', H'.mem x = some nd' := by
  obtain ⟨B, hB⟩ := hi.height_bound
  have key : ∀ k x nd, H.mem x = some nd → B - nd.height ≤ k → ∃ nd', H'.mem x = some nd' := by
    intro k
    induction k with
    | zero =>
      intro x nd hm hk
      rcases hi.holder hm with h | ⟨z, nz, h1, h2⟩
      · exact hi'.alive h
      · obtain ⟨n1, h3, h4⟩ := hi.ht z nz h1 x h2
        rw [hm] at h3; cases h3
        have := hB z nz h1
        omega
    | succ k ih =>
      intro x nd hm hk
      rcases hi.holder hm with h | ⟨z, nz, h1, h2⟩
      · exact hi'.alive h
      · obtain ⟨n1, h3, h4⟩ := hi.ht z nz h1 x h2
        rw [hm] at h3; cases h3
        obtain ⟨nz', h5⟩ := ih z nz h1 (by omega)
        have hs := ha z nz nz' h1 h5
        obtain ⟨n', h6, -⟩ := hi'.ht z nz' h5 x (by rw [← hs.refs]; exact h2)
        exact ⟨n', h6⟩
  exact key _ x nd hm (Nat.le_refl _)

theorem refsIn_bound {H : Heap I S} {out : Nat → Nat} (hi : Inv H out) {n : Nat} (hn : H.next ≤ n) (x : Nat) :
    refsIn H x = ∑ q ∈ range n, (refsOf (H.mem q)).count x := by
  unfold refsIn
  refine Finset.sum_subset (fun y hy => ?_) (fun y _ hy => ?_)
  · rw [Finset.mem_range] at hy ⊢; omega
  · cases h : H.mem y with
    | none => rfl
    | some nd => exact absurd (Finset.mem_range.2 (hi.lt y nd h)) hy

/-- With the same variables, memory is the same. -/
theorem Agree.eq {H H' : Heap I S} {out : Nat → Nat} (hi : Inv H out) (hi' : Inv H' out) (ha : Agree H H') (x : Nat) : H'.mem x = H.mem x := by
  have hrefs : ∀ q, refsOf (H'.mem q) = refsOf (H.mem q) := by
    intro q
    cases h : H.mem q with
    | some nd =>
      obtain ⟨nd', h'⟩ := ha.alive hi hi' h
      rw [h', (ha q nd nd' h h').refs]
    | none =>
      cases h' : H'.mem q with
      | none => rfl
      | some nd' =>
        obtain ⟨nd, h2⟩ := ha.symm.alive hi' hi h'
        rw [h] at h2; cases h2
  have hin : refsIn H' x = refsIn H x := by
    rw [refsIn_bound hi (Nat.le_max_left H.next H'.next), refsIn_bound hi' (Nat.le_max_right H.next H'.next)]
    simp only [hrefs]
  have hc : cnt H' x = cnt H x := by rw [hi.cnt, hi'.cnt, hin]
  cases h : H.mem x with
  | some nd =>
    obtain ⟨nd', h'⟩ := ha.alive hi hi' h
    obtain ⟨a1, a2, a3, a4⟩ := ha x nd nd' h h'
    rw [cnt_some h, cnt_some h'] at hc
    rw [h']
    obtain ⟨c1, b1, b2, b3, b4⟩ := nd
    obtain ⟨c2, d1, d2, d3, d4⟩ := nd'
    simp only at a1 a2 a3 a4 hc
    subst a1 a2 a3 a4 hc
    rfl
  | none =>
    cases h' : H'.mem x with
    | none => rfl
    | some nd' =>
      obtain ⟨nd, h2⟩ := ha.symm.alive hi' hi h'
      rw [h] at h2; cases h2

/-! ## Values in memory -/

theorem valsIn_bound {H : Heap I S} {out : Nat → Nat} (hi : Inv H out) {n : Nat} (hn : H.next ≤ n) :
    (List.range n).flatMap (slicesAt H) = valsIn H := by
  obtain ⟨k, rfl⟩ := Nat.exists_eq_add_of_le hn
  induction k with
  | zero => rfl
  | succ k ih =>
    rw [← Nat.add_assoc, List.range_succ, List.flatMap_append, ih (by omega)]
    have : H.mem (H.next + k) = none := by
      cases h : H.mem (H.next + k) with
      | none => rfl
      | some nd => have := hi.lt _ _ h; omega
    simp [slicesAt, this]

theorem valsIn_eq {H H' : Heap I S} {out out' : Nat → Nat} (hi : Inv H out) (hi' : Inv H' out') (h : ∀ x, H'.mem x = H.mem x) :
    valsIn H' = valsIn H := by
  rw [← valsIn_bound hi (Nat.le_max_left H.next H'.next), ← valsIn_bound hi' (Nat.le_max_right H.next H'.next)]
  exact flatMap_congr' (fun x _ => by unfold slicesAt; rw [h])

theorem valsIn_alloc {H : Heap I S} {out : Nat → Nat} (hi : Inv H out) (nd : HNode I S) : valsIn (H.alloc nd).1 = valsIn H ++ nd.vals := by
  unfold valsIn
  show (List.range (H.next + 1)).flatMap _ = _
  rw [List.range_succ, List.flatMap_append]
  congr 1
  · refine flatMap_congr' (fun x hx => ?_)
    rw [List.mem_range] at hx
    have h2 : x ≠ H.next := by omega
    simp [slicesAt, Heap.alloc, h2]
  · simp [slicesAt, Heap.alloc, HNode.vals]

/-- What is destroyed was in memory, the rest still is. -/
theorem GoneOk.vals_perm {H H' : Heap I S} {out : Nat → Nat} (hi : Inv H out) (hn : H'.next = H.next) {g : Gone S} (hg : GoneOk noHoles H H' g) :
    (valsIn H' ++ g.vals).Perm (valsIn H) := by
  let P : Nat → Bool := fun x => (H.mem x).isSome && (H'.mem x).isNone
  have hP : ∀ x, P x = true ↔ H.mem x ≠ none ∧ H'.mem x = none := by
    intro x
    simp [P, Option.isSome_iff_ne_none]
  have h1 : g.nodes.Perm ((List.range H.next).filter P) := by
    refine (List.perm_ext_iff_of_nodup hg.nodup (List.nodup_range.filter _)).2 (fun x => ?_)
    rw [hg.mem, List.mem_filter, List.mem_range, hP]
    constructor
    · intro h
      refine ⟨?_, h⟩
      obtain ⟨nd, hm⟩ := Option.ne_none_iff_exists'.1 h.1
      exact hi.lt x nd hm
    · exact fun h => h.2
  have h2 : g.vals = g.nodes.flatMap (slicesAt H) := by
    rw [hg.vals]
    exact flatMap_congr' (fun x _ => kept_noHoles H x)
  have h3 : valsIn H' = ((List.range H.next).filter (fun x => !P x)).flatMap (slicesAt H) := by
    unfold valsIn
    rw [hn]
    have : ∀ l : List Nat, l.flatMap (slicesAt H') = (l.filter (fun x => !P x)).flatMap (slicesAt H) := by
      intro l
      induction l with
      | nil => rfl
      | cons a l ih =>
        rw [List.flatMap_cons, ih]
        by_cases ha : P a = true
        · have hd := ((hP a).1 ha).2
          simp [ha, slicesAt, hd]
        · rw [List.filter_cons_of_pos (by simpa using ha), List.flatMap_cons]
          congr 1
          cases h' : H'.mem a with
          | some nd' =>
            have := kept_less (hol := noHoles) hg.less (x := a) (by rw [h']; simp)
            rwa [kept_noHoles, kept_noHoles] at this
          | none =>
            cases h0 : H.mem a with
            | none => simp [slicesAt, h', h0]
            | some nd => exact absurd ((hP a).2 ⟨by rw [h0]; simp, h'⟩) ha
    exact this _
  rw [h2, h3]
  refine (List.Perm.append_left _ (h1.flatMap_right _)).trans ?_
  rw [← List.flatMap_append]
  refine List.Perm.flatMap_right _ ?_
  exact List.perm_append_comm.trans (List.filter_append_perm _ _)

/-- Boxes that are dropped. -/
theorem dropKids_spec {h : Nat} {l : List Nat} {H : Heap I S} {out out' : Nat → Nat} (hi : Inv H out) (ho : ∀ x, out' x + l.count x = out x)
    (hl : ∀ q ∈ l, ∀ nd, H.mem q = some nd → nd.height = h) :
    ∃ H' g, dropKids (dropLog noHoles h) H l = .ok (H', g) ∧ Inv H' out' ∧ H'.next = H.next ∧ GoneOk noHoles H H' g := by
  induction l generalizing H out with
  | nil =>
    have : out' = out := funext (fun x => by simpa using ho x)
    exact ⟨H, ⟨[], []⟩, rfl, this ▸ hi, rfl, .nil (.refl _) (fun _ h => h)⟩
  | cons q l ihl =>
    have hq : 0 < out q := by
      have := ho q
      simp only [List.count_cons_self] at this
      omega
    obtain ⟨nd, hm⟩ := hi.alive hq
    obtain ⟨H1, k1, k2, k3, k4⟩ := dropRef_spec (h := h) H out (fun x => out' x + l.count x) q nd hi hm (hl q (by simp) nd hm) (fun x => by
      have := ho x
      rw [List.count_cons] at this
      have e : (if (q == x) = true then 1 else 0) = (if x = q then 1 else 0) := by
        by_cases hx : x = q
        · rw [if_pos hx, if_pos (by simp [hx])]
        · rw [if_neg hx, if_neg (by simpa using Ne.symm hx)]
      rw [e] at this
      omega)
    obtain ⟨g1, e1⟩ := dropLog_of_dropRef (noHoles_fit H) k1
    obtain ⟨H2, g2, m1, m2, m3, m4⟩ := ihl k2 (fun x => rfl) (fun q' hq' n hn => by
      obtain ⟨n0, e1, e2⟩ := k4 q' n hn
      rw [← e2.1]
      exact hl q' (by simp [hq']) n0 e1)
    refine ⟨H2, ⟨g1.vals ++ g2.vals, g1.nodes ++ g2.nodes⟩, ?_, m2, m3.trans k3, (dropLog_gone e1).append m4⟩
    simp only [dropKids, e1, R.bind_ok, m1, R.pure_eq]

/-! ## What is lost -/

/-- The child in which copying stops after `n` more values. -/
def leakedK {T : Type} (sl : T → List S) (f : T → Nat → List S) : List T → Nat → List S
  | [], _ => []
  | c :: cs, n => if n < (sl c).length then f c n else leakedK sl f cs (n - (sl c).length)

/-- The values that are lost if copying a tree stops after `n` values, where the values of a node come before those of its children: the
values of the nodes above the one where it stops. -/
def leakedT : {h : Nat} → Tree I S h → Nat → List S
  | 0, _, _ => []
  | h + 1, t, n =>
    if n < (Node.keys t).length then []
    else (Node.keys t).map (·.slice) ++ leakedK (slicesT (h := h)) (leakedT (h := h)) (Node.kids t) (n - (Node.keys t).length)

theorem leakedT_succ {h p : Nat} {z : I} {keys : List (Key I S)} {ks : List (Tree I S h)} {n : Nat} :
    leakedT (h := h + 1) (⟨p, z, keys, ks⟩ : Node I S (Tree I S h)) n =
      if n < keys.length then [] else keys.map (·.slice) ++ leakedK slicesT leakedT ks (n - keys.length) := rfl

/-- What copying a node does, for nodes of height `h`. -/
def DeepSpec (M h : Nat) (f : Nat → CM I S Nat) : Prop :=
  ∀ (s : CSt I S) (out : Nat → Nat) (p : Nat) (nd : HNode I S) (t : Tree I S (h + 1)), Inv s.heap out → s.heap.mem p = some nd → nd.height = h →
    readT s.heap (h + 1) p = .ok t → CapT M t →
    if (slicesT t).length ≤ s.left then
      ∃ H' p', deepClone h s.heap p = .ok (H', p') ∧
        f p s = ({ s with heap := H', left := s.left - (slicesT t).length, made := s.made ++ slicesT t }, .ok p') ∧
        (valsIn H').Perm (valsIn s.heap ++ slicesT t)
    else ∃ H' ds, f p s = ({ s with heap := H', left := 0, made := s.made ++ (slicesT t).take s.left, gone := s.gone ++ ds }, .error userPanic) ∧
      (∀ x, H'.mem x = s.heap.mem x) ∧ Inv H' out ∧ ((slicesT t).take s.left).Perm (ds ++ leakedT t s.left)

theorem cloneBoxes_spec {M h : Nat} {f : Nat → CM I S Nat} (ih : DeepSpec M h f) {H0 : Heap I S} {out : Nat → Nat} (hi0 : Inv H0 out) :
    ∀ (qs : List Nat) (acc : List Nat) (s : CSt I S) (ks : List (Tree I S (h + 1))) (done : List S),
      Inv s.heap (fun x => out x + acc.count x) → (∀ q ∈ acc, ∃ nd, s.heap.mem q = some nd ∧ nd.height = h) → Ext H0 s.heap →
      (valsIn s.heap).Perm (valsIn H0 ++ done) → acc.length + qs.length ≤ 2 * M + 1 →
      List.Forall₂ (fun q k => readT s.heap (h + 1) q = .ok k) qs ks → (∀ q ∈ qs, ∃ nd, s.heap.mem q = some nd ∧ nd.height = h) →
      (∀ k ∈ ks, CapT M k) →
      if (ks.flatMap slicesT).length ≤ s.left then
        ∃ H' l', overKids (fun H q => deepClone h H q) s.heap qs = .ok (H', l') ∧
          cloneBoxes M h f qs acc s = ({ s with heap := H', left := s.left - (ks.flatMap slicesT).length, made := s.made ++ ks.flatMap slicesT },
            .ok (acc ++ l')) ∧
          (valsIn H').Perm (valsIn s.heap ++ ks.flatMap slicesT)
      else ∃ H' ds, cloneBoxes M h f qs acc s =
          ({ s with heap := H', left := 0, made := s.made ++ (ks.flatMap slicesT).take s.left, gone := s.gone ++ ds }, .error userPanic) ∧
        (∀ x, H'.mem x = H0.mem x) ∧ Inv H' out ∧ (done ++ (ks.flatMap slicesT).take s.left).Perm (ds ++ leakedK slicesT leakedT ks s.left) := by
  intro qs
  induction qs with
  | nil =>
    intro acc s ks done hi ha hx hv hl hr hq hc
    cases hr
    rw [if_pos (by simp)]
    exact ⟨s.heap, [], rfl, by simp [cloneBoxes, CM.pure], by simp⟩
  | cons q qs ihq =>
    intro acc s ks done hi ha hx hv hl hr hq hc
    cases hr with
    | @cons _ k _ ks h1 h2 =>
    obtain ⟨nd, hm, hht⟩ := hq q (by simp)
    have hf := ih s _ q nd k hi hm hht h1 (hc k (by simp))
    by_cases hk : (slicesT k).length ≤ s.left
    · -- this child is copied
      rw [if_pos hk] at hf
      obtain ⟨H1, q', e1, e2, e3⟩ := hf
      obtain ⟨_, _, e1', c1, c2, c3, c4⟩ := deepClone_spec (h := h) s.heap _ q nd hi hm hht
      rw [e1] at e1'; cases e1'
      have hcb : cloneBoxes M h f (q :: qs) acc s =
          cloneBoxes M h f qs (acc ++ [q']) { s with heap := H1, left := s.left - (slicesT k).length, made := s.made ++ slicesT k } := by
        rw [cloneBoxes, CM.bind_ok (CM.unwind_ok e2)]
        have hw : (CM.lift (weakAssert (acc.length < 2 * M + 1) "push_unchecked") : CM I S Unit)
            { s with heap := H1, left := s.left - (slicesT k).length, made := s.made ++ slicesT k } =
            ({ s with heap := H1, left := s.left - (slicesT k).length, made := s.made ++ slicesT k }, .ok ()) := by
          have : acc.length < 2 * M + 1 := by simp only [List.length_cons] at hl; omega
          simp [CM.lift, weakAssert, this]
        rw [CM.bind_ok hw]
      have hcnt : (fun x => out x + (acc ++ [q']).count x) = fun x => (fun x => out x + acc.count x) x + (if x = q' then 1 else 0) := by
        funext x
        simp only [List.count_append, List.count_singleton, beq_iff_eq]
        by_cases hx : x = q'
        · subst hx; simp; omega
        · simp [hx, Ne.symm hx]
      have hrec := ihq (acc ++ [q']) { s with heap := H1, left := s.left - (slicesT k).length, made := s.made ++ slicesT k } ks (done ++ slicesT k)
        (by rw [hcnt]; exact c1) (by
          intro x hx
          rcases List.mem_append.1 hx with hx | hx
          · obtain ⟨n, g1, g2⟩ := ha x hx
            exact ⟨n, c2 _ _ g1, g2⟩
          · simp only [List.mem_singleton] at hx
            subst hx
            exact c3)
        (hx.trans c2) (by
          show (valsIn H1).Perm _
          refine e3.trans ((hv.append_right _).trans ?_)
          rw [List.append_assoc])
        (by simp only [List.length_append, List.length_cons, List.length_nil] at hl ⊢; omega)
        (h2.imp (fun _ _ h => readT_ext c2 h))
        (fun x hx => by
          obtain ⟨n, g1, g2⟩ := hq x (by simp [hx])
          exact ⟨n, c2 _ _ g1, g2⟩)
        (fun x hx => hc x (by simp [hx]))
      rw [hcb]
      simp only [List.flatMap_cons, List.length_append] at hrec ⊢
      by_cases hk2 : (ks.flatMap slicesT).length ≤ s.left - (slicesT k).length
      · rw [if_pos hk2] at hrec
        rw [if_pos (by omega)]
        obtain ⟨H', l', m1, m2, m3⟩ := hrec
        refine ⟨H', q' :: l', by simp only [overKids, e1, R.bind_ok, m1, R.pure_eq], ?_, ?_⟩
        · rw [m2]
          simp only [List.append_assoc, List.cons_append, List.nil_append, Nat.sub_sub]
        · refine m3.trans ((e3.append_right _).trans ?_)
          rw [List.append_assoc]
      · rw [if_neg hk2] at hrec
        rw [if_neg (by omega)]
        obtain ⟨H', ds, m1, m2, m3, m4⟩ := hrec
        refine ⟨H', ds, ?_, m2, m3, ?_⟩
        · rw [m1]
          simp only [List.take_append, List.append_assoc, List.take_of_length_le hk]
        · simp only [List.take_append, List.take_of_length_le hk, leakedK]
          rw [if_neg (by omega), ← List.append_assoc]
          exact m4
    · -- the panic occurs in this child
      rw [if_neg hk] at hf
      obtain ⟨H1, ds, e1, e2, e3, e4⟩ := hf
      rw [if_neg (by simp only [List.flatMap_cons, List.length_append]; omega)]
      obtain ⟨H2, g, d1, d2, d3, d4⟩ := dropKids_spec (h := h) (l := acc) (out' := out) e3 (fun _ => rfl) (fun x hx n hn => by
        obtain ⟨n', g1, g2⟩ := ha x hx
        rw [e2, g1] at hn; cases hn; exact g2)
      have hag : Agree H0 H2 := by
        intro x n n' g1 g2
        obtain ⟨n1, g3, g4⟩ := d4.less x n' g2
        rw [e2, hx x n g1] at g3; cases g3
        exact g4
      have hmem := hag.eq hi0 d2
      have hd : dropBoxes h acc
          { s with heap := H1, left := 0, made := s.made ++ (slicesT k).take s.left, gone := s.gone ++ ds } =
          ({ s with heap := H2, left := 0, made := s.made ++ (slicesT k).take s.left, gone := s.gone ++ ds ++ g.vals }, .ok ()) := by
        unfold dropBoxes
        simp only [d1]
      refine ⟨H2, ds ++ g.vals, ?_, hmem, d2, ?_⟩
      · unfold cloneBoxes
        rw [CM.bind_error (CM.unwind_error e1 hd)]
        simp only [List.flatMap_cons, List.append_assoc]
        rw [List.take_append_of_le_length (by omega)]
      · have hdone : done.Perm g.vals := by
          have h1 := d4.vals_perm e3 d3
          rw [valsIn_eq hi0 d2 hmem, valsIn_eq hi e3 e2] at h1
          exact ((List.perm_append_left_iff _).1 (h1.trans hv)).symm
        simp only [List.flatMap_cons, leakedK]
        rw [if_pos (by omega), List.take_append_of_le_length (by omega)]
        refine (hdone.append e4).trans ?_
        rw [← List.append_assoc]
        exact List.perm_append_comm.append_right _

theorem deepCloneC_spec {M : Nat} (h : Nat) : DeepSpec (I := I) (S := S) M h (deepCloneC M h) := by
  induction h with
  | zero =>
    intro s out p nd t hi hm hht ht hcap
    obtain ⟨nd0, ks, r1, r2, rfl⟩ := readT_succ.1 ht
    rw [hm] at r1; cases r1
    have hs : slicesT (h := 1) (⟨p, nd.size, nd.keys, ks⟩ : Node I S (Tree I S 0)) = nd.vals := by
      simp [slicesT, HNode.vals]
    have hl : nd.vals.length = nd.keys.length := by simp [HNode.vals]
    rw [hs]
    unfold deepCloneC
    rw [CM.bind_ok (cm_get_ok hm)]
    have hck := cloneKeys_spec hcap.1 s
    simp only at hck
    by_cases hk : nd.vals.length ≤ s.left
    · rw [if_pos hk]
      rw [if_pos (by omega)] at hck
      refine ⟨(s.heap.alloc { nd with count := 1 }).1, (s.heap.alloc { nd with count := 1 }).2, by simp only [deepClone, get_ok.2 hm, R.bind_ok]; rfl, ?_, ?_⟩
      · rw [CM.bind_ok hck, CM.onHeap_ok (H := (s.heap.alloc { nd with count := 1 }).1) (a := (s.heap.alloc { nd with count := 1 }).2) rfl, hl]
      · rw [valsIn_alloc hi]
    · rw [if_neg hk]
      rw [if_neg (by omega)] at hck
      refine ⟨s.heap, nd.vals.take s.left, ?_, fun _ => rfl, hi, ?_⟩
      · rw [CM.bind_error hck]
      · rw [leakedT_succ, if_pos (by omega)]
        simp
  | succ h ih =>
    intro s out p nd t hi hm hht ht hcap
    obtain ⟨nd0, ks, r1, r2, rfl⟩ := readT_succ.1 ht
    rw [hm] at r1; cases r1
    have hs : slicesT (h := h + 1 + 1) (⟨p, nd.size, nd.keys, ks⟩ : Node I S (Tree I S (h + 1))) = nd.vals ++ ks.flatMap slicesT := rfl
    have hl : nd.vals.length = nd.keys.length := by simp [HNode.vals]
    have f1 : refsOf (some nd) = nd.kids := by simp [refsOf, hht]
    rw [hs]
    unfold deepCloneC
    rw [CM.bind_ok (cm_get_ok hm)]
    have hck := cloneKeys_spec hcap.1 s
    simp only at hck
    rw [List.length_append]
    by_cases hk : nd.vals.length ≤ s.left
    · rw [if_pos (by omega)] at hck
      rw [CM.bind_ok hck]
      have hb := cloneBoxes_spec (H0 := s.heap) ih hi nd.kids []
        { s with left := s.left - nd.keys.length, made := s.made ++ nd.vals } ks [] (by simpa using hi) (by simp) (fun _ _ h => h) (by simp)
        (by
          have : ks.length ≤ 2 * M + 1 := hcap.2.1
          have := r2.length_eq
          simp only [List.length_nil]
          omega)
        r2 (fun q hq => by
          obtain ⟨n, e1, e2⟩ := hi.ht p nd hm q (by rw [f1]; exact hq)
          exact ⟨n, e1, by omega⟩)
        (fun k hk => hcap.2.2 k hk)
      by_cases hk2 : (ks.flatMap slicesT).length ≤ s.left - nd.keys.length
      · rw [if_pos (by omega)]
        rw [if_pos hk2] at hb
        obtain ⟨H1, l', m1, m2, m3⟩ := hb
        simp only [List.nil_append] at m2
        obtain ⟨_, _, m1', i1, -⟩ := cloneKids (fun H out p nd => deepClone_spec (h := h) H out p nd) (l := nd.kids) hi (fun q hq => by
          obtain ⟨n, e1, e2⟩ := hi.ht p nd hm q (by rw [f1]; exact hq)
          exact ⟨n, e1, by omega⟩)
        rw [m1] at m1'; cases m1'
        refine ⟨(H1.alloc { nd with count := 1, kids := l' }).1, (H1.alloc { nd with count := 1, kids := l' }).2,
          by simp only [deepClone, get_ok.2 hm, R.bind_ok, m1]; rfl, ?_, ?_⟩
        · rw [CM.bind_ok m2, CM.onHeap_ok (H := (H1.alloc { nd with count := 1, kids := l' }).1)
            (a := (H1.alloc { nd with count := 1, kids := l' }).2) rfl, hl, Nat.sub_sub, List.append_assoc]
        · rw [valsIn_alloc i1]
          show (valsIn H1 ++ nd.vals).Perm _
          refine (m3.append_right _).trans ?_
          rw [List.append_assoc]
          exact List.perm_append_comm.append_left _
      · rw [if_neg (by omega)]
        rw [if_neg hk2] at hb
        obtain ⟨H1, ds, m1, m2, m3, m4⟩ := hb
        refine ⟨H1, ds, ?_, m2, m3, ?_⟩
        · rw [CM.bind_error m1, List.take_append, List.take_of_length_le hk, hl, List.append_assoc]
        · rw [leakedT_succ, if_neg (by omega), List.take_append, List.take_of_length_le hk, hl]
          simp only [List.nil_append] at m4
          refine (m4.append_left _).trans ?_
          show (nd.vals ++ (ds ++ _)).Perm (ds ++ (nd.vals ++ _))
          rw [← List.append_assoc, ← List.append_assoc]
          exact List.perm_append_comm.append_right _
    · rw [if_neg (by omega)]
      rw [if_neg (by omega)] at hck
      refine ⟨s.heap, nd.vals.take s.left, ?_, fun _ => rfl, hi, ?_⟩
      · rw [CM.bind_error hck, List.take_append_of_le_length (by omega)]
      · rw [leakedT_succ, if_pos (by omega), List.take_append_of_le_length (by omega)]
        simp

end Sherman.Cow
