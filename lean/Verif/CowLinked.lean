import Verif.CowLinks
/-!
# What the stored links of shared nodes can be

Each node that is a child of another stores a link.  The node that the link names need not be a parent any more, and may have been freed;
but if it is there it has the height of a parent.  In each tree by itself no node occurs twice.
-/
namespace Sherman.Cow
variable {I S : Type}

/-- Children have links, to nodes of the right height or to freed nodes. -/
def Linked (H : Heap I S) (L : LinkMap) : Prop :=
  ∀ y nd, H.mem y = some nd → ∀ x ∈ refsOf (some nd), ∃ q i, L x = some (q, i) ∧ q < H.next ∧ ∀ nq, H.mem q = some nq → nq.height = nd.height

/-- Nodes do not change their height, and addresses are not used again. -/
def Old (H H' : Heap I S) : Prop := ∀ x nd', H'.mem x = some nd' → x < H.next → ∃ nd, H.mem x = some nd ∧ nd.height = nd'.height

theorem Old.trans {H H1 H2 : Heap I S} (a : Old H H1) (b : Old H1 H2) (hn : H.next ≤ H1.next) : Old H H2 := by
  intro x n2 hx hlt
  obtain ⟨n1, h1, e1⟩ := b x n2 hx (by omega)
  obtain ⟨n0, h0, e0⟩ := a x n1 h1 hlt
  exact ⟨n0, h0, e0.trans e1⟩

/-- Links stay good where they are not written and the nodes that have children have been there before. -/
theorem Linked.step {H H' : Heap I S} {L L' : LinkMap} (hl : Linked H L) (ho : Old H H') (hn : H.next ≤ H'.next)
    (h : ∀ y nd, H'.mem y = some nd → ∀ x ∈ refsOf (some nd),
      (∃ q i, L' x = some (q, i) ∧ q < H'.next ∧ ∀ nq, H'.mem q = some nq → nq.height = nd.height) ∨
      (L' x = L x ∧ ∃ y0 n0, H.mem y0 = some n0 ∧ x ∈ refsOf (some n0) ∧ n0.height = nd.height)) : Linked H' L' := by
  intro y nd hy x hx
  rcases h y nd hy x hx with h | ⟨e, y0, n0, h1, h2, h3⟩
  · exact h
  · obtain ⟨q, i, e1, e2, e3⟩ := hl y0 n0 h1 x h2
    refine ⟨q, i, by rw [e, e1], by omega, fun nq hq => ?_⟩
    obtain ⟨n, g1, g2⟩ := ho q nq hq e2
    rw [← g2, e3 n g1, h3]

theorem Uniq.old {H H' : Heap I S} {h p p' : Nat} (u : Uniq H H' h p p') : Old H H' := by
  intro x n hx hlt
  rcases u.back x n hx with rfl | ⟨m, h1, h2⟩
  · obtain ⟨a, b, h1, h2, h3, -⟩ := u.new
    rw [hx] at h2; cases h2
    rcases u.fresh with rfl | rfl
    · exact ⟨a, h1, h3.1⟩
    · omega
  · exact ⟨m, h1, h2.1⟩

/-- A node in memory after `ensure_unique` has the contents of one from before. -/
theorem Uniq.origin {H H' : Heap I S} {h p p' : Nat} (u : Uniq H H' h p p') {x : Nat} {n : HNode I S} (hx : H'.mem x = some n) :
    ∃ y m, H.mem y = some m ∧ m.Same n := by
  rcases u.back x n hx with rfl | ⟨m, h1, h2⟩
  · obtain ⟨a, b, h1, h2, h3, -⟩ := u.new
    rw [hx] at h2; cases h2
    exact ⟨_, a, h1, h3⟩
  · exact ⟨x, m, h1, h2⟩

theorem unshareDownL_linked {imax : Nat} {H H' : Heap I S} {L L' : LinkMap} {out : Nat → Nat} (hi : Inv H out) (hl : Linked H L) {path : List Nat}
    {h p : Nat} {nd : HNode I S} (hm : H.mem p = some nd) (hh : nd.height = h) (hc : nd.count = 1) {t : Tree I S (h + 1)}
    (ht : readT H (h + 1) p = .ok t) (hf : Fits t path) (hd : unshareDownL imax path H L h p = .ok (H', L')) :
    Linked H' L' ∧ Old H H' ∧ H.next ≤ H'.next := by
  induction path generalizing H L h p nd with
  | nil =>
    cases hd
    exact ⟨hl, fun x n hx _ => ⟨n, hx, rfl⟩, Nat.le_refl _⟩
  | cons c path ih =>
    obtain ⟨nd0, ks, r1, r2, rfl⟩ := readT_succ.1 ht
    rw [hm] at r1; cases r1
    obtain ⟨h0, k, f1, f2⟩ := hf
    obtain ⟨q, hcq, hrq⟩ := forall₂_get r2 f1
    have hne : nd.height ≠ 0 := by omega
    have fr : refsOf (some nd) = nd.kids := by simp only [refsOf, hne, if_false]
    obtain ⟨ndq, hq, hhq⟩ := hi.ht p nd hm q (by rw [fr]; exact List.mem_of_getElem? hcq)
    cases h with
    | zero => omega
    | succ h =>
      have eh : ndq.height = h := by omega
      subst eh
      simp only [unshareDownL, get_ok.2 hm, R.bind_ok, hcq, R.pure_eq, Nat.add_sub_cancel] at hd
      rcases ensureUnique_spec (imax := imax) hi hq with ⟨H1, q', e, u, -⟩ | e
      swap
      · rcases ensureUniqueL_cases imax H L ndq.height q with ⟨H1', L1, q1, e1, e2, e3⟩ | ⟨f, e1, e2⟩
        · rw [e] at e1; cases e1
        · rw [e2] at hd; cases hd
      rcases ensureUniqueL_cases imax H L ndq.height q with ⟨H1', L1, q1, e1, e2, e3⟩ | ⟨f, e1, -⟩
      swap
      · rw [e] at e1; cases e1
      rw [e] at e1; cases e1
      rw [e2] at hd
      simp only [R.bind_ok] at hd
      obtain ⟨k1, k2, k3, k4, k5, k6⟩ := redirect hi hm hne hcq hq u
      rw [get_ok.2 k2] at hd
      simp only [R.bind_ok] at hd
      obtain ⟨t', k7, k8⟩ := k6 k hrq
      obtain ⟨nq, nq', g1, g2, g3, g4⟩ := u.new
      rw [hq] at g1; cases g1
      have hmq' : (H1.put p { nd with kids := nd.kids.set c q' }).mem q' = some nq' := by simp [Heap.put, k3, g2]
      have hself : (H1.put p { nd with kids := nd.kids.set c q' }).mem p = some { nd with kids := nd.kids.set c q' } := by simp [Heap.put]
      have hother : ∀ x, x ≠ p → (H1.put p { nd with kids := nd.kids.set c q' }).mem x = H1.mem x := fun x hx => by simp [Heap.put, hx]
      have hold : Old H (H1.put p { nd with kids := nd.kids.set c q' }) := by
        intro x n hx hlt
        by_cases hxp : x = p
        · subst hxp
          rw [hself] at hx; cases hx
          exact ⟨nd, hm, rfl⟩
        · rw [hother x hxp] at hx
          exact u.old x n hx hlt
      have hnx : H.next ≤ (H1.put p { nd with kids := nd.kids.set c q' }).next := u.next
      have hlk : Linked (H1.put p { nd with kids := nd.kids.set c q' }) (L1.put q' (some (p, c))) := by
        refine hl.step hold hnx (fun y n hy x hx => ?_)
        by_cases hxq : x = q'
        · left
          subst hxq
          refine ⟨p, c, by simp [LinkMap.put], k4.lt _ _ hself, fun np hp => ?_⟩
          rw [hself] at hp; cases hp
          obtain ⟨n1, a1, a2⟩ := k4.ht y n hy x hx
          rw [hmq'] at a1; cases a1
          rw [← a2, ← g3.1]; exact k1.symm
        · right
          refine ⟨by simp only [LinkMap.put, hxq, if_false]; exact e3 x hxq, ?_⟩
          by_cases hyp : y = p
          · subst hyp
            rw [hself] at hy; cases hy
            refine ⟨y, nd, hm, ?_, rfl⟩
            have e0 : refsOf (some { nd with kids := nd.kids.set c q' }) = nd.kids.set c q' := by simp only [refsOf, hne, if_false]
            rw [e0] at hx
            rw [fr]
            rcases List.mem_or_eq_of_mem_set hx with hx | hx
            · exact hx
            · exact absurd hx hxq
          · rw [hother y hyp] at hy
            obtain ⟨y0, m, a1, a2⟩ := u.origin hy
            exact ⟨y0, m, a1, by rw [a2.refs]; exact hx, a2.1⟩
      obtain ⟨j1, j2, j3⟩ := ih k4 hlk hmq' g3.1.symm g4 k7 (f2.alike k8) hd
      exact ⟨j1, hold.trans j2 hnx, hnx.trans j3⟩

theorem unshareL_linked {imax : Nat} {H H' : Heap I S} {L L' : LinkMap} {out : Nat → Nat} (hi : Inv H out) (hl : Linked H L) {path : List Nat}
    {h p p' : Nat} {nd : HNode I S} (hm : H.mem p = some nd) (hh : nd.height = h) {t : Tree I S (h + 1)} (ht : readT H (h + 1) p = .ok t)
    (hf : Fits t path) (ho : 0 < out p) (hd : unshareL imax path H L h p = .ok (H', L', p')) :
    Linked H' L' ∧ Old H H' ∧ H.next ≤ H'.next := by
  subst hh
  simp only [unshareL] at hd
  rcases ensureUnique_spec (imax := imax) hi hm with ⟨H1, p1, e, u, -⟩ | e
  swap
  · rcases ensureUniqueL_cases imax H L nd.height p with ⟨H1', L1, q1, e1, e2, e3⟩ | ⟨f, e1, e2⟩
    · rw [e] at e1; cases e1
    · rw [e2] at hd; cases hd
  rcases ensureUniqueL_cases imax H L nd.height p with ⟨H1', L1, q1, e1, e2, e3⟩ | ⟨f, e1, -⟩
  swap
  · rw [e] at e1; cases e1
  rw [e] at e1; cases e1
  rw [e2] at hd
  simp only [R.bind_ok, bind_ok_iff] at hd
  obtain ⟨⟨H2, L2⟩, hd, hp⟩ := hd
  cases hp
  have k := u.root hi (out' := fun x => out x + (if x = p' then 1 else 0) - (if x = p then 1 else 0)) (fun x => by
    by_cases hx : x = p
    · subst hx; simp only [if_true]; split <;> omega
    · simp [hx])
  obtain ⟨t1, a1, a2⟩ := u.alike hi hm ht
  obtain ⟨nq, nq', g1, g2, g3, g4⟩ := u.new
  rw [hm] at g1; cases g1
  have hlk : Linked H1 (L1.put p' none) := by
    refine hl.step u.old u.next (fun y n hy x hx => .inr ?_)
    have hxp : x ≠ p' := by
      rintro rfl
      have c1 := k.cnt x
      rw [cnt_some g2, g4] at c1
      have c2 := refsIn_le (k.lt y n hy) x
      rw [hy] at c2
      have c3 := List.count_pos_iff.2 hx
      by_cases hxp : x = p
      · subst hxp; simp only [if_true] at c1; omega
      · simp only [hxp, if_true, if_false] at c1; omega
    refine ⟨by simp only [LinkMap.put, hxp, if_false]; exact e3 x hxp, ?_⟩
    obtain ⟨y0, m, b1, b2⟩ := u.origin hy
    exact ⟨y0, m, b1, by rw [b2.refs]; exact hx, b2.1⟩
  obtain ⟨j1, j2, j3⟩ := unshareDownL_linked k hlk g2 g3.1.symm g4 a1 (hf.alike a2) hd
  exact ⟨j1, u.old.trans j2 u.next, u.next.trans j3⟩

/-! ## Addresses in one tree -/

/-- `t'` is `t` with new copies of the nodes on the way down; a copy has an address that was not used before. -/
def Repath : Nat → List Nat → {h : Nat} → Tree I S h → Tree I S h → Prop
  | nx, [], h + 1, t, t' => (Node.ptr t' = Node.ptr t ∨ nx ≤ Node.ptr t') ∧ Node.kids t' = Node.kids t
  | nx, c :: path, h + 1, t, t' => (Node.ptr t' = Node.ptr t ∨ nx ≤ Node.ptr t') ∧ ∃ k k' nx', (Node.kids t)[c]? = some k ∧
      Node.kids t' = (Node.kids t).set c k' ∧ nx ≤ nx' ∧ Node.ptr t' < nx' ∧ Repath nx' path (h := h) k k'
  | _, _, 0, _, _ => True

theorem Repath.root {nx nx0 : Nat} {path : List Nat} {h : Nat} {t t0 t' : Tree I S (h + 1)} (r : Repath nx path t t') (hn : nx0 ≤ nx)
    (hp : Node.ptr t' = Node.ptr t0 ∨ nx0 ≤ Node.ptr t') (hk : Node.kids t0 = Node.kids t) : Repath nx0 path t0 t' := by
  cases path with
  | nil => exact ⟨hp, by rw [hk]; exact r.2⟩
  | cons c path =>
    obtain ⟨-, k, k', nx', h1, h2, h3, h4, h5⟩ := r
    exact ⟨hp, k, k', nx', by rw [hk]; exact h1, by rw [hk]; exact h2, by omega, h4, h5⟩

theorem addrs_succ {h : Nat} (t : Tree I S (h + 1)) : addrs t = Node.ptr t :: (Node.kids t).flatMap (addrs (h := h)) := rfl

theorem nodup_flatMap_set {A : Type} {f : A → List Nat} {l : List A} {c : Nat} {k k' : A} (hk : l[c]? = some k) (hn : (l.flatMap f).Nodup)
    (h1 : (f k').Nodup) (h2 : ∀ x ∈ f k', x ∈ f k ∨ x ∉ l.flatMap f) : ((l.set c k').flatMap f).Nodup := by
  induction l generalizing c with
  | nil => simp at hk
  | cons a l ih =>
    rw [List.flatMap_cons, List.nodup_append] at hn
    cases c with
    | zero =>
      simp only [List.getElem?_cons_zero, Option.some.injEq] at hk
      subst hk
      simp only [List.set_cons_zero, List.flatMap_cons, List.nodup_append]
      refine ⟨h1, hn.2.1, fun x hx y hy => ?_⟩
      rcases h2 x hx with h | h
      · exact hn.2.2 x h y hy
      · rintro rfl
        exact h (by simp only [List.flatMap_cons, List.mem_append]; exact .inr hy)
    | succ c =>
      simp only [List.getElem?_cons_succ] at hk
      simp only [List.set_cons_succ, List.flatMap_cons, List.nodup_append]
      refine ⟨hn.1, ih hk hn.2.1 (fun x hx => ?_), fun x hx y hy => ?_⟩
      · rcases h2 x hx with h | h
        · exact .inl h
        · exact .inr (fun h' => h (by simp only [List.flatMap_cons, List.mem_append]; exact .inr h'))
      · rw [List.mem_flatMap] at hy
        obtain ⟨b, hb, hy⟩ := hy
        rcases List.mem_or_eq_of_mem_set hb with hb | rfl
        · exact hn.2.2 x hx y (List.mem_flatMap.2 ⟨b, hb, hy⟩)
        · rcases h2 y hy with h | h
          · exact hn.2.2 x hx y (List.mem_flatMap.2 ⟨k, List.mem_of_getElem? hk, h⟩)
          · rintro rfl
            exact h (by simp only [List.flatMap_cons, List.mem_append]; exact .inl hx)

/-- New copies on the way down do not make an address occur twice. -/
theorem Repath.nodup {nx : Nat} {path : List Nat} {h : Nat} {t t' : Tree I S (h + 1)} (r : Repath nx path t t') (hn : (addrs t).Nodup)
    (hlt : ∀ x ∈ addrs t, x < nx) : (addrs t').Nodup ∧ ∀ x ∈ addrs t', x ∈ addrs t ∨ nx ≤ x := by
  induction path generalizing nx h with
  | nil =>
    obtain ⟨hp, hk⟩ := r
    rw [addrs_succ] at hn hlt ⊢
    rw [addrs_succ t, hk]
    rw [List.nodup_cons] at hn
    refine ⟨List.nodup_cons.2 ⟨?_, hn.2⟩, fun x hx => ?_⟩
    · rcases hp with hp | hp
      · rw [hp]; exact hn.1
      · intro h
        have := hlt _ (List.mem_cons_of_mem _ h)
        omega
    · rcases List.mem_cons.1 hx with rfl | hx
      · rcases hp with hp | hp
        · rw [hp]; exact .inl (by simp)
        · exact .inr hp
      · exact .inl (List.mem_cons_of_mem _ hx)
  | cons c path ih =>
    obtain ⟨hp, k, k', nx', hc, hk, h1, h2, r'⟩ := r
    rw [addrs_succ] at hn hlt ⊢
    rw [addrs_succ t, hk]
    rw [List.nodup_cons] at hn
    have hsub : ∀ x ∈ addrs k, x ∈ (Node.kids t).flatMap (addrs (h := h)) := fun x hx =>
      List.mem_flatMap.2 ⟨k, List.mem_of_getElem? hc, hx⟩
    have hb : (addrs k').Nodup ∧ ∀ x ∈ addrs k', x ∈ addrs k ∨ nx' ≤ x := by
      cases h with
      | zero => simp [addrs]
      | succ h =>
        refine ih r' ?_ (fun x hx => ?_)
        · obtain ⟨i, hi, rfl⟩ := List.getElem_of_mem (List.mem_of_getElem? hc)
          exact (List.nodup_flatMap.1 hn.2).1 _ (List.getElem_mem _)
        · have := hlt x (List.mem_cons_of_mem _ (hsub x hx))
          omega
    have hall : ∀ x ∈ ((Node.kids t).set c k').flatMap (addrs (h := h)), x ∈ (Node.kids t).flatMap (addrs (h := h)) ∨ nx' ≤ x := by
      intro x hx'
      obtain ⟨b, hb1, hx⟩ := List.mem_flatMap.1 hx'
      rcases List.mem_or_eq_of_mem_set hb1 with hb1 | rfl
      · exact .inl (List.mem_flatMap.2 ⟨b, hb1, hx⟩)
      · rcases hb.2 x hx with h | h
        · exact .inl (hsub x h)
        · exact .inr h
    refine ⟨List.nodup_cons.2 ⟨fun hx => ?_, nodup_flatMap_set hc hn.2 hb.1 (fun x hx => ?_)⟩, fun x hx => ?_⟩
    · rcases hall _ hx with h | h
      · rcases hp with hp | hp
        · rw [hp] at h; exact hn.1 h
        · have := hlt _ (List.mem_cons_of_mem _ h)
          omega
      · omega
    · rcases hb.2 x hx with h | h
      · exact .inl h
      · right
        intro h'
        have := hlt _ (List.mem_cons_of_mem _ h')
        omega
    · rcases List.mem_cons.1 hx with rfl | hx
      · rcases hp with hp | hp
        · rw [hp]; exact .inl (by simp)
        · exact .inr hp
      · rcases hall x hx with h | h
        · exact .inl (List.mem_cons_of_mem _ h)
        · exact .inr (by omega)

theorem forall₂_of_get {A B : Type} {P Q : A → B → Prop} {l : List A} {r : List B} (h : List.Forall₂ P l r)
    (hq : ∀ (j : Nat) (x : A) (y : B), l[j]? = some x → r[j]? = some y → P x y → Q x y) : List.Forall₂ Q l r := by
  rw [List.forall₂_iff_get] at h ⊢
  refine ⟨h.1, fun i h1 h2 => hq i _ _ ?_ ?_ (h.2 i h1 h2)⟩ <;> simp

theorem forall₂_fun {A B : Type} {f : A → R B} {l : List A} {r r' : List B} (h : List.Forall₂ (fun a b => f a = .ok b) l r)
    (h' : List.Forall₂ (fun a b => f a = .ok b) l r') : r = r' := by
  induction h generalizing r' with
  | nil => cases h'; rfl
  | cons h1 h2 ih =>
    cases h' with
    | cons g1 g2 =>
      rw [h1] at g1
      cases g1
      rw [ih g2]

theorem Way.below {H : Heap I S} {out : Nat → Nat} (hi : Inv H out) {path : List Nat} {p : Nat} {X : List Nat} (w : Way H path p X)
    {nd : HNode I S} (hm : H.mem p = some nd) {x : Nat} (hx : x ∈ X) (hne : x ≠ p) : ∃ nx, H.mem x = some nx ∧ nx.height < nd.height := by
  cases path with
  | nil => obtain ⟨rfl, -⟩ := w; simp only [List.mem_singleton] at hx; exact absurd hx hne
  | cons c path =>
    obtain ⟨nd', q, X', h1, h2, h3, h4, rfl, h5⟩ := w
    rw [hm] at h1; cases h1
    rcases List.mem_cons.1 hx with h | hx
    · exact absurd h hne
    obtain ⟨nq, hq, hhq⟩ := hi.ht p nd hm q (by simp only [refsOf, h3, if_false]; exact List.mem_of_getElem? h4)
    obtain ⟨nx, k1, k2⟩ := h5.height hi hq x hx
    exact ⟨nx, k1, by omega⟩

theorem forall₂_set_both {A B : Type} {P Q : A → B → Prop} {l : List A} {r : List B} (h : List.Forall₂ P l r) {c : Nat} {a : A} {b : B}
    (hab : Q a b) (hq : ∀ j x y, j ≠ c → l[j]? = some x → r[j]? = some y → P x y → Q x y) : List.Forall₂ Q (l.set c a) (r.set c b) := by
  induction h generalizing c with
  | nil => exact .nil
  | cons h1 h2 ih =>
    cases c with
    | zero =>
      refine .cons hab (forall₂_of_get h2 (fun j x y hx hy hp => hq (j + 1) x y (by omega) (by simpa using hx) (by simpa using hy) hp))
    | succ c =>
      refine .cons (hq 0 _ _ (by omega) rfl rfl h1) (ih (fun j x y hj hx hy hp => hq (j + 1) x y (by omega) (by simpa using hx) (by simpa using hy) hp))

theorem unshareDown_repath {imax : Nat} {H H' : Heap I S} {out : Nat → Nat} (hi : Inv H out) (hs : Simple H) {path : List Nat} {h p : Nat}
    {nd : HNode I S} (hm : H.mem p = some nd) (hh : nd.height = h) (hc : nd.count = 1) {t : Tree I S (h + 1)} (ht : readT H (h + 1) p = .ok t)
    (hf : Fits t path) (hd : unshareDown imax path H h p = .ok H') :
    ∃ t', readT H' (h + 1) p = .ok t' ∧ Repath H.next path t t' := by
  induction path generalizing H h p nd with
  | nil =>
    cases hd
    exact ⟨t, ht, .inl rfl, rfl⟩
  | cons c path ih =>
    obtain ⟨-, Xw, -, j2, jw, j4, -, -, -, j8, -⟩ := unshareDownL_spec (L := fun _ => none) hi hs hm hh hc ht hf hd
    obtain ⟨nd0, ks, r1, r2, rfl⟩ := readT_succ.1 ht
    rw [hm] at r1; cases r1
    obtain ⟨h0, k, f1, f2⟩ := hf
    obtain ⟨q, hcq, hrq⟩ := forall₂_get r2 f1
    have hne : nd.height ≠ 0 := by omega
    have fr : refsOf (some nd) = nd.kids := by simp only [refsOf, hne, if_false]
    obtain ⟨ndq, hq, hhq⟩ := hi.ht p nd hm q (by rw [fr]; exact List.mem_of_getElem? hcq)
    cases h with
    | zero => omega
    | succ h =>
      have eh : ndq.height = h := by omega
      subst eh
      simp only [unshareDown, get_ok.2 hm, R.bind_ok, hcq, R.pure_eq, Nat.add_sub_cancel] at hd
      rcases ensureUnique_spec (imax := imax) hi hq with ⟨H1, q', e, u, -⟩ | e
      swap
      · rw [e] at hd; cases hd
      rw [e] at hd
      simp only [R.bind_ok] at hd
      obtain ⟨k1, k2, k3, k4, k5, k6⟩ := redirect hi hm hne hcq hq u
      rw [get_ok.2 k2] at hd
      simp only [R.bind_ok] at hd
      obtain ⟨t1, k7, k8⟩ := k6 k hrq
      obtain ⟨nq, nq', g1, g2, g3, g4⟩ := u.new
      rw [hq] at g1; cases g1
      have hmq' : (H1.put p { nd with kids := nd.kids.set c q' }).mem q' = some nq' := by simp [Heap.put, k3, g2]
      have hself : (H1.put p { nd with kids := nd.kids.set c q' }).mem p = some { nd with kids := nd.kids.set c q' } := by simp [Heap.put]
      have hother : ∀ x, x ≠ p → (H1.put p { nd with kids := nd.kids.set c q' }).mem x = H1.mem x := fun x hx => by simp [Heap.put, hx]
      have hs1 : Simple (H1.put p { nd with kids := nd.kids.set c q' }) := by
        intro x n hx
        by_cases hxp : x = p
        · subst hxp
          rw [hself] at hx; cases hx
          have e0 : refsOf (some { nd with kids := nd.kids.set c q' }) = nd.kids.set c q' := by simp only [refsOf, hne, if_false]
          rw [e0]
          have hnd := hs x nd hm
          rw [fr] at hnd
          refine nodup_set hnd ?_
          rcases u.fresh with rfl | rfl
          · exact .inr hcq
          · left
            intro hmem
            obtain ⟨n, a1, -⟩ := hi.ht x nd hm _ (by rw [fr]; exact hmem)
            have := hi.lt _ _ a1
            omega
        · rw [hother x hxp] at hx; exact u.simple hs x n hx
      -- the copy has the same children
      have hk1 : Node.kids t1 = Node.kids k := by
        obtain ⟨n1, ks1, a1, a2, rfl⟩ := readT_succ.1 k7
        rw [hmq'] at a1; cases a1
        obtain ⟨n2, ks2, b1, b2, rfl⟩ := readT_succ.1 hrq
        rw [hq] at b1; cases b1
        show ks1 = ks2
        rw [← g3.2.2.2] at a2
        refine forall₂_fun a2 (forall₂_of_get b2 (fun j x y hx hy => ?_))
        revert y
        generalize hgq : ndq.height = g at *
        cases g with
        | zero => exact fun y _ h => h
        | succ g =>
          intro y hy hxy
          obtain ⟨nx, c1, c2⟩ := hi.ht q ndq hq x (by simp only [refsOf, hgq]; exact List.mem_of_getElem? hx)
          refine readT_frame (Z := fun x => ∃ n, H.mem x = some n ∧ n.height < ndq.height) (fun x hx => ?_) ⟨nx, c1, by omega⟩ c1 (by omega) hxy
          obtain ⟨n, d1, d2⟩ := hx
          obtain ⟨n', d3, d4⟩ := u.keep x n d1
          have hxp : x ≠ p := by rintro rfl; rw [hm] at d1; cases d1; omega
          refine ⟨n, n', d1, by rw [hother x hxp]; exact d3, d4, fun z hz => ?_⟩
          obtain ⟨nz, d5, d6⟩ := hi.ht x n d1 z hz
          exact ⟨⟨nz, d5, by omega⟩, nz, d5, d6⟩
      obtain ⟨t2, i1, i2⟩ := ih k4 hs1 hmq' g3.1.symm g4 k7 (f2.alike k8) hd
      obtain ⟨-, X, -, -, i3, -, -, -, -, i8, i9⟩ := unshareDownL_spec (L := fun _ => none) k4 hs1 hmq' g3.1.symm g4 k7 (f2.alike k8) hd
      have hmp' : H'.mem p = some { nd with kids := nd.kids.set c q' } :=
        i9 p _ hself (by show ndq.height ≤ nd.height; omega) (Ne.symm k3)
      have hlt : c < nd.kids.length := (List.getElem?_eq_some_iff.1 hcq).1
      have hw : Way H' (c :: path) p (p :: X) := ⟨{ nd with kids := nd.kids.set c q' }, q', X, hmp', hc, hne, by simp [hlt], rfl, i3⟩
      have hpq2 : Node.ptr t2 = q' := by
        obtain ⟨_, _, _, _, e⟩ := readT_succ.1 i1
        rw [e]
      have hpk : Node.ptr k = q := by
        obtain ⟨_, _, _, _, e⟩ := readT_succ.1 hrq
        rw [e]
      have hnq' := (k4.lt _ _ hmq' : q' < H1.next)
      refine ⟨(⟨p, nd.size, nd.keys, ks.set c t2⟩ : Node I S (Tree I S (ndq.height + 1))), readT_succ.2 ⟨_, _, hmp', ?_, rfl⟩, .inl rfl, k, t2,
        H.next, f1, rfl, Nat.le_refl _, ?_, ?_⟩
      · refine forall₂_set_both r2 i1 (fun j x y hj hx hy hxy => ?_)
        obtain ⟨nx, c1, c2⟩ := hi.ht p nd hm x (by rw [fr]; exact List.mem_of_getElem? hx)
        have hsame : ∀ x n, H.mem x = some n → x ∉ p :: X → ∃ n', H'.mem x = some n' ∧ n.Same n' := by
          intro x n hx hnx
          simp only [List.mem_cons, not_or] at hnx
          obtain ⟨n', a1, a2⟩ := u.keep x n hx
          obtain ⟨n'', a3, a4⟩ := i8 x n' (by rw [hother x hnx.1]; exact a1) hnx.2
          exact ⟨n'', a3, a2.trans a4⟩
        have hxX : x ∉ p :: X := by
          intro hX
          rcases List.mem_cons.1 hX with rfl | hX
          · rw [hm] at c1; cases c1; omega
          obtain ⟨nxx, b1, b2⟩ := k4.ht p _ hself x (by
            have e0 : refsOf (some { nd with kids := nd.kids.set c q' }) = nd.kids.set c q' := by simp only [refsOf, hne, if_false]
            rw [e0]
            exact List.mem_of_getElem? (i := j) (by rw [List.getElem?_set_ne (Ne.symm hj)]; exact hx))
          have hxq : x = q' := by
            by_contra hne'
            obtain ⟨n1, d1, d2⟩ := j2.ht p _ hmp' q' (by
              have e0 : refsOf (some { nd with kids := nd.kids.set c q' }) = nd.kids.set c q' := by simp only [refsOf, hne, if_false]
              rw [e0]
              exact List.mem_of_getElem? (i := c) (List.getElem?_set_self hlt))
            obtain ⟨n2, d3, d4⟩ := i3.below j2 d1 hX hne'
            obtain ⟨n3, d5, d6⟩ := j2.ht p _ hmp' x (by
              have e0 : refsOf (some { nd with kids := nd.kids.set c q' }) = nd.kids.set c q' := by simp only [refsOf, hne, if_false]
              rw [e0]
              exact List.mem_of_getElem? (i := j) (by rw [List.getElem?_set_ne (Ne.symm hj)]; exact hx))
            rw [d3] at d5; cases d5
            omega
          subst hxq
          have hnd := hs1 p _ hself
          have e0 : refsOf (some { nd with kids := nd.kids.set c x }) = nd.kids.set c x := by simp only [refsOf, hne, if_false]
          rw [e0] at hnd
          have a1 : (nd.kids.set c x)[j]? = some x := by rw [List.getElem?_set_ne (Ne.symm hj)]; exact hx
          have a2 : (nd.kids.set c x)[c]? = some x := List.getElem?_set_self hlt
          obtain ⟨l1, e1⟩ := List.getElem?_eq_some_iff.1 a1
          obtain ⟨l2, e2⟩ := List.getElem?_eq_some_iff.1 a2
          exact hj ((List.Nodup.getElem_inj_iff hnd).1 (e1.trans e2.symm))
        refine readT_frame (Z := fun x => x ∉ p :: X ∧ ∃ n, H.mem x = some n ∧ n.height < nd.height) (fun x hx => ?_) ⟨hxX, nx, c1, by omega⟩ c1
          (by omega) hxy
        obtain ⟨a1, n, a2, a3⟩ := hx
        obtain ⟨n', a4, a5⟩ := hsame x n a2 a1
        refine ⟨n, n', a2, a4, a5, fun z hz => ?_⟩
        obtain ⟨nz, a6, a7⟩ := hi.ht x n a2 z hz
        refine ⟨⟨fun hzX => ?_, nz, a6, by omega⟩, nz, a6, a7⟩
        have hzp : z ≠ p := by rintro rfl; rw [hm] at a6; cases a6; omega
        exact a1 ((hw.excl j2 z hzX hzp).2 x n' a4 (by rw [← a5.refs]; exact hz))
      · show p < H.next
        exact hi.lt p nd hm
      · refine i2.root u.next ?_ hk1.symm
        rw [hpq2, hpk]
        rcases u.fresh with h | h
        · exact .inl h
        · right; omega

theorem unshare_repath {imax : Nat} {H H' : Heap I S} {out : Nat → Nat} (hi : Inv H out) (hs : Simple H) {path : List Nat} {h p p' : Nat}
    {nd : HNode I S} (hm : H.mem p = some nd) (hh : nd.height = h) {t : Tree I S (h + 1)} (ht : readT H (h + 1) p = .ok t)
    (hf : Fits t path) (ho : 0 < out p) (hd : unshare imax path H h p = .ok (H', p')) :
    ∃ t', readT H' (h + 1) p' = .ok t' ∧ Repath H.next path t t' := by
  subst hh
  simp only [unshare] at hd
  rcases ensureUnique_spec (imax := imax) hi hm with ⟨H1, p1, e, u, -⟩ | e
  swap
  · rw [e] at hd; cases hd
  rw [e] at hd
  simp only [R.bind_ok, bind_ok_iff] at hd
  obtain ⟨H2, hd, hp⟩ := hd
  cases hp
  have k := u.root hi (out' := fun x => out x + (if x = p' then 1 else 0) - (if x = p then 1 else 0)) (fun x => by
    by_cases hx : x = p
    · subst hx; simp only [if_true]; split <;> omega
    · simp [hx])
  obtain ⟨t1, a1, a2⟩ := u.alike hi hm ht
  obtain ⟨nq, nq', g1, g2, g3, g4⟩ := u.new
  rw [hm] at g1; cases g1
  obtain ⟨t2, i1, i2⟩ := unshareDown_repath k (u.simple hs) g2 g3.1.symm g4 a1 (hf.alike a2) hd
  refine ⟨t2, i1, i2.root u.next ?_ ?_⟩
  · obtain ⟨_, _, _, _, rfl⟩ := readT_succ.1 i1
    obtain ⟨_, _, _, _, rfl⟩ := readT_succ.1 ht
    rcases u.fresh with h | h
    · exact .inl h
    · right; show _ ≤ p'; omega
  · obtain ⟨n1, ks1, b1, b2, rfl⟩ := readT_succ.1 a1
    rw [g2] at b1; cases b1
    obtain ⟨n2, ks2, c1, c2, rfl⟩ := readT_succ.1 ht
    rw [hm] at c1; cases c1
    show ks2 = ks1
    rw [← g3.2.2.2] at b2
    refine forall₂_fun (forall₂_of_get c2 (fun j x y hx hy => ?_)) b2
    revert y
    generalize hgq : nd.height = g at *
    cases g with
    | zero => exact fun y _ h => h
    | succ g =>
      intro y hy hxy
      obtain ⟨nx, c1, c2⟩ := hi.ht p nd hm x (by simp only [refsOf, hgq]; exact List.mem_of_getElem? hx)
      refine readT_frame (Z := fun x => ∃ n, H.mem x = some n) (fun x hx => ?_) ⟨nx, c1⟩ c1 (by omega) hxy
      obtain ⟨n, d1⟩ := hx
      obtain ⟨n', d3, d4⟩ := u.keep x n d1
      refine ⟨n, n', d1, d3, d4, fun z hz => ?_⟩
      obtain ⟨nz, d5, d6⟩ := hi.ht x n d1 z hz
      exact ⟨⟨nz, d5⟩, nz, d5, d6⟩

end Sherman.Cow
