import Verif.CowWrite
/-!
# Insertion into a tree in memory
-/
namespace Sherman.Cow
open Finset
variable {I S : Type}

theorem Way.top {H : Heap I S} {out : Nat → Nat} (hi : Inv H out) {path : List Nat} {p : Nat} {X : List Nat} (w : Way H path p X)
    {nd : HNode I S} (hm : H.mem p = some nd) {x : Nat} (hx : x ∈ X) {nx : HNode I S} (hxm : H.mem x = some nx) (hh : nd.height ≤ nx.height) :
    x = p := by
  cases path with
  | nil => obtain ⟨rfl, -⟩ := w; simpa using hx
  | cons c path =>
    obtain ⟨nd', q, X', h1, h2, h3, h4, rfl, h5⟩ := w
    rw [hm] at h1; cases h1
    rcases List.mem_cons.1 hx with h | hx
    · exact h
    · obtain ⟨nq, hq, hhq⟩ := hi.ht p nd hm q (by simp only [refsOf, h3, if_false]; exact List.mem_of_getElem? h4)
      obtain ⟨nx', k1, k2⟩ := h5.height hi hq x hx
      rw [hxm] at k1; cases k1
      omega

theorem Way.nodup {H : Heap I S} {out : Nat → Nat} (hi : Inv H out) {path : List Nat} {p : Nat} {X : List Nat} (w : Way H path p X) :
    X.Nodup := by
  induction path generalizing p X with
  | nil => obtain ⟨rfl, -⟩ := w; simp
  | cons c path ih =>
    obtain ⟨nd, q, X', h1, h2, h3, h4, rfl, h5⟩ := w
    refine List.nodup_cons.2 ⟨fun hp => ?_, ih h5⟩
    obtain ⟨nq, hq, hhq⟩ := hi.ht p nd h1 q (by simp only [refsOf, h3, if_false]; exact List.mem_of_getElem? h4)
    obtain ⟨nx', k1, k2⟩ := h5.height hi hq p hp
    rw [h1] at k1; cases k1
    omega

theorem Way.apart {H : Heap I S} {out : Nat → Nat} (hi : Inv H out) {path : List Nat} {p : Nat} {X : List Nat} (w : Way H path p X)
    (ho : 0 < out p) : Apart H X := by
  intro z nd hz hzX q hq hqX
  by_cases hqp : q = p
  · subst hqp
    obtain ⟨_, nq, g1, g2⟩ := w.head
    have h1 := hi.cnt q
    rw [cnt_some g1, g2] at h1
    have h2 := refsIn_le (hi.lt z nd hz) q
    rw [hz] at h2
    have : 0 < (refsOf (some nd)).count q := List.count_pos_iff.2 hq
    omega
  · exact hzX ((w.excl hi q hqX hqp).2 z nd hz hq)

theorem Way.others {H : Heap I S} {out : Nat → Nat} (hi : Inv H out) {path : List Nat} {p : Nat} {X : List Nat} (w : Way H path p X)
    (ho : 0 < out p) {x : Nat} (hx : x ∈ X) : out x = if x = p then 1 else 0 := by
  by_cases hxp : x = p
  · subst hxp
    obtain ⟨_, nq, g1, g2⟩ := w.head
    have h1 := hi.cnt x
    rw [cnt_some g1, g2] at h1
    simp only [if_true]; omega
  · rw [if_neg hxp]; exact (w.excl hi x hx hxp).1

theorem count_two {l : List Nat} {c j q : Nat} (h1 : l[c]? = some q) (h2 : l[j]? = some q) (hne : j ≠ c) : 2 ≤ l.count q := by
  have e := count_set (q' := q + 1) h1 q
  simp only [if_true] at e
  have : (l.set c (q + 1))[j]? = some q := by rw [List.getElem?_set]; simp [hne.symm, h2]
  have hp : 0 < (l.set c (q + 1)).count q := List.count_pos_iff.2 (List.mem_of_getElem? this)
  rw [if_neg (by omega)] at e
  omega

section
variable {H : Heap I S} {X : List Nat}

/-- Tokens for sealed subtrees. -/
def AllSealed (H : Heap I S) (X : List Nat) (Q : Multiset (Tok I S)) : Prop :=
  ∀ k ∈ Q, ∃ (g : Nat) (s : Tree I S g), k = Sum.inr ⟨g, s⟩ ∧ Sealed H X s

theorem AllSealed.zero : AllSealed H X 0 := fun k hk => by simp at hk

theorem AllSealed.add {Q Q' : Multiset (Tok I S)} (h : AllSealed H X Q) (h' : AllSealed H X Q') : AllSealed H X (Q + Q') := by
  intro k hk
  rcases Multiset.mem_add.1 hk with hk | hk
  · exact h k hk
  · exact h' k hk

theorem sum_sealed {h : Nat} {l : List Nat} {ks : List (Tree I S h)} (hr : List.Forall₂ (fun q k => readT H h q = .ok k) l ks)
    (hl : h ≠ 0 → ∀ q ∈ l, ∃ nd, H.mem q = some nd ∧ nd.height + 1 = h ∧ ¬ Ow H X q) :
    AllSealed H X (ks.map (treeM (Ow H X))).sum := by
  induction hr with
  | nil => exact AllSealed.zero
  | @cons q k l ks h1 h2 ih =>
    rw [List.map_cons, List.sum_cons]
    refine AllSealed.add ?_ (ih (fun h0 q hq => hl h0 q (by simp [hq])))
    cases h with
    | zero => exact AllSealed.zero
    | succ h =>
      obtain ⟨nd, g1, g2, g3⟩ := hl (by omega) q (by simp)
      have hp : Node.ptr k = q := by
        obtain ⟨_, _, _, _, e⟩ := readT_succ.1 h1
        rw [e]
      rw [treeM_neg (by rw [hp]; exact g3)]
      intro x hx
      rw [Multiset.mem_singleton] at hx
      refine ⟨h + 1, k, hx, ⟨nd, by rw [hp]; exact g1, by omega⟩, ?_, by rw [hp]; exact h1⟩
      rw [hp]
      exact fun h => g3 (.inl h)

/-- The nodes on the way are the only changeable ones of the tree. -/
theorem way_tokens {out : Nat → Nat} (hi : Inv H out) {path : List Nat} {h p : Nat} {Xs : List Nat} (w : Way H path p Xs) {nd : HNode I S}
    (hm : H.mem p = some nd) (hh : nd.height = h) (hsub : ∀ x ∈ Xs, x ∈ X)
    (hlow : ∀ x ∈ X, x ∈ Xs ∨ ∃ nx, H.mem x = some nx ∧ nd.height < nx.height) {t : Tree I S (h + 1)} (ht : readT H (h + 1) p = .ok t) :
    Opened (Ow H X) t path ∧
    ∃ Q, treeM (Ow H X) t = ((Xs.map Sum.inl : List (Tok I S)) : Multiset (Tok I S)) + Q ∧ AllSealed H X Q := by
  induction path generalizing h p Xs nd with
  | nil =>
    obtain ⟨rfl, -⟩ := w
    obtain ⟨nd0, ks, r1, r2, rfl⟩ := readT_succ.1 ht
    rw [hm] at r1; cases r1
    have hb : Ow H X p := .inl (hsub p (by simp))
    refine ⟨hb, (ks.map (treeM (Ow H X))).sum, ?_, ?_⟩
    · have := treeM_pos (H := H) (X := X) (h := h) (t := (⟨p, nd.size, nd.keys, ks⟩ : Node I S (Tree I S h))) hb
      exact this
    · refine sum_sealed r2 (fun h0 q hq => ?_)
      obtain ⟨nq, g1, g2⟩ := hi.ht p nd hm q (by simp only [refsOf, hh, h0, if_false]; exact hq)
      refine ⟨nq, g1, by omega, ?_⟩
      have := hi.lt q nq g1
      rintro (hx | hx)
      · rcases hlow q hx with hx | ⟨nx, hx1, hx2⟩
        · simp only [List.mem_singleton] at hx; subst hx; rw [hm] at g1; cases g1; omega
        · rw [g1] at hx1; cases hx1; omega
      · omega
  | cons c path ih =>
    obtain ⟨nd', q, X', h1, h2, h3, h4, rfl, h5⟩ := w
    rw [hm] at h1; cases h1
    obtain ⟨nd0, ks, r1, r2, rfl⟩ := readT_succ.1 ht
    rw [hm] at r1; cases r1
    have hb : Ow H X p := .inl (hsub p (by simp))
    have hqm : q ∈ nd.kids := List.mem_of_getElem? h4
    have f1 : refsOf (some nd) = nd.kids := by simp only [refsOf, h3, if_false]
    obtain ⟨nq, hq, hhq⟩ := hi.ht p nd hm q (by rw [f1]; exact hqm)
    obtain ⟨k, hk1, hk2⟩ := forall₂_get' r2 h4
    have hqcnt : nd.kids.count q ≤ 1 := by
      obtain ⟨_, nq', g1, g2⟩ := h5.head
      have e1 := hi.cnt q
      rw [cnt_some g1, g2] at e1
      have e2 := refsIn_le (hi.lt p nd hm) q
      rw [hm, f1] at e2
      omega
    cases h with
    | zero => omega
    | succ h =>
      obtain ⟨ho, Q, hQ1, hQ2⟩ := ih h5 hq (by omega) (fun x hx => hsub x (by simp [hx])) (fun x hx => by
        rcases hlow x hx with hx | ⟨nx, g1, g2⟩
        · rcases List.mem_cons.1 hx with rfl | hx
          · exact .inr ⟨nd, hm, by omega⟩
          · exact .inl hx
        · exact .inr ⟨nx, g1, by omega⟩) hk2
      have hlt : c < nd.kids.length := (List.getElem?_eq_some_iff.1 h4).1
      have hltk : c < ks.length := (List.getElem?_eq_some_iff.1 hk1).1
      have hside : ∀ j q2, nd.kids[j]? = some q2 → j ≠ c → ∃ nd, H.mem q2 = some nd ∧ nd.height + 1 = h + 1 ∧ ¬ Ow H X q2 := by
        intro j q2 hj hne
        obtain ⟨n2, g1, g2⟩ := hi.ht p nd hm q2 (by rw [f1]; exact List.mem_of_getElem? hj)
        refine ⟨n2, g1, by omega, ?_⟩
        have := hi.lt q2 n2 g1
        rintro (hx | hx)
        · rcases hlow q2 hx with hx | ⟨nx, hx1, hx2⟩
          · rcases List.mem_cons.1 hx with rfl | hx
            · rw [hm] at g1; cases g1; omega
            · have : q2 = q := h5.top hi hq hx g1 (by omega)
              subst this
              have := count_two h4 hj hne
              omega
          · rw [g1] at hx1; cases hx1; omega
        · omega
      have hT : AllSealed H X ((ks.take c).map (treeM (Ow H X))).sum := by
        refine sum_sealed (l := nd.kids.take c) (List.forall₂_take c r2) (fun _ q2 hq2 => ?_)
        obtain ⟨j, hj1, hj2⟩ := List.getElem_of_mem hq2
        simp only [List.length_take] at hj1
        refine hside j q2 ?_ (by omega)
        rw [List.getElem_take] at hj2
        rw [← hj2]; exact List.getElem?_eq_getElem _
      have hD : AllSealed H X ((ks.drop (c + 1)).map (treeM (Ow H X))).sum := by
        refine sum_sealed (l := nd.kids.drop (c + 1)) (List.forall₂_drop (c + 1) r2) (fun _ q2 hq2 => ?_)
        obtain ⟨j, hj1, hj2⟩ := List.getElem_of_mem hq2
        simp only [List.length_drop] at hj1
        refine hside (c + 1 + j) q2 ?_ (by omega)
        rw [List.getElem_drop] at hj2
        rw [← hj2]; exact List.getElem?_eq_getElem _
      refine ⟨⟨hb, fun k' hk' => ?_⟩, Q + (((ks.take c).map (treeM (Ow H X))).sum + ((ks.drop (c + 1)).map (treeM (Ow H X))).sum), ?_,
        hQ2.add (hT.add hD)⟩
      · have hk' : ks[c]? = some k' := hk'
        rw [hk1] at hk'; cases hk'
        exact ho
      · have e0 := treeM_pos (H := H) (X := X) (h := h + 1) (t := (⟨p, nd.size, nd.keys, ks⟩ : Node I S (Tree I S (h + 1)))) hb
        have e1 : ks = ks.take c ++ k :: ks.drop (c + 1) := by
          have : ks[c] = k := (List.getElem?_eq_some_iff.1 hk1).2
          rw [← this, List.getElem_cons_drop, List.take_append_drop]
        have e2 : (ks.map (treeM (Ow H X))).sum = ((ks.take c).map (treeM (Ow H X))).sum +
            (treeM (Ow H X) k + ((ks.drop (c + 1)).map (treeM (Ow H X))).sum) := by
          conv_lhs => rw [e1]
          rw [List.map_append, List.sum_append, List.map_cons, List.sum_cons]
        rw [e0]
        show {Sum.inl p} + (ks.map (treeM (Ow H X))).sum = _
        rw [e2, hQ1, List.map_cons, ← Multiset.cons_coe, ← Multiset.singleton_add]
        ac_rfl

/-- All nodes of a tree are in memory as they are. -/
theorem read_nodes {out : Nat → Nat} (hi : Inv H out) {h p : Nat} {nd : HNode I S} (hm : H.mem p = some nd) (hh : nd.height = h)
    {t : Tree I S (h + 1)} (ht : readT H (h + 1) p = .ok t) : ∀ e ∈ nodesT H t, H.mem e.1 = some e.2 := fun e he =>
  (sealed_nodes (X := []) hi (fun _ _ _ _ _ _ h => by simp at h) hm hh (by simp) ht e he).1

/-- The measure of the tree before the insertion, for `write_spec`. -/
theorem way_count {out : Nat → Nat} (hi : Inv H out) {path : List Nat} {h p : Nat} (w : Way H path p X) {nd : HNode I S}
    (hm : H.mem p = some nd) (hh : nd.height = h) {t : Tree I S (h + 1)} (ht : readT H (h + 1) p = .ok t) {Q : Multiset (Tok I S)}
    (hQ : treeM (Ow H X) t = ((X.map Sum.inl : List (Tok I S)) : Multiset (Tok I S)) + Q) (hs : AllSealed H X Q) (x : Nat) :
    tokCount (((X.map Sum.inl : List (Tok I S)) : Multiset (Tok I S)) + Q) x =
      (X.map (fun q => (refsOf (H.mem q)).count x)).sum + (if x = p then 1 else 0) := by
  have hp : Node.ptr t = p := by
    obtain ⟨_, _, _, _, e⟩ := readT_succ.1 ht
    rw [e]
  have h1 := refsL_openT (H := H) (X := X) t x
  rw [hQ, hp] at h1
  rw [← h1]
  congr 1
  have h2 := treeM_split (H := H) (X := X) t
  rw [hQ] at h2
  have hperm : ((openT H X t).map Prod.fst).Perm X := by
    rw [← Multiset.coe_eq_coe]
    have := congrArg (Multiset.filterMap Sum.getLeft?) h2
    simp only [Multiset.filterMap_add] at this
    have e1 : Multiset.filterMap Sum.getLeft? Q = 0 := by
      rw [Multiset.eq_zero_iff_forall_notMem]
      intro x hx
      obtain ⟨k, hk, hkx⟩ := (Multiset.mem_filterMap _ _).1 hx
      obtain ⟨g, s, rfl, _⟩ := hs k hk
      cases hkx
    have hseal : ∀ {g : Nat} (u : Tree I S g), ∀ k ∈ sealsT H X u, ∃ s, k = Sum.inr s := by
      intro g
      induction g with
      | zero => intro u k hk; simp [sealsT] at hk
      | succ g ih =>
        intro u k hk
        simp only [sealsT] at hk
        split at hk
        · obtain ⟨c, _, hk⟩ := List.mem_flatMap.1 hk
          exact ih c k hk
        · simp only [List.mem_singleton] at hk; exact ⟨_, hk⟩
    have e2 : Multiset.filterMap Sum.getLeft? (sealsT H X t : Multiset (Tok I S)) = 0 := by
      rw [Multiset.eq_zero_iff_forall_notMem]
      intro x hx
      obtain ⟨k, hk, hkx⟩ := (Multiset.mem_filterMap _ _).1 hx
      obtain ⟨s, rfl⟩ := hseal t k (by simpa using hk)
      cases hkx
    have e3 : ∀ l : List Nat, Multiset.filterMap Sum.getLeft? ((l.map Sum.inl : List (Tok I S)) : Multiset (Tok I S)) = (l : Multiset Nat) := by
      intro l
      simp only [Multiset.filterMap_coe, List.filterMap_map]
      congr 1
      induction l with
      | nil => rfl
      | cons a l ih => simp [ih]
    have e4 : ((openT H X t).map (fun e => (Sum.inl e.1 : Tok I S))) = ((openT H X t).map Prod.fst).map Sum.inl := by
      simp [List.map_map, Function.comp_def]
    rw [e4, e1, e2, e3, e3, add_zero, add_zero] at this
    exact this.symm
  have h3 := (hperm.map (fun q => (refsOf (H.mem q)).count x)).sum_eq
  rw [← h3, List.map_map]
  unfold refsL
  congr 1
  refine List.map_congr_left (fun e he => ?_)
  simp only [Function.comp, read_nodes hi hm hh ht e (open_sub e he).1]

theorem mem_kids_sum {A B : Type} (f : A → Multiset B) (l : List A) (b : B) : b ∈ (l.map f).sum ↔ ∃ a ∈ l, b ∈ f a := by
  induction l with
  | nil => simp
  | cons a l ih => simp [ih]

theorem open_tokens {h : Nat} {t : Tree I S h} : ∀ e ∈ openT H X t, Sum.inl (e.1, e.2.height) ∈ treeG (Ow H X) t := by
  induction h with
  | zero => intro e he; simp [openT] at he
  | succ h ih =>
    intro e he
    by_cases hb : Ow H X (Node.ptr t)
    · simp only [openT, if_pos hb, List.mem_cons, List.mem_flatMap] at he
      simp only [treeG, if_pos hb, nodeG, Multiset.mem_add, Multiset.mem_singleton, mem_kids_sum]
      rcases he with rfl | ⟨k, hk, he⟩
      · exact .inl rfl
      · exact .inr ⟨k, hk, ih e he⟩
    · simp [openT, if_neg hb] at he

theorem tokens_nodes {B : Nat → Prop} [DecidablePred B] {h : Nat} {t : Tree I S h} {x g : Nat} (hx : Sum.inl (x, g) ∈ treeG B t) :
    ∃ nd, (x, nd) ∈ nodesT H t ∧ nd.height = g := by
  induction h with
  | zero => simp [treeG] at hx
  | succ h ih =>
    simp only [treeG] at hx
    split at hx
    · simp only [nodeG, Multiset.mem_add, Multiset.mem_singleton, mem_kids_sum] at hx
      rcases hx with hx | ⟨k, hk, hx⟩
      · cases hx
        exact ⟨_, List.mem_cons_self, rfl⟩
      · obtain ⟨nd, h1, h2⟩ := ih hx
        exact ⟨nd, List.mem_cons_of_mem _ (List.mem_flatMap.2 ⟨k, hk, h1⟩), h2⟩
    · simp at hx

/-- Insertion into a tree whose way down is not shared: memory afterwards. -/
theorem insert_write {E : Env I S} {out : Nat → Nat} (hi : Inv H out) {path : List Nat} {h p len : Nat} (w : Way H path p X) {nd : HNode I S}
    (hm : H.mem p = some nd) (hh : nd.height = h) (ho : 0 < out p) {t : Tree I S (h + 1)} (ht : readT H (h + 1) p = .ok t)
    {nop : Bool} {hints : List Nat} {idx : I} {s : S} {z : I} {t' : RleTree I S} {o : Inserted}
    (hr : RleTree.insert E ⟨some ⟨h, t, len⟩⟩ nop hints idx s z ⟨H.next, [], [], none, []⟩ = .ok (t', o))
    (hw : wayDown E t hints idx s = .ok path) :
    ∃ r, t' = ⟨some r⟩ ∧ readT (writeT H r.tree o.world.next) (r.h + 1) (ptrOf r.tree) = .ok r.tree ∧
      (∀ out', (∀ x, out' x + (if x = p then 1 else 0) = out x + (if x = ptrOf r.tree then 1 else 0)) →
        Inv (writeT H r.tree o.world.next) out') ∧
      (∃ nd, (writeT H r.tree o.world.next).mem (ptrOf r.tree) = some nd ∧ nd.height = r.h) ∧
      (∀ x, ¬ Ow H X x → (writeT H r.tree o.world.next).mem x = H.mem x) ∧
      ∀ x nd, (writeT H r.tree o.world.next).mem x = some nd → ((x, nd) ∈ openT H X r.tree ∨ (¬ Ow H X x ∧ H.mem x = some nd)) ∧
        (x < H.next → ∃ n0, H.mem x = some n0 ∧ n0.height = nd.height) := by
  obtain ⟨hop, Q, hQ1, hQ2⟩ := way_tokens hi w hm hh (fun x hx => hx) (fun x hx => .inl hx) ht
  have hroot : Ow H X (Node.ptr t) := by
    obtain ⟨_, _, _, _, e⟩ := readT_succ.1 ht
    rw [e]; exact .inl w.head.1
  have hA : actM (Ow H X) t = ((X.map Sum.inl : List (Tok I S)) : Multiset (Tok I S)) + Q := by
    rw [← hQ1, treeM_open hroot]
  have hold : ∀ q, Sum.inl q ∈ actM (Ow H X) t → Ow H X q := by
    intro q hq
    rw [hA, Multiset.mem_add] at hq
    rcases hq with hq | hq
    · simp only [Multiset.mem_coe, List.mem_map, Sum.inl.injEq, exists_eq_right] at hq
      exact .inl hq
    · obtain ⟨g, s, e, _⟩ := hQ2 _ hq
      cases e
  obtain ⟨kle, keq, kht⟩ := insert_keeps hr rfl hw hop hold (fun p hp => .inr hp)
  obtain ⟨root⟩ := t'
  cases root with
  | none =>
    exfalso
    have := keq
    simp only [RleTree.M] at this
    have h0 : Sum.inl (Node.ptr t) ∈ (0 : Multiset (Tok I S)) := by
      rw [this]
      refine Multiset.mem_add.2 (.inl ?_)
      have : actM (Ow H X) t = {Sum.inl (Node.ptr t)} + ((Node.kids t).map (treeM (Ow H X))).sum := rfl
      rw [this]
      simp
    simp at h0
  | some r =>
    have hro : Ow H X (ptrOf r.tree) := by
      have hin : Sum.inl (ptrOf r.tree) ∈ RleTree.M (Ow H X) ⟨some r⟩ := by
        have : RleTree.M (Ow H X) ⟨some r⟩ = {Sum.inl (ptrOf r.tree)} + ((Node.kids r.tree).map (treeM (Ow H X))).sum := rfl
        rw [this]
        simp
      rw [keq, Multiset.mem_add] at hin
      rcases hin with h | h
      · exact hold _ h
      · simp only [fresh, Multiset.mem_coe, List.mem_map, Sum.inl.injEq, exists_eq_right, List.mem_range'_1] at h
        exact .inr h.1
    have heq := keq
    rw [hA] at heq
    have key := fun (out' : Nat → Nat) (ho' : ∀ x, out' x + (if x = p then 1 else 0) = out x + (if x = ptrOf r.tree then 1 else 0)) =>
      write_spec (X := X) (d := fun x => if x = p then 1 else 0) hi (w.apart hi ho) (w.nodup hi) w.one hQ2 kle (t := r.tree) hro
        heq (way_count hi w hm hh ht hQ1 hQ2) ho'
    refine ⟨r, rfl, ?_⟩
    have k0 := key (fun x => out x + (if x = ptrOf r.tree then 1 else 0) - (if x = p then 1 else 0)) (fun x => by
      by_cases hx : x = p
      · subst hx; simp only [if_true]; split <;> omega
      · simp [hx])
    refine ⟨k0.2.1, fun out' ho' => (key out' ho').1, k0.2.2.2.1, k0.2.2.1, fun x n hx => ⟨k0.2.2.2.2 x n hx, fun hlt => ?_⟩⟩
    rcases k0.2.2.2.2 x n hx with h | h
    · have hG : Sum.inl (x, n.height) ∈ RleTree.G (Ow H X) ⟨some r⟩ := by
        have h1 := open_tokens _ h
        rwa [treeG_open hro] at h1
      rcases kht _ _ hG with h2 | h2
      · rw [← treeG_open hroot] at h2
        obtain ⟨n0, h3, h4⟩ := tokens_nodes (H := H) h2
        exact ⟨n0, read_nodes hi hm hh ht _ h3, h4⟩
      · exact absurd (show H.next ≤ x from h2) (by omega)
    · exact ⟨n, h.2, rfl⟩

/-- The first insertion into an empty tree. -/
theorem new_write {out out' : Nat → Nat} (hi : Inv H out) {t : Tree I S 1} (hp : Node.ptr t = H.next) (h0 : ∀ x, out' x = out x + (if x = H.next then 1 else 0)) :
    Inv (writeT H t (H.next + 1)) out' ∧ readT (writeT H t (H.next + 1)) 1 H.next = .ok t ∧
      (∃ nd, (writeT H t (H.next + 1)).mem H.next = some nd ∧ nd.height = 0) ∧
      ∀ x nd, H.mem x = some nd → (writeT H t (H.next + 1)).mem x = some nd := by
  have hM : actM (Ow H []) t = ((([] : List Nat).map Sum.inl : List (Tok I S)) : Multiset (Tok I S)) + 0 + fresh I S H.next (H.next + 1) := by
    have e : actM (Ow H []) t = {Sum.inl (Node.ptr t)} + ((Node.kids t).map (treeM (Ow H []) (h := 0))).sum := rfl
    have hs : ∀ l : List (Tree I S 0), (l.map (treeM (Ow H []) (h := 0))).sum = 0 := fun l => by
      induction l with
      | nil => rfl
      | cons a l ih => rw [List.map_cons, List.sum_cons, ih]; rfl
    rw [e, hs, hp]
    simp [fresh]
  have := write_spec (X := []) (d := fun _ => 0) (out' := out') hi (fun _ _ _ _ _ _ h => by simp at h) List.nodup_nil (fun x hx => by simp at hx)
    AllSealed.zero (Nat.le_succ _) (t := t) (.inr (by rw [hp])) hM (fun x => by simp [tokCount]) (fun x => by rw [hp, h0 x]; omega)
  rw [hp] at this
  refine ⟨this.1, this.2.1, this.2.2.2.1, fun x nd hx => ?_⟩
  rw [this.2.2.1 x (fun h => by
    rcases h with h | h
    · simp at h
    · have := hi.lt x nd hx; omega)]
  exact hx

end

/-! ## The way down exists -/

section
variable {S : Type}

theorem Rep.kids_len {S : Type} {M lo h : Nat} {n : Tree Nat S (h + 1)} {es : List (Ent S)} (hr : Rep M lo n es) :
    (Node.kids n).length = (Node.keys n).length + 1 := by
  obtain ⟨c, ec, psr, hn, -⟩ := hr
  rw [hn]
  simp [mkG]

theorem Rep.kid {S : Type} {M lo h : Nat} {n : Tree Nat S (h + 1)} {es : List (Ent S)} (hr : Rep M lo n es) {k : Tree Nat S h}
    (hk : k ∈ Node.kids n) : ∃ e, Rep M M k e := by
  obtain ⟨c, ec, psr, hn, hc, hp, -⟩ := hr
  rw [hn] at hk
  simp only [mkG, kidsOf, List.map_nil, List.nil_append, List.mem_cons, List.mem_map] at hk
  rcases hk with rfl | ⟨it, hit, rfl⟩
  · exact ⟨ec, hc⟩
  · exact ⟨it.ents, hp it hit⟩

theorem Rep.fits_zero {S : Type} {M lo h g : Nat} {n : Tree Nat S (h + 1)} {es : List (Ent S)} (hr : Rep M lo n es) (hg : g ≤ h) :
    Fits n (List.replicate g 0) := by
  induction g generalizing h lo es with
  | zero => trivial
  | succ g ih =>
    cases h with
    | zero => omega
    | succ h =>
      have hl := Rep.kids_len hr
      cases hk : Node.kids n with
      | nil => rw [hk] at hl; simp at hl
      | cons k ks =>
        obtain ⟨e, he⟩ := Rep.kid hr (k := k) (by rw [hk]; simp)
        refine ⟨by omega, k, ?_, ih he (by omega)⟩
        rw [hk]; rfl

theorem Rep.fits_rhs {S : Type} {M lo h k : Nat} {n : Tree Nat S (h + 1)} {es : List (Ent S)} (hr : Rep M lo n es) {key : Key Nat S}
    (hk : Node.handle n k = .ok key) : Fits n (rhsWay h k) := by
  cases h with
  | zero => trivial
  | succ g =>
    have hlt : k < (Node.keys n).length := by
      unfold Node.handle at hk
      split at hk
      · cases hk
      · rename_i h; exact (List.getElem?_eq_some_iff.1 h).1
    have hl := Rep.kids_len hr
    have hlt' : k + 1 < (Node.kids n).length := by omega
    obtain ⟨e, he⟩ := Rep.kid hr (k := (Node.kids n)[k + 1]) (List.getElem_mem _)
    exact ⟨by omega, (Node.kids n)[k + 1], List.getElem?_eq_getElem _, Rep.fits_zero he (Nat.le_refl _)⟩

theorem findPoint_fits {E : Env Nat S} {M lo Ht h : Nat} {n : Tree Nat S (h + 1)} {ctx : Ctx Nat S Ht (h + 1)} {hints : Option (List Nat)}
    {t : Nat} {l r : Option (Nat × Nat)} {pt} {es : List (Ent S)} (hrep : Rep M lo n es) (hr : findPoint E n ctx hints t l r = .ok pt) :
    ∃ q, pt.path = ctx.way ++ q ∧ Fits n q ∧ ∀ g n' ctx' k d, pt = .split g n' ctx' k d → (∃ key, Node.handle n' k = .ok key) ∧
      Fits n (q ++ rhsWay g k) := by
  induction h generalizing hints t l r lo es with
  | zero =>
    simp only [findPoint, bind_ok_iff] at hr
    obtain ⟨x, h1, hr⟩ := hr
    refine ⟨[], ?_⟩
    split at hr
    · simp only [bind_ok_iff] at hr
      obtain ⟨key, hkey, _, _, hr⟩ := hr
      cases hr
      refine ⟨by simp [Point.path], trivial, fun g n' ctx' k d e => ?_⟩
      cases e
      exact ⟨⟨key, hkey⟩, Rep.fits_rhs hrep hkey⟩
    · cases hr; exact ⟨by simp [Point.path], trivial, fun g n' ctx' k d e => by cases e⟩
  | succ h ih =>
    simp only [findPoint, bind_ok_iff] at hr
    obtain ⟨x, h1, hr⟩ := hr
    split at hr
    · simp only [bind_ok_iff] at hr
      obtain ⟨key, hkey, _, _, hr⟩ := hr
      cases hr
      refine ⟨[], by simp [Point.path], trivial, fun g n' ctx' k d e => ?_⟩
      cases e
      exact ⟨⟨key, hkey⟩, Rep.fits_rhs hrep hkey⟩
    · rename_i _ c p
      simp only [bind_ok_iff] at hr
      obtain ⟨_, _, ch, h2, hr⟩ := hr
      have hc : (Node.kids n)[c]? = some ch := by
        unfold Node.child at h2
        split at h2
        · rename_i hk
          cases h2; exact hk
        · cases h2
      obtain ⟨e, he⟩ := Rep.kid hrep (List.mem_of_getElem? hc)
      obtain ⟨q, hq, hF, hS⟩ := ih he hr
      have hl : ((Node.kids n).take c).length = c := by
        have := (List.getElem?_eq_some_iff.1 hc).1
        simp; omega
      refine ⟨c :: q, by rw [hq]; simp only [Ctx.way, hl]; simp, ⟨by omega, ch, hc, hF⟩, fun g n' ctx' k d e => ?_⟩
      obtain ⟨g1, g2⟩ := hS g n' ctx' k d e
      exact ⟨g1, by omega, ch, hc, g2⟩

/-- The way down of an insertion exists; it cannot be found only if the insertion fails. -/
theorem wayDown_fits {E : Env Nat S} {M lo h : Nat} {n : Tree Nat S (h + 1)} {es : List (Ent S)} (hrep : Rep M lo n es) {hints : List Nat}
    {idx : Nat} {s : S} :
    (∃ path, wayDown E n hints idx s = .ok path ∧ Fits n path) ∨
    ∃ f, findPoint E n (.top : Ctx Nat S (h + 1) (h + 1)) (some hints) idx none none = .error f ∧ wayDown E n hints idx s = .error f := by
  unfold wayDown
  cases hf : findPoint E n (.top : Ctx Nat S (h + 1) (h + 1)) (some hints) idx none none with
  | error f => exact .inr ⟨f, rfl, rfl⟩
  | ok pt =>
    left
    obtain ⟨q, hq, hF, hS⟩ := findPoint_fits hrep hf
    have hq : pt.path = q := by rw [hq]; rfl
    simp only [R.bind_ok]
    cases pt with
    | edge leaf ctx i l r => exact ⟨_, rfl, by rw [← hq] at hF; exact hF⟩
    | split g n' ctx k d =>
      obtain ⟨⟨key, hkey⟩, hS⟩ := hS _ _ _ _ _ rfl
      simp only [hkey, R.bind_ok]
      split
      · exact ⟨_, rfl, by rw [← hq] at hS; exact hS⟩
      · exact ⟨_, rfl, by rw [← hq] at hF; exact hF⟩

end
end Sherman.Cow
