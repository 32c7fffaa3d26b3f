import Verif.CowUnshare
import Verif.Conserve
/-!
# The changed tree in memory
-/
namespace Sherman.Cow
open Finset
variable {I S : Type}

/-- Nodes that may be changed: those on the way, and new ones. -/
def Ow (H : Heap I S) (X : List Nat) (x : Nat) : Prop := x ∈ X ∨ H.next ≤ x

instance (H : Heap I S) (X : List Nat) : DecidablePred (Ow H X) := fun x => by unfold Ow; infer_instance

/-- A subtree that is in memory as it is. -/
def Sealed (H : Heap I S) (X : List Nat) : {h : Nat} → Tree I S h → Prop
  | 0, _ => False
  | h + 1, n => (∃ nd, H.mem (Node.ptr n) = some nd ∧ nd.height = h) ∧ Node.ptr n ∉ X ∧ readT H (h + 1) (Node.ptr n) = .ok n

/-- Entries of the nodes that may be changed. -/
def openT (H : Heap I S) (X : List Nat) : {h : Nat} → Tree I S h → List (Nat × HNode I S)
  | 0, _ => []
  | h + 1, n => if Ow H X (Node.ptr n) then (Node.ptr n, toHNode H n) :: (Node.kids n).flatMap (openT H X (h := h)) else []

/-- The topmost sealed subtrees. -/
def sealsT (H : Heap I S) (X : List Nat) : {h : Nat} → Tree I S h → List (Tok I S)
  | 0, _ => []
  | h + 1, n => if Ow H X (Node.ptr n) then (Node.kids n).flatMap (sealsT H X (h := h)) else [Sum.inr ⟨h + 1, n⟩]

section
variable {H : Heap I S} {X : List Nat}

theorem sum_coe_flatMap {Y : Type} {C : Type} (l : List C) (f g : C → List Y) (m : C → Multiset Y)
    (h : ∀ c ∈ l, m c = (f c : Multiset Y) + (g c : Multiset Y)) :
    (l.map m).sum = ((l.flatMap f : List Y) : Multiset Y) + ((l.flatMap g : List Y) : Multiset Y) := by
  induction l with
  | nil => rfl
  | cons a l ih =>
    simp only [List.map_cons, List.sum_cons, List.flatMap_cons, ← Multiset.coe_add]
    rw [h a (by simp), ih (fun c hc => h c (by simp [hc]))]
    ac_rfl

theorem openT_pos {h : Nat} {t : Tree I S (h + 1)} (hb : Ow H X (Node.ptr t)) :
    openT H X t = (Node.ptr t, toHNode H t) :: (Node.kids t).flatMap (openT H X (h := h)) := if_pos hb

theorem openT_neg {h : Nat} {t : Tree I S (h + 1)} (hb : ¬ Ow H X (Node.ptr t)) : openT H X t = [] := if_neg hb

theorem treeM_pos {h : Nat} {t : Tree I S (h + 1)} (hb : Ow H X (Node.ptr t)) :
    treeM (Ow H X) t = {Sum.inl (Node.ptr t)} + ((Node.kids t).map (treeM (Ow H X) (h := h))).sum := if_pos hb

theorem treeM_neg {h : Nat} {t : Tree I S (h + 1)} (hb : ¬ Ow H X (Node.ptr t)) : treeM (Ow H X) t = {Sum.inr ⟨h + 1, t⟩} := if_neg hb

theorem sealsT_pos {h : Nat} {t : Tree I S (h + 1)} (hb : Ow H X (Node.ptr t)) :
    sealsT H X t = (Node.kids t).flatMap (sealsT H X (h := h)) := if_pos hb

theorem sealsT_neg {h : Nat} {t : Tree I S (h + 1)} (hb : ¬ Ow H X (Node.ptr t)) : sealsT H X t = [Sum.inr ⟨h + 1, t⟩] := if_neg hb

theorem treeM_split {h : Nat} (t : Tree I S h) :
    treeM (Ow H X) t = (((openT H X t).map (fun e => (Sum.inl e.1 : Tok I S)) : List (Tok I S)) : Multiset (Tok I S)) + (sealsT H X t : Multiset (Tok I S)) := by
  induction h with
  | zero => rfl
  | succ h ih =>
    by_cases hb : Ow H X (Node.ptr t)
    · rw [treeM_pos hb, openT_pos hb, sealsT_pos hb, List.map_cons, List.map_flatMap]
      rw [sum_coe_flatMap _ (fun c => (openT H X c).map (fun e => (Sum.inl e.1 : Tok I S))) (sealsT H X) _ (fun c _ => ih c)]
      rw [← Multiset.cons_coe, ← Multiset.singleton_add, add_assoc]
    · rw [treeM_neg hb, openT_neg hb, sealsT_neg hb]; rfl

/-- How often a pointer occurs in the changed nodes. -/
def refsL (l : List (Nat × HNode I S)) (x : Nat) : Nat := (l.map (fun e => (refsOf (some e.2)).count x)).sum

theorem refsL_cons (a : Nat × HNode I S) (l : List (Nat × HNode I S)) (x : Nat) :
    refsL (a :: l) x = (refsOf (some a.2)).count x + refsL l x := by simp [refsL]

theorem refsL_append (l l' : List (Nat × HNode I S)) (x : Nat) : refsL (l ++ l') x = refsL l x + refsL l' x := by simp [refsL]

/-- The pointer to the root of what a token stands for. -/
def tokPtr : Tok I S → Nat
  | .inl p => p
  | .inr s => ptrOf s.2

def tokCount (M : Multiset (Tok I S)) (x : Nat) : Nat := (M.map tokPtr).count x

theorem tokCount_add (M N : Multiset (Tok I S)) (x : Nat) : tokCount (M + N) x = tokCount M x + tokCount N x := by
  simp [tokCount]

theorem tokCount_zero (x : Nat) : tokCount (0 : Multiset (Tok I S)) x = 0 := by simp [tokCount]

theorem tokCount_one (p : Tok I S) (x : Nat) : tokCount {p} x = if x = tokPtr p then 1 else 0 := by
  simp [tokCount, Multiset.count_singleton]

/-- Every changed node and every sealed subtree below the root is pointed to by one changed node. -/
theorem refsL_openT {h : Nat} (t : Tree I S (h + 1)) (x : Nat) :
    refsL (openT H X t) x + (if x = Node.ptr t then 1 else 0) = tokCount (treeM (Ow H X) t) x := by
  induction h with
  | zero =>
    by_cases hb : Ow H X (Node.ptr t)
    · have hk : ∀ l : List (Tree I S 0), l.flatMap (openT H X (h := 0)) = [] := fun l => by
        simp only [List.flatMap_eq_nil_iff]; intros; rfl
      have hs : ∀ l : List (Tree I S 0), (l.map (treeM (Ow H X) (h := 0))).sum = 0 := fun l => by
        induction l with
        | nil => rfl
        | cons a l ih => rw [List.map_cons, List.sum_cons, ih]; rfl
      have hr : (refsOf (some (toHNode H t))).count x = 0 := rfl
      rw [openT_pos hb, treeM_pos hb, hk, hs, add_zero, tokCount_one, refsL_cons, hr]
      simp only [refsL, List.map_nil, List.sum_nil, Nat.zero_add]
      rfl
    · rw [openT_neg hb, treeM_neg hb, tokCount_one]
      simp only [refsL, List.map_nil, List.sum_nil, Nat.zero_add]
      rfl
  | succ h ih =>
    by_cases hb : Ow H X (Node.ptr t)
    · have hs : ∀ l : List (Tree I S (h + 1)), refsL (l.flatMap (openT H X)) x + (l.map ptrOf).count x =
          tokCount ((l.map (treeM (Ow H X))).sum) x := fun l => by
        induction l with
        | nil => simp [refsL, tokCount]
        | cons a l ihl =>
          have := ih a
          rw [List.flatMap_cons, List.map_cons, List.map_cons, List.sum_cons, refsL_append, tokCount_add, List.count_cons]
          have e : (if (ptrOf a == x) = true then 1 else 0) = (if x = Node.ptr a then 1 else 0) := by
            have e0 : ptrOf a = Node.ptr a := rfl
            rw [e0]
            by_cases hx : x = Node.ptr a
            · rw [if_pos hx, if_pos (by rw [hx]; simp)]
            · rw [if_neg hx, if_neg (by simpa using Ne.symm hx)]
          rw [e]
          omega
      have h1 := hs (Node.kids t)
      have hr : (refsOf (some (toHNode H t))).count x = ((Node.kids t).map ptrOf).count x := rfl
      rw [openT_pos hb, treeM_pos hb, tokCount_add, tokCount_one, refsL_cons, hr, ← h1]
      have : (if x = tokPtr (I := I) (S := S) (Sum.inl (Node.ptr t)) then 1 else 0) = (if x = Node.ptr t then 1 else 0) := rfl
      rw [this]
      omega
    · rw [openT_neg hb, treeM_neg hb, tokCount_one]
      simp only [refsL, List.map_nil, List.sum_nil, Nat.zero_add]
      rfl

/-! ## What memory contains after the write -/

theorem mem_of_lookup {Y : Type} {l : List (Nat × Y)} {x : Nat} {e : Y} (h : l.lookup x = some e) : (x, e) ∈ l := by
  induction l with
  | nil => simp at h
  | cons a l ih =>
    obtain ⟨y, b⟩ := a
    by_cases hx : x = y
    · subst hx; simp at h; simp [h]
    · rw [List.lookup_cons, show (x == y) = false by simpa using hx] at h
      exact List.mem_cons_of_mem _ (ih h)

theorem lookup_of_mem {Y : Type} {l : List (Nat × Y)} {x : Nat} {e : Y} (h : (x, e) ∈ l) : ∃ e', l.lookup x = some e' := by
  induction l with
  | nil => simp at h
  | cons a l ih =>
    obtain ⟨y, b⟩ := a
    by_cases hx : x = y
    · subst hx; exact ⟨b, by simp⟩
    · rw [List.lookup_cons, show (x == y) = false by simpa using hx]
      rcases List.mem_cons.1 h with h | h
      · cases h; exact absurd rfl hx
      · exact ih h

/-- A part of memory that has no references to the nodes on the way. -/
def Apart (H : Heap I S) (X : List Nat) : Prop := ∀ z nd, H.mem z = some nd → z ∉ X → ∀ q ∈ refsOf (some nd), q ∉ X

theorem sealed_nodes {out : Nat → Nat} (hi : Inv H out) (ha : Apart H X) {h : Nat} {p : Nat} {nd : HNode I S} (hm : H.mem p = some nd)
    (hh : nd.height = h) (hx : p ∉ X) {t : Tree I S (h + 1)} (ht : readT H (h + 1) p = .ok t) :
    ∀ e ∈ nodesT H t, H.mem e.1 = some e.2 ∧ e.1 ∉ X := by
  induction h generalizing p nd with
  | zero =>
    obtain ⟨nd0, ks, r1, r2, rfl⟩ := readT_succ.1 ht
    rw [hm] at r1; cases r1
    intro e he
    simp only [nodesT, List.mem_cons, List.mem_flatMap, List.not_mem_nil, and_false, exists_false, or_false] at he
    subst he
    refine ⟨?_, hx⟩
    have h1 : ks.map ptrOf = nd.kids := by
      have hl := r2.length_eq
      refine List.ext_getElem (by simp [hl]) (fun i h1 h2 => ?_)
      rw [hi.leaf p nd hm hh nd.kids[i] (List.getElem_mem _)]
      simp [ptrOf]
    show H.mem p = some _
    simp only [toHNode, hm, h1]
    obtain ⟨c, hq, z, kk, kd⟩ := nd
    simp only at hh
    subst hh
    rfl
  | succ h ih =>
    obtain ⟨nd0, ks, r1, r2, rfl⟩ := readT_succ.1 ht
    rw [hm] at r1; cases r1
    have f1 : refsOf (some nd) = nd.kids := by simp [refsOf, hh]
    intro e he
    have he : e ∈ _ :: ks.flatMap (nodesT H (h := h + 1)) := he
    rw [List.mem_cons, List.mem_flatMap] at he
    rcases he with rfl | ⟨k, hk, he⟩
    · refine ⟨?_, hx⟩
      have h1 : ks.map ptrOf = nd.kids := by
        have hl := r2.length_eq
        refine List.ext_getElem (by simp [hl]) (fun i h1 h2 => ?_)
        have := (List.forall₂_iff_get.1 r2).2 i h2 (by omega)
        obtain ⟨_, _, _, _, e⟩ := readT_succ.1 this
        simp only [List.get_eq_getElem] at e
        simp only [List.getElem_map, e]
        rfl
      show H.mem p = some _
      simp only [toHNode, hm, h1]
      obtain ⟨c, hq, z, kk, kd⟩ := nd
      simp only at hh
      subst hh
      rfl
    · obtain ⟨i, hi1, rfl⟩ := List.getElem_of_mem hk
      have hl := r2.length_eq
      have := (List.forall₂_iff_get.1 r2).2 i (by omega) hi1
      have hmem : nd.kids[i]'(by omega) ∈ nd.kids := List.getElem_mem _
      obtain ⟨nq, g1, g2⟩ := hi.ht p nd hm _ (by rw [f1]; exact hmem)
      exact ih g1 (by omega) (ha p nd hm hx _ (by rw [f1]; exact hmem)) this e he

theorem nodes_cases {out : Nat → Nat} (hi : Inv H out) (ha : Apart H X) {h : Nat} {t : Tree I S h}
    (hs : ∀ k ∈ sealsT H X t, ∀ (g : Nat) (s : Tree I S g), k = Sum.inr ⟨g, s⟩ → Sealed H X s) :
    ∀ e ∈ nodesT H t, e ∈ openT H X t ∨ (H.mem e.1 = some e.2 ∧ ¬ Ow H X e.1) := by
  induction h with
  | zero => intro e he; simp [nodesT] at he
  | succ h ih =>
    intro e he
    by_cases hb : Ow H X (Node.ptr t)
    · simp only [openT, hb, if_true]
      simp only [sealsT, hb, if_true, List.mem_flatMap] at hs
      simp only [nodesT, List.mem_cons, List.mem_flatMap] at he
      rcases he with rfl | ⟨k, hk, he⟩
      · left; simp
      · rcases ih (t := k) (fun s hs' => hs s ⟨k, hk, hs'⟩) e he with h | h
        · left; exact List.mem_cons_of_mem _ (List.mem_flatMap.2 ⟨k, hk, h⟩)
        · exact .inr h
    · right
      have := hs (Sum.inr ⟨h + 1, t⟩) (by simp [sealsT, hb]) _ _ rfl
      obtain ⟨⟨nd, h1, h2⟩, h3, h4⟩ := this
      obtain ⟨g1, g2⟩ := sealed_nodes hi ha h1 h2 h3 h4 e he
      refine ⟨g1, ?_⟩
      have := hi.lt _ _ g1
      unfold Ow
      rintro (h | h)
      · exact g2 h
      · omega

theorem open_sub {h : Nat} {t : Tree I S h} : ∀ e ∈ openT H X t, e ∈ nodesT H t ∧ Ow H X e.1 := by
  induction h with
  | zero => intro e he; simp [openT] at he
  | succ h ih =>
    intro e he
    by_cases hb : Ow H X (Node.ptr t)
    · simp only [openT, hb, if_true, List.mem_cons, List.mem_flatMap] at he
      simp only [nodesT, List.mem_cons, List.mem_flatMap]
      rcases he with rfl | ⟨k, hk, he⟩
      · exact ⟨.inl rfl, hb⟩
      · obtain ⟨h1, h2⟩ := ih (t := k) e he
        exact ⟨.inr ⟨k, hk, h1⟩, h2⟩
    · simp [openT, hb] at he

/-- A tree is in memory: what was changed is written, the rest is as before. -/
def Placed (H H2 : Heap I S) (X : List Nat) : {h : Nat} → Tree I S h → Prop
  | 0, _ => True
  | h + 1, n => (Ow H X (Node.ptr n) → H2.mem (Node.ptr n) = some (toHNode H n) ∧ ∀ k ∈ Node.kids n, Placed H H2 X (h := h) k) ∧
      (¬ Ow H X (Node.ptr n) → Sealed H X (h := h + 1) n)

theorem placed_of {H2 : Heap I S} {h : Nat} {t : Tree I S h}
    (hs : ∀ k ∈ sealsT H X t, ∀ (g : Nat) (s : Tree I S g), k = Sum.inr ⟨g, s⟩ → Sealed H X s)
    (ho : ∀ e ∈ openT H X t, H2.mem e.1 = some e.2) : Placed H H2 X t := by
  induction h with
  | zero => trivial
  | succ h ih =>
    refine ⟨fun hb => ?_, fun hb => hs (Sum.inr ⟨h + 1, t⟩) (by simp [sealsT, hb]) _ _ rfl⟩
    simp only [openT, hb, if_true, List.mem_cons, List.mem_flatMap, forall_eq_or_imp] at ho
    simp only [sealsT, hb, if_true, List.mem_flatMap] at hs
    exact ⟨ho.1, fun k hk => ih (fun s hs' => hs s ⟨k, hk, hs'⟩) (fun e he => ho.2 e ⟨k, hk, he⟩)⟩

/-- Outside of the changed nodes nothing is different. -/
theorem read_outside {out : Nat → Nat} (hi : Inv H out) (ha : Apart H X) {H2 : Heap I S} (h2 : ∀ x, ¬ Ow H X x → H2.mem x = H.mem x)
    {h p : Nat} {nd : HNode I S} (hm : H.mem p = some nd) (hh : nd.height = h) (hx : p ∉ X) {t : Tree I S (h + 1)}
    (ht : readT H (h + 1) p = .ok t) : readT H2 (h + 1) p = .ok t := by
  refine readT_frame (Z := fun x => x ∉ X ∧ ∃ nd, H.mem x = some nd) (fun x hx => ?_) ⟨hx, nd, hm⟩ hm hh ht
  obtain ⟨hx, n, hn⟩ := hx
  have hb : ¬ Ow H X x := by
    have := hi.lt x n hn
    unfold Ow; rintro (h | h)
    · exact hx h
    · omega
  refine ⟨n, n, hn, by rw [h2 x hb]; exact hn, .refl _, fun q hq => ?_⟩
  obtain ⟨nq, g1, g2⟩ := hi.ht x n hn q hq
  exact ⟨⟨ha x n hn hx q hq, nq, g1⟩, nq, g1, g2⟩

theorem read_placed {out : Nat → Nat} (hi : Inv H out) (ha : Apart H X) {H2 : Heap I S} (h2 : ∀ x, ¬ Ow H X x → H2.mem x = H.mem x)
    {h : Nat} {t : Tree I S h} (hp : Placed H H2 X t) : readT H2 h (ptrOf t) = .ok t := by
  induction h with
  | zero => rfl
  | succ h ih =>
    by_cases hb : Ow H X (Node.ptr t)
    · obtain ⟨h1, h3⟩ := hp.1 hb
      refine readT_succ.2 ⟨_, Node.kids t, h1, ?_, rfl⟩
      simp only [toHNode]
      rw [List.forall₂_map_left_iff, List.forall₂_same]
      exact fun k hk => ih (h3 k hk)
    · obtain ⟨⟨nd, g1, g2⟩, g3, g4⟩ := hp.2 hb
      exact read_outside hi ha h2 g1 g2 g3 g4

theorem placed_ht {out : Nat → Nat} (hi : Inv H out) {H2 : Heap I S} (h2 : ∀ x, ¬ Ow H X x → H2.mem x = H.mem x)
    {h : Nat} {t : Tree I S h} (hp : Placed H H2 X t) : ∀ e ∈ openT H X t,
      (∀ q ∈ refsOf (some e.2), ∃ nq, H2.mem q = some nq ∧ nq.height + 1 = e.2.height) ∧ (e.2.height = 0 → ∀ q ∈ e.2.kids, q = 0) := by
  induction h with
  | zero => intro e he; simp [openT] at he
  | succ h ih =>
    intro e he
    by_cases hb : Ow H X (Node.ptr t)
    · obtain ⟨h1, h3⟩ := hp.1 hb
      simp only [openT, hb, if_true, List.mem_cons, List.mem_flatMap] at he
      rcases he with rfl | ⟨k, hk, he⟩
      · constructor
        · intro q hq
          cases h with
          | zero => cases hq
          | succ g =>
              have hq : q ∈ (Node.kids t).map ptrOf := hq
              obtain ⟨k, hk, rfl⟩ := List.mem_map.1 hq
              have hpk := h3 k hk
              by_cases hbk : Ow H X (Node.ptr k)
              · exact ⟨_, (hpk.1 hbk).1, rfl⟩
              · obtain ⟨⟨nd, g1, g2⟩, _, _⟩ := hpk.2 hbk
                exact ⟨nd, by rw [← g1]; exact h2 _ hbk, by rw [g2]; rfl⟩
        · intro h0 q hq
          simp only [toHNode] at h0 hq
          subst h0
          obtain ⟨k, _, rfl⟩ := List.mem_map.1 hq
          rfl
      · exact ih (h3 k hk) e he
    · simp [openT, hb] at he

theorem toHNode_count {out : Nat → Nat} (hi : Inv H out) (h1 : ∀ x ∈ X, ∃ nd, H.mem x = some nd ∧ nd.count = 1) {h : Nat} {t : Tree I S h} :
    ∀ e ∈ openT H X t, e.2.count = 1 := by
  induction h with
  | zero => intro e he; simp [openT] at he
  | succ h ih =>
    intro e he
    by_cases hb : Ow H X (Node.ptr t)
    · simp only [openT, hb, if_true, List.mem_cons, List.mem_flatMap] at he
      rcases he with rfl | ⟨k, hk, he⟩
      · simp only [toHNode]
        rcases hb with hb | hb
        · obtain ⟨nd, g1, g2⟩ := h1 _ hb
          rw [g1]; exact g2
        · cases hm : H.mem (Node.ptr t) with
          | none => rfl
          | some nd => exact absurd (hi.lt _ _ hm) (by omega)
      · exact ih e he
    · simp [openT, hb] at he

theorem lookup_eq_of_nodup {Y : Type} {l : List (Nat × Y)} (hn : (l.map Prod.fst).Nodup) {x : Nat} {a b : Y} (h1 : (x, a) ∈ l) (h2 : (x, b) ∈ l) :
    a = b := by
  induction l with
  | nil => simp at h1
  | cons c l ih =>
    simp only [List.map_cons, List.nodup_cons] at hn
    rcases List.mem_cons.1 h1 with rfl | h1'
    · rcases List.mem_cons.1 h2 with h2' | h2'
      · cases h2'; rfl
      · exact absurd (List.mem_map.2 ⟨_, h2', rfl⟩) hn.1
    · rcases List.mem_cons.1 h2 with rfl | h2'
      · exact absurd (List.mem_map.2 ⟨_, h1', rfl⟩) hn.1
      · exact ih hn.2 h1' h2'

/-- Memory after an insertion wrote the nodes of the new tree. -/
theorem write_spec {out out' d : Nat → Nat} (hi : Inv H out) (ha : Apart H X) (hX : X.Nodup)
    (h1 : ∀ x ∈ X, ∃ nd, H.mem x = some nd ∧ nd.count = 1) {Q : Multiset (Tok I S)}
    (hQ : ∀ k ∈ Q, ∃ (g : Nat) (s : Tree I S g), k = Sum.inr ⟨g, s⟩ ∧ Sealed H X s)
    {n1 : Nat} (hn : H.next ≤ n1) {h : Nat} {t : Tree I S (h + 1)} (hroot : Ow H X (Node.ptr t))
    (hM : actM (Ow H X) t = ((X.map Sum.inl : List (Tok I S)) : Multiset (Tok I S)) + Q + fresh I S H.next n1)
    (hd : ∀ x, tokCount (((X.map Sum.inl : List (Tok I S)) : Multiset (Tok I S)) + Q) x =
      (X.map (fun q => (refsOf (H.mem q)).count x)).sum + d x)
    (ho : ∀ x, out' x + d x = out x + (if x = Node.ptr t then 1 else 0)) :
    Inv (writeT H t n1) out' ∧ readT (writeT H t n1) (h + 1) (Node.ptr t) = .ok t ∧
      (∀ x, ¬ Ow H X x → (writeT H t n1).mem x = H.mem x) ∧ (∃ nd, (writeT H t n1).mem (Node.ptr t) = some nd ∧ nd.height = h) ∧
      ∀ x nd, (writeT H t n1).mem x = some nd → (x, nd) ∈ openT H X t ∨ (¬ Ow H X x ∧ H.mem x = some nd) := by
  have hXn : ∀ x ∈ X, x < H.next := fun x hx => by
    obtain ⟨nd, g, _⟩ := h1 x hx
    exact hi.lt x nd g
  have hT : treeM (Ow H X) t = actM (Ow H X) t := treeM_open hroot
  have hT2 := treeM_split (H := H) (X := X) t
  rw [hT, hM] at hT2
  -- the changed nodes are exactly those on the way and the new ones
  have hfr : fresh I S H.next n1 = (((List.range' H.next (n1 - H.next)).map Sum.inl : List (Tok I S)) : Multiset (Tok I S)) := rfl
  have hseal : ∀ k ∈ sealsT H X t, ∃ s, k = Sum.inr s := by
    have : ∀ {g : Nat} (u : Tree I S g), ∀ k ∈ sealsT H X u, ∃ s, k = Sum.inr s := by
      intro g
      induction g with
      | zero => intro u k hk; simp [sealsT] at hk
      | succ g ih =>
        intro u k hk
        simp only [sealsT] at hk
        split at hk
        · obtain ⟨c, _, hk⟩ := List.mem_flatMap.1 hk
          exact ih c k hk
        · simp only [List.mem_singleton] at hk; exact ⟨_, hk⟩
    exact this t
  have hperm : ((openT H X t).map Prod.fst).Perm (X ++ List.range' H.next (n1 - H.next)) := by
    rw [← Multiset.coe_eq_coe]
    have := congrArg (Multiset.filterMap Sum.getLeft?) hT2
    rw [hfr] at this
    simp only [Multiset.filterMap_add] at this
    have e1 : Multiset.filterMap Sum.getLeft? Q = 0 := by
      rw [Multiset.eq_zero_iff_forall_notMem]
      intro x hx
      obtain ⟨k, hk, hkx⟩ := (Multiset.mem_filterMap _ _).1 hx
      obtain ⟨g, s, rfl, _⟩ := hQ k hk
      cases hkx
    have e2 : Multiset.filterMap Sum.getLeft? (sealsT H X t : Multiset (Tok I S)) = 0 := by
      rw [Multiset.eq_zero_iff_forall_notMem]
      intro x hx
      obtain ⟨k, hk, hkx⟩ := (Multiset.mem_filterMap _ _).1 hx
      obtain ⟨s, rfl⟩ := hseal k (by simpa using hk)
      cases hkx
    have e3 : ∀ l : List Nat, Multiset.filterMap Sum.getLeft? ((l.map Sum.inl : List (Tok I S)) : Multiset (Tok I S)) = (l : Multiset Nat) := by
      intro l
      simp only [Multiset.filterMap_coe, List.filterMap_map]
      congr 1
      induction l with
      | nil => rfl
      | cons a l ih => simp [ih]
    have e4 : ((openT H X t).map (fun e => (Sum.inl e.1 : Tok I S))) = ((openT H X t).map Prod.fst).map Sum.inl := by
      simp [List.map_map, Function.comp_def]
    rw [e4, e1, e2, e3, e3, e3, add_zero, add_zero, Multiset.coe_add] at this
    exact this.symm
  have hsealed : ∀ k ∈ sealsT H X t, ∀ (g : Nat) (s : Tree I S g), k = Sum.inr ⟨g, s⟩ → Sealed H X s := by
    intro k hk g s e
    subst e
    have hmem : (Sum.inr ⟨g, s⟩ : Tok I S) ∈ ((X.map Sum.inl : List (Tok I S)) : Multiset (Tok I S)) + Q + fresh I S H.next n1 := by
      rw [hT2]; simp [hk]
    rw [hfr] at hmem
    simp only [Multiset.mem_add, Multiset.mem_coe, List.mem_map, reduceCtorEq, and_false, exists_false, false_or, or_false] at hmem
    obtain ⟨g', s', e', h'⟩ := hQ _ hmem
    cases e'
    exact h'
  have hnd : (X ++ List.range' H.next (n1 - H.next)).Nodup := by
    rw [List.nodup_append]
    refine ⟨hX, List.nodup_range', fun a ha b hb => ?_⟩
    have := hXn a ha
    simp only [List.mem_range'_1] at hb
    omega
  have hknd : ((openT H X t).map Prod.fst).Nodup := hperm.nodup_iff.2 hnd
  have hmemY : ∀ y, y ∈ (openT H X t).map Prod.fst ↔ (Ow H X y ∧ y < n1) := by
    intro y
    rw [hperm.mem_iff]
    simp only [List.mem_append, List.mem_range'_1, Ow]
    constructor
    · rintro (h | h)
      · have := hXn y h; exact ⟨.inl h, by omega⟩
      · exact ⟨.inr h.1, by omega⟩
    · rintro ⟨h | h, h'⟩
      · exact .inl h
      · exact .inr ⟨h, by omega⟩
  have hcase := nodes_cases hi ha hsealed
  -- contents after the write
  have c1 : ∀ e ∈ openT H X t, (writeT H t n1).mem e.1 = some e.2 := by
    intro e he
    obtain ⟨g1, g2⟩ := open_sub e he
    obtain ⟨e', g3⟩ := lookup_of_mem (l := nodesT H t) (x := e.1) (e := e.2) g1
    simp only [writeT, g3]
    rcases hcase _ (mem_of_lookup g3) with h | h
    · rw [lookup_eq_of_nodup hknd (x := e.1) (a := e') (b := e.2) h he]
    · exact absurd g2 h.2
  have c2 : ∀ x, ¬ Ow H X x → (writeT H t n1).mem x = H.mem x := by
    intro x hx
    simp only [writeT]
    cases hl : (nodesT H t).lookup x with
    | none => rfl
    | some e =>
      rcases hcase _ (mem_of_lookup hl) with h | h
      · exact absurd (open_sub _ h).2 hx
      · exact h.1.symm
  have c3 : ∀ x, n1 ≤ x → (writeT H t n1).mem x = none := by
    intro x hx
    simp only [writeT]
    have hn0 : H.mem x = none := by
      cases h : H.mem x with
      | none => rfl
      | some n => exact absurd (hi.lt _ _ h) (by omega)
    cases hl : (nodesT H t).lookup x with
    | none => exact hn0
    | some e =>
      rcases hcase _ (mem_of_lookup hl) with h | h
      · have := (hmemY x).1 (List.mem_map.2 ⟨_, h, rfl⟩)
        omega
      · rw [hn0] at h; cases h.1
  have c4 : ∀ x nd, (writeT H t n1).mem x = some nd → (x, nd) ∈ openT H X t ∨ (¬ Ow H X x ∧ H.mem x = some nd) := by
    intro x nd hx
    by_cases hb : Ow H X x
    · left
      have hlt : x < n1 := by
        by_cases hlt : x < n1
        · exact hlt
        · rw [c3 x (by omega)] at hx; cases hx
      obtain ⟨⟨y, e⟩, he, hye⟩ := List.mem_map.1 ((hmemY x).2 ⟨hb, hlt⟩)
      have hye : y = x := hye
      subst hye
      have := c1 _ he
      rw [this] at hx; cases hx
      exact he
    · right; exact ⟨hb, by rw [← c2 x hb]; exact hx⟩
  have hplaced := placed_of (H2 := writeT H t n1) hsealed c1
  have hht := placed_ht hi c2 hplaced
  have hcount := toHNode_count (t := t) hi h1
  refine ⟨⟨fun x => ?_, fun x nd hx => ?_, fun x nd hx => ?_, fun x nd hx q hq => ?_, fun x nd hx h0 q hq => ?_⟩,
    read_placed hi ha c2 hplaced, c2, ⟨_, (hplaced.1 hroot).1, rfl⟩, c4⟩
  · -- counts
    have k1 : refsIn (writeT H t n1) x = (∑ q ∈ (range n1).filter (fun q => ¬ Ow H X q), (refsOf (H.mem q)).count x) +
        refsL (openT H X t) x := by
      unfold refsIn
      show ∑ q ∈ range n1, _ = _
      rw [← Finset.sum_filter_add_sum_filter_not (range n1) (fun q => Ow H X q)]
      rw [Nat.add_comm]
      congr 1
      · exact Finset.sum_congr rfl (fun q hq => by rw [c2 q (Finset.mem_filter.1 hq).2])
      · have hset : (range n1).filter (fun q => Ow H X q) = ((openT H X t).map Prod.fst).toFinset := by
          ext y
          rw [List.mem_toFinset, hmemY, Finset.mem_filter, Finset.mem_range]
          tauto
        rw [hset, List.sum_toFinset _ hknd, List.map_map]
        unfold refsL
        congr 1
        refine List.map_congr_left (fun e he => ?_)
        simp only [Function.comp, c1 e he]
    have k2 : refsIn H x = (∑ q ∈ (range n1).filter (fun q => ¬ Ow H X q), (refsOf (H.mem q)).count x) +
        (X.map (fun q => (refsOf (H.mem q)).count x)).sum := by
      unfold refsIn
      rw [← Finset.sum_filter_add_sum_filter_not (range H.next) (fun q => q ∈ X)]
      rw [Nat.add_comm]
      congr 1
      · refine Finset.sum_congr ?_ (fun _ _ => rfl)
        ext y
        simp only [Finset.mem_filter, Finset.mem_range, Ow, not_or, not_le]
        constructor
        · rintro ⟨a, b⟩; exact ⟨by omega, b, a⟩
        · rintro ⟨a, b, c⟩; exact ⟨c, b⟩
      · rw [← List.sum_toFinset _ hX]
        refine Finset.sum_congr ?_ (fun _ _ => rfl)
        ext y
        simp only [Finset.mem_filter, Finset.mem_range, List.mem_toFinset]
        exact ⟨fun h => h.2, fun h => ⟨hXn y h, h⟩⟩
    have k3 := refsL_openT (H := H) (X := X) t x
    rw [hT, hM, tokCount_add, hd x] at k3
    have k4 : tokCount (fresh I S H.next n1) x = if H.next ≤ x ∧ x < n1 then 1 else 0 := by
      rw [hfr]
      simp only [tokCount, Multiset.map_coe, List.map_map, Multiset.coe_count]
      have : (tokPtr (I := I) (S := S) ∘ Sum.inl) = id := rfl
      rw [this, List.map_id]
      by_cases hx : H.next ≤ x ∧ x < n1
      · rw [if_pos hx, List.count_eq_one_of_mem List.nodup_range']
        simp only [List.mem_range'_1]; omega
      · rw [if_neg hx, List.count_eq_zero]
        simp only [List.mem_range'_1]; omega
    have k5 : cnt (writeT H t n1) x = cnt H x + if H.next ≤ x ∧ x < n1 then 1 else 0 := by
      by_cases hb : Ow H X x
      · by_cases hlt : x < n1
        · obtain ⟨⟨y, e⟩, he, hye⟩ := List.mem_map.1 ((hmemY x).2 ⟨hb, hlt⟩)
          have hye : y = x := hye
          subst hye
          rw [cnt_some (c1 _ he), hcount _ he]
          rcases hb with hb | hb
          · obtain ⟨nd, g1, g2⟩ := h1 y hb
            have := hXn y hb
            rw [cnt_some g1, g2, if_neg (by omega)]
          · have hn0 : H.mem y = none := by
              cases h : H.mem y with
              | none => rfl
              | some n => exact absurd (hi.lt _ _ h) (by omega)
            rw [cnt_none hn0, if_pos ⟨hb, hlt⟩]
        · have hn0 : H.mem x = none := by
            cases h : H.mem x with
            | none => rfl
            | some n => exact absurd (hi.lt _ _ h) (by omega)
          rw [cnt_none (c3 x (by omega)), cnt_none hn0, if_neg (by omega)]
      · have : ¬ (H.next ≤ x ∧ x < n1) := fun h => hb (.inr h.1)
        rw [if_neg this]
        unfold cnt
        rw [c2 x hb, Nat.add_zero]
    have k6 := hi.cnt x
    have k7 := ho x
    omega
  · show x < n1
    by_cases hlt : x < n1
    · exact hlt
    · rw [c3 x (by omega)] at hx; cases hx
  · rcases c4 x nd hx with h | h
    · have := hcount _ h; simp only at this; omega
    · exact hi.pos x nd h.2
  · rcases c4 x nd hx with h | h
    · exact (hht _ h).1 q hq
    · obtain ⟨nq, g1, g2⟩ := hi.ht x nd h.2 q hq
      have hxX : x ∉ X := fun hx => h.1 (.inl hx)
      have : ¬ Ow H X q := by
        have := hi.lt q nq g1
        rintro (h' | h')
        · exact ha x nd h.2 hxX q hq h'
        · omega
      exact ⟨nq, by rw [c2 q this]; exact g1, g2⟩
  · rcases c4 x nd hx with h | h
    · exact (hht _ h).2 h0 q hq
    · exact hi.leaf x nd h.2 h0 q hq

end
end Sherman.Cow
