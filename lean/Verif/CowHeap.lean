import Verif.Cow
import Verif.Alike
import Mathlib.Algebra.BigOperators.Group.Finset.Basic
import Mathlib.Algebra.Order.BigOperators.Group.Finset
/-!
# Reference counts are exact
-/
namespace Sherman.Cow
open Finset
variable {I S : Type}

/-- The references that a node holds. -/
def refsOf : Option (HNode I S) → List Nat
  | none => []
  | some nd => if nd.height = 0 then [] else nd.kids

/-- The count stored in a node. -/
def cnt (H : Heap I S) (x : Nat) : Nat :=
  match H.mem x with
  | none => 0
  | some nd => nd.count

/-- The number of references to `x` from nodes. -/
def refsIn (H : Heap I S) (x : Nat) : Nat := ∑ q ∈ range H.next, (refsOf (H.mem q)).count x

/-- Counts are exact, if there are `out x` references to `x` from elsewhere; nodes are complete. -/
structure Inv (H : Heap I S) (out : Nat → Nat) : Prop where
  cnt : ∀ x, cnt H x = refsIn H x + out x
  lt : ∀ p nd, H.mem p = some nd → p < H.next
  pos : ∀ p nd, H.mem p = some nd → 0 < nd.count
  ht : ∀ p nd, H.mem p = some nd → ∀ q ∈ refsOf (some nd), ∃ nd', H.mem q = some nd' ∧ nd'.height + 1 = nd.height
  leaf : ∀ p nd, H.mem p = some nd → nd.height = 0 → ∀ q ∈ nd.kids, q = 0

/-- Equal except for the count. -/
def HNode.Same (a b : HNode I S) : Prop := a.height = b.height ∧ a.size = b.size ∧ a.keys = b.keys ∧ a.kids = b.kids

theorem HNode.Same.refl (a : HNode I S) : a.Same a := ⟨rfl, rfl, rfl, rfl⟩
theorem HNode.Same.symm {a b : HNode I S} (h : a.Same b) : b.Same a := ⟨h.1.symm, h.2.1.symm, h.2.2.1.symm, h.2.2.2.symm⟩
theorem HNode.Same.trans {a b c : HNode I S} (h : a.Same b) (g : b.Same c) : a.Same c :=
  ⟨h.1.trans g.1, h.2.1.trans g.2.1, h.2.2.1.trans g.2.2.1, h.2.2.2.trans g.2.2.2⟩
theorem HNode.Same.refs {a b : HNode I S} (h : a.Same b) : refsOf (some a) = refsOf (some b) := by
  simp only [refsOf, h.1, h.2.2.2]

theorem cnt_some {H : Heap I S} {x : Nat} {nd : HNode I S} (h : H.mem x = some nd) : cnt H x = nd.count := by simp [cnt, h]
theorem cnt_none {H : Heap I S} {x : Nat} (h : H.mem x = none) : cnt H x = 0 := by simp [cnt, h]

/-! ## Reading -/

theorem mapM_ok {X Y : Type} {f : X → R Y} {l : List X} {r : List Y} :
    l.mapM f = .ok r ↔ List.Forall₂ (fun a b => f a = .ok b) l r := by
  induction l generalizing r with
  | nil =>
    simp only [List.mapM_nil, R.pure_eq, Except.ok.injEq]
    constructor
    · rintro rfl; exact .nil
    · intro h; cases h; rfl
  | cons a l ih =>
    simp only [List.mapM_cons, bind_ok_iff]
    constructor
    · rintro ⟨b, hb, bs, hbs, h⟩
      cases h
      exact .cons hb (ih.1 hbs)
    · intro h
      cases h with
      | cons h1 h2 => exact ⟨_, h1, _, ih.2 h2, rfl⟩

theorem get_ok {H : Heap I S} {p : Nat} {nd : HNode I S} : H.get p = .ok nd ↔ H.mem p = some nd := by
  unfold Heap.get
  cases H.mem p with
  | none => simp
  | some x => simp

theorem readT_succ {H : Heap I S} {h p : Nat} {t : Tree I S (h + 1)} : readT H (h + 1) p = .ok t ↔
    ∃ nd kids, H.mem p = some nd ∧ List.Forall₂ (fun q k => readT H h q = .ok k) nd.kids kids ∧
      t = (⟨p, nd.size, nd.keys, kids⟩ : Node I S (Tree I S h)) := by
  simp only [readT, bind_ok_iff, get_ok, mapM_ok]
  constructor
  · rintro ⟨nd, h1, kids, h2, h3⟩
    cases h3
    exact ⟨nd, kids, h1, h2, rfl⟩
  · rintro ⟨nd, kids, h1, h2, rfl⟩
    exact ⟨nd, h1, kids, h2, rfl⟩

theorem forall₂_exists {X Y : Type} {P : X → Y → Prop} {l : List X} (h : ∀ a ∈ l, ∃ b, P a b) : ∃ r, List.Forall₂ P l r := by
  induction l with
  | nil => exact ⟨[], .nil⟩
  | cons a l ih =>
    obtain ⟨b, hb⟩ := h a (by simp)
    obtain ⟨r, hr⟩ := ih (fun a ha => h a (by simp [ha]))
    exact ⟨b :: r, .cons hb hr⟩

/-- A tree in memory can be read. -/
theorem Inv.read {H : Heap I S} {out : Nat → Nat} (hi : Inv H out) {h p : Nat} {nd : HNode I S} (hm : H.mem p = some nd)
    (hh : nd.height = h) : ∃ t, readT H (h + 1) p = .ok t := by
  induction h generalizing p nd with
  | zero =>
    obtain ⟨ks, hk⟩ := forall₂_exists (P := fun q k => readT H 0 q = .ok k) (l := nd.kids) (fun q _ => ⟨(), rfl⟩)
    exact ⟨_, readT_succ.2 ⟨nd, ks, hm, hk, rfl⟩⟩
  | succ h ih =>
    obtain ⟨ks, hk⟩ := forall₂_exists (P := fun q k => readT H (h + 1) q = .ok k) (l := nd.kids) (fun q hq => by
      obtain ⟨nd', h1, h2⟩ := hi.ht p nd hm q (by simp [refsOf, hh]; exact hq)
      exact ih h1 (by omega))
    exact ⟨_, readT_succ.2 ⟨nd, ks, hm, hk, rfl⟩⟩

theorem forall₂_strip {X : Type} {h : Nat} {P : X → X → Prop} {f g : X → Tree I S h → Prop} {l l' : List X} {r : List (Tree I S h)}
    (hp : List.Forall₂ P l l') (hf : List.Forall₂ f l r)
    (hi : ∀ a b t, a ∈ l → b ∈ l' → P a b → f a t → ∃ t', g b t' ∧ Alike t t') :
    ∃ r', List.Forall₂ g l' r' ∧ r.map strip = r'.map strip := by
  induction hp generalizing r with
  | nil => cases hf; exact ⟨[], .nil, rfl⟩
  | cons h1 h2 ih =>
    cases hf with
    | cons g1 g2 =>
      obtain ⟨r', k1, k2⟩ := ih g2 (fun a b t ha hb => hi a b t (by simp [ha]) (by simp [hb]))
      obtain ⟨t', k3, k4⟩ := hi _ _ _ (by simp) (by simp) h1 g1
      exact ⟨t' :: r', .cons k3 k1, by simp only [List.map_cons, k2]; rw [k4]⟩

/-- Memory that looks the same along a relation of addresses. -/
theorem readT_sim {H H' : Heap I S} {rel : Nat → Nat → Prop}
    (hrel : ∀ x x', rel x x' → ∃ nd nd', H.mem x = some nd ∧ H'.mem x' = some nd' ∧ nd.height = nd'.height ∧ nd.size = nd'.size ∧
      nd.keys = nd'.keys ∧ nd.kids.length = nd'.kids.length ∧ List.Forall₂ rel (refsOf (some nd)) (refsOf (some nd')))
    {out : Nat → Nat} (hi : Inv H out) {h x x' : Nat} {nd : HNode I S} (hm : H.mem x = some nd) (hh : nd.height = h) (hx : rel x x')
    {t : Tree I S (h + 1)} (ht : readT H (h + 1) x = .ok t) : ∃ t', readT H' (h + 1) x' = .ok t' ∧ Alike t t' := by
  induction h generalizing x x' nd with
  | zero =>
    obtain ⟨nd1, nd2, e1, e2, e3, e4, e5, e6, -⟩ := hrel x x' hx
    obtain ⟨nd0, ks, g1, g2, rfl⟩ := readT_succ.1 ht
    obtain rfl : nd1 = nd0 := by rw [e1] at g1; cases g1; rfl
    obtain ⟨ks', hk⟩ := forall₂_exists (P := fun q k => readT H' 0 q = .ok k) (l := nd2.kids) (fun q _ => ⟨(), rfl⟩)
    refine ⟨_, readT_succ.2 ⟨nd2, ks', e2, hk, rfl⟩, alike_node.2 ⟨e4, e5, ?_⟩⟩
    have l1 := g2.length_eq
    have l2 := hk.length_eq
    refine List.ext_getElem ?_ ?_
    · simp only [List.length_map]; omega
    · intros; rfl
  | succ h ih =>
    obtain ⟨nd1, nd2, e1, e2, e3, e4, e5, -, e6⟩ := hrel x x' hx
    obtain ⟨nd0, ks, g1, g2, rfl⟩ := readT_succ.1 ht
    obtain rfl : nd1 = nd0 := by rw [e1] at g1; cases g1; rfl
    obtain rfl : nd1 = nd := by rw [e1] at hm; cases hm; rfl
    have f1 : refsOf (some nd1) = nd1.kids := by simp [refsOf, hh]
    have f2 : refsOf (some nd2) = nd2.kids := by simp [refsOf, ← e3, hh]
    rw [f1, f2] at e6
    obtain ⟨ks', k1, k2⟩ := forall₂_strip (g := fun q k => readT H' (h + 1) q = .ok k) e6 g2 (fun a b t ha hb hab hft => by
      obtain ⟨nd', m1, m2⟩ := hi.ht x nd1 hm a (by rw [f1]; exact ha)
      exact ih m1 (by omega) hab hft)
    exact ⟨_, readT_succ.2 ⟨nd2, ks', e2, k1, rfl⟩, alike_node.2 ⟨e4, e5, k2⟩⟩

/-- Memory that is the same in a closed part. -/
theorem readT_frame {H H' : Heap I S} {Z : Nat → Prop}
    (hz : ∀ x, Z x → ∃ nd nd', H.mem x = some nd ∧ H'.mem x = some nd' ∧ nd.Same nd' ∧ ∀ q ∈ refsOf (some nd), Z q ∧
      ∃ ndq, H.mem q = some ndq ∧ ndq.height + 1 = nd.height)
    {h x : Nat} (hx : Z x) {nd : HNode I S} (hm : H.mem x = some nd) (hh : nd.height = h)
    {t : Tree I S (h + 1)} (ht : readT H (h + 1) x = .ok t) : readT H' (h + 1) x = .ok t := by
  induction h generalizing x nd with
  | zero =>
    obtain ⟨nd1, nd2, e1, e2, e3, e4⟩ := hz x hx
    obtain ⟨nd0, ks, g1, g2, rfl⟩ := readT_succ.1 ht
    obtain rfl : nd1 = nd0 := by rw [e1] at g1; cases g1; rfl
    refine readT_succ.2 ⟨nd2, ks, e2, ?_, ?_⟩
    · rw [← e3.2.2.2]; exact g2.imp (fun _ _ h => h)
    · rw [e3.2.1, e3.2.2.1]
  | succ h ih =>
    obtain ⟨nd1, nd2, e1, e2, e3, e4⟩ := hz x hx
    obtain ⟨nd0, ks, g1, g2, rfl⟩ := readT_succ.1 ht
    obtain rfl : nd1 = nd0 := by rw [e1] at g1; cases g1; rfl
    obtain rfl : nd1 = nd := by rw [e1] at hm; cases hm; rfl
    have f1 : refsOf (some nd1) = nd1.kids := by simp [refsOf, hh]
    rw [f1] at e4
    refine readT_succ.2 ⟨nd2, ks, e2, ?_, ?_⟩
    · rw [← e3.2.2.2]
      rw [List.forall₂_iff_get] at g2 ⊢
      refine ⟨g2.1, fun i hi1 hi2 => ?_⟩
      obtain ⟨z1, ndq, z2, z3⟩ := e4 (nd1.kids.get ⟨i, hi1⟩) (List.getElem_mem _)
      exact ih z1 z2 (by omega) (g2.2 i hi1 hi2)
    · rw [e3.2.1, e3.2.2.1]

/-! ## Counting references -/

theorem refsIn_congr {H H' : Heap I S} (hn : H'.next = H.next) (h : ∀ q, refsOf (H'.mem q) = refsOf (H.mem q)) (x : Nat) :
    refsIn H' x = refsIn H x := by
  unfold refsIn
  rw [hn]
  exact Finset.sum_congr rfl (fun q _ => by rw [h q])

/-- Change one place. -/
theorem refsIn_change {H H' : Heap I S} (hn : H'.next = H.next) {p : Nat} (hp : p < H.next) (h : ∀ q, q ≠ p → refsOf (H'.mem q) = refsOf (H.mem q))
    (x : Nat) : refsIn H' x + (refsOf (H.mem p)).count x = refsIn H x + (refsOf (H'.mem p)).count x := by
  unfold refsIn
  rw [hn]
  have hm : p ∈ range H.next := by simpa using hp
  rw [← Finset.add_sum_erase _ _ hm, ← Finset.add_sum_erase _ _ hm]
  have : ∑ q ∈ (range H.next).erase p, (refsOf (H'.mem q)).count x = ∑ q ∈ (range H.next).erase p, (refsOf (H.mem q)).count x :=
    Finset.sum_congr rfl (fun q hq => by rw [h q (Finset.ne_of_mem_erase hq)])
  rw [this]; omega

/-- Add places. -/
theorem refsIn_next {H H' : Heap I S} (hn : H'.next = H.next + 1) (h : ∀ q, q < H.next → refsOf (H'.mem q) = refsOf (H.mem q)) (x : Nat) :
    refsIn H' x = refsIn H x + (refsOf (H'.mem H.next)).count x := by
  unfold refsIn
  rw [hn, Finset.sum_range_succ]
  congr 1
  exact Finset.sum_congr rfl (fun q hq => by rw [h q (by simpa using hq)])

theorem refsIn_le {H : Heap I S} {p : Nat} (hp : p < H.next) (x : Nat) : (refsOf (H.mem p)).count x ≤ refsIn H x := by
  unfold refsIn
  exact Finset.single_le_sum (f := fun q => (refsOf (H.mem q)).count x) (fun _ _ => Nat.zero_le _) (by simpa using hp)

theorem refsIn_two {H : Heap I S} {p q : Nat} (hp : p < H.next) (hq : q < H.next) (hne : p ≠ q) (x : Nat) :
    (refsOf (H.mem p)).count x + (refsOf (H.mem q)).count x ≤ refsIn H x := by
  unfold refsIn
  have hm : p ∈ range H.next := by simpa using hp
  rw [← Finset.add_sum_erase _ _ hm]
  have := Finset.single_le_sum (f := fun q => (refsOf (H.mem q)).count x) (s := (range H.next).erase p) (fun _ _ => Nat.zero_le _)
    (Finset.mem_erase.2 ⟨hne.symm, by simpa using hq⟩)
  omega

/-! ## `increment`, `ensure_unique` -/

/-- The panic for too many references. -/
def tooMany : Fault := .panic "more than isize::MAX references to the same node"

/-- More references to some nodes. -/
def bump (H : Heap I S) (l : List Nat) : Heap I S :=
  { H with mem := fun x => (H.mem x).map (fun nd => { nd with count := nd.count + l.count x }) }

theorem increment_spec {imax : Nat} {H : Heap I S} {p : Nat} {nd : HNode I S} (hm : H.mem p = some nd) :
    increment imax H p = if imax < nd.count then .error tooMany else .ok (H.put p { nd with count := nd.count + 1 }) := by
  simp only [increment, get_ok.2 hm, R.bind_ok]
  by_cases h : imax < nd.count
  · simp [h, check]; rfl
  · simp [h, check]

theorem incrementAll {imax : Nat} {H : Heap I S} {l : List Nat} (hl : ∀ q ∈ l, ∃ nd, H.mem q = some nd) :
    (l.foldlM (fun H q => increment imax H q) H = .ok (bump H l)) ∨ (l.foldlM (fun H q => increment imax H q) H = .error tooMany) := by
  induction l generalizing H with
  | nil => left; simp [bump]
  | cons a l ih =>
    obtain ⟨nd, hm⟩ := hl a (by simp)
    rw [List.foldlM_cons, increment_spec hm]
    by_cases h : imax < nd.count
    · right; simp [h]
    · simp only [h, if_false, R.bind_ok]
      have hb : bump H (a :: l) = bump (H.put a { nd with count := nd.count + 1 }) l := by
        unfold bump Heap.put
        congr 1
        funext x
        by_cases hx : x = a
        · subst hx; simp [hm]; omega
        · simp [hx, List.count_cons, Ne.symm hx]
      rw [hb]
      refine ih (fun q hq => ?_)
      by_cases hx : q = a
      · exact ⟨_, by simp [Heap.put, hx]; rfl⟩
      · obtain ⟨n, hn⟩ := hl q (by simp [hq])
        exact ⟨n, by simp [Heap.put, hx, hn]⟩

/-- What `ensure_unique` does to a node of height `h`: `p'` replaces `p`.  Contents stay, counts stay exact if the reference to `p` is
replaced. -/
structure Uniq (H H' : Heap I S) (h p p' : Nat) : Prop where
  keep : ∀ x nd, H.mem x = some nd → ∃ nd', H'.mem x = some nd' ∧ nd.Same nd'
  back : ∀ x nd', H'.mem x = some nd' → x = p' ∨ ∃ nd, H.mem x = some nd ∧ nd.Same nd'
  new : ∃ nd nd', H.mem p = some nd ∧ H'.mem p' = some nd' ∧ nd.Same nd' ∧ nd'.count = 1
  bal : ∀ x, cnt H' x + (if x = p then 1 else 0) + refsIn H x = cnt H x + (if x = p' then 1 else 0) + refsIn H' x
  lt : ∀ x nd', H'.mem x = some nd' → x < H'.next
  pos : ∀ x nd', H'.mem x = some nd' → 0 < nd'.count
  next : H.next ≤ H'.next
  high : ∀ x nd, H.mem x = some nd → h ≤ nd.height → x ≠ p → H'.mem x = some nd
  fresh : p' = p ∨ p' = H.next

theorem Uniq.same {H : Heap I S} {out : Nat → Nat} (hi : Inv H out) {p : Nat} {nd : HNode I S} (hm : H.mem p = some nd) (hc : nd.count = 1) :
    Uniq H H nd.height p p :=
  ⟨fun x nd h => ⟨nd, h, .refl _⟩, fun x nd h => .inr ⟨nd, h, .refl _⟩, ⟨nd, nd, hm, hm, .refl _, hc⟩, fun x => by omega, hi.lt, hi.pos,
    Nat.le_refl _, fun x nd h _ _ => h, .inl rfl⟩

/-- The memory after a node was copied. -/
def splitOff (H : Heap I S) (p : Nat) (nd : HNode I S) : Heap I S :=
  { mem := fun x => if x = p then some { nd with count := nd.count - 1 }
      else if x = H.next then some { nd with count := 1 }
      else (bump H (refsOf (some nd))).mem x
    next := H.next + 1 }

theorem mem_refs_self {H : Heap I S} {out : Nat → Nat} (hi : Inv H out) {p : Nat} {nd : HNode I S} (hm : H.mem p = some nd) :
    p ∉ refsOf (some nd) := by
  intro hp
  obtain ⟨nd', h1, h2⟩ := hi.ht p nd hm p hp
  rw [hm] at h1; cases h1; omega

theorem refs_height {H : Heap I S} {out : Nat → Nat} (hi : Inv H out) {p x : Nat} {nd ndx : HNode I S} (hm : H.mem p = some nd)
    (hx : H.mem x = some ndx) (hh : nd.height ≤ ndx.height) : x ∉ refsOf (some nd) := by
  intro hp
  obtain ⟨nd', h1, h2⟩ := hi.ht p nd hm x hp
  rw [hx] at h1; cases h1; omega

theorem uniq_splitOff {H : Heap I S} {out : Nat → Nat} (hi : Inv H out) {p : Nat} {nd : HNode I S} (hm : H.mem p = some nd)
    (hc : nd.count ≠ 1) : Uniq H (splitOff H p nd) nd.height p H.next := by
  have hp := hi.lt p nd hm
  have hpos := hi.pos p nd hm
  have hnone : H.mem H.next = none := by
    cases h : H.mem H.next with
    | none => rfl
    | some n => exact absurd (hi.lt _ _ h) (by omega)
  have hmem : ∀ x n, H.mem x = some n → ∃ n', (splitOff H p nd).mem x = some n' ∧ n.Same n' ∧
      n'.count + (if x = p then 1 else 0) = n.count + (refsOf (some nd)).count x := by
    intro x n hx
    by_cases h1 : x = p
    · subst h1
      rw [hm] at hx; cases hx
      refine ⟨{ nd with count := nd.count - 1 }, by simp [splitOff], ⟨rfl, rfl, rfl, rfl⟩, ?_⟩
      have := List.count_eq_zero.2 (mem_refs_self hi hm)
      simp only [if_true, this]; omega
    · have h2 : x ≠ H.next := by rintro rfl; rw [hnone] at hx; cases hx
      exact ⟨{ n with count := n.count + (refsOf (some nd)).count x }, by simp [splitOff, h1, h2, bump, hx], ⟨rfl, rfl, rfl, rfl⟩, by simp [h1]⟩
  have hback : ∀ x n', (splitOff H p nd).mem x = some n' → x = H.next ∨ ∃ n, H.mem x = some n := by
    intro x n' hx
    by_cases h2 : x = H.next
    · exact .inl h2
    · right
      by_cases h1 : x = p
      · exact ⟨nd, h1 ▸ hm⟩
      · simp only [splitOff, h1, h2, if_false, bump, Option.map_eq_some_iff] at hx
        obtain ⟨n, hn, -⟩ := hx
        exact ⟨n, hn⟩
  have hnew : (splitOff H p nd).mem H.next = some { nd with count := 1 } := by
    have : H.next ≠ p := by omega
    simp [splitOff, this]
  have hrefs : ∀ q, q < H.next → refsOf ((splitOff H p nd).mem q) = refsOf (H.mem q) := by
    intro q hq
    cases hq' : H.mem q with
    | some n =>
      obtain ⟨n', h1, h2, -⟩ := hmem q n hq'
      rw [h1, h2.refs]
    | none =>
      have h1 : q ≠ p := by rintro rfl; rw [hm] at hq'; cases hq'
      have h2 : q ≠ H.next := by omega
      simp [splitOff, h1, h2, bump, hq']
  refine ⟨fun x n hx => ?_, fun x n' hx => ?_, ⟨nd, _, hm, hnew, ⟨rfl, rfl, rfl, rfl⟩, rfl⟩, fun x => ?_, fun x n' hx => ?_,
    fun x n' hx => ?_, Nat.le_succ _, fun x n hx hh hne => ?_, .inr rfl⟩
  · obtain ⟨n', h1, h2, -⟩ := hmem x n hx
    exact ⟨n', h1, h2⟩
  · rcases hback x n' hx with h | ⟨n, h⟩
    · exact .inl h
    · obtain ⟨n2, h1, h2, -⟩ := hmem x n h
      rw [hx] at h1; cases h1
      exact .inr ⟨n, h, h2⟩
  · have hr := refsIn_next (H := H) (H' := splitOff H p nd) rfl hrefs x
    rw [hnew] at hr
    have hr2 : refsOf (some { nd with count := 1 }) = refsOf (some nd) := rfl
    rw [hr2] at hr
    cases hx : H.mem x with
    | some n =>
      obtain ⟨n', h1, h2, h3⟩ := hmem x n hx
      have hne : x ≠ H.next := by rintro rfl; rw [hnone] at hx; cases hx
      rw [cnt_some hx, cnt_some h1, if_neg hne]
      omega
    | none =>
      have hxp : x ≠ p := by rintro rfl; rw [hm] at hx; cases hx
      have h0 : (refsOf (some nd)).count x = 0 := by
        refine List.count_eq_zero.2 (fun hxx => ?_)
        obtain ⟨n, h1, -⟩ := hi.ht p nd hm x hxx
        rw [hx] at h1; cases h1
      rw [cnt_none hx, if_neg hxp]
      by_cases hn : x = H.next
      · rw [hn, cnt_some hnew, ← hn]; simp only [if_true]; omega
      · have : (splitOff H p nd).mem x = none := by simp [splitOff, hxp, hn, bump, hx]
        rw [cnt_none this, if_neg hn]; omega
  · rcases hback x n' hx with h | ⟨n, h⟩
    · show x < H.next + 1; omega
    · have := hi.lt x n h
      show x < H.next + 1; omega
  · rcases hback x n' hx with rfl | ⟨n, h⟩
    · rw [hnew] at hx; cases hx; exact Nat.one_pos
    · obtain ⟨n2, h1, h2, h3⟩ := hmem x n h
      rw [hx] at h1; cases h1
      have := hi.pos x n h
      by_cases hxp : x = p
      · subst hxp; rw [hm] at h; cases h; simp only [if_true] at h3; omega
      · simp only [hxp, if_false] at h3; omega
  · have h2 : x ≠ H.next := by rintro rfl; rw [hnone] at hx; cases hx
    have h0 := List.count_eq_zero.2 (refs_height hi hm hx hh)
    simp [splitOff, hne, h2, bump, hx, h0]

theorem ensureUnique_spec {imax : Nat} {H : Heap I S} {out : Nat → Nat} (hi : Inv H out) {p : Nat} {nd : HNode I S} (hm : H.mem p = some nd) :
    (∃ H' p', ensureUnique imax H nd.height p = .ok (H', p') ∧ Uniq H H' nd.height p p' ∧ (p' = p → H' = H ∧ nd.count = 1)) ∨
      ensureUnique imax H nd.height p = .error tooMany := by
  simp only [ensureUnique, get_ok.2 hm, R.bind_ok]
  by_cases hc : nd.count = 1
  · simp only [hc, if_true, R.pure_eq]
    exact .inl ⟨H, p, rfl, .same hi hm hc, fun _ => ⟨rfl, trivial⟩⟩
  · simp only [hc, if_false]
    have hp := hi.lt p nd hm
    have hne : p ≠ H.next := by omega
    have hsc : shallowClone imax H nd.height p = (do
        let H' ← (refsOf (some nd)).foldlM (fun H q => increment imax H q) H
        pure (H'.alloc { nd with count := 1 })) := by
      simp only [shallowClone, get_ok.2 hm, R.bind_ok, refsOf]
      by_cases h0 : nd.height = 0
      · simp [h0]
      · simp [h0]
    have hb0 : (bump H (refsOf (some nd))).mem p = some nd := by
      have := List.count_eq_zero.2 (mem_refs_self hi hm)
      simp [bump, hm, this]
    have hpos := hi.pos p nd hm
    rcases incrementAll (imax := imax) (H := H) (l := refsOf (some nd)) (fun q hq => by
      obtain ⟨n, h1, -⟩ := hi.ht p nd hm q hq
      exact ⟨n, h1⟩) with h | h
    · left
      rw [hsc, h]
      simp only [R.bind_ok, R.pure_eq, Heap.alloc]
      have hd : ∀ H'' : Heap I S, H''.mem p = some nd → dropRef nd.height H'' p = .ok (H''.put p { nd with count := nd.count - 1 }) := by
        intro H'' hm''
        have hu : usub nd.count 1 = .ok (nd.count - 1) := by simp [usub]; omega
        cases hh : nd.height with
        | zero => simp only [dropRef, get_ok.2 hm'', R.bind_ok, hc, if_false, hu, R.pure_eq, hh]
        | succ h => simp only [dropRef, get_ok.2 hm'', R.bind_ok, hc, if_false, hu, R.pure_eq, hh]
      rw [hd _ (by dsimp only; rw [if_neg (show p ≠ (bump H (refsOf (some nd))).next from hne)]; exact hb0)]
      simp only [R.bind_ok]
      refine ⟨_, _, rfl, ?_, fun e => absurd e (Ne.symm hne)⟩
      exact uniq_splitOff hi hm hc
    · right
      rw [hsc, h]; rfl

end Sherman.Cow
