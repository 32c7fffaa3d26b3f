import Verif.OwnInsert
import Verif.Observe
import Verif.Cells
/-!
# Addresses and references of the places of a tree; changing references
-/
namespace Sherman
variable {I S : Type}

/-- The address and key index of a place. -/
def Cell.at (c : Cell S) : Nat × Nat := (c.ptr, c.idx)

/-- Where the reference of a place points, if it has one. -/
def Cell.refAt (c : Cell S) : Option (Nat × Nat × Nat) := c.ref.map fun r => (r, c.ptr, c.idx)

theorem weave_mem {p i : Nat} {cs : List (List (Cell S))} {ks : List (Key I S)} {c : Cell S} (h : c ∈ weave p i cs ks) :
    (c.ptr = p ∧ i ≤ c.idx) ∨ ∃ l ∈ cs, ∃ c' ∈ l, c'.at = c.at := by
  induction cs generalizing i ks with
  | nil => simp [weave] at h
  | cons l cs ih =>
    cases ks with
    | nil =>
      simp only [weave, List.mem_map] at h
      obtain ⟨c', h1, rfl⟩ := h
      exact .inr ⟨l, by simp, c', h1, rfl⟩
    | cons k ks =>
      simp only [weave, List.mem_append, List.mem_map, List.mem_cons] at h
      rcases h with ⟨c', h1, rfl⟩ | rfl | h
      · exact .inr ⟨l, by simp, c', h1, rfl⟩
      · exact .inl ⟨rfl, Nat.le_refl _⟩
      · rcases ih h with ⟨h1, h2⟩ | ⟨l', h1, h2⟩
        · exact .inl ⟨h1, by omega⟩
        · exact .inr ⟨l', by simp [h1], h2⟩

theorem mem_sum_map {α β : Type} {f : α → Multiset β} {l : List α} {b : β} : b ∈ (l.map f).sum ↔ ∃ a ∈ l, b ∈ f a := by
  induction l with
  | nil => simp
  | cons a l ih => simp [ih]

theorem le_sum_map {α β : Type} {f : α → Multiset β} {l : List α} {a : α} (h : a ∈ l) : f a ≤ (l.map f).sum := by
  induction l with
  | nil => simp at h
  | cons b l ih =>
    simp only [List.map_cons, List.sum_cons]
    rcases List.mem_cons.1 h with rfl | h
    · exact Multiset.le_add_right _ _
    · exact (ih h).trans (Multiset.le_add_left _ _)

/-- A place is in one of the nodes. -/
theorem cells_ptr {h : Nat} {t : Tree I S h} {c : Cell S} (hc : c ∈ cells t) : c.ptr ∈ treeP t := by
  induction h generalizing c with
  | zero => simp [cells] at hc
  | succ h ih =>
    simp only [cells] at hc
    simp only [treeP, nodeP, Multiset.mem_add, Multiset.mem_singleton]
    rcases weave_mem hc with ⟨h1, _⟩ | ⟨l, h1, c', h2, h3⟩
    · exact .inl h1
    · obtain ⟨k, h4, rfl⟩ := List.mem_map.1 h1
      refine .inr (mem_sum_map.2 ⟨k, h4, ?_⟩)
      have := ih h2
      simp only [Cell.at, Prod.mk.injEq] at h3
      rw [← h3.1]; exact this

theorem weave_nodup {h p i : Nat} {kids : List (Tree I S h)} {ks : List (Key I S)}
    (hk : ∀ k ∈ kids, ((cells k).map Cell.at).Nodup) (hp : p ∉ (kids.map treeP).sum) (hn : ((kids.map treeP).sum).Nodup) :
    ((weave p i (kids.map cells) ks).map Cell.at).Nodup := by
  have hu : ∀ (i : Nat) (l : List (Cell S)), (l.map (Cell.under i)).map Cell.at = l.map Cell.at := by
    intro i l; simp [Cell.under, Cell.at, Function.comp_def]
  induction kids generalizing i ks with
  | nil => simp [weave]
  | cons k kids ih =>
    simp only [List.map_cons, List.sum_cons, Multiset.mem_add, not_or] at hp hn
    obtain ⟨n1, n2, n3⟩ := Multiset.nodup_add.1 hn
    cases ks with
    | nil =>
      simp only [List.map_cons, weave, hu]
      exact hk k (by simp)
    | cons key ks =>
      simp only [List.map_cons, weave, List.map_append, hu]
      have hi := ih (i := i + 1) (ks := ks) (fun x hx => hk x (by simp [hx])) hp.2 n2
      rw [List.nodup_append, List.nodup_cons]
      refine ⟨hk k (by simp), ⟨?_, hi⟩, ?_⟩
      · intro hm
        obtain ⟨c, hc, he⟩ := List.mem_map.1 hm
        simp only [Cell.at, Prod.mk.injEq] at he
        rcases weave_mem hc with ⟨_, h2⟩ | ⟨l, h1, c', h2, h3⟩
        · omega
        · obtain ⟨k', h4, rfl⟩ := List.mem_map.1 h1
          simp only [Cell.at, Prod.mk.injEq] at h3
          exact hp.2 (mem_sum_map.2 ⟨k', h4, by rw [← he.1, ← h3.1]; exact cells_ptr h2⟩)
      · rintro a ha b hb rfl
        obtain ⟨c, hc, rfl⟩ := List.mem_map.1 ha
        have hcp := cells_ptr hc
        rcases List.mem_cons.1 hb with hb | hb
        · simp only [Cell.at, Prod.mk.injEq] at hb
          exact hp.1 (by rw [← hb.1]; exact hcp)
        · obtain ⟨d, hd, he⟩ := List.mem_map.1 hb
          simp only [Cell.at, Prod.mk.injEq] at he
          rcases weave_mem hd with ⟨h1, _⟩ | ⟨l, h1, c', h2, h3⟩
          · exact hp.1 (by rw [← h1, he.1]; exact hcp)
          · obtain ⟨k', h4, rfl⟩ := List.mem_map.1 h1
            simp only [Cell.at, Prod.mk.injEq] at h3
            have : c.ptr ∈ (kids.map treeP).sum := mem_sum_map.2 ⟨k', h4, by rw [← he.1, ← h3.1]; exact cells_ptr h2⟩
            exact (Multiset.disjoint_left.1 n3) hcp this

/-- Distinct addresses give distinct places. -/
theorem cells_nodup {h : Nat} {t : Tree I S h} (ht : (treeP t).Nodup) : ((cells t).map Cell.at).Nodup := by
  induction h with
  | zero => simp [cells]
  | succ h ih =>
    simp only [treeP, nodeP, Multiset.singleton_add, Multiset.nodup_cons] at ht
    exact weave_nodup (fun k hk => ih (Multiset.nodup_of_le (le_sum_map hk) ht.2)) ht.1 ht.2

/-! ## Writing references into the keys -/

/-- The keys of a node at `p`, from key `i` on, with their references replaced. -/
def relabelK (f : Nat → Nat → Option Nat → Option Nat) (p : Nat) : Nat → List (Key I S) → List (Key I S)
  | _, [] => []
  | i, k :: ks => { k with ref := f p i k.ref } :: relabelK f p (i + 1) ks

/-- A tree with the references of its keys replaced: `f` is given the address of the node and the index of the key. -/
def relabelT (f : Nat → Nat → Option Nat → Option Nat) : {h : Nat} → Tree I S h → Tree I S h
  | 0, t => t
  | _ + 1, n => { n with keys := relabelK f n.ptr 0 n.keys, kids := n.kids.map (relabelT f) }

section
variable {f : Nat → Nat → Option Nat → Option Nat}

/-- The effect on one place. -/
def Cell.relabel (f : Nat → Nat → Option Nat → Option Nat) (c : Cell S) : Cell S := { c with ref := f c.ptr c.idx c.ref }

theorem relabelK_length {p i : Nat} {ks : List (Key I S)} : (relabelK f p i ks).length = ks.length := by
  induction ks generalizing i with
  | nil => rfl
  | cons k ks ih => simp [relabelK, ih]

theorem cells_relabel {h : Nat} {t : Tree I S h} : cells (relabelT f t) = (cells t).map (Cell.relabel f) := by
  induction h with
  | zero => rfl
  | succ h ih =>
    have key : ∀ (kids : List (Tree I S h)) (ks : List (Key I S)) (p i : Nat),
        weave p i ((kids.map (relabelT f)).map cells) (relabelK f p i ks) =
          (weave p i (kids.map cells) ks).map (Cell.relabel f) := by
      intro kids
      induction kids with
      | nil => intro ks p i; cases ks <;> rfl
      | cons k kids ihk =>
        intro ks p i
        cases ks with
        | nil => simp [weave, relabelK, ih, Cell.under, Cell.relabel, Function.comp_def]
        | cons key ks =>
          have := ihk ks p (i + 1)
          simp only [List.map_cons, weave, relabelK, ih, List.map_append, List.map_map] at this ⊢
          rw [this]
          simp [Cell.under, Cell.relabel, Function.comp_def]
    exact key (Node.kids t) (Node.keys t) (Node.ptr t) 0

theorem treeP_relabel {h : Nat} {t : Tree I S h} : treeP (relabelT f t) = treeP t := by
  induction h with
  | zero => rfl
  | succ h ih =>
    simp only [treeP, relabelT, nodeP, List.map_map]
    congr 2
    apply List.map_congr_left
    intro a _
    exact ih

end

section
variable {T : Type} {f : Nat → Nat → Option Nat → Option Nat}

theorem szN_relabel {h : Nat} {t : Tree Nat S h} : szN (relabelT f t) = szN t := by
  cases h <;> rfl

/-- The items of a node at `p`, from key `i` on, after replacing references. -/
def relabelItems (f : Nat → Nat → Option Nat → Option Nat) {h : Nat} (p : Nat) :
    Nat → List (Item S (Tree Nat S h)) → List (Item S (Tree Nat S h))
  | _, [] => []
  | i, it :: r => ⟨it.slice, f p i it.ref, it.size, relabelT f it.kid, runsT (relabelT f it.kid)⟩ :: relabelItems f p (i + 1) r

/-- Replacing references changes nothing else. -/
theorem Rep.relabel {M lo h : Nat} {t : Tree Nat S h} {es : List (Ent S)} (hr : Rep M lo t es) :
    Rep M lo (relabelT f t) (runsT (relabelT f t)) ∧
      (runsT (relabelT f t)).map (fun e => (e.size, e.slice)) = es.map (fun e => (e.size, e.slice)) := by
  induction h generalizing lo es with
  | zero =>
    have hr : es = [] := hr
    subst hr; exact ⟨rfl, rfl⟩
  | succ h ih =>
    obtain ⟨c, ec, psr, hn, hc, hi, rfl, h1, h2⟩ := hr
    have hc' := ih hc
    have key : ∀ (l : List (Item S (Tree Nat S h))) (p i o : Nat), RepItems M l →
        relabelK f p i (keysR szN o l) = keysR szN o (relabelItems f p i l) ∧
        (kidsOf l).map (relabelT f) = kidsOf (relabelItems f p i l) ∧ RepItems M (relabelItems f p i l) ∧
        (entsR (relabelItems f p i l)).map (fun e => (e.size, e.slice)) = (entsR l).map (fun e => (e.size, e.slice)) ∧
        (relabelItems f p i l).length = l.length ∧ tot szN (relabelItems f p i l) = tot szN l := by
      intro l
      induction l with
      | nil => intro p i o _; exact ⟨rfl, rfl, RepItems.nil, rfl, rfl, rfl⟩
      | cons it l ihl =>
        intro p i o hl
        rw [RepItems.cons] at hl
        obtain ⟨k1, k2, k3, k4, k5, k6⟩ := ihl p (i + 1) (o + it.size + szN it.kid) hl.2
        have hk := ih hl.1
        refine ⟨?_, ?_, ?_, ?_, ?_, ?_⟩
        · simp only [keysR_cons, relabelK, relabelItems, k1, szN_relabel]
        · simp only [kidsOf_cons, List.map_cons, relabelItems, k2]
        · simp only [relabelItems]
          exact RepItems.cons.2 ⟨hk.1, k3⟩
        · simp only [relabelItems, entsR_cons, List.map_cons, List.map_append, k4, hk.2, Item.ent]
        · simp [relabelItems, k5]
        · simp only [relabelItems, tot_cons, k6, szN_relabel]
    obtain ⟨k1, k2, k3, k4, k5, k6⟩ := key psr (Node.ptr t) 0 (szN c) hi
    have e : relabelT f t = mkG szN (Node.ptr t) [] (relabelT f c) (szN (relabelT f c)) (relabelItems f (Node.ptr t) 0 psr) := by
      have e1 := congrArg Node.keys hn
      have e2 := congrArg Node.kids hn
      have e3 := congrArg Node.size hn
      simp only [mkG, keysL_nil, List.nil_append, tot_nil, Nat.zero_add] at e1 e2 e3
      have e2 : Node.kids t = c :: kidsOf psr := e2
      simp only [relabelT, mkG, keysL_nil, List.nil_append, tot_nil, Nat.zero_add, szN_relabel, k6, e1, e2, e3, k1,
        List.map_cons, k2]
      rfl
    have hrep : Rep M lo (relabelT f t) (runsT (relabelT f c) ++ entsR (relabelItems f (Node.ptr t) 0 psr)) := by
      rw [e]
      exact ⟨_, _, _, rfl, hc'.1, k3, rfl, by omega, by omega⟩
    rw [hrep.runs]
    refine ⟨hrep, ?_⟩
    simp only [List.map_append, hc'.2, k4]

end

/-- A tree with the references of its keys replaced. -/
def RleTree.relabel (f : Nat → Nat → Option Nat → Option Nat) (t : RleTree I S) : RleTree I S :=
  ⟨t.root.map fun r => { r with tree := relabelT f r.tree }⟩

theorem total_congr {a b : List (Ent S)} (h : a.map (fun e => (e.size, e.slice)) = b.map (fun e => (e.size, e.slice))) :
    total a = total b := by
  have := congrArg (List.map Prod.fst) h
  simp only [List.map_map, Function.comp_def] at this
  simp [total, this]

theorem Holds.relabel {E : Env Nat S} {t : RleTree Nat S} {es : List (Ent S)} (f : Nat → Nat → Option Nat → Option Nat)
    (h : Holds E t es) : Holds E (t.relabel f) (t.relabel f).runs ∧
      (t.relabel f).runs.map (fun e => (e.size, e.slice)) = es.map (fun e => (e.size, e.slice)) := by
  obtain ⟨root⟩ := t
  obtain ⟨hp, h⟩ := h
  cases root with
  | none => simp only at h; subst h; exact ⟨⟨Pos.nil, rfl⟩, rfl⟩
  | some r =>
    simp only at h
    obtain ⟨h1, h2⟩ := h.1.relabel (f := f)
    have hl := congrArg List.length h2
    simp only [List.length_map] at hl
    refine ⟨⟨?_, h1, ?_⟩, h2⟩
    · intro e he
      have h3 := congrArg (List.map Prod.fst) h2
      simp only [List.map_map, Function.comp_def] at h3
      have h4 : e.size ∈ es.map (·.size) := by rw [← h3]; exact List.mem_map_of_mem he
      obtain ⟨e', h5, h6⟩ := List.mem_map.1 h4
      rw [← h6]; exact hp e' h5
    · exact h.2.trans hl.symm

end Sherman
