import Verif.Insert
import Verif.Bound
import Mathlib.Data.Multiset.Basic
import Mathlib.Data.Multiset.MapFold
import Mathlib.Algebra.BigOperators.Group.List.Basic
import Mathlib.Algebra.Order.Group.Multiset
/-!
# Addresses and references during an insertion

`Own σ0 w P H U`: replaying the store calls made so far leaves the store in a state where every reference in `H` points to
the place given there and the references in `U` are suspended; the addresses `P` are distinct and already handed out.
Every step of an insertion turns the addresses and references of the nodes it was given into those of the nodes it returns.
-/
namespace Sherman
variable {I S C : Type}

/-- Where the reference of one key points. -/
def refH (r : Option Nat) (p i : Nat) : Multiset (Nat × Nat × Nat) :=
  match r with
  | none => 0
  | some r => {(r, p, i)}

/-- The reference of one key, suspended. -/
def refU (r : Option Nat) : Multiset Nat :=
  match r with
  | none => 0
  | some r => {r}

/-- Where the references of the keys of a node at `p` point, from key `i` on. -/
def keyH (p : Nat) : Nat → List (Key I S) → Multiset (Nat × Nat × Nat)
  | _, [] => 0
  | i, k :: ks => refH k.ref p i + keyH p (i + 1) ks

/-- Places of the references in a node, given those of its children. -/
def nodeH (hc : C → Multiset (Nat × Nat × Nat)) (n : Node I S C) : Multiset (Nat × Nat × Nat) :=
  keyH n.ptr 0 n.keys + (n.kids.map hc).sum

/-- Addresses of a node and its children. -/
def nodeP (pc : C → Multiset Nat) (n : Node I S C) : Multiset Nat := {n.ptr} + (n.kids.map pc).sum

/-- Places of the references in a tree. -/
def treeH : {h : Nat} → Tree I S h → Multiset (Nat × Nat × Nat)
  | 0, _ => 0
  | _ + 1, n => nodeH treeH n

/-- Addresses of the nodes of a tree. -/
def treeP : {h : Nat} → Tree I S h → Multiset Nat
  | 0, _ => 0
  | _ + 1, n => nodeP treeP n

/-- Places of the references around a subtree. -/
def Ctx.H {Ht : Nat} : {h : Nat} → Ctx I S Ht h → Multiset (Nat × Nat × Nat)
  | _, .top => 0
  | _, .frame ptr _ keys kl kr up => keyH ptr 0 keys + (kl.map treeH).sum + (kr.map treeH).sum + up.H

/-- Addresses of the nodes around a subtree. -/
def Ctx.P {Ht : Nat} : {h : Nat} → Ctx I S Ht h → Multiset Nat
  | _, .top => 0
  | _, .frame ptr _ _ kl kr up => {ptr} + (kl.map treeP).sum + (kr.map treeP).sum + up.P

structure Own (σ0 : Store) (w : World) (P : Multiset Nat) (H : Multiset (Nat × Nat × Nat)) (U : Multiset Nat) : Prop where
  run : ∃ σ, runLog σ0 w.log = .ok σ ∧ (∀ x ∈ H, σ x.1 = some (some x.2)) ∧ (∀ r ∈ U, σ r = some none)
  ids : (H.map Prod.fst + U).Nodup
  addrs : P.Nodup
  used : ∀ p ∈ P, p < w.next
  keep : ∀ σ, runLog σ0 w.log = .ok σ → ∀ r h, σ r = some h → r ∈ H.map Prod.fst + U

theorem Own.congr {σ0 : Store} {w : World} {P P' : Multiset Nat} {H H' : Multiset (Nat × Nat × Nat)} {U U' : Multiset Nat}
    (h : Own σ0 w P H U) (hP : P = P') (hH : H = H') (hU : U = U') : Own σ0 w P' H' U' := by
  subst hP hH hU; exact h

/-- Only the store calls and the counter of addresses matter. -/
theorem Own.world {σ0 : Store} {w w' : World} {P : Multiset Nat} {H : Multiset (Nat × Nat × Nat)} {U : Multiset Nat}
    (h : Own σ0 w P H U) (h1 : w'.log = w.log) (h2 : w'.next = w.next) : Own σ0 w' P H U := by
  obtain ⟨a, b, c, d, e⟩ := h
  exact ⟨by rw [h1]; exact a, b, c, by rw [h2]; exact d, by rw [h1]; exact e⟩

theorem runLog_snoc {σ0 σ : Store} {l : List StoreCmd} {c : StoreCmd} (h : runLog σ0 l = .ok σ) :
    runLog σ0 (l ++ [c]) = runCmd σ c := by
  simp only [runLog, List.foldlM_append] at h ⊢
  rw [h]
  simp only [List.foldlM_cons, List.foldlM_nil, R.bind_ok]
  cases runCmd σ c <;> rfl

theorem Own.link {σ0 : Store} {w : World} {P : Multiset Nat} {H : Multiset (Nat × Nat × Nat)} {U : Multiset Nat}
    (h : Own σ0 w P H U) (c f) : Own σ0 (w.link c f) P H U :=
  h.world (by cases c <;> rfl) (by cases c <;> rfl)

theorem Own.linkFrom [HasPtr C] {σ0 : Store} {w : World} {P : Multiset Nat} {H : Multiset (Nat × Nat × Nat)} {U : Multiset Nat}
    (h : Own σ0 w P H U) (p i : Nat) (ks : List C) : Own σ0 (Sherman.linkFrom p i ks w) P H U := by
  induction ks generalizing i w with
  | nil => exact h
  | cons k ks ih => exact ih (h.link _ _) _

theorem Own.indexFrom [HasPtr C] {σ0 : Store} {w : World} {P : Multiset Nat} {H : Multiset (Nat × Nat × Nat)} {U : Multiset Nat}
    (h : Own σ0 w P H U) (p i : Nat) (ks : List C) : Own σ0 (Sherman.indexFrom p i ks w) P H U := by
  induction ks generalizing i w with
  | nil => exact h
  | cons k ks ih => exact ih (h.link _ _) _

theorem Own.readUp {Ht h : Nat} {σ0 : Store} {w : World} {P : Multiset Nat} {H : Multiset (Nat × Nat × Nat)} {U : Multiset Nat}
    (ho : Own σ0 w P H U) (ctx : Ctx I S Ht h) (a : Option Nat) : Own σ0 (ctx.readUp a w) P H U := by
  induction ctx generalizing a w with
  | top => exact ho.link _ _
  | frame p z ks kl kr up ih => exact ih (ho.link _ _) _

theorem Own.alloc {σ0 : Store} {w : World} {P : Multiset Nat} {H : Multiset (Nat × Nat × Nat)} {U : Multiset Nat}
    (h : Own σ0 w P H U) : Own σ0 w.alloc ({w.next} + P) H U := by
  obtain ⟨a, b, c, d, e⟩ := h
  refine ⟨a, b, ?_, ?_, e⟩
  · rw [Multiset.singleton_add, Multiset.nodup_cons]
    exact ⟨fun hm => absurd (d _ hm) (by simp), c⟩
  · intro p hp
    rw [Multiset.singleton_add, Multiset.mem_cons] at hp
    rcases hp with rfl | hp
    · simp [World.alloc]
    · have := d p hp; simp only [World.alloc]; omega

theorem Own.update {σ0 : Store} {w : World} {P : Multiset Nat} {H : Multiset (Nat × Nat × Nat)} {U : Multiset Nat}
    {r : Option Nat} {p i : Nat} (p' i' : Nat) (h : Own σ0 w P (refH r p i + H) U) :
    Own σ0 (w.update r p' i') P (refH r p' i' + H) U := by
  cases r with
  | none => exact h
  | some r =>
    obtain ⟨⟨σ, h1, h2, h3⟩, b, c, d, e⟩ := h
    have e := e σ h1
    simp only [refH, Multiset.singleton_add, Multiset.map_cons, Multiset.cons_add, Multiset.nodup_cons,
      Multiset.mem_add, not_or] at b h2 ⊢
    refine ⟨⟨fun x => if x = r then some (some (p', i')) else σ x, ?_, ?_, ?_⟩, ?_, c, d, ?_⟩
    · have := h2 (r, p, i) (by simp)
      simp only [World.update]
      rw [runLog_snoc h1]
      simp only [runCmd]
      simp only at this
      rw [this]; rfl
    · intro x hx
      rw [Multiset.mem_cons] at hx
      rcases hx with rfl | hx
      · simp
      · have hne : x.1 ≠ r := fun e => b.1.1 (by rw [← e]; exact Multiset.mem_map_of_mem _ hx)
        simp only [if_neg hne]
        exact h2 x (by simp [hx])
    · intro x hx
      have hne : x ≠ r := fun e => b.1.2 (e ▸ hx)
      simp only [if_neg hne]; exact h3 x hx
    · simp only [Multiset.map_cons, Multiset.cons_add, Multiset.nodup_cons, Multiset.mem_add, not_or]
      exact b
    · intro σ' hσ x h hx
      simp only [World.update] at hσ
      rw [runLog_snoc h1] at hσ
      simp only [runCmd, h2 (r, p, i) (by simp)] at hσ
      cases hσ
      by_cases hxr : x = r
      · simp [hxr]
      · have := e x h (by simpa [hxr] using hx)
        simpa [hxr, refH, refU] using this

theorem Own.resume {σ0 : Store} {w : World} {P : Multiset Nat} {H : Multiset (Nat × Nat × Nat)} {U : Multiset Nat}
    {r : Option Nat} (p i : Nat) (h : Own σ0 w P H (refU r + U)) :
    Own σ0 (w.update r p i) P (refH r p i + H) U := by
  cases r with
  | none => simpa [refU, refH, World.update] using h
  | some r =>
    obtain ⟨⟨σ, h1, h2, h3⟩, b, c, d, e⟩ := h
    have e := e σ h1
    simp only [refU, refH, Multiset.singleton_add, Multiset.add_cons, Multiset.nodup_cons,
      Multiset.mem_add, not_or] at b h3 ⊢
    refine ⟨⟨fun x => if x = r then some (some (p, i)) else σ x, ?_, ?_, ?_⟩, ?_, c, d, ?_⟩
    · have := h3 r (by simp)
      simp only [World.update]
      rw [runLog_snoc h1]
      simp only [runCmd]
      rw [this]; rfl
    · intro x hx
      rw [Multiset.mem_cons] at hx
      rcases hx with rfl | hx
      · simp
      · have hne : x.1 ≠ r := fun e => b.1.1 (by rw [← e]; exact Multiset.mem_map_of_mem _ hx)
        simp only [if_neg hne]
        exact h2 x hx
    · intro x hx
      have hne : x ≠ r := fun e => b.1.2 (e ▸ hx)
      simp only [if_neg hne]; exact h3 x (by simp [hx])
    · simp only [Multiset.map_cons, Multiset.cons_add, Multiset.nodup_cons, Multiset.mem_add, not_or]
      exact b
    · intro σ' hσ x h hx
      simp only [World.update] at hσ
      rw [runLog_snoc h1] at hσ
      simp only [runCmd, h3 r (by simp)] at hσ
      cases hσ
      by_cases hxr : x = r
      · simp [hxr]
      · have := e x h (by simpa [hxr] using hx)
        simpa [hxr, refH, refU] using this

theorem Own.suspend {σ0 : Store} {w : World} {P : Multiset Nat} {H : Multiset (Nat × Nat × Nat)} {U : Multiset Nat}
    {r : Option Nat} {p i : Nat} (h : Own σ0 w P (refH r p i + H) U) :
    Own σ0 (w.suspend r) P H (refU r + U) := by
  cases r with
  | none => simpa [refU, refH, World.suspend] using h
  | some r =>
    obtain ⟨⟨σ, h1, h2, h3⟩, b, c, d, e⟩ := h
    have e := e σ h1
    simp only [refU, refH, Multiset.singleton_add, Multiset.add_cons, Multiset.map_cons, Multiset.cons_add,
      Multiset.nodup_cons, Multiset.mem_add, not_or] at b h2 ⊢
    refine ⟨⟨fun x => if x = r then some none else σ x, ?_, ?_, ?_⟩, ?_, c, d, ?_⟩
    · have := h2 (r, p, i) (by simp)
      simp only [World.suspend]
      rw [runLog_snoc h1]
      simp only [runCmd]
      simp only at this
      rw [this]; rfl
    · intro x hx
      have hne : x.1 ≠ r := fun e => b.1.1 (by rw [← e]; exact Multiset.mem_map_of_mem _ hx)
      simp only [if_neg hne]
      exact h2 x (by simp [hx])
    · intro x hx
      rw [Multiset.mem_cons] at hx
      rcases hx with rfl | hx
      · simp
      · have hne : x ≠ r := fun e => b.1.2 (e ▸ hx)
        simp only [if_neg hne]; exact h3 x hx
    · simp only [Multiset.add_cons, Multiset.nodup_cons, Multiset.mem_add, not_or]
      exact b
    · intro σ' hσ x h hx
      simp only [World.suspend] at hσ
      rw [runLog_snoc h1] at hσ
      simp only [runCmd, h2 (r, p, i) (by simp)] at hσ
      cases hσ
      by_cases hxr : x = r
      · simp [hxr]
      · have := e x h (by simpa [hxr] using hx)
        simpa [hxr, refH, refU] using this

theorem Own.updateFrom {σ0 : Store} {w : World} {P : Multiset Nat} {H : Multiset (Nat × Nat × Nat)} {U : Multiset Nat}
    {p i : Nat} (p' i' : Nat) {ks : List (Key I S)} (h : Own σ0 w P (keyH p i ks + H) U) :
    Own σ0 (updateFrom p' i' ks w) P (keyH p' i' ks + H) U := by
  induction ks generalizing i i' w H with
  | nil => exact h
  | cons k ks ih =>
    simp only [keyH] at h ⊢
    have h1 := (h.congr (H' := refH k.ref p i + (keyH p (i + 1) ks + H)) rfl (by ac_rfl) rfl).update p' i'
    have h2 := ih (i' := i' + 1) (h1.congr (H' := keyH p (i + 1) ks + (refH k.ref p' i' + H)) rfl (by ac_rfl) rfl)
    exact h2.congr rfl (by ac_rfl) rfl

theorem keyH_append {p i : Nat} {a b : List (Key I S)} : keyH p i (a ++ b) = keyH p i a + keyH p (i + a.length) b := by
  induction a generalizing i with
  | nil => simp [keyH]
  | cons k a ih =>
    simp only [List.cons_append, keyH, ih, List.length_cons]
    rw [Nat.add_assoc, Nat.add_comm 1, add_assoc]

theorem keyH_congr {p i : Nat} {a b : List (Key I S)} (h : a.map (·.ref) = b.map (·.ref)) : keyH p i a = keyH p i b := by
  induction a generalizing i b with
  | nil => cases b with
    | nil => rfl
    | cons => simp at h
  | cons k a ih => cases b with
    | nil => simp at h
    | cons k' b =>
      simp only [List.map_cons, List.cons.injEq] at h
      simp only [keyH, h.1, ih h.2]

/-- Two versions of a node with the same address, references and children. -/
def SameRefs (a b : Node I S C) : Prop := a.ptr = b.ptr ∧ a.keys.map (·.ref) = b.keys.map (·.ref) ∧ a.kids = b.kids

theorem SameRefs.refl (a : Node I S C) : SameRefs a a := ⟨rfl, rfl, rfl⟩

theorem SameRefs.trans {a b c : Node I S C} (h1 : SameRefs a b) (h2 : SameRefs b c) : SameRefs a c :=
  ⟨h1.1.trans h2.1, h1.2.1.trans h2.2.1, h1.2.2.trans h2.2.2⟩

theorem SameRefs.nodeH {hc : C → Multiset (Nat × Nat × Nat)} {a b : Node I S C} (h : SameRefs a b) :
    nodeH hc a = nodeH hc b := by
  simp only [Sherman.nodeH, h.1, h.2.2, keyH_congr h.2.1]

theorem SameRefs.nodeP {pc : C → Multiset Nat} {a b : Node I S C} (h : SameRefs a b) : nodeP pc a = nodeP pc b := by
  simp only [Sherman.nodeP, h.1, h.2.2]

theorem mapPos_refs {f : I → R I} {a b : List (Key I S)} (h : Node.mapPos f a = .ok b) :
    b.map (·.ref) = a.map (·.ref) := by
  induction a generalizing b with
  | nil => cases h; rfl
  | cons k a ih =>
    simp only [Node.mapPos, bind_ok_iff] at h
    obtain ⟨_, _, ks, h1, h⟩ := h
    cases h
    simp [ih h1]

theorem setKeyPossWith_same {n n' : Node I S C} {f : I → R I} {i : Nat} (h : n.setKeyPossWith f i = .ok n') :
    SameRefs n' n := by
  simp only [Node.setKeyPossWith, bind_ok_iff] at h
  obtain ⟨_, _, ks, h1, s, h2, h3⟩ := h
  cases h3
  refine ⟨rfl, ?_, rfl⟩
  simp only [List.map_append, mapPos_refs h1]
  rw [← List.map_append, List.take_append_drop]

theorem shiftKeys_same {ix : IdxOps I} {n n' : Node I S C} {incr : Bool} {i : Nat} {p o w : I}
    (h : n.shiftKeys ix incr i p o w = .ok n') : SameRefs n' n := by
  simp only [Node.shiftKeys, bind_ok_iff] at h
  obtain ⟨_, _, _, _, _, _, h⟩ := h
  split at h
  · simp only [bind_ok_iff] at h
    obtain ⟨d, _, h⟩ := h
    exact setKeyPossWith_same h
  · simp only [bind_ok_iff] at h
    obtain ⟨d, _, h⟩ := h
    exact setKeyPossWith_same h

theorem set_refs {l : List (Key I S)} {k : Nat} {key key' : Key I S} (h : l[k]? = some key) (h' : key'.ref = key.ref) :
    (l.set k key').map (·.ref) = l.map (·.ref) := by
  obtain ⟨h1, h2⟩ := List.getElem?_eq_some_iff.mp h
  rw [List.map_set, h', ← h2]
  apply List.ext_getElem
  · simp
  · intro j hj1 hj2
    rw [List.getElem_set]
    split
    · rename_i e; subst e; simp
    · rfl

theorem setKeyPos_same {n n' : Node I S C} {k : Nat} {p : I} (h : n.setKeyPos k p = .ok n') : SameRefs n' n := by
  unfold Node.setKeyPos at h
  split at h
  · cases h
  · rename_i key hk
    cases h
    exact ⟨rfl, set_refs hk rfl, rfl⟩

theorem setSlice_same {n n' : Node I S C} {k : Nat} {s : S} (h : n.setSlice k s = .ok n') : SameRefs n' n := by
  unfold Node.setSlice at h
  split at h
  · cases h
  · rename_i key hk
    cases h
    exact ⟨rfl, set_refs hk rfl, rfl⟩

section
variable {hc : C → Multiset (Nat × Nat × Nat)} {pc : C → Multiset Nat} {σ0 : Store} {w w' : World}
  {P : Multiset Nat} {H : Multiset (Nat × Nat × Nat)} {U : Multiset Nat}

theorem sum_take_drop {A : Type} [AddCommMonoid A] (f : C → A) (l : List C) (k : Nat) :
    ((l.take k).map f).sum + ((l.drop k).map f).sum = (l.map f).sum := by
  rw [← List.sum_append, ← List.map_append, List.take_append_drop]

theorem Own.insertKC [HasPtr C] {n n' : Node I S C} {mx i : Nat} {s : S} {r : Option Nat} {c : C} {pos : I}
    (h : n.insertKeyAndChild mx i s r c w = .ok (n', pos, w'))
    (ho : Own σ0 w (nodeP pc n + pc c + P) (nodeH hc n + hc c + H) (refU r + U)) :
    Own σ0 w' (nodeP pc n' + P) (nodeH hc n' + H) U := by
  simp only [Node.insertKeyAndChild, bind_ok_iff] at h
  obtain ⟨_, h1, _, _, h⟩ := h
  cases h
  have hi : i ≤ n.keys.length := by
    unfold weakAssert at h1
    split at h1
    · rename_i h2; exact of_decide_eq_true h2
    · cases h1
  have hk : keyH n.ptr 0 n.keys = keyH n.ptr 0 (n.keys.take i) + keyH n.ptr i (n.keys.drop i) := by
    conv_lhs => rw [← List.take_append_drop i n.keys, keyH_append]
    simp [Nat.min_eq_left hi]
  have hsum := sum_take_drop hc n.kids (i + 1)
  have hsumP := sum_take_drop pc n.kids (i + 1)
  simp only [Sherman.updateFrom]
  have h2 := (ho.congr (H' := keyH n.ptr i (n.keys.drop i) + (keyH n.ptr 0 (n.keys.take i) + (n.kids.map hc).sum + hc c + H))
    rfl (by simp only [nodeH, hk]; ac_rfl) rfl).resume n.ptr i
  have h3 := (h2.congr (H' := keyH n.ptr i (n.keys.drop i) + (refH r n.ptr i + (keyH n.ptr 0 (n.keys.take i) +
    (n.kids.map hc).sum + hc c + H))) rfl (by ac_rfl) rfl).updateFrom n.ptr (i + 1)
  refine ((h3.link _ _).indexFrom _ _ _).congr ?_ ?_ rfl
  · simp only [nodeP, List.map_append, List.map_cons, List.sum_append, List.sum_cons, ← hsumP]
    ac_rfl
  · simp only [nodeH, List.map_append, List.map_cons, List.sum_append, List.sum_cons, ← hsum, keyH_append, keyH,
      List.length_take, Nat.min_eq_left hi, Nat.zero_add]
    ac_rfl

theorem Own.pushKC [HasPtr C] {n n' : Node I S C} {mx : Nat} {s : S} {r : Option Nat} {c : C} {z : I}
    (h : n.pushKeyAndChild mx s r c z w = .ok (n', w'))
    (ho : Own σ0 w (nodeP pc n + pc c + P) (nodeH hc n + hc c + H) (refU r + U)) :
    Own σ0 w' (nodeP pc n' + P) (nodeH hc n' + H) U := by
  simp only [Node.pushKeyAndChild, bind_ok_iff] at h
  obtain ⟨_, h1, h⟩ := h
  cases h
  refine ((ho.link _ _).resume n.ptr n.len).congr ?_ ?_ rfl
  · simp only [nodeP, List.map_append, List.map_cons, List.sum_append, List.sum_cons, List.map_nil, List.sum_nil, add_zero]
    ac_rfl
  · simp only [nodeH, List.map_append, List.map_cons, List.sum_append, List.sum_cons, List.map_nil, List.sum_nil, add_zero,
      keyH_append, keyH, Nat.zero_add, Node.len]
    ac_rfl

theorem Own.split [HasPtr C] {n n' rhs : Node I S C} {mid : Nat} {key : Key I S}
    (h : n.split mid w = .ok (n', key, rhs, w')) (ho : Own σ0 w (nodeP pc n + P) (nodeH hc n + H) U) :
    Own σ0 w' (nodeP pc n' + nodeP pc rhs + P) (nodeH hc n' + nodeH hc rhs + H) (refU key.ref + U) := by
  unfold Node.split at h
  split at h
  · cases h
  · rename_i k hk
    cases h
    obtain ⟨hl, hk'⟩ := List.getElem?_eq_some_iff.mp hk
    have hks : keyH n.ptr 0 n.keys = keyH n.ptr 0 (n.keys.take mid) + (refH key.ref n.ptr mid +
        keyH n.ptr (mid + 1) (n.keys.drop (mid + 1))) := by
      conv_lhs => rw [← List.take_append_drop mid n.keys, keyH_append, List.drop_eq_getElem_cons hl, hk']
      simp [Nat.min_eq_left (Nat.le_of_lt hl), keyH]
    have hsum := sum_take_drop hc n.kids (mid + 1)
    have hsumP := sum_take_drop pc n.kids (mid + 1)
    have h1 := ho.alloc
    have h2 := (h1.congr (H' := keyH n.ptr (mid + 1) (n.keys.drop (mid + 1)) + (refH key.ref n.ptr mid +
      (keyH n.ptr 0 (n.keys.take mid) + (n.kids.map hc).sum + H))) rfl (by simp only [nodeH, hks]; ac_rfl) rfl).updateFrom
        w.next 0
    have h3 := (h2.congr (H' := refH key.ref n.ptr mid + (keyH w.next 0 (n.keys.drop (mid + 1)) +
      (keyH n.ptr 0 (n.keys.take mid) + (n.kids.map hc).sum + H))) rfl (by ac_rfl) rfl).suspend
    refine (h3.linkFrom _ _ _).congr ?_ ?_ rfl
    · simp only [nodeP, ← hsumP]; ac_rfl
    · simp only [nodeH, ← hsum]; ac_rfl

theorem emitRec_world {cb : Cb} {ev : Ev} : (emitRec cb ev w).log = w.log ∧ (emitRec cb ev w).next = w.next := by
  unfold emitRec
  split <;> exact ⟨rfl, rfl⟩

theorem emitFst_world {cb : Cb} {ev : Ev} (h : emitFst cb ev w = .ok w') : w'.log = w.log ∧ w'.next = w.next := by
  unfold emitFst at h
  split at h
  · split at h
    · cases h; exact ⟨rfl, rfl⟩
    · split at h
      · simp only [bind_ok_iff] at h
        obtain ⟨_, _, h⟩ := h
        cases h; exact ⟨rfl, rfl⟩
      · cases h; exact ⟨rfl, rfl⟩
    · cases h; exact ⟨rfl, rfl⟩
  · cases h; exact ⟨rfl, rfl⟩

theorem emit_world {cb : Cb} {ev : Ev} (h : emit cb ev w = .ok w') : w'.log = w.log ∧ w'.next = w.next := by
  simp only [emit, bind_ok_iff] at h
  obtain ⟨w1, h1, h2⟩ := h
  cases h2
  have e1 := emitFst_world h1
  have e2 := emitRec_world (w := w1) (cb := cb) (ev := ev)
  exact ⟨e2.1.trans e1.1, e2.2.trans e1.2⟩

theorem emitKey_world {cb : Cb} {b : Bool} {n : Node I S C} {k : Nat} (h : emitKey cb b n k w = .ok w') :
    w'.log = w.log ∧ w'.next = w.next := by
  simp only [emitKey, bind_ok_iff] at h
  obtain ⟨_, _, h⟩ := h
  split at h
  · exact emit_world h
  · exact emit_world h

theorem Own.same {n n' : Node I S C} (h : SameRefs n' n) (ho : Own σ0 w (nodeP pc n + P) (nodeH hc n + H) U) :
    Own σ0 w (nodeP pc n' + P) (nodeH hc n' + H) U :=
  ho.congr (by rw [h.nodeP]) (by rw [h.nodeH]) rfl

theorem Own.bubbleRoom [HasPtr C] {E : Env I S} {cb : Cb} {sz : C → I} {p : Node I S C} {c : Nat} {b : Bubble I S C} {path : List Nat}
    {r} (h : bubbleRoom E cb sz p c b path w = .ok r)
    (ho : Own σ0 w (nodeP pc p + pc b.rhs + P) (nodeH hc p + hc b.rhs + H) (refU b.key.ref + U)) :
    Own σ0 r.2.2.2.2.2 (nodeP pc r.1 + P) (nodeH hc r.1 + H) U := by
  simp only [Sherman.bubbleRoom, bind_ok_iff] at h
  obtain ⟨_, _, _, _, _, _, ⟨n1, _, w1⟩, h1, _, _, _, h2, _, h3, h⟩ := h
  cases h
  have e := emitKey_world h3
  exact ((ho.insertKC h1).same (setKeyPos_same h2)).world e.1 e.2

theorem Own.bubbleInsertHalf [HasPtr C] {E : Env I S} {cb : Cb} {sz : C → I} {p : Node I S C} {c : Nat} {b : Bubble I S C}
    {sh : Option (Shift I)} {path : List Nat} {r} (h : bubbleInsertHalf E cb sz p c b sh path w = .ok r)
    (ho : Own σ0 w (nodeP pc p + pc b.rhs + P) (nodeH hc p + hc b.rhs + H) (refU b.key.ref + U)) :
    Own σ0 r.2.2 (nodeP pc r.1 + P) (nodeH hc r.1 + H) U := by
  simp only [Sherman.bubbleInsertHalf, bind_ok_iff] at h
  obtain ⟨_, _, _, _, _, _, _, _, _, _, _, _, ⟨n1, _, w1⟩, h1, _, h2, _, h4, _, h3, h⟩ := h
  cases h
  have e := emitKey_world h3
  exact ((ho.insertKC h1).same ((shiftKeys_same h4).trans (setKeyPos_same h2))).world e.1 e.2

theorem Own.bubbleSplit [HasPtr C] {E : Env I S} {cb : Cb} {sz : C → I} {p : Node I S C} {c : Nat} {b : Bubble I S C} {path : List Nat}
    {r} (h : bubbleSplit E cb sz p c b path w = .ok r)
    (ho : Own σ0 w (nodeP pc p + pc b.rhs + P) (nodeH hc p + hc b.rhs + H) (refU b.key.ref + U)) :
    Own σ0 r.2.2 (nodeP pc r.1.lhs + nodeP pc r.1.rhs + P) (nodeH hc r.1.lhs + nodeH hc r.1.rhs + H)
      (refU r.1.key.ref + U) := by
  simp only [Sherman.bubbleSplit, bind_ok_iff] at h
  obtain ⟨_, _, ⟨n1, key, rhs, w1⟩, h1, _, _, _, _, _, _, _, _, h⟩ := h
  have h2 := (ho.congr (P' := nodeP pc p + (pc b.rhs + P)) (H' := nodeH hc p + (hc b.rhs + H)) (by ac_rfl) (by ac_rfl) rfl).split h1
  have hsz : ∀ z, SameRefs { n1 with size := z } n1 := fun z => ⟨rfl, rfl, rfl⟩
  split at h
  · simp only [bind_ok_iff] at h
    obtain ⟨rhs', h3, h⟩ := h
    have s3 := shiftKeys_same h3
    have eP := s3.nodeP (pc := pc)
    have eH := s3.nodeH (hc := hc)
    split at h
    · simp only [bind_ok_iff] at h
      obtain ⟨r4, h4, h⟩ := h
      cases h
      refine (Own.bubbleInsertHalf (hc := hc) (pc := pc) (P := nodeP pc rhs' + P) (H := nodeH hc rhs' + H)
        (U := refU key.ref + U) h4 (h2.congr ?_ ?_ ?_)).congr ?_ ?_ rfl <;> (try simp only [eP, eH]) <;> (try simp only [nodeP, nodeH]) <;> ac_rfl
    · simp only [bind_ok_iff] at h
      obtain ⟨_, _, _, _, r4, h4, h⟩ := h
      cases h
      refine (Own.bubbleInsertHalf (hc := hc) (pc := pc) (P := nodeP pc n1 + P) (H := nodeH hc n1 + H)
        (U := refU key.ref + U) h4 (h2.congr ?_ ?_ ?_)).congr ?_ ?_ rfl <;> (try simp only [eP, eH]) <;> (try simp only [nodeP, nodeH]) <;> ac_rfl
  · simp only [bind_ok_iff] at h
    obtain ⟨⟨rhs1, c0, w3⟩, h3, _, _, _, _, ⟨n2, w2⟩, h4, _, _, rhs2, h5, h⟩ := h
    cases h
    have s5 := shiftKeys_same h5
    unfold Node.replaceFirstChild at h3
    split at h3
    · cases h3
    · rename_i k0 ks hks
      cases h3
      simp only [] at s5 ⊢
      refine (Own.pushKC (hc := hc) (pc := pc) (P := nodeP pc { rhs with kids := b.rhs :: ks } + P)
        (H := nodeH hc { rhs with kids := b.rhs :: ks } + H)
        (U := refU b.key.ref + U) h4 ((h2.link _ _).congr ?_ ?_ ?_)).congr ?_ ?_ rfl
      · rw [(hsz _).nodeP]
        simp only [nodeP, hks, List.map_cons, List.sum_cons]
        ac_rfl
      · rw [(hsz _).nodeH]
        simp only [nodeH, hks, List.map_cons, List.sum_cons]
        ac_rfl
      · rfl
      · rw [s5.nodeP]; ac_rfl
      · rw [s5.nodeH]; ac_rfl

end
end Sherman
