import Verif.Own
import Mathlib.Algebra.BigOperators.Group.Multiset.Basic
/-!
# Parent links during an insertion

Every node of a tree stores the address of its parent and its index there.  The model records all accesses to these fields
(`World.links`); this file gives them a meaning (`runLinks`: a map from addresses to stored links, where an access that does
not find what the code relies on is undefined behaviour) and follows them through the operations on single nodes.

`Lk md L0 w F`: replaying the accesses made so far from the links `L0` succeeds and leaves the links in a state that agrees with
the facts `F`.  Every step of an insertion turns the facts of the nodes it was given into those of the nodes it returns.
-/
namespace Sherman
variable {I S C : Type}

/-- The stored parent links: for every address the parent's address and the index there, `none` for `parent: None`.
src/tree/node.rs:440-469 -/
abbrev LinkMap := Nat → Option (Nat × Nat)

/-- Overwrite the link of node `c`.  src/tree/node.rs:457-469 -/
def LinkMap.put (L : LinkMap) (c : Nat) (v : Option (Nat × Nat)) : LinkMap := fun q => if q = c then v else L q

/-- What an operation finds of the nodes' reference counts: whether the parameter allows sharing (`P::COW`), and the nodes that
have more than one owner (`is_unique` is false).  src/param.rs:52, 183-190 -/
structure Sharing where
  cow : Bool
  sh : Nat → Bool

/-- Parameters that do not share nodes: `NoFeatures`, `AllowSliceRefs`.  src/param.rs:268-296 -/
def Sharing.unshared : Sharing := ⟨false, fun _ => false⟩

/-- One access.  A read that does not find the parent the code goes on with is undefined behaviour (the code makes a node
from the pointer it finds, or calls `unwrap_unchecked`).  Most writes to a child are left out if its
`strong_count` is not unique; `set` writes through a `UniqueOwned` handle without looking, so that a shared node there would be
written behind its other owner's back.
src/tree/node.rs:967-983, 1389-1390, 1541-1552, 1701-1704, 1745-1763, 2325-2330, 2544-2563 -/
def runLink (σ : Sharing) (L : LinkMap) : LinkCmd → R LinkMap
  | .new c => .ok (L.put c none)
  | .set c p i => if σ.sh c then .error (.ub "write to a shared node") else .ok (L.put c (some (p, i)))
  | .setOwned c p i => if σ.sh c then .ok L else .ok (L.put c (some (p, i)))
  | .index c p i =>
    if σ.sh c then .ok L
    else if σ.cow then .ok (L.put c (some (p, i)))
    else .ok (L.put c ((L c).map fun x => (x.1, i)))
  | .up c p i => if L c = some (p, i) then .ok L else .error (.ub "into_parent: wrong parent")
  | .top c => if L c = none then .ok L else .error (.ub "parent expected to be None")

/-- The accesses of an operation, in order.  src/tree/node.rs:457-469 -/
def runLinks (σ : Sharing) (L : LinkMap) (l : List LinkCmd) : R LinkMap := l.foldlM (runLink σ) L

/-- The nodes whose links are known to be right (`tr`): all nodes, if nothing is shared; with sharing those on the way to the
place of an insertion, and new ones. -/
structure Mode extends Sharing where
  tr : Nat → Prop
  own : ∀ c, tr c → sh c = false
  solo : cow = false → ∀ c, tr c

/-- Nothing is shared. -/
def Mode.unshared : Mode := ⟨Sharing.unshared, fun _ => True, fun _ _ => rfl, fun _ _ => trivial⟩

/-- What is known of the nodes at hand. -/
inductive Fact where
  /-- node `c` is child `i` of the node at `p` and its link says so -/
  | child (c p i : Nat)
  /-- node `c` has no parent and its link says so -/
  | orphan (c : Nat)
  /-- a node with `k` keys has `n` children, where `k + 1 = n` -/
  | arity (k n : Nat)
  /-- the node at `a` is tracked -/
  | track (a : Option Nat)
  deriving DecidableEq

/-- The node whose link a fact is about. -/
def Fact.owner : Fact → Multiset Nat
  | .child c _ _ => {c}
  | .orphan c => {c}
  | .arity _ _ => 0
  | .track _ => 0

/-- A fact agrees with the stored links `L`.  The link of a child that is not tracked may also be as it was in the beginning
(`L0`); that of a shared child is. -/
def Fact.Holds (md : Mode) (L0 L : LinkMap) : Fact → Prop
  | .child c p i => (md.sh c = false ∧ L c = some (p, i)) ∨ (¬ md.tr c ∧ L c = L0 c)
  | .orphan c => L c = none ∧ md.tr c
  | .arity k n => k + 1 = n
  | .track a => ∀ c, a = some c → md.tr c

/-- Addresses of the nodes that some facts are about. -/
def owners (F : Multiset Fact) : Multiset Nat := (F.map Fact.owner).sum

@[simp] theorem owners_zero : owners 0 = 0 := rfl
@[simp] theorem owners_add (F G : Multiset Fact) : owners (F + G) = owners F + owners G := by
  simp [owners]
@[simp] theorem owners_child (c p i : Nat) : owners {.child c p i} = {c} := by simp [owners, Fact.owner]
@[simp] theorem owners_orphan (c : Nat) : owners {.orphan c} = {c} := by simp [owners, Fact.owner]
@[simp] theorem owners_arity (k n : Nat) : owners {.arity k n} = 0 := by simp [owners, Fact.owner]

@[simp] theorem owners_track (a : Option Nat) : owners {.track a} = 0 := by simp [owners, Fact.owner]

theorem owner_mem {F : Multiset Fact} {f : Fact} {c : Nat} (h : f ∈ F) (hc : c ∈ f.owner) : c ∈ owners F := by
  obtain ⟨G, rfl⟩ := Multiset.exists_cons_of_mem h
  simp only [owners, Multiset.map_cons, Multiset.sum_cons, Multiset.mem_add]
  exact .inl hc

/-- The facts agree with what was stored, for distinct nodes whose addresses have been handed out.  The links of all other
nodes are as in the beginning. -/
structure Lk (md : Mode) (L0 : LinkMap) (w : World) (F : Multiset Fact) : Prop where
  run : ∃ L, runLinks md.toSharing L0 w.links = .ok L ∧ (∀ f ∈ F, f.Holds md L0 L) ∧ ∀ c, c ∉ owners F → L c = L0 c
  ids : (owners F).Nodup
  used : ∀ p ∈ owners F, p < w.next
  fresh : ∀ p, w.next ≤ p → md.tr p

/-- The link of a child that hangs at place `i` of the node at `p`; nothing for dummies. -/
def hang (a : Option Nat) (p i : Nat) : Multiset Fact :=
  match a with
  | none => 0
  | some c => {.child c p i}

/-- A node without parent. -/
def free (a : Option Nat) : Multiset Fact :=
  match a with
  | none => 0
  | some c => {.orphan c}

/-- The links of the children of the node at `p`, from child `i` on. -/
def kidF [HasPtr C] (p : Nat) : Nat → List C → Multiset Fact
  | _, [] => 0
  | i, c :: cs => hang (HasPtr.addr c) p i + kidF p (i + 1) cs

/-- The links below a node, given those below its children. -/
def nodeF [HasPtr C] (fc : C → Multiset Fact) (n : Node I S C) : Multiset Fact :=
  {.arity n.keys.length n.kids.length} + kidF n.ptr 0 n.kids + (n.kids.map fc).sum

open Classical in
/-- The links below the root of a tree, as far as the nodes are tracked. -/
noncomputable def treeF (tr : Nat → Prop) : {h : Nat} → Tree I S h → Multiset Fact
  | 0, _ => 0
  | _ + 1, n => if tr (Node.ptr n) then nodeF (treeF tr) n else 0

/-- The links below a node that is being worked on. -/
noncomputable def actF (tr : Nat → Prop) {h : Nat} (n : Tree I S (h + 1)) : Multiset Fact := nodeF (treeF tr) n

theorem treeF_act {tr : Nat → Prop} {h : Nat} {n : Tree I S (h + 1)} (e : tr (Node.ptr n)) : treeF tr n = actF tr n := if_pos e

/-- The links around a subtree whose root is at `a`, its own included. -/
noncomputable def Ctx.F (tr : Nat → Prop) {Ht : Nat} : {h : Nat} → Ctx I S Ht h → Option Nat → Multiset Fact
  | _, .top, a => free a
  | _, .frame ptr _ keys kl kr up, a =>
    {.arity keys.length (kl.length + 1 + kr.length)} + kidF ptr 0 kl + hang a ptr kl.length + kidF ptr (kl.length + 1) kr +
      (kl.map (treeF tr)).sum + (kr.map (treeF tr)).sum + up.F tr (some ptr)

/-- Either kind of link of a node. -/
def Slot (a : Option Nat) (X : Multiset Fact) : Prop := X = free a ∨ ∃ p i, X = hang a p i

theorem Slot.free (a : Option Nat) : Slot a (free a) := .inl rfl
theorem Slot.hang (a : Option Nat) (p i : Nat) : Slot a (hang a p i) := .inr ⟨p, i, rfl⟩

/-- The node in question. -/
def ownerOf (a : Option Nat) : Multiset Nat :=
  match a with
  | none => 0
  | some c => {c}

theorem Slot.owners {a : Option Nat} {X : Multiset Fact} (h : Slot a X) : owners X = ownerOf a := by
  rcases h with rfl | ⟨p, i, rfl⟩ <;> cases a <;> simp [Sherman.free, Sherman.hang, ownerOf]

section
variable {md : Mode} {L0 : LinkMap} {w w' : World} {F G X : Multiset Fact}

theorem Lk.congr (h : Lk md L0 w F) (e : F = G) : Lk md L0 w G := by
  subst e; exact h

/-- Only the accesses to links and the counter of addresses matter. -/
theorem Lk.world (h : Lk md L0 w F) (e1 : w'.links = w.links) (e2 : w'.next = w.next) : Lk md L0 w' F := by
  obtain ⟨a, b, c, d⟩ := h
  exact ⟨by rw [e1]; exact a, b, by rw [e2]; exact c, by rw [e2]; exact d⟩

theorem runLinks_snoc {σ : Sharing} {L : LinkMap} {l : List LinkCmd} {c : LinkCmd} (h : runLinks σ L0 l = .ok L) :
    runLinks σ L0 (l ++ [c]) = runLink σ L c := by
  simp only [runLinks, List.foldlM_append] at h ⊢
  rw [h]
  simp only [R.bind_ok, List.foldlM_cons, List.foldlM_nil]
  cases runLink σ L c <;> rfl

theorem Fact.Holds.put {L : LinkMap} {f : Fact} {c : Nat} {v : Option (Nat × Nat)} (h : f.Holds md L0 L) (hc : c ∉ f.owner) :
    f.Holds md L0 (L.put c v) := by
  cases f with
  | child q p i =>
    have : q ≠ c := fun e => hc (by simp [Fact.owner, e])
    simpa [Fact.Holds, LinkMap.put, this] using h
  | orphan q =>
    have : q ≠ c := fun e => hc (by simp [Fact.owner, e])
    simpa [Fact.Holds, LinkMap.put, this] using h
  | arity => exact h
  | track => exact h

/-- A new node has no parent. -/
theorem Lk.alloc (h : Lk md L0 w F) : Lk md L0 w.alloc (free (some w.next) + F) := by
  obtain ⟨⟨L, a1, a2, a3⟩, b, c, d⟩ := h
  refine ⟨⟨L.put w.next none, ?_, ?_, ?_⟩, ?_, ?_, ?_⟩
  · simp only [World.alloc]
    rw [runLinks_snoc a1]
    rfl
  · intro f hf
    simp only [free, Multiset.mem_add, Multiset.mem_singleton] at hf
    rcases hf with rfl | hf
    · simp [Fact.Holds, LinkMap.put, d _ (Nat.le_refl _)]
    · exact (a2 f hf).put fun hc => Nat.lt_irrefl _ (c _ (owner_mem hf hc))
  · intro q hq
    simp only [free, owners_add, owners_orphan, Multiset.mem_add, Multiset.mem_singleton, not_or] at hq
    simp only [LinkMap.put, hq.1, if_false]
    exact a3 q hq.2
  · simp only [free, owners_add, owners_orphan]
    rw [Multiset.singleton_add, Multiset.nodup_cons]
    exact ⟨fun hm => Nat.lt_irrefl _ (c _ hm), b⟩
  · intro p hp
    simp only [free, owners_add, owners_orphan, Multiset.mem_add, Multiset.mem_singleton, World.alloc] at hp ⊢
    rcases hp with rfl | hp
    · omega
    · have := c p hp; omega
  · intro p hp
    simp only [World.alloc] at hp
    exact d p (by omega)

theorem LinkMap.put_same (L : LinkMap) (c : Nat) : L.put c (L c) = L := by
  funext q
  simp only [LinkMap.put]
  split
  · rename_i e; rw [e]
  · rfl

/-- Changing the link of one node. -/
theorem Lk.change {a : Option Nat} {f : Nat → LinkCmd} {Y : Multiset Fact} (h : Lk md L0 w (X + F)) (hX : Slot a X) (hY : Slot a Y)
    (hr : ∀ L c, a = some c → (∀ x ∈ X, x.Holds md L0 L) →
      ∃ v, runLink md.toSharing L (f c) = .ok (L.put c v) ∧ ∀ y ∈ Y, y.Holds md L0 (L.put c v)) :
    Lk md L0 (w.link a f) (Y + F) := by
  have hown : owners (X + F) = owners (Y + F) := by
    rw [owners_add, owners_add, hX.owners, hY.owners]
  obtain ⟨⟨L, a1, a2, a3⟩, b, c, d⟩ := h
  cases a with
  | none =>
    have e : Y = X := by
      rcases hX with rfl | ⟨_, _, rfl⟩ <;> rcases hY with rfl | ⟨_, _, rfl⟩ <;> rfl
    rw [e]
    exact ⟨⟨L, a1, a2, a3⟩, b, c, d⟩
  | some q =>
    obtain ⟨v, r1, r2⟩ := hr L q rfl fun x hx => a2 x (Multiset.mem_add.mpr (.inl hx))
    refine ⟨⟨L.put q v, ?_, ?_, ?_⟩, hown ▸ b, ?_, d⟩
    · simp only [World.link]
      rw [runLinks_snoc a1, r1]
    · intro g hg
      rcases Multiset.mem_add.mp hg with hg | hg
      · exact r2 g hg
      · refine (a2 g (Multiset.mem_add.mpr (.inr hg))).put fun hc => ?_
        rw [owners_add, hX.owners, ownerOf, Multiset.singleton_add, Multiset.nodup_cons] at b
        exact b.1 (owner_mem hg hc)
    · intro p hp
      rw [← hown] at hp
      have hne : p ≠ q := fun e => hp (by rw [owners_add, hX.owners, ownerOf, e]; simp)
      simp only [LinkMap.put, hne, if_false]
      exact a3 p hp
    · intro p hp
      rw [← hown] at hp
      exact c p hp

/-- Both fields of the link of a node without parent are written. -/
theorem Lk.set {a : Option Nat} (p i : Nat) (h : Lk md L0 w (free a + F)) :
    Lk md L0 (w.link a fun q => .set q p i) (hang a p i + F) := by
  refine h.change (.free a) (.hang a p i) fun L c ha hx => ⟨some (p, i), ?_, ?_⟩
  · subst ha
    have := md.own c (hx (.orphan c) (by simp [free])).2
    simp [runLink, this]
  · subst ha
    have := md.own c (hx (.orphan c) (by simp [free])).2
    simp [hang, Fact.Holds, LinkMap.put, this]

/-- Both fields of a link are written, unless the node is shared. -/
theorem Lk.setOwned {a : Option Nat} (p i : Nat) (h : Lk md L0 w (X + F)) (hX : Slot a X) :
    Lk md L0 (w.link a fun q => .setOwned q p i) (hang a p i + F) := by
  refine h.change hX (.hang a p i) fun L c ha hx => ?_
  subst ha
  cases hs : md.sh c with
  | false => exact ⟨some (p, i), by simp [runLink, hs], by simp [hang, Fact.Holds, LinkMap.put, hs]⟩
  | true =>
    refine ⟨L c, by simp [runLink, hs, LinkMap.put_same], ?_⟩
    have ht : ¬ md.tr c := fun e => by simp [md.own c e] at hs
    rw [LinkMap.put_same]
    rcases hX with rfl | ⟨p', i', rfl⟩
    · exact absurd (hx (.orphan c) (by simp [free])).2 ht
    · rcases hx (.child c p' i') (by simp [hang]) with e | e
      · simp [e.1] at hs
      · simp [hang, Fact.Holds, e]

/-- Only the index is written; with sharing both fields, unless the node is shared. -/
theorem Lk.index {a : Option Nat} {p i : Nat} (j : Nat) (h : Lk md L0 w (hang a p i + F)) :
    Lk md L0 (w.link a fun q => .index q p j) (hang a p j + F) := by
  refine h.change (.hang a p i) (.hang a p j) fun L c ha hx => ?_
  subst ha
  have := hx (.child c p i) (by simp [hang])
  simp only [Fact.Holds] at this
  cases hs : md.sh c with
  | false =>
    cases hc : md.cow with
    | true => exact ⟨some (p, j), by simp [runLink, hs, hc], by simp [hang, Fact.Holds, LinkMap.put, hs]⟩
    | false =>
      have ht := md.solo hc c
      have e : L c = some (p, i) := by simpa [ht, hs] using this
      exact ⟨some (p, j), by simp [runLink, hs, hc, e], by simp [hang, Fact.Holds, LinkMap.put, hs]⟩
  | true =>
    refine ⟨L c, by simp [runLink, hs, LinkMap.put_same], ?_⟩
    rw [LinkMap.put_same]
    rcases this with e | e
    · simp [e.1] at hs
    · simp [hang, Fact.Holds, e]

/-- The way up from a tracked node finds the parent. -/
theorem Lk.up {a : Option Nat} {p i : Nat} (h : Lk md L0 w (hang a p i + F)) (ht : ∀ c, a = some c → md.tr c) :
    Lk md L0 (w.link a fun q => .up q p i) (hang a p i + F) := by
  refine h.change (.hang a p i) (.hang a p i) fun L c ha hx => ⟨L c, ?_, ?_⟩
  · have ht := ht c ha
    subst ha
    have := hx (.child c p i) (by simp [hang])
    simp only [Fact.Holds, ht, not_true_eq_false, false_and, or_false] at this
    rw [LinkMap.put_same]
    simp [runLink, this.2]
  · rw [LinkMap.put_same]; exact hx

/-- The way up ends at a node without parent. -/
theorem Lk.top {a : Option Nat} (h : Lk md L0 w (free a + F)) : Lk md L0 (w.link a .top) (free a + F) := by
  refine h.change (.free a) (.free a) fun L c ha hx => ⟨L c, ?_, ?_⟩
  · subst ha
    have := hx (.orphan c) (by simp [free])
    simp only [Fact.Holds] at this
    rw [LinkMap.put_same]
    simp [runLink, this.1]
  · rw [LinkMap.put_same]; exact hx

section
variable [HasPtr C]

theorem Lk.linkFrom {p0 i0 : Nat} {ks : List C} (p i : Nat) (h : Lk md L0 w (kidF p0 i0 ks + F)) :
    Lk md L0 (Sherman.linkFrom p i ks w) (kidF p i ks + F) := by
  induction ks generalizing i i0 w F with
  | nil => exact h
  | cons k ks ih =>
    simp only [kidF, Sherman.linkFrom] at h ⊢
    have h1 := Lk.setOwned (F := kidF p0 (i0 + 1) ks + F) p i (h.congr (by ac_rfl)) (.hang _ p0 i0)
    have h2 := ih (i + 1) (i0 := i0 + 1) (F := hang (HasPtr.addr k) p i + F) (h1.congr (by ac_rfl))
    exact h2.congr (by ac_rfl)

theorem Lk.indexFrom {p i0 : Nat} {ks : List C} (i : Nat) (h : Lk md L0 w (kidF p i0 ks + F)) :
    Lk md L0 (Sherman.indexFrom p i ks w) (kidF p i ks + F) := by
  induction ks generalizing i i0 w F with
  | nil => exact h
  | cons k ks ih =>
    simp only [kidF, Sherman.indexFrom] at h ⊢
    have h1 := Lk.index (F := kidF p (i0 + 1) ks + F) i (h.congr (by ac_rfl))
    have h2 := ih (i + 1) (i0 := i0 + 1) (F := hang (HasPtr.addr k) p i + F) (h1.congr (by ac_rfl))
    exact h2.congr (by ac_rfl)

theorem kidF_append (p i : Nat) (a b : List C) : kidF p i (a ++ b) = kidF p i a + kidF p (i + a.length) b := by
  induction a generalizing i with
  | nil => simp [kidF]
  | cons k ks ih =>
    simp only [List.cons_append, kidF, ih, List.length_cons]
    rw [show i + 1 + ks.length = i + (ks.length + 1) by omega]
    ac_rfl

end

theorem update_links (r : Option Nat) (p i : Nat) (w : World) : (w.update r p i).links = w.links ∧ (w.update r p i).next = w.next := by
  cases r <;> exact ⟨rfl, rfl⟩

theorem suspend_links (r : Option Nat) (w : World) : (w.suspend r).links = w.links ∧ (w.suspend r).next = w.next := by
  cases r <;> exact ⟨rfl, rfl⟩

theorem updateFrom_links (p i : Nat) (ks : List (Key I S)) (w : World) :
    (updateFrom p i ks w).links = w.links ∧ (updateFrom p i ks w).next = w.next := by
  induction ks generalizing i w with
  | nil => exact ⟨rfl, rfl⟩
  | cons k ks ih =>
    simp only [updateFrom]
    rw [(ih _ _).1, (ih _ _).2]
    exact update_links _ _ _ _

theorem Lk.update (r : Option Nat) (p i : Nat) (h : Lk md L0 w F) : Lk md L0 (w.update r p i) F :=
  h.world (update_links ..).1 (update_links ..).2

theorem Lk.suspend (r : Option Nat) (h : Lk md L0 w F) : Lk md L0 (w.suspend r) F :=
  h.world (suspend_links ..).1 (suspend_links ..).2

theorem Lk.updateFrom (p i : Nat) (ks : List (Key I S)) (h : Lk md L0 w F) : Lk md L0 (updateFrom p i ks w) F :=
  h.world (updateFrom_links ..).1 (updateFrom_links ..).2

theorem emit_links {cb : Cb} {ev : Ev} (h : emit cb ev w = .ok w') : w'.links = w.links ∧ w'.next = w.next := by
  refine ⟨?_, (emit_world h).2⟩
  simp only [emit, bind_ok_iff] at h
  obtain ⟨w1, h1, h2⟩ := h
  cases h2
  have e1 : w1.links = w.links := by
    unfold emitFst at h1
    split at h1
    · split at h1
      · cases h1; rfl
      · split at h1
        · simp only [bind_ok_iff] at h1
          obtain ⟨_, _, h1⟩ := h1
          cases h1; rfl
        · cases h1; rfl
      · cases h1; rfl
    · cases h1; rfl
  rw [← e1]
  unfold emitRec
  split <;> rfl

theorem Lk.emit {cb : Cb} {ev : Ev} (ho : Lk md L0 w F) (h : emit cb ev w = .ok w') : Lk md L0 w' F :=
  ho.world (emit_links h).1 (emit_links h).2

theorem Lk.emitKey {cb : Cb} {b : Bool} {n : Node I S C} {k : Nat} (ho : Lk md L0 w F) (h : emitKey cb b n k w = .ok w') : Lk md L0 w' F := by
  simp only [Sherman.emitKey, bind_ok_iff] at h
  obtain ⟨_, _, h⟩ := h
  split at h
  · exact ho.emit h
  · exact ho.emit h

theorem Lk.arity {k n : Nat} (h : Lk md L0 w ({.arity k n} + F)) : k + 1 = n := by
  obtain ⟨⟨L, _, a, _⟩, _, _, _⟩ := h
  exact a (.arity k n) (by simp)

/-- The node keeps its number of keys, its children and its address. -/
theorem SameRefs.nodeF [HasPtr C] {fc : C → Multiset Fact} {a b : Node I S C} (h : SameRefs a b) :
    nodeF fc a = nodeF fc b := by
  obtain ⟨h1, h2, h3⟩ := h
  have : a.keys.length = b.keys.length := by simpa using congrArg List.length h2
  simp only [Sherman.nodeF, h1, h3, this]

section
variable [HasPtr C] {fc : C → Multiset Fact} {G : Option Nat → Multiset Fact}

/-- Facts are invariant under the change of the arity fact of one node. -/
theorem Lk.swap {k n k' n' : Nat} (h : Lk md L0 w ({.arity k n} + F)) (e : k' + 1 = n') : Lk md L0 w ({.arity k' n'} + F) := by
  obtain ⟨⟨L, a1, a2, a3⟩, b, c, d⟩ := h
  refine ⟨⟨L, a1, ?_, by simpa only [owners_add, owners_arity, zero_add] using a3⟩,
    by simpa only [owners_add, owners_arity, zero_add] using b, by simpa only [owners_add, owners_arity, zero_add] using c, d⟩
  intro f hf
  rcases Multiset.mem_add.mp hf with hf | hf
  · rw [Multiset.mem_singleton.mp hf]; exact e
  · exact a2 f (Multiset.mem_add.mpr (.inr hf))

/-- Which nodes are tracked does not change. -/
theorem Lk.track {a : Option Nat} (h : Lk md L0 w ({.track a} + F)) : ∀ c, a = some c → md.tr c := by
  obtain ⟨⟨L, _, a2, _⟩, _, _, _⟩ := h
  exact a2 (.track a) (by simp)

/-- A node without parent is tracked. -/
theorem Lk.orphan {a : Option Nat} (h : Lk md L0 w (Sherman.free a + F)) : ∀ c, a = some c → md.tr c := by
  obtain ⟨⟨L, _, a2, _⟩, _, _, _⟩ := h
  rintro c rfl
  exact (a2 (.orphan c) (by simp [Sherman.free])).2

theorem Lk.addTrack {a : Option Nat} (h : Lk md L0 w F) (e : ∀ c, a = some c → md.tr c) : Lk md L0 w ({.track a} + F) := by
  obtain ⟨⟨L, a1, a2, a3⟩, b, c, d⟩ := h
  refine ⟨⟨L, a1, ?_, by simpa only [owners_add, owners_track, zero_add] using a3⟩,
    by simpa only [owners_add, owners_track, zero_add] using b, by simpa only [owners_add, owners_track, zero_add] using c, d⟩
  intro f hf
  rcases Multiset.mem_add.mp hf with hf | hf
  · rw [Multiset.mem_singleton.mp hf]; exact e
  · exact a2 f hf

theorem Lk.dropTrack {a : Option Nat} (h : Lk md L0 w ({.track a} + F)) : Lk md L0 w F := by
  obtain ⟨⟨L, a1, a2, a3⟩, b, c, d⟩ := h
  exact ⟨⟨L, a1, fun f hf => a2 f (Multiset.mem_add.mpr (.inr hf)), by simpa only [owners_add, owners_track, zero_add] using a3⟩,
    by simpa only [owners_add, owners_track, zero_add] using b, by simpa only [owners_add, owners_track, zero_add] using c, d⟩

/-- A fact about the number of children of a new node. -/
theorem Lk.addArity {k n : Nat} (h : Lk md L0 w F) (e : k + 1 = n) : Lk md L0 w ({.arity k n} + F) := by
  obtain ⟨⟨L, a1, a2, a3⟩, b, c, d⟩ := h
  refine ⟨⟨L, a1, ?_, by simpa only [owners_add, owners_arity, zero_add] using a3⟩,
    by simpa only [owners_add, owners_arity, zero_add] using b, by simpa only [owners_add, owners_arity, zero_add] using c, d⟩
  intro f hf
  rcases Multiset.mem_add.mp hf with hf | hf
  · rw [Multiset.mem_singleton.mp hf]; exact e
  · exact a2 f hf

theorem Lk.same {n n' : Node I S C} (h : SameRefs n' n) (ho : Lk md L0 w (nodeF fc n + G (some n.ptr))) :
    Lk md L0 w (nodeF fc n' + G (some n'.ptr)) :=
  ho.congr (by rw [h.nodeF, h.1])

theorem Lk.insertKC {n n' : Node I S C} {mx i : Nat} {s : S} {r : Option Nat} {c : C} {pos : I}
    (h : n.insertKeyAndChild mx i s r c w = .ok (n', pos, w')) (hX : Slot (HasPtr.addr c) X)
    (ho : Lk md L0 w (nodeF fc n + fc c + X + G (some n.ptr))) : Lk md L0 w' (nodeF fc n' + G (some n'.ptr)) := by
  simp only [Node.insertKeyAndChild, bind_ok_iff] at h
  obtain ⟨_, h1, _, _, h⟩ := h
  cases h
  have hi : i ≤ n.keys.length := by
    unfold weakAssert at h1
    split at h1
    · rename_i h2; exact of_decide_eq_true h2
    · cases h1
  have har : n.keys.length + 1 = n.kids.length :=
    (ho.congr (G := {.arity n.keys.length n.kids.length} + (kidF n.ptr 0 n.kids + (n.kids.map fc).sum + fc c + X + G (some n.ptr)))
      (by simp only [nodeF]; ac_rfl)).arity
  have hk : kidF n.ptr 0 n.kids = kidF n.ptr 0 (n.kids.take (i + 1)) + kidF n.ptr (i + 1) (n.kids.drop (i + 1)) := by
    conv_lhs => rw [← List.take_append_drop (i + 1) n.kids, kidF_append]
    rw [List.length_take, Nat.min_eq_left (by omega), Nat.zero_add]
  have hsum := sum_take_drop fc n.kids (i + 1)
  have g1 := ho.updateFrom n.ptr i (⟨n.nextPos i, s, r⟩ :: n.keys.drop i)
  have g2 := (g1.congr (G := X + ({.arity n.keys.length n.kids.length} + (kidF n.ptr 0 (n.kids.take (i + 1)) +
    kidF n.ptr (i + 1) (n.kids.drop (i + 1)) + (n.kids.map fc).sum + fc c + G (some n.ptr))))
    (by simp only [nodeF, hk]; ac_rfl)).setOwned n.ptr (i + 1) hX
  have g3 := (g2.congr (G := kidF n.ptr (i + 1) (n.kids.drop (i + 1)) + ({.arity n.keys.length n.kids.length} +
    (kidF n.ptr 0 (n.kids.take (i + 1)) + hang (HasPtr.addr c) n.ptr (i + 1) + (n.kids.map fc).sum + fc c + G (some n.ptr))))
    (by ac_rfl)).indexFrom (i + 2)
  have g4 := (g3.congr (G := {.arity n.keys.length n.kids.length} + (kidF n.ptr (i + 2) (n.kids.drop (i + 1)) +
    (kidF n.ptr 0 (n.kids.take (i + 1)) + hang (HasPtr.addr c) n.ptr (i + 1) + (n.kids.map fc).sum + fc c + G (some n.ptr))))
    (by ac_rfl)).swap (k' := n.keys.length + 1) (n' := n.kids.length + 1) (by omega)
  refine g4.congr ?_
  have e1 : (n.keys.take i ++ (⟨n.nextPos i, s, r⟩ : Key I S) :: n.keys.drop i).length = n.keys.length + 1 := by
    simp; omega
  have e2 : (n.kids.take (i + 1) ++ c :: n.kids.drop (i + 1)).length = n.kids.length + 1 := by
    simp; omega
  simp only [nodeF, e1, e2, kidF_append, kidF, List.map_append, List.map_cons, List.sum_append, List.sum_cons, ← hsum,
    List.length_take, Nat.min_eq_left (show i + 1 ≤ n.kids.length by omega), Nat.zero_add]
  ac_rfl

theorem Lk.pushKC {n n' : Node I S C} {mx : Nat} {s : S} {r : Option Nat} {c : C} {z : I}
    (h : n.pushKeyAndChild mx s r c z w = .ok (n', w')) (hX : Slot (HasPtr.addr c) X)
    (ho : Lk md L0 w (nodeF fc n + fc c + X + G (some n.ptr))) : Lk md L0 w' (nodeF fc n' + G (some n'.ptr)) := by
  simp only [Node.pushKeyAndChild, bind_ok_iff] at h
  obtain ⟨_, h1, h⟩ := h
  cases h
  have har : n.keys.length + 1 = n.kids.length :=
    (ho.congr (G := {.arity n.keys.length n.kids.length} + (kidF n.ptr 0 n.kids + (n.kids.map fc).sum + fc c + X + G (some n.ptr)))
      (by simp only [nodeF]; ac_rfl)).arity
  have g2 := (ho.congr (G := X + ({.arity n.keys.length n.kids.length} + (kidF n.ptr 0 n.kids + (n.kids.map fc).sum + fc c +
    G (some n.ptr)))) (by simp only [nodeF]; ac_rfl)).setOwned n.ptr (n.len + 1) hX
  have g3 := g2.update r n.ptr n.len
  have g4 := (g3.congr (G := {.arity n.keys.length n.kids.length} + (hang (HasPtr.addr c) n.ptr (n.len + 1) +
    kidF n.ptr 0 n.kids + (n.kids.map fc).sum + fc c + G (some n.ptr)))
    (by ac_rfl)).swap (k' := n.keys.length + 1) (n' := n.kids.length + 1) (by omega)
  refine g4.congr ?_
  simp only [nodeF, kidF_append, kidF, List.map_append, List.map_cons, List.map_nil, List.sum_append, List.sum_cons, List.sum_nil,
    List.length_append, List.length_cons, List.length_nil, Nat.zero_add, ← har, Node.len, add_zero]
  ac_rfl

theorem Lk.split {n n' rhs : Node I S C} {mid : Nat} {key : Key I S}
    (h : n.split mid w = .ok (n', key, rhs, w')) (ho : Lk md L0 w (nodeF fc n + G (some n.ptr))) :
    Lk md L0 w' (nodeF fc n' + nodeF fc rhs + free (some rhs.ptr) + G (some n'.ptr)) := by
  unfold Node.split at h
  split at h
  · cases h
  · rename_i k hk
    cases h
    obtain ⟨hl, hk'⟩ := List.getElem?_eq_some_iff.mp hk
    have har : n.keys.length + 1 = n.kids.length :=
      (ho.congr (G := {.arity n.keys.length n.kids.length} + (kidF n.ptr 0 n.kids + (n.kids.map fc).sum + G (some n.ptr)))
        (by simp only [nodeF]; ac_rfl)).arity
    have hks : kidF n.ptr 0 n.kids = kidF n.ptr 0 (n.kids.take (mid + 1)) + kidF n.ptr (mid + 1) (n.kids.drop (mid + 1)) := by
      conv_lhs => rw [← List.take_append_drop (mid + 1) n.kids, kidF_append]
      rw [List.length_take, Nat.min_eq_left (by omega), Nat.zero_add]
    have hsum := sum_take_drop fc n.kids (mid + 1)
    have g1 := ((ho.alloc).updateFrom w.next 0 (n.keys.drop (mid + 1))).suspend key.ref
    have g2 := (g1.congr (G := kidF n.ptr (mid + 1) (n.kids.drop (mid + 1)) + ({.arity n.keys.length n.kids.length} +
      (kidF n.ptr 0 (n.kids.take (mid + 1)) + (n.kids.map fc).sum + free (some w.next) + G (some n.ptr))))
      (by simp only [nodeF, hks]; ac_rfl)).linkFrom w.next 0
    have g3 := (g2.congr (G := {.arity n.keys.length n.kids.length} + (kidF w.next 0 (n.kids.drop (mid + 1)) +
      (kidF n.ptr 0 (n.kids.take (mid + 1)) + (n.kids.map fc).sum + free (some w.next) + G (some n.ptr))))
      (by ac_rfl)).swap (k' := (n.keys.take mid).length) (n' := (n.kids.take (mid + 1)).length)
        (by simp only [List.length_take]; omega)
    have g4 := g3.addArity (k := (n.keys.drop (mid + 1)).length) (n := (n.kids.drop (mid + 1)).length)
      (by simp only [List.length_drop]; omega)
    refine g4.congr ?_
    simp only [nodeF, ← hsum]
    ac_rfl

theorem Lk.bubbleRoom {E : Env I S} {cb : Cb} {sz : C → I} {p : Node I S C} {c : Nat} {b : Bubble I S C} {path : List Nat}
    {r} (h : bubbleRoom E cb sz p c b path w = .ok r)
    (ho : Lk md L0 w (nodeF fc p + fc b.rhs + free (HasPtr.addr b.rhs) + G (some p.ptr))) :
    Lk md L0 r.2.2.2.2.2 (nodeF fc r.1 + G (some r.1.ptr)) := by
  simp only [Sherman.bubbleRoom, bind_ok_iff] at h
  obtain ⟨_, _, _, _, _, _, ⟨n1, _, w1⟩, h1, _, _, _, h2, _, h3, h⟩ := h
  cases h
  exact ((Lk.insertKC h1 (.free _) ho).same (setKeyPos_same h2)).emitKey h3

theorem Lk.bubbleInsertHalf {E : Env I S} {cb : Cb} {sz : C → I} {p : Node I S C} {c : Nat} {b : Bubble I S C}
    {sh : Option (Shift I)} {path : List Nat} {r} (h : bubbleInsertHalf E cb sz p c b sh path w = .ok r)
    (ho : Lk md L0 w (nodeF fc p + fc b.rhs + free (HasPtr.addr b.rhs) + G (some p.ptr))) :
    Lk md L0 r.2.2 (nodeF fc r.1 + G (some r.1.ptr)) := by
  simp only [Sherman.bubbleInsertHalf, bind_ok_iff] at h
  obtain ⟨_, _, _, _, _, _, _, _, _, _, _, _, ⟨n1, _, w1⟩, h1, _, h2, _, h4, _, h3, h⟩ := h
  cases h
  exact ((Lk.insertKC h1 (.free _) ho).same ((shiftKeys_same h4).trans (setKeyPos_same h2))).emitKey h3

theorem Lk.bubbleSplit {E : Env I S} {cb : Cb} {sz : C → I} {p : Node I S C} {c : Nat} {b : Bubble I S C} {path : List Nat}
    {r} (h : bubbleSplit E cb sz p c b path w = .ok r)
    (ho : Lk md L0 w (nodeF fc p + fc b.rhs + free (HasPtr.addr b.rhs) + G (some p.ptr))) :
    Lk md L0 r.2.2 (nodeF fc r.1.lhs + nodeF fc r.1.rhs + free (some r.1.rhs.ptr) + G (some r.1.lhs.ptr)) := by
  simp only [Sherman.bubbleSplit, bind_ok_iff] at h
  obtain ⟨_, _, ⟨n1, key, rhs, w1⟩, h1, _, _, _, _, _, _, _, _, h⟩ := h
  have h2 := Lk.split (fc := fc) (G := fun a => fc b.rhs + free (HasPtr.addr b.rhs) + G a) h1 (ho.congr (by ac_rfl))
  have hsz : ∀ z, SameRefs { n1 with size := z } n1 := fun z => ⟨rfl, rfl, rfl⟩
  split at h
  · simp only [bind_ok_iff] at h
    obtain ⟨rhs', h3, h⟩ := h
    have s3 := shiftKeys_same h3
    have eF := s3.nodeF (fc := fc)
    have eP := s3.1
    split at h
    · simp only [bind_ok_iff] at h
      obtain ⟨r4, h4, h⟩ := h
      cases h
      refine (Lk.bubbleInsertHalf (fc := fc) (G := fun a => nodeF fc rhs' + free (some rhs'.ptr) + G a) h4 (h2.congr ?_)).congr ?_
      · simp only [eF, eP]; rw [(hsz key.pos).nodeF]; ac_rfl
      · simp only []; ac_rfl
    · simp only [bind_ok_iff] at h
      obtain ⟨_, _, _, _, r4, h4, h⟩ := h
      cases h
      refine (Lk.bubbleInsertHalf (fc := fc) (G := fun a => nodeF fc n1 + free a + G (some n1.ptr)) h4 (h2.congr ?_)).congr ?_
      · simp only [eF, eP]; ac_rfl
      · simp only []; rw [(hsz key.pos).nodeF]; ac_rfl
  · simp only [bind_ok_iff] at h
    obtain ⟨⟨rhs1, c0, w3⟩, h3, _, _, _, _, ⟨n2, w2⟩, h4, _, _, rhs2, h5, h⟩ := h
    cases h
    have s5 := shiftKeys_same h5
    unfold Node.replaceFirstChild at h3
    split at h3
    · cases h3
    · rename_i k0 ks hks
      cases h3
      simp only [] at s5 ⊢
      have h3 := (h2.congr (G := free (HasPtr.addr b.rhs) + (nodeF fc n1 + nodeF fc rhs + free (some rhs.ptr) + fc b.rhs +
        G (some n1.ptr))) (by ac_rfl)).set rhs.ptr 0
      refine (Lk.pushKC (fc := fc) (X := hang (HasPtr.addr c0) rhs.ptr 0)
        (G := fun a => nodeF fc { rhs with kids := b.rhs :: ks } + free (some rhs.ptr) + G a) h4 (.hang _ _ _) (h3.congr ?_)).congr ?_
      · rw [(hsz key.pos).nodeF]
        simp only [nodeF, hks, List.map_cons, List.sum_cons, kidF, List.length_cons]
        ac_rfl
      · rw [s5.nodeF, s5.1]
        simp only []
        ac_rfl

end
end
end Sherman
