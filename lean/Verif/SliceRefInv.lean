import Verif.SliceRef
import Verif.RefMoves
import Verif.LiveProps
/-!
# Borrow counts, liveness of the store and of the nodes: the invariant behind C27, C28 and C29
-/
namespace Sherman
namespace Sys
variable {S : Type} {MAX max : Nat} {E : Env Nat S}

/-- How many `SliceRef`s are alive. -/
def nref {I : Type} (s : Sys I S) : Nat := s.srefs.countP (·.isSome)

/-- How many `Borrow`s are alive. -/
def nbor {I : Type} (s : Sys I S) : Nat := s.borrows.countP (·.isSome)

/-- The state of a tree with `k` borrows. -/
def stateOf (k : Nat) : BState := if k = 0 then .notBorrowed else .immutable k false

/-- Histories in which nothing panics in the middle of an insertion, no counter reaches its maximum, and between dropping the
tree and dropping the last `Borrow` the `SliceRef`s are left alone; nor are they cloned later. -/
def Calm (MAX max : Nat) (E : Env Nat S) (s : Sys Nat S) : Call Nat S → Prop
  | .insert nop hints idx x size crash _ => size ≤ MAX ∧
      (0 < s.nbor ∨ s.st.tree.size E < idx ∨ size = 0 ∨
        (crash = false ∧ ∃ r, s.st.insert E nop hints idx x size = .ok r))
  | .makeRef _ => s.srefs.length + 1 < max
  | .cloneRef _ => s.owner = true ∧ s.srefs.length + 1 < max
  | .isValid _ => s.owner = true ∨ s.nbor = 0
  | .borrow _ _ | .range _ _ | .cursor _ _ => (s.owner = true ∨ s.nbor = 0) ∧ s.borrows.length < max
  | .cloneBorrow _ => s.borrows.length < max
  | .dropRef _ | .canBorrow _ | .dropBorrow _ | .read _ | .dropTree => True

/-- The systems that come about by such histories. -/
inductive Hist (MAX max : Nat) (E : Env Nat S) : Sys Nat S → Prop
  | start (n : Nat) : Hist MAX max E (start n)
  | step {s s' : Sys Nat S} {op : Call Nat S} {r : R (Val Nat S)} : Hist MAX max E s → Legal s op → Calm MAX max E s op →
      exec max E s op = (r, s') → Hist MAX max E s'

/-- What holds while the nodes exist. -/
structure Up (s : Sys Nat S) : Prop where
  alloc : s.alloc = .live
  root : s.st.tree.root.isSome
  weak : s.weak = s.nref
  ptr : s.root = rootPtr s.st.tree
  fresh : s.destroyed = 0
  nodup : (s.st.tree.places.map Cell.at).Nodup
  held : ∀ (j : Nat) (b : Held), s.borrows[j]? = some (some b) →
    (∃ o, s.srefs[b.sref]? = some (some o)) ∧ ∃ c ∈ s.st.tree.places, c.at = b.at_

/-- The four phases of a system. -/
inductive Inv (MAX max : Nat) (E : Env Nat S) (s : Sys Nat S) : Prop
  /-- the tree never had a root -/
  | empty : s.alloc = .absent → s.srefs = [] → s.borrows = [] → s.st.tree = ⟨none⟩ → Live MAX max E s.st [] → s.destroyed = 0 →
      Inv MAX max E s
  /-- the tree is alive -/
  | alive (ids : List Nat) : Up s → s.owner = true → s.borrow = stateOf s.nbor → Live MAX max E s.st ids →
      ids.length ≤ s.srefs.length → (∀ (i : Nat) (o : Option Nat), s.srefs[i]? = some (some o) → ∃ id ∈ ids, o = some id) → Inv MAX max E s
  /-- the tree has been dropped but there are borrows -/
  | window : Up s → s.owner = false → 0 < s.nbor → s.borrow = .immutable s.nbor true → Inv MAX max E s
  /-- the nodes have been destroyed -/
  | gone : s.owner = false → s.nbor = 0 → s.borrow = .dropped → s.destroyed = 1 → s.weak = s.nref → s.st.tree = ⟨none⟩ →
      s.alloc = (if s.nref = 0 then .freed else .live) → Inv MAX max E s

theorem countP_set_none {α : Type} {l : List (Option α)} {i : Nat} {a : α} (h : l[i]? = some (some a)) :
    l.countP (·.isSome) = (l.set i none).countP (·.isSome) + 1 := by
  induction l generalizing i with
  | nil => simp at h
  | cons x l ih =>
    cases i with
    | zero => simp at h; subst h; simp
    | succ i =>
      simp only [List.getElem?_cons_succ] at h
      simp only [List.set_cons_succ, List.countP_cons, ih h]
      omega

theorem countP_pos_of {α : Type} {l : List (Option α)} {i : Nat} {a : α} (h : l[i]? = some (some a)) :
    0 < l.countP (·.isSome) := by
  have := countP_set_none h
  omega

theorem none_alive {α : Type} {l : List (Option α)} (h : l.countP (·.isSome) = 0) {i : Nat} {a : α} (hi : l[i]? = some (some a)) :
    False := by
  have := countP_pos_of hi
  omega

theorem countP_set_some {α : Type} {l : List (Option α)} {i : Nat} {a b : α} (h : l[i]? = some (some a)) :
    (l.set i (some b)).countP (·.isSome) = l.countP (·.isSome) := by
  induction l generalizing i with
  | nil => simp at h
  | cons x l ih =>
    cases i with
    | zero => simp at h; subst h; simp
    | succ i =>
      simp only [List.getElem?_cons_succ] at h
      simp only [List.set_cons_succ, List.countP_cons, ih h]

theorem stateOf_borrow {k : Nat} (h : k + 1 ≤ max) : borrowRefs max (stateOf k) = .ok (.ok (stateOf (k + 1))) := by
  unfold stateOf
  by_cases hk : k = 0
  · subst hk; rfl
  · simp [hk, borrowRefs, h]

theorem stateOf_drop (k : Nat) : dropBorrowState (stateOf (k + 1)) = .ok (stateOf k, false) := by
  unfold stateOf
  by_cases hk : k = 0
  · subst hk; rfl
  · simp [hk, dropBorrowState]

theorem stateOf_clone {k : Nat} (h : k + 2 ≤ max) : cloneBorrowState max (stateOf (k + 1)) = .ok (stateOf (k + 2)) := by
  simp [stateOf, cloneBorrowState, h]

theorem nbor_le {I : Type} (s : Sys I S) : s.nbor ≤ s.borrows.length := List.countP_le_length
theorem nref_le {I : Type} (s : Sys I S) : s.nref ≤ s.srefs.length := List.countP_le_length

theorem rootPtr_relabel {I : Type} (t : RleTree I S) (f : Nat → Nat → Option Nat → Option Nat) : rootPtr (t.relabel f) = rootPtr t := by
  obtain ⟨_ | r⟩ := t
  · rfl
  · rfl

theorem root_relabel {I : Type} (t : RleTree I S) (f : Nat → Nat → Option Nat → Option Nat) :
    (t.relabel f).root.isSome = t.root.isSome := by
  obtain ⟨_ | r⟩ := t
  · rfl
  · rfl

/-- `make_ref` leaves the places, the root and its address as they are. -/
theorem makeRef_tree (hE : E.ix = natIdx MAX) {st st' : RefTree Nat S} {ids : List Nat} {h : Nat × Nat} {id : Nat}
    (hl : Live MAX max E st ids) (hm : st.makeRef max h = .ok (id, st')) :
    st'.tree.places.map (fun c => (c.at, c.slice)) = st.tree.places.map (fun c => (c.at, c.slice)) ∧
      rootPtr st'.tree = rootPtr st.tree ∧ st'.tree.root.isSome = st.tree.root.isSome := by
  obtain ⟨_, A, c, B, h1, h2, h3, _⟩ := makeRef_inv hE (hl.inv hE) hm
  refine ⟨by rw [h1, h3]; simp [Cell.at], ?_⟩
  simp only [RefTree.makeRef, bind_ok_iff] at hm
  obtain ⟨c, _, hm⟩ := hm
  split at hm
  · simp only [bind_ok_iff] at hm
    obtain ⟨⟨i1, rv1⟩, h1, hm⟩ := hm
    cases hm
    exact ⟨rfl, rfl⟩
  · simp only [bind_ok_iff] at hm
    obtain ⟨⟨i1, rv1⟩, h1, ⟨i2, rv2⟩, h2, hm⟩ := hm
    cases hm
    exact ⟨rootPtr_relabel _ _, root_relabel _ _⟩

/-- Reading a place only depends on the addresses and slices. -/
theorem deref_congr {I : Type} {t t' : RleTree I S} (h : t'.places.map (fun c => (c.at, c.slice)) = t.places.map (fun c => (c.at, c.slice)))
    (a : Nat × Nat) : (t'.deref a).map (·.slice) = (t.deref a).map (·.slice) := by
  unfold RleTree.deref
  generalize t'.places = l' at h ⊢
  generalize t.places = l at h ⊢
  induction l' generalizing l with
  | nil =>
    cases l with
    | nil => rfl
    | cons _ _ => simp at h
  | cons c l' ih =>
    cases l with
    | nil => simp at h
    | cons d l =>
      simp only [List.map_cons, List.cons.injEq, Prod.mk.injEq] at h
      obtain ⟨⟨h1, h2⟩, h3⟩ := h
      simp only [List.find?_cons, h1]
      by_cases hd : (d.at == a) = true
      · simp only [hd]
        show Except.ok c.slice = Except.ok d.slice
        rw [h2]
      · simp only [Bool.not_eq_true] at hd
        simp only [hd]
        exact ih l h3

theorem places_at {t t' : RleTree Nat S} (h : t'.places.map (fun c => (c.at, c.slice)) = t.places.map (fun c => (c.at, c.slice))) :
    t'.places.map Cell.at = t.places.map Cell.at := by
  have := congrArg (List.map Prod.fst) h
  simpa [List.map_map, Function.comp_def] using this

theorem mem_at {t t' : RleTree Nat S} (h : t'.places.map Cell.at = t.places.map Cell.at) {a : Nat × Nat}
    (hc : ∃ c ∈ t.places, c.at = a) : ∃ c ∈ t'.places, c.at = a := by
  obtain ⟨c, h1, h2⟩ := hc
  have : a ∈ t'.places.map Cell.at := by rw [h, ← h2]; exact List.mem_map_of_mem h1
  simpa using this

/-- An insertion that returns leaves a tree with a root. -/
theorem insert_root (hE : E.ix = natIdx MAX) {st st' : RefTree Nat S} {ids : List Nat} (hl : Live MAX max E st ids)
    {nop : Bool} {hints : List Nat} {idx : Nat} {x : S} {size : Nat} {out} (hs : size ≤ MAX) (h0 : 0 < size)
    (h : st.insert E nop hints idx x size = .ok (st', out)) : st'.tree.root.isSome := by
  have hl' := hl.insert hs h
  simp only [RefTree.insert, bind_ok_iff] at h
  obtain ⟨⟨t, o⟩, h1, rv, h2, h3⟩ := h
  cases h3
  have h4 := (insert_size hE (hl.inv hE).reach hs h1)
  have h5 := (size_eq_total hE (hl'.inv hE).reach).1
  cases hr : t.root with
  | some r => rfl
  | none =>
    exfalso
    simp only [RleTree.runs, hr] at h5
    simp at h5
    omega

end Sys
end Sherman
