import Verif.SliceRefProps
/-!
# C61: what `is_valid` and `can_borrow` foretell, and what the `try_` methods return

The documentation of `SliceRef` (src/tree/slice_ref.rs:619-661, 700-843) says: the infallible methods panic exactly if the reference is
not valid or the tree cannot be borrowed; the `try_` methods return `None` in exactly these cases; a reference found invalid is
never found valid again.  The statements here speak about the results of calls only.
-/
namespace Sherman
namespace Sys
variable {I S : Type} {MAX max : Nat}

/-- Specification: what the documentation allows a refused infallible method to say. -/
def Refusal (f : Fault) : Prop := ∃ m, f = .panic ("cannot borrow: " ++ m)

theorem refusal_msg {e : Option BorrowFailure} (h : e ≠ some .getMutAlreadyBorrowed) : Refusal (panicMsg e) := by
  cases e with
  | none => exact ⟨"slice is no longer present in the tree", rfl⟩
  | some e =>
    cases e with
    | getMutAlreadyBorrowed => exact absurd rfl h
    | getImmutAlreadyMutablyBorrowed => exact ⟨"tree is already mutably borrowed", rfl⟩
    | getImmutAlreadyDropped => exact ⟨"tree has been dropped", rfl⟩

theorem borrowRefs_failure {b : BState} {e : BorrowFailure} (h : borrowRefs max b = .ok (.error e)) : e ≠ .getMutAlreadyBorrowed := by
  rintro rfl
  cases b <;> simp only [borrowRefs] at h
  all_goals first | cases h | skip
  split at h <;> cases h

theorem tempBorrow_failure {s s' : Sys I S} {i : Nat} {e : BorrowFailure} (h : tempBorrow max s i = (.ok (.error e), s')) :
    e ≠ .getMutAlreadyBorrowed := by
  unfold tempBorrow at h
  split at h
  · cases h
  · split at h
    · cases h
    · rename_i hb
      cases h
      exact borrowRefs_failure hb
    · split at h <;> cases h

/-- Specification: how the result of an infallible method goes with the result of its `try_` version: the same value; the panic for
"nothing"; the same failure. -/
def Matches (none' : Val I S) (fallible strict : R (Val I S)) : Prop :=
  (fallible = .ok none' ∧ ∃ f, Refusal f ∧ strict = .error f) ∨ (fallible ≠ .ok none' ∧ strict = fallible)

theorem borrowRead_matches {X : Type} {E : Env I S} (s : Sys I S) (i : Nat) (read : RleTree I S → Nat × Nat → R X) (wrap : Option X → Val I S)
    (hw : ∀ x, wrap (some x) ≠ wrap none) :
    Matches (wrap none) (s.borrowRead max i false read wrap).1 (s.borrowRead max i true read wrap).1 ∧
      (s.borrowRead max i false read wrap).2 = (s.borrowRead max i true read wrap).2 := by
  unfold borrowRead
  split
  · exact ⟨.inr ⟨nofun, rfl⟩, rfl⟩
  · rename_i h
    exact ⟨.inl ⟨rfl, _, refusal_msg (by simpa using tempBorrow_failure h), rfl⟩, rfl⟩
  · split
    · exact ⟨.inr ⟨nofun, rfl⟩, rfl⟩
    · exact ⟨.inl ⟨rfl, _, refusal_msg (e := none) (by simp), rfl⟩, rfl⟩
  · split
    · exact ⟨.inr ⟨nofun, rfl⟩, rfl⟩
    · split
      · exact ⟨.inr ⟨nofun, rfl⟩, rfl⟩
      · exact ⟨.inr ⟨by simpa using hw _, rfl⟩, rfl⟩

/-- C61: in every state whatsoever an infallible method and its `try_` version do the same: they return the same value, or the `try_`
version returns `None` where the other panics with one of the documented messages; and they leave the same behind. -/
theorem try_matches {E : Env I S} (s : Sys I S) (i : Nat) :
    (Matches (.borrow none) (exec max E s (.borrow i false)).1 (exec max E s (.borrow i true)).1 ∧
      (exec max E s (.borrow i false)).2 = (exec max E s (.borrow i true)).2) ∧
    (Matches (.range none) (exec max E s (.range i false)).1 (exec max E s (.range i true)).1 ∧
      (exec max E s (.range i false)).2 = (exec max E s (.range i true)).2) ∧
    (Matches (.cursor none) (exec max E s (.cursor i false)).1 (exec max E s (.cursor i true)).1 ∧
      (exec max E s (.cursor i false)).2 = (exec max E s (.cursor i true)).2) := by
  refine ⟨?_, borrowRead_matches (E := E) s i _ _ (by simp), borrowRead_matches (E := E) s i _ _ (by simp)⟩
  show Matches _ (s.borrowSlice max i false).1 (s.borrowSlice max i true).1 ∧ _ = (s.borrowSlice max i true).2
  show _ ∧ (s.borrowSlice max i false).2 = _
  unfold borrowSlice
  split
  · exact ⟨.inr ⟨nofun, rfl⟩, rfl⟩
  · rename_i h
    exact ⟨.inl ⟨rfl, _, refusal_msg (by simpa using tempBorrow_failure h), rfl⟩, rfl⟩
  · split
    · exact ⟨.inr ⟨nofun, rfl⟩, rfl⟩
    · exact ⟨.inl ⟨rfl, _, refusal_msg (e := none) (by simp), rfl⟩, rfl⟩
  · split
    · exact ⟨.inr ⟨nofun, rfl⟩, rfl⟩
    · exact ⟨.inr ⟨by simp, rfl⟩, rfl⟩

/-! ## Any history, including panics in user code -/

/-- Every sequence of calls that the compiler accepts, with panics anywhere. -/
inductive Any (max : Nat) (E : Env I S) : Sys I S → Prop
  | start (n : Nat) : Any max E (start n)
  | step {s s' : Sys I S} {op : Call I S} {r : R (Val I S)} : Any max E s → Legal s op → exec max E s op = (r, s') → Any max E s'

/-- What can come after a state. -/
inductive Since (max : Nat) (E : Env I S) (s : Sys I S) : Sys I S → Prop
  | refl : Since max E s s
  | step {s1 s2 : Sys I S} {op : Call I S} {r : R (Val I S)} : Since max E s s1 → Legal s1 op → exec max E s1 op = (r, s2) → Since max E s s2

/-- While the tree is owned its state is none of those of a dropped tree; counts are not zero. -/
structure Sane (s : Sys I S) : Prop where
  owned : s.owner = true → s.borrow = .notBorrowed ∨ s.borrow = .mutable ∨ ∃ c, s.borrow = .immutable c false
  pos : ∀ c d, s.borrow = .immutable c d → 0 < c

/-- The `i`-th `SliceRef` was seen to be invalid. -/
def Dead (s : Sys I S) (i : Nat) : Prop :=
  s.srefs[i]? = some none ∨ s.srefs[i]? = some (some none) ∨ (s.owner = false ∧ (s.borrow = .dropping ∨ s.borrow = .dropped))

/-- How a call changes the ids: they stay or are taken out, and new ones are appended. -/
def Ids (l l' : List (Option (Option Nat))) : Prop :=
  ∀ i : Nat, (l[i]? = some none → l'[i]? = some none) ∧ (l[i]? = some (some none) → l'[i]? = some none ∨ l'[i]? = some (some none))

theorem Ids.refl (l : List (Option (Option Nat))) : Ids l l := fun _ => ⟨id, .inr⟩

theorem Ids.trans {a b c : List (Option (Option Nat))} (h : Ids a b) (h' : Ids b c) : Ids a c := by
  intro i
  refine ⟨fun g => (h' i).1 ((h i).1 g), fun g => ?_⟩
  rcases (h i).2 g with k | k
  · exact .inl ((h' i).1 k)
  · exact (h' i).2 k

theorem Ids.append (l l' : List (Option (Option Nat))) : Ids l (l ++ l') := by
  intro i
  constructor
  · intro h
    rw [List.getElem?_append_left (List.getElem?_eq_some_iff.1 h).1, h]
  · intro h
    rw [List.getElem?_append_left (List.getElem?_eq_some_iff.1 h).1, h]
    exact .inr rfl

theorem Ids.drop {l : List (Option (Option Nat))} (i : Nat) : Ids l (l.set i none) := by
  intro j
  simp only [List.getElem?_set]
  split
  · rename_i hij
    subst hij
    split
    · exact ⟨fun _ => rfl, fun _ => .inl rfl⟩
    · rename_i hlt
      rw [List.getElem?_eq_none (by omega)]
      exact ⟨nofun, nofun⟩
  · exact ⟨id, .inr⟩

theorem Ids.take {l : List (Option (Option Nat))} {i : Nat} {o : Option Nat} (h : l[i]? = some (some o)) : Ids l (l.set i (some none)) := by
  intro j
  simp only [List.getElem?_set]
  split
  · rename_i hij
    subst hij
    rw [h, if_pos (List.getElem?_eq_some_iff.1 h).1]
    exact ⟨nofun, fun _ => .inr rfl⟩
  · exact ⟨id, .inr⟩

/-- What one call may do to the parts of the state that matter here. -/
structure Goes (s s' : Sys I S) : Prop where
  ids : Ids s.srefs s'.srefs
  owner : s'.owner = true → s.owner = true
  dead : s.owner = false → (s.borrow = .dropping ∨ s.borrow = .dropped) → s'.borrow = .dropping ∨ s'.borrow = .dropped
  sane : Sane s → Sane s'

theorem Goes.refl (s : Sys I S) : Goes s s := ⟨.refl _, id, fun _ h => h, id⟩

theorem Goes.trans {a b c : Sys I S} (h : Goes a b) (h' : Goes b c) : Goes a c :=
  ⟨h.ids.trans h'.ids, fun g => h.owner (h'.owner g),
    fun g k => h'.dead (by
      cases hb : b.owner with
      | false => rfl
      | true => rw [h.owner hb] at g; cases g) (h.dead g k), fun g => h'.sane (h.sane g)⟩

/-- Changes of other fields. -/
theorem Goes.of {s s' : Sys I S} (h1 : Ids s.srefs s'.srefs) (h2 : s'.owner = s.owner) (h3 : s'.borrow = s.borrow) : Goes s s' :=
  ⟨h1, fun h => h2 ▸ h, fun _ h => h3 ▸ h, fun h => ⟨fun g => h3 ▸ h.owned (h2 ▸ g), fun c d g => h.pos c d (h3 ▸ g)⟩⟩

theorem collapse_goes (s : Sys I S) (i : Nat) : Goes s (collapse s i).2 := by
  unfold collapse
  split
  · exact .refl _
  · rename_i h
    repeat' split
    all_goals first
      | exact .refl _
      | exact .of (.take h) rfl rfl
  · exact .refl _

theorem innerDrop_goes (s : Sys I S) (b : Bool) : Goes s (innerDrop s b).2 := by
  unfold innerDrop
  dsimp only
  repeat' split
  all_goals exact .of (.refl _) rfl rfl

theorem release_goes (s : Sys I S) : Goes s (release s).2 := by
  unfold release
  split
  · exact .refl _
  · cases hb : s.borrow with
    | immutable c d =>
      simp only [dropBorrowState]
      by_cases h0 : c = 0
      · rw [if_pos h0]; exact .refl _
      rw [if_neg h0]
      by_cases h1 : c - 1 ≠ 0
      · rw [if_pos h1]
        refine ⟨.refl _, id, fun _ h => (by rw [hb] at h; rcases h with h | h <;> cases h), fun h => ⟨fun g => ?_, fun c' d' g => ?_⟩⟩
        · rcases h.owned g with k | k | ⟨c', k⟩ <;> rw [hb] at k
          · cases k
          · cases k
          · cases k
            exact .inr (.inr ⟨_, rfl⟩)
        · cases g
          omega
      · rw [if_neg h1]
        cases d with
        | true =>
          simp only [if_true]
          refine Goes.trans (b := { s with borrow := .dropped }) ?_ (innerDrop_goes _ _)
          refine ⟨.refl _, id, fun _ _ => .inr rfl, fun h => ⟨fun g => ?_, fun c' d' g => (by cases g)⟩⟩
          rcases h.owned g with k | k | ⟨c', k⟩ <;> rw [hb] at k <;> cases k
        | false =>
          refine ⟨.refl _, id, fun _ h => (by rw [hb] at h; rcases h with h | h <;> cases h), fun h => ⟨fun g => .inl rfl, fun c' d' g => (by cases g)⟩⟩
    | notBorrowed => exact .refl _
    | mutable => exact .refl _
    | dropping => exact .refl _
    | dropped => exact .refl _

theorem borrowRefs_goes {s : Sys I S} {b : BState} (h : borrowRefs max s.borrow = .ok (.ok b)) : Goes s { s with borrow := b } := by
  cases hb : s.borrow with
  | immutable c d =>
    rw [hb] at h
    simp only [borrowRefs] at h
    split at h
    · cases h
      refine ⟨.refl _, id, fun _ h => (by rw [hb] at h; rcases h with h | h <;> cases h), fun h => ⟨fun g => ?_, fun c' d' g => (by cases g; omega)⟩⟩
      rcases h.owned g with k | k | ⟨c', k⟩ <;> rw [hb] at k <;> cases k
      exact .inr (.inr ⟨_, rfl⟩)
    · cases h
  | notBorrowed =>
    rw [hb] at h
    cases h
    exact ⟨.refl _, id, fun _ h => (by rw [hb] at h; rcases h with h | h <;> cases h), fun h => ⟨fun g => .inr (.inr ⟨_, rfl⟩), fun c' d' g => (by cases g; omega)⟩⟩
  | mutable => rw [hb] at h; cases h
  | dropping => rw [hb] at h; cases h
  | dropped => rw [hb] at h; cases h

theorem tempBorrow_goes (s : Sys I S) (i : Nat) : Goes s (tempBorrow max s i).2 := by
  unfold tempBorrow
  split
  · exact .refl _
  · split
    · exact .refl _
    · exact .refl _
    · rename_i b hb
      have h1 := borrowRefs_goes hb
      have h2 := collapse_goes { s with borrow := b } i
      split
      all_goals
        rename_i hc
        rw [hc] at h2
        exact h1.trans h2

theorem borrowSlice_goes (s : Sys I S) (i : Nat) (strict : Bool) : Goes s (s.borrowSlice max i strict).2 := by
  have h1 := tempBorrow_goes (max := max) s i
  unfold borrowSlice
  split
  · rename_i h; rw [h] at h1; exact h1
  · rename_i h; rw [h] at h1; exact h1
  · rename_i s1 h
    rw [h] at h1
    have h2 := release_goes s1
    split
    all_goals
      rename_i h'
      rw [h'] at h2
      exact h1.trans h2
  · rename_i h
    rw [h] at h1
    split
    · exact h1
    · exact h1.trans (.of (.refl _) rfl rfl)

theorem borrowRead_goes {X : Type} (s : Sys I S) (i : Nat) (strict : Bool) (read : RleTree I S → Nat × Nat → R X) (wrap : Option X → Val I S) :
    Goes s (s.borrowRead max i strict read wrap).2 := by
  have h1 := tempBorrow_goes (max := max) s i
  unfold borrowRead
  split
  · rename_i h; rw [h] at h1; exact h1
  · rename_i h; rw [h] at h1; exact h1
  · rename_i s1 h
    rw [h] at h1
    have h2 := release_goes s1
    split
    all_goals
      rename_i h'
      rw [h'] at h2
      exact h1.trans h2
  · rename_i s1 h
    rw [h] at h1
    have h2 := release_goes s1
    split
    · rename_i h'
      rw [h'] at h2
      exact h1.trans h2
    · rename_i h'
      rw [h'] at h2
      split
      all_goals exact h1.trans h2

theorem storeDrop_goes {s : Sys I S} (hb : s.borrow = .dropping ∨ ∃ c, 0 < c ∧ s.borrow = .immutable c true) (ho : s.owner = false) :
    Ids s.srefs (storeDrop s).2.srefs ∧ (storeDrop s).2.owner = false ∧
      ((storeDrop s).2.borrow = .dropped ∨ ∃ c, 0 < c ∧ (storeDrop s).2.borrow = .immutable c true ∧ s.borrow = .immutable c true) := by
  rcases hb with hb | ⟨c, hc, hb⟩
  · simp only [storeDrop, hb, storeDropState, innerDrop]
    simp only [Bool.false_eq_true, if_false]
    split <;> exact ⟨.refl _, ho, .inl rfl⟩
  · simp only [storeDrop, hb, storeDropState, innerDrop]
    simp only [Bool.false_eq_true, if_false]
    split <;> exact ⟨.refl _, ho, .inr ⟨c, hc, rfl, rfl⟩⟩

theorem insert_goes {E : Env I S} {s : Sys I S} (ho : s.owner = true) (nop : Bool) (hints : List Nat) (idx : I) (x : S) (size : I) (crash : Bool)
    (junk : RefTree I S) : Goes s (s.insert E nop hints idx x size crash junk).2 := by
  have key : ∀ (st : RefTree I S) (a : Alloc) (w : Nat) (r : Option Nat) (b : BState), b = .notBorrowed ∨ b = .mutable →
      Goes s { s with st := st, alloc := a, borrow := b, weak := w, root := r } := by
    intro st a w r b hb
    refine ⟨.refl _, id, fun h => (by rw [ho] at h; cases h), fun h => ⟨fun _ => ?_, fun c d g => ?_⟩⟩
    · rcases hb with h | h
      · exact .inl h
      · exact .inr (.inl h)
    · rcases hb with h | h <;> rw [show b = _ from g] at h <;> cases h
  unfold insert
  split
  · exact .refl _
  split
  · exact .refl _
  split
  · split
    · exact .refl _
    · exact key _ _ _ _ _ (.inl rfl)
  · split
    · exact .refl _
    · cases hb : s.borrow with
      | notBorrowed =>
        simp only [acquireMutable]
        split
        · exact key _ _ _ _ _ (.inr rfl)
        · split
          · exact key _ _ _ _ _ (.inr rfl)
          · exact key _ _ _ _ _ (.inl rfl)
      | immutable c d => exact .refl _
      | mutable => exact .refl _
      | dropping => exact .refl _
      | dropped => exact .refl _

theorem dropTree_goes {s : Sys I S} (ho : s.owner = true) : Goes s (s.dropTree).2 := by
  unfold dropTree
  dsimp only
  have plain : Goes s { s with owner := false } := by
    refine ⟨.refl _, nofun, fun h => (by rw [ho] at h; cases h), fun h => ⟨nofun, h.pos⟩⟩
  split
  · exact plain
  split
  · exact plain
  cases hb : s.borrow with
  | immutable c d =>
    cases d with
    | true => rw [hb] at plain; exact plain
    | false =>
      simp only [tryAcquireDrop]
      by_cases hc : 0 < c
      · obtain ⟨h1, h2, h3⟩ := storeDrop_goes (s := { s with owner := false, borrow := .immutable c true }) (.inr ⟨c, hc, rfl⟩) rfl
        refine ⟨h1, fun h => (by rw [h2] at h; cases h), fun h => (by rw [ho] at h; cases h), fun h => ⟨fun g => (by rw [h2] at g; cases g), fun c' d' g => ?_⟩⟩
        rcases h3 with h3 | ⟨c2, h4, h3, _⟩
        · rw [h3] at g; cases g
        · rw [h3] at g; cases g; exact h4
      · refine ⟨?_, ?_, fun h => (by rw [ho] at h; cases h), fun h => absurd (h.pos c false hb) hc⟩
        · simp only [storeDrop, storeDropState, innerDrop, Bool.false_eq_true, if_false]
          split <;> exact .refl _
        · simp only [storeDrop, storeDropState, innerDrop, Bool.false_eq_true, if_false]
          split <;> exact nofun
  | notBorrowed =>
    simp only [tryAcquireDrop]
    obtain ⟨h1, h2, h3⟩ := storeDrop_goes (s := { s with owner := false, borrow := .dropping, st := { s.st with tree := ⟨none⟩ }, destroyed := s.destroyed + 1 })
      (.inl rfl) rfl
    refine ⟨h1, fun h => (by rw [h2] at h; cases h), fun h => (by rw [ho] at h; cases h), fun h => ⟨fun g => (by rw [h2] at g; cases g), fun c' d' g => ?_⟩⟩
    rcases h3 with h3 | ⟨c2, _, _, h4⟩
    · rw [h3] at g; cases g
    · cases h4
  | mutable =>
    simp only [tryAcquireDrop]
    obtain ⟨h1, h2, h3⟩ := storeDrop_goes (s := { s with owner := false, borrow := .dropping, st := { s.st with tree := ⟨none⟩ }, destroyed := s.destroyed + 1 })
      (.inl rfl) rfl
    refine ⟨h1, fun h => (by rw [h2] at h; cases h), fun h => (by rw [ho] at h; cases h), fun h => ⟨fun g => (by rw [h2] at g; cases g), fun c' d' g => ?_⟩⟩
    rcases h3 with h3 | ⟨c2, _, _, h4⟩
    · rw [h3] at g; cases g
    · cases h4
  | dropping => rw [hb] at plain; exact plain
  | dropped => rw [hb] at plain; exact plain

theorem exec_goes {E : Env I S} {s : Sys I S} {op : Call I S} (hl : Legal s op) : Goes s (exec max E s op).2 := by
  cases op with
  | insert nop hints idx x size crash junk => exact insert_goes hl nop hints idx x size crash junk
  | makeRef h =>
    show Goes s (s.makeRef max h).2
    unfold makeRef
    split
    · exact .refl _
    · split
      · exact .refl _
      · simp only [bumpWeak]
        split
        · exact .of (.refl _) rfl rfl
        · rename_i hb
          split at hb
          · cases hb
            exact .of (.append _ _) rfl rfl
          · cases hb
  | cloneRef i =>
    show Goes s (s.cloneRef max i).2
    unfold cloneRef
    split
    · exact .of (.append _ _) rfl rfl
    · rename_i hi
      split
      · exact .refl _
      · split
        · exact .of ((Ids.take hi).trans (.append _ _)) rfl rfl
        · exact .of ((Ids.take hi).trans (.append _ _)) rfl rfl
        · simp only [bumpWeak]
          split
          · exact .of (.take hi) rfl rfl
          · rename_i hb
            split at hb
            · cases hb
              split
              · exact .of (.take hi) rfl rfl
              · exact .of (.append _ _) rfl rfl
            · cases hb
    · exact .refl _
  | dropRef i =>
    show Goes s (s.dropRef i).2
    unfold dropRef
    split
    · exact .refl _
    · split
      · exact .refl _
      · dsimp only
        split <;> exact .of (.drop _) rfl rfl
  | isValid i =>
    show Goes s (s.isValid i).2
    have := collapse_goes s i
    unfold isValid
    split
    · exact .refl _
    · split
      · exact .refl _
      · exact .refl _
      · split
        all_goals
          rename_i h
          rw [h] at this
          exact this
  | canBorrow i => exact .refl _
  | borrow i strict => exact borrowSlice_goes s i strict
  | range i strict => exact borrowRead_goes s i strict _ _
  | cursor i strict => exact borrowRead_goes s i strict _ _
  | cloneBorrow j =>
    show Goes s (s.withBorrow j (s.cloneBorrow max)).2
    unfold withBorrow
    split
    · unfold cloneBorrow
      split
      · exact .refl _
      · cases hb : s.borrow with
        | immutable c d =>
          simp only [cloneBorrowState]
          by_cases hc : c + 1 ≤ max
          · rw [if_pos hc]
            refine ⟨.refl _, id, fun _ h => (by rw [hb] at h; rcases h with h | h <;> cases h), fun h => ⟨fun g => ?_, fun c' d' g => (by cases g; omega)⟩⟩
            rcases h.owned g with k | k | ⟨c', k⟩ <;> rw [hb] at k <;> cases k
            exact .inr (.inr ⟨_, rfl⟩)
          · rw [if_neg hc]
            exact .refl _
        | notBorrowed => exact .refl _
        | mutable => exact .refl _
        | dropping => exact .refl _
        | dropped => exact .refl _
    · exact .refl _
  | dropBorrow j =>
    show Goes s (s.dropBorrow j).2
    have h1 : Goes s { s with borrows := s.borrows.set j none } := .of (.refl _) rfl rfl
    have := release_goes { s with borrows := s.borrows.set j none }
    unfold dropBorrow
    split
    all_goals
      rename_i h
      rw [h] at this
      exact h1.trans this
  | read j =>
    show Goes s (s.withBorrow j _).2
    unfold withBorrow
    split <;> exact .refl _
  | dropTree => exact dropTree_goes hl

theorem Any.sane {E : Env I S} {s : Sys I S} (h : Any max E s) : Sane s := by
  induction h with
  | start n => exact ⟨fun _ => .inl rfl, fun c d g => (by cases g)⟩
  | step _ hl he ih =>
    have := (exec_goes (max := max) (E := E) hl).sane ih
    rw [he] at this
    exact this

theorem Since.goes {E : Env I S} {s s' : Sys I S} (h : Since max E s s') : Goes s s' := by
  induction h with
  | refl => exact .refl _
  | step _ hl he ih =>
    have := exec_goes (max := max) (E := E) hl
    rw [he] at this
    exact ih.trans this

theorem Dead.goes {s s' : Sys I S} {i : Nat} (h : Dead s i) (hg : Goes s s') : Dead s' i := by
  rcases h with h | h | ⟨h1, h2⟩
  · exact .inl ((hg.ids i).1 h)
  · rcases (hg.ids i).2 h with k | k
    · exact .inl k
    · exact .inr (.inl k)
  · refine .inr (.inr ⟨?_, hg.dead h1 h2⟩)
    cases hb : s'.owner with
    | false => rfl
    | true => rw [hg.owner hb] at h1; cases h1

/-- An invalid reference has no way to the tree. -/
theorem Dead.collapse {s : Sys I S} {i : Nat} (h : s.srefs[i]? = some none ∨ s.srefs[i]? = some (some none)) :
    collapse s i = (.ok none, s) ∨ ∃ f, collapse s i = (.error f, s) := by
  unfold Sys.collapse
  rcases h with h | h
  · exact .inr ⟨.ub "not a SliceRef", by simp only [h]⟩
  · exact .inl (by simp only [h])

theorem Dead.tempBorrow {s : Sys I S} {i : Nat} (h : Dead s i) {a : Nat × Nat} {s' : Sys I S} :
    Sys.tempBorrow max s i ≠ (.ok (.ok (some a)), s') := by
  intro ht
  unfold Sys.tempBorrow at ht
  split at ht
  · cases ht
  split at ht
  · cases ht
  · cases ht
  rename_i b hb
  have key : (s.srefs[i]? = some none ∨ s.srefs[i]? = some (some none)) := by
    rcases h with h | h | ⟨_, h | h⟩
    · exact .inl h
    · exact .inr h
    · rw [h] at hb; cases hb
    · rw [h] at hb; cases hb
  rcases Dead.collapse (s := { s with borrow := b }) key with hc | ⟨f, hc⟩
  · rw [hc] at ht; cases ht
  · rw [hc] at ht; cases ht

theorem Dead.isValid {s : Sys I S} {i : Nat} (h : Dead s i) {s' : Sys I S} : s.isValid i ≠ (.ok (.bool true), s') := by
  intro ht
  unfold Sys.isValid at ht
  split at ht
  · cases ht
  split at ht
  · cases ht
  · cases ht
  rename_i h1 h2
  have key : (s.srefs[i]? = some none ∨ s.srefs[i]? = some (some none)) := by
    rcases h with h | h | ⟨_, h | h⟩
    · exact .inl h
    · exact .inr h
    · exact absurd h h1
    · exact absurd h h2
  rcases Dead.collapse key with hc | ⟨f, hc⟩
  · rw [hc] at ht; cases ht
  · rw [hc] at ht; cases ht

theorem Dead.borrow {s : Sys I S} {i : Nat} (h : Dead s i) {strict : Bool} {j : Nat} {s' : Sys I S} :
    s.borrowSlice max i strict ≠ (.ok (.borrow (some j)), s') := by
  intro ht
  unfold borrowSlice at ht
  split at ht
  · cases ht
  · cases strict <;> cases ht
  · split at ht
    · cases ht
    · cases strict <;> cases ht
  · rename_i hb
    exact h.tempBorrow hb

theorem Dead.read {X : Type} {s : Sys I S} {i : Nat} (h : Dead s i) {strict : Bool} {read : RleTree I S → Nat × Nat → R X}
    {wrap : Option X → Val I S} (hw : ∀ x, wrap (some x) ≠ wrap none) {x : X} {s' : Sys I S} :
    s.borrowRead max i strict read wrap ≠ (.ok (wrap (some x)), s') := by
  intro ht
  unfold borrowRead at ht
  split at ht
  · cases ht
  · cases strict with
    | true => cases ht
    | false =>
      simp only [Bool.false_eq_true, if_false, Prod.mk.injEq, Except.ok.injEq] at ht
      exact hw _ ht.1.symm
  · split at ht
    · cases ht
    · cases strict with
      | true => cases ht
      | false =>
        simp only [Bool.false_eq_true, if_false, Prod.mk.injEq, Except.ok.injEq] at ht
        exact hw _ ht.1.symm
  · rename_i hb
    exact h.tempBorrow hb

/-- Asking and being told "no" makes the reference dead. -/
theorem dead_of_false {s s' : Sys I S} {i : Nat} (hs : Sane s) (h : s.isValid i = (.ok (.bool false), s')) : Dead s' i := by
  unfold isValid at h
  split at h
  · cases h
  · split at h
    · rename_i hb
      cases h
      refine .inr (.inr ⟨?_, .inl hb⟩)
      cases ho : s.owner with
      | false => rfl
      | true => rcases hs.owned ho with k | k | ⟨c, k⟩ <;> rw [hb] at k <;> cases k
    · rename_i hb
      cases h
      refine .inr (.inr ⟨?_, .inr hb⟩)
      cases ho : s.owner with
      | false => rfl
      | true => rcases hs.owned ho with k | k | ⟨c, k⟩ <;> rw [hb] at k <;> cases k
    · split at h
      · cases h
      · rename_i o s2 hc
        cases o with
        | some o => cases h
        | none =>
          cases h
          unfold collapse at hc
          split at hc
          · rename_i hi
            cases hc
            exact .inr (.inl hi)
          · rename_i hi
            split at hc
            · cases hc
            · cases hc
            · cases hc
            · cases hc
          · cases hc

/-- C61: a reference that was once found not to be valid is never found valid again, whatever is called in between and whatever
panics; nor can its slice, its range or its path ever be had again. -/
theorem invalid_forever {E : Env I S} {s s1 s2 : Sys I S} (h : Any max E s) {i : Nat}
    (hv : exec max E s (.isValid i) = (.ok (.bool false), s1)) (hl : Since max E s1 s2) :
    (∀ s3, exec max E s2 (.isValid i) ≠ (.ok (.bool true), s3)) ∧
    (∀ strict j s3, exec max E s2 (.borrow i strict) ≠ (.ok (.borrow (some j)), s3)) ∧
    (∀ strict r s3, exec max E s2 (.range i strict) ≠ (.ok (.range (some r)), s3)) ∧
    (∀ strict c s3, exec max E s2 (.cursor i strict) ≠ (.ok (.cursor (some c)), s3)) := by
  have hd : Dead s2 i := (dead_of_false h.sane hv).goes hl.goes
  exact ⟨fun _ => hd.isValid, fun _ _ _ => hd.borrow, fun _ _ _ => hd.read (by simp), fun _ _ _ => hd.read (by simp)⟩

/-- C61: if the tree cannot be borrowed, every `try_` method returns `None` and every infallible method panics with a documented
message; nothing changes.  In every state whatsoever. -/
theorem cannot_borrow_refused {E : Env I S} {s : Sys I S} {i : Nat} (h : (exec max E s (.canBorrow i)).1 = .ok (.bool false)) :
    exec max E s (.borrow i false) = (.ok (.borrow none), s) ∧ exec max E s (.range i false) = (.ok (.range none), s) ∧
    exec max E s (.cursor i false) = (.ok (.cursor none), s) ∧
    ∃ f, Refusal f ∧ exec max E s (.borrow i true) = (.error f, s) ∧ exec max E s (.range i true) = (.error f, s) ∧
      exec max E s (.cursor i true) = (.error f, s) := by
  have key : ∃ e, e ≠ .getMutAlreadyBorrowed ∧ tempBorrow max s i = (.ok (.error e), s) := by
    simp only [exec, canBorrow] at h
    split at h
    · cases h
    · rename_i ht
      cases hb : s.borrow with
      | notBorrowed => rw [hb] at h; cases h
      | immutable c d => rw [hb] at h; cases h
      | mutable => exact ⟨.getImmutAlreadyMutablyBorrowed, nofun, by unfold tempBorrow; rw [ht, hb]; rfl⟩
      | dropping => exact ⟨.getImmutAlreadyDropped, nofun, by unfold tempBorrow; rw [ht, hb]; rfl⟩
      | dropped => exact ⟨.getImmutAlreadyDropped, nofun, by unfold tempBorrow; rw [ht, hb]; rfl⟩
  obtain ⟨e, he, ht⟩ := key
  have hf : Refusal (panicMsg (some e)) := refusal_msg (by simpa using he)
  refine ⟨?_, ?_, ?_, panicMsg (some e), hf, ?_, ?_, ?_⟩
  all_goals
    simp only [exec, borrowSlice, borrowRead, ht]
    try rfl

/-! ## Histories without panics in the middle of an insertion -/

variable {E : Env Nat S}

/-- What a call that reads from a live tree returns. -/
theorem borrowRead_alive (hE : E.ix = natIdx MAX) {X : Type} {s : Sys Nat S} {ids : List Nat} (hu : Up s) (hb : s.borrow = stateOf s.nbor)
    (hL : Live MAX max E s.st ids) {i id : Nat} (hid : id ∈ ids) (hl : s.srefs[i]? = some (some (some id))) (hk : s.borrows.length < max)
    (strict : Bool) {read : RleTree Nat S → Nat × Nat → R X} {wrap : Option X → Val Nat S} {x : X}
    (hr : ∀ c ∈ s.st.tree.places, Recycle.get s.st.refs id = .ok (.handle (some c.at)) → read s.st.tree c.at = .ok x) :
    s.borrowRead max i strict read wrap = (.ok (wrap (some x)), s) := by
  obtain ⟨c, g1, g2, _⟩ := get_alive hE hL hid
  have := s.nbor_le
  unfold borrowRead
  rw [tempBorrow_alive hu.alloc hb (by omega) hl g2]
  simp only
  rw [release_alive (s := { s with borrow := stateOf (s.nbor + 1) }) hu.alloc rfl]
  simp only [hr c g1 g2]
  congr 2
  rw [← hb]

/-- C61: `can_borrow` and `is_valid` foretell what happens.  Unless the tree was dropped under a `Borrow` that is still alive, both
answer whether the tree is still there, and change nothing.  If they say "yes", all six methods return, with the slice, range and
path that the reference stands for; if "no", the `try_` methods return `None` and the others panic with a documented message. -/
theorem foretold_partial (hE : E.ix = natIdx MAX) (h0 : RleTree.newEmpty E = .ok ⟨none⟩) {s : Sys Nat S} (h : Hist MAX max E s)
    {i : Nat} {o : Option Nat} (hi : s.srefs[i]? = some (some o)) (hc : s.owner = true ∨ s.nbor = 0) (hk : s.borrows.length < max) :
    exec max E s (.canBorrow i) = (.ok (.bool s.owner), s) ∧ exec max E s (.isValid i) = (.ok (.bool s.owner), s) ∧
    (s.owner = true → ∃ id x r p, o = some id ∧ s.st.slice id = .ok x ∧ s.st.range E id = .ok r ∧ s.st.cursor id = .ok p ∧ ∀ strict,
      (∃ s', exec max E s (.borrow i strict) = (.ok (.borrow (some s.borrows.length)), s') ∧
        (exec max E s' (.read s.borrows.length)).1 = .ok (.slice x)) ∧
      exec max E s (.range i strict) = (.ok (.range (some r)), s) ∧ exec max E s (.cursor i strict) = (.ok (.cursor (some p)), s)) ∧
    (s.owner = false → exec max E s (.borrow i false) = (.ok (.borrow none), s) ∧ exec max E s (.range i false) = (.ok (.range none), s) ∧
      exec max E s (.cursor i false) = (.ok (.cursor none), s) ∧
      ∃ f, Refusal f ∧ exec max E s (.borrow i true) = (.error f, s) ∧ exec max E s (.range i true) = (.error f, s) ∧
        exec max E s (.cursor i true) = (.error f, s)) := by
  have hcb : exec max E s (.canBorrow i) = (.ok (.bool s.owner), s) := by
    show (s.canBorrow, s) = _
    rw [step_canBorrow (h.inv hE h0) hi]
    cases ho : s.owner with
    | true => rfl
    | false =>
      rcases hc with hc | hc
      · rw [ho] at hc; cases hc
      · simp [hc]
  refine ⟨hcb, valid_iff_owner hE h0 h hi hc, fun ho => ?_, fun ho => ?_⟩
  · obtain ⟨id, x, s', rfl, hx, _⟩ := borrow_returns hE h0 h ho hi hk true
    cases h.inv hE h0 with
    | empty _ hs => rw [hs] at hi; simp at hi
    | alive ids hu ho hbs hL hlen hids =>
      obtain ⟨id', h1, h2⟩ := hids i _ hi
      cases h2
      obtain ⟨c, g1, g2, g3, ⟨a, b, g4, g5⟩, g6, g7, g8⟩ := get_alive hE hL h1
      refine ⟨id, x, (a, b), c.path, rfl, hx, g5, g7, fun strict => ⟨?_, ?_, ?_⟩⟩
      · obtain ⟨id2, x2, s2, k1, k2, k3, _, _, _, _, _, k4⟩ := borrow_returns hE h0 h ho hi hk strict
        cases k1
        rw [hx] at k2
        cases k2
        exact ⟨s2, k3, k4⟩
      · refine borrowRead_alive hE hu hbs hL h1 hi hk strict ?_
        intro c' _ hc'
        rw [hc'] at g2
        simp only [Except.ok.injEq, Stored.handle.injEq, Option.some.injEq] at g2
        rw [g2]
        exact g4
      · refine borrowRead_alive hE hu hbs hL h1 hi hk strict ?_
        intro c' _ hc'
        rw [hc'] at g2
        simp only [Except.ok.injEq, Stored.handle.injEq, Option.some.injEq] at g2
        rw [g2]
        exact g6
    | window hu ho' => rw [ho] at ho'; cases ho'
    | gone ho' => rw [ho] at ho'; cases ho'
  · exact cannot_borrow_refused (by rw [hcb, ho])

/-- C61 is false between dropping the tree and dropping the last `Borrow`: the tree has been dropped, but `can_borrow` answers `true`;
`is_valid`, documented to check that other calls will not panic, itself panics; and so do all three `try_` methods. -/
theorem window_not_foretold (hE : E.ix = natIdx MAX) (h0 : RleTree.newEmpty E = .ok ⟨none⟩) {s : Sys Nat S} (h : Hist MAX max E s)
    (ho : s.owner = true) (hb : 0 < s.nbor) (hb' : s.nbor < max) {i : Nat} {o : Option Nat} (hi : s.srefs[i]? = some (some o)) :
    ∃ s', exec max E s .dropTree = (.ok .unit, s') ∧ (exec max E s' (.canBorrow i)).1 = .ok (.bool true) ∧
      (exec max E s' (.isValid i)).1 = .error (.panic "index out of bounds") ∧
      (exec max E s' (.borrow i false)).1 = .error (.panic "index out of bounds") ∧
      (exec max E s' (.range i false)).1 = .error (.panic "index out of bounds") ∧
      (exec max E s' (.cursor i false)).1 = .error (.panic "index out of bounds") := by
  obtain ⟨hu, hid, hd⟩ := window_state hE h0 h ho hb
  obtain ⟨id, rfl⟩ := hid i o hi
  refine ⟨_, hd, ?_, ?_, ?_, ?_, ?_⟩
  · simp only [exec, canBorrow, touch, hu.alloc]
  · simp only [exec, isValid, touch, hu.alloc, collapse, hi, Recycle.get, Recycle.empty]
    rfl
  · simp only [exec, borrowSlice, tempBorrow, touch, hu.alloc, borrowRefs]
    rw [if_pos (by omega)]
    simp only [collapse, hi, Recycle.get, Recycle.empty]
    rfl
  · simp only [exec, borrowRead, tempBorrow, touch, hu.alloc, borrowRefs]
    rw [if_pos (by omega)]
    simp only [collapse, hi, Recycle.get, Recycle.empty]
    rfl
  · simp only [exec, borrowRead, tempBorrow, touch, hu.alloc, borrowRefs]
    rw [if_pos (by omega)]
    simp only [collapse, hi, Recycle.get, Recycle.empty]
    rfl

/-- C61 is false after a caught panic in the middle of an insertion: nothing holds the tree mutably and it is not dropped, but
`can_borrow` answers `false` for good. -/
theorem aborted_cannot_borrow (hE : E.ix = natIdx MAX) (h0 : RleTree.newEmpty E = .ok ⟨none⟩) {s : Sys Nat S} (h : Hist MAX max E s)
    (ho : s.owner = true) (hb : s.nbor = 0) (hr : s.st.tree.root.isSome) (nop : Bool) (hints : List Nat) {idx : Nat} (x : S) {size : Nat}
    (hidx : idx ≤ s.st.tree.size E) (hs : 0 < size) (junk : RefTree Nat S) (i : Nat) :
    ∃ s', exec max E s (.insert nop hints idx x size true junk) = (.error (.panic "panic in user code"), s') ∧ s'.owner = true ∧
      s'.nbor = 0 ∧ exec max E s' (.canBorrow i) = (.ok (.bool false), s') := by
  cases h.inv hE h0 with
  | empty _ _ _ ht => rw [ht] at hr; cases hr
  | alive ids hu ho hbs hL hlen hids =>
    obtain ⟨r, hr⟩ := Option.isSome_iff_exists.1 hr
    have hb' : s.borrow = .notBorrowed := by rw [hbs, hb]; rfl
    refine ⟨{ s with borrow := .mutable, st := junk }, ?_, ho, hb, ?_⟩
    · simp only [exec, insert, hE, lt_nat, le_zero_nat]
      rw [if_neg (by simpa using hidx), if_neg (by simp; omega)]
      simp only [hr, touch, hu.alloc, hb', acquireMutable]
      rfl
    · simp only [exec, canBorrow, touch, hu.alloc]
  | window hu ho' => rw [ho] at ho'; cases ho'
  | gone ho' => rw [ho] at ho'; cases ho'

/-! ## The hypotheses can be met -/

theorem Hist.any {s : Sys Nat S} (h : Hist MAX max E s) : Any max E s := by
  induction h with
  | start n => exact .start n
  | step _ hl _ he ih => exact ih.step hl he

/-- A reference that outlives its tree is found invalid. -/
example : ∃ s s1 : Sys Nat Char, Any 1000 exRefEnv s ∧ exec 1000 exRefEnv s (.isValid 0) = (.ok (.bool false), s1) ∧
    Since 1000 exRefEnv s1 s1 := by
  obtain ⟨s, _, ⟨h1, h2, h3, h4, ⟨o, h5⟩, _⟩, _⟩ := exSys
  obtain ⟨s1, k1, k2, k3, k4⟩ := dropTree_returns (MAX := 255) rfl rfl h1 h2
  have h1' := h1.step (op := .dropTree) h2 trivial k1
  have hi : s1.srefs[0]? = some (some o) := by
    have e := k1
    simp only [exec, dropTree] at e
    cases (h1.inv (MAX := 255) rfl rfl) with
    | empty _ hs => rw [hs] at h5; simp at h5
    | alive ids hu ho hbs hL hlen hids =>
      obtain ⟨r, hr⟩ := Option.isSome_iff_exists.1 hu.root
      have hb' : s.borrow = .notBorrowed := by rw [hbs, h4]; rfl
      simp only [hr, touch, hu.alloc, hb', tryAcquireDrop, storeDrop, storeDropState, innerDrop] at e
      simp only [Bool.false_eq_true, if_false] at e
      split at e <;> cases e <;> exact h5
    | window hu ho' => rw [h2] at ho'; cases ho'
    | gone ho' => rw [h2] at ho'; cases ho'
  have := valid_iff_owner (MAX := 255) rfl rfl h1' hi (.inr (by rw [k3, h4]))
  exact ⟨s1, s1, h1'.any, by rw [this, k2], .refl⟩

example : ∃ s : Sys Nat Char, exec 1000 exRefEnv s (.canBorrow 0) = (.ok (.bool true), s) ∧
    exec 1000 exRefEnv s (.isValid 0) = (.ok (.bool true), s) ∧
    ∃ r, exec 1000 exRefEnv s (.range 0 true) = (.ok (.range (some r)), s) := by
  obtain ⟨s1, _, ⟨h1, h2, h3, h4, ⟨o, h5⟩, _, h7⟩, _⟩ := exSys
  obtain ⟨k1, k2, k3, _⟩ := foretold_partial (MAX := 255) rfl rfl h1 h5 (.inl h2) (by rw [h7]; decide)
  obtain ⟨_, _, r, _, _, _, _, _, k4⟩ := k3 h2
  exact ⟨s1, by rw [k1, h2], by rw [k2, h2], r, (k4 true).2.1⟩

example : ∃ s s' : Sys Nat Char, exec 1000 exRefEnv s .dropTree = (.ok .unit, s') ∧
    (exec 1000 exRefEnv s' (.canBorrow 0)).1 = .ok (.bool true) ∧
    (exec 1000 exRefEnv s' (.isValid 0)).1 = .error (.panic "index out of bounds") := by
  obtain ⟨_, s, _, h1, h2, h3, h4, ⟨o, h5⟩, _⟩ := exSys
  obtain ⟨s', k1, k2, k3, _⟩ := window_not_foretold (MAX := 255) rfl rfl h1 h2 (by omega) (by omega) h5
  exact ⟨s, s', k1, k2, k3⟩

example : ∃ s s' : Sys Nat Char, exec 1000 exRefEnv s (.insert false [] 0 'b' 3 true s.st) = (.error (.panic "panic in user code"), s') ∧
    exec 1000 exRefEnv s' (.canBorrow 0) = (.ok (.bool false), s') := by
  obtain ⟨s, _, ⟨h1, h2, h3, h4, ⟨o, h5⟩, h6, _⟩, _⟩ := exSys
  obtain ⟨s', k1, _, _, k2⟩ := aborted_cannot_borrow (MAX := 255) rfl rfl h1 h2 h4 h6 false [] (idx := 0) 'b' (size := 3) (Nat.zero_le _) (by omega) s.st 0
  exact ⟨s, s', k1, k2⟩

end Sys
end Sherman
