import Verif.SliceRefStep
/-!
# Borrowing and dropping (C27, C28, C29)
-/
namespace Sherman
namespace Sys
variable {S : Type} {MAX max : Nat} {E : Env Nat S}

/-! ## C27 -/

/-- C27: while a `Borrow` is alive, an insertion in bounds is refused, and nothing at all has changed. -/
theorem insert_refused (hE : E.ix = natIdx MAX) (h0 : RleTree.newEmpty E = .ok ⟨none⟩) {s : Sys Nat S} (h : Hist MAX max E s)
    (ho : s.owner = true) (hb : 0 < s.nbor) (nop : Bool) (hints : List Nat) {idx : Nat} (x : S) {size : Nat}
    (hidx : idx ≤ s.st.tree.size E) (hs : 0 < size) (crash : Bool) (junk : RefTree Nat S) :
    exec max E s (.insert nop hints idx x size crash junk) =
      (.error (.panic "cannot mutably borrow: already immutably borrowed"), s) := by
  show s.insert E nop hints idx x size crash junk = _
  unfold insert
  rw [hE, lt_nat, le_zero_nat, if_neg (by simpa using hidx), if_neg (by simp; omega)]
  cases h.inv hE h0 with
  | empty _ _ hbo => simp [nbor, hbo] at hb
  | alive ids hu ho hbs hL hlen hids =>
    obtain ⟨r, hr⟩ := Option.isSome_iff_exists.1 hu.root
    have hb' : s.borrow = .immutable s.nbor false := by rw [hbs]; simp [stateOf, show ¬ s.nbor = 0 by omega]
    simp only [hr, touch_live hu.alloc, hb', acquireMutable]
  | window hu ho' => rw [ho] at ho'; cases ho'
  | gone ho' => rw [ho] at ho'; cases ho'

/-- C27: while no `Borrow` is alive, an insertion does exactly what it does to the tree without any bookkeeping of borrows:
it returns if and only if that does, and leaves its result. -/
theorem insert_allowed (hE : E.ix = natIdx MAX) (h0 : RleTree.newEmpty E = .ok ⟨none⟩) {s : Sys Nat S} (h : Hist MAX max E s)
    (ho : s.owner = true) (hb : s.nbor = 0) (nop : Bool) (hints : List Nat) (idx : Nat) (x : S) (size : Nat)
    (junk : RefTree Nat S) :
    (∀ st' out, s.st.insert E nop hints idx x size = .ok (st', out) →
      ∃ s', exec max E s (.insert nop hints idx x size false junk) = (.ok .unit, s') ∧ s'.st = st' ∧ s'.srefs = s.srefs ∧
        s'.borrows = s.borrows) ∧
    (∀ f, s.st.insert E nop hints idx x size = .error f →
      ∃ s', exec max E s (.insert nop hints idx x size false junk) = (.error f, s')) := by
  show (∀ st' out, _ → ∃ s', s.insert E nop hints idx x size false junk = _ ∧ _) ∧ ∀ f, _ → ∃ s', s.insert E nop hints idx x size false junk = _
  unfold insert
  rw [hE, lt_nat, le_zero_nat]
  have e1 : s.st.tree.size E < idx → s.st.insert E nop hints idx x size = .error (.panic "cannot insert new slice, index out of bounds") := by
    intro hlt
    simp only [RefTree.insert, RleTree.insert, hE, lt_nat, hlt]
    rfl
  have e2 : ¬ s.st.tree.size E < idx → size = 0 → s.st.insert E nop hints idx x size = .error (.panic "cannot insert new slice, size is not greater than zero") := by
    intro hlt hz
    simp only [RefTree.insert, RleTree.insert, hE, lt_nat, le_zero_nat, hlt, hz]
    rfl
  by_cases h1 : s.st.tree.size E < idx
  · rw [if_pos (by simpa using h1), e1 h1]
    exact ⟨fun _ _ h => (by cases h), fun f h => (by cases h; exact ⟨s, rfl⟩)⟩
  rw [if_neg (by simpa using h1)]
  by_cases h2 : size = 0
  · rw [if_pos (by simpa using h2), e2 h1 h2]
    exact ⟨fun _ _ h => (by cases h), fun f h => (by cases h; exact ⟨s, rfl⟩)⟩
  rw [if_neg (by simpa using h2)]
  cases h.inv hE h0 with
  | empty ha hsr hbo ht hL hd =>
    rw [ht]
    constructor
    · intro st' out h; simp only [h]; exact ⟨_, rfl, rfl, rfl, rfl⟩
    · intro f h; simp only [h]; exact ⟨_, rfl⟩
  | alive ids hu ho hbs hL hlen hids =>
    obtain ⟨r, hr⟩ := Option.isSome_iff_exists.1 hu.root
    have hb' : s.borrow = .notBorrowed := by rw [hbs, hb]; rfl
    simp only [hr, touch_live hu.alloc, hb', acquireMutable]
    constructor
    · intro st' out h; simp only [h, releaseMutable]; exact ⟨_, rfl, rfl, rfl, rfl⟩
    · intro f h; simp only [h]; exact ⟨_, rfl⟩
  | window hu ho' => rw [ho] at ho'; cases ho'
  | gone ho' => rw [ho] at ho'; cases ho'

/-- C27: as long as the tree is alive, `borrow_slice` and `try_borrow_slice` return a `Borrow`, however many are already alive, and
reading it gives the slice the reference stands for. -/
theorem borrow_returns (hE : E.ix = natIdx MAX) (h0 : RleTree.newEmpty E = .ok ⟨none⟩) {s : Sys Nat S} (h : Hist MAX max E s)
    (ho : s.owner = true) {i : Nat} {o : Option Nat} (hi : s.srefs[i]? = some (some o)) (hm : s.borrows.length < max) (strict : Bool) :
    ∃ id x s', o = some id ∧ s.st.slice id = .ok x ∧ exec max E s (.borrow i strict) = (.ok (.borrow (some s.borrows.length)), s') ∧
      s'.nbor = s.nbor + 1 ∧ s'.st = s.st ∧ s'.owner = true ∧ s'.srefs = s.srefs ∧ (∃ h, s'.borrows = s.borrows ++ [some ⟨i, h⟩]) ∧
      (exec max E s' (.read s.borrows.length)).1 = .ok (.slice x) := by
  cases h.inv hE h0 with
  | empty _ hs => rw [hs] at hi; simp at hi
  | alive ids hu ho hbs hL hlen hids =>
    obtain ⟨id, h1, rfl⟩ := hids i o hi
    obtain ⟨c, g1, g2, g3, g4⟩ := borrowSlice_alive hE hu hbs hL h1 hi hm strict
    refine ⟨id, c.slice, _, rfl, g3, g4, by simp [nbor], rfl, ho, rfl, ⟨_, rfl⟩, ?_⟩
    simp only [exec, withBorrow, List.getElem?_append_right (Nat.le_refl _), Nat.sub_self, List.getElem?_cons_zero, read]
    rw [deref_place hu.nodup g1]
    rfl
  | window hu ho' => rw [ho] at ho'; cases ho'
  | gone ho' => rw [ho] at ho'; cases ho'

/-- C27 is false once user code has panicked in the middle of an insertion: no `Borrow` is alive, and yet every later insertion in bounds
runs into `unreachable!("double mutable borrow attempted")` and every `try_borrow_slice` is refused. -/
theorem aborted_insert_poisons (hE : E.ix = natIdx MAX) (h0 : RleTree.newEmpty E = .ok ⟨none⟩) {s : Sys Nat S} (h : Hist MAX max E s)
    (ho : s.owner = true) (hb : s.nbor = 0) (hr : s.st.tree.root.isSome) (nop : Bool) (hints : List Nat) {idx : Nat} (x : S) {size : Nat}
    (hidx : idx ≤ s.st.tree.size E) (hs : 0 < size) {junk : RefTree Nat S} (hj : junk.tree.root.isSome) :
    ∃ s', exec max E s (.insert nop hints idx x size true junk) = (.error (.panic "panic in user code"), s') ∧ s'.nbor = 0 ∧ s'.owner = true ∧
      (∀ nop hints idx x size junk', idx ≤ s'.st.tree.size E → 0 < size →
        exec max E s' (.insert nop hints idx x size false junk') = (.error (.unreachable "double mutable borrow attempted"), s')) ∧
      ∀ i, exec max E s' (.borrow i false) = (.ok (.borrow none), s') := by
  cases h.inv hE h0 with
  | empty _ _ _ ht => rw [ht] at hr; cases hr
  | alive ids hu ho hbs hL hlen hids =>
    obtain ⟨r, hr⟩ := Option.isSome_iff_exists.1 hr
    obtain ⟨r', hr'⟩ := Option.isSome_iff_exists.1 hj
    have hb' : s.borrow = .notBorrowed := by rw [hbs, hb]; rfl
    refine ⟨{ s with borrow := .mutable, st := junk }, ?_, hb, ho, ?_, ?_⟩
    · simp only [exec, insert, hE, lt_nat, le_zero_nat]
      rw [if_neg (by simpa using hidx), if_neg (by simp; omega)]
      simp only [hr, touch, hu.alloc, hb', acquireMutable]
      rfl
    · intro nop hints idx x size junk' h1 h2
      simp only [exec, insert, hE, lt_nat, le_zero_nat]
      rw [if_neg (by simpa using h1), if_neg (by simp; omega)]
      simp only [hr', touch, hu.alloc, acquireMutable]
    · intro i
      simp only [exec, borrowSlice, tempBorrow, touch, hu.alloc, borrowRefs]
      rfl
  | window hu ho' => rw [ho] at ho'; cases ho'
  | gone ho' => rw [ho] at ho'; cases ho'

/-! ## What stays behind a `Borrow` -/

theorem collapse_borrows {I : Type} (s : Sys I S) (i : Nat) : (collapse s i).2.borrows = s.borrows := by
  unfold collapse
  repeat' split
  all_goals rfl

theorem innerDrop_borrows {I : Type} (s : Sys I S) (b : Bool) : (innerDrop s b).2.borrows = s.borrows := by
  unfold innerDrop
  dsimp only
  repeat' split
  all_goals rfl

theorem release_borrows {I : Type} (s : Sys I S) : (release s).2.borrows = s.borrows := by
  unfold release
  repeat' split
  all_goals first | rfl | exact innerDrop_borrows _ _

theorem tempBorrow_borrows {I : Type} (s : Sys I S) (i : Nat) : (tempBorrow max s i).2.borrows = s.borrows := by
  unfold tempBorrow
  split
  · rfl
  · split
    · rfl
    · rfl
    · rename_i b _
      have hb := collapse_borrows { s with borrow := b } i
      split <;> (rename_i h; rw [h] at hb; exact hb)

theorem bumpWeak_borrows {I : Type} {s s' : Sys I S} (h : bumpWeak max s = .ok s') : s'.borrows = s.borrows := by
  unfold bumpWeak at h
  split at h
  · cases h; rfl
  · cases h

/-- A call creates or drops at most one `Borrow`. -/
theorem exec_borrows {I : Type} {E : Env I S} (s : Sys I S) (op : Call I S) : (exec max E s op).2.borrows = s.borrows ∨
    (∃ b, (exec max E s op).2.borrows = s.borrows ++ [some b]) ∨ ∃ j, (exec max E s op).2.borrows = s.borrows.set j none := by
  cases op with
  | insert nop hints idx x size crash junk =>
    refine .inl ?_
    simp only [exec, insert]
    repeat' split
    all_goals rfl
  | makeRef h =>
    refine .inl ?_
    simp only [exec, makeRef]
    repeat' split
    all_goals first | rfl | (rename_i h; exact (bumpWeak_borrows h : _))
  | cloneRef i =>
    refine .inl ?_
    simp only [exec, cloneRef]
    repeat' split
    all_goals first | rfl | (rename_i h _ _ _; exact (bumpWeak_borrows h : _)) | (rename_i h _ _ _ _; exact (bumpWeak_borrows h : _))
  | dropRef i =>
    refine .inl ?_
    simp only [exec, dropRef]
    repeat' split
    all_goals rfl
  | isValid i =>
    refine .inl ?_
    simp only [exec, isValid]
    repeat' split
    all_goals first
      | rfl
      | (rename_i h
         have := collapse_borrows s i
         rw [h] at this
         exact this)
  | canBorrow i => exact .inl rfl
  | borrow i strict =>
    have ht := tempBorrow_borrows (max := max) s i
    simp only [exec, borrowSlice]
    split
    · rename_i h; rw [h] at ht; exact .inl ht
    · rename_i h; rw [h] at ht; exact .inl ht
    · rename_i s1 h
      rw [h] at ht
      have := release_borrows s1
      split
      · rename_i h; rw [h] at this; exact .inl (this.trans ht)
      · rename_i h; rw [h] at this; exact .inl (this.trans ht)
    · rename_i hd s1 h
      rw [h] at ht
      split
      · exact .inl ht
      · exact .inr (.inl ⟨⟨i, hd⟩, by simp only at ht ⊢; rw [ht]⟩)
  | range i strict =>
    refine .inl ?_
    have ht := tempBorrow_borrows (max := max) s i
    simp only [exec, borrowRead]
    split
    · rename_i h; rw [h] at ht; exact ht
    · rename_i h; rw [h] at ht; exact ht
    all_goals
      rename_i s1 h
      rw [h] at ht
      have := release_borrows s1
      split
      · rename_i h; rw [h] at this; exact this.trans ht
      · rename_i h
        rw [h] at this
        first
          | exact this.trans ht
          | (split
             · exact this.trans ht
             · exact this.trans ht)
  | cursor i strict =>
    refine .inl ?_
    have ht := tempBorrow_borrows (max := max) s i
    simp only [exec, borrowRead]
    split
    · rename_i h; rw [h] at ht; exact ht
    · rename_i h; rw [h] at ht; exact ht
    all_goals
      rename_i s1 h
      rw [h] at ht
      have := release_borrows s1
      split
      · rename_i h; rw [h] at this; exact this.trans ht
      · rename_i h
        rw [h] at this
        first
          | exact this.trans ht
          | (split
             · exact this.trans ht
             · exact this.trans ht)
  | cloneBorrow j =>
    simp only [exec, withBorrow, cloneBorrow]
    split
    · repeat' split
      all_goals first | exact .inl rfl | exact .inr (.inl ⟨_, rfl⟩)
    · exact .inl rfl
  | dropBorrow j =>
    refine .inr (.inr ⟨j, ?_⟩)
    have := release_borrows { s with borrows := s.borrows.set j none }
    simp only [exec, dropBorrow]
    split
    · rename_i h; rw [h] at this; exact this
    · rename_i h; rw [h] at this; exact this
  | read j =>
    refine .inl ?_
    simp only [exec, withBorrow]
    split <;> rfl
  | dropTree =>
    refine .inl ?_
    simp only [exec, dropTree, storeDrop, innerDrop]
    repeat' split
    all_goals first | rfl | (rename_i h _ _; cases h <;> rfl) | (rename_i h _; cases h <;> rfl) | (rename_i h; cases h <;> rfl)

/-- Further calls. -/
inductive Later (MAX max : Nat) (E : Env Nat S) (s : Sys Nat S) : Sys Nat S → Prop
  | refl : Later MAX max E s s
  | step {s1 s2 : Sys Nat S} {op : Call Nat S} {r : R (Val Nat S)} : Later MAX max E s s1 → Legal s1 op → Calm MAX max E s1 op →
      exec max E s1 op = (r, s2) → Later MAX max E s s2

theorem Later.hist {s s' : Sys Nat S} (h : Hist MAX max E s) (hl : Later MAX max E s s') : Hist MAX max E s' := by
  induction hl with
  | refl => exact h
  | step _ h1 h2 h3 ih => exact ih.step h1 h2 h3

/-- C27, C28: what is behind a `Borrow` does not change and stays readable as long as the `Borrow` is alive, whatever is called, also
if the tree is dropped in the meantime. -/
theorem borrow_stable (hE : E.ix = natIdx MAX) (h0 : RleTree.newEmpty E = .ok ⟨none⟩) {s s' : Sys Nat S} (h : Hist MAX max E s)
    (hl : Later MAX max E s s') {j : Nat} {b b' : Held} (hj : s.borrows[j]? = some (some b)) (hj' : s'.borrows[j]? = some (some b')) :
    b' = b ∧ ∃ x, s.read b = .ok (.slice x) ∧ s'.read b = .ok (.slice x) := by
  induction hl generalizing b' with
  | refl =>
    rw [hj] at hj'
    cases hj'
    obtain ⟨c, _, _, h1⟩ := step_readBorrow (h.inv hE h0) hj
    exact ⟨rfl, _, h1, h1⟩
  | @step s1 s2 op r hl h1 h2 h3 ih =>
    have hlt : j < s1.borrows.length := by
      clear ih hj' h3 h2 h1
      induction hl with
      | refl => exact (List.getElem?_eq_some_iff.1 hj).1
      | @step s1 s2 op r _ _ _ h3 ih =>
        have := exec_borrows (max := max) (E := E) s1 op
        rw [h3] at this
        rcases this with h | ⟨b, h⟩ | ⟨k, h⟩ <;> simp only at h <;> rw [h] <;> simp <;> omega
    have hb1 : s1.borrows[j]? = some (some b') := by
      have := exec_borrows (max := max) (E := E) s1 op
      rw [h3] at this
      rcases this with h | ⟨b, h⟩ | ⟨k, h⟩ <;> simp only at h <;> rw [h] at hj'
      · exact hj'
      · rwa [List.getElem?_append_left hlt] at hj'
      · simp only [List.getElem?_set] at hj'
        split at hj'
        · split at hj' <;> cases hj'
        · exact hj'
    obtain ⟨rfl, x, g1, g2⟩ := ih hb1
    have hg := (Sys.step hE ((hl.hist h).inv hE h0) h1 h2).2.2 j b' hb1
    rw [h3] at hg
    exact ⟨rfl, x, g1, (hg hj').trans g2⟩

/-! ## C28 -/

/-- C28: in every such history, the nodes have been destroyed once if the tree is gone and no `Borrow` is alive, and not at all otherwise.
(`alloc = .absent`: nothing was ever inserted, so that there never were any nodes.) -/
theorem nodes_destroyed_partial (hE : E.ix = natIdx MAX) (h0 : RleTree.newEmpty E = .ok ⟨none⟩) {s : Sys Nat S} (h : Hist MAX max E s) :
    s.destroyed = if s.alloc ≠ .absent ∧ s.owner = false ∧ s.nbor = 0 then 1 else 0 := by
  cases h.inv hE h0 with
  | empty ha _ _ _ _ hd => simp [ha, hd]
  | alive ids hu ho => simp [ho, hu.fresh]
  | window hu ho hn hb => rw [hu.fresh, if_neg]; omega
  | gone ho hn hb hd hw ht ha =>
    rw [hd, if_pos]
    refine ⟨?_, ho, hn⟩
    rw [ha]
    split <;> simp

/-- C28: dropping the tree returns; it destroys the nodes at once if no `Borrow` is alive and leaves them alone otherwise. -/
theorem dropTree_returns (hE : E.ix = natIdx MAX) (h0 : RleTree.newEmpty E = .ok ⟨none⟩) {s : Sys Nat S} (h : Hist MAX max E s)
    (ho : s.owner = true) : ∃ s', exec max E s .dropTree = (.ok .unit, s') ∧ s'.owner = false ∧ s'.nbor = s.nbor ∧
      s'.destroyed = (if s.alloc = .live ∧ s.nbor = 0 then 1 else 0) := by
  obtain ⟨h1, h2, h3, h4⟩ := step_dropTree (h.inv hE h0) ho
  refine ⟨s.dropTree.2, ?_, h3, ?_, h4⟩
  · show s.dropTree = _
    rw [← h1]
  · unfold nbor
    congr 1
    unfold dropTree storeDrop innerDrop
    dsimp only
    repeat' split
    all_goals first | rfl | (rename_i h _ _; cases h <;> rfl) | (rename_i h _; cases h <;> rfl) | (rename_i h; cases h <;> rfl)

/-- C28: dropping a `Borrow` returns; it destroys the nodes exactly if the tree is gone and this is the last one. -/
theorem dropBorrow_returns (hE : E.ix = natIdx MAX) (h0 : RleTree.newEmpty E = .ok ⟨none⟩) {s : Sys Nat S} (h : Hist MAX max E s)
    {j : Nat} {b : Held} (hj : s.borrows[j]? = some (some b)) : ∃ s', exec max E s (.dropBorrow j) = (.ok .unit, s') ∧
      s'.nbor + 1 = s.nbor ∧ s'.destroyed = (if s.owner = false ∧ s.nbor = 1 then s.destroyed + 1 else s.destroyed) := by
  obtain ⟨h1, _, h3⟩ := step_dropBorrow (h.inv hE h0) hj
  refine ⟨(s.dropBorrow j).2, ?_, ?_, ?_⟩
  · show s.dropBorrow j = _
    rw [← h1]
  · have : (s.dropBorrow j).2.borrows = s.borrows.set j none := by
      have := release_borrows { s with borrows := s.borrows.set j none }
      unfold dropBorrow
      split
      · rename_i h; rw [h] at this; exact this
      · rename_i h; rw [h] at this; exact this
    unfold nbor
    rw [this]
    exact (countP_set_none hj).symm
  · have hd := nodes_destroyed_partial hE h0 h
    rw [h3]
    split
    · rename_i hc
      rw [hd, if_neg (by rw [hc.2]; simp)]
    · rfl

/-- C28: a `SliceRef` reports to be valid as long as the tree is alive, and invalid once the tree and the last `Borrow` are gone. -/
theorem valid_iff_owner (hE : E.ix = natIdx MAX) (h0 : RleTree.newEmpty E = .ok ⟨none⟩) {s : Sys Nat S} (h : Hist MAX max E s)
    {i : Nat} {o : Option Nat} (hi : s.srefs[i]? = some (some o)) (hc : s.owner = true ∨ s.nbor = 0) :
    exec max E s (.isValid i) = (.ok (.bool s.owner), s) := step_isValid hE (h.inv hE h0) hi hc

/-- C28, C29: no call in such a history has undefined behaviour or runs into an `unreachable!`; the only failures are panics. -/
theorem calls_safe (hE : E.ix = natIdx MAX) (h0 : RleTree.newEmpty E = .ok ⟨none⟩) {s : Sys Nat S} (h : Hist MAX max E s)
    {op : Call Nat S} (hl : Legal s op) (hc : Calm MAX max E s op) {f : Fault} {s' : Sys Nat S} (he : exec max E s op = (.error f, s')) :
    ∃ m, f = .panic m := by
  have := (Sys.step hE (h.inv hE h0) hl hc).2.1 f
  rw [he] at this
  exact this rfl

/-- The state of a tree that has just been dropped under borrows. -/
theorem window_state (hE : E.ix = natIdx MAX) (h0 : RleTree.newEmpty E = .ok ⟨none⟩) {s : Sys Nat S} (h : Hist MAX max E s)
    (ho : s.owner = true) (hb : 0 < s.nbor) : Up s ∧ (∀ (i : Nat) (o : Option Nat), s.srefs[i]? = some (some o) → ∃ id, o = some id) ∧
      exec max E s .dropTree =
      (.ok .unit, { s with owner := false, borrow := .immutable s.nbor true, st := { s.st with refs := Recycle.empty } }) := by
  cases h.inv hE h0 with
  | empty _ _ hbo => simp [nbor, hbo] at hb
  | alive ids hu ho hbs hL hlen hids =>
    refine ⟨hu, fun i o hi => (by obtain ⟨id, _, h⟩ := hids i o hi; exact ⟨id, h⟩), ?_⟩
    obtain ⟨r, hr⟩ := Option.isSome_iff_exists.1 hu.root
    have hb' : s.borrow = .immutable s.nbor false := by rw [hbs]; simp [stateOf, show ¬ s.nbor = 0 by omega]
    simp only [exec, dropTree, hr, touch, hu.alloc, hb', tryAcquireDrop, storeDrop, storeDropState, innerDrop]
    simp
  | window hu ho' => rw [ho] at ho'; cases ho'
  | gone ho' => rw [ho] at ho'; cases ho'

/-- C28 is false between dropping the tree and dropping the last `Borrow`: every `SliceRef` whose validity is asked, that is borrowed
from or that is cloned then panics, because the store of references has already been emptied. -/
theorem window_calls_panic (hE : E.ix = natIdx MAX) (h0 : RleTree.newEmpty E = .ok ⟨none⟩) {s : Sys Nat S} (h : Hist MAX max E s)
    (ho : s.owner = true) (hb : 0 < s.nbor) (hb' : s.nbor < max) (hw : s.nref < max) {i : Nat} {o : Option Nat} (hi : s.srefs[i]? = some (some o)) :
    ∃ s', exec max E s .dropTree = (.ok .unit, s') ∧ s'.destroyed = 0 ∧ s'.nbor = s.nbor ∧
      (exec max E s' (.isValid i)).1 = .error (.panic "index out of bounds") ∧
      (exec max E s' (.borrow i false)).1 = .error (.panic "index out of bounds") ∧
      (exec max E s' (.cloneRef i)).1 = .error (.panic "index out of bounds") := by
  obtain ⟨hu, hid, hd⟩ := window_state hE h0 h ho hb
  obtain ⟨id, rfl⟩ := hid i o hi
  refine ⟨_, hd, hu.fresh, rfl, ?_, ?_, ?_⟩
  · simp only [exec, isValid, touch, hu.alloc, collapse, hi, Recycle.get, Recycle.empty]
    rfl
  · simp only [exec, borrowSlice, tempBorrow, touch, hu.alloc, borrowRefs]
    rw [if_pos (by omega)]
    simp only [collapse, hi, Recycle.get, Recycle.empty]
    rfl
  · simp only [exec, cloneRef, hi, touch, hu.alloc, bumpWeak]
    rw [if_pos (by rw [hu.weak]; omega)]
    simp only [RefTree.cloneRef, Recycle.clone, Recycle.empty]
    rfl

/-- C28 is false there in a second way: the failed attempt to borrow is counted, so that dropping the last `Borrow` no longer destroys the
nodes.  The tree is gone, nobody holds a `Borrow`, and the nodes are leaked. -/
theorem window_borrow_leaks (hE : E.ix = natIdx MAX) (h0 : RleTree.newEmpty E = .ok ⟨none⟩) {s : Sys Nat S} (h : Hist MAX max E s)
    (ho : s.owner = true) {j : Nat} {b : Held} (hj : s.borrows[j]? = some (some b)) (hb : s.nbor = 1) (hm : 2 ≤ max)
    {i : Nat} {o : Option Nat} (hi : s.srefs[i]? = some (some o)) :
    ∃ s1 s2 s3, exec max E s .dropTree = (.ok .unit, s1) ∧ exec max E s1 (.borrow i false) = (.error (.panic "index out of bounds"), s2) ∧
      exec max E s2 (.dropBorrow j) = (.ok .unit, s3) ∧ s3.owner = false ∧ s3.nbor = 0 ∧ s3.destroyed = 0 := by
  obtain ⟨hu, hid, hd⟩ := window_state hE h0 h ho (by omega)
  obtain ⟨id, rfl⟩ := hid i o hi
  refine ⟨_, { s with owner := false, borrow := .immutable 2 true, st := { s.st with refs := Recycle.empty }, srefs := s.srefs.set i (some none) },
    { s with owner := false, borrow := .immutable 1 true, st := { s.st with refs := Recycle.empty }, srefs := s.srefs.set i (some none), borrows := s.borrows.set j none },
    hd, ?_, ?_, rfl, ?_, hu.fresh⟩
  · simp only [exec, borrowSlice, tempBorrow, touch, hu.alloc, borrowRefs, hb]
    rw [if_pos hm]
    simp only [collapse, hi, Recycle.get, Recycle.empty, setId]
    rfl
  · simp only [exec, dropBorrow, release, touch, hu.alloc, dropBorrowState]
    rfl
  · have := countP_set_none hj
    show (s.borrows.set j none).countP (·.isSome) = 0
    unfold nbor at hb
    omega

/-! ## C29 -/

/-- C29: in every such history, the allocation of the store is gone exactly if the tree, the last `Borrow` and the last `SliceRef` are gone.
With `calls_safe`: it is freed once only, and not used afterwards. -/
theorem store_freed_partial (hE : E.ix = natIdx MAX) (h0 : RleTree.newEmpty E = .ok ⟨none⟩) {s : Sys Nat S} (h : Hist MAX max E s) :
    s.alloc = .freed ↔ s.alloc ≠ .absent ∧ s.owner = false ∧ s.nbor = 0 ∧ s.nref = 0 := by
  cases h.inv hE h0 with
  | empty ha => simp [ha]
  | alive ids hu ho => simp [hu.alloc, ho]
  | window hu ho hn hb =>
    rw [hu.alloc]
    constructor
    · intro h; cases h
    · intro h; omega
  | gone ho hn hb hd hw ht ha =>
    rw [ha]
    by_cases hr : s.nref = 0
    · simp [hr, ho, hn]
    · simp [hr]

/-- C29: as long as the tree is alive a `SliceRef` can be cloned, and the clone stands for the same slice. -/
theorem cloneRef_returns (hE : E.ix = natIdx MAX) (h0 : RleTree.newEmpty E = .ok ⟨none⟩) {s : Sys Nat S} (h : Hist MAX max E s)
    (ho : s.owner = true) {i : Nat} {o : Option Nat} (hi : s.srefs[i]? = some (some o)) (hm : s.srefs.length + 1 < max) :
    ∃ s' id', exec max E s (.cloneRef i) = (.ok (.sref s.srefs.length), s') ∧ s'.nref = s.nref + 1 ∧ s'.srefs = s.srefs ++ [some (some id')] := by
  obtain ⟨⟨id, id', h1, h2, h3⟩, _⟩ := step_cloneRef hE (h.inv hE h0) hi ho hm
  exact ⟨_, id', h2, by simp [nref, h3], h3⟩

/-- C29 is false if a `SliceRef` is cloned after the tree is gone: the clone is not counted, so dropping the original frees the allocation
under the clone, and using the clone is undefined behaviour. -/
theorem clone_after_drop_ub (hE : E.ix = natIdx MAX) (h0 : RleTree.newEmpty E = .ok ⟨none⟩) {s : Sys Nat S} (h : Hist MAX max E s)
    (ho : s.owner = true) (hb : s.nbor = 0) (hn : s.nref = 1) {i : Nat} {o : Option Nat} (hi : s.srefs[i]? = some (some o)) :
    ∃ s1 s2 s3, exec max E s .dropTree = (.ok .unit, s1) ∧ exec max E s1 (.cloneRef i) = (.ok (.sref s.srefs.length), s2) ∧
      exec max E s2 (.dropRef i) = (.ok .unit, s3) ∧ Legal s3 (.isValid s.srefs.length) ∧
      (exec max E s3 (.isValid s.srefs.length)).1 = .error (.ub "use of an InnerStore that is not allocated") := by
  cases h.inv hE h0 with
  | empty _ hs => rw [hs] at hi; simp at hi
  | alive ids hu ho hbs hL hlen hids =>
    obtain ⟨id, h1, rfl⟩ := hids i o hi
    obtain ⟨r, hr⟩ := Option.isSome_iff_exists.1 hu.root
    have hb' : s.borrow = .notBorrowed := by rw [hbs, hb]; rfl
    have hw : s.weak = 1 := by rw [hu.weak, hn]
    have hlt : i < s.srefs.length := (List.getElem?_eq_some_iff.1 hi).1
    refine ⟨{ s with owner := false, borrow := .dropped, st := { s.st with tree := ⟨none⟩, refs := Recycle.empty }, destroyed := s.destroyed + 1 },
      { s with owner := false, borrow := .dropped, st := { s.st with tree := ⟨none⟩, refs := Recycle.empty }, destroyed := s.destroyed + 1, srefs := s.srefs.set i (some none) ++ [some none] },
      { s with owner := false, borrow := .dropped, st := { s.st with tree := ⟨none⟩, refs := Recycle.empty }, destroyed := s.destroyed + 1, srefs := (s.srefs.set i (some none) ++ [some none]).set i none, weak := 0, alloc := .freed },
      ?_, ?_, ?_, ?_, ?_⟩
    · simp only [exec, dropTree, hr, touch, hu.alloc, hb', tryAcquireDrop, storeDrop, storeDropState, innerDrop, hw]
      rfl
    · simp only [exec, cloneRef, hi, touch, hu.alloc, setId, List.length_set]
    · simp only [exec, dropRef, touch, hu.alloc, hw]
      rfl
    · refine ⟨none, ?_⟩
      show ((s.srefs.set i (some none) ++ [some none]).set i none)[s.srefs.length]? = _
      rw [List.getElem?_set_ne (by omega), List.getElem?_append_right (by simp)]
      simp
    · rfl
  | window hu ho' => rw [ho] at ho'; cases ho'
  | gone ho' => rw [ho] at ho'; cases ho'

/-! ## The hypotheses can be met -/

/-- One slice, one `SliceRef`, and then one `Borrow`. -/
theorem exSys : ∃ s1 s2 : Sys Nat Char, (Hist 255 1000 exRefEnv s1 ∧ s1.owner = true ∧ s1.nref = 1 ∧ s1.nbor = 0 ∧
      (∃ o, s1.srefs[0]? = some (some o)) ∧ s1.st.tree.root.isSome ∧ s1.borrows = []) ∧
    Hist 255 1000 exRefEnv s2 ∧ s2.owner = true ∧ s2.nref = 1 ∧ s2.nbor = 1 ∧
    (∃ o, s2.srefs[0]? = some (some o)) ∧ ∃ b, s2.borrows[0]? = some (some b) := by
  have hE : exRefEnv.ix = natIdx 255 := rfl
  have h0 : RleTree.newEmpty exRefEnv = .ok ⟨none⟩ := rfl
  have hL0 : Live 255 1000 exRefEnv exStart [] := .empty (n := 100) rfl
  obtain ⟨st, out, h1, h2, h3⟩ := live_insert_returns hE hL0 false [] 'a' (idx := 0) (size := 5) (Nat.zero_le _) (by omega) (by decide) rfl
  have hist0 : Hist 255 1000 exRefEnv (start 100) := .start 100
  have g1 : exec 1000 exRefEnv (start 100) (.insert false [] 0 'a' 5 false exStart) = (.ok .unit, ⟨st, true, .live, .notBorrowed, 0, rootPtr st.tree, 0, [], []⟩) := by
    show insert exRefEnv (start 100) false [] 0 'a' 5 false exStart = _
    unfold insert
    have : (start 100 : Sys Nat Char).st = exStart := rfl
    simp only [this, h1]
    rfl
  have hist1 := hist0.step (op := .insert false [] 0 'a' 5 false exStart) rfl ⟨by omega, .inr (.inr (.inr ⟨rfl, _, h1⟩))⟩ g1
  have hpl : ∃ c, c ∈ st.tree.places := by
    have hh := ((h2.inv hE).reach.holds hE).2.1.places
    rw [h3] at hh
    have := congrArg List.length hh
    simp only [List.length_map] at this
    cases hp : st.tree.places with
    | nil => rw [hp] at this; exact absurd this (by decide)
    | cons c l => exact ⟨c, by simp⟩
  obtain ⟨c, hc⟩ := hpl
  obtain ⟨⟨id, st', k1, k2⟩, _⟩ := step_makeRef hE (hist1.inv hE h0) rfl ⟨c, hc, rfl⟩ (show (0 : Nat) + 1 < 1000 by decide)
  have hist2 := hist1.step (op := .makeRef c.at) ⟨rfl, c, hc, rfl⟩ (show (0 : Nat) + 1 < 1000 by decide) k2
  obtain ⟨_, _, s3, _, _, m2, m3, m4, m5, m6, ⟨hd, m7⟩, _⟩ := borrow_returns hE h0 hist2 rfl (i := 0) rfl (show (0 : Nat) < 1000 by decide) false
  have hist3 := hist2.step (op := .borrow 0 false) ⟨_, rfl⟩ ⟨.inl rfl, show (0 : Nat) < 1000 by decide⟩ m2
  have hroot : st'.tree.root.isSome := by
    rw [(makeRef_tree hE h2 k1).2.2]; exact insert_root hE hL0 (by omega) (by omega) h1
  refine ⟨_, s3, ⟨hist2, rfl, rfl, rfl, ⟨_, rfl⟩, hroot, rfl⟩, hist3, m5, ?_, m3, ⟨_, by rw [m6]; rfl⟩, ⟨_, by rw [m7]; rfl⟩⟩
  show s3.srefs.countP _ = 1
  rw [m6]; rfl

/-- The four negations apply. -/
example : ∃ s : Sys Nat Char, Hist 255 1000 exRefEnv s ∧ ∃ s', exec 1000 exRefEnv s .dropTree = (.ok .unit, s') ∧
    (exec 1000 exRefEnv s' (.isValid 0)).1 = .error (.panic "index out of bounds") := by
  obtain ⟨_, s, _, h1, h2, h3, h4, ⟨o, h5⟩, _⟩ := exSys
  obtain ⟨s', k1, _, _, k2, _⟩ := window_calls_panic (MAX := 255) rfl rfl h1 h2 (by omega) (by omega) (by omega) h5
  exact ⟨s, h1, s', k1, k2⟩

example : ∃ s1 s2 s3 : Sys Nat Char, Hist 255 1000 exRefEnv s1 ∧ exec 1000 exRefEnv s1 .dropTree = (.ok .unit, s2) ∧
    exec 1000 exRefEnv s2 (.cloneRef 0) = (.ok (.sref s1.srefs.length), s3) := by
  obtain ⟨s, _, ⟨h1, h2, h3, h4, ⟨o, h5⟩, _⟩, _⟩ := exSys
  obtain ⟨s1, s2, s3, k1, k2, _⟩ := clone_after_drop_ub (MAX := 255) rfl rfl h1 h2 h4 h3 h5
  exact ⟨s, s1, s2, h1, k1, k2⟩

example : ∃ s s' : Sys Nat Char, Hist 255 1000 exRefEnv s ∧ exec 1000 exRefEnv s (.insert false [] 0 'b' 3 true s.st) =
    (.error (.panic "panic in user code"), s') ∧
    exec 1000 exRefEnv s' (.insert false [] 0 'b' 3 false s.st) = (.error (.unreachable "double mutable borrow attempted"), s') := by
  obtain ⟨s, _, ⟨h1, h2, h3, h4, ⟨o, h5⟩, h6, _⟩, _⟩ := exSys
  obtain ⟨s', k1, _, _, k2, _⟩ := aborted_insert_poisons (MAX := 255) rfl rfl h1 h2 h4 h6 false [] (idx := 0) 'b' (size := 3) (Nat.zero_le _) (by omega) h6
  exact ⟨s, s', h1, k1, k2 false [] 0 'b' 3 s.st (Nat.zero_le _) (by omega)⟩

example : ∃ s s1 s2 s3 : Sys Nat Char, Hist 255 1000 exRefEnv s ∧ exec 1000 exRefEnv s .dropTree = (.ok .unit, s1) ∧
    exec 1000 exRefEnv s1 (.borrow 0 false) = (.error (.panic "index out of bounds"), s2) ∧
    exec 1000 exRefEnv s2 (.dropBorrow 0) = (.ok .unit, s3) ∧ s3.destroyed = 0 := by
  obtain ⟨_, s, _, h1, h2, h3, h4, ⟨o, h5⟩, b, h6⟩ := exSys
  obtain ⟨s1, s2, s3, k1, k2, k3, _, _, k4⟩ := window_borrow_leaks (MAX := 255) rfl rfl h1 h2 h6 h4 (by omega) h5
  exact ⟨s, s1, s2, s3, h1, k1, k2, k3, k4⟩

/-- A history: insert, take a reference, borrow, try to insert (refused), drop the tree, drop the borrow (destroys the nodes). -/
example : ∃ s : Sys Nat Char, Hist 255 1000 exRefEnv s ∧
    exec 1000 exRefEnv s (.insert false [] 0 'b' 3 false s.st) = (.error (.panic "cannot mutably borrow: already immutably borrowed"), s) ∧
    ∃ s1 s2, exec 1000 exRefEnv s .dropTree = (.ok .unit, s1) ∧ s1.destroyed = 0 ∧ Hist 255 1000 exRefEnv s1 ∧
      exec 1000 exRefEnv s1 (.dropBorrow 0) = (.ok .unit, s2) ∧ s2.destroyed = 1 := by
  obtain ⟨_, s, _, h1, h2, h3, h4, ⟨o, h5⟩, b, h6⟩ := exSys
  obtain ⟨s1, k1, k2, k3, k4⟩ := dropTree_returns (MAX := 255) rfl rfl h1 h2
  have h1' := h1.step (op := .dropTree) h2 trivial k1
  have hb1 : s1.borrows[0]? = some (some b) := by
    obtain ⟨_, _, w⟩ := window_state (MAX := 255) rfl rfl h1 h2 (by omega)
    rw [w] at k1
    cases k1
    exact h6
  obtain ⟨s2, m1, m2, m3⟩ := dropBorrow_returns (MAX := 255) rfl rfl h1' hb1
  have hd : s1.destroyed = 0 := by rw [k4, if_neg]; omega
  exact ⟨s, h1, insert_refused rfl rfl h1 h2 (by omega) false [] 'b' (Nat.zero_le _) (by omega) false s.st, s1, s2, k1, hd, h1', m1,
    by rw [m3, if_pos ⟨k2, by omega⟩, hd]⟩

end Sys
end Sherman
