import Verif.SliceRefAsk
/-!
# What is in the store of slice references

`StoredSliceRef` has three variants, but only handles are ever stored: `remove` is not called and `redirect` replaces ids.  So two branches of
`collapse_refs`, which always panic (they call `borrow_mut` while a `cell::Ref` is alive), are not taken.
-/
namespace Sherman
variable {I S : Type}

/-- Only handles are stored. -/
def Handles (rv : Recycle.RecycleVec Stored) : Prop := ∀ (id rc : Nat) x, rv.vals[id]? = some (.value rc x) → ∃ h, x = .handle h

theorem Handles.empty : Handles Recycle.empty := fun id rc x h => by simp [Recycle.empty] at h

theorem Handles.set {rv : Recycle.RecycleVec Stored} (h : Handles rv) {id rc : Nat} {x : Option (Nat × Nat)} {hd : Option Nat} :
    Handles ⟨rv.vals.set id (.value rc (.handle x)), hd⟩ := by
  intro j c y hy
  simp only [List.getElem?_set] at hy
  split at hy
  · split at hy
    · cases hy; exact ⟨_, rfl⟩
    · cases hy
  · exact h j c y hy

theorem Handles.push {rv rv' : Recycle.RecycleVec Stored} (h : Handles rv) {x : Option (Nat × Nat)} {id : Nat}
    (hp : Recycle.push rv (.handle x) = .ok (id, rv')) : Handles rv' := by
  unfold Recycle.push at hp
  split at hp
  · simp only [bind_ok_iff] at hp
    obtain ⟨n, -, hp⟩ := hp
    split at hp
    · cases hp; exact h.set
    · cases hp
  · cases hp
    intro j c y hy
    dsimp only at hy
    rw [List.getElem?_append] at hy
    split at hy
    · exact h j c y hy
    · rw [List.getElem?_singleton] at hy
      split at hy
      · cases hy; exact ⟨_, rfl⟩
      · cases hy

theorem Handles.clone {max : Nat} {rv rv' : Recycle.RecycleVec Stored} (h : Handles rv) {id id' : Nat}
    (hp : Recycle.clone max rv id = .ok (id', rv')) : Handles rv' := by
  unfold Recycle.clone at hp
  split at hp
  · cases hp
  · cases hp
  · rename_i rc x hx
    obtain ⟨y, rfl⟩ := h _ _ _ hx
    split at hp
    · cases hp; exact h.set
    · cases hp

theorem Handles.replace {rv rv' : Recycle.RecycleVec Stored} (h : Handles rv) {id : Nat} {x : Option (Nat × Nat)} {old : Stored}
    (hp : Recycle.replace rv id (.handle x) = .ok (old, rv')) : Handles rv' := by
  unfold Recycle.replace at hp
  split at hp
  · cases hp
  · cases hp
  · cases hp; exact h.set

/-- Whatever an insertion does to the store, and wherever it stops. -/
theorem Handles.cmd {rv rv' : Recycle.RecycleVec Stored} (h : Handles rv) {c : StoreCmd} (hc : storeCmd rv c = .ok rv') : Handles rv' := by
  cases c with
  | update r p i =>
    simp only [storeCmd, bind_ok_iff] at hc
    obtain ⟨⟨old, rv1⟩, h1, hc⟩ := hc
    split at hc
    · cases hc; exact h.replace h1
    · cases hc
  | suspend r =>
    simp only [storeCmd, bind_ok_iff] at hc
    obtain ⟨⟨old, rv1⟩, h1, hc⟩ := hc
    split at hc
    · cases hc; exact h.replace h1
    · cases hc

theorem Handles.cmds {rv rv' : Recycle.RecycleVec Stored} (h : Handles rv) {l : List StoreCmd} (hc : l.foldlM storeCmd rv = .ok rv') : Handles rv' := by
  induction l generalizing rv with
  | nil => cases hc; exact h
  | cons c l ih =>
    rw [List.foldlM_cons, bind_ok_iff] at hc
    obtain ⟨rv1, h1, hc⟩ := hc
    exact ih (h.cmd h1) hc

namespace Sys
variable {max : Nat}

theorem makeRef_handles {st st' : RefTree I S} (hh : Handles st.refs) {h : Nat × Nat} {id : Nat} (hm : st.makeRef max h = .ok (id, st')) :
    Handles st'.refs := by
  simp only [RefTree.makeRef, bind_ok_iff] at hm
  obtain ⟨c, -, hm⟩ := hm
  split at hm
  · simp only [bind_ok_iff] at hm
    obtain ⟨⟨i1, rv1⟩, h1, hm⟩ := hm
    cases hm
    exact hh.clone h1
  · simp only [bind_ok_iff] at hm
    obtain ⟨⟨i1, rv1⟩, h1, ⟨i2, rv2⟩, h2, hm⟩ := hm
    cases hm
    exact (hh.push h1).clone h2

theorem insert_handles {E : Env I S} {st : RefTree I S} (hh : Handles st.refs) {nop : Bool} {hints : List Nat} {idx : I} {x : S} {size : I}
    {r} (h : st.insert E nop hints idx x size = .ok r) : Handles r.1.refs := by
  simp only [RefTree.insert, bind_ok_iff] at h
  obtain ⟨⟨t, o⟩, -, rv, h2, h3⟩ := h
  cases h3
  refine Handles.cmds ?_ h2
  split
  · exact .empty
  · exact hh

/-- Every sequence of calls that the compiler accepts, with panics anywhere; a panic in the middle of an insertion leaves the tree in any state,
but handles in the store (`Handles.cmds`). -/
inductive AnyH (max : Nat) (E : Env I S) : Sys I S → Prop
  | start (n : Nat) : AnyH max E (start n)
  | step {s s' : Sys I S} {op : Call I S} {r : R (Val I S)} : AnyH max E s → Legal s op →
      (∀ nop hints idx x size crash junk, op = .insert nop hints idx x size crash junk → Handles junk.refs) → exec max E s op = (r, s') → AnyH max E s'

theorem collapse_st (s : Sys I S) (i : Nat) : (collapse s i).2.st = s.st := by
  unfold collapse
  repeat' split
  all_goals rfl

theorem innerDrop_handles {s : Sys I S} {b : Bool} : Handles (innerDrop s b).2.st.refs := by
  unfold innerDrop
  dsimp only
  repeat' split
  all_goals exact .empty

theorem release_handles {s : Sys I S} (h : Handles s.st.refs) : Handles (release s).2.st.refs := by
  unfold release
  repeat' split
  · exact h
  · exact h
  · exact h
  · exact innerDrop_handles

theorem tempBorrow_handles {s : Sys I S} (h : Handles s.st.refs) (i : Nat) : Handles (tempBorrow max s i).2.st.refs := by
  unfold tempBorrow
  split
  · exact h
  · split
    · exact h
    · exact h
    · rename_i b _
      have hc := collapse_st { s with borrow := b } i
      have h' : Handles (collapse { s with borrow := b } i).2.st.refs := by rw [hc]; exact h
      split <;> · rename_i he; rw [he] at h'; exact h'

theorem borrowRead_handles {X : Type} {s : Sys I S} (h : Handles s.st.refs) {i : Nat} {strict : Bool} {read : RleTree I S → Nat × Nat → R X}
    {wrap : Option X → Val I S} : Handles (borrowRead max s i strict read wrap).2.st.refs := by
  have ht := tempBorrow_handles (max := max) h i
  unfold borrowRead
  split
  · rename_i he; rw [he] at ht; exact ht
  · rename_i he; rw [he] at ht; exact ht
  · rename_i he; rw [he] at ht
    have hr := release_handles ht
    dsimp only at hr
    split <;> · rename_i hq; rw [hq] at hr; exact hr
  · rename_i he; rw [he] at ht
    have hr := release_handles ht
    dsimp only at hr
    split
    · rename_i hq; rw [hq] at hr; exact hr
    · rename_i hq; rw [hq] at hr
      split <;> exact hr

theorem storeDrop_handles {s : Sys I S} (h : Handles s.st.refs) : Handles (storeDrop s).2.st.refs := by
  unfold storeDrop
  split
  · exact h
  · rename_i b _
    have hi := innerDrop_handles (s := { s with borrow := b }) (b := false)
    split
    · rename_i he; rw [he] at hi; exact hi
    · rename_i he; rw [he] at hi
      split <;> exact hi

theorem exec_handles {E : Env I S} {s : Sys I S} (h : Handles s.st.refs) {op : Call I S}
    (hj : ∀ nop hints idx x size crash junk, op = .insert nop hints idx x size crash junk → Handles junk.refs) :
    Handles (exec max E s op).2.st.refs := by
  cases op with
  | insert nop hints idx x size crash junk =>
    have hjunk := hj _ _ _ _ _ _ _ rfl
    simp only [exec, Sys.insert]
    split
    · exact h
    · split
      · exact h
      · split
        · split
          · exact h
          · rename_i hi
            exact insert_handles h hi
        · split
          · exact h
          · split
            · exact h
            · exact h
            · split
              · exact hjunk
              · split
                · exact hjunk
                · rename_i hi
                  split <;> exact insert_handles h hi
  | makeRef p =>
    simp only [exec, Sys.makeRef]
    split
    · exact h
    · split
      · exact h
      · rename_i id st hm
        have := makeRef_handles h hm
        split
        · exact this
        · rename_i s2 hb
          unfold bumpWeak at hb
          split at hb
          · cases hb; exact this
          · cases hb
  | cloneRef i =>
    simp only [exec, Sys.cloneRef]
    split
    · exact h
    · split
      · exact h
      · split
        · exact h
        · exact h
        · split
          · exact h
          · rename_i s2 hb
            unfold bumpWeak at hb
            split at hb
            · cases hb
              split
              · exact h
              · rename_i id' st hc
                simp only [RefTree.cloneRef, bind_ok_iff] at hc
                obtain ⟨⟨i1, rv1⟩, h1, hc⟩ := hc
                cases hc
                exact h.clone h1
            · cases hb
    · exact h
  | dropRef i =>
    simp only [exec, Sys.dropRef]
    repeat' split
    all_goals exact h
  | isValid i =>
    simp only [exec, Sys.isValid]
    split
    · exact h
    · split
      · exact h
      · exact h
      · have hc := collapse_st s i
        split <;> · rename_i he; rw [he] at hc; dsimp only at hc ⊢; rw [hc]; exact h
  | canBorrow i => exact h
  | borrow i strict =>
    have ht := tempBorrow_handles (max := max) h i
    simp only [exec, borrowSlice]
    split
    · rename_i he; rw [he] at ht; exact ht
    · rename_i he; rw [he] at ht; exact ht
    · rename_i he; rw [he] at ht
      have hr := release_handles ht
      dsimp only at hr
      split <;> · rename_i hq; rw [hq] at hr; exact hr
    · rename_i he; rw [he] at ht
      split <;> exact ht
  | range i strict => exact borrowRead_handles h
  | cursor i strict => exact borrowRead_handles h
  | cloneBorrow j =>
    simp only [exec, withBorrow]
    split
    · unfold cloneBorrow
      repeat' split
      all_goals exact h
    · exact h
  | dropBorrow j =>
    have hr := release_handles (s := { s with borrows := s.borrows.set j none }) h
    simp only [exec, Sys.dropBorrow]
    split <;> · rename_i hq; rw [hq] at hr; exact hr
  | read j =>
    simp only [exec, withBorrow]
    split <;> exact h
  | dropTree =>
    simp only [exec, Sys.dropTree]
    split
    · exact h
    · split
      · exact h
      · split
        · exact h
        · exact storeDrop_handles h
        · exact storeDrop_handles h

/-- C61: after every history, with panics anywhere, the store has handles only; -/
theorem stored_handles {E : Env I S} {s : Sys I S} (h : AnyH max E s) : Handles s.st.refs := by
  induction h with
  | start n => exact .empty
  | step _ _ hj he ih =>
    have := exec_handles (max := max) (E := E) ih hj
    rw [he] at this
    exact this

/-- C61: so looking up a reference never fails because the store is borrowed, -/
theorem stored_lookup {E : Env I S} {s : Sys I S} (h : AnyH max E s) {id : Nat} {x : Stored} (hg : Recycle.get s.st.refs id = .ok x) :
    ∃ p, x = .handle p := by
  unfold Recycle.get at hg
  split at hg
  · cases hg
  · cases hg
  · rename_i hx
    cases hg
    exact stored_handles h _ _ _ hx

/-- though it would if an entry were something else: `is_valid` of a reference to a removed slice would panic instead of returning
`false`. -/
theorem removed_would_panic {E : Env I S} {s : Sys I S} {i id : Nat} (ha : s.alloc = .live) (hb : s.borrow ≠ .dropping ∧ s.borrow ≠ .dropped)
    (hi : s.srefs[i]? = some (some (some id))) (hg : Recycle.get s.st.refs id = .ok .removed) :
    ∃ s', exec max E s (.isValid i) = (.error (.panic "already borrowed: BorrowMutError"), s') := by
  simp only [exec, Sys.isValid, touch, ha]
  split
  · exact absurd (by assumption) hb.1
  · exact absurd (by assumption) hb.2
  · simp only [collapse, hi, hg]
    exact ⟨_, rfl⟩

/-- One insertion. -/
def exOne : Sys Nat Char := (exec 255 exEnv (start 0) (.insert false [] 0 'a' 3 false ⟨⟨none⟩, Recycle.empty, 0⟩)).2

/-- A history with a reference, whose store is not empty. -/
example : AnyH 255 exEnv (exec 255 exEnv exOne (.makeRef (0, 0))).2 ∧
    Recycle.get (exec 255 exEnv exOne (.makeRef (0, 0))).2.st.refs 0 = .ok (.handle (some (0, 0))) := by
  have h0 : AnyH 255 exEnv (start (I := Nat) (S := Char) 0) := .start 0
  have h1 : AnyH 255 exEnv exOne :=
    AnyH.step (op := .insert false [] 0 'a' 3 false ⟨⟨none⟩, Recycle.empty, 0⟩) h0 (show (start (I := Nat) (S := Char) 0).owner = true from rfl)
      (fun _ _ _ _ _ _ _ h => by cases h; exact .empty) rfl
  refine ⟨AnyH.step (op := .makeRef (0, 0)) h1 ?_ (fun _ _ _ _ _ _ _ h => by cases h) rfl, ?_⟩
  · refine ⟨by decide +kernel, ?_⟩
    have : (exOne.st.tree.places.map Cell.at).contains (0, 0) = true := by decide +kernel
    rw [List.contains_iff_mem, List.mem_map] at this
    exact this
  · have : (Recycle.get (exec 255 exEnv exOne (.makeRef (0, 0))).2.st.refs 0).toOption = some (.handle (some (0, 0))) := by decide +kernel
    cases hr : Recycle.get (exec 255 exEnv exOne (.makeRef (0, 0))).2.st.refs 0 with
    | error f => rw [hr] at this; cases this
    | ok x => rw [hr] at this; simp only [Except.toOption, Option.some.injEq] at this; rw [this]

end Sys
end Sherman
