import Verif.SliceRefInv
/-!
# Every call keeps the invariant of `Verif/SliceRefInv.lean`
-/
namespace Sherman
namespace Sys
variable {S : Type} {MAX max : Nat} {E : Env Nat S}

/-- What each call is to achieve: the invariant holds afterwards, failures are panics (no undefined behaviour, no
`unreachable!`), and what is behind a `Borrow` that stays alive has not changed. -/
def Good (MAX max : Nat) (E : Env Nat S) (s : Sys Nat S) (p : R (Val Nat S) × Sys Nat S) : Prop :=
  Inv MAX max E p.2 ∧ (∀ f, p.1 = .error f → ∃ m, f = .panic m) ∧
    (∀ (j : Nat) (b : Held), s.borrows[j]? = some (some b) → p.2.borrows[j]? = some (some b) → p.2.read b = s.read b)

theorem Good.same {s : Sys Nat S} (h : Inv MAX max E s) {r : R (Val Nat S)} (hr : ∀ f, r = .error f → ∃ m, f = .panic m) :
    Good MAX max E s (r, s) := ⟨h, hr, fun _ _ _ _ => rfl⟩

theorem touch_live {s : Sys Nat S} (h : s.alloc = .live) : s.touch = .ok () := by unfold touch; rw [h]

theorem lt_nat {a b : Nat} : (natIdx MAX).lt a b = decide (a < b) := by
  simp only [IdxOps.lt, natIdx]
  by_cases h : a < b
  · simp [h, Nat.compare_eq_lt.2 h]
  · rw [decide_eq_false h]
    simp [beq_eq_false_iff_ne, Nat.compare_eq_lt, h]

theorem le_zero_nat {a : Nat} : (natIdx MAX).le a (natIdx MAX).zero = decide (a = 0) := by
  cases a with
  | zero => rfl
  | succ a => simp [IdxOps.le, natIdx, compare, compareOfLessAndEq]

/-- In a live tree every id resolves to a place. -/
theorem get_alive (hE : E.ix = natIdx MAX) {st : RefTree Nat S} {ids : List Nat} (hl : Live MAX max E st ids) {id : Nat} (hid : id ∈ ids) :
    ∃ c ∈ st.tree.places, Recycle.get st.refs id = .ok (.handle (some c.at)) ∧ c.ref = some id ∧
      (∃ x y, rangeAt E st.tree c.at = .ok (x, y) ∧ st.range E id = .ok (x, y)) ∧
      cursorAt st.tree c.at = .ok c.path ∧ st.cursor id = .ok c.path ∧ st.slice id = .ok c.slice := by
  obtain ⟨A, e, B, c, h1, h2, h3, h4, h5, h6, h7⟩ := ref_resolves hE hl hid
  have hg : Recycle.get st.refs id = .ok (.handle (some c.at)) := by
    simp only [RefTree.resolve, bind_ok_iff] at h4
    obtain ⟨v, g1, g2⟩ := h4
    rw [g1]
    split at g2
    · simp only [R.pure_eq, Except.ok.injEq, Option.some.injEq] at g2; rw [g2]; rfl
    · cases g2
    · cases g2
    · cases g2
  have hh := ((hl.inv hE).reach.holds hE).2.1
  have hcr : c.slice = e.slice ∧ c.ref = e.ref := by
    have := congrArg (fun l => l[A.length]?) hh.places
    simp only [List.getElem?_map, h3, h1] at this
    simp at this
    exact this
  refine ⟨c, List.mem_of_getElem? h3, hg, hcr.2.trans h2, ⟨_, _, ?_, h5⟩, ?_, h7, hcr.1 ▸ h6⟩
  · rw [← h5]
    simp only [RefTree.range, h4, R.bind_ok, rangeAt, Cell.at]
    rfl
  · rw [← h7]
    simp only [RefTree.cursor, h4, R.bind_ok, cursorAt, Cell.at]
    rfl

theorem collapse_alive {s : Sys Nat S} {i id : Nat} {h : Nat × Nat} (hs : s.srefs[i]? = some (some (some id)))
    (hg : Recycle.get s.st.refs id = .ok (.handle (some h))) : collapse s i = (.ok (some (some h)), s) := by
  simp only [collapse, hs, hg]

theorem tempBorrow_alive {s : Sys Nat S} {i id k : Nat} {h : Nat × Nat} (ha : s.alloc = .live) (hb : s.borrow = stateOf k)
    (hk : k + 1 ≤ max) (hs : s.srefs[i]? = some (some (some id))) (hg : Recycle.get s.st.refs id = .ok (.handle (some h))) :
    tempBorrow max s i = (.ok (.ok (some h)), { s with borrow := stateOf (k + 1) }) := by
  unfold tempBorrow
  rw [touch_live ha, hb, stateOf_borrow hk]
  simp only
  rw [collapse_alive (s := { s with borrow := stateOf (k + 1) }) hs hg]

theorem release_alive {s : Sys Nat S} {k : Nat} (ha : s.alloc = .live) (hb : s.borrow = stateOf (k + 1)) :
    release s = (.ok (), { s with borrow := stateOf k }) := by
  unfold release
  rw [touch_live ha, hb, stateOf_drop]

theorem tempBorrow_gone {s : Sys Nat S} {i : Nat} (ha : s.alloc = .live) (hb : s.borrow = .dropped) :
    tempBorrow max s i = (.ok (.error .getImmutAlreadyDropped), s) := by
  unfold tempBorrow
  rw [touch_live ha, hb]
  rfl

theorem gone_live {s : Sys Nat S} {i : Nat} {o : Option Nat} (ha : s.alloc = (if s.nref = 0 then .freed else .live))
    (hi : s.srefs[i]? = some (some o)) : s.alloc = .live := by
  rw [ha, if_neg]
  have := countP_pos_of hi
  unfold nref
  omega

theorem window_calm {s : Sys Nat S} (ho : s.owner = false) (hn : 0 < s.nbor) (hc : s.owner = true ∨ s.nbor = 0) : False := by
  rcases hc with h | h
  · rw [ho] at h; cases h
  · omega

theorem step_isValid (hE : E.ix = natIdx MAX) {s : Sys Nat S} (hi : Inv MAX max E s) {i : Nat} {o : Option Nat}
    (hl : s.srefs[i]? = some (some o)) (hc : s.owner = true ∨ s.nbor = 0) :
    s.isValid i = (.ok (.bool s.owner), s) := by
  cases hi with
  | empty _ h => rw [h] at hl; simp at hl
  | alive ids hu ho hb hL hlen hids =>
    obtain ⟨id, h1, rfl⟩ := hids i o hl
    obtain ⟨c, g1, g2, _⟩ := get_alive hE hL h1
    unfold isValid
    rw [touch_live hu.alloc, collapse_alive hl g2, ho, hb]
    unfold stateOf
    by_cases hk : s.nbor = 0
    · simp [hk]
    · simp [hk]
  | window hu ho hn hb => exact (window_calm ho hn hc).elim
  | gone ho hn hb hd hw ht ha =>
    unfold isValid
    rw [touch_live (gone_live ha hl), hb, ho]

theorem step_canBorrow {s : Sys Nat S} (hi : Inv MAX max E s) {i : Nat} {o : Option Nat}
    (hl : s.srefs[i]? = some (some o)) : s.canBorrow = .ok (.bool (s.owner || decide (0 < s.nbor))) := by
  cases hi with
  | empty _ h => rw [h] at hl; simp at hl
  | alive ids hu ho hb =>
    unfold canBorrow
    rw [touch_live hu.alloc, ho, hb]
    unfold stateOf
    by_cases hk : s.nbor = 0
    · simp [hk]
    · simp [hk]
  | window hu ho hn hb =>
    unfold canBorrow
    rw [touch_live hu.alloc, ho, hb]
    simp [hn]
  | gone ho hn hb hd hw ht ha =>
    unfold canBorrow
    rw [touch_live (gone_live ha hl), hb, ho, hn]
    rfl

/-- `borrow_slice` and `try_borrow_slice` of a live tree. -/
theorem borrowSlice_alive (hE : E.ix = natIdx MAX) {s : Sys Nat S} {ids : List Nat} (hu : Up s) (hb : s.borrow = stateOf s.nbor)
    (hL : Live MAX max E s.st ids) {i id : Nat} (hid : id ∈ ids) (hl : s.srefs[i]? = some (some (some id)))
    (hk : s.borrows.length < max) (strict : Bool) :
    ∃ c ∈ s.st.tree.places, c.ref = some id ∧ s.st.slice id = .ok c.slice ∧
      s.borrowSlice max i strict = (.ok (.borrow (some s.borrows.length)),
        { s with borrow := stateOf (s.nbor + 1), borrows := s.borrows ++ [some ⟨i, c.at⟩] }) := by
  obtain ⟨c, g1, g2, g3, _, _, _, g4⟩ := get_alive hE hL hid
  refine ⟨c, g1, g3, g4, ?_⟩
  have := s.nbor_le
  unfold borrowSlice
  rw [tempBorrow_alive hu.alloc hb (by omega) hl g2]
  simp only
  rw [deref_place hu.nodup g1]

theorem Inv.borrowed {s : Sys Nat S} {ids : List Nat} (hu : Up s) (ho : s.owner = true) (hb : s.borrow = stateOf s.nbor)
    (hL : Live MAX max E s.st ids) (hlen : ids.length ≤ s.srefs.length)
    (hids : ∀ (i : Nat) (o : Option Nat), s.srefs[i]? = some (some o) → ∃ id ∈ ids, o = some id) {b : Held}
    (h1 : ∃ o, s.srefs[b.sref]? = some (some o)) (h2 : ∃ c ∈ s.st.tree.places, c.at = b.at_) :
    Inv MAX max E { s with borrow := stateOf (s.nbor + 1), borrows := s.borrows ++ [some b] } := by
  refine .alive ids ⟨hu.alloc, hu.root, hu.weak, hu.ptr, hu.fresh, hu.nodup, ?_⟩ ho ?_ hL hlen hids
  · intro j b' hj
    simp only [List.getElem?_append] at hj
    split at hj
    · exact hu.held j b' hj
    · rw [List.getElem?_singleton] at hj
      split at hj
      · simp only [Option.some.injEq] at hj; subst hj; exact ⟨h1, h2⟩
      · cases hj
  · simp [nbor]

theorem step_borrow (hE : E.ix = natIdx MAX) {s : Sys Nat S} (hi : Inv MAX max E s) {i : Nat} {o : Option Nat}
    (hl : s.srefs[i]? = some (some o)) (hc : (s.owner = true ∨ s.nbor = 0) ∧ s.borrows.length < max) (strict : Bool) :
    Good MAX max E s (s.borrowSlice max i strict) := by
  cases hi with
  | empty _ h => rw [h] at hl; simp at hl
  | alive ids hu ho hb hL hlen hids =>
    obtain ⟨id, h1, rfl⟩ := hids i o hl
    obtain ⟨c, g1, g2, _, g3⟩ := borrowSlice_alive hE hu hb hL h1 hl hc.2 strict
    rw [g3]
    exact ⟨Inv.borrowed hu ho hb hL hlen hids ⟨_, hl⟩ ⟨c, g1, rfl⟩, fun f hf => (by cases hf), fun _ _ _ _ => rfl⟩
  | window hu ho hn hb => exact (window_calm ho hn hc.1).elim
  | gone ho hn hb hd hw ht ha =>
    unfold borrowSlice
    rw [tempBorrow_gone (gone_live ha hl) hb]
    cases strict
    · exact Good.same (.gone ho hn hb hd hw ht ha) (fun f hf => by cases hf)
    · exact Good.same (.gone ho hn hb hd hw ht ha) (fun f hf => by cases hf; exact ⟨_, rfl⟩)

theorem step_read (hE : E.ix = natIdx MAX) {X : Type} {s : Sys Nat S} (hi : Inv MAX max E s) {i : Nat} {o : Option Nat}
    (hl : s.srefs[i]? = some (some o)) (hc : (s.owner = true ∨ s.nbor = 0) ∧ s.borrows.length < max) (strict : Bool)
    {read : RleTree Nat S → Nat × Nat → R X} {wrap : Option X → Val Nat S}
    (hr : ∀ {st : RefTree Nat S} {ids : List Nat} {id : Nat}, Live MAX max E st ids → id ∈ ids → ∀ c ∈ st.tree.places,
      c.ref = some id → Recycle.get st.refs id = .ok (.handle (some c.at)) → ∃ x, read st.tree c.at = .ok x) :
    Good MAX max E s (s.borrowRead max i strict read wrap) ∧ (s.borrowRead max i strict read wrap).2 = s := by
  cases hi with
  | empty _ h => rw [h] at hl; simp at hl
  | alive ids hu ho hb hL hlen hids =>
    obtain ⟨id, h1, rfl⟩ := hids i o hl
    obtain ⟨c, g1, g2, g3, _⟩ := get_alive hE hL h1
    obtain ⟨x, hx⟩ := hr hL h1 c g1 g3 g2
    have := s.nbor_le
    have key : s.borrowRead max i strict read wrap = (.ok (wrap (some x)), s) := by
      unfold borrowRead
      rw [tempBorrow_alive hu.alloc hb (by omega) hl g2]
      simp only
      rw [release_alive (s := { s with borrow := stateOf (s.nbor + 1) }) hu.alloc rfl]
      simp only [hx, ← hb]
    rw [key]
    exact ⟨Good.same (.alive ids hu ho hb hL hlen hids) (fun f hf => by cases hf), rfl⟩
  | window hu ho hn hb => exact (window_calm ho hn hc.1).elim
  | gone ho hn hb hd hw ht ha =>
    unfold borrowRead
    rw [tempBorrow_gone (gone_live ha hl) hb]
    cases strict
    · exact ⟨Good.same (.gone ho hn hb hd hw ht ha) (fun f hf => by cases hf), rfl⟩
    · exact ⟨Good.same (.gone ho hn hb hd hw ht ha) (fun f hf => by cases hf; exact ⟨_, rfl⟩), rfl⟩

theorem step_range (hE : E.ix = natIdx MAX) {s : Sys Nat S} (hi : Inv MAX max E s) {i : Nat} {o : Option Nat}
    (hl : s.srefs[i]? = some (some o)) (hc : (s.owner = true ∨ s.nbor = 0) ∧ s.borrows.length < max) (strict : Bool) :
    Good MAX max E s (s.borrowRead max i strict (rangeAt E) .range) ∧ (s.borrowRead max i strict (rangeAt E) .range).2 = s := by
  refine step_read hE hi hl hc strict ?_
  intro st ids id hL hid c h1 h2 h3
  obtain ⟨c', _, g2, _, ⟨x, y, g3, _⟩, _⟩ := get_alive hE hL hid
  rw [h3] at g2
  simp only [Except.ok.injEq, Stored.handle.injEq, Option.some.injEq] at g2
  exact ⟨_, g2 ▸ g3⟩

theorem step_cursor (hE : E.ix = natIdx MAX) {s : Sys Nat S} (hi : Inv MAX max E s) {i : Nat} {o : Option Nat}
    (hl : s.srefs[i]? = some (some o)) (hc : (s.owner = true ∨ s.nbor = 0) ∧ s.borrows.length < max) (strict : Bool) :
    Good MAX max E s (s.borrowRead max i strict cursorAt .cursor) ∧ (s.borrowRead max i strict cursorAt .cursor).2 = s := by
  refine step_read hE hi hl hc strict ?_
  intro st ids id hL hid c h1 h2 h3
  obtain ⟨c', _, g2, _, _, g3, _⟩ := get_alive hE hL hid
  rw [h3] at g2
  simp only [Except.ok.injEq, Stored.handle.injEq, Option.some.injEq] at g2
  exact ⟨_, g2 ▸ g3⟩

theorem step_dropRef {s : Sys Nat S} (hi : Inv MAX max E s) {i : Nat} {o : Option Nat}
    (hl : s.srefs[i]? = some (some o)) (hlb : ∀ (j : Nat) (b : Held), s.borrows[j]? = some (some b) → b.sref ≠ i) :
    (s.dropRef i).1 = .ok .unit ∧ Good MAX max E s (s.dropRef i) := by
  have hn : s.nref = (s.srefs.set i none).countP (·.isSome) + 1 := countP_set_none hl
  have hup : Up s → ¬ s.borrow = .dropped → s.dropRef i = (.ok .unit, { s with weak := s.weak - 1, srefs := s.srefs.set i none }) ∧
      Up { s with weak := s.weak - 1, srefs := s.srefs.set i none } := by
    intro hu hb
    constructor
    · unfold dropRef
      rw [touch_live hu.alloc]
      have h1 : ¬ s.weak = 0 := by rw [hu.weak, hn]; omega
      simp only [if_neg h1]
      rw [if_neg (fun h => hb h.2)]
    · refine ⟨hu.alloc, hu.root, ?_, hu.ptr, hu.fresh, hu.nodup, ?_⟩
      · show s.weak - 1 = (s.srefs.set i none).countP (·.isSome)
        rw [hu.weak, hn]; omega
      · intro j b hj
        obtain ⟨⟨o', h1⟩, h2⟩ := hu.held j b hj
        refine ⟨⟨o', ?_⟩, h2⟩
        show (s.srefs.set i none)[b.sref]? = _
        rw [List.getElem?_set_ne (hlb j b hj).symm, h1]
  cases hi with
  | empty _ h => rw [h] at hl; simp at hl
  | alive ids hu ho hb hL hlen hids =>
    have hbd : ¬ s.borrow = .dropped := by rw [hb]; unfold stateOf; split <;> simp
    obtain ⟨h1, h2⟩ := hup hu hbd
    rw [h1]
    refine ⟨rfl, .alive ids h2 ho hb hL (by simpa using hlen) ?_, fun f hf => (by cases hf), fun _ _ _ _ => rfl⟩
    intro i' o' hi'
    simp only [List.getElem?_set] at hi'
    split at hi'
    · split at hi'
      · cases hi'
      · cases hi'
    · exact hids i' o' hi'
  | window hu ho hn hb =>
    obtain ⟨h1, h2⟩ := hup hu (by rw [hb]; simp)
    rw [h1]
    exact ⟨rfl, .window h2 ho hn hb, fun f hf => (by cases hf), fun _ _ _ _ => rfl⟩
  | gone ho hnb hb hd hw ht ha =>
    have h1 : ¬ s.weak = 0 := by rw [hw, hn]; omega
    have h2 : s.weak - 1 = (s.srefs.set i none).countP (·.isSome) := by rw [hw, hn]; omega
    unfold dropRef
    rw [touch_live (gone_live ha hl)]
    simp only [if_neg h1, hb, and_true]
    by_cases h0 : s.weak - 1 = 0
    · rw [if_pos h0]
      refine ⟨rfl, .gone ho hnb rfl hd h2 ht ?_, fun f hf => (by cases hf), fun _ _ _ _ => rfl⟩
      show Alloc.freed = _
      rw [if_pos]
      show (s.srefs.set i none).countP (·.isSome) = 0
      omega
    · rw [if_neg h0]
      refine ⟨rfl, .gone ho hnb rfl hd h2 ht ?_, fun f hf => (by cases hf), fun _ _ _ _ => rfl⟩
      show s.alloc = _
      rw [if_neg, gone_live ha hl]
      show ¬ (s.srefs.set i none).countP (·.isSome) = 0
      omega

theorem step_makeRef (hE : E.ix = natIdx MAX) {s : Sys Nat S} (hi : Inv MAX max E s) {h : Nat × Nat}
    (ho : s.owner = true) (hh : ∃ c ∈ s.st.tree.places, c.at = h) (hc : s.srefs.length + 1 < max) :
    (∃ id st', s.st.makeRef max h = .ok (id, st') ∧ s.makeRef max h = (.ok (.sref s.srefs.length),
        { s with st := st', weak := s.weak + 1, srefs := s.srefs ++ [some (some id)] })) ∧ Good MAX max E s (s.makeRef max h) := by
  cases hi with
  | empty _ _ _ ht => rw [ht] at hh; simp [RleTree.places] at hh
  | alive ids hu ho hb hL hlen hids =>
    obtain ⟨c, hm, rfl⟩ := hh
    obtain ⟨id, st', hmk⟩ := makeRef_returns hE hL (by omega) hm
    obtain ⟨t1, t2, t3⟩ := makeRef_tree hE hL hmk
    have hat := places_at t1
    have := s.nref_le
    have key : s.makeRef max c.at = (.ok (.sref s.srefs.length), { s with st := st', weak := s.weak + 1, srefs := s.srefs ++ [some (some id)] }) := by
      unfold makeRef
      rw [touch_live hu.alloc]
      simp only [hmk, bumpWeak]
      rw [if_pos (by rw [hu.weak]; omega)]
    rw [key]
    refine ⟨⟨id, st', hmk, rfl⟩, .alive (id :: ids) ⟨hu.alloc, ?_, ?_, ?_, hu.fresh, ?_, ?_⟩ ho hb (hL.makeRef hmk) ?_ ?_, fun f hf => (by cases hf), ?_⟩
    · show st'.tree.root.isSome; rw [t3]; exact hu.root
    · simp [nref, hu.weak]
    · show s.root = rootPtr st'.tree; rw [t2]; exact hu.ptr
    · show (st'.tree.places.map Cell.at).Nodup; rw [hat]; exact hu.nodup
    · intro j b hj
      obtain ⟨⟨o, h1⟩, h2⟩ := hu.held j b hj
      refine ⟨⟨o, ?_⟩, mem_at hat h2⟩
      show (s.srefs ++ _)[b.sref]? = _
      rw [List.getElem?_append_left (List.getElem?_eq_some_iff.1 h1).1, h1]
    · simpa using hlen
    · intro i o hi
      simp only [List.getElem?_append] at hi
      split at hi
      · obtain ⟨id', h1, h2⟩ := hids i o hi
        exact ⟨id', by simp [h1], h2⟩
      · rw [List.getElem?_singleton] at hi
        split at hi
        · simp only [Option.some.injEq] at hi; subst hi; exact ⟨id, by simp, rfl⟩
        · cases hi
    · intro j b _ _
      show (st'.tree.deref b.at_ >>= fun c => pure (Val.slice c.slice)) = (s.st.tree.deref b.at_ >>= fun c => pure (Val.slice c.slice))
      have := deref_congr t1 b.at_
      revert this
      cases st'.tree.deref b.at_ <;> cases s.st.tree.deref b.at_ <;> intro this <;> simp [Except.map] at this <;> simp [this]
      all_goals rfl
  | window hu ho' => rw [ho] at ho'; cases ho'
  | gone ho' => rw [ho] at ho'; cases ho'

theorem step_cloneRef (hE : E.ix = natIdx MAX) {s : Sys Nat S} (hi : Inv MAX max E s) {i : Nat} {o : Option Nat}
    (hl : s.srefs[i]? = some (some o)) (ho : s.owner = true) (hc : s.srefs.length + 1 < max) :
    (∃ id id', o = some id ∧ s.cloneRef max i = (.ok (.sref s.srefs.length), (s.cloneRef max i).2) ∧
      (s.cloneRef max i).2.srefs = s.srefs ++ [some (some id')]) ∧ Good MAX max E s (s.cloneRef max i) := by
  cases hi with
  | empty _ h => rw [h] at hl; simp at hl
  | alive ids hu ho hb hL hlen hids =>
    obtain ⟨id, h1, rfl⟩ := hids i o hl
    obtain ⟨c, g1, g2, g3, _⟩ := get_alive hE hL h1
    have hcl : ∃ rv, Recycle.clone max s.st.refs id = .ok (id, rv) := by
      have hcnt := hL.counts
      unfold Recycle.get at g2
      split at g2
      · cases g2
      · cases g2
      · rename_i rc inner hv
        have := hcnt _ _ _ hv
        unfold Recycle.clone
        rw [hv]
        simp only
        rw [if_pos (by omega)]
        exact ⟨_, rfl⟩
    obtain ⟨rv, hrv⟩ := hcl
    have hcr : s.st.cloneRef max id = .ok (id, { s.st with refs := rv }) := by
      simp only [RefTree.cloneRef, hrv, R.bind_ok]; rfl
    have := s.nref_le
    have key : s.cloneRef max i = (.ok (.sref s.srefs.length),
        { s with st := { s.st with refs := rv }, weak := s.weak + 1, srefs := s.srefs ++ [some (some id)] }) := by
      unfold cloneRef
      rw [hl]
      simp only [touch_live hu.alloc]
      have hbw : bumpWeak max s = .ok { s with weak := s.weak + 1 } := by
        unfold bumpWeak
        rw [if_pos (by rw [hu.weak]; omega)]
      rw [hb]
      unfold stateOf
      by_cases hk : s.nbor = 0
      · simp only [hk, if_true, hbw, hcr]
        rw [show s.borrow = .notBorrowed by rw [hb, hk]; rfl]
      · simp only [hk, if_false, hbw, hcr]
        rw [show s.borrow = .immutable s.nbor false by rw [hb]; simp [stateOf, hk]]
    rw [key]
    refine ⟨⟨id, id, rfl, rfl, rfl⟩, .alive (id :: ids) ⟨hu.alloc, hu.root, ?_, hu.ptr, hu.fresh, hu.nodup, ?_⟩ ho hb (hL.cloneRef h1 hcr) ?_ ?_,
      fun f hf => (by cases hf), fun _ _ _ _ => rfl⟩
    · simp [nref, hu.weak]
    · intro j b hj
      obtain ⟨⟨o, h1⟩, h2⟩ := hu.held j b hj
      refine ⟨⟨o, ?_⟩, h2⟩
      show (s.srefs ++ _)[b.sref]? = _
      rw [List.getElem?_append_left (List.getElem?_eq_some_iff.1 h1).1, h1]
    · simpa using hlen
    · intro i o hi
      simp only [List.getElem?_append] at hi
      split at hi
      · obtain ⟨id', h1, h2⟩ := hids i o hi
        exact ⟨id', by simp [h1], h2⟩
      · rw [List.getElem?_singleton] at hi
        split at hi
        · simp only [Option.some.injEq] at hi; subst hi; exact ⟨id, by simp, rfl⟩
        · cases hi
  | window hu ho' => rw [ho] at ho'; cases ho'
  | gone ho' => rw [ho] at ho'; cases ho'

theorem step_cloneBorrow {s : Sys Nat S} (hi : Inv MAX max E s) {j : Nat} {b : Held} (hj : s.borrows[j]? = some (some b))
    (hc : s.borrows.length < max) : (s.cloneBorrow max b).1 = .ok (.borrow (some s.borrows.length)) ∧
      Good MAX max E s (s.cloneBorrow max b) := by
  have hpos : 0 < s.nbor := countP_pos_of hj
  have := s.nbor_le
  cases hi with
  | empty _ _ h => rw [h] at hj; simp at hj
  | alive ids hu ho hb hL hlen hids =>
    obtain ⟨k, hk⟩ : ∃ k, s.nbor = k + 1 := ⟨s.nbor - 1, by omega⟩
    have key : s.cloneBorrow max b = (.ok (.borrow (some s.borrows.length)), { s with borrow := stateOf (s.nbor + 1), borrows := s.borrows ++ [some b] }) := by
      unfold cloneBorrow
      rw [touch_live hu.alloc, hb, hk]
      simp only
      rw [stateOf_clone (by omega)]
    rw [key]
    obtain ⟨h1, h2⟩ := hu.held j b hj
    exact ⟨rfl, Inv.borrowed hu ho hb hL hlen hids h1 h2, fun f hf => (by cases hf), fun _ _ _ _ => rfl⟩
  | window hu ho hn hb =>
    have key : s.cloneBorrow max b = (.ok (.borrow (some s.borrows.length)), { s with borrow := .immutable (s.nbor + 1) true, borrows := s.borrows ++ [some b] }) := by
      unfold cloneBorrow
      rw [touch_live hu.alloc, hb]
      simp only [cloneBorrowState]
      rw [if_pos (by omega)]
    rw [key]
    refine ⟨rfl, .window ⟨hu.alloc, hu.root, hu.weak, hu.ptr, hu.fresh, hu.nodup, ?_⟩ ho ?_ ?_, fun f hf => (by cases hf), fun _ _ _ _ => rfl⟩
    · intro j' b' hj'
      simp only [List.getElem?_append] at hj'
      split at hj'
      · exact hu.held j' b' hj'
      · rw [List.getElem?_singleton] at hj'
        split at hj'
        · simp only [Option.some.injEq] at hj'; subst hj'; exact hu.held j b hj
        · cases hj'
    · simp [nbor]
    · simp [nbor]
  | gone ho hn => exact (none_alive hn hj).elim

theorem held_dropped {s : Sys Nat S} (hu : Up s) (j : Nat) (bs : BState) : Up { s with borrows := s.borrows.set j none, borrow := bs } := by
  refine ⟨hu.alloc, hu.root, hu.weak, hu.ptr, hu.fresh, hu.nodup, ?_⟩
  intro j' b' hj'
  simp only [List.getElem?_set] at hj'
  split at hj'
  · split at hj'
    · cases hj'
    · cases hj'
  · exact hu.held j' b' hj'

/-- Dropping a `Borrow`; the last one of a dropped tree destroys the nodes. -/
theorem step_dropBorrow {s : Sys Nat S} (hi : Inv MAX max E s) {j : Nat} {b : Held} (hj : s.borrows[j]? = some (some b)) :
    (s.dropBorrow j).1 = .ok .unit ∧ Good MAX max E s (s.dropBorrow j) ∧
      (s.dropBorrow j).2.destroyed = (if s.owner = false ∧ s.nbor = 1 then 1 else s.destroyed) := by
  have hn : s.nbor = (s.borrows.set j none).countP (·.isSome) + 1 := countP_set_none hj
  cases hi with
  | empty _ _ h => rw [h] at hj; simp at hj
  | alive ids hu ho hb hL hlen hids =>
    have key : s.dropBorrow j = (.ok .unit, { s with borrows := s.borrows.set j none, borrow := stateOf (s.nbor - 1) }) := by
      unfold dropBorrow
      rw [release_alive (s := { s with borrows := s.borrows.set j none }) (k := s.nbor - 1) hu.alloc (by
        show s.borrow = _
        rw [hb, show s.nbor - 1 + 1 = s.nbor by omega])]
    rw [key]
    refine ⟨rfl, ⟨.alive ids (held_dropped hu j _) ho ?_ hL hlen hids, fun f hf => (by cases hf), fun _ _ _ _ => rfl⟩, by simp [ho]⟩
    show stateOf (s.nbor - 1) = stateOf ((s.borrows.set j none).countP (·.isSome))
    congr 1; omega
  | window hu ho hpos hb =>
    by_cases h1 : s.nbor = 1
    · have key : s.dropBorrow j = (.ok .unit, { s with borrows := s.borrows.set j none, borrow := .dropped, root := none, destroyed := s.destroyed + 1, st := { s.st with tree := ⟨none⟩, refs := Recycle.empty } }) := by
        unfold dropBorrow release
        rw [touch_live (s := { s with borrows := s.borrows.set j none }) hu.alloc]
        simp only [hb, h1, dropBorrowState]
        simp only [Nat.succ_ne_zero, if_false, Nat.sub_self, ne_eq, not_true_eq_false, if_true, innerDrop, hu.ptr]
        have := hu.root
        cases hr : s.st.tree.root with
        | none => rw [hr] at this; cases this
        | some r => simp [rootPtr, hr]
      rw [key]
      refine ⟨rfl, ⟨.gone ho ?_ rfl ?_ hu.weak rfl ?_, fun f hf => (by cases hf), ?_⟩, ?_⟩
      · show (s.borrows.set j none).countP (·.isSome) = 0; omega
      · show s.destroyed + 1 = 1; rw [hu.fresh]
      · show s.alloc = if s.nref = 0 then _ else _
        obtain ⟨⟨o, h2⟩, _⟩ := hu.held j b hj
        rw [if_neg, hu.alloc]
        have : 0 < s.nref := countP_pos_of h2
        omega
      · intro j' b' _ hj'
        exfalso
        refine none_alive (l := s.borrows.set j none) ?_ hj'
        omega
      · show s.destroyed + 1 = _
        rw [if_pos ⟨ho, h1⟩, hu.fresh]
    · have key : s.dropBorrow j = (.ok .unit, { s with borrows := s.borrows.set j none, borrow := .immutable (s.nbor - 1) true }) := by
        unfold dropBorrow release
        rw [touch_live (s := { s with borrows := s.borrows.set j none }) hu.alloc]
        simp only [hb, dropBorrowState]
        rw [if_neg (by omega), if_pos (by omega)]
      rw [key]
      refine ⟨rfl, ⟨.window (held_dropped hu j _) ho ?_ ?_, fun f hf => (by cases hf), fun _ _ _ _ => rfl⟩, by simp [h1]⟩
      · show 0 < (s.borrows.set j none).countP (·.isSome); omega
      · show BState.immutable (s.nbor - 1) true = .immutable ((s.borrows.set j none).countP (·.isSome)) true
        congr 1; omega
  | gone ho hn => exact (none_alive hn hj).elim

theorem step_readBorrow {s : Sys Nat S} (hi : Inv MAX max E s) {j : Nat} {b : Held} (hj : s.borrows[j]? = some (some b)) :
    ∃ c ∈ s.st.tree.places, c.at = b.at_ ∧ s.read b = .ok (.slice c.slice) := by
  have key : Up s → ∃ c ∈ s.st.tree.places, c.at = b.at_ ∧ s.read b = .ok (.slice c.slice) := by
    intro hu
    obtain ⟨_, c, h1, h2⟩ := hu.held j b hj
    refine ⟨c, h1, h2, ?_⟩
    unfold read
    rw [← h2, deref_place hu.nodup h1]
    rfl
  cases hi with
  | empty _ _ h => rw [h] at hj; simp at hj
  | alive ids hu => exact key hu
  | window hu => exact key hu
  | gone ho hn => exact (none_alive hn hj).elim

theorem step_dropTree {s : Sys Nat S} (hi : Inv MAX max E s) (ho : s.owner = true) :
    (s.dropTree).1 = .ok .unit ∧ Good MAX max E s (s.dropTree) ∧ (s.dropTree).2.owner = false ∧
      (s.dropTree).2.destroyed = (if s.alloc = .live ∧ s.nbor = 0 then 1 else 0) := by
  cases hi with
  | empty ha hs hb ht hL hd =>
    have key : s.dropTree = (.ok .unit, { s with owner := false }) := by
      simp only [dropTree, ht]
    rw [key]
    exact ⟨rfl, ⟨.empty ha hs hb ht hL hd, fun f hf => (by cases hf), fun _ _ _ _ => rfl⟩, rfl, by simp [ha, hd]⟩
  | alive ids hu ho hb hL hlen hids =>
    obtain ⟨r, hr⟩ := Option.isSome_iff_exists.1 hu.root
    by_cases hk : s.nbor = 0
    · have hb' : s.borrow = .notBorrowed := by rw [hb, hk]; rfl
      have key : s.dropTree = (.ok .unit, { s with owner := false, borrow := .dropped, st := { s.st with tree := ⟨none⟩, refs := Recycle.empty }, destroyed := s.destroyed + 1, alloc := if s.weak = 0 then .freed else .live }) := by
        simp only [dropTree, hr, touch, hu.alloc, hb', tryAcquireDrop, storeDrop, storeDropState, innerDrop]
        by_cases hw : s.weak = 0
        · simp [hw]
        · simp [hw]
      rw [key]
      refine ⟨rfl, ⟨.gone rfl hk rfl ?_ hu.weak rfl ?_, fun f hf => (by cases hf), ?_⟩, rfl, ?_⟩
      · show s.destroyed + 1 = 1; rw [hu.fresh]
      · show (if s.weak = 0 then _ else _) = (if s.nref = 0 then _ else _); rw [hu.weak]
      · intro j b hj; exact (none_alive hk hj).elim
      · show s.destroyed + 1 = _
        rw [if_pos ⟨hu.alloc, hk⟩, hu.fresh]
    · have hb' : s.borrow = .immutable s.nbor false := by rw [hb]; simp [stateOf, hk]
      have key : s.dropTree = (.ok .unit, { s with owner := false, borrow := .immutable s.nbor true, st := { s.st with refs := Recycle.empty } }) := by
        simp only [dropTree, hr, touch, hu.alloc, hb', tryAcquireDrop, storeDrop, storeDropState, innerDrop]
        simp
      rw [key]
      refine ⟨rfl, ⟨.window ⟨hu.alloc, hu.root, hu.weak, hu.ptr, hu.fresh, hu.nodup, hu.held⟩ rfl (Nat.pos_of_ne_zero hk) rfl, fun f hf => (by cases hf), fun _ _ _ _ => rfl⟩, rfl, ?_⟩
      show s.destroyed = _
      rw [if_neg (fun h => hk h.2), hu.fresh]
  | window hu ho' => rw [ho] at ho'; cases ho'
  | gone ho' => rw [ho] at ho'; cases ho'

theorem step_insert (hE : E.ix = natIdx MAX) {s : Sys Nat S} (hi : Inv MAX max E s) {nop : Bool} {hints : List Nat} {idx : Nat} {x : S}
    {size : Nat} {crash : Bool} {junk : RefTree Nat S} (ho : s.owner = true)
    (hc : Calm MAX max E s (.insert nop hints idx x size crash junk)) :
    Good MAX max E s (s.insert E nop hints idx x size crash junk) := by
  obtain ⟨hs, hc⟩ := hc
  unfold insert
  rw [hE, lt_nat, le_zero_nat]
  by_cases h1 : s.st.tree.size E < idx
  · rw [if_pos (by simpa using h1)]
    exact Good.same hi (fun f hf => by cases hf; exact ⟨_, rfl⟩)
  rw [if_neg (by simpa using h1)]
  by_cases h2 : size = 0
  · rw [if_pos (by simpa using h2)]
    exact Good.same hi (fun f hf => by cases hf; exact ⟨_, rfl⟩)
  rw [if_neg (by simpa using h2)]
  have hc : 0 < s.nbor ∨ (crash = false ∧ ∃ r, s.st.insert E nop hints idx x size = .ok r) := by
    rcases hc with h | h | h | h
    · exact .inl h
    · exact absurd h h1
    · exact absurd h h2
    · exact .inr h
  cases hi with
  | empty ha hsr hbo ht hL hd =>
    rcases hc with h | ⟨_, ⟨st', out⟩, h⟩
    · simp [nbor, hbo] at h
    · have hL' := hL.insert hs h
      have hr := insert_root hE hL hs (by omega) h
      simp only [ht, h]
      refine ⟨.alive [] ⟨rfl, hr, ?_, rfl, hd, places_nodup (hL'.inv hE).own.addrs, ?_⟩ ho ?_ hL' (by simp) ?_, fun f hf => (by cases hf), ?_⟩
      · simp [nref, hsr]
      · intro j b hj; rw [hbo] at hj; simp at hj
      · simp [nbor, hbo, stateOf]
      · intro i o hi; rw [hsr] at hi; simp at hi
      · intro j b hj; rw [hbo] at hj; simp at hj
  | alive ids hu ho hb hL hlen hids =>
    obtain ⟨r, hr⟩ := Option.isSome_iff_exists.1 hu.root
    simp only [hr, touch_live hu.alloc]
    by_cases hk : s.nbor = 0
    · rcases hc with h | ⟨hcr, ⟨st', out⟩, h⟩
      · omega
      · have hb' : s.borrow = .notBorrowed := by rw [hb, hk]; rfl
        have hL' := hL.insert hs h
        have hr := insert_root hE hL hs (by omega) h
        simp only [hb', acquireMutable, hcr, h, releaseMutable]
        refine ⟨.alive ids ⟨hu.alloc, hr, hu.weak, rfl, hu.fresh, places_nodup (hL'.inv hE).own.addrs, ?_⟩ ho ?_ hL' hlen hids,
          fun f hf => (by cases hf), ?_⟩
        · intro j b hj; exact (none_alive hk hj).elim
        · show BState.notBorrowed = stateOf s.nbor
          rw [hk]; rfl
        · intro j b hj; exact (none_alive hk hj).elim
    · have hb' : s.borrow = .immutable s.nbor false := by rw [hb]; simp [stateOf, hk]
      rw [hb']
      simp only [acquireMutable]
      exact Good.same (.alive ids hu ho hb hL hlen hids) (fun f hf => by cases hf; exact ⟨_, rfl⟩)
  | window hu ho' => rw [ho] at ho'; cases ho'
  | gone ho' => rw [ho] at ho'; cases ho'

theorem step (hE : E.ix = natIdx MAX) {s : Sys Nat S} (hi : Inv MAX max E s) {op : Call Nat S} (hl : Legal s op)
    (hc : Calm MAX max E s op) : Good MAX max E s (exec max E s op) := by
  cases op with
  | insert nop hints idx x size crash junk => exact step_insert hE hi hl hc
  | makeRef h => exact (step_makeRef hE hi hl.1 hl.2 hc).2
  | cloneRef i => obtain ⟨o, hl⟩ := hl; exact (step_cloneRef hE hi hl hc.1 hc.2).2
  | dropRef i => obtain ⟨⟨o, hl⟩, h2⟩ := hl; exact (step_dropRef hi hl h2).2
  | isValid i =>
    obtain ⟨o, hl⟩ := hl
    show Good MAX max E s (s.isValid i)
    rw [step_isValid hE hi hl hc]
    exact Good.same hi (fun f hf => by cases hf)
  | canBorrow i =>
    obtain ⟨o, hl⟩ := hl
    show Good MAX max E s (s.canBorrow, s)
    rw [step_canBorrow hi hl]
    exact Good.same hi (fun f hf => by cases hf)
  | borrow i strict => obtain ⟨o, hl⟩ := hl; exact step_borrow hE hi hl hc strict
  | range i strict => obtain ⟨o, hl⟩ := hl; exact (step_range hE hi hl hc strict).1
  | cursor i strict => obtain ⟨o, hl⟩ := hl; exact (step_cursor hE hi hl hc strict).1
  | cloneBorrow j =>
    obtain ⟨b, hl⟩ := hl
    show Good MAX max E s (s.withBorrow j (s.cloneBorrow max))
    unfold withBorrow
    rw [hl]
    exact (step_cloneBorrow hi hl hc).2
  | dropBorrow j => obtain ⟨b, hl⟩ := hl; exact (step_dropBorrow hi hl).2.1
  | read j =>
    obtain ⟨b, hl⟩ := hl
    show Good MAX max E s (s.withBorrow j fun b => (s.read b, s))
    unfold withBorrow
    rw [hl]
    obtain ⟨c, _, _, h⟩ := step_readBorrow hi hl
    exact Good.same hi (fun f hf => by rw [h] at hf; cases hf)
  | dropTree => exact (step_dropTree hi hl).2.1

/-- The invariant holds throughout. -/
theorem Hist.inv (hE : E.ix = natIdx MAX) {s : Sys Nat S} (h : Hist MAX max E s) (h0 : RleTree.newEmpty E = .ok ⟨none⟩) :
    Inv MAX max E s := by
  induction h with
  | start n => exact .empty rfl rfl rfl rfl (.empty h0) rfl
  | step _ hl hc he ih =>
    have := (Sys.step hE ih hl hc).1
    rw [he] at this
    exact this

end Sys
end Sherman
