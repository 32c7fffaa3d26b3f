import Verif.ArrayHack

/-!
# The arrays inside of nodes: theorems

Specification: a partly initialised array `Holds` a list if its first places are initialised with the elements of the list.
-/
namespace Sherman
namespace Hack

/-- The first places of the array hold `xs`; specification of src/tree/node.rs:541, 549, 572, 591 -/
def Holds {α : Type} (cap : Nat) (a : Slots α) (xs : List α) : Prop :=
  a.length = cap ∧ ∃ rest, a = xs.map some ++ rest

/-- The arrays hold the keys and children of a node; specification of src/tree/node.rs:435-592 -/
structure RawOf {I S C : Type} (M : Nat) (a : Raw I S C) (n : Node I S C) : Prop where
  len : a.len = n.keys.length
  keys : Holds (2 * M) a.keys (n.keys.map (·.pos))
  vals : Holds (2 * M) a.vals (n.keys.map (·.slice))
  refs : Holds (2 * M) a.refs (n.keys.map (·.ref))
  kids : Holds (2 * M + 1) a.kids n.kids
  kidsLen : n.kids.length = n.keys.length + 1

/-- The arrays hold the keys of a leaf; specification of src/tree/node.rs:435-575 -/
structure LeafOf {I S C : Type} (M : Nat) (a : Raw I S C) (n : Node I S C) : Prop where
  len : a.len = n.keys.length
  keys : Holds (2 * M) a.keys (n.keys.map (·.pos))
  vals : Holds (2 * M) a.vals (n.keys.map (·.slice))
  refs : Holds (2 * M) a.refs (n.keys.map (·.ref))

/-! ## Layout and pointers -/

/-- The lengths of the array types are what the names say. -/
theorem array_lengths (M : Nat) : (keyArray M).len = 2 * M ∧ (childArray M).len = 2 * M + 1 := ⟨rfl, rfl⟩

/-- For every array type built from `Add`, `Mul` and arrays, every size and alignment of elements, and every machine: the
type is exactly as large as its elements, the pointer to element `idx` is that of the `idx`-th element in the layout of
the type, elements do not overlap and lie within the object. -/
theorem array_pointers {sz al : Nat} (ha : 0 < al) (hd : al ∣ sz) (s : Shape) (m : Machine) (this : Nat)
    (hi : m.isizeMax < m.addrs) (hfit : (s.layout sz al).size ≤ m.isizeMax) (hend : this + (s.layout sz al).size < m.addrs) :
    (s.layout sz al).size = s.len * sz ∧ (s.layout sz al).align = al ∧ (s.layout sz al).places.length = s.len ∧
    (∀ idx, idx < s.len → ∃ off, (s.layout sz al).places[idx]? = some off ∧ s.getPtr m sz al this idx = .ok (this + off) ∧
      al ∣ off ∧ off + sz ≤ (s.layout sz al).size) ∧
    s.getPtr m sz al this s.len = .ok (this + (s.layout sz al).size) ∧
    (∀ idx, s.len < idx → ∃ msg, s.getPtr m sz al this idx = .error (.ub msg)) ∧
    (∀ i j : Nat, i < j → ∀ p q, (s.layout sz al).places[i]? = some p → (s.layout sz al).places[j]? = some q → p + sz ≤ q) := by
  have hl := layout_line ha hd s
  rw [hl] at hfit hend ⊢
  simp only at hfit hend ⊢
  have hget : ∀ idx, idx ≤ s.len → s.getPtr m sz al this idx = .ok (this + idx * sz) := by
    intro idx h
    have hm : idx * sz ≤ s.len * sz := Nat.mul_le_mul_right _ h
    have h1 : ¬ m.addrs ≤ s.len * sz := by omega
    unfold Shape.getPtr
    simp only [h, decide_true, weakAssert_true, R.bind_ok, h1, if_false, hl]
    split
    · simp [hm, show idx * sz ≤ m.isizeMax by omega]
    · simp [Nat.mod_eq_of_lt (show this + idx * sz < m.addrs by omega)]
  have hplace : ∀ idx, idx < s.len → (line sz s.len)[idx]? = some (idx * sz) := by
    intro idx h
    simp [line, h]
  refine ⟨trivial, trivial, by simp [line], ?_, hget _ (Nat.le_refl _), ?_, ?_⟩
  · intro idx h
    refine ⟨idx * sz, hplace idx h, hget idx (by omega), Nat.dvd_trans hd (Nat.dvd_mul_left _ _), ?_⟩
    rw [← Nat.succ_mul]
    exact Nat.mul_le_mul_right _ h
  · intro idx h
    refine ⟨"get_ptr_unchecked", ?_⟩
    unfold Shape.getPtr weakAssert
    rw [if_neg (by simpa using h)]
    rfl
  · intro i j hij p q hp hq
    have hj : j < s.len := by
      rcases Nat.lt_or_ge j s.len with h | h
      · exact h
      · rw [List.getElem?_eq_none (by simpa [line] using h)] at hq; cases hq
    rw [hplace i (by omega)] at hp
    rw [hplace j hj] at hq
    cases hp; cases hq
    rw [← Nat.succ_mul]
    exact Nat.mul_le_mul_right _ hij

/-- The children of a node with `M = 5` on a machine with 64 bits. -/
example : 0 < 8 ∧ 8 ∣ 8 ∧ (2 ^ 63 - 1 : Nat) < 2 ^ 64 ∧ ((childArray 5).layout 8 8).size ≤ 2 ^ 63 - 1 ∧
    4096 + ((childArray 5).layout 8 8).size < 2 ^ 64 ∧ (childArray 5).len = 11 ∧
    (childArray 5).getPtr ⟨2 ^ 63 - 1, 2 ^ 64⟩ 8 8 4096 10 = .ok (4096 + 80) := by decide +kernel

/-- That sizes are multiples of alignments (as they are in Rust) is needed: with elements of size 6 and alignment 4 the last
child would not be where the pointer points. -/
example : ((childArray 1).layout 6 4).places[1]? = some 6 ∧ ((Shape.add (.arr 1) (.arr 1)).layout 6 4).places[1]? = some 8 := by
  decide +kernel

theorem le_roundUp {x al : Nat} (ha : 0 < al) : x ≤ roundUp x al := by
  unfold roundUp
  have h1 := Nat.div_add_mod (x + al - 1) al
  have h2 := Nat.mod_lt (x + al - 1) ha
  rw [Nat.mul_comm] at h1
  omega

theorem dvd_roundUp {x al : Nat} : al ∣ roundUp x al := Nat.dvd_mul_left _ _

/-- A pointer to an internal node can be used as a pointer to a leaf, whatever the layout of leaves: the parts of the leaf are where they
are in a leaf, and the children are behind it, aligned, apart from each other and within the node. -/
theorem internal_layout {sz al M : Nat} (ha : 0 < al) (hd : al ∣ sz) (leaf : Layout) :
    (∀ k, k < leaf.places.length → (internalLayout leaf sz al M).places[k]? = leaf.places[k]?) ∧
    (internalLayout leaf sz al M).places.length = leaf.places.length + (2 * M + 1) ∧
    (∀ i, i < 2 * M + 1 → ∃ off, (internalLayout leaf sz al M).places[leaf.places.length + i]? = some (off + i * sz) ∧
      leaf.size ≤ off ∧ al ∣ off + i * sz ∧ off + i * sz + sz ≤ (internalLayout leaf sz al M).size ∧ off = roundUp leaf.size al) := by
  have hl := layout_line ha hd (childArray M)
  have hlen : (childArray M).len = 2 * M + 1 := rfl
  unfold internalLayout Layout.pair
  rw [hl, hlen]
  simp only
  refine ⟨fun k hk => ?_, ?_, fun i hi => ⟨roundUp leaf.size al, ?_, le_roundUp ha, ?_, ?_, rfl⟩⟩
  · rw [List.getElem?_append_left hk]
  · simp [line]
  · rw [List.getElem?_append_right (by omega)]
    simp [line, hi]
  · exact (Nat.dvd_add_iff_right dvd_roundUp).1 (Nat.dvd_trans hd (Nat.dvd_mul_left _ _))
  · have h1 : (i + 1) * sz ≤ (2 * M + 1) * sz := Nat.mul_le_mul_right _ hi
    have h2 := le_roundUp (x := roundUp leaf.size al + (2 * M + 1) * sz) (al := max leaf.align al) (by omega)
    rw [Nat.succ_mul] at h1
    omega

/-- A leaf of 100 bytes with two parts, and pointers of 8 bytes. -/
example : (internalLayout ⟨100, 4, [0, 16]⟩ 8 8 1).places = [0, 16, 104, 112, 120] ∧ (internalLayout ⟨100, 4, [0, 16]⟩ 8 8 1).size = 128 := by
  decide +kernel

/-! ## Operations on partly initialised arrays -/

section
variable {α : Type}

theorem holds_fresh {s : Shape} : Holds s.len (fresh (α := α) s) [] := ⟨by simp [fresh], fresh s, by simp⟩

theorem Holds.le {cap : Nat} {a : Slots α} {xs : List α} (h : Holds cap a xs) : xs.length ≤ cap := by
  obtain ⟨h1, r, h2⟩ := h
  rw [← h1, h2]; simp

theorem set_middle {β : Type} (p : List β) (e x : β) (q : List β) : (p ++ e :: q).set p.length x = p ++ x :: q := by
  simp

/-- Shifting and writing is insertion. -/
theorem Holds.insert {cap i : Nat} {a : Slots α} {xs : List α} (h : Holds cap a xs) (hi : i ≤ xs.length) (hc : xs.length < cap) :
    ∃ a', a.shift i xs.length = .ok a' ∧ ∀ x, ∃ a'', a'.write i x = .ok a'' ∧ Holds cap a'' (xs.take i ++ x :: xs.drop i) := by
  obtain ⟨h1, rest, h2⟩ := h
  obtain ⟨p, q, rfl, rfl⟩ : ∃ p q, xs = p ++ q ∧ i = p.length := ⟨xs.take i, xs.drop i, by simp, by simp [hi]⟩
  obtain ⟨r, rest, rfl⟩ : ∃ r rest', rest = r :: rest' := by
    cases rest with
    | nil => exfalso; rw [← h1, h2] at hc; simp at hc
    | cons r rest => exact ⟨r, rest, rfl⟩
  have key : ∃ e, a.shift p.length (p ++ q).length = .ok (p.map some ++ e :: (q.map some ++ rest)) := by
    unfold Slots.shift
    simp only [hi, decide_true, weakAssert_true, R.bind_ok, h1, hc]
    split
    · rename_i he
      have hq : q = [] := by
        have : q.length = 0 := by simp at he; simpa using he
        exact List.eq_nil_of_length_eq_zero this
      subst hq
      exact ⟨r, by rw [h2]; simp⟩
    · rename_i he
      obtain ⟨q0, q, rfl⟩ : ∃ q0 q', q = q0 :: q' := by
        cases q with
        | nil => simp at he
        | cons q0 q => exact ⟨q0, q, rfl⟩
      refine ⟨some q0, ?_⟩
      have hlen : a.length = p.length + (q.length + 1) + (rest.length + 1) := by rw [h2]; simp; omega
      have hs : (p ++ q0 :: q).length - p.length = q.length + 1 := by simp
      unfold Slots.copy
      rw [hs]
      simp only [hlen, show p.length + (q.length + 1) ≤ p.length + (q.length + 1) + (rest.length + 1) by omega,
        show p.length + 1 + (q.length + 1) ≤ p.length + (q.length + 1) + (rest.length + 1) by omega,
        decide_true, weakAssert_true, R.bind_ok, R.pure_eq]
      rw [h2]
      have e1 : ((p ++ q0 :: q).map some ++ r :: rest).take (p.length + 1) = p.map some ++ [some q0] := by
        have : (p ++ q0 :: q).map some ++ r :: rest = (p.map some ++ [some q0]) ++ (q.map some ++ r :: rest) := by simp
        rw [this]
        apply List.take_left'
        simp
      have e2 : (((p ++ q0 :: q).map some ++ r :: rest).drop p.length).take (q.length + 1) = some q0 :: q.map some := by
        simp
      have e3 : ((p ++ q0 :: q).map some ++ r :: rest).drop (p.length + 1 + (q.length + 1)) = rest := by
        have : (p ++ q0 :: q).map some ++ r :: rest = (p.map some ++ some q0 :: q.map some ++ [r]) ++ rest := by simp
        rw [this]
        apply List.drop_left'
        simp; omega
      rw [e1, e2, e3]
      simp
  obtain ⟨e, he⟩ := key
  refine ⟨_, he, fun x => ?_⟩
  refine ⟨p.map some ++ some x :: (q.map some ++ rest), ?_, ?_, rest, by simp⟩
  · unfold Slots.write
    have : (decide (p.length < (p.map some ++ e :: (q.map some ++ rest)).length)) = true := by simp
    rw [this]
    simp only [weakAssert_true, R.bind_ok, R.pure_eq]
    have := set_middle (p.map some) e (some x) (q.map some ++ rest)
    rw [List.length_map] at this
    rw [this]
  · rw [← h1, h2]; simp; omega

/-- Writing after the last is appending. -/
theorem Holds.push {cap : Nat} {a : Slots α} {xs : List α} (h : Holds cap a xs) (hc : xs.length < cap) (x : α) :
    ∃ a', a.write xs.length x = .ok a' ∧ Holds cap a' (xs ++ [x]) := by
  obtain ⟨a', h1, h2⟩ := h.insert (Nat.le_refl _) hc
  have : a' = a := by
    unfold Slots.shift at h1
    simp [h.1, hc] at h1
    exact h1.symm
  subst this
  obtain ⟨a'', h3, h4⟩ := h2 x
  exact ⟨a'', h3, by simpa using h4⟩

/-- Copying a part into a fresh array. -/
theorem Holds.copy {cap k n : Nat} {a : Slots α} {xs : List α} (h : Holds cap a xs) (hn : k + n = xs.length) {s : Shape}
    (hs : s.len = cap) : ∃ a', a.copy k (fresh s) 0 n = .ok a' ∧ Holds cap a' (xs.drop k) := by
  have hle := h.le
  obtain ⟨h1, rest, h2⟩ := h
  obtain ⟨p, q, rfl, rfl⟩ : ∃ p q, xs = p ++ q ∧ k = p.length := ⟨xs.take k, xs.drop k, by simp, by simp; omega⟩
  have hq : n = q.length := by simp at hn; omega
  subst hq
  simp at hle
  refine ⟨q.map some ++ (fresh s).drop q.length, ?_, ?_, _, by simp; rfl⟩
  · unfold Slots.copy
    simp only [h1, fresh, List.length_replicate, hs, Nat.zero_add,
      show p.length + q.length ≤ cap from hle, show q.length ≤ cap by omega, decide_true, weakAssert_true, R.bind_ok, R.pure_eq]
    rw [h2]
    simp
  · simp [fresh, hs]; omega

theorem Holds.read {cap i : Nat} {a : Slots α} {xs : List α} {x : α} (h : Holds cap a xs) (hi : xs[i]? = some x) : a.read i = .ok x := by
  obtain ⟨h1, rest, h2⟩ := h
  obtain ⟨hlt, hx⟩ := List.getElem?_eq_some_iff.1 hi
  unfold Slots.read
  rw [h2, List.getElem?_append_left (by simpa using hlt), List.getElem?_map, hi]
  rfl

theorem Holds.take {cap i : Nat} {a : Slots α} {xs : List α} (h : Holds cap a xs) : Holds cap a (xs.take i) := by
  obtain ⟨h1, rest, h2⟩ := h
  exact ⟨h1, (xs.drop i).map some ++ rest, by rw [h2, ← List.append_assoc, ← List.map_append, List.take_append_drop]⟩

/-- What an array holds is determined by how much it holds. -/
theorem Holds.unique {cap : Nat} {a : Slots α} {xs ys : List α} (h : Holds cap a xs) (h' : Holds cap a ys)
    (hl : xs.length = ys.length) : xs = ys := by
  obtain ⟨_, r, h2⟩ := h
  obtain ⟨_, r', h2'⟩ := h'
  have := h2.symm.trans h2'
  have := (List.append_inj this (by simp [hl])).1
  exact (List.map_inj_right fun _ _ => Option.some.inj).1 this

end

/-! ## The operations of nodes -/

theorem weakAssert_ok {c : Bool} {m : String} {u : Unit} (h : weakAssert c m = .ok u) : c = true := by
  cases c
  · cases h
  · rfl


section
variable {I S C : Type} [HasPtr C] {M : Nat}

omit [HasPtr C] in
theorem rawOf_unique {a : Raw I S C} {n n' : Node I S C} (h : RawOf M a n) (h' : RawOf M a n') :
    n.keys.map (·.pos) = n'.keys.map (·.pos) ∧ n.keys.map (·.slice) = n'.keys.map (·.slice) ∧
    n.keys.map (·.ref) = n'.keys.map (·.ref) ∧ n.kids = n'.kids := by
  have hl : n.keys.length = n'.keys.length := h.len.symm.trans h'.len
  exact ⟨h.keys.unique h'.keys (by simp [hl]), h.vals.unique h'.vals (by simp [hl]), h.refs.unique h'.refs (by simp [hl]),
    h.kids.unique h'.kids (by rw [h.kidsLen, h'.kidsLen, hl])⟩

/-- `insert_key_and_child` on the arrays does what it does on lists, and stays within the arrays. -/
theorem raw_insert {a : Raw I S C} {n n' : Node I S C} {idx : Nat} {slice : S} {ref : Option Nat} {c : C} {w w' : World} {pos : I}
    (h : RawOf M a n) (hn : n.insertKeyAndChild (2 * M) idx slice ref c w = .ok (n', pos, w')) :
    ∃ a', a.insertKeyAndChild idx pos slice ref c = .ok a' ∧ RawOf M a' n' := by
  unfold Node.insertKeyAndChild at hn
  simp only [R.bind_eq_ok] at hn
  obtain ⟨_, h1, _, h2, h3⟩ := hn
  have hi : idx ≤ n.keys.length := of_decide_eq_true (weakAssert_ok h1)
  have hm : n.keys.length < 2 * M := of_decide_eq_true (weakAssert_ok h2)
  simp only [R.pure_eq, Except.ok.injEq, Prod.mk.injEq] at h3
  obtain ⟨hn', hp, _⟩ := h3
  subst hp
  obtain ⟨k1, hk1, hk2⟩ := h.keys.insert (i := idx) (by simpa using hi) (by simpa using hm)
  obtain ⟨v1, hv1, hv2⟩ := h.vals.insert (i := idx) (by simpa using hi) (by simpa using hm)
  obtain ⟨r1, hr1, hr2⟩ := h.refs.insert (i := idx) (by simpa using hi) (by simpa using hm)
  obtain ⟨c1, hc1, hc2⟩ := h.kids.insert (i := idx + 1) (by rw [h.kidsLen]; omega) (by rw [h.kidsLen]; omega)
  obtain ⟨k2, hk2, hk3⟩ := hk2 (n.nextPos idx)
  obtain ⟨v2, hv2, hv3⟩ := hv2 slice
  obtain ⟨r2, hr2, hr3⟩ := hr2 ref
  obtain ⟨c2, hc2, hc3⟩ := hc2 c
  rw [List.length_map] at hk1 hv1 hr1
  rw [h.kidsLen] at hc1
  refine ⟨⟨a.len + 1, k2, v2, r2, c2⟩, ?_, ?_⟩
  · unfold Raw.insertKeyAndChild
    simp only [h.len, hk1, hv1, hr1, hc1, R.bind_ok, hk2, hv2, hr2, hc2, R.pure_eq]
  · subst hn'
    have hk := h.kidsLen
    refine ⟨?_, ?_, ?_, ?_, ?_, ?_⟩
    · simp [h.len]; omega
    · simpa [List.map_take, List.map_drop] using hk3
    · simpa [List.map_take, List.map_drop] using hv3
    · simpa [List.map_take, List.map_drop] using hr3
    · simpa using hc3
    · simp; omega

/-- `push_key_and_child` on the arrays does what it does on lists, and stays within the arrays. -/
theorem raw_push {a : Raw I S C} {n n' : Node I S C} {slice : S} {ref : Option Nat} {c : C} {w w' : World} {size : I}
    (h : RawOf M a n) (hn : n.pushKeyAndChild (2 * M) slice ref c size w = .ok (n', w')) :
    ∃ a', a.pushKeyAndChild n.size slice ref c = .ok a' ∧ RawOf M a' n' := by
  unfold Node.pushKeyAndChild at hn
  simp only [R.bind_eq_ok] at hn
  obtain ⟨_, h2, h3⟩ := hn
  have hm : n.keys.length < 2 * M := of_decide_eq_true (weakAssert_ok h2)
  simp only [R.pure_eq, Except.ok.injEq, Prod.mk.injEq] at h3
  obtain ⟨hn', _⟩ := h3
  obtain ⟨k2, hk2, hk3⟩ := h.keys.push (by simpa using hm) n.size
  obtain ⟨v2, hv2, hv3⟩ := h.vals.push (by simpa using hm) slice
  obtain ⟨r2, hr2, hr3⟩ := h.refs.push (by simpa using hm) ref
  obtain ⟨c2, hc2, hc3⟩ := h.kids.push (by rw [h.kidsLen]; omega) c
  rw [List.length_map] at hk2 hv2 hr2
  rw [h.kidsLen] at hc2
  refine ⟨⟨a.len + 1, k2, v2, r2, c2⟩, ?_, ?_⟩
  · unfold Raw.pushKeyAndChild
    simp only [h.len, R.bind_ok, hk2, hv2, hr2, hc2, R.pure_eq]
  · subst hn'
    have hk := h.kidsLen
    refine ⟨?_, ?_, ?_, ?_, ?_, ?_⟩
    · simp [h.len]
    · simpa using hk3
    · simpa using hv3
    · simpa using hr3
    · simpa using hc3
    · simp; omega

/-- `split` on the arrays does what it does on lists, and stays within the arrays. -/
theorem raw_split {a : Raw I S C} {n n' r : Node I S C} {mid : Nat} {k : Key I S} {w w' : World}
    (h : RawOf M a n) (hn : n.split mid w = .ok (n', k, r, w')) :
    ∃ a' b, a.split M mid = .ok (a', k, b) ∧ RawOf M a' n' ∧ RawOf M b r := by
  unfold Node.split at hn
  split at hn
  · cases hn
  rename_i key hkey
  simp only [R.pure_eq, Except.ok.injEq, Prod.mk.injEq] at hn
  obtain ⟨hn', rfl, hr', _⟩ := hn
  obtain ⟨hlt, _⟩ := List.getElem?_eq_some_iff.1 hkey
  have hkl := h.kidsLen
  have hsum : mid + 1 + (n.keys.length - (mid + 1)) = n.keys.length := by omega
  obtain ⟨ks, hk1, hk2⟩ := h.keys.copy (k := mid + 1) (n := n.keys.length - (mid + 1)) (by simpa using hsum) (s := keyArray M) rfl
  obtain ⟨vs, hv1, hv2⟩ := h.vals.copy (k := mid + 1) (n := n.keys.length - (mid + 1)) (by simpa using hsum) (s := keyArray M) rfl
  obtain ⟨rs, hr1, hr2⟩ := h.refs.copy (k := mid + 1) (n := n.keys.length - (mid + 1)) (by simpa using hsum) (s := keyArray M) rfl
  obtain ⟨cs, hc1, hc2⟩ := h.kids.copy (k := mid + 1) (n := n.keys.length - (mid + 1) + 1) (by omega) (s := childArray M) rfl
  have e1 : a.keys.read mid = .ok key.pos := h.keys.read (by simp [hkey])
  have e2 : a.vals.read mid = .ok key.slice := h.vals.read (by simp [hkey])
  have e3 : a.refs.read mid = .ok key.ref := h.refs.read (by simp [hkey])
  refine ⟨{ a with len := mid }, ⟨n.keys.length - (mid + 1), ks, vs, rs, cs⟩, ?_, ?_, ?_⟩
  · unfold Raw.split
    simp only [h.len, show ¬ n.keys.length < mid + 1 by omega, if_false, Raw.new, hk1, hv1, hr1, hc1, e1, e2, e3, R.bind_ok, R.pure_eq]
  · subst hn'
    refine ⟨by simp; omega, ?_, ?_, ?_, h.kids.take, by simp; omega⟩
    · simpa [List.map_take] using h.keys.take (i := mid)
    · simpa [List.map_take] using h.vals.take (i := mid)
    · simpa [List.map_take] using h.refs.take (i := mid)
  · subst hr'
    refine ⟨by simp, ?_, ?_, ?_, hc2, by simp; omega⟩
    · simpa [List.map_drop] using hk2
    · simpa [List.map_drop] using hv2
    · simpa [List.map_drop] using hr2

/-- `insert_key` on the arrays of a leaf does what it does on lists, and stays within the arrays. -/
theorem leaf_insert {a : Raw I S C} {n n' : Node I S C} {idx : Nat} {slice : S} {ref : Option Nat} {c : C} {w w' : World} {pos : I}
    (h : LeafOf M a n) (hn : n.insertKeyAndChild (2 * M) idx slice ref c w = .ok (n', pos, w')) :
    ∃ a', a.insertKey idx pos slice ref = .ok a' ∧ LeafOf M a' n' := by
  unfold Node.insertKeyAndChild at hn
  simp only [R.bind_eq_ok] at hn
  obtain ⟨_, h1, _, h2, h3⟩ := hn
  have hi : idx ≤ n.keys.length := of_decide_eq_true (weakAssert_ok h1)
  have hm : n.keys.length < 2 * M := of_decide_eq_true (weakAssert_ok h2)
  simp only [R.pure_eq, Except.ok.injEq, Prod.mk.injEq] at h3
  obtain ⟨hn', hp, _⟩ := h3
  subst hp
  obtain ⟨k1, hk1, hk2⟩ := h.keys.insert (i := idx) (by simpa using hi) (by simpa using hm)
  obtain ⟨v1, hv1, hv2⟩ := h.vals.insert (i := idx) (by simpa using hi) (by simpa using hm)
  obtain ⟨r1, hr1, hr2⟩ := h.refs.insert (i := idx) (by simpa using hi) (by simpa using hm)
  obtain ⟨k2, hk2, hk3⟩ := hk2 (n.nextPos idx)
  obtain ⟨v2, hv2, hv3⟩ := hv2 slice
  obtain ⟨r2, hr2, hr3⟩ := hr2 ref
  rw [List.length_map] at hk1 hv1 hr1
  refine ⟨{ a with len := a.len + 1, keys := k2, vals := v2, refs := r2 }, ?_, ?_⟩
  · unfold Raw.insertKey
    simp only [h.len, hk1, hv1, hr1, R.bind_ok, hk2, hv2, hr2, R.pure_eq]
  · subst hn'
    refine ⟨?_, ?_, ?_, ?_⟩
    · simp [h.len]; omega
    · simpa [List.map_take, List.map_drop] using hk3
    · simpa [List.map_take, List.map_drop] using hv3
    · simpa [List.map_take, List.map_drop] using hr3

/-- `push_key` on the arrays of a leaf does what it does on lists, and stays within the arrays. -/
theorem leaf_push {a : Raw I S C} {n n' : Node I S C} {slice : S} {ref : Option Nat} {c : C} {w w' : World} {size : I}
    (h : LeafOf M a n) (hn : n.pushKeyAndChild (2 * M) slice ref c size w = .ok (n', w')) :
    ∃ a', a.pushKey n.size slice ref = .ok a' ∧ LeafOf M a' n' := by
  unfold Node.pushKeyAndChild at hn
  simp only [R.bind_eq_ok] at hn
  obtain ⟨_, h2, h3⟩ := hn
  have hm : n.keys.length < 2 * M := of_decide_eq_true (weakAssert_ok h2)
  simp only [R.pure_eq, Except.ok.injEq, Prod.mk.injEq] at h3
  obtain ⟨hn', _⟩ := h3
  obtain ⟨k2, hk2, hk3⟩ := h.keys.push (by simpa using hm) n.size
  obtain ⟨v2, hv2, hv3⟩ := h.vals.push (by simpa using hm) slice
  obtain ⟨r2, hr2, hr3⟩ := h.refs.push (by simpa using hm) ref
  rw [List.length_map] at hk2 hv2 hr2
  refine ⟨{ a with len := a.len + 1, keys := k2, vals := v2, refs := r2 }, ?_, ?_⟩
  · unfold Raw.pushKey
    simp only [h.len, R.bind_ok, hk2, hv2, hr2, R.pure_eq]
  · subst hn'
    refine ⟨?_, ?_, ?_, ?_⟩
    · simp [h.len]
    · simpa using hk3
    · simpa using hv3
    · simpa using hr3

/-- `split` on the arrays of a leaf does what it does on lists, and stays within the arrays. -/
theorem leaf_split {a : Raw I S C} {n n' r : Node I S C} {mid : Nat} {k : Key I S} {w w' : World}
    (h : LeafOf M a n) (hn : n.split mid w = .ok (n', k, r, w')) :
    ∃ a' b, a.splitLeaf M mid = .ok (a', k, b) ∧ LeafOf M a' n' ∧ LeafOf M b r := by
  unfold Node.split at hn
  split at hn
  · cases hn
  rename_i key hkey
  simp only [R.pure_eq, Except.ok.injEq, Prod.mk.injEq] at hn
  obtain ⟨hn', rfl, hr', _⟩ := hn
  obtain ⟨hlt, _⟩ := List.getElem?_eq_some_iff.1 hkey
  have hsum : mid + 1 + (n.keys.length - (mid + 1)) = n.keys.length := by omega
  obtain ⟨ks, hk1, hk2⟩ := h.keys.copy (k := mid + 1) (n := n.keys.length - (mid + 1)) (by simpa using hsum) (s := keyArray M) rfl
  obtain ⟨vs, hv1, hv2⟩ := h.vals.copy (k := mid + 1) (n := n.keys.length - (mid + 1)) (by simpa using hsum) (s := keyArray M) rfl
  obtain ⟨rs, hr1, hr2⟩ := h.refs.copy (k := mid + 1) (n := n.keys.length - (mid + 1)) (by simpa using hsum) (s := keyArray M) rfl
  have e1 : a.keys.read mid = .ok key.pos := h.keys.read (by simp [hkey])
  have e2 : a.vals.read mid = .ok key.slice := h.vals.read (by simp [hkey])
  have e3 : a.refs.read mid = .ok key.ref := h.refs.read (by simp [hkey])
  refine ⟨{ a with len := mid }, { Raw.new I S C M with len := n.keys.length - (mid + 1), keys := ks, vals := vs, refs := rs }, ?_, ?_, ?_⟩
  · unfold Raw.splitLeaf
    simp only [h.len, show ¬ n.keys.length < mid + 1 by omega, if_false, Raw.new, hk1, hv1, hr1, e1, e2, e3, R.bind_ok, R.pure_eq]
  · subst hn'
    refine ⟨by simp; omega, ?_, ?_, ?_⟩
    · simpa [List.map_take] using h.keys.take (i := mid)
    · simpa [List.map_take] using h.vals.take (i := mid)
    · simpa [List.map_take] using h.refs.take (i := mid)
  · subst hr'
    refine ⟨by simp, ?_, ?_, ?_⟩
    · simpa [List.map_drop] using hk2
    · simpa [List.map_drop] using hv2
    · simpa [List.map_drop] using hr2

/-- `replace_first_child` on the arrays does what it does on lists. -/
theorem raw_replace {a : Raw I S C} {n n' : Node I S C} {c old : C} {w w' : World} (h : RawOf M a n)
    (hn : n.replaceFirstChild c w = .ok (n', old, w')) : ∃ a', a.replaceFirstChild c = .ok (a', old) ∧ RawOf M a' n' := by
  unfold Node.replaceFirstChild at hn
  split at hn
  · cases hn
  rename_i c0 cs hk
  simp only [R.pure_eq, Except.ok.injEq, Prod.mk.injEq] at hn
  obtain ⟨hn', rfl, _⟩ := hn
  have hr : a.kids.read 0 = .ok c0 := h.kids.read (by rw [hk]; rfl)
  obtain ⟨h1, rest, h2⟩ := h.kids
  rw [hk] at h2
  refine ⟨{ a with kids := some c :: (cs.map some ++ rest) }, ?_, ?_⟩
  · unfold Raw.replaceFirstChild Slots.write
    rw [hr, h2]
    rfl
  · subst hn'
    refine ⟨h.len, h.keys, h.vals, h.refs, ⟨?_, rest, rfl⟩, ?_⟩
    · rw [h2] at h1; simpa using h1
    · have := h.kidsLen
      rw [hk] at this
      simpa using this

omit [HasPtr C] in
/-- The arrays of a new root. -/
theorem raw_newParent (hM : 1 ≤ M) (ptr : Nat) (size : I) (key : Key I S) (lhs rhs : C) :
    ∃ a, Raw.newParent M key.pos key.slice key.ref lhs rhs = .ok a ∧
      RawOf M a { ptr := ptr, size := size, keys := [key], kids := [lhs, rhs] } := by
  obtain ⟨k, hk, hk'⟩ := (holds_fresh (α := I) (s := keyArray M)).push (by simp [array_lengths]; omega) key.pos
  obtain ⟨v, hv, hv'⟩ := (holds_fresh (α := S) (s := keyArray M)).push (by simp [array_lengths]; omega) key.slice
  obtain ⟨r, hr, hr'⟩ := (holds_fresh (α := Option Nat) (s := keyArray M)).push (by simp [array_lengths]; omega) key.ref
  obtain ⟨c, hc, hc'⟩ := (holds_fresh (α := C) (s := childArray M)).push (by simp [array_lengths]) lhs
  obtain ⟨d, hd, hd'⟩ := hc'.push (by simp [array_lengths]; omega) rhs
  refine ⟨⟨1, k, v, r, d⟩, ?_, rfl, hk', hv', hr', hd', rfl⟩
  simp only [List.length_nil, List.nil_append, List.length_singleton] at hk hv hr hc hd
  unfold Raw.newParent
  have e1 : (decide (0 < (Raw.new I S C M).keys.length)) = true := by simp [Raw.new, fresh, array_lengths]; omega
  have e2 : (decide (1 < (Raw.new I S C M).kids.length)) = true := by simp [Raw.new, fresh, array_lengths]; omega
  simp only [e1, e2, check_true, R.bind_ok]
  simp only [Raw.new, hk, hv, hr, hc, hd, R.bind_ok, R.pure_eq]

/-- The arrays of a node with one key and two children, for `M = 1`; specification example for src/tree/node.rs:435-592 -/
def exRaw : Raw Nat Nat (Tree Nat Nat 0) := ⟨1, [some 0, none], [some 5, none], [some none, none], [some (), some (), none]⟩

/-- The node in `exRaw`; specification example for src/tree/node.rs:435-592 -/
def exNode : Node Nat Nat (Tree Nat Nat 0) := { ptr := 1, size := 3, keys := [⟨0, 5, none⟩], kids := [(), ()] }

example : RawOf 1 exRaw exNode :=
  ⟨rfl, ⟨rfl, [none], rfl⟩, ⟨rfl, [none], rfl⟩, ⟨rfl, [none], rfl⟩, ⟨rfl, [none], rfl⟩, rfl⟩

example : LeafOf 1 exRaw exNode := ⟨rfl, ⟨rfl, [none], rfl⟩, ⟨rfl, [none], rfl⟩, ⟨rfl, [none], rfl⟩⟩

example (w : World) : ∃ n' pos w', exNode.insertKeyAndChild (2 * 1) 0 6 none () w = .ok (n', pos, w') ∧
    n'.keys.map (·.slice) = [6, 5] := ⟨_, _, _, rfl, rfl⟩

example (w : World) : ∃ n' w', exNode.pushKeyAndChild (2 * 1) 6 none () 9 w = .ok (n', w') ∧
    n'.keys.map (·.slice) = [5, 6] := ⟨_, _, rfl, rfl⟩

example (w : World) : ∃ n' old w', exNode.replaceFirstChild () w = .ok (n', old, w') ∧ n'.kids.length = 2 := ⟨_, _, _, rfl, rfl⟩

example (w : World) : ∃ n' k r w', exNode.split 0 w = .ok (n', k, r, w') ∧ k.slice = 5 := ⟨_, _, _, _, rfl, rfl⟩

/-- The arrays after an insertion, and that there is no room for a third key. -/
example : ∃ a, exRaw.insertKeyAndChild 0 0 6 none () = .ok a ∧ a.vals = [some 6, some 5] ∧
    a.insertKeyAndChild 0 0 7 none () = .error (.ub "shift: end < LEN") := ⟨_, rfl, rfl, rfl⟩

end

/-! ## Copying the children of a node -/

theorem mapM_some {α β : Type} (f : α → R β) : ∀ (l : List α) (g : α → β), (∀ x ∈ l, f x = .ok (g x)) → l.mapM f = .ok (l.map g)
  | [], _, _ => rfl
  | x :: l, g, h => by
    rw [List.mapM_cons, h x (by simp), mapM_some f l g fun y hy => h y (by simp [hy])]
    rfl

/-- The children of a copy are those that were pushed, and nothing uninitialised is read: for `M` at most 127, which
`assert_reasonable_m` enforces. -/
theorem clone_kids {C : Type} {M len : Nat} (hM : M ≤ 127) {a : Slots C} {cs : List C} (h : Holds (childArray M).len a cs)
    (hl : cs.length = len + 1) : ∃ a', cloneKids len a = .ok a' ∧ Holds (childArray M).len a' cs ∧ a'.drop (len + 1) = List.replicate (2 * M - len) none := by
  obtain ⟨h1, rest, h2⟩ := h
  have hlen : (childArray M).len = 2 * M + 1 := rfl
  rw [hlen] at h1 ⊢
  have hle' : len ≤ 2 * M := by rw [h2] at h1; simp at h1; omega
  have hr : rest.length = 2 * M - len := by rw [h2] at h1; simp at h1; omega
  have hmap : cloneKids len a = .ok (a.zipIdx.map fun (x, i) => if i ≤ len then x else none) := by
    unfold cloneKids
    refine mapM_some _ _ _ ?_
    rintro ⟨x, i⟩ hx
    obtain ⟨hi, hx⟩ := List.mem_zipIdx' hx
    have hi' : i % 256 = i := Nat.mod_eq_of_lt (by omega)
    simp only [hi']
    by_cases hle : i ≤ len
    · have : ∃ c, x = some c := by
        subst h2
        rw [List.getElem_append_left (by simp; omega)] at hx
        rw [hx]; simp
      obtain ⟨c, rfl⟩ := this
      simp [hle]
    · simp [hle]
  have heq : (a.zipIdx.map fun (x, i) => if i ≤ len then x else none) = cs.map some ++ List.replicate (2 * M - len) none := by
    apply List.ext_getElem
    · rw [h2] at h1 ⊢
      simp at h1 ⊢; omega
    · intro i hi hi'
      simp only [List.getElem_map, List.getElem_zipIdx, Nat.zero_add]
      subst h2
      by_cases hle : i ≤ len
      · rw [if_pos hle, List.getElem_append_left (by simp; omega), List.getElem_append_left (by simp; omega)]
      · rw [if_neg hle, List.getElem_append_right (by simp; omega), List.getElem_replicate]
  refine ⟨_, hmap.trans (congrArg _ heq), ⟨?_, _, rfl⟩, ?_⟩
  · simp; omega
  · apply List.drop_left'
    simp [hl]

example : Holds (childArray 1).len [some 7, some 8, none] [7, 8] ∧ cloneKids 1 [some 7, some 8, none] = .ok [some 7, some 8, none] :=
  ⟨⟨rfl, [none], rfl⟩, by decide +kernel⟩

/-- For `M = 128` it would read what is not initialised. -/
theorem clone_kids_128 : ∃ a : Slots Nat, Holds (childArray 128).len a [7, 8] ∧ cloneKids 1 a = .error (.ub "assume_init") := by
  refine ⟨some 7 :: some 8 :: List.replicate 255 none, ⟨by decide +kernel, List.replicate 255 none, rfl⟩, by decide +kernel⟩

/-! ## `map_array` -/

/-- Invariant of the loop. -/
theorem loop_spec {α β : Type} (f : Nat → α → Option β) (xs : List α) : ∀ (k : Nat) (m : Mapping α β), k ≤ xs.length →
    m.source = xs → m.next = xs.length - k → m.init.length = xs.length - k → m.given = xs.take (xs.length - k) →
    m.droppedSource = [] → m.droppedInit = [] →
    (∀ i (h : i < m.init.length) x, xs[i]? = some x → f i x = some m.init[i]) →
    (∃ ys m', Mapping.loop xs.length f k m = .ok (.done ys, m') ∧ ys.length = xs.length ∧
      (∀ i x, xs[i]? = some x → f i x = ys[i]?) ∧ m'.given = xs ∧ m'.droppedSource = [] ∧ m'.droppedInit = []) ∨
    (∃ i x ys m', Mapping.loop xs.length f k m = .ok (.panicked, m') ∧ xs[i]? = some x ∧ f i x = none ∧ ys.length = i ∧
      (∀ j x, j < i → xs[j]? = some x → f j x = ys[j]?) ∧
      m'.given = xs.take (i + 1) ∧ m'.droppedSource = xs.drop (i + 1) ∧ m'.droppedInit = ys) := by
  intro k
  induction k with
  | zero =>
    intro m _ hs hn hi hg h1 h2 hf
    refine .inl ⟨m.init, m, ?_, by simpa using hi, ?_, by simpa using hg, h1, h2⟩
    · simp [Mapping.loop, hi]
    · intro i x hx
      obtain ⟨hlt, _⟩ := List.getElem?_eq_some_iff.1 hx
      rw [hf i (by omega) x hx, List.getElem?_eq_getElem (by omega)]
  | succ k ih =>
    intro m hk hs hn hi hg h1 h2 hf
    have hlt : xs.length - (k + 1) < xs.length := by omega
    have hx : m.source[m.next]? = some xs[xs.length - (k + 1)] := by rw [hs, hn]; simp [hlt]
    have hsucc : xs.length - (k + 1) + 1 = xs.length - k := by omega
    have htake : xs.take (xs.length - (k + 1)) ++ [xs[xs.length - (k + 1)]] = xs.take (xs.length - k) := by
      rw [← hsucc, List.take_append_getElem]
    cases hy : f (xs.length - (k + 1)) xs[xs.length - (k + 1)] with
    | none =>
      refine .inr ⟨xs.length - (k + 1), _, m.init, ?_, ?_, by simp [hlt], hy, hi, ?_, ?_, ?_, ?_⟩
      · exact Mapping.unwind { m with next := m.next + 1, given := m.given ++ [xs[xs.length - (k + 1)]] }
      · simp only [Mapping.loop, hx, hy, R.pure_eq]
      · intro j x hj hx
        rw [hf j (by omega) x hx, List.getElem?_eq_getElem (by omega)]
      · simp only [Mapping.unwind, hg, htake, hsucc]
      · simp only [Mapping.unwind, hs, hn]
      · rfl
    | some y =>
      have hstep : Mapping.loop xs.length f (k + 1) m =
          Mapping.loop xs.length f k { m with next := m.next + 1, given := m.given ++ [xs[xs.length - (k + 1)]], init := m.init ++ [y] } := by
        simp only [Mapping.loop, hx, hy, hi, hlt, decide_true, weakAssert_true, R.bind_ok]
      rw [hstep]
      refine ih _ (by omega) hs ?_ ?_ ?_ h1 h2 ?_
      · simp only [hn, hsucc]
      · simp only [List.length_append, hi, List.length_singleton, hsucc]
      · simp only [hg, htake]
      · intro i h x hx'
        simp only [List.length_append, List.length_singleton] at h
        by_cases hil : i < m.init.length
        · rw [hf i hil x hx']
          simp [List.getElem_append_left hil]
        · have : i = xs.length - (k + 1) := by omega
          subst this
          have : x = xs[xs.length - (k + 1)] := by simpa [hlt] using hx'.symm
          subst this
          rw [hy, List.getElem_append_right (by omega)]
          simp

/-- `map_array_with_index` never reads or writes outside of the arrays.  If no call of the closure panics it returns the results, has
handed over every element once and destroys nothing.  If call `i` is the first to panic then the elements up to `i` were
handed over, in order, and exactly the others are destroyed, together with the results of the earlier calls. -/
theorem map_array {α β : Type} (f : Nat → α → Option β) (xs : List α) :
    (∃ ys m, mapArray f xs = .ok (.done ys, m) ∧ ys.length = xs.length ∧ (∀ i x, xs[i]? = some x → f i x = ys[i]?) ∧
      m.given = xs ∧ m.droppedSource = [] ∧ m.droppedInit = []) ∨
    (∃ i x ys m, mapArray f xs = .ok (.panicked, m) ∧ xs[i]? = some x ∧ f i x = none ∧ ys.length = i ∧
      (∀ j x, j < i → xs[j]? = some x → f j x = ys[j]?) ∧
      m.given = xs.take (i + 1) ∧ m.droppedSource = xs.drop (i + 1) ∧ m.droppedInit = ys) := by
  refine loop_spec f xs xs.length _ (Nat.le_refl _) rfl ?_ ?_ ?_ rfl rfl ?_
  · simp
  · simp
  · simp
  · intro i h; simp at h

/-- A closure that panics at the second element. -/
example : ∃ m, mapArray (fun i x => if i = 1 then none else some (x + 1)) [10, 20, 30] = .ok (.panicked, m) ∧
    m.given = [10, 20] ∧ m.droppedSource = [30] ∧ m.droppedInit = [11] := ⟨_, rfl, rfl, rfl, rfl⟩

end Hack
end Sherman
