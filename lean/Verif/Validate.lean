import Verif.LinkProps
import Verif.CowLinkInv
/-!
# `validate`, the check the project's own tests and fuzzers rely on (C42)

Model of `RleTree::validate`, and proof that it accepts exactly the trees that store some list of runs of positive sizes, with every
position, size, count and parent link right: it never raises a false alarm, and nothing that it looks at slips through.
-/
namespace Sherman
variable {I S C : Type}

/-! ## Model -/

/-- `valid_assert!`, `valid_assert_eq!` and `assert_eq!`; src/tree/mod.rs:1049-1076.  The path, used in messages only, is left out
except for whether it is empty. -/
def vassert (c : Bool) : R Unit := check c "assertion failed"

/-- `poss[i]` where `poss = keys_pos_slice()`: out of bounds is a panic; src/tree/mod.rs:1127, 1147 -/
def posAt (n : Node I S C) (i : Nat) : R I :=
  match n.keys[i]? with
  | some k => .ok k.pos
  | none => .error (.panic "index out of bounds")

/-- The loop over the keys of a leaf, with `todo` rounds to go; src/tree/mod.rs:1130-1134 -/
def leafLoop (ix : IdxOps I) (n : Node I S C) : (todo i : Nat) → R Unit
  | 0, _ => pure ()
  | todo + 1, i => do
    let a ← posAt n i
    let b ← posAt n (i - 1)
    vassert (ix.cmp a b == .gt)
    leafLoop ix n todo (i + 1)

/-- `validate_leaf`; src/tree/mod.rs:1123-1138 -/
def validateLeaf (ix : IdxOps I) (n : Node I S C) : R Nat := do
  let p0 ← posAt n 0
  vassert (ix.eq p0 ix.zero)
  leafLoop ix n (n.len - 1) 1
  let last ← posAt n (n.len - 1)
  vassert (ix.lt last n.size)
  pure n.len

/-- What is asserted of key `i`, whose position is `p`, and the child before it, whose size is `s`; src/tree/mod.rs:1164-1170 -/
def beforeKey (ix : IdxOps I) (n : Node I S C) (i : Nat) (s p : I) : R Unit :=
  if i = 0 then vassert (ix.eq p s)
  else do
    vassert (ix.lt s p)
    let start ← ix.subR p s
    let q ← posAt n (i - 1)
    vassert (ix.lt q start)

/-- The loop over the keys of an internal node, with `todo` rounds to go; `f c i` is `validate_node` of child `c`, which is child `i`;
src/tree/mod.rs:1159-1182 -/
def keyLoop (ix : IdxOps I) (sz : C → I) (f : C → Nat → R Nat) (n : Node I S C) : (todo i acc : Nat) → R Nat
  | 0, _, acc => pure acc
  | todo + 1, i, acc => do
    let s ← n.childSize sz i
    let p ← posAt n i
    beforeKey ix n i s p
    let c ← n.child (i + 1)
    let m ← f c (i + 1)
    keyLoop ix sz f n todo (i + 1) (acc + 1 + m)

/-- `validate_internal`; src/tree/mod.rs:1142-1191 -/
def validateInternal (ix : IdxOps I) (sz : C → I) (f : C → Nat → R Nat) (n : Node I S C) : R Nat := do
  let c ← n.child 0
  let m ← f c 0
  let count ← keyLoop ix sz f n n.len 0 m
  let s ← n.childSize sz n.len
  vassert (ix.lt s n.size)
  let start ← ix.subR n.size s
  let p ← posAt n (n.len - 1)
  vassert (ix.lt p start)
  pure count

/-- The assertions of `validate_node`; `root` says that the path is empty, `cow` is `P::COW`; src/tree/mod.rs:1105-1114 -/
def validateHead (M : Nat) (cow : Bool) (L : LinkMap) (n : Node I S C) (root : Bool) (parent : Option (Nat × Nat)) : R Unit := do
  vassert (root != (L n.ptr).isSome)
  vassert (decide (1 ≤ n.len))
  vassert (root || decide (M ≤ n.len))
  vassert (cow || decide (parent = L n.ptr))

/-- `validate_node`; src/tree/mod.rs:1100-1120.  Dummy children of leaves are never looked at. -/
def validateT (ix : IdxOps I) (M : Nat) (cow : Bool) (L : LinkMap) : {h : Nat} → Tree I S h → (root : Bool) → (parent : Option (Nat × Nat)) → R Nat
  | 0, _, _, _ => pure 0
  | 1, n, root, parent => do
    validateHead M cow L n root parent
    validateLeaf ix n
  | _ + 2, n, root, parent => do
    validateHead M cow L n root parent
    validateInternal ix (szT ix) (fun c i => validateT ix M cow L c false (some (Node.ptr n, i))) n

/-- `validate`; src/tree/mod.rs:1088-1096 -/
def RleTree.validate (E : Env I S) (cow : Bool) (L : LinkMap) (t : RleTree I S) : R Unit :=
  match t.root with
  | none => pure ()
  | some r => do
    let count ← validateT E.ix E.M cow L r.tree true none
    vassert (count == r.len)

/-! ## Specification -/

/-- What the types of the code say about nodes: there is room for `2*M` keys, and one child more than keys. -/
def FitsT (M : Nat) : {h : Nat} → Tree I S h → Prop
  | 0, _ => True
  | h + 1, n => (Node.keys n).length ≤ 2 * M ∧ (Node.kids n).length = (Node.keys n).length + 1 ∧ ∀ c ∈ Node.kids n, FitsT M (h := h) c

/-- Every node below the root has some parent link. -/
def HasLinksT (L : LinkMap) : {h : Nat} → Tree I S h → Prop
  | 0, _ => True
  | h + 1, n => ∀ c ∈ Node.kids n, (∀ q, ptrT (h := h) c = some q → (L q).isSome) ∧ HasLinksT L (h := h) c

/-- The root has no parent link, and all nodes below have one. -/
def HasLinks (L : LinkMap) (t : RleTree I S) : Prop :=
  ∀ r, t.root = some r → (∀ q, ptrT r.tree = some q → L q = none) ∧ HasLinksT L r.tree

/-- Parent links as they must be: all right, or with copy-on-write there if and only if there is a parent. -/
def LinksOk (cow : Bool) (L : LinkMap) (t : RleTree I S) : Prop := if cow then HasLinks L t else Linked L t

/-! ## Assertions -/

theorem vassert_iff {c : Bool} {u : Unit} : vassert c = .ok u ↔ c = true := by
  unfold vassert check; cases c <;> simp

section
variable {MAX : Nat} {n : Node Nat S C} {sz : C → Nat}

theorem posAt_append {pre ks : List (Key Nat S)} {k : Key Nat S} {i : Nat} (h : n.keys = pre ++ k :: ks) (hi : i = pre.length) :
    posAt n i = .ok k.pos := by
  subst hi
  simp [posAt, h]

/-- What is asserted between two keys, or of the first. -/
def Before (prev : Option Nat) (s p : Nat) : Prop :=
  match prev with
  | none => p = s
  | some q => s < p ∧ q < p - s

theorem natIdx_lt_iff {a b : Nat} : (natIdx MAX).lt a b = true ↔ a < b := by
  simp [IdxOps.lt, natIdx, Nat.compare_eq_lt]

theorem natIdx_eq_iff {a b : Nat} : (natIdx MAX).eq a b = true ↔ a = b := by
  simp [IdxOps.eq, natIdx, Nat.compare_eq_eq]

theorem sub_check {a b q : Nat} {u : Unit} : (do
    vassert ((natIdx MAX).lt b a)
    let start ← (natIdx MAX).subR a b
    let p ← (Except.ok q : R Nat)
    vassert ((natIdx MAX).lt p start)) = .ok u ↔ b < a ∧ q < a - b := by
  constructor
  · intro h
    simp only [bind_ok_iff, vassert_iff, natIdx_lt_iff] at h
    obtain ⟨_, h1, st, h2, p, h3, h4⟩ := h
    cases h3
    simp only [natIdx] at h2
    rw [if_pos (by omega)] at h2
    cases h2
    exact ⟨h1, h4⟩
  · rintro ⟨h1, h2⟩
    simp only [bind_ok_iff, vassert_iff, natIdx_lt_iff]
    refine ⟨(), h1, a - b, ?_, q, rfl, h2⟩
    simp only [natIdx]
    rw [if_pos (by omega)]

theorem beforeKey_iff {pre ks : List (Key Nat S)} (h : n.keys = pre ++ ks) {s p : Nat} {u : Unit} :
    beforeKey (natIdx MAX) n pre.length s p = .ok u ↔ Before (pre.getLast?.map (·.pos)) s p := by
  rcases List.eq_nil_or_concat pre with rfl | ⟨q, k, rfl⟩
  · simp [beforeKey, vassert_iff, natIdx_eq_iff, Before]
  · have e : posAt n ((q.concat k).length - 1) = .ok k.pos := posAt_append (pre := q) (ks := ks) (by simpa using h) (by simp)
    unfold beforeKey
    rw [if_neg (by simp), e]
    simp only [List.concat_eq_append, List.getLast?_append, List.getLast?_singleton, Option.some_or, Option.map_some, Before]
    exact sub_check

/-- The assertions of a node from key `i` on: `prev` is the position of the key before, `s` the size of the child before, and `Q c i m` says
that child `c` is accepted in place `i` with `m` runs. -/
def Chain (sz : C → Nat) (size : Nat) (Q : C → Nat → Nat → Prop) : (prev : Option Nat) → (s i : Nat) → List (Key Nat S) → List C → (acc m : Nat) → Prop
  | prev, s, _, [], [], acc, m => m = acc ∧ ∃ p, prev = some p ∧ s < size ∧ p < size - s
  | prev, s, i, k :: ks, c :: cs, acc, m => Before prev s k.pos ∧ ∃ m', Q c (i + 1) m' ∧ Chain sz size Q (some k.pos) (sz c) (i + 1) ks cs (acc + 1 + m') m
  | _, _, _, _, _, _, _ => False

/-- The rest of `validateInternal`. -/
def keyTail (ix : IdxOps Nat) (sz : C → Nat) (f : C → Nat → R Nat) (n : Node Nat S C) (todo i acc : Nat) : R Nat := do
  let count ← keyLoop ix sz f n todo i acc
  let s ← n.childSize sz n.len
  vassert (ix.lt s n.size)
  let start ← ix.subR n.size s
  let p ← posAt n (n.len - 1)
  vassert (ix.lt p start)
  pure count

theorem keyTail_iff {f : C → Nat → R Nat} {pre ks : List (Key Nat S)} {kp cs : List C} {d : C} (hk : n.keys = pre ++ ks)
    (hc : n.kids = kp ++ d :: cs) (hl : kp.length = pre.length) (he : cs.length = ks.length) (h0 : pre ≠ [] ∨ ks ≠ []) {acc m : Nat} :
    keyTail (natIdx MAX) sz f n ks.length pre.length acc = .ok m ↔
      Chain sz n.size (fun c i m => f c i = .ok m) (pre.getLast?.map (·.pos)) (sz d) pre.length ks cs acc m := by
  induction ks generalizing pre kp d cs acc with
  | nil =>
    obtain rfl : cs = [] := List.length_eq_zero_iff.1 (by simpa using he)
    obtain ⟨q, k, rfl⟩ := (List.eq_nil_or_concat pre).resolve_left (h0.resolve_right (by simp))
    have e : posAt n (n.len - 1) = .ok k.pos := posAt_append (pre := q) (ks := []) (by simpa using hk) (by simp [Node.len, hk])
    have e2 : n.childSize sz n.len = .ok (sz d) := by
      have : n.kids[n.len]? = some d := by
        rw [hc, List.getElem?_append_right (by simp [Node.len, hk, hl])]
        simp [Node.len, hk, hl]
      simp [Node.childSize, Node.child, this]
    simp only [keyTail, List.length_nil, keyLoop, R.pure_eq, R.bind_ok, e2, e, Chain, List.concat_eq_append, List.getLast?_append,
      List.getLast?_singleton, Option.some_or, Option.map_some, Option.some.injEq]
    constructor
    · intro h
      simp only [bind_ok_iff, vassert_iff, natIdx_lt_iff] at h
      obtain ⟨_, h1, st, h2, _, h3, h4⟩ := h
      cases h4
      simp only [natIdx] at h2
      rw [if_pos (by omega)] at h2
      cases h2
      exact ⟨rfl, _, rfl, h1, h3⟩
    · rintro ⟨rfl, p, rfl, h1, h2⟩
      simp only [bind_ok_iff, vassert_iff, natIdx_lt_iff]
      refine ⟨(), h1, n.size - sz d, ?_, (), h2, trivial⟩
      simp only [natIdx]
      rw [if_pos (by omega)]
  | cons k ks ih =>
    obtain ⟨c, cs, rfl⟩ : ∃ c cs', cs = c :: cs' := by
      cases cs with
      | nil => simp at he
      | cons c cs => exact ⟨c, cs, rfl⟩
    have ih' := @ih (pre ++ [k]) (kp ++ [d]) cs c (by simp [hk]) (by simp [hc]) (by simp [hl]) (by simpa using he) (.inl (by simp))
    have e1 : posAt n pre.length = .ok k.pos := posAt_append hk rfl
    have e2 : n.childSize sz pre.length = .ok (sz d) := by
      have : n.kids[pre.length]? = some d := by rw [hc, ← hl]; simp
      simp [Node.childSize, Node.child, this]
    have e3 : n.child (pre.length + 1) = .ok c := by
      have : n.kids[pre.length + 1]? = some c := by
        rw [hc, List.getElem?_append_right (by omega), ← hl]
        simp
      simp [Node.child, this]
    have hstep : keyTail (natIdx MAX) sz f n (k :: ks).length pre.length acc = .ok m ↔
        beforeKey (natIdx MAX) n pre.length (sz d) k.pos = .ok () ∧ ∃ m', f c (pre.length + 1) = .ok m' ∧
          keyTail (natIdx MAX) sz f n ks.length (pre.length + 1) (acc + 1 + m') = .ok m := by
      simp only [keyTail, List.length_cons, keyLoop, e1, e2, e3, R.bind_ok, bind_ok_iff]
      constructor
      · rintro ⟨x, ⟨_, h1, m', h2, h3⟩, h4⟩
        exact ⟨h1, m', h2, x, h3, h4⟩
      · rintro ⟨h1, m', h2, x, h3, h4⟩
        exact ⟨x, ⟨(), h1, m', h2, h3⟩, h4⟩
    rw [hstep, beforeKey_iff hk]
    simp only [Chain]
    refine and_congr Iff.rfl (exists_congr fun m' => and_congr Iff.rfl ?_)
    have := ih' (acc := acc + 1 + m')
    simpa using this

theorem leaf_iff {pre ks : List (Key Nat S)} {k : Key Nat S} {cs : List C} (hk : n.keys = pre ++ k :: ks) (he : cs.length = ks.length) (hz : ∀ c ∈ cs, sz c = 0)
    {acc : Nat} :
    (∃ u, leafLoop (natIdx MAX) n ks.length (pre.length + 1) = .ok u ∧ ∃ p, posAt n (n.len - 1) = .ok p ∧ p < n.size) ↔
      Chain sz n.size (fun _ _ m => m = 0) (some k.pos) 0 pre.length ks cs acc (acc + ks.length) := by
  induction ks generalizing pre k cs acc with
  | nil =>
    obtain rfl : cs = [] := List.length_eq_zero_iff.1 (by simpa using he)
    have e : posAt n (n.len - 1) = .ok k.pos := posAt_append (pre := pre) (ks := []) hk (by simp [Node.len, hk])
    simp only [List.length_nil, leafLoop, R.pure_eq, Chain, e]
    constructor
    · rintro ⟨u, -, p, h1, h2⟩
      cases h1
      exact ⟨rfl, k.pos, rfl, by omega, by omega⟩
    · rintro ⟨-, p, h1, h2, h3⟩
      cases h1
      exact ⟨(), trivial, _, rfl, by omega⟩
  | cons k' ks ih =>
    obtain ⟨c, cs, rfl⟩ : ∃ c cs', cs = c :: cs' := by
      cases cs with
      | nil => simp at he
      | cons c cs => exact ⟨c, cs, rfl⟩
    have ih' := @ih (pre ++ [k]) k' cs (by simp [hk]) (by simpa using he) (fun c hc => hz c (by simp [hc])) (acc + 1)
    have e1 : posAt n (pre.length + 1) = .ok k'.pos := posAt_append (pre := pre ++ [k]) (ks := ks) (by simp [hk]) (by simp)
    have e2 : posAt n (pre.length + 1 - 1) = .ok k.pos := posAt_append hk (by simp)
    simp only [List.length_append, List.length_singleton] at ih'
    simp only [List.length_cons, leafLoop, e1, e2, R.bind_ok, Chain, Before, bind_ok_iff, vassert_iff, hz c (by simp)]
    rw [show acc + (ks.length + 1) = acc + 1 + ks.length by omega]
    have hc : ((natIdx MAX).cmp k'.pos k.pos == Ordering.gt) = true ↔ k.pos < k'.pos := by
      simp [natIdx, Nat.compare_eq_gt]
    constructor
    · rintro ⟨u, ⟨_, h1, h2⟩, h3⟩
      rw [hc] at h1
      exact ⟨⟨by omega, by omega⟩, 0, rfl, ih'.1 ⟨u, h2, h3⟩⟩
    · rintro ⟨h1, m', rfl, h2⟩
      obtain ⟨u, h3, h4⟩ := ih'.2 h2
      exact ⟨u, ⟨(), hc.2 (by omega), h3⟩, h4⟩

/-! ## What the assertions amount to -/

/-- The assertions hold if and only if keys and children are those of a list of items with positive sizes. -/
theorem chain_items {size : Nat} {Q : C → Nat → Nat → Prop} {P : C → List (Ent S) → Prop} {K : C → Nat → Prop}
    (hQ : ∀ c i m, Q c i m ↔ (∃ es, P c es ∧ Pos es ∧ m = es.length) ∧ K c i) {p s i : Nat} {ks : List (Key Nat S)} {cs : List C} {acc m : Nat} :
    Chain sz size Q (some p) s i ks cs acc m ↔ ∃ (a : Nat) (psr : List (Item S C)), 0 < a ∧ ks = keysR sz (p + a + s) psr ∧ cs = kidsOf psr ∧
      size = p + a + s + tot sz psr ∧ (∀ it ∈ psr, P it.kid it.ents) ∧ Pos (entsR psr) ∧ m = acc + (entsR psr).length ∧
      ∀ j c, cs[j]? = some c → K c (i + 1 + j) := by
  induction ks generalizing p s i cs acc with
  | nil =>
    cases cs with
    | cons c cs =>
      simp only [Chain, false_iff]
      rintro ⟨a, psr, -, h1, h2, -⟩
      cases psr with
      | nil => simp [kidsOf] at h2
      | cons it psr => simp at h1
    | nil =>
      simp only [Chain]
      constructor
      · rintro ⟨rfl, p', h, h1, h2⟩
        cases h
        exact ⟨size - s - p, [], by omega, by simp, rfl, by simp; omega, by simp, by simp [entsR, Pos.nil], by simp [entsR], by simp⟩
      · rintro ⟨a, psr, ha, h1, h2, h3, -, -, h4, -⟩
        cases psr with
        | cons it psr => simp at h1
        | nil =>
          simp at h3
          exact ⟨by simpa [entsR] using h4, p, rfl, by omega, by omega⟩
  | cons k ks ih =>
    cases cs with
    | nil =>
      simp only [Chain, false_iff]
      rintro ⟨a, psr, -, h1, h2, -⟩
      cases psr with
      | nil => simp at h1
      | cons it psr => simp [kidsOf] at h2
    | cons c cs =>
      simp only [Chain, Before]
      constructor
      · rintro ⟨⟨h1, h2⟩, m', h3, h4⟩
        obtain ⟨⟨es, g1, g2, g3⟩, g4⟩ := (hQ _ _ _).1 h3
        obtain ⟨a, psr, a1, a2, a3, a4, a5, a6, a7, a8⟩ := ih.1 h4
        refine ⟨k.pos - s - p, ⟨k.slice, k.ref, a, c, es⟩ :: psr, by omega, ?_, ?_, ?_, ?_, ?_, ?_, ?_⟩
        · have e : p + (k.pos - s - p) + s = k.pos := by omega
          simp only [keysR_cons, e, ← a2]
        · simp [kidsOf] at a3 ⊢; exact a3
        · simp only [tot_cons]; omega
        · intro it hit
          rcases List.mem_cons.1 hit with rfl | hit
          · exact g1
          · exact a5 it hit
        · simp only [entsR_cons, List.cons_append, Pos.cons, Pos.append]
          exact ⟨a1, g2, a6⟩
        · simp only [entsR_cons, List.length_cons, List.length_append]; omega
        · intro j d hd
          cases j with
          | zero => simp at hd; subst hd; exact g4
          | succ j =>
            have := a8 j d (by simpa using hd)
            rwa [show i + 1 + (j + 1) = i + 1 + 1 + j by omega]
      · rintro ⟨a, psr, a1, a2, a3, a4, a5, a6, a7, a8⟩
        cases psr with
        | nil => simp at a2
        | cons it psr =>
          simp only [keysR_cons, List.cons.injEq] at a2
          obtain ⟨rfl, a2⟩ := a2
          simp only [kidsOf, List.map_cons, List.cons.injEq] at a3
          obtain ⟨rfl, a3⟩ := a3
          simp only [entsR_cons, List.cons_append, Pos.cons, Pos.append] at a6
          simp only [entsR_cons, List.length_cons, List.length_append] at a7
          simp only [tot_cons] at a4
          refine ⟨⟨by dsimp only; omega, by dsimp only; omega⟩, it.ents.length, (hQ _ _ _).2 ⟨⟨it.ents, a5 it (by simp), a6.2.1, rfl⟩, ?_⟩, ?_⟩
          · exact a8 0 it.kid (by simp)
          · refine ih.2 ⟨it.size, psr, a6.1, a2, a3, by dsimp only; omega, fun x hx => a5 x (by simp [hx]), a6.2.2, by omega, fun j d hd => ?_⟩
            have := a8 (j + 1) d (by simpa using hd)
            rwa [show i + 1 + (j + 1) = i + 1 + 1 + j by omega] at this

end

/-! ## Nodes -/

section
variable {MAX M : Nat} {cow : Bool} {L : LinkMap}

/-- What the assertions say about the link of a node itself. -/
def HeadOk (cow : Bool) (L : LinkMap) (p : Nat) (root : Bool) (parent : Option (Nat × Nat)) : Prop :=
  ((L p).isSome ↔ root = false) ∧ (cow = false → L p = parent)

theorem validateHead_iff {n : Node Nat S C} {root : Bool} {parent : Option (Nat × Nat)} {u : Unit} :
    validateHead M cow L n root parent = .ok u ↔ HeadOk cow L n.ptr root parent ∧ 1 ≤ n.len ∧ (root = false → M ≤ n.len) := by
  simp only [validateHead, bind_ok_iff, vassert_iff, HeadOk, decide_eq_true_eq, Bool.or_eq_true]
  constructor
  · rintro ⟨_, h1, _, h2, _, h3, h4⟩
    refine ⟨⟨?_, fun hc => ?_⟩, h2, fun hr => ?_⟩
    · cases root <;> cases hL : (L n.ptr).isSome <;> simp_all
    · rcases h4 with h4 | h4
      · rw [hc] at h4; cases h4
      · exact h4.symm
    · rcases h3 with h3 | h3
      · rw [hr] at h3; cases h3
      · exact h3
  · rintro ⟨⟨h1, h2⟩, h3, h4⟩
    refine ⟨(), ?_, (), h3, (), ?_, ?_⟩
    · cases root <;> cases hL : (L n.ptr).isSome <;> simp_all
    · cases root
      · exact .inr (h4 rfl)
      · exact .inl rfl
    · cases cow
      · exact .inr (h2 rfl).symm
      · exact .inl rfl

/-- The links below a node. -/
def BelowOk (cow : Bool) (L : LinkMap) {h : Nat} (t : Tree I S h) : Prop := if cow then HasLinksT L t else LinkedT L t

theorem below_leaf {n : Tree I S 1} : BelowOk cow L n := by
  unfold BelowOk
  split
  · intro c _
    exact ⟨fun q hq => (by simp [ptrT] at hq), trivial⟩
  · intro i c _
    exact ⟨fun q hq => (by simp [ptrT] at hq), trivial⟩

theorem below_node {h : Nat} {n : Tree I S (h + 2)} :
    BelowOk cow L n ↔ ∀ (i : Nat) (c : Tree I S (h + 1)), (Node.kids n)[i]? = some c →
      HeadOk cow L (Node.ptr c) false (some (Node.ptr n, i)) ∧ BelowOk cow L c := by
  unfold BelowOk HeadOk
  cases cow with
  | true =>
    simp only [if_true]
    constructor
    · intro hb i c hc
      obtain ⟨h1, h2⟩ := hb c (List.mem_of_getElem? hc)
      exact ⟨⟨by simp [h1 _ rfl], by simp⟩, h2⟩
    · intro hb c hc
      obtain ⟨i, hi⟩ := List.getElem?_of_mem hc
      obtain ⟨⟨h1, -⟩, h2⟩ := hb i c hi
      refine ⟨fun q hq => ?_, h2⟩
      cases hq
      exact h1.2 trivial
  | false =>
    simp only [Bool.false_eq_true, if_false]
    constructor
    · intro hb i c hc
      obtain ⟨h1, h2⟩ := hb i c hc
      have h1 := h1 _ rfl
      exact ⟨⟨by simp [h1], fun _ => h1⟩, h2⟩
    · intro hb i c hc
      obtain ⟨⟨-, h1⟩, h2⟩ := hb i c hc
      refine ⟨fun q hq => ?_, h2⟩
      cases hq
      exact h1 trivial

/-- A node from its first child and the items after that. -/
theorem rep_node {h lo : Nat} {n : Tree Nat S (h + 1)} {es : List (Ent S)} :
    Rep M lo n es ↔ ∃ (c : Tree Nat S h) (ec : List (Ent S)) (psr : List (Item S (Tree Nat S h))),
      (Node.size n = szN c + tot szN psr ∧ Node.keys n = keysR szN (szN c) psr ∧ Node.kids n = c :: kidsOf psr) ∧ Rep M M c ec ∧
      (∀ it ∈ psr, Rep M M it.kid it.ents) ∧ es = ec ++ entsR psr ∧ lo ≤ psr.length ∧ psr.length ≤ 2 * M := by
  show (∃ _ _ _, _) ↔ _
  refine exists_congr fun c => exists_congr fun ec => exists_congr fun psr => and_congr ?_ Iff.rfl
  obtain ⟨p, z, ks, cs⟩ := n
  constructor
  · intro hn
    have hn : (⟨p, z, ks, cs⟩ : Node Nat S (Tree Nat S h)) = mkG szN p [] c (szN c) psr := hn
    simp only [mkG, Node.mk.injEq] at hn
    obtain ⟨-, h1, h2, h3⟩ := hn
    exact ⟨by simpa using h1, by simpa using h2, by simpa using h3⟩
  · rintro ⟨h1, h2, h3⟩
    show (⟨p, z, ks, cs⟩ : Node Nat S (Tree Nat S h)) = mkG szN p [] c (szN c) psr
    simp only [mkG, Node.mk.injEq]
    exact ⟨trivial, by simpa using h1, by simpa using h2, by simpa using h3⟩

theorem chain_first {C : Type} {sz : C → Nat} {size : Nat} {Q : C → Nat → Nat → Prop} {P : C → List (Ent S) → Prop} {K : C → Nat → Prop}
    (hQ : ∀ c i m, Q c i m ↔ (∃ es, P c es ∧ Pos es ∧ m = es.length) ∧ K c i) {s : Nat} {ks : List (Key Nat S)} {cs : List C} {acc m : Nat}
    (h0 : ks ≠ []) :
    Chain sz size Q none s 0 ks cs acc m ↔ ∃ (psr : List (Item S C)), (size = s + tot sz psr ∧ ks = keysR sz s psr ∧ cs = kidsOf psr) ∧
      (∀ it ∈ psr, P it.kid it.ents) ∧ Pos (entsR psr) ∧ m = acc + (entsR psr).length ∧ ∀ j c, cs[j]? = some c → K c (1 + j) := by
  cases ks with
  | nil => exact absurd rfl h0
  | cons k ks =>
    cases cs with
    | nil =>
      simp only [Chain, false_iff]
      rintro ⟨psr, ⟨-, h1, h2⟩, -⟩
      cases psr with
      | nil => simp at h1
      | cons it psr => simp [kidsOf] at h2
    | cons c cs =>
      simp only [Chain, Before, chain_items hQ]
      constructor
      · rintro ⟨rfl, m', h3, a, psr, a1, a2, a3, a4, a5, a6, a7, a8⟩
        obtain ⟨⟨es, g1, g2, g3⟩, g4⟩ := (hQ _ _ _).1 h3
        refine ⟨⟨k.slice, k.ref, a, c, es⟩ :: psr, ⟨?_, ?_, ?_⟩, ?_, ?_, ?_, ?_⟩
        · simp only [tot_cons]; omega
        · simp only [keysR_cons, ← a2]
        · simp [kidsOf] at a3 ⊢; exact a3
        · intro it hit
          rcases List.mem_cons.1 hit with rfl | hit
          · exact g1
          · exact a5 it hit
        · simp only [entsR_cons, List.cons_append, Pos.cons, Pos.append]
          exact ⟨a1, g2, a6⟩
        · simp only [entsR_cons, List.length_cons, List.length_append]; omega
        · intro j d hd
          cases j with
          | zero => simp at hd; subst hd; exact g4
          | succ j =>
            have := a8 j d (by simpa using hd)
            rwa [show 1 + (j + 1) = 0 + 1 + 1 + j by omega]
      · rintro ⟨psr, ⟨a4, a2, a3⟩, a5, a6, a7, a8⟩
        cases psr with
        | nil => simp at a2
        | cons it psr =>
          simp only [keysR_cons, List.cons.injEq] at a2
          obtain ⟨rfl, a2⟩ := a2
          simp only [kidsOf, List.map_cons, List.cons.injEq] at a3
          obtain ⟨rfl, a3⟩ := a3
          simp only [entsR_cons, List.cons_append, Pos.cons, Pos.append] at a6
          simp only [entsR_cons, List.length_cons, List.length_append] at a7
          simp only [tot_cons] at a4
          refine ⟨rfl, it.ents.length, (hQ _ _ _).2 ⟨⟨it.ents, a5 it (by simp), a6.2.1, rfl⟩, a8 0 it.kid (by simp)⟩, it.size, psr, a6.1, a2, a3,
            by dsimp only; omega, fun x hx => a5 x (by simp [hx]), a6.2.2, by omega, fun j d hd => ?_⟩
          have := a8 (j + 1) d (by simpa using hd)
          rwa [show 0 + 1 + 1 + j = 1 + (j + 1) by omega]

theorem validateLeaf_iff {n : Node Nat S C} {sz : C → Nat} {d : C} {cs : List C} (h0 : 1 ≤ n.len) (hc : n.kids = d :: cs) (he : cs.length = n.keys.length)
    (hz : ∀ c, sz c = 0) {m : Nat} :
    validateLeaf (natIdx MAX) n = .ok m ↔ m = n.len ∧ Chain sz n.size (fun _ _ m => m = 0) none (sz d) 0 n.keys cs 0 n.len := by
  obtain ⟨p, z, ks, kc⟩ := n
  dsimp only at hc he ⊢
  subst hc
  cases ks with
  | nil => simp [Node.len] at h0
  | cons k ks =>
    cases cs with
    | nil => simp at he
    | cons c cs =>
      have hl := leaf_iff (MAX := MAX) (n := (⟨p, z, k :: ks, d :: c :: cs⟩ : Node Nat S C)) (sz := sz) (pre := []) (k := k) (ks := ks) (cs := cs) rfl
        (by simpa using he) (fun c _ => hz c) (acc := 1)
      have e0 : posAt (⟨p, z, k :: ks, d :: c :: cs⟩ : Node Nat S C) 0 = .ok k.pos := rfl
      simp only [Chain, Before, hz, Node.len, List.length_cons, Nat.zero_add, Nat.add_zero, exists_eq_left] at hl ⊢
      simp only [List.length_nil] at hl
      have hi : ∀ i j, Chain sz z (fun _ _ m => m = 0) (some k.pos) 0 i ks cs 1 (ks.length + 1) → Chain sz z (fun _ _ m => m = 0) (some k.pos) 0 j ks cs 1 (ks.length + 1) := by
        intro i j h
        have hQ : ∀ (c : C) (i m : Nat), m = 0 ↔ (∃ es : List (Ent S), es = [] ∧ Pos es ∧ m = es.length) ∧ True := by
          intro c i m
          constructor
          · rintro rfl
            exact ⟨⟨[], rfl, Pos.nil, rfl⟩, trivial⟩
          · rintro ⟨⟨es, rfl, -, rfl⟩, -⟩
            rfl
        rw [chain_items (P := fun _ es => es = []) (K := fun _ _ => True) hQ] at h ⊢
        obtain ⟨a, psr, h⟩ := h
        exact ⟨a, psr, h.1, h.2.1, h.2.2.1, h.2.2.2.1, h.2.2.2.2.1, h.2.2.2.2.2.1, h.2.2.2.2.2.2.1, fun _ _ _ => trivial⟩
      rw [Nat.add_comm 1 ks.length] at hl
      constructor
      · intro h
        simp only [validateLeaf, e0, R.bind_ok, bind_ok_iff, vassert_iff, natIdx_eq_iff] at h
        obtain ⟨_, h1, _, h2, p', h3, _, h4, h5⟩ := h
        cases h5
        exact ⟨rfl, h1, hi _ _ (hl.1 ⟨(), h2, p', h3, natIdx_lt_iff.1 h4⟩)⟩
      · rintro ⟨rfl, h1, h2⟩
        obtain ⟨_, h3, p', h4, h5⟩ := hl.2 (hi _ _ h2)
        simp only [validateLeaf, e0, R.bind_ok, bind_ok_iff, vassert_iff]
        exact ⟨(), natIdx_eq_iff.2 h1, (), h3, p', h4, (), natIdx_lt_iff.2 h5, rfl⟩

theorem validateInternal_iff {n : Node Nat S C} {sz : C → Nat} {f : C → Nat → R Nat} {d : C} {cs : List C} (h0 : 1 ≤ n.len) (hc : n.kids = d :: cs)
    (he : cs.length = n.keys.length) {m : Nat} :
    validateInternal (natIdx MAX) sz f n = .ok m ↔ ∃ m0, f d 0 = .ok m0 ∧ Chain sz n.size (fun c i m => f c i = .ok m) none (sz d) 0 n.keys cs m0 m := by
  have e : n.child 0 = .ok d := by simp [Node.child, hc]
  have hv : validateInternal (natIdx MAX) sz f n = (f d 0 >>= fun m0 => keyTail (natIdx MAX) sz f n n.len 0 m0) := by
    simp only [validateInternal, e, R.bind_ok]
    rfl
  rw [hv, bind_ok_iff]
  refine exists_congr fun m0 => and_congr Iff.rfl ?_
  have h := keyTail_iff (MAX := MAX) (n := n) (sz := sz) (f := f) (pre := []) (ks := n.keys) (kp := []) (d := d) (cs := cs) rfl hc rfl he
    (.inr (fun h => by simp [Node.len, h] at h0)) (acc := m0) (m := m)
  exact h

/-- The assertions about a node, in terms of the list of runs. -/
theorem node_iff {h lo : Nat} {n : Tree Nat S (h + 1)} {d : Tree Nat S h} {cs : List (Tree Nat S h)} (hd : Node.kids n = d :: cs) (h2 : (Node.keys n).length ≤ 2 * M)
    (h1 : 1 ≤ lo) {Q : Tree Nat S h → Nat → Nat → Prop} {K : Tree Nat S h → Nat → Prop}
    (hQ : ∀ c i m, Q c i m ↔ (∃ es, Rep M M c es ∧ Pos es ∧ m = es.length) ∧ K c i) {m : Nat} :
    (lo ≤ (Node.keys n).length ∧ ∃ m0, Q d 0 m0 ∧ Chain szN (Node.size n) Q none (szN d) 0 (Node.keys n) cs m0 m) ↔
      (∃ es, Rep M lo n es ∧ Pos es ∧ m = es.length) ∧ ∀ i c, (Node.kids n)[i]? = some c → K c i := by
  constructor
  · rintro ⟨hlo, m0, hq, hc⟩
    obtain ⟨⟨ec, g1, g2, rfl⟩, g3⟩ := (hQ _ _ _).1 hq
    obtain ⟨psr, ⟨a1, a2, a3⟩, a4, a5, a6, a7⟩ := (chain_first hQ (by intro e; rw [e] at hlo; simp at hlo; omega)).1 hc
    have hlen : psr.length = (Node.keys n).length := by rw [a2]; simp
    refine ⟨⟨ec ++ entsR psr, rep_node.2 ⟨d, ec, psr, ⟨a1, a2, by rw [hd, a3]⟩, g1, a4, rfl, by omega, by omega⟩, Pos.append.2 ⟨g2, a5⟩, by simpa using a6⟩, ?_⟩
    intro i c hic
    rw [hd] at hic
    cases i with
    | zero => simp at hic; subst hic; exact g3
    | succ i =>
      rw [Nat.add_comm]
      exact a7 i c (by simpa using hic)
  · rintro ⟨⟨es, hr, hp, rfl⟩, hK⟩
    obtain ⟨c, ec, psr, ⟨a1, a2, a3⟩, g1, a4, rfl, a5, -⟩ := rep_node.1 hr
    rw [hd] at a3
    obtain ⟨rfl, rfl⟩ := List.cons.inj a3
    have hlen : psr.length = (Node.keys n).length := by rw [a2]; simp
    obtain ⟨p1, p2⟩ := Pos.append.1 hp
    refine ⟨by omega, ec.length, (hQ _ _ _).2 ⟨⟨ec, g1, p1, rfl⟩, hK 0 _ (by rw [hd]; rfl)⟩, ?_⟩
    refine (chain_first hQ (by intro e; rw [e] at hlen; rw [List.length_nil] at hlen; omega)).2 ⟨psr, ⟨a1, a2, rfl⟩, a4, p2, by simp, fun j c hj => ?_⟩
    rw [Nat.add_comm]
    exact hK (j + 1) c (by rw [hd]; simpa using hj)

/-- `validate_node` accepts a node, and counts `m` runs, if and only if its subtree stores `m` runs of positive sizes and the links are right. -/
theorem validateT_iff (hM : 1 ≤ M) {h : Nat} : ∀ {t : Tree Nat S (h + 1)} {root : Bool} {parent : Option (Nat × Nat)} {m : Nat}, FitsT M t →
    (validateT (natIdx MAX) M cow L t root parent = .ok m ↔
      (∃ es, Rep M (if root then 1 else M) t es ∧ Pos es ∧ m = es.length) ∧ HeadOk cow L (Node.ptr t) root parent ∧ BelowOk cow L t) := by
  have hlo : ∀ {root : Bool} {k : Nat}, (1 ≤ k ∧ (root = false → M ≤ k)) ↔ (if root then 1 else M) ≤ k := by
    intro root k
    cases root
    · simp; omega
    · simp
  have hl1 : ∀ {root : Bool}, 1 ≤ if root then 1 else M := fun {root} => by cases root <;> simp; omega
  have hkid : ∀ {C : Type} (l : List C) (k : Nat), l.length = k + 1 → ∃ d cs, l = d :: cs ∧ cs.length = k := by
    intro C l k hl
    cases l with
    | nil => simp at hl
    | cons d cs => exact ⟨d, cs, rfl, by simpa using hl⟩
  induction h with
  | zero =>
    intro t root parent m hf
    obtain ⟨f1, f2, -⟩ := hf
    obtain ⟨d, cs, e1, e2⟩ := hkid _ _ f2
    have hhd : validateT (natIdx MAX) M cow L t root parent = .ok m ↔
        HeadOk cow L (Node.ptr t) root parent ∧ (if root then 1 else M) ≤ (Node.keys t).length ∧ validateLeaf (C := Tree Nat S 0) (natIdx MAX) t = .ok m := by
      have hv := validateHead_iff (M := M) (cow := cow) (L := L) (C := Tree Nat S 0) (n := t) (root := root) (parent := parent) (u := ())
      simp only [validateT, bind_ok_iff]
      constructor
      · rintro ⟨_, h1, h2⟩
        obtain ⟨h3, h4⟩ := hv.1 h1
        exact ⟨h3, hlo.1 h4, h2⟩
      · rintro ⟨h1, h2, h3⟩
        exact ⟨(), hv.2 ⟨h1, hlo.2 h2⟩, h3⟩
    have hQ : ∀ (c : Tree Nat S 0) (i m : Nat), m = 0 ↔ (∃ es : List (Ent S), Rep M M c es ∧ Pos es ∧ m = es.length) ∧ True := by
      intro c i m
      constructor
      · rintro rfl
        exact ⟨⟨[], rfl, Pos.nil, rfl⟩, trivial⟩
      · rintro ⟨⟨es, (rfl : es = []), -, rfl⟩, -⟩
        rfl
    have hnode := node_iff (h := 0) (lo := if root then 1 else M) (n := t) e1 f1 hl1 (Q := fun _ _ m => m = 0) hQ (m := m)
    rw [hhd]
    constructor
    · rintro ⟨h1, h2, h3⟩
      have h0 : 1 ≤ (Node.keys t).length := le_trans hl1 h2
      obtain ⟨rfl, h4⟩ := (validateLeaf_iff (C := Tree Nat S 0) (sz := szN) h0 e1 e2 (fun _ => rfl)).1 h3
      exact ⟨(hnode.1 ⟨h2, 0, rfl, h4⟩).1, h1, below_leaf⟩
    · rintro ⟨h1, h2, -⟩
      obtain ⟨h3, m0, rfl, h4⟩ := hnode.2 ⟨h1, fun _ _ _ => trivial⟩
      have h0 : 1 ≤ (Node.keys t).length := le_trans hl1 h3
      have hm : m = (Node.keys t).length := by
        obtain ⟨psr, ⟨-, a2, -⟩, a3, -, a4, -⟩ := (chain_first hQ (by intro e; rw [e] at h0; simp at h0)).1 h4
        rw [a4, a2]
        have : ∀ l : List (Item S (Tree Nat S 0)), (∀ it ∈ l, Rep M M it.kid it.ents) → (entsR l).length = l.length := by
          intro l
          induction l with
          | nil => intro _; rfl
          | cons it l il =>
            intro hl
            have h5 : it.ents = [] := hl it (by simp)
            simp [h5, il fun x hx => hl x (by simp [hx])]
        simp [this psr a3]
      subst hm
      exact ⟨h2, h3, (validateLeaf_iff (C := Tree Nat S 0) (sz := szN) h0 e1 e2 (fun _ => rfl)).2 ⟨rfl, h4⟩⟩
  | succ h ih =>
    intro t root parent m hf
    obtain ⟨f1, f2, f3⟩ := hf
    obtain ⟨d, cs, e1, e2⟩ := hkid _ _ f2
    let f : Tree Nat S (h + 1) → Nat → R Nat := fun c i => validateT (natIdx MAX) M cow L c false (some (Node.ptr t, i))
    let Q : Tree Nat S (h + 1) → Nat → Nat → Prop := fun c i m => c ∈ Node.kids t ∧ f c i = .ok m
    have hhd : validateT (natIdx MAX) M cow L t root parent = .ok m ↔
        HeadOk cow L (Node.ptr t) root parent ∧ (if root then 1 else M) ≤ (Node.keys t).length ∧
          validateInternal (C := Tree Nat S (h + 1)) (natIdx MAX) szN f t = .ok m := by
      have hv := validateHead_iff (M := M) (cow := cow) (L := L) (C := Tree Nat S (h + 1)) (n := t) (root := root) (parent := parent) (u := ())
      simp only [validateT, bind_ok_iff, szT_natIdx]
      constructor
      · rintro ⟨_, h1, h2⟩
        obtain ⟨h3, h4⟩ := hv.1 h1
        exact ⟨h3, hlo.1 h4, h2⟩
      · rintro ⟨h1, h2, h3⟩
        exact ⟨(), hv.2 ⟨h1, hlo.2 h2⟩, h3⟩
    have hQ : ∀ (c : Tree Nat S (h + 1)) (i m : Nat), Q c i m ↔ (∃ es : List (Ent S), Rep M M c es ∧ Pos es ∧ m = es.length) ∧
        (c ∈ Node.kids t ∧ HeadOk cow L (Node.ptr c) false (some (Node.ptr t, i)) ∧ BelowOk cow L c) := by
      intro c i m
      constructor
      · rintro ⟨h1, h2⟩
        obtain ⟨h3, h4⟩ := (ih (f3 c h1)).1 h2
        exact ⟨by simpa using h3, h1, h4⟩
      · rintro ⟨h1, h2, h3⟩
        exact ⟨h2, (ih (f3 c h2)).2 ⟨by simpa using h1, h3⟩⟩
    have hch : ∀ (ks : List (Key Nat S)) (l : List (Tree Nat S (h + 1))) (o : Option Nat) (z s i acc : Nat), (∀ c ∈ l, c ∈ Node.kids t) →
        (Chain szN z (fun c i m => f c i = .ok m) o s i ks l acc m ↔ Chain szN z Q o s i ks l acc m) := by
      intro ks
      induction ks with
      | nil => intro l o z s i acc _; cases l <;> exact Iff.rfl
      | cons k ks il =>
        intro l o z s i acc hl
        cases l with
        | nil => exact Iff.rfl
        | cons c l =>
          simp only [Chain]
          refine and_congr Iff.rfl (exists_congr fun m' => ?_)
          rw [il l _ z _ _ _ (fun x hx => hl x (by simp [hx]))]
          exact and_congr ⟨fun h => ⟨hl c (by simp), h⟩, fun h => h.2⟩ Iff.rfl
    have hnode := node_iff (h := h + 1) (lo := if root then 1 else M) (n := t) e1 f1 hl1 hQ (m := m)
    have hd : d ∈ Node.kids t := by rw [e1]; simp
    have hcs : ∀ c ∈ cs, c ∈ Node.kids t := by intro c hc; rw [e1]; simp [hc]
    rw [hhd, below_node]
    constructor
    · rintro ⟨h1, h2, h3⟩
      have h0 : 1 ≤ (Node.keys t).length := le_trans hl1 h2
      obtain ⟨m0, g1, g2⟩ := (validateInternal_iff (C := Tree Nat S (h + 1)) (sz := szN) (f := f) h0 e1 e2).1 h3
      obtain ⟨g3, g4⟩ := hnode.1 ⟨h2, m0, ⟨hd, g1⟩, (hch _ _ _ _ _ _ _ hcs).1 g2⟩
      exact ⟨g3, h1, fun i c hc => (g4 i c hc).2⟩
    · rintro ⟨h1, h2, h3⟩
      obtain ⟨g1, m0, ⟨-, g2⟩, g3⟩ := hnode.2 ⟨h1, fun i c hc => ⟨List.mem_of_getElem? hc, h3 i c hc⟩⟩
      have h0 : 1 ≤ (Node.keys t).length := le_trans hl1 g1
      exact ⟨h2, g1, (validateInternal_iff (C := Tree Nat S (h + 1)) (sz := szN) (f := f) h0 e1 e2).2 ⟨m0, g2, (hch _ _ _ _ _ _ _ hcs).2 g3⟩⟩

/-- What `validate` looks at is all that matters: it accepts a tree if and only if the tree stores some list of runs of positive sizes with
every position, size and count right, and the parent links are right. -/
theorem RleTree.validate_iff {E : Env Nat S} (hE : E.ix = natIdx MAX) (hM : 1 ≤ E.M) {t : RleTree Nat S} (hf : ∀ r, t.root = some r → FitsT E.M r.tree) :
    t.validate E cow L = .ok () ↔ (∃ es, Holds E t es) ∧ LinksOk cow L t := by
  obtain ⟨_ | r⟩ := t
  · refine ⟨fun _ => ⟨⟨[], Pos.nil, rfl⟩, ?_⟩, fun _ => rfl⟩
    unfold LinksOk
    split
    · exact fun r h => by cases h
    · exact fun r h => by cases h
  · have hr := fun m => validateT_iff (MAX := MAX) (cow := cow) (L := L) hM (t := r.tree) (root := true) (parent := none) (m := m) (hf r rfl)
    have hlink : LinksOk cow L ⟨some r⟩ ↔ HeadOk cow L (Node.ptr r.tree) true none ∧ BelowOk cow L r.tree := by
      unfold LinksOk BelowOk HeadOk
      cases cow with
      | true =>
        simp only [if_true]
        constructor
        · intro h
          obtain ⟨h1, h2⟩ := h r rfl
          exact ⟨⟨by simp [h1 _ rfl], by simp⟩, h2⟩
        · rintro ⟨⟨h1, -⟩, h2⟩ r' hr'
          cases hr'
          refine ⟨fun q hq => ?_, h2⟩
          cases hq
          simpa using h1
      | false =>
        simp only [Bool.false_eq_true, if_false]
        constructor
        · intro h
          obtain ⟨h1, h2⟩ := h r rfl
          exact ⟨⟨by simp [h1 _ rfl], fun _ => h1 _ rfl⟩, h2⟩
        · rintro ⟨⟨-, h1⟩, h2⟩ r' hr'
          cases hr'
          refine ⟨fun q hq => ?_, h2⟩
          cases hq
          exact h1 trivial
    rw [hlink]
    simp only [RleTree.validate, hE, bind_ok_iff, vassert_iff, beq_iff_eq, hr, if_true]
    constructor
    · rintro ⟨m, ⟨⟨es, h1, h2, rfl⟩, h3⟩, h4⟩
      exact ⟨⟨es, h2, h1, h4.symm⟩, h3⟩
    · rintro ⟨⟨es, h1, h2, h3⟩, h4⟩
      exact ⟨es.length, ⟨⟨es, h2, h1, rfl⟩, h4⟩, h3.symm⟩

end

end Sherman
