import Verif.Insert
/-!
# Node-level lemmas over unsigned indices

Nodes are described by lists of items around a child in focus; `keysL`/`keysR` compute the positions
that the keys should have.
-/
namespace Sherman
variable {S C : Type}

/-! ## Checked arithmetic -/
section arith
variable {MAX a b : Nat}
@[simp] theorem natIdx_zero : (natIdx MAX).zero = 0 := rfl
theorem addR_ok (h : a + b ≤ MAX) : (natIdx MAX).addR a b = .ok (a + b) := by simp [natIdx, h]
theorem addL_ok (h : b + a ≤ MAX) : (natIdx MAX).addL a b = .ok (b + a) := by simp [natIdx, h]
theorem subR_ok (h : b ≤ a) : (natIdx MAX).subR a b = .ok (a - b) := by simp [natIdx, h]
theorem subL_ok (h : b ≤ a) : (natIdx MAX).subL a b = .ok (a - b) := by simp [natIdx, h]
@[simp] theorem natIdx_cmp : (natIdx MAX).cmp a b = compare a b := rfl
@[simp] theorem natIdx_lt : (natIdx MAX).lt a b = decide (a < b) := by
  simp only [IdxOps.lt, natIdx_cmp, Nat.compare_eq_ite_lt]
  by_cases h : a < b
  · simp [h]
  · by_cases h2 : b < a <;> simp [h, h2]
@[simp] theorem natIdx_le : (natIdx MAX).le a b = decide (a ≤ b) := by
  simp only [IdxOps.le, natIdx_cmp, Nat.compare_eq_ite_lt]
  by_cases h : a < b
  · have : a ≤ b := by omega
    simp [h, this]
  · by_cases h2 : b < a
    · have : ¬ a ≤ b := by omega
      simp [h, h2, this]
    · have : a ≤ b := by omega
      simp [h, h2, this]
@[simp] theorem natIdx_eq : (natIdx MAX).eq a b = decide (a = b) := by
  simp only [IdxOps.eq, natIdx_cmp, Nat.compare_eq_ite_lt]
  by_cases h : a < b
  · simp [h]; omega
  · by_cases h2 : b < a
    · simp [h, h2]; omega
    · simp [h, h2]; omega
theorem usub_ok (h : b ≤ a) : usub a b = .ok (a - b) := by simp [usub, h]
end arith

/-! ## Entries and items -/

/-- One run of the tree: its size, slice and slice-reference id.  Ghost, used in specifications. -/
structure Ent (S : Type) where
  size : Nat
  slice : S
  ref : Option Nat
  deriving DecidableEq, Repr

/-- Ghost description of a key together with one of the children next to it. `ents` are the entries
stored in the child. -/
structure Item (S C : Type) where
  slice : S
  ref : Option Nat
  size : Nat
  kid : C
  ents : List (Ent S)

def Item.ent (it : Item S C) : Ent S := ⟨it.size, it.slice, it.ref⟩

/-- Total size of entries. -/
def total (es : List (Ent S)) : Nat := (es.map (·.size)).sum

@[simp] theorem total_nil : total ([] : List (Ent S)) = 0 := rfl
@[simp] theorem total_cons (e : Ent S) (es) : total (e :: es) = e.size + total es := by
  simp [total]
@[simp] theorem total_append (a b : List (Ent S)) : total (a ++ b) = total a + total b := by
  simp [total]

section
variable (sz : C → Nat)

/-- Keys of items that are *right* of their children, starting at position `o`. -/
def keysL (o : Nat) : List (Item S C) → List (Key Nat S)
  | [] => []
  | it :: r => ⟨o + sz it.kid, it.slice, it.ref⟩ :: keysL (o + sz it.kid + it.size) r

/-- Keys of items that are *left* of their children, starting at position `o`. -/
def keysR (o : Nat) : List (Item S C) → List (Key Nat S)
  | [] => []
  | it :: r => ⟨o, it.slice, it.ref⟩ :: keysR (o + it.size + sz it.kid) r

/-- Size covered by items and their children. -/
def tot : List (Item S C) → Nat
  | [] => 0
  | it :: r => sz it.kid + it.size + tot r

def kidsOf (l : List (Item S C)) : List C := l.map (·.kid)
def entsL (l : List (Item S C)) : List (Ent S) := l.flatMap (fun it => it.ents ++ [it.ent])
def entsR (l : List (Item S C)) : List (Ent S) := l.flatMap (fun it => it.ent :: it.ents)

variable {sz}
@[simp] theorem keysL_nil (o) : keysL sz o ([] : List (Item S C)) = [] := rfl
@[simp] theorem keysR_nil (o) : keysR sz o ([] : List (Item S C)) = [] := rfl
@[simp] theorem keysL_cons (o) (it : Item S C) (r) :
    keysL sz o (it :: r) = ⟨o + sz it.kid, it.slice, it.ref⟩ :: keysL sz (o + sz it.kid + it.size) r := rfl
@[simp] theorem keysR_cons (o) (it : Item S C) (r) :
    keysR sz o (it :: r) = ⟨o, it.slice, it.ref⟩ :: keysR sz (o + it.size + sz it.kid) r := rfl
@[simp] theorem tot_nil : tot sz ([] : List (Item S C)) = 0 := rfl
@[simp] theorem tot_cons (it : Item S C) (r) : tot sz (it :: r) = sz it.kid + it.size + tot sz r := rfl
@[simp] theorem kidsOf_nil : kidsOf ([] : List (Item S C)) = [] := rfl
@[simp] theorem kidsOf_cons (it : Item S C) (r) : kidsOf (it :: r) = it.kid :: kidsOf r := rfl
@[simp] theorem kidsOf_append (a b : List (Item S C)) : kidsOf (a ++ b) = kidsOf a ++ kidsOf b := by
  simp [kidsOf]
@[simp] theorem kidsOf_length (a : List (Item S C)) : (kidsOf a).length = a.length := by simp [kidsOf]
@[simp] theorem entsL_nil : entsL ([] : List (Item S C)) = [] := rfl
@[simp] theorem entsR_nil : entsR ([] : List (Item S C)) = [] := rfl
@[simp] theorem entsL_cons (it : Item S C) (r) : entsL (it :: r) = it.ents ++ it.ent :: entsL r := by
  simp [entsL]
@[simp] theorem entsR_cons (it : Item S C) (r) : entsR (it :: r) = it.ent :: (it.ents ++ entsR r) := by
  simp [entsR]
@[simp] theorem entsL_append (a b : List (Item S C)) : entsL (a ++ b) = entsL a ++ entsL b := by
  simp [entsL]
@[simp] theorem entsR_append (a b : List (Item S C)) : entsR (a ++ b) = entsR a ++ entsR b := by
  simp [entsR]
@[simp] theorem keysL_length (o) (l : List (Item S C)) : (keysL sz o l).length = l.length := by
  induction l generalizing o with
  | nil => rfl
  | cons a l ih => simp [ih]
@[simp] theorem keysR_length (o) (l : List (Item S C)) : (keysR sz o l).length = l.length := by
  induction l generalizing o with
  | nil => rfl
  | cons a l ih => simp [ih]
@[simp] theorem tot_append (a b : List (Item S C)) : tot sz (a ++ b) = tot sz a + tot sz b := by
  induction a with
  | nil => simp
  | cons x a ih => simp [ih]; omega
theorem keysL_append (o) (a b : List (Item S C)) :
    keysL sz o (a ++ b) = keysL sz o a ++ keysL sz (o + tot sz a) b := by
  induction a generalizing o with
  | nil => simp
  | cons x a ih => simp [ih]; congr 1; omega
theorem keysR_append (o) (a b : List (Item S C)) :
    keysR sz o (a ++ b) = keysR sz o a ++ keysR sz (o + tot sz a) b := by
  induction a generalizing o with
  | nil => simp
  | cons x a ih => simp [ih]; congr 1; omega

/-- Adding `d` to all positions. -/
theorem mapPos_add_keysR {MAX d : Nat} (o) (l : List (Item S C)) (h : o + tot sz l + d ≤ MAX) :
    Node.mapPos (fun k => (natIdx MAX).addL k d) (keysR sz o l) = .ok (keysR sz (o + d) l) := by
  induction l generalizing o with
  | nil => rfl
  | cons x l ih =>
    simp only [tot_cons] at h
    have h1 : d + o ≤ MAX := by omega
    have h2 := ih (o + x.size + sz x.kid) (by omega)
    have e : o + d + x.size + sz x.kid = o + x.size + sz x.kid + d := by omega
    have e2 : d + o = o + d := by omega
    simp [Node.mapPos, addL_ok h1, h2, e, e2]

/-- Subtracting `d` from all positions. -/
theorem mapPos_sub_keysR {MAX d : Nat} (o) (l : List (Item S C)) (h : d ≤ o) :
    Node.mapPos (fun k => (natIdx MAX).subL k d) (keysR sz o l) = .ok (keysR sz (o - d) l) := by
  induction l generalizing o with
  | nil => rfl
  | cons x l ih =>
    have h2 := ih (o + x.size + sz x.kid) (by omega)
    have e : o - d + x.size + sz x.kid = o + x.size + sz x.kid - d := by omega
    simp [Node.mapPos, subL_ok h, h2, e]

theorem mapPos_sub_keysL {MAX d : Nat} (o) (l : List (Item S C)) (h : d ≤ o) :
    Node.mapPos (fun k => (natIdx MAX).subL k d) (keysL sz o l) = .ok (keysL sz (o - d) l) := by
  induction l generalizing o with
  | nil => rfl
  | cons x l ih =>
    have h1 : d ≤ o + sz x.kid := by omega
    have h2 := ih (o + sz x.kid + x.size) (by omega)
    have e : o - d + sz x.kid + x.size = o + sz x.kid + x.size - d := by omega
    have e2 : o - d + sz x.kid = o + sz x.kid - d := by omega
    simp [Node.mapPos, subL_ok h1, h2, ← e, e2]

theorem mapPos_append {I : Type} (f : I → R I) (a b : List (Key I S)) (a' b')
    (ha : Node.mapPos f a = .ok a') (hb : Node.mapPos f b = .ok b') :
    Node.mapPos f (a ++ b) = .ok (a' ++ b') := by
  induction a generalizing a' with
  | nil => simp [Node.mapPos] at ha; subst ha; simpa using hb
  | cons x a ih =>
    simp only [Node.mapPos, List.cons_append] at ha ⊢
    cases hx : f x.pos with
    | error e => simp [hx] at ha
    | ok p =>
      cases hr : Node.mapPos f a with
      | error e => simp [hx, hr] at ha
      | ok r =>
        simp [hx, hr] at ha
        subst ha
        simp [ih r hr]
end

/-! ## Operations on nodes given by their lists -/
@[simp] theorem World.update_fst (w : World) (r p i) : (w.update r p i).fst = w.fst := by
  cases r <;> rfl
@[simp] theorem World.suspend_fst (w : World) (r) : (w.suspend r).fst = w.fst := by
  cases r <;> rfl
@[simp] theorem updateFrom_fst {I : Type} (p i) (ks : List (Key I S)) (w : World) :
    (updateFrom p i ks w).fst = w.fst := by
  induction ks generalizing i w with
  | nil => rfl
  | cons k ks ih => simp [updateFrom, ih]

@[simp] theorem World.link_fst (w : World) (c f) : (w.link c f).fst = w.fst := by
  cases c <;> rfl
@[simp] theorem World.alloc_fst (w : World) : w.alloc.fst = w.fst := rfl
@[simp] theorem linkFrom_fst [HasPtr C] (p i) (ks : List C) (w : World) :
    (linkFrom p i ks w).fst = w.fst := by
  induction ks generalizing i w with
  | nil => rfl
  | cons k ks ih => simp [linkFrom, ih]
@[simp] theorem indexFrom_fst [HasPtr C] (p i) (ks : List C) (w : World) :
    (indexFrom p i ks w).fst = w.fst := by
  induction ks generalizing i w with
  | nil => rfl
  | cons k ks ih => simp [indexFrom, ih]

theorem Ctx.readUp_fst {I : Type} {H h : Nat} (ctx : Ctx I S H h) (a : Option Nat) (w : World) : (ctx.readUp a w).fst = w.fst := by
  induction ctx generalizing a w with
  | top => cases a <;> rfl
  | frame ptr size keys kl kr up ih => simp [Ctx.readUp, ih]

section ops
variable {I : Type} {n : Node I S C} {A B : List (Key I S)} {k : Key I S} {i : Nat}

theorem keyPos_at (h : n.keys = A ++ k :: B) (hi : A.length = i) : n.keyPos i = .ok k.pos := by
  subst hi; simp [Node.keyPos, h]

theorem handle_at (h : n.keys = A ++ k :: B) (hi : A.length = i) : n.handle i = .ok k := by
  subst hi; simp [Node.handle, h]

theorem setKeyPos_at (h : n.keys = A ++ k :: B) (hi : A.length = i) (p : I) :
    n.setKeyPos i p = .ok { n with keys := A ++ { k with pos := p } :: B } := by
  subst hi; simp [Node.setKeyPos, h]

theorem setSlice_at (h : n.keys = A ++ k :: B) (hi : A.length = i) (s : S) :
    n.setSlice i s = .ok { n with keys := A ++ { k with slice := s } :: B } := by
  subst hi; simp [Node.setSlice, h]

theorem child_at {KA KB : List C} {c : C} (h : n.kids = KA ++ c :: KB) (hi : KA.length = i) :
    n.child i = .ok c := by
  subst hi; simp [Node.child, h]

theorem childSize_at {sz : C → I} {KA KB : List C} {c : C} (h : n.kids = KA ++ c :: KB)
    (hi : KA.length = i) : n.childSize sz i = .ok (sz c) := by
  simp [Node.childSize, child_at h hi]

theorem split_at [HasPtr C] {KA KB : List C} (h : n.keys = A ++ k :: B) (hi : A.length = i)
    (hk : n.kids = KA ++ KB) (hki : KA.length = i + 1) (w : World) :
    ∃ w', n.split i w = .ok ({ n with keys := A, kids := KA }, k,
      { ptr := w.next, size := n.size, keys := B, kids := KB }, w') ∧ w'.fst = w.fst := by
  subst hi
  refine ⟨linkFrom w.next 0 KB ((updateFrom w.next 0 B w.alloc).suspend k.ref), ?_, by simp⟩
  have e1 : (A ++ k :: B).drop (A.length + 1) = B := by
    rw [show A ++ k :: B = (A ++ [k]) ++ B by simp]
    rw [List.drop_left' (by simp)]
  have e2 : (KA ++ KB).drop (A.length + 1) = KB := List.drop_left' hki
  have e3 : (KA ++ KB).take (A.length + 1) = KA := List.take_left' hki
  simp only [Node.split, h, hk]
  simp [e1, e2, e3]

theorem insertKC_at [HasPtr C] {KA KB : List C} {maxLen : Nat} (h : n.keys = A ++ B) (hi : A.length = i)
    (hk : n.kids = KA ++ KB) (hki : KA.length = i + 1) (hlen : A.length + B.length < maxLen)
    (s : S) (r : Option Nat) (c : C) (w : World) :
    ∃ w', n.insertKeyAndChild maxLen i s r c w =
      .ok ({ n with keys := A ++ ⟨n.nextPos i, s, r⟩ :: B, kids := KA ++ c :: KB },
        n.nextPos i, w') ∧ w'.fst = w.fst := by
  subst hi
  refine ⟨indexFrom n.ptr (A.length + 2) KB ((updateFrom n.ptr A.length (⟨n.nextPos A.length, s, r⟩ :: B) w).link (HasPtr.addr c)
    fun q => .setOwned q n.ptr (A.length + 1)), ?_, by simp⟩
  have e2 : (KA ++ KB).drop (A.length + 1) = KB := List.drop_left' hki
  have e3 : (KA ++ KB).take (A.length + 1) = KA := List.take_left' hki
  have h1 : decide (A.length ≤ n.len) = true := by simp [Node.len, h]
  have h2 : decide (n.len < maxLen) = true := by simp [Node.len, h, hlen]
  simp only [Node.insertKeyAndChild, h1, h2]
  simp [h, hk, e2, e3]

theorem pushKC_at [HasPtr C] {maxLen : Nat} (hlen : n.keys.length < maxLen) (s : S) (r : Option Nat) (c : C)
    (sz : I) (w : World) :
    ∃ w', n.pushKeyAndChild maxLen s r c sz w =
      .ok ({ n with size := sz, keys := n.keys ++ [⟨n.size, s, r⟩], kids := n.kids ++ [c] }, w') ∧
      w'.fst = w.fst := by
  refine ⟨(w.link (HasPtr.addr c) fun q => .setOwned q n.ptr (n.len + 1)).update r n.ptr n.len, ?_, by simp⟩
  have h2 : decide (n.len < maxLen) = true := by simp [Node.len, hlen]
  simp [Node.pushKeyAndChild, h2]

end ops

section natops
variable {sz : C → Nat} {n : Node Nat S C} {A : List (Key Nat S)} {psr : List (Item S C)}
  {X i MAX : Nat}

theorem nextPos_at (h : n.keys = A ++ keysR sz X psr) (hi : A.length = i)
    (hs : n.size = X + tot sz psr) : n.nextPos i = X := by
  subst hi
  cases psr with
  | nil => simp [Node.nextPos, Node.tryKeyPos, h, hs]
  | cons it r => simp [Node.nextPos, Node.tryKeyPos, h]

/-- Size of the key in front of a child. -/
theorem sliceSize_at {it : Item S C} {KA KB : List C} {p : Nat}
    (h : n.keys = A ++ ⟨p, it.slice, it.ref⟩ :: keysR sz X psr) (hi : A.length = i)
    (hk : n.kids = KA ++ it.kid :: KB) (hki : KA.length = i + 1)
    (hs : n.size = X + tot sz psr) (hX : X = p + it.size + sz it.kid) :
    n.sliceSize (natIdx MAX) sz i = .ok it.size := by
  have h1 : n.nextPos (i + 1) = X :=
    nextPos_at (A := A ++ [⟨p, it.slice, it.ref⟩]) (by simp [h]) (by simp [hi]) hs
  have h2 : sz it.kid ≤ X := by omega
  have h3 : p ≤ X - sz it.kid := by omega
  simp only [Node.sliceSize, keyPos_at h hi, childSize_at hk hki, R.bind_ok, h1, subR_ok h2,
    subL_ok h3]
  congr 1; omega

/-- The shift of all keys right of a change. -/
theorem shiftKeys_at {pos old new X' : Nat} {incr : Bool}
    (h : n.keys = A ++ keysR sz X psr) (hi : A.length = i) (hs : n.size = X + tot sz psr)
    (h1 : pos + old = X) (h2 : pos + new = X') (hm1 : X ≤ MAX)
    (hm2 : X' + tot sz psr ≤ MAX) (hinc : incr = true → old ≤ new)
    (hdec : incr = false → new ≤ old) :
    n.shiftKeys (natIdx MAX) incr i pos old new =
      .ok { n with keys := A ++ keysR sz X' psr, size := X' + tot sz psr } := by
  subst hi h1 h2
  have hl : decide (A.length ≤ n.len) = true := by simp [Node.len, h]
  have a1 : pos + old ≤ MAX := by omega
  have a2 : pos + new ≤ MAX := by omega
  have d1 : n.keys.drop A.length = keysR sz (pos + old) psr := by simp [h]
  have d2 : n.keys.take A.length = A := by simp [h]
  cases incr with
  | true =>
    have := hinc rfl
    have s1 : pos + old ≤ pos + new := by omega
    have hm := mapPos_add_keysR (sz := sz) (MAX := MAX) (d := pos + new - (pos + old)) (pos + old) psr
      (by omega)
    have e : pos + old + (pos + new - (pos + old)) = pos + new := by omega
    rw [e] at hm
    have hsz : pos + new - (pos + old) + n.size ≤ MAX := by omega
    simp only [Node.shiftKeys, hl, weakAssert_true, R.bind_ok, addR_ok a1, addR_ok a2, subL_ok s1,
      Node.setKeyPossWith, d1, hm, addL_ok hsz, d2, if_true]
    simp; omega
  | false =>
    have := hdec rfl
    have s1 : pos + new ≤ pos + old := by omega
    have hm := mapPos_sub_keysR (sz := sz) (MAX := MAX) (d := pos + old - (pos + new)) (pos + old) psr
      (by omega)
    have e : pos + old - (pos + old - (pos + new)) = pos + new := by omega
    rw [e] at hm
    have hsz : pos + old - (pos + new) ≤ n.size := by omega
    simp only [Node.shiftKeys, hl, weakAssert_true, R.bind_ok, addR_ok a1, addR_ok a2, subR_ok s1,
      Node.setKeyPossWith, d1, hm, subL_ok hsz, d2]
    simp; omega

theorem shiftKeysAuto_at {pos old new X' : Nat}
    (h : n.keys = A ++ keysR sz X psr) (hi : A.length = i) (hs : n.size = X + tot sz psr)
    (h1 : pos + old = X) (h2 : pos + new = X') (hm1 : X ≤ MAX)
    (hm2 : X' + tot sz psr ≤ MAX) :
    n.shiftKeysAuto (natIdx MAX) i pos old new =
      .ok { n with keys := A ++ keysR sz X' psr, size := X' + tot sz psr } := by
  apply shiftKeys_at h hi hs h1 h2 hm1 hm2 <;> simp <;> omega

/-- Moving the positions of a node that was split off back to zero. -/
theorem shiftBack_at {psl : List (Item S C)} {o : Nat}
    (h : n.keys = keysL sz o psl ++ keysR sz X psr) (hs : n.size = X + tot sz psr)
    (ho : o ≤ X) (hm : o ≤ MAX) :
    n.shiftKeys (natIdx MAX) false 0 0 o 0 =
      .ok { n with keys := keysL sz 0 psl ++ keysR sz (X - o) psr, size := X - o + tot sz psr } := by
  have hl : decide (0 ≤ n.len) = true := by simp
  have a1 : 0 + o ≤ MAX := by omega
  have a2 : 0 + 0 ≤ MAX := by omega
  have s1 : 0 + 0 ≤ 0 + o := by omega
  have e : 0 + o - (0 + 0) = o := by omega
  have hm := mapPos_append _ _ _ _ _ (mapPos_sub_keysL (sz := sz) (MAX := MAX) (d := o) o psl (by omega))
    (mapPos_sub_keysR (sz := sz) (MAX := MAX) (d := o) X psr ho)
  have hsz : o ≤ n.size := by omega
  simp only [Node.shiftKeys, hl, weakAssert_true, R.bind_ok, addR_ok a1, addR_ok a2, subR_ok s1, e,
    Node.setKeyPossWith, List.drop_zero, h, hm, subL_ok hsz]
  simp; omega

end natops

/-! ## The node around a child -/

/-- The node with children and keys `psl`, then child `c` (whose size is counted as `s`), then `psr`. -/
def mkG (sz : C → Nat) (p : Nat) (psl : List (Item S C)) (c : C) (s : Nat) (psr : List (Item S C)) :
    Node Nat S C :=
  { ptr := p, size := tot sz psl + s + tot sz psr,
    keys := keysL sz 0 psl ++ keysR sz (tot sz psl + s) psr,
    kids := kidsOf psl ++ c :: kidsOf psr }

/-- The focus can be moved. -/
theorem mkG_move (sz : C → Nat) (p) (psl : List (Item S C)) (c : C) (it : Item S C) (psr) (es) :
    mkG sz p psl c (sz c) (it :: psr) =
      mkG sz p (psl ++ [{ it with kid := c, ents := es }]) it.kid (sz it.kid) psr := by
  simp only [mkG, tot_cons, tot_append, tot_nil, keysL_append, keysL_cons, keysL_nil, keysR_cons,
    kidsOf_cons, kidsOf_append, kidsOf_nil, List.append_assoc, List.cons_append, List.nil_append]
  congr 1
  · omega
  · congr 4 <;> omega

@[simp] theorem mkG_len (sz : C → Nat) (p) (psl : List (Item S C)) (c : C) (s) (psr) :
    (mkG sz p psl c s psr).keys.length = psl.length + psr.length := by simp [mkG]

end Sherman
