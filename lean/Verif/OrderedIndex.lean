import Verif.OrderedSpec
import Verif.OrderedGroup
import Verif.IndexHom
import Verif.FinUse
import Verif.TreeProps2
/-!
# C53: trees over any ordered index type

`Index` is a public trait: its implementations need not be unsigned integers.  Here the index type is any type whose
operations are those of a commutative ordered group on the values from zero up to some largest value, and do anything at all
elsewhere: signed integers, rational or lexicographically ordered indices, integers that overflow.

The proof maps the finitely many values that a computation uses to the integers, in a way that keeps sums, differences and
the order (`exists_int_model`).  The tree does not look at its indices in any other way (`Verif/IndexHom.lean`), so it does
with them what it does with the integers, which is known.
-/
set_option linter.unusedSectionVars false

namespace Sherman
variable {I J S G : Type}

/-! ## Statement -/

/-- One call of `insert_with_cursor`, with any index type; src/tree/mod.rs:741-769 -/
structure GOp (I S : Type) where
  idx : I
  slice : S
  size : I
  nop : Bool
  hints : List Nat
  world : World

/-- A history of insertions into a tree with any index type; src/tree/mod.rs:741-769 -/
def gInsertAll (E : Env I S) : RleTree I S → List (GOp I S) → R (RleTree I S)
  | t, [] => .ok t
  | t, o :: os => do
    let (t, _) ← t.insert E o.nop o.hints o.idx o.slice o.size o.world
    gInsertAll E t os

/-- The index type has the operations of a commutative ordered group, `e` saying which value of the group an index stands for:
sums of non-negative indices up to `MAX`, and differences of non-negative indices that are not negative.  Nothing is said
about other sums and differences; they may be wrong or panic.  The trait: src/public_traits.rs:15-36, 244-296 -/
structure LawfulIdx [Zero G] [Add G] [Sub G] [LE G] [Ord G] (e : I → G) (MAX : G) (ix : IdxOps I) : Prop where
  inj : ∀ {a b}, e a = e b → a = b
  zero : e ix.zero = 0
  cmp : ∀ a b, ix.cmp a b = compare (e a) (e b)
  addR : ∀ a b, 0 ≤ e a → 0 ≤ e b → e a + e b ≤ MAX → ∃ c, ix.addR a b = .ok c ∧ e c = e a + e b
  addL : ∀ a b, 0 ≤ e a → 0 ≤ e b → e a + e b ≤ MAX → ∃ c, ix.addL a b = .ok c ∧ e c = e a + e b
  subR : ∀ a b, 0 ≤ e b → e b ≤ e a → ∃ c, ix.subR a b = .ok c ∧ e c = e a - e b
  subL : ∀ a b, 0 ≤ e b → e b ≤ e a → ∃ c, ix.subL a b = .ok c ∧ e c = e a - e b

/-- `slG` are the operations on slices, with indices replaced by what they stand for.  The trait: src/public_traits.rs:48-90 -/
structure SameSl (e : I → G) (sl : SliceOps I S) (slG : SliceOps G S) : Prop where
  may : slG.mayJoin = sl.mayJoin
  join : slG.tryJoin = sl.tryJoin
  split : ∀ s c, slG.splitAt s (e c) = sl.splitAt s c

/-- What an operation stands for. -/
def GOp.val (e : I → G) (o : GOp I S) : G × S × G := (e o.idx, o.slice, e o.size)

/-! ## Observations -/

/-- Insert, then look: the size, the number of slices, and the entry found by a lookup. -/
def gSee (E : Env I S) (ops : List (GOp I S)) (o : Option (List Nat × I)) : R (I × Nat × Option (Entry I S)) := do
  let t ← gInsertAll E ⟨none⟩ ops
  match o with
  | none => pure (t.size E, t.numberOfSlices, none)
  | some q => do
    let x ← t.get E q.1 q.2
    pure (t.size E, t.numberOfSlices, some x)

/-- Apply a map of indices to an operation. -/
def GOp.mi (f : I → J) (o : GOp I S) : GOp J S := ⟨f o.idx, o.slice, f o.size, o.nop, o.hints, o.world⟩

/-- Apply a map of indices to what was observed. -/
def seeMi (f : I → J) (r : I × Nat × Option (Entry I S)) : J × Nat × Option (Entry J S) := (f r.1, r.2.1, r.2.2.map (Entry.mi f))

theorem mi_gInsertAll {B : Fault → Prop} {f : I → J} {E : Env I S} {F : Env J S} (hh : IHom B f E F) (t : RleTree I S)
    (ops : List (GOp I S)) : ISim B (gInsertAll E t ops) (gInsertAll F (t.mi f) (ops.map (GOp.mi f))) (RleTree.mi f) := by
  induction ops generalizing t with
  | nil => exact ISim.ok rfl
  | cons o os ih => exact ISim.bind (RleTree.mi_insert hh t o.nop o.hints o.idx o.slice o.size o.world) fun x => ih x.1

theorem mi_gSee {B : Fault → Prop} {f : I → J} {E : Env I S} {F : Env J S} (hh : IHom B f E F) (ops : List (GOp I S))
    (o : Option (List Nat × I)) :
    ISim B (gSee E ops o) (gSee F (ops.map (GOp.mi f)) (o.map fun q => (q.1, f q.2))) (seeMi f) := by
  have hn : ∀ t : RleTree I S, (t.mi f).numberOfSlices = t.numberOfSlices := by
    rintro ⟨_ | r⟩ <;> rfl
  refine ISim.bind (mi_gInsertAll hh ⟨none⟩ ops) fun t => ?_
  cases o with
  | none => exact ISim.pure (by simp only [mi_treeSize hh, hn]; rfl)
  | some q =>
    exact ISim.bind (RleTree.mi_get hh t q.1 q.2) fun x => ISim.pure (by simp only [mi_treeSize hh, hn]; rfl)

theorem gSee_ev {ι : Type} {fl : Filter ι} {a : ι → Env I S} {b : Env I S} (hE : EnvEv fl a b) (ops : List (GOp I S))
    (o : Option (List Nat × I)) : Evt fl (fun i => gSee (a i) ops o) (gSee b ops o) := by
  have h1 : ∀ t : RleTree I S, Evt fl (fun i => gInsertAll (a i) t ops) (gInsertAll b t ops) := by
    induction ops with
    | nil => exact fun t => Evt.const _
    | cons x xs ih => exact fun t => Evt.bind (rleInsert_evt hE t x.nop x.hints x.idx x.slice x.size x.world) fun v => ih v.1
  have hs : ∀ i (t : RleTree I S), RleTree.size (a i) t = RleTree.size b t := by
    rintro i ⟨_ | r⟩
    · exact hE.ix.zero i
    · rfl
  refine Evt.bind (h1 ⟨none⟩) fun t => ?_
  cases o with
  | none =>
    simp only [hs]
    exact Evt.const _
  | some q =>
    simp only [hs]
    exact Evt.bind (rleGet_evt hE t q.1 q.2) fun x => Evt.const _

/-! ## The index types between the given one and the integers -/

section
variable [AddCommGroup G] [LinearOrder G] [IsOrderedAddMonoid G]

/-- The given operations where they are lawful, an overflow elsewhere. -/
def strictIx (e : I → G) (MAX : G) (ix : IdxOps I) : IdxOps I where
  zero := ix.zero
  cmp := ix.cmp
  addR a b := if 0 ≤ e a ∧ 0 ≤ e b ∧ e a + e b ≤ MAX then ix.addR a b else .error .overflow
  addL a b := if 0 ≤ e a ∧ 0 ≤ e b ∧ e a + e b ≤ MAX then ix.addL a b else .error .overflow
  subR a b := if 0 ≤ e b ∧ e b ≤ e a then ix.subR a b else .error .underflow
  subL a b := if 0 ≤ e b ∧ e b ≤ e a then ix.subL a b else .error .underflow

/-- The same operations if the result stands for a member of `Y`, the failure `bad` otherwise. -/
def partIx (e : I → G) (MAX : G) (ix : IdxOps I) (bad : Fault) (Y : Finset G) : IdxOps I where
  zero := ix.zero
  cmp := ix.cmp
  addR a b := if e a + e b ∈ Y then (strictIx e MAX ix).addR a b else .error bad
  addL a b := if e a + e b ∈ Y then (strictIx e MAX ix).addL a b else .error bad
  subR a b := if e a - e b ∈ Y then (strictIx e MAX ix).subR a b else .error bad
  subL a b := if e a - e b ∈ Y then (strictIx e MAX ix).subL a b else .error bad

/-- The indices that stand for a non-negative member of `Y`. -/
abbrev SubI (e : I → G) (Y : Finset G) : Type := {x : I // e x ∈ Y ∧ 0 ≤ e x}

def toSub (e : I → G) (Y : Finset G) (bad : Fault) (r : R I) : R (SubI e Y) :=
  r >>= fun c => if h : e c ∈ Y ∧ 0 ≤ e c then .ok ⟨c, h⟩ else .error bad

/-- The same operations, for those indices. -/
def subIx (e : I → G) (MAX : G) (ix : IdxOps I) (bad : Fault) (Y : Finset G) (h0 : e ix.zero ∈ Y ∧ 0 ≤ e ix.zero) : IdxOps (SubI e Y) where
  zero := ⟨ix.zero, h0⟩
  cmp a b := ix.cmp a.1 b.1
  addR a b := toSub e Y bad ((partIx e MAX ix bad Y).addR a.1 b.1)
  addL a b := toSub e Y bad ((partIx e MAX ix bad Y).addL a.1 b.1)
  subR a b := toSub e Y bad ((partIx e MAX ix bad Y).subR a.1 b.1)
  subL a b := toSub e Y bad ((partIx e MAX ix bad Y).subL a.1 b.1)

variable {e : I → G} {MAX : G} {E : Env I S} {slG : SliceOps G S} {Y : Finset G} {φ : G → ℤ} {bad : Fault}

/-- The failures of `strictIx` that the given operations need not have. -/
def Soft (f : Fault) : Prop := f = .overflow ∨ f = .underflow ∨ ∃ m, f = .panic m

theorem strict_hom (E : Env I S) : IHom Soft id ({ E with ix := strictIx e MAX E.ix } : Env I S) E where
  zero := rfl
  debug := by
    cases h : E.ix.debug with
    | true => exact .inl rfl
    | false => exact .inr ⟨rfl, fun m => .inr (.inr ⟨m, rfl⟩)⟩
  cmp _ _ := rfl
  addR a b := by
    by_cases h : 0 ≤ e a ∧ 0 ≤ e b ∧ e a + e b ≤ MAX
    · refine .inr ?_
      simp only [strictIx, if_pos h, id]
      cases E.ix.addR a b <;> rfl
    · exact .inl ⟨_, .inl rfl, by simp only [strictIx, if_neg h]⟩
  addL a b := by
    by_cases h : 0 ≤ e a ∧ 0 ≤ e b ∧ e a + e b ≤ MAX
    · refine .inr ?_
      simp only [strictIx, if_pos h, id]
      cases E.ix.addL a b <;> rfl
    · exact .inl ⟨_, .inl rfl, by simp only [strictIx, if_neg h]⟩
  subR a b := by
    by_cases h : 0 ≤ e b ∧ e b ≤ e a
    · refine .inr ?_
      simp only [strictIx, if_pos h, id]
      cases E.ix.subR a b <;> rfl
    · exact .inl ⟨_, .inr (.inl rfl), by simp only [strictIx, if_neg h]⟩
  subL a b := by
    by_cases h : 0 ≤ e b ∧ e b ≤ e a
    · refine .inr ?_
      simp only [strictIx, if_pos h, id]
      cases E.ix.subL a b <;> rfl
    · exact .inl ⟨_, .inr (.inl rfl), by simp only [strictIx, if_neg h]⟩
  M := rfl
  refs := rfl
  may := rfl
  split _ _ := rfl
  join := rfl

theorem part_ev (E : Env I S) : EnvEv Filter.atTop (fun Y : Finset G => ({ E with ix := partIx e MAX E.ix bad Y } : Env I S))
    { E with ix := strictIx e MAX E.ix } where
  ix :=
    { zero := fun _ => rfl
      cmp := fun _ => rfl
      debug := fun _ => rfl
      addR := fun x y => (ev_mem (e x + e y)).mono fun Y h => by simp only [partIx, if_pos h]
      addL := fun x y => (ev_mem (e x + e y)).mono fun Y h => by simp only [partIx, if_pos h]
      subR := fun x y => (ev_mem (e x - e y)).mono fun Y h => by simp only [partIx, if_pos h]
      subL := fun x y => (ev_mem (e x - e y)).mono fun Y h => by simp only [partIx, if_pos h] }
  sl := fun _ => rfl
  M := fun _ => rfl
  refs := fun _ => rfl

theorem toSub_sim {r : R I} (h : ∀ c, r = .ok c → e c ∈ Y ∧ 0 ≤ e c) : ISim (fun _ => False) (toSub e Y bad r) r Subtype.val := by
  refine .inr ?_
  cases r with
  | error f => rfl
  | ok c =>
    have := h c rfl
    show (Except.ok c : R I) = (dite _ _ _ : R (SubI e Y)) >>= _
    rw [dif_pos this]
    rfl

/-- Environment over `SubI`. -/
def subEnv (e : I → G) (MAX : G) (E : Env I S) (bad : Fault) (Y : Finset G) (h0 : e E.ix.zero ∈ Y ∧ 0 ≤ e E.ix.zero) : Env (SubI e Y) S :=
  ⟨subIx e MAX E.ix bad Y h0, ⟨E.sl.mayJoin, fun s p => E.sl.splitAt s p.1, E.sl.tryJoin⟩, E.M, E.refs⟩

theorem part_add {op : I → I → R I} (hop : ∀ a b, 0 ≤ e a → 0 ≤ e b → e a + e b ≤ MAX → ∃ c, op a b = .ok c ∧ e c = e a + e b)
    {a b c : I} (h : (if e a + e b ∈ Y then (if 0 ≤ e a ∧ 0 ≤ e b ∧ e a + e b ≤ MAX then op a b else .error .overflow)
      else .error bad) = .ok c) : e c ∈ Y ∧ 0 ≤ e c := by
  split at h
  · rename_i h1
    split at h
    · rename_i h2
      obtain ⟨c', h3, h4⟩ := hop a b h2.1 h2.2.1 h2.2.2
      rw [h3] at h
      cases h
      rw [h4]
      exact ⟨h1, add_nonneg h2.1 h2.2.1⟩
    · cases h
  · cases h

theorem part_sub {op : I → I → R I} (hop : ∀ a b, 0 ≤ e b → e b ≤ e a → ∃ c, op a b = .ok c ∧ e c = e a - e b)
    {a b c : I} (h : (if e a - e b ∈ Y then (if 0 ≤ e b ∧ e b ≤ e a then op a b else .error .underflow)
      else .error bad) = .ok c) : e c ∈ Y ∧ 0 ≤ e c := by
  split at h
  · rename_i h1
    split at h
    · rename_i h2
      obtain ⟨c', h3, h4⟩ := hop a b h2.1 h2.2
      rw [h3] at h
      cases h
      rw [h4]
      exact ⟨h1, sub_nonneg.2 h2.2⟩
    · cases h
  · cases h

theorem sub_hom (L : LawfulIdx e MAX E.ix) (h0 : e E.ix.zero ∈ Y ∧ 0 ≤ e E.ix.zero) :
    IHom (fun _ => False) Subtype.val (subEnv e MAX E bad Y h0) ({ E with ix := partIx e MAX E.ix bad Y } : Env I S) where
  zero := rfl
  debug := .inl rfl
  cmp _ _ := rfl
  addR _ _ := toSub_sim fun _ h => part_add L.addR h
  addL _ _ := toSub_sim fun _ h => part_add L.addL h
  subR _ _ := toSub_sim fun _ h => part_sub L.subR h
  subL _ _ := toSub_sim fun _ h => part_sub L.subL h
  M := rfl
  refs := rfl
  may := rfl
  split _ _ := rfl
  join := rfl

/-! ## The image in the natural numbers -/

open Classical in
/-- Slices over the integers: split at the image of a member of `Y` as at that member. -/
noncomputable def slZ (Y : Finset G) (φ : G → ℤ) (sl : SliceOps G S) : SliceOps ℤ S where
  mayJoin := sl.mayJoin
  tryJoin := sl.tryJoin
  splitAt s n := if h : ∃ o ∈ Y, φ o = n then sl.splitAt s h.choose else (s, s)

theorem slZ_on (hφ : GoodOn Y φ) (sl : SliceOps G S) : SlOn Y φ sl (slZ Y φ sl) where
  may := rfl
  join := rfl
  split s o ho := by
    have h : ∃ o' ∈ Y, φ o' = φ o := ⟨o, ho, rfl⟩
    simp only [slZ, dif_pos h]
    rw [hφ.inj h.choose_spec.1 ho h.choose_spec.2]

noncomputable def slN (Y : Finset G) (φ : G → ℤ) (sl : SliceOps G S) : SliceOps Nat S where
  mayJoin := sl.mayJoin
  tryJoin := sl.tryJoin
  splitAt s n := (slZ Y φ sl).splitAt s (n : ℤ)

noncomputable def natEnv (E : Env I S) (MAX : G) (Y : Finset G) (φ : G → ℤ) (sl : SliceOps G S) : Env Nat S :=
  ⟨natIdx (φ MAX).toNat, slN Y φ sl, E.M, E.refs⟩

/-- The natural number an index stands for. -/
def natOf (e : I → G) (φ : G → ℤ) (x : I) : Nat := (φ (e x)).toNat

theorem GoodOn.nonneg (hφ : GoodOn Y φ) (h0 : (0 : G) ∈ Y) {a : G} (ha : a ∈ Y) (h : 0 ≤ a) : 0 ≤ φ a := by
  by_contra hn
  have : φ a < φ 0 := by rw [hφ.zero]; omega
  exact absurd ((hφ.lt ha h0).1 this) (not_lt.2 h)

theorem GoodOn.le (hφ : GoodOn Y φ) {a b : G} (ha : a ∈ Y) (hb : b ∈ Y) : φ a ≤ φ b ↔ a ≤ b := by
  rw [← not_lt, ← not_lt, hφ.lt hb ha]

theorem nat_hom (L : LawfulIdx e MAX E.ix) (hs : SameSl e E.sl slG) (h0 : e E.ix.zero ∈ Y ∧ 0 ≤ e E.ix.zero)
    (hM : MAX ∈ Y) (hM0 : 0 ≤ MAX) (hφ : GoodOn Y φ) :
    IHom (· = bad) (fun x => natOf e φ x.1) (subEnv e MAX E bad Y h0) (natEnv E MAX Y φ slG) := by
  have hz : (0 : G) ∈ Y := by rw [← L.zero]; exact h0.1
  have hnn : ∀ x : SubI e Y, 0 ≤ φ (e x.1) := fun x => hφ.nonneg hz x.2.1 x.2.2
  have hMn := hφ.nonneg hz hM hM0
  have add : ∀ {op : I → I → R I}, (∀ a b, 0 ≤ e a → 0 ≤ e b → e a + e b ≤ MAX → ∃ c, op a b = .ok c ∧ e c = e a + e b) →
      ∀ a b : SubI e Y, ISim (· = bad) (toSub e Y bad (if e a.1 + e b.1 ∈ Y then
        (if 0 ≤ e a.1 ∧ 0 ≤ e b.1 ∧ e a.1 + e b.1 ≤ MAX then op a.1 b.1 else .error .overflow) else .error bad))
        (if natOf e φ a.1 + natOf e φ b.1 ≤ (φ MAX).toNat then .ok (natOf e φ a.1 + natOf e φ b.1) else .error .overflow)
        (fun x => natOf e φ x.1) := by
    intro op hop a b
    by_cases h1 : e a.1 + e b.1 ∈ Y
    · refine .inr ?_
      have ha := hnn a
      have hb := hnn b
      have hadd := hφ.add a.2.1 b.2.1
      have hle := hφ.le h1 hM
      by_cases h2 : e a.1 + e b.1 ≤ MAX
      · obtain ⟨c, h3, h4⟩ := hop a.1 b.1 a.2.2 b.2.2 h2
        have h5 : 0 ≤ e a.1 ∧ 0 ≤ e b.1 ∧ e a.1 + e b.1 ≤ MAX := ⟨a.2.2, b.2.2, h2⟩
        have h6 : natOf e φ a.1 + natOf e φ b.1 ≤ (φ MAX).toNat := by
          have := hle.2 h2
          unfold natOf
          omega
        have h7 : e c ∈ Y ∧ 0 ≤ e c := by rw [h4]; exact ⟨h1, add_nonneg a.2.2 b.2.2⟩
        rw [if_pos h1, if_pos h5, h3, if_pos h6]
        have : toSub e Y bad (.ok c) = .ok ⟨c, h7⟩ := by
          show (dite _ _ _ : R (SubI e Y)) = _
          rw [dif_pos h7]
        rw [this]
        refine congrArg Except.ok ?_
        simp only [natOf, h4]
        omega
      · have h5 : ¬ (0 ≤ e a.1 ∧ 0 ≤ e b.1 ∧ e a.1 + e b.1 ≤ MAX) := fun h => h2 h.2.2
        have h6 : ¬ natOf e φ a.1 + natOf e φ b.1 ≤ (φ MAX).toNat := by
          intro h
          refine h2 (hle.1 ?_)
          unfold natOf at h
          omega
        rw [if_pos h1, if_neg h5, if_neg h6]
        rfl
    · exact .inl ⟨bad, rfl, by rw [if_neg h1]; rfl⟩
  have sub : ∀ {op : I → I → R I}, (∀ a b, 0 ≤ e b → e b ≤ e a → ∃ c, op a b = .ok c ∧ e c = e a - e b) →
      ∀ a b : SubI e Y, ISim (· = bad) (toSub e Y bad (if e a.1 - e b.1 ∈ Y then
        (if 0 ≤ e b.1 ∧ e b.1 ≤ e a.1 then op a.1 b.1 else .error .underflow) else .error bad))
        (if natOf e φ b.1 ≤ natOf e φ a.1 then .ok (natOf e φ a.1 - natOf e φ b.1) else .error .underflow)
        (fun x => natOf e φ x.1) := by
    intro op hop a b
    by_cases h1 : e a.1 - e b.1 ∈ Y
    · refine .inr ?_
      have ha := hnn a
      have hb := hnn b
      have hsub := hφ.sub a.2.1 b.2.1
      have hle := hφ.le b.2.1 a.2.1
      by_cases h2 : e b.1 ≤ e a.1
      · obtain ⟨c, h3, h4⟩ := hop a.1 b.1 b.2.2 h2
        have h5 : 0 ≤ e b.1 ∧ e b.1 ≤ e a.1 := ⟨b.2.2, h2⟩
        have h6 : natOf e φ b.1 ≤ natOf e φ a.1 := by
          have := hle.2 h2
          unfold natOf
          omega
        have h7 : e c ∈ Y ∧ 0 ≤ e c := by rw [h4]; exact ⟨h1, sub_nonneg.2 h2⟩
        rw [if_pos h1, if_pos h5, h3, if_pos h6]
        have : toSub e Y bad (.ok c) = .ok ⟨c, h7⟩ := by
          show (dite _ _ _ : R (SubI e Y)) = _
          rw [dif_pos h7]
        rw [this]
        refine congrArg Except.ok ?_
        simp only [natOf, h4]
        omega
      · have h5 : ¬ (0 ≤ e b.1 ∧ e b.1 ≤ e a.1) := fun h => h2 h.2
        have h6 : ¬ natOf e φ b.1 ≤ natOf e φ a.1 := by
          intro h
          refine h2 (hle.1 ?_)
          unfold natOf at h
          omega
        rw [if_pos h1, if_neg h5, if_neg h6]
        rfl
    · exact .inl ⟨bad, rfl, by rw [if_neg h1]; rfl⟩
  exact
  { zero := by simp only [natEnv, natIdx, natOf, subEnv, subIx, L.zero, hφ.zero]; rfl
    debug := .inl rfl
    cmp := by
      intro a b
      show compare (natOf e φ a.1) (natOf e φ b.1) = E.ix.cmp a.1 b.1
      have ha := hnn a
      have hb := hnn b
      have h1 := hφ.lt a.2.1 b.2.1
      have h2 := hφ.lt b.2.1 a.2.1
      rw [L.cmp]
      rcases lt_trichotomy (e a.1) (e b.1) with h | h | h
      · rw [compare_lt_iff_lt.2 h, compare_lt_iff_lt]
        have := h1.2 h
        unfold natOf
        omega
      · rw [compare_eq_iff_eq.2 h, compare_eq_iff_eq]
        unfold natOf
        rw [h]
      · rw [compare_gt_iff_gt.2 h, compare_gt_iff_gt]
        have := h2.2 h
        unfold natOf
        omega
    addR := add L.addR
    addL := by
      intro a b
      have := add L.addL a b
      rw [Nat.add_comm] at this
      exact this
    subR := sub L.subR
    subL := sub L.subL
    M := rfl
    refs := rfl
    may := hs.may
    split := by
      intro s p
      show (slZ Y φ slG).splitAt s ((natOf e φ p.1 : Nat) : ℤ) = E.sl.splitAt s p.1
      have : ((natOf e φ p.1 : Nat) : ℤ) = φ (e p.1) := by
        have := hnn p
        unfold natOf
        omega
      rw [this, (slZ_on hφ slG).split s _ p.2.1, hs.split]
    join := hs.join }

/-! ## Transfer -/

theorem exists_map {A B : Type} {g : A → B} {l : List B} (h : ∀ x ∈ l, ∃ y, g y = x) : ∃ l' : List A, l'.map g = l := by
  induction l with
  | nil => exact ⟨[], rfl⟩
  | cons x xs ih =>
    obtain ⟨y, hy⟩ := h x (by simp)
    obtain ⟨ys, hys⟩ := ih fun z hz => h z (by simp [hz])
    exact ⟨y :: ys, by simp [hy, hys]⟩

/-- What is observed of a tree is what is observed of its image in the natural numbers. -/
theorem gSee_transfer (L : LawfulIdx e MAX E.ix) (hs : SameSl e E.sl slG) (hM0 : 0 ≤ MAX) (ops : List (GOp I S))
    (o : Option (List Nat × I)) (hops : ∀ x ∈ ops, 0 ≤ e x.idx ∧ 0 ≤ e x.size) (ho : ∀ x ∈ o, 0 ≤ e x.2) :
    ∀ᶠ Y : Finset G in Filter.atTop, ∀ φ, GoodOn Y φ →
      match gSee (natEnv E MAX Y φ slG) (ops.map (GOp.mi (natOf e φ))) (o.map fun q => (q.1, natOf e φ q.2)) with
      | .ok r => ∃ r', gSee E ops o = .ok r' ∧ r = seeMi (natOf e φ) r' ∧ (e r'.1 ∈ Y ∧ 0 ≤ e r'.1) ∧
          ∀ x ∈ r'.2.2, (e x.start ∈ Y ∧ 0 ≤ e x.start) ∧ e x.stop ∈ Y ∧ 0 ≤ e x.stop
      | .error f => ¬ Soft f → gSee E ops o = .error f := by
  obtain ⟨bad, hbad⟩ : ∃ bad, gSee ({ E with ix := strictIx e MAX E.ix } : Env I S) ops o ≠ .error bad := by
    by_cases h : gSee ({ E with ix := strictIx e MAX E.ix } : Env I S) ops o = .error .overflow
    · exact ⟨.underflow, by rw [h]; intro hc; cases hc⟩
    · exact ⟨_, h⟩
  filter_upwards [gSee_ev (part_ev (bad := bad) E) ops o, ev_mem 0, ev_mem MAX, ev_mem_list (ops.map fun x => e x.idx),
    ev_mem_list (ops.map fun x => e x.size), ev_mem_list (o.toList.map fun x => e x.2)] with Y hev h0 hM h1 h2 h3 φ hφ
  have hz : e E.ix.zero ∈ Y ∧ 0 ≤ e E.ix.zero := by rw [L.zero]; exact ⟨h0, le_refl _⟩
  obtain ⟨ops', hops'⟩ : ∃ ops' : List (GOp (SubI e Y) S), ops'.map (GOp.mi Subtype.val) = ops := by
    refine exists_map fun x hx => ?_
    have g := hops x hx
    exact ⟨⟨⟨x.idx, h1 _ (List.mem_map.2 ⟨x, hx, rfl⟩), g.1⟩, x.slice, ⟨x.size, h2 _ (List.mem_map.2 ⟨x, hx, rfl⟩), g.2⟩,
      x.nop, x.hints, x.world⟩, rfl⟩
  obtain ⟨o', ho'⟩ : ∃ o' : Option (List Nat × SubI e Y), (o'.map fun q => (q.1, q.2.1)) = o := by
    cases o with
    | none => exact ⟨none, rfl⟩
    | some q => exact ⟨some (q.1, ⟨q.2, h3 _ (by simp), ho q rfl⟩), rfl⟩
  have k1 := mi_gSee (sub_hom (bad := bad) L hz) ops' o'
  have k2 := mi_gSee (nat_hom (bad := bad) L hs hz hM hM0 hφ) ops' o'
  have k3 := mi_gSee (strict_hom (e := e) (MAX := MAX) E) ops o
  have e1 : ops'.map (GOp.mi fun x => natOf e φ x.1) = ops.map (GOp.mi (natOf e φ)) := by
    rw [← hops', List.map_map]; rfl
  have e2 : (o'.map fun q => (q.1, natOf e φ q.2.1)) = o.map fun q => (q.1, natOf e φ q.2) := by
    rw [← ho', Option.map_map]; rfl
  have e3 : ops.map (GOp.mi id) = ops := by
    have : (GOp.mi id : GOp I S → GOp I S) = id := rfl
    rw [this, List.map_id]
  have e4 : (o.map fun q => (q.1, id q.2)) = o := by cases o <;> rfl
  rw [hops', ho', hev] at k1
  rw [e1, e2] at k2
  rw [e3, e4] at k3
  cases hx : gSee (subEnv e MAX E bad Y hz) ops' o' with
  | error f =>
    rw [hx] at k1 k2
    rcases k1 with ⟨_, h, _⟩ | k1
    · exact h.elim
    have k1 : gSee ({ E with ix := strictIx e MAX E.ix } : Env I S) ops o = .error f := k1
    rcases k2 with ⟨f', hf, hf'⟩ | k2
    · cases hf'
      exact absurd (hf ▸ k1) hbad
    rw [k2]
    intro hsoft
    rw [k1] at k3
    rcases k3 with ⟨f', hf, hf'⟩ | k3
    · cases hf'
      exact absurd hf hsoft
    · exact k3
  | ok v =>
    rw [hx] at k1 k2
    rcases k1 with ⟨_, h, _⟩ | k1
    · exact h.elim
    have k1 : gSee ({ E with ix := strictIx e MAX E.ix } : Env I S) ops o = .ok (seeMi Subtype.val v) := k1
    rcases k2 with ⟨f', hf, hf'⟩ | k2
    · cases hf'
    rw [k2]
    rw [k1] at k3
    rcases k3 with ⟨f', hf, hf'⟩ | k3
    · cases hf'
    refine ⟨_, k3, ?_, v.1.2, ?_⟩
    · obtain ⟨a, b, c⟩ := v
      cases c <;> rfl
    · obtain ⟨a, b, c⟩ := v
      cases c with
      | none => intro x hx; cases hx
      | some c =>
        intro x hx
        cases hx
        exact ⟨c.start.2, c.stop.2⟩

end

/-! ## Histories over the natural numbers -/

/-- A history in bounds whose specification fails fails in the same way, which is the unimplemented case. -/
theorem insertAll_fails {MAX : Nat} {E : Env Nat S} (hE : E.ix = natIdx MAX) {t : RleTree Nat S} (ht : Reach MAX E t)
    {ops : List (Op S)} (hb : InBounds MAX (total t.runs) ops) {f : Fault} (hspec : specAll E.sl t.runs ops = .error f) :
    insertAll E t ops = .error f ∧ f = .todo "handle_join_deletion" := by
  induction ops generalizing t with
  | nil => cases hspec
  | cons o os ih =>
    obtain ⟨b1, b2, b3, b4⟩ := hb
    simp only [specAll] at hspec
    cases h1 : specInsert E.sl t.runs o.idx o.slice o.size with
    | error g =>
      rw [h1] at hspec
      cases hspec
      obtain ⟨⟨hM, hM'⟩, h2, _⟩ := ht.holds hE
      have := insert_refines hE hM hM' h2 b1 (nop := o.nop) (hints := o.hints) (s := o.slice) b2 (w := o.world) b3
      rw [h1] at this
      have hiff := specInsert_error_iff (sl := E.sl) (s := o.slice) (size := o.size) h2.1 b1
      refine ⟨by simp only [insertAll, this]; rfl, ?_⟩
      by_cases hj : JoinsBoth E.sl t.runs o.idx o.slice
      · have := hiff.1.1 hj
        rw [h1] at this
        cases this
        rfl
      · obtain ⟨_, h⟩ := hiff.2.1 hj
        rw [h1] at h
        cases h
    | ok es1 =>
      rw [h1] at hspec
      simp only at hspec
      obtain ⟨t1, out, h2, h3, h4⟩ := insert_returns hE ht o.nop o.hints o.slice o.world b1 b2 b3 h1
      have h5 := (specInsert_facts (ht.holds hE).2.1.1 b1 b2 h1).2
      obtain ⟨h6, h7⟩ := ih h4 (by rw [h3, h5]; exact b4) (by rw [h3]; exact hspec)
      refine ⟨?_, h7⟩
      simp only [insertAll, h2]
      exact h6

/-- An operation over the natural numbers, as one over any index type. -/
def Op.g (o : Op S) : GOp Nat S := ⟨o.idx, o.slice, o.size, o.nop, o.hints, o.world⟩

theorem gInsertAll_nat (E : Env Nat S) (t : RleTree Nat S) (ops : List (Op S)) : gInsertAll E t (ops.map Op.g) = insertAll E t ops := by
  induction ops generalizing t with
  | nil => rfl
  | cons o os ih =>
    simp only [List.map_cons, gInsertAll, insertAll, Op.g]
    cases t.insert E o.nop o.hints o.idx o.slice o.size o.world with
    | error f => rfl
    | ok x => exact ih x.1

/-! ## C53 -/

section
variable [AddCommGroup G] [LinearOrder G] [IsOrderedAddMonoid G]
variable {e : I → G} {MAX : G} {E : Env I S} {slG : SliceOps G S}

theorem exists_good (Y : Finset G) : ∃ φ : G → ℤ, GoodOn Y φ := by
  obtain ⟨φ, h1, h2, h3, h4⟩ := exists_int_model Y
  refine ⟨φ, h4, fun {a b} ha hb => ⟨fun h => ?_, h1 a ha b hb⟩, fun ha hb => h2 _ ha _ hb, fun ha hb => h3 _ ha _ hb⟩
  by_contra hn
  rcases (not_lt.1 hn).lt_or_eq with h5 | h5
  · have := h1 b hb a ha h5; omega
  · rw [h5] at h; omega

theorem gBounds_nonneg {n : G} {ops : List (G × S × G)} (h : gBounds MAX n ops) : ∀ x ∈ ops, 0 ≤ x.1 ∧ 0 ≤ x.2.2 := by
  induction ops generalizing n with
  | nil => intro x hx; cases hx
  | cons o os ih =>
    obtain ⟨b1, b2, b3, b4, b5⟩ := h
    intro x hx
    rcases List.mem_cons.1 hx with rfl | hx
    · exact ⟨b1, b3.le⟩
    · exact ih b5 x hx

theorem gBounds_max {n : G} {ops : List (G × S × G)} (hn : 0 ≤ n) (h : gBounds MAX n ops) : 0 ≤ MAX := by
  cases ops with
  | nil => exact le_trans hn h
  | cons o os => exact le_trans (add_nonneg hn h.2.2.1.le) h.2.2.2.1

theorem ev_list {A : Type} {P : A → Finset G → Prop} {l : List A} (h : ∀ a ∈ l, ∀ᶠ Y : Finset G in Filter.atTop, P a Y) :
    ∀ᶠ Y : Finset G in Filter.atTop, ∀ a ∈ l, P a Y := by
  induction l with
  | nil => exact Filter.Eventually.of_forall fun Y a ha => by cases ha
  | cons x xs ih =>
    filter_upwards [h x (by simp), ih fun a ha => h a (by simp [ha])] with Y h1 h2 a ha
    rcases List.mem_cons.1 ha with rfl | ha
    · exact h1
    · exact h2 a ha

/-- The history, in the natural numbers. -/
def natOps (e : I → G) (φ : G → ℤ) (ops : List (GOp I S)) : List (Op S) :=
  ops.map fun o => ⟨natOf e φ o.idx, o.slice, natOf e φ o.size, o.nop, o.hints, o.world⟩

theorem natOps_g (φ : G → ℤ) (ops : List (GOp I S)) : ops.map (GOp.mi (natOf e φ)) = (natOps e φ ops).map Op.g := by
  simp only [natOps, List.map_map]; rfl

/-- The history in the natural numbers is in bounds and its specification is the image of that of the history. -/
theorem nat_history {ops : List (GOp I S)} (hb : gBounds MAX 0 (ops.map (GOp.val e))) :
    ∀ᶠ Y : Finset G in Filter.atTop, ∀ φ, GoodOn Y φ →
      InBounds (φ MAX).toNat 0 (natOps e φ ops) ∧
      (specAll (slN Y φ slG) [] (natOps e φ ops)).map (List.map Ent.gz) =
        (gAll slG [] (ops.map (GOp.val e))).map (List.map (GRun.map φ)) := by
  have hn := gBounds_nonneg hb
  have hM := gBounds_max (le_refl _) hb
  filter_upwards [gBounds_map (le_refl _) hb, gAll_map slG [] (ops.map (GOp.val e)), ev_mem 0, ev_mem MAX,
    ev_mem_list (ops.map fun x => e x.idx), ev_mem_list (ops.map fun x => e x.size)] with Y h1 h2 h0 hMY h3 h4 φ hφ
  have e1 : (natOps e φ ops).map Op.gz = (ops.map (GOp.val e)).map fun o => (φ o.1, o.2.1, φ o.2.2) := by
    simp only [natOps, List.map_map]
    refine List.map_congr_left fun x hx => ?_
    have g1 := hn _ (List.mem_map.2 ⟨x, hx, rfl⟩)
    have g2 := hφ.nonneg h0 (h3 _ (List.mem_map.2 ⟨x, hx, rfl⟩)) g1.1
    have g3 := hφ.nonneg h0 (h4 _ (List.mem_map.2 ⟨x, hx, rfl⟩)) g1.2
    simp only [Function.comp, Op.gz, GOp.val, natOf, Prod.mk.injEq, true_and]
    exact ⟨by omega, by omega⟩
  constructor
  · refine gBounds_gz ?_
    have g := (h1 φ hφ).2
    have hMn := hφ.nonneg h0 hMY hM
    rw [e1, Int.toNat_of_nonneg hMn]
    rw [hφ.zero] at g
    exact g
  · have hs : SlNat (slN Y φ slG) (slZ Y φ slG) := ⟨rfl, rfl, fun _ _ => rfl⟩
    have g := gAll_gz hs [] (natOps e φ ops)
    rw [e1] at g
    rw [← g]
    exact h2 φ hφ _ (slZ_on hφ slG)

/-- Inserting, then looking at the size, the number of slices and the entry at one position. -/
theorem ordered_see (L : LawfulIdx e MAX E.ix) (hs : SameSl e E.sl slG) (hM : 1 ≤ E.M ∧ E.M ≤ 127) {ops : List (GOp I S)}
    (hb : gBounds MAX 0 (ops.map (GOp.val e))) {es : List (GRun G S)} (h : gAll slG [] (ops.map (GOp.val e)) = .ok es)
    (o : Option (List Nat × I)) (ho : ∀ q ∈ o, 0 ≤ e q.2 ∧ e q.2 < gTotal es) :
    ∃ r, gSee E ops o = .ok r ∧ e r.1 = gTotal es ∧ r.2.1 = es.length ∧ (o = none → r.2.2 = none) ∧
      ∀ q ∈ o, ∃ a x b ent, es = a ++ x :: b ∧ r.2.2 = some ent ∧ e ent.start = gTotal a ∧ e ent.stop = gTotal a + x.size ∧
        ent.slice = x.slice ∧ gTotal a ≤ e q.2 ∧ e q.2 < gTotal a + x.size := by
  have hn := gBounds_nonneg hb
  have hMAX := gBounds_max (le_refl _) hb
  have hops : ∀ x ∈ ops, 0 ≤ e x.idx ∧ 0 ≤ e x.size := fun x hx => hn _ (List.mem_map.2 ⟨x, hx, rfl⟩)
  have key := (gSee_transfer L hs hMAX ops o hops fun q hq => (ho q hq).1).and ((nat_history (slG := slG) hb).and
    ((ev_list (l := es.inits) fun a _ => (gTotal_map a).and (ev_mem (gTotal a))).and
    ((ev_list (l := es.inits) fun a _ => ev_list (l := es) fun x _ => ev_mem (gTotal a + x.size)).and
    ((ev_mem_list (es.map (·.size))).and ((ev_mem 0).and (ev_mem_list (o.toList.map fun x => e x.2)))))))
  obtain ⟨Y, h1, h2, h3, h4, h5, h0, h6⟩ := key.exists
  obtain ⟨φ, hφ⟩ := exists_good Y
  have h1 := h1 φ hφ
  obtain ⟨hin, hspec⟩ := h2 φ hφ
  rw [h] at hspec
  obtain ⟨esN, hN⟩ : ∃ esN, specAll (slN Y φ slG) [] (natOps e φ ops) = .ok esN := by
    cases hc : specAll (slN Y φ slG) [] (natOps e φ ops) with
    | error f => rw [hc] at hspec; cases hspec
    | ok v => exact ⟨v, rfl⟩
  have hmap : esN.map Ent.gz = es.map (GRun.map φ) := by
    rw [hN] at hspec
    exact Except.ok.inj hspec
  have hE : (natEnv E MAX Y φ slG).ix = natIdx (φ MAX).toNat := rfl
  have hr0 : Reach (φ MAX).toNat (natEnv E MAX Y φ slG) ⟨none⟩ := .empty (by simp [RleTree.newEmpty, natEnv, check, hM.1, hM.2])
  obtain ⟨t, ht1, ht2, ht3⟩ := insertAll_returns hE hr0 (ops := natOps e φ ops) hin (es' := esN) hN
  have hsz := (size_eq_total hE ht3).1
  have hlen := numberOfSlices_eq hE ht3
  rw [ht2] at hsz hlen
  have hfull : es ∈ es.inits := by simp
  have htot : ((total esN : Nat) : ℤ) = φ (gTotal es) := by
    rw [← gTotal_gz, hmap]
    exact (h3 es hfull).1 φ hφ
  have hl : esN.length = es.length := by simpa using congrArg List.length hmap
  rw [natOps_g] at h1
  have back : ∀ {i : I} {g : G} {n : Nat}, e i ∈ Y ∧ 0 ≤ e i → g ∈ Y → natOf e φ i = n → (n : ℤ) = φ g → e i = g := by
    intro i g n hi hg h1 h2
    refine hφ.inj hi.1 hg ?_
    have := hφ.nonneg h0 hi.1 hi.2
    unfold natOf at h1
    omega
  cases o with
  | none =>
    have e1 : gSee (natEnv E MAX Y φ slG) ((natOps e φ ops).map Op.g) none = .ok (total esN, esN.length, none) := by
      unfold gSee
      rw [gInsertAll_nat, ht1]
      show Except.ok _ = _
      rw [hsz, hlen]
    simp only [Option.map_none] at h1
    rw [e1] at h1
    obtain ⟨r, g1, g2, g3, _⟩ := h1
    have g4 := congrArg Prod.fst g2
    have g5 := congrArg (fun x => x.2.1) g2
    have g6 := congrArg (fun x => x.2.2) g2
    simp only [seeMi] at g4 g5 g6
    refine ⟨r, g1, back g3 (h3 es hfull).2 g4.symm htot, by rw [← g5, hl], fun _ => ?_, fun q hq => by cases hq⟩
    cases hr : r.2.2 with
    | none => rfl
    | some x => rw [hr] at g6; cases g6
  | some q =>
    obtain ⟨hq0, hq1⟩ := ho q rfl
    have hqY : e q.2 ∈ Y := h6 _ (by simp)
    have hqn := hφ.nonneg h0 hqY hq0
    have hlt : natOf e φ q.2 < t.size (natEnv E MAX Y φ slG) := by
      rw [hsz]
      have := (hφ.lt hqY (h3 es hfull).2).2 hq1
      unfold natOf
      omega
    obtain ⟨a, x, b, ent, c1, c2, c3, c4, c5, c6, c7⟩ := get_covers hE ht3 q.1 hlt
    rw [ht2] at c1
    have e1 : gSee (natEnv E MAX Y φ slG) ((natOps e φ ops).map Op.g) (some (q.1, natOf e φ q.2)) =
        .ok (total esN, esN.length, some ent) := by
      unfold gSee
      rw [gInsertAll_nat, ht1]
      show (t.get _ _ _ >>= _) = _
      rw [c2]
      show Except.ok _ = _
      rw [hsz, hlen]
    simp only [Option.map_some] at h1
    rw [e1] at h1
    obtain ⟨r, g1, g2, g3, g3'⟩ := h1
    have g4 := congrArg Prod.fst g2
    have g5 := congrArg (fun x => x.2.1) g2
    have g6 := congrArg (fun x => x.2.2) g2
    simp only [seeMi] at g4 g5 g6
    refine ⟨r, g1, back g3 (h3 es hfull).2 g4.symm htot, by rw [← g5, hl], fun h => by (cases h), ?_⟩
    intro q' hq'
    cases hq'
    cases hr : r.2.2 with
    | none => rw [hr] at g6; cases g6
    | some ent' =>
      rw [hr] at g6
      have g6 : ent = Entry.mi (natOf e φ) ent' := Option.some.inj g6
      obtain ⟨k1, k2⟩ := g3' ent' hr
      rw [c1, List.map_append, List.map_cons] at hmap
      obtain ⟨aG, rest, d1, d2, d3⟩ := List.map_eq_append_iff.1 hmap.symm
      obtain ⟨xG, bG, d4, d5, d6⟩ := List.map_eq_cons_iff.1 d3
      subst d4
      have ha : aG ∈ es.inits := by rw [List.mem_inits, d1]; exact List.prefix_append _ _
      have hx : xG ∈ es := by rw [d1]; simp
      have hta : ((total a : Nat) : ℤ) = φ (gTotal aG) := by
        rw [← gTotal_gz, ← d2]
        exact (h3 aG ha).1 φ hφ
      have hxs : ((x.size : Nat) : ℤ) = φ xG.size := by
        have := congrArg GRun.size d5
        exact this.symm
      have hxl : xG.slice = x.slice := congrArg GRun.slice d5
      have hxY : xG.size ∈ Y := h5 _ (List.mem_map.2 ⟨xG, hx, rfl⟩)
      have haY := (h3 aG ha).2
      have hsY := h4 aG ha xG hx
      have hsum : ((total a + x.size : Nat) : ℤ) = φ (gTotal aG + xG.size) := by
        rw [hφ.add haY hxY]
        omega
      rw [g6] at c3 c4 c5 c6 c7
      simp only [Entry.mi] at c3 c4 c5 c6 c7
      refine ⟨aG, xG, bG, ent', d1, rfl, back k1 haY c3 hta, back k2 hsY c4 hsum, by rw [c5, hxl], ?_, ?_⟩
      · rw [← hφ.le haY hqY, ← hta]
        rw [c3] at c6
        unfold natOf at c6
        omega
      · rw [← hφ.lt hqY hsY, ← hsum]
        rw [c4] at c7
        unfold natOf at c7
        omega

/-- C53: a history of insertions within bounds into a tree with a lawful index type has the effect of the same history on a
list of runs, with the sizes and positions that the indices stand for. -/
theorem ordered_index (L : LawfulIdx e MAX E.ix) (hs : SameSl e E.sl slG) (hM : 1 ≤ E.M ∧ E.M ≤ 127) {ops : List (GOp I S)}
    (hb : gBounds MAX 0 (ops.map (GOp.val e))) {es : List (GRun G S)} (h : gAll slG [] (ops.map (GOp.val e)) = .ok es) :
    ∃ t, gInsertAll E ⟨none⟩ ops = .ok t ∧ e (t.size E) = gTotal es ∧ t.numberOfSlices = es.length ∧
      ∀ hints idx, 0 ≤ e idx → e idx < gTotal es → ∃ a x b ent, es = a ++ x :: b ∧ t.get E hints idx = .ok ent ∧
        e ent.start = gTotal a ∧ e ent.stop = gTotal a + x.size ∧ ent.slice = x.slice ∧ gTotal a ≤ e idx ∧
        e idx < gTotal a + x.size := by
  obtain ⟨r, h1, h2, h3, _⟩ := ordered_see L hs hM hb h none (fun q hq => by cases hq)
  unfold gSee at h1
  obtain ⟨t, h4, h5⟩ := R.bind_eq_ok.1 h1
  cases h5
  refine ⟨t, h4, h2, h3, ?_⟩
  intro hints idx hi1 hi2
  obtain ⟨r, k1, _, _, _, k2⟩ := ordered_see L hs hM hb h (some (hints, idx)) (fun q hq => by cases hq; exact ⟨hi1, hi2⟩)
  obtain ⟨a, x, b, ent, c1, c2, c3⟩ := k2 _ rfl
  unfold gSee at k1
  obtain ⟨t', k4, k5⟩ := R.bind_eq_ok.1 k1
  rw [h4] at k4
  cases k4
  obtain ⟨ent', k6, k7⟩ := R.bind_eq_ok.1 k5
  cases k7
  cases c2
  exact ⟨a, x, b, ent, c1, k6, c3⟩

/-- C53: a history within bounds fails only where the list specification fails, in the unimplemented case. -/
theorem ordered_index_fails (L : LawfulIdx e MAX E.ix) (hs : SameSl e E.sl slG) (hM : 1 ≤ E.M ∧ E.M ≤ 127) {ops : List (GOp I S)}
    (hb : gBounds MAX 0 (ops.map (GOp.val e))) {f : Fault} (h : gAll slG [] (ops.map (GOp.val e)) = .error f) :
    f = .todo "handle_join_deletion" ∧ gInsertAll E ⟨none⟩ ops = .error f := by
  have hn := gBounds_nonneg hb
  have hMAX := gBounds_max (le_refl _) hb
  have hops : ∀ x ∈ ops, 0 ≤ e x.idx ∧ 0 ≤ e x.size := fun x hx => hn _ (List.mem_map.2 ⟨x, hx, rfl⟩)
  obtain ⟨Y, h1, h2⟩ := ((gSee_transfer L hs hMAX ops none hops fun q hq => by cases hq).and (nat_history (slG := slG) hb)).exists
  obtain ⟨φ, hφ⟩ := exists_good Y
  have h1 := h1 φ hφ
  obtain ⟨hin, hspec⟩ := h2 φ hφ
  rw [h] at hspec
  have hN : specAll (slN Y φ slG) [] (natOps e φ ops) = .error f := by
    cases hc : specAll (slN Y φ slG) [] (natOps e φ ops) with
    | ok v => rw [hc] at hspec; cases hspec
    | error g => rw [hc] at hspec; cases hspec; rfl
  have hE : (natEnv E MAX Y φ slG).ix = natIdx (φ MAX).toNat := rfl
  have hr0 : Reach (φ MAX).toNat (natEnv E MAX Y φ slG) ⟨none⟩ := .empty (by simp [RleTree.newEmpty, natEnv, check, hM.1, hM.2])
  obtain ⟨k1, rfl⟩ := insertAll_fails hE hr0 hin hN
  rw [natOps_g] at h1
  have e1 : gSee (natEnv E MAX Y φ slG) ((natOps e φ ops).map Op.g) (Option.map (fun q : List Nat × I => (q.1, natOf e φ q.2)) none) =
      .error (.todo "handle_join_deletion") := by
    unfold gSee
    rw [gInsertAll_nat, k1]
    rfl
  rw [e1] at h1
  have h3 := h1 (by rintro (h | h | ⟨m, h⟩) <;> cases h)
  refine ⟨rfl, ?_⟩
  cases hc : gInsertAll E ⟨none⟩ ops with
  | ok t => unfold gSee at h3; rw [hc] at h3; cases h3
  | error g => unfold gSee at h3; rw [hc] at h3; cases h3; rfl

/-- C53: lookups at negative positions and beyond the end, insertions beyond the end, and insertions of sizes that are not
positive panic as documented. -/
theorem ordered_index_panics (L : LawfulIdx e MAX E.ix) (t : RleTree I S) (hints : List Nat) (idx : I) :
    (e idx < 0 → t.get E hints idx = .error (.panic "index out of bounds, less than zero")) ∧
    (0 ≤ e idx → e (t.size E) ≤ e idx → t.get E hints idx = .error (.panic "index out of bounds")) ∧
    (∀ nop s z w, e (t.size E) < e idx →
      t.insert E nop hints idx s z w = .error (.panic "cannot insert new slice, index out of bounds")) ∧
    (∀ nop s z w, e idx ≤ e (t.size E) → e z ≤ 0 →
      t.insert E nop hints idx s z w = .error (.panic "cannot insert new slice, size is not greater than zero")) := by
  have hlt : ∀ a b, E.ix.lt a b = decide (e a < e b) := by
    intro a b
    rw [Bool.eq_iff_iff, decide_eq_true_iff, ← compare_lt_iff_lt, ← L.cmp]
    simp [IdxOps.lt]
  have hle : ∀ a b, E.ix.le a b = decide (e a ≤ e b) := by
    intro a b
    rw [Bool.eq_iff_iff, decide_eq_true_iff, ← not_lt, ← compare_gt_iff_gt, ← L.cmp]
    simp [IdxOps.le]
  refine ⟨fun h => ?_, fun h1 h2 => ?_, fun nop s z w h => ?_, fun nop s z w h1 h2 => ?_⟩
  · simp only [RleTree.get, hlt, L.zero, h, decide_true]
    rfl
  · simp only [RleTree.get, hlt, L.zero, not_lt.2 h1, not_lt.2 h2, decide_false]
    rfl
  · simp only [RleTree.insert, hlt, h, decide_true]
    rfl
  · simp only [RleTree.insert, hlt, hle, L.zero, h2, not_lt.2 h1, decide_true, decide_false]
    rfl

end
end Sherman
