import Verif.Tree
import Mathlib.Algebra.Group.Basic
import Mathlib.Algebra.Group.MinimalAxioms
import Mathlib.Algebra.Group.TypeTags.Basic
import Mathlib.Tactic.Group
import Mathlib.Data.Int.Basic

/-!
# Directional arithmetic (C34)

src/public_traits.rs:108-296: the laws an `Index` is to obey, and the instances the crate provides.
-/

namespace Sherman
namespace Dir

/-- Two computations agree where both return: the laws "may in practice fail to produce values outside of a certain range".
src/public_traits.rs:212-216 -/
def Agree {I : Type} (p q : R I) : Prop := ∀ a b, p = .ok a → q = .ok b → a = b

/-- The laws written in the documentation of `DirectionalAdd`, in the order in which they appear.
src/public_traits.rs:189-210 -/
structure Laws {I : Type} (ix : IdxOps I) : Prop where
  comm : ∀ x y, Agree (ix.addR x y) (ix.addL y x)
  assoc : ∀ x y z, Agree (do let a ← ix.addR x y; ix.addR a z) (do let a ← ix.addR y z; ix.addR x a)
  addR_subR : ∀ x y, Agree (do let a ← ix.addR x y; ix.subR a y) (pure x)
  addL_subL : ∀ x z, Agree (do let a ← ix.addL x z; ix.subL a z) (pure x)
  subR_addR : ∀ x y, Agree (do let a ← ix.subR x y; ix.addR a y) (pure x)
  subL_addL : ∀ x z, Agree (do let a ← ix.subL x z; ix.addL a z) (pure x)
  addR_zero : ∀ x, Agree (ix.addR x ix.zero) (pure x)
  addL_zero : ∀ x, Agree (ix.addL x ix.zero) (pure x)
  subR_zero : ∀ x, Agree (ix.subR x ix.zero) (pure x)
  subL_zero : ∀ x, Agree (ix.subL x ix.zero) (pure x)
  subR_addL : ∀ x y z, Agree (do let a ← ix.addL y z; ix.subR x a) (do let a ← ix.subR x y; ix.subR a z)
  subL_addR : ∀ x y z, Agree (do let a ← ix.addR y z; ix.subL x a) (do let a ← ix.subL x y; ix.subL a z)
  subR_subR : ∀ x y z, Agree (do let a ← ix.subR y z; ix.subR x a) (do let a ← ix.addR x z; ix.subR a y)
  subL_subL : ∀ x y z, Agree (do let a ← ix.subL y z; ix.subL x a) (do let a ← ix.addL x z; ix.subL a y)
  subR_subL : ∀ x y z, Agree (do let a ← ix.subL y z; ix.subR x a) (do let a ← ix.subR x y; ix.addR a z)
  subL_subR : ∀ x y z, Agree (do let a ← ix.subR y z; ix.subL x a) (do let a ← ix.subL x y; ix.addL a z)

/-- The operations never fail. -/
def Total {I : Type} (ix : IdxOps I) : Prop :=
  ∀ x y, (∃ a, ix.addR x y = .ok a) ∧ (∃ a, ix.addL x y = .ok a) ∧ (∃ a, ix.subR x y = .ok a) ∧ (∃ a, ix.subL x y = .ok a)

/-- Offsets as elements of a group, composed in the order in which they follow each other. -/
def groupIdx (G : Type) [Group G] (cmp : G → G → Ordering) : IdxOps G where
  zero := 1
  addR x r := .ok (x * r)
  addL x l := .ok (l * x)
  subR x r := .ok (x * r⁻¹)
  subL x l := .ok (l⁻¹ * x)
  cmp := cmp

/-- C34: every group, commutative or not, obeys all the laws. -/
theorem group_laws (G : Type) [Group G] (cmp : G → G → Ordering) : Laws (groupIdx G cmp) ∧ Total (groupIdx G cmp) := by
  constructor
  · constructor <;> intros <;> intro a b h1 h2 <;> simp only [groupIdx, R.pure_eq, R.bind_ok] at h1 h2 <;> cases h1 <;> cases h2 <;>
      simp [mul_assoc]
  · intro x y
    exact ⟨⟨_, rfl⟩, ⟨_, rfl⟩, ⟨_, rfl⟩, ⟨_, rfl⟩⟩

/-- C34: every width of unsigned integers, with overflow checks as in `natIdx`, obeys all the laws: where neither side overflows
they agree. -/
theorem unsigned_laws (MAX : Nat) : Laws (natIdx MAX) := by
  have key : ∀ {p : Prop} [Decidable p] {x a : Nat} {f : Fault}, (if p then (.ok x : R Nat) else .error f) = .ok a → p ∧ x = a := by
    intro p _ x a f h
    split at h
    · cases h; exact ⟨‹_›, rfl⟩
    · cases h
  have key2 : ∀ {p : Prop} [Decidable p] {x a : Nat} {f : Fault} {g : Nat → R Nat},
      ((if p then (.ok x : R Nat) else .error f) >>= g) = .ok a → p ∧ g x = .ok a := by
    intro p _ x a f g h
    split at h
    · exact ⟨‹_›, h⟩
    · cases h
  constructor <;> intros <;> intro a b h1 h2 <;> simp only [natIdx] at h1 h2
  case assoc | subR_addL | subL_addR | subR_subR | subL_subL | subR_subL | subL_subR =>
    obtain ⟨p1, h1⟩ := key2 h1
    obtain ⟨p2, h2⟩ := key2 h2
    obtain ⟨p3, h1⟩ := key h1
    obtain ⟨p4, h2⟩ := key h2
    omega
  case comm =>
    obtain ⟨p3, h1⟩ := key h1
    obtain ⟨p4, h2⟩ := key h2
    omega
  case addR_zero | addL_zero | subR_zero | subL_zero =>
    obtain ⟨p3, h1⟩ := key h1
    cases h2
    omega
  all_goals
    obtain ⟨p1, h1⟩ := key2 h1
    obtain ⟨p3, h1⟩ := key h1
    cases h2
    omega

/-- The first four groups of laws, for operations that do not fail. -/
structure Core {I : Type} (zero : I) (addR addL subR subL : I → I → I) : Prop where
  comm : ∀ x y, addR x y = addL y x
  assoc : ∀ x y z, addR (addR x y) z = addR x (addR y z)
  addR_subR : ∀ x y, subR (addR x y) y = x
  addL_subL : ∀ x z, subL (addL x z) z = x
  subR_addR : ∀ x y, addR (subR x y) y = x
  subL_addL : ∀ x z, addL (subL x z) z = x
  addR_zero : ∀ x, addR x zero = x
  addL_zero : ∀ x, addL x zero = x

/-- C34: these alone already make the offsets a group, with the four operations being the ones of `groupIdx`. So an `Index` type
whose operations do not fail obeys the laws exactly if it is a group. -/
theorem core_is_group {I : Type} {zero : I} {addR addL subR subL : I → I → I} (h : Core zero addR addL subR subL) :
    ∃ G : Group I, (∀ x y : I, addR x y = x * y) ∧ (∀ x y : I, addL x y = y * x) ∧ (∀ x y : I, subR x y = x * y⁻¹) ∧
      (∀ x y : I, subL x y = y⁻¹ * x) ∧ zero = (1 : I) := by
  have hz : ∀ x, addR zero x = x := fun x => by rw [h.comm, h.addL_zero]
  letI : Mul I := ⟨addR⟩
  letI : Inv I := ⟨fun x => subR zero x⟩
  letI : One I := ⟨zero⟩
  letI : Group I := Group.ofLeftAxioms h.assoc hz fun x => h.subR_addR zero x
  have e1 : ∀ x y : I, addR x y = x * y := fun _ _ => rfl
  have e2 : ∀ x y : I, addL x y = y * x := fun x y => (h.comm y x).symm
  refine ⟨inferInstance, e1, e2, fun x y => ?_, fun x y => ?_, rfl⟩
  · have := h.subR_addR x y
    rw [e1] at this
    exact eq_mul_inv_of_mul_eq this
  · have := h.subL_addL x y
    rw [e2] at this
    exact eq_inv_mul_of_mul_eq this

/-- Operations that do not fail, as an `Index`. -/
def totalIdx {I : Type} (zero : I) (addR addL subR subL : I → I → I) (cmp : I → I → Ordering) : IdxOps I where
  zero := zero
  addR x y := .ok (addR x y)
  addL x y := .ok (addL x y)
  subR x y := .ok (subR x y)
  subL x y := .ok (subL x y)
  cmp := cmp

/-- C34: the laws about subtracting zero and the six distributivity laws follow from the others. -/
theorem core_laws {I : Type} {zero : I} {addR addL subR subL : I → I → I} (h : Core zero addR addL subR subL)
    (cmp : I → I → Ordering) : Laws (totalIdx zero addR addL subR subL cmp) := by
  obtain ⟨G, h1, h2, h3, h4, h5⟩ := core_is_group h
  have : totalIdx zero addR addL subR subL cmp = groupIdx I cmp := by
    unfold totalIdx groupIdx
    congr 1 <;> funext x y <;> simp [h1, h2, h3, h4]
  rw [this]
  exact (group_laws I cmp).1

/-- Conversely they are among the laws. -/
theorem core_of_laws {I : Type} {zero : I} {addR addL subR subL : I → I → I} {cmp : I → I → Ordering}
    (h : Laws (totalIdx zero addR addL subR subL cmp)) : Core zero addR addL subR subL where
  comm x y := h.comm x y _ _ rfl rfl
  assoc x y z := h.assoc x y z _ _ rfl rfl
  addR_subR x y := h.addR_subR x y _ _ rfl rfl
  addL_subL x y := h.addL_subL x y _ _ rfl rfl
  subR_addR x y := h.subR_addR x y _ _ rfl rfl
  subL_addL x y := h.subL_addL x y _ _ rfl rfl
  addR_zero x := h.addR_zero x _ _ rfl rfl
  addL_zero x := h.addL_zero x _ _ rfl rfl

/-- The integers, which the unsigned types are part of. -/
example : Core (0 : Int) (· + ·) (fun x l => l + x) (· - ·) (· - ·) :=
  ⟨by intros; omega, by intros; omega, by intros; omega, by intros; omega, by intros; omega, by intros; omega, by intros; omega,
   by intros; omega⟩

/-- Where the operations of the unsigned types wrap around (overflow checks turned off), the laws hold for all operands: `2 ^ w`
is arithmetic in a group. -/
theorem wrapping_laws (w : Nat) (cmp : BitVec w → BitVec w → Ordering) :
    Laws (totalIdx (0 : BitVec w) (· + ·) (fun x l => l + x) (· - ·) (· - ·) cmp) := by
  refine core_laws ⟨?_, ?_, ?_, ?_, ?_, ?_, ?_, ?_⟩ cmp <;> intros
  · rfl
  · exact BitVec.add_assoc _ _ _
  · exact BitVec.add_sub_cancel _ _
  · rw [BitVec.add_comm]; exact BitVec.add_sub_cancel _ _
  · exact BitVec.sub_add_cancel _ _
  · rw [BitVec.add_comm]; exact BitVec.sub_add_cancel _ _
  · exact BitVec.add_zero _
  · exact BitVec.zero_add _

/-- Non-trivial instances: sums that stay in the range agree, and the laws can be used at them. -/
example : (do let a ← (natIdx 255).addR 100 50; (natIdx 255).subR a 50) = .ok 100 := rfl

/-! ## Line and column

The documentation's motivating type. Moving from a position by `(l, c)` goes down `l` lines, to column `c` if `l > 0` and
`c` columns on otherwise. -/

/-- Concatenating two line/column offsets. src/public_traits.rs:118-150 (described, not implemented there). -/
def lineCol (x r : Nat × Nat) : Nat × Nat := if r.1 = 0 then (x.1, x.2 + r.2) else (x.1 + r.1, r.2)

/-- The offsets compose: an associative operation with a unit. -/
theorem lineCol_monoid : (∀ x y z, lineCol (lineCol x y) z = lineCol x (lineCol y z)) ∧
    (∀ x, lineCol x (0, 0) = x) ∧ ∀ x, lineCol (0, 0) x = x := by
  refine ⟨fun x y z => ?_, fun x => by simp [lineCol], fun x => ?_⟩
  · simp only [lineCol]
    split <;> split <;> simp_all <;> omega
  · simp only [lineCol]
    split <;> simp_all
    exact Prod.ext (by simp_all) rfl

/-- C34, C33: no `sub_right` obeys `(x +> y) -> y == x` for line/column pairs, even only where `y` follows `x`: the columns of `x` are
forgotten once a line break follows. So the documented laws exclude the type they are meant for. -/
theorem lineCol_no_subR : ¬ ∃ subR : Nat × Nat → Nat × Nat → Nat × Nat, ∀ x y, subR (lineCol x y) y = x := by
  rintro ⟨f, h⟩
  have h1 := h (0, 3) (1, 2)
  have h2 := h (0, 5) (1, 2)
  have : lineCol (0, 3) (1, 2) = lineCol (0, 5) (1, 2) := rfl
  rw [this, h2] at h1
  simp at h1

/-- `sub_left` does exist. -/
theorem lineCol_subL : ∃ subL : Nat × Nat → Nat × Nat → Nat × Nat, ∀ x l, subL (lineCol l x) l = x := by
  refine ⟨fun x l => if x.1 = l.1 then (0, x.2 - l.2) else (x.1 - l.1, x.2), fun x l => ?_⟩
  simp only [lineCol]
  split <;> rename_i h <;> simp
  · exact Prod.ext (by simp [h]) rfl
  · intro hc; omega

end Dir
end Sherman
