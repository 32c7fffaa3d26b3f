import Verif.Directional
import Verif.Insert
import Verif.TreeProps
import Mathlib.Tactic.Ring
import Mathlib.Tactic.LinearCombination

/-!
# Indices whose addition does not commute (C33)

What the position formulas of the code compute in an arbitrary group of offsets, and an ordered group in which the tree gets the
positions wrong.
-/

namespace Sherman
namespace Dir

section formulas
variable {G : Type} [Group G]

/-- The new position of a later key as the comment in `shift_keys` derives it: the offset from the old end, placed at the new end.
src/tree/fix.rs:711-719 -/
def moved (oldEnd newEnd k : G) : G := newEnd * (oldEnd⁻¹ * k)

/-- `recalculate` of `shift_keys` with `IS_INCREASE` false. src/tree/fix.rs:744-754 -/
def shiftDecrease (oldEnd newEnd k : G) : G := (oldEnd * newEnd⁻¹)⁻¹ * k

/-- `recalculate` of `shift_keys` with `IS_INCREASE` true. src/tree/fix.rs:744-754 -/
def shiftIncrease (oldEnd newEnd k : G) : G := (oldEnd⁻¹ * newEnd) * k

/-- C33: the formula for decreasing keys is right in every group. -/
theorem shiftDecrease_correct (oldEnd newEnd k : G) : shiftDecrease oldEnd newEnd k = moved oldEnd newEnd k := by
  simp [shiftDecrease, moved, mul_assoc]

/-- C33: the formula for increasing keys, marked "FIXME: prove this?" (src/tree/fix.rs:733), is right exactly when the two ends
commute. -/
theorem shiftIncrease_correct_iff (oldEnd newEnd k : G) :
    shiftIncrease oldEnd newEnd k = moved oldEnd newEnd k ↔ oldEnd * newEnd = newEnd * oldEnd := by
  unfold shiftIncrease moved
  constructor
  · intro h
    have h : oldEnd⁻¹ * newEnd = newEnd * oldEnd⁻¹ := mul_right_cancel (b := k) (by rw [h, mul_assoc])
    calc oldEnd * newEnd = oldEnd * (newEnd * oldEnd⁻¹) * oldEnd := by group
      _ = oldEnd * (oldEnd⁻¹ * newEnd) * oldEnd := by rw [h]
      _ = newEnd * oldEnd := by group
  · intro h
    have h : oldEnd⁻¹ * newEnd = newEnd * oldEnd⁻¹ := by
      calc oldEnd⁻¹ * newEnd = oldEnd⁻¹ * (newEnd * oldEnd) * oldEnd⁻¹ := by group
        _ = oldEnd⁻¹ * (oldEnd * newEnd) * oldEnd⁻¹ := by rw [h]
        _ = newEnd * oldEnd⁻¹ := by group
    rw [h, mul_assoc]

/-- The formula with `sub_right` in place of `sub_left` would be right. -/
theorem shiftIncrease_fixed (oldEnd newEnd k : G) : (newEnd * oldEnd⁻¹) * k = moved oldEnd newEnd k := by
  simp [moved, mul_assoc]

/-- `SliceEntry::size` of an entry of size `n` at `start`: the end minus, from the right, the start. src/tree/entry.rs:91-93 -/
def entrySize (start n : G) : G := (start * n) * start⁻¹

/-- C33: the size an entry reports is the size of its run exactly when it commutes with the start. -/
theorem entrySize_correct_iff (start n : G) : entrySize start n = n ↔ start * n = n * start := by
  simp [entrySize, mul_inv_eq_iff_eq_mul]

/-- The start of a child that ends at `next` and has `size`, as `do_upward_step` takes it. src/tree/fix.rs:538-543 -/
def childStart (next size : G) : G := size⁻¹ * next

/-- C33: for a child of `size` at `pos` that start is right exactly when they commute. -/
theorem childStart_correct_iff (pos size : G) : childStart (pos * size) size = pos ↔ pos * size = size * pos := by
  simp [childStart, inv_mul_eq_iff_eq_mul]

/-- The range that `get` reports for a run found at `k` in a node at `base`: `target` is the index relative to the node.
src/tree/mod.rs:426-428 -/
def getRange (idx target k n : G) : G × G := (idx * (k⁻¹ * target)⁻¹, idx * (k⁻¹ * target)⁻¹ * n)

/-- C33: given right keys, `get` computes the right range in every group. -/
theorem getRange_correct (base target k n : G) : getRange (base * target) target k n = (base * k, base * k * n) := by
  simp [getRange, mul_assoc]

end formulas

/-! ## A lawful ordered index type that does not commute

Integer 3×3 unitriangular matrices, ordered lexicographically. -/

structure Heis where
  a : Int
  b : Int
  c : Int
  deriving DecidableEq, Repr

namespace Heis

instance : Mul Heis := ⟨fun x y => ⟨x.a + y.a, x.b + y.b, x.c + y.c + x.a * y.b⟩⟩
instance : One Heis := ⟨⟨0, 0, 0⟩⟩
instance : Inv Heis := ⟨fun x => ⟨-x.a, -x.b, -x.c + x.a * x.b⟩⟩

theorem ext' {x y : Heis} (h1 : x.a = y.a) (h2 : x.b = y.b) (h3 : x.c = y.c) : x = y := by
  cases x; cases y; simp_all

theorem mul_def (x y : Heis) : x * y = ⟨x.a + y.a, x.b + y.b, x.c + y.c + x.a * y.b⟩ := rfl

instance : Group Heis := Group.ofLeftAxioms
  (fun x y z => ext' (by simp only [mul_def]; ring) (by simp only [mul_def]; ring) (by simp only [mul_def]; ring))
  (fun x => ext' (show 0 + x.a = x.a by ring) (show 0 + x.b = x.b by ring) (show 0 + x.c + 0 * x.b = x.c by ring))
  (fun x => ext' (show -x.a + x.a = 0 by ring) (show -x.b + x.b = 0 by ring) (show -x.c + x.a * x.b + x.c + -x.a * x.b = 0 by ring))

def cmp (x y : Heis) : Ordering := (compare x.a y.a).then ((compare x.b y.b).then (compare x.c y.c))

def Lt (x y : Heis) : Prop := x.a < y.a ∨ (x.a = y.a ∧ (x.b < y.b ∨ (x.b = y.b ∧ x.c < y.c)))

theorem cmp_lt_iff (x y : Heis) : cmp x y = .lt ↔ Lt x y := by
  unfold cmp Lt
  rcases lt_trichotomy x.a y.a with h | h | h
  · simp [compare_lt_iff_lt.2 h, h]
  · rcases lt_trichotomy x.b y.b with h' | h' | h'
    · simp [h, compare_lt_iff_lt.2 h', h']
    · simp [h, h', compare_lt_iff_lt]
    · simp [h, compare_gt_iff_gt.2 h']; omega
  · simp [compare_gt_iff_gt.2 h]; omega

theorem cmp_eq_iff (x y : Heis) : cmp x y = .eq ↔ x = y := by
  unfold cmp
  constructor
  · intro h
    simp only [Ordering.then_eq_eq, compare_eq_iff_eq] at h
    exact ext' h.1 h.2.1 h.2.2
  · rintro rfl; simp

theorem lt_irrefl (x : Heis) : ¬ Lt x x := by unfold Lt; omega
theorem lt_trans {x y z : Heis} (h1 : Lt x y) (h2 : Lt y z) : Lt x z := by unfold Lt at *; omega
theorem lt_total (x y : Heis) : Lt x y ∨ x = y ∨ Lt y x := by
  by_cases h : x = y
  · exact .inr (.inl h)
  · have : ¬ (x.a = y.a ∧ x.b = y.b ∧ x.c = y.c) := fun ⟨p, q, r⟩ => h (ext' p q r)
    unfold Lt; omega

/-- The order is compatible with adding on the right. -/
theorem lt_mul_right {x y : Heis} (z : Heis) (h : Lt x y) : Lt (x * z) (y * z) := by
  simp only [mul_def, Lt] at *
  rcases h with h | ⟨h, h' | ⟨h', h''⟩⟩
  · omega
  · omega
  · rw [h]; omega

/-- The order is compatible with adding on the left. -/
theorem lt_mul_left {x y : Heis} (z : Heis) (h : Lt x y) : Lt (z * x) (z * y) := by
  simp only [mul_def, Lt] at *
  rcases h with h | ⟨h, h' | ⟨h', h''⟩⟩
  · omega
  · omega
  · rw [h']; omega

end Heis

/-- All documented laws hold, the operations do not fail, and the comparison is a linear order compatible with both additions. -/
theorem heis_lawful : Laws (groupIdx Heis Heis.cmp) ∧ Total (groupIdx Heis Heis.cmp) :=
  group_laws Heis Heis.cmp

/-- Slices that do not join, so that every run keeps the size it was inserted with. -/
def plainSl (I : Type) : SliceOps I Char where
  mayJoin := false
  splitAt s _ := (s, s)
  tryJoin a b := .inr (a, b)

abbrev heisEnv : Env Heis Char := ⟨groupIdx Heis Heis.cmp, plainSl Heis, 3, false⟩

def hx : Heis := ⟨1, 0, 0⟩
def hy : Heis := ⟨0, 1, 0⟩

/-- C33: appending a run of size `y` to a tree that holds a run of size `x` yields a tree of size `y + x`, not `x + y`, and `get`
reports a range for the appended run which ends there. -/
theorem directional_counterexample : ∃ t1 out1 t2 out2 e, Heis.Lt 1 hx ∧ Heis.Lt 1 hy ∧
    (⟨none⟩ : RleTree Heis Char).insert heisEnv false [] 1 'a' hx exWorld = .ok (t1, out1) ∧
    t1.insert heisEnv false [] (t1.size heisEnv) 'b' hy exWorld = .ok (t2, out2) ∧
    t1.size heisEnv = hx ∧ t2.size heisEnv = hy * hx ∧ t2.size heisEnv ≠ hx * hy ∧
    t2.get heisEnv [] hx = .ok e ∧ e.start = hx ∧ e.slice = 'b' ∧ e.stop ≠ hx * hy := by
  have key : (match (⟨none⟩ : RleTree Heis Char).insert heisEnv false [] 1 'a' hx exWorld with
    | .error _ => false
    | .ok (t1, _) => match t1.insert heisEnv false [] (t1.size heisEnv) 'b' hy exWorld with
      | .error _ => false
      | .ok (t2, _) => match t2.get heisEnv [] hx with
        | .error _ => false
        | .ok e => decide (t1.size heisEnv = hx ∧ t2.size heisEnv = hy * hx ∧ t2.size heisEnv ≠ hx * hy ∧ e.start = hx ∧
            e.slice = 'b' ∧ e.stop ≠ hx * hy)) = true := by decide +kernel
  split at key
  · cases key
  · rename_i t1 out1 h1
    split at key
    · cases key
    · rename_i t2 out2 h2
      split at key
      · cases key
      · rename_i e h3
        have key := of_decide_eq_true key
        exact ⟨t1, out1, t2, out2, e, by simp [Heis.Lt, hx]; decide, by simp [Heis.Lt, hy]; decide, h1, h2, key.1, key.2.1, key.2.2.1, h3,
          key.2.2.2⟩

end Dir
end Sherman
