import Verif.OrderedIndex
import Mathlib.Algebra.Order.Monoid.Prod
import Mathlib.Algebra.Order.Group.Synonym
import Mathlib.Data.Fin.Basic
/-!
# C53: index types that are lawful

Unsigned integers with overflow checks, unsigned integers that wrap around (as in release builds of Rust), signed integers, and
pairs of integers in lexicographic order, where no multiple of `(0, 1)` reaches `(1, 0)`.
-/
namespace Sherman

/-- Unsigned integers with overflow checks are lawful. -/
theorem natIdx_lawful (n : Nat) : LawfulIdx (fun x : Nat => (x : ℤ)) (n : ℤ) (natIdx n) where
  inj h := by exact_mod_cast h
  zero := rfl
  cmp a b := by
    show compare a b = compare (a : ℤ) (b : ℤ)
    rcases lt_trichotomy a b with h | h | h
    · rw [compare_lt_iff_lt.2 h, compare_lt_iff_lt.2 (by exact_mod_cast h)]
    · rw [compare_eq_iff_eq.2 h, compare_eq_iff_eq.2 (by exact_mod_cast h)]
    · rw [compare_gt_iff_gt.2 h, compare_gt_iff_gt.2 (by exact_mod_cast h)]
  addR a b _ _ h := ⟨a + b, by simp only [natIdx]; rw [if_pos (by exact_mod_cast h)], by simp⟩
  addL a b _ _ h := ⟨b + a, by
    have : b + a ≤ n := by rw [Nat.add_comm]; exact_mod_cast h
    simp only [natIdx]; rw [if_pos this], by simp [add_comm]⟩
  subR a b _ h := by
    have h : b ≤ a := by exact_mod_cast h
    exact ⟨a - b, by simp only [natIdx]; rw [if_pos h], by omega⟩
  subL a b _ h := by
    have h : b ≤ a := by exact_mod_cast h
    exact ⟨a - b, by simp only [natIdx]; rw [if_pos h], by omega⟩

/-- Unsigned integers below `n + 1` in a release build: arithmetic wraps around and debug assertions are off.
src/public_traits.rs:298-328; Rust reference, "Overflow". -/
def finIdx (n : Nat) : IdxOps (Fin (n + 1)) where
  zero := 0
  addL a b := .ok (b + a)
  addR a b := .ok (a + b)
  subL a b := .ok (a - b)
  subR a b := .ok (a - b)
  cmp a b := compare a.val b.val
  debug := false

/-- Unsigned integers that wrap around are lawful up to their largest value. -/
theorem finIdx_lawful (n : Nat) : LawfulIdx (fun x : Fin (n + 1) => (x.val : ℤ)) (n : ℤ) (finIdx n) where
  inj h := Fin.ext (by exact_mod_cast h)
  zero := rfl
  cmp a b := (natIdx_lawful n).cmp a.val b.val
  addR a b _ _ h := ⟨a + b, rfl, by
    have h : a.val + b.val ≤ n := by exact_mod_cast h
    rw [Fin.val_add, Nat.mod_eq_of_lt (by omega)]; simp⟩
  addL a b _ _ h := ⟨b + a, rfl, by
    have h : a.val + b.val ≤ n := by exact_mod_cast h
    rw [Fin.val_add, Nat.mod_eq_of_lt (by omega)]; simp [add_comm]⟩
  subR a b _ h := ⟨a - b, rfl, by
    have h : b.val ≤ a.val := by exact_mod_cast h
    have := Fin.sub_val_of_le (show b ≤ a from h)
    rw [this]; omega⟩
  subL a b _ h := ⟨a - b, rfl, by
    have h : b.val ≤ a.val := by exact_mod_cast h
    have := Fin.sub_val_of_le (show b ≤ a from h)
    rw [this]; omega⟩

/-- Integers as indices: an implementation of `Index` that the crate does not provide but allows.
src/public_traits.rs:9-40 -/
def intIdx : IdxOps ℤ where
  zero := 0
  addL a b := .ok (b + a)
  addR a b := .ok (a + b)
  subL a b := .ok (a - b)
  subR a b := .ok (a - b)
  cmp := compare

theorem intIdx_lawful (MAX : ℤ) : LawfulIdx (fun x : ℤ => x) MAX intIdx where
  inj h := h
  zero := rfl
  cmp _ _ := rfl
  addR a b _ _ _ := ⟨a + b, rfl, rfl⟩
  addL a b _ _ _ := ⟨b + a, rfl, add_comm b a⟩
  subR a b _ _ := ⟨a - b, rfl, rfl⟩
  subL a b _ _ := ⟨a - b, rfl, rfl⟩

/-- Pairs of integers in lexicographic order, such as lines and columns.  src/public_traits.rs:9-40 -/
def pairIdx : IdxOps (ℤ × ℤ) where
  zero := (0, 0)
  addL a b := .ok (b.1 + a.1, b.2 + a.2)
  addR a b := .ok (a.1 + b.1, a.2 + b.2)
  subL a b := .ok (a.1 - b.1, a.2 - b.2)
  subR a b := .ok (a.1 - b.1, a.2 - b.2)
  cmp a b := (compare a.1 b.1).then (compare a.2 b.2)

theorem pairIdx_lawful (MAX : ℤ ×ₗ ℤ) : LawfulIdx (fun x : ℤ × ℤ => (toLex x : ℤ ×ₗ ℤ)) MAX pairIdx where
  inj h := toLex.injective h
  zero := rfl
  cmp _ _ := rfl
  addR a b _ _ _ := ⟨_, rfl, rfl⟩
  addL a b _ _ _ := ⟨_, rfl, by rw [add_comm (toLex a)]; rfl⟩
  subR a b _ _ := ⟨_, rfl, rfl⟩
  subL a b _ _ := ⟨_, rfl, rfl⟩

/-! ## A history over pairs -/

/-- Slices that remember where they were cut off the inserted ones. -/
def offSl : SliceOps (ℤ × ℤ) (ℤ × ℤ) := ⟨false, fun s p => (s, (s.1 + p.1, s.2 + p.2)), fun a b => .inr (a, b)⟩

/-- The same over the ordered group. -/
def offSlG : SliceOps (ℤ ×ₗ ℤ) (ℤ × ℤ) := ⟨false, fun s p => (s, (s.1 + (ofLex p).1, s.2 + (ofLex p).2)), fun a b => .inr (a, b)⟩

abbrev pairEnv : Env (ℤ × ℤ) (ℤ × ℤ) := ⟨pairIdx, offSl, 1, false⟩

/-- Seven insertions that grow the tree to three levels, some at columns beyond those of any line. -/
def pairOps : List (GOp (ℤ × ℤ) (ℤ × ℤ)) :=
  [⟨(0, 0), (100, 0), (3, 0), false, [], exWorld⟩, ⟨(2, 7), (200, 0), (0, 9), true, [], exWorld⟩,
   ⟨(0, 5), (300, 0), (0, 1), false, [3], exWorld⟩, ⟨(3, 10), (400, 0), (1, -20), false, [], exWorld⟩,
   ⟨(2, 0), (500, 0), (0, 2), true, [1, 0], exWorld⟩, ⟨(0, 0), (600, 0), (0, 40), false, [], exWorld⟩,
   ⟨(0, 41), (700, 0), (5, 0), false, [], exWorld⟩]

def pairRuns : List (GRun (ℤ ×ₗ ℤ) (ℤ × ℤ)) :=
  match gAll offSlG [] (pairOps.map (GOp.val fun x => toLex x)) with
  | .ok es => es
  | .error _ => []

theorem pair_hyp : 1 ≤ pairEnv.M ∧ pairEnv.M ≤ 127 ∧ SameSl (fun x : ℤ × ℤ => (toLex x : ℤ ×ₗ ℤ)) pairEnv.sl offSlG ∧
    gBounds (toLex (50, 0)) 0 (pairOps.map (GOp.val fun x => (toLex x : ℤ ×ₗ ℤ))) ∧
    gAll offSlG [] (pairOps.map (GOp.val fun x => (toLex x : ℤ ×ₗ ℤ))) = .ok pairRuns ∧ pairRuns.length = 11 ∧
    gTotal pairRuns = toLex (9, 32) := by
  refine ⟨by decide, by decide, ⟨rfl, rfl, fun _ _ => rfl⟩, ?_, by decide +kernel, by decide +kernel, by decide +kernel⟩
  simp only [pairOps, List.map, GOp.val, gBounds]
  decide +kernel

/-- C53 applies to it. -/
theorem pair_example : ∃ t, gInsertAll pairEnv ⟨none⟩ pairOps = .ok t ∧ t.size pairEnv = (9, 32) ∧ t.numberOfSlices = 11 := by
  obtain ⟨h1, h2, h3, h4, h5, h6, h7⟩ := pair_hyp
  obtain ⟨t, k1, k2, k3, _⟩ := ordered_index (pairIdx_lawful (toLex (50, 0))) h3 ⟨h1, h2⟩ h4 h5
  exact ⟨t, k1, toLex.injective (k2.trans h7), k3.trans h6⟩

/-! ## Release builds -/

/-- Trees of characters over `u8` in a release build. -/
abbrev wrapEnv : Env (Fin 256) Char := ⟨finIdx 255, ⟨true, fun s _ => (s, s), fun a b => if a == b then .inl a else .inr (a, b)⟩, 1, false⟩

def wrapSlG : SliceOps ℤ Char := ⟨true, fun s _ => (s, s), fun a b => if a == b then .inl a else .inr (a, b)⟩

def wrapOps : List (GOp (Fin 256) Char) :=
  [⟨0, 'a', 100, false, [], exWorld⟩, ⟨50, 'b', 100, true, [], exWorld⟩, ⟨120, 'c', 55, false, [3], exWorld⟩]

/-- C53 applies to a release build: the tree fills up to the largest index without a sum wrapping around. -/
theorem wrap_example : ∃ t, gInsertAll wrapEnv ⟨none⟩ wrapOps = .ok t ∧ t.size wrapEnv = 255 ∧ t.numberOfSlices = 5 := by
  have hb : gBounds (255 : ℤ) 0 (wrapOps.map (GOp.val fun x => (x.val : ℤ))) := by
    simp only [wrapOps, List.map, GOp.val, gBounds]
    decide +kernel
  have hs : SameSl (fun x : Fin 256 => (x.val : ℤ)) wrapEnv.sl wrapSlG := ⟨rfl, rfl, fun _ _ => rfl⟩
  have h : gAll wrapSlG [] (wrapOps.map (GOp.val fun x => (x.val : ℤ))) =
      .ok [⟨50, 'a'⟩, ⟨70, 'b'⟩, ⟨55, 'c'⟩, ⟨30, 'b'⟩, ⟨50, 'a'⟩] := by decide +kernel
  obtain ⟨t, k1, k2, k3, _⟩ := ordered_index (finIdx_lawful 255) hs ⟨by decide, by decide⟩ hb h
  exact ⟨t, k1, (finIdx_lawful 255).inj k2, k3⟩

/-- What is seen after some insertions: size, number of slices, and the range and slice found by a lookup. -/
def seen {I S : Type} (r : R (I × Nat × Option (Entry I S))) : Option (I × Nat × Option (I × I × S)) :=
  match r with
  | .ok r => some (r.1, r.2.1, r.2.2.map fun e => (e.start, e.stop, e.slice))
  | .error _ => none

/-- The hypothesis that the total size stays in bounds is needed: in a release build `u8` wraps around, and the tree then
reports a size smaller than that of its slices. -/
theorem wrap_beyond : seen (gSee wrapEnv [⟨0, 'a', 200, false, [], exWorld⟩, ⟨200, 'b', 100, false, [], exWorld⟩] none) =
    some (44, 2, none) := by
  decide +kernel

/-! ## Negative positions -/

/-- With signed indices, insertion at a negative position is not rejected: it inserts at the start of the tree. -/
theorem negative_insert : seen (gSee ⟨intIdx, wrapSlG, 1, false⟩
      [⟨-5, 'a', 10, false, [], exWorld⟩, ⟨-3, 'b', 5, false, [], exWorld⟩] (some ([], 0))) = some (15, 2, some (0, 5, 'b')) := by
  decide +kernel

end Sherman
