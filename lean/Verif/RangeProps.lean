import Verif.Range
import Mathlib.Order.Max
import Mathlib.Tactic.Tauto
/-!
# C32: range predicates mean what they say

Independent specification: a range denotes the set `Mem r = {x | lower ∧ upper}`.
-/
namespace Sherman.Range
variable {T : Type u} [LinearOrder T]

/-- Specification: `x` satisfies the lower bound. -/
def AboveStart : StartBound T → T → Prop
  | .included a, x => a ≤ x
  | .unbounded, _ => True

/-- Specification: `x` satisfies the upper bound. -/
def BelowEnd : EndBound T → T → Prop
  | .included b, x => x ≤ b
  | .excluded b, x => x < b
  | .unbounded, _ => True

/-- Specification: the set of values denoted by a range. -/
def Mem (r : Rng T) (x : T) : Prop := AboveStart r.start x ∧ BelowEnd r.stop x

/-- Neither bound is missing. -/
def Bounded (r : Rng T) : Prop := r.start ≠ .unbounded ∧ r.stop ≠ .unbounded

/-- The two ranges have no common unbounded side (the documented guard). -/
def NoSharedUnbounded (a b : Rng T) : Prop :=
  ¬ (a.start = .unbounded ∧ b.start = .unbounded) ∧
  ¬ (a.stop = .unbounded ∧ b.stop = .unbounded)

/-- C32: `contains` decides membership. -/
theorem contains_iff (r : Rng T) (x : T) : contains r x = true ↔ Mem r x := by
  rcases r with ⟨s, e⟩
  cases s <;> cases e <;> simp [contains, Mem, AboveStart, BelowEnd]

/-- C32: `starts_after_end` holds iff both bounds are present and no value satisfies both. -/
theorem startsAfterEnd_iff (r : Rng T) :
    startsAfterEnd r = true ↔ Bounded r ∧ ∀ x, ¬ Mem r x := by
  rcases r with ⟨s, e⟩
  cases s with
  | unbounded => simp [startsAfterEnd, Bounded]
  | included a =>
    cases e with
    | unbounded => simp [startsAfterEnd, Bounded]
    | included b =>
      simp only [startsAfterEnd, Bounded, Mem, AboveStart, BelowEnd, decide_eq_true_eq, gt_iff_lt]
      constructor
      · intro h; exact ⟨⟨by simp, by simp⟩, fun x hx => absurd (le_trans hx.1 hx.2) (not_le.2 h)⟩
      · rintro ⟨-, h⟩; exact not_le.1 fun hab => h a ⟨le_refl _, hab⟩
    | excluded b =>
      simp only [startsAfterEnd, Bounded, Mem, AboveStart, BelowEnd, decide_eq_true_eq, ge_iff_le]
      constructor
      · intro h; exact ⟨⟨by simp, by simp⟩, fun x hx => absurd (lt_of_le_of_lt hx.1 hx.2) (not_lt.2 h)⟩
      · rintro ⟨-, h⟩; exact not_lt.1 fun hab => h a ⟨le_refl _, hab⟩

/-- C32: on ranges with both bounds `is_empty_naive` is exact. -/
theorem isEmptyNaive_iff (r : Rng T) (hb : Bounded r) :
    isEmptyNaive r = true ↔ ∀ x, ¬ Mem r x := by
  have : isEmptyNaive r = startsAfterEnd r := by
    rcases r with ⟨s, e⟩; cases s <;> cases e <;> rfl
  rw [this, startsAfterEnd_iff]; simp [hb]

/-- C32: `is_empty_naive` never claims emptiness of a range with an element, bounded or not. -/
theorem isEmptyNaive_sound (r : Rng T) (h : isEmptyNaive r = true) : ∀ x, ¬ Mem r x := by
  have : isEmptyNaive r = startsAfterEnd r := by
    rcases r with ⟨s, e⟩; cases s <;> cases e <;> rfl
  rw [this, startsAfterEnd_iff] at h; exact h.2

/-- The `..b` exclusive-end caveat: the documented wrong answer of `is_empty_naive` occurs exactly
for unbounded ranges without elements; e.g. `..0` over `Nat`. -/
theorem isEmptyNaive_caveat : isEmptyNaive (ofRangeTo (0 : Nat)) = false ∧
    ∀ x, ¬ Mem (ofRangeTo (0 : Nat)) x := by
  constructor
  · rfl
  · intro x hx; exact absurd hx.2 (Nat.not_lt_zero x)

/-- C32: `overlaps_naive` is equivalent to the existence of a common element whenever the ranges
share no unbounded side. -/
theorem overlapsNaive_iff (a b : Rng T) (h : NoSharedUnbounded a b) :
    overlapsNaive a b = true ↔ ∃ x, Mem a x ∧ Mem b x := by
  rcases a with ⟨as, ae⟩
  rcases b with ⟨bs, be⟩
  obtain ⟨h1, h2⟩ := h
  have key : ∀ (lo : T), (AboveStart as lo ∧ AboveStart bs lo) →
      (∀ x, AboveStart as x → AboveStart bs x → lo ≤ x) →
      ((∃ x, Mem ⟨as, ae⟩ x ∧ Mem ⟨bs, be⟩ x) ↔ BelowEnd ae lo ∧ BelowEnd be lo) := by
    intro lo hlo hmin
    have mono : ∀ (e : EndBound T) (x : T), lo ≤ x → BelowEnd e x → BelowEnd e lo := by
      intro e x hx he
      cases e with
      | included b => exact le_trans hx he
      | excluded b => exact lt_of_le_of_lt hx he
      | unbounded => trivial
    constructor
    · rintro ⟨x, ⟨ha1, ha2⟩, hb1, hb2⟩
      have := hmin x ha1 hb1
      exact ⟨mono _ _ this ha2, mono _ _ this hb2⟩
    · rintro ⟨ha, hb⟩
      exact ⟨lo, ⟨hlo.1, ha⟩, hlo.2, hb⟩
  cases as with
  | unbounded =>
    cases bs with
    | unbounded => exact absurd ⟨rfl, rfl⟩ h1
    | included y =>
      rw [key y ⟨trivial, le_refl y⟩ (fun x _ h => h)]
      clear key h1
      cases ae <;> cases be <;>
        simp_all [overlapsNaive, isEmptyNaive, startPastEnd, endBeforeStart, BelowEnd] <;>
        (try tauto)
  | included x =>
    cases bs with
    | unbounded =>
      rw [key x ⟨le_refl x, trivial⟩ (fun x h _ => h)]
      clear key h1
      cases ae <;> cases be <;>
        simp_all [overlapsNaive, isEmptyNaive, startPastEnd, endBeforeStart, BelowEnd]
    | included y =>
      rw [key (max x y) ⟨le_max_left _ _, le_max_right _ _⟩ (fun z h h' => max_le h h')]
      clear key h1
      cases ae <;> cases be <;>
        simp_all [overlapsNaive, isEmptyNaive, startPastEnd, endBeforeStart, BelowEnd] <;>
        (try tauto)

/-- C32: even when an unbounded side is shared, a negative answer of `overlaps_naive` is right. -/
theorem overlapsNaive_complete (a b : Rng T) (h : overlapsNaive a b = false) :
    ¬ ∃ x, Mem a x ∧ Mem b x := by
  rintro ⟨x, ⟨ha1, ha2⟩, hb1, hb2⟩
  have ea : isEmptyNaive a = false := by
    by_contra hc; exact isEmptyNaive_sound a (by simpa using hc) x ⟨ha1, ha2⟩
  have eb : isEmptyNaive b = false := by
    by_contra hc; exact isEmptyNaive_sound b (by simpa using hc) x ⟨hb1, hb2⟩
  rcases a with ⟨as, ae⟩
  rcases b with ⟨bs, be⟩
  simp only [overlapsNaive, ea, eb, Bool.or_self, Bool.false_eq_true, if_false] at h
  have s1 : startPastEnd as be = false := by
    cases as with
    | unbounded => rfl
    | included s =>
      cases be with
      | unbounded => rfl
      | included e => simp [startPastEnd]; exact le_trans ha1 hb2
      | excluded e => simp [startPastEnd]; exact lt_of_le_of_lt ha1 hb2
  have s2 : endBeforeStart ae bs = false := by
    cases bs with
    | unbounded => cases ae <;> rfl
    | included s =>
      cases ae with
      | unbounded => rfl
      | included e => simp [endBeforeStart]; exact le_trans hb1 ha2
      | excluded e => simp [endBeforeStart]; exact lt_of_le_of_lt hb1 ha2
  simp [s1, s2] at h

/-- C32: the std range kinds denote the expected sets. -/
theorem std_ranges_mem (a b x : T) :
    (Mem (ofRange a b) x ↔ a ≤ x ∧ x < b) ∧ (Mem (ofRangeFrom a) x ↔ a ≤ x) ∧
    (Mem (ofRangeTo b) x ↔ x < b) ∧ (Mem (ofRangeToInclusive b) x ↔ x ≤ b) ∧
    (Mem (ofRangeInclusive a b) x ↔ a ≤ x ∧ x ≤ b) ∧ Mem (ofRangeFull : Rng T) x := by
  simp [Mem, ofRange, ofRangeFrom, ofRangeTo, ofRangeToInclusive, ofRangeInclusive, ofRangeFull,
    AboveStart, BelowEnd]

example : Bounded (ofRange (3 : Nat) 5) := by simp [Bounded, ofRange]
example : NoSharedUnbounded (ofRange (3 : Nat) 5) (ofRangeFrom 4) ∧
    overlapsNaive (ofRange (3 : Nat) 5) (ofRangeFrom 4) = true := by
  simp [NoSharedUnbounded, ofRange, ofRangeFrom, overlapsNaive, isEmptyNaive, startPastEnd,
    endBeforeStart]
example : overlapsNaive (ofRange (3 : Nat) 5) (ofRangeFrom 5) = false := by decide

end Sherman.Range
