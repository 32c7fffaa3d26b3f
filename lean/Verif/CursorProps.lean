import Verif.Cursor
/-!
# C18: what a `BoundedCursor` remembers

What a user expects (the doc comment of the type: a bounded cursor keeps the components nearest
the root): `ideal LEN cs` below.  The code initialises `start_at` to `LEN - 1` instead of `LEN`,
so one filler component is always part of the window until it has been shifted out.
-/
namespace Sherman.Cursor

/-- Specification: the most recently prepended components, at most `LEN` of them, root first. -/
def ideal (LEN : Nat) (cs : List Nat) : List Nat := cs.reverse.take LEN

/-- Exact description of what is read back: the filler sits between component number `LEN` and
component number `LEN - 1` in prepending order. -/
def actual (LEN : Nat) (cs : List Nat) : List Nat :=
  if LEN = 0 then []
  else ((cs.drop (LEN - 1)).reverse ++ filler :: (cs.take (LEN - 1)).reverse).take LEN

/-- State invariant after prepending `cs`. -/
structure Inv (LEN : Nat) (cs : List Nat) (c : BoundedCursor) : Prop where
  len : c.path.length = LEN
  start : c.startAt = LEN - 1 - cs.length
  view : c.path = List.replicate c.startAt filler ++ actual LEN cs

theorem inv_new (LEN : Nat) (h : LEN ≤ 255) : ∃ c, newEmpty LEN = .ok c ∧ Inv LEN [] c := by
  refine ⟨_, by simp [newEmpty, h]; rfl, ?_⟩
  by_cases h0 : LEN = 0
  · subst h0; constructor <;> simp [actual]
  · obtain ⟨n, rfl⟩ : ∃ n, LEN = n + 1 := ⟨LEN - 1, by omega⟩
    constructor
    · simp
    · simp
    · simp [actual, List.replicate_succ']

theorem inv_prepend (LEN : Nat) (cs : List Nat) (c : BoundedCursor) (x : Nat) (h : Inv LEN cs c) :
    ∃ c', prepend LEN c x = .ok c' ∧ Inv LEN (cs ++ [x]) c' := by
  rcases c with ⟨path, st⟩
  obtain ⟨hl, hs, hv⟩ := h
  simp only at hl hs hv
  by_cases h0 : LEN = 0
  · subst h0
    simp at hs; subst hs
    exact ⟨_, by simp [prepend]; rfl, ⟨by simpa using hl, by simp, by simp_all [actual]⟩⟩
  · obtain ⟨n, rfl⟩ : ∃ n, LEN = n + 1 := ⟨LEN - 1, by omega⟩
    simp only [Nat.add_sub_cancel] at hs
    simp only [actual, h0, if_false, Nat.add_sub_cancel] at hv
    by_cases hst : st = 0
    · have hcs : n ≤ cs.length := by omega
      refine ⟨_, by simp [prepend, hst]; rfl, ⟨by simp [hl], by simp; omega, ?_⟩⟩
      subst hst
      simp only [List.replicate_zero, List.nil_append] at hv ⊢
      rw [hv]
      simp only [actual, h0, if_false, Nat.add_sub_cancel]
      rw [List.drop_append_of_le_length hcs, List.take_append_of_le_length hcs]
      simp only [List.reverse_append, List.reverse_singleton,
        List.cons_append, List.take_succ_cons, List.take_take]
      simp
    · have hcs : cs.length < n := by omega
      obtain ⟨m, rfl⟩ : ∃ m, st = m + 1 := ⟨st - 1, by omega⟩
      refine ⟨⟨path.set (m + 1) x, m⟩, by simp [prepend]; omega,
        ⟨by simp [hl], by simp; omega, ?_⟩⟩
      have d1 : cs.drop n = [] := List.drop_eq_nil_of_le (by omega)
      have t1 : cs.take n = cs := List.take_of_length_le (by omega)
      have d2 : (cs ++ [x]).drop n = [] := List.drop_eq_nil_of_le (by simp; omega)
      have t2 : (cs ++ [x]).take n = cs ++ [x] := List.take_of_length_le (by simp; omega)
      simp only [d1, t1, List.reverse_nil, List.nil_append] at hv
      simp only [actual, h0, if_false, Nat.add_sub_cancel, d2, t2, List.reverse_nil,
        List.nil_append]
      rw [List.take_of_length_le (by simp; omega)] at hv ⊢
      rw [hv, List.set_append]
      simp [List.replicate_succ']

theorem inv_prependAll (LEN : Nat) (xs cs : List Nat) (c : BoundedCursor) (h : Inv LEN cs c) :
    ∃ c', prependAll LEN c xs = .ok c' ∧ Inv LEN (cs ++ xs) c' := by
  induction xs generalizing cs c with
  | nil => exact ⟨c, rfl, by simpa using h⟩
  | cons x xs ih =>
    obtain ⟨c1, h1, i1⟩ := inv_prepend LEN cs c x h
    obtain ⟨c2, h2, i2⟩ := ih _ _ i1
    exact ⟨c2, by simp [prependAll, h1, h2], by simpa using i2⟩

theorem readN_eq (LEN : Nat) (path : List Nat) (hl : path.length = LEN) (n st : Nat)
    (hst : st ≤ LEN) (hn : LEN - st < n) :
    readN LEN n ⟨path, st⟩ = .ok (path.drop st) := by
  induction n generalizing st with
  | zero => omega
  | succ n ih =>
    by_cases he : st = LEN
    · subst he
      simp [readN, next, ← hl]
    · have hlt : st < path.length := by omega
      simp only [readN, next, he, if_false, List.getElem?_eq_getElem hlt, R.bind_ok]
      rw [ih (st + 1) (by omega) (by omega)]
      simp

/-- **C18 (exact behaviour).** For every capacity up to 255 and every sequence of prepended
components, creation, prepending and reading never panic, and reading yields `actual LEN cs`. -/
theorem roundTrip_eq (LEN : Nat) (h : LEN ≤ 255) (cs : List Nat) :
    roundTrip LEN cs = .ok (actual LEN cs) := by
  obtain ⟨c0, h0, i0⟩ := inv_new LEN h
  obtain ⟨c, hc, i⟩ := inv_prependAll LEN cs [] c0 i0
  simp only [List.nil_append] at i
  rcases c with ⟨path, st⟩
  obtain ⟨hl, hs, hv⟩ := i
  simp only at hl hs hv
  simp only [roundTrip, h0, hc, R.bind_ok, read]
  rw [readN_eq LEN path hl (LEN + 1) st (by omega) (by omega), hv]
  simp

/-- C18: creation fails exactly for capacities that do not fit a byte. -/
theorem newEmpty_ok_iff (LEN : Nat) : (∃ c, newEmpty LEN = .ok c) ↔ LEN ≤ 255 := by
  constructor
  · rintro ⟨c, h⟩
    refine Decidable.byContradiction fun hc => ?_
    simp [newEmpty, check, hc] at h
  · intro h; obtain ⟨c, hc, _⟩ := inv_new LEN h; exact ⟨c, hc⟩

/-- **C18, partial.** The expected contents are read back once at least `2·LEN - 1` components
have been prepended (or for the zero-capacity cursor, always).  Missing: shorter paths, for which
the statement is false, see `roundTrip_ne_ideal`. -/
theorem roundTrip_ideal_partial (LEN : Nat) (h : LEN ≤ 255) (cs : List Nat)
    (hk : 2 * LEN - 1 ≤ cs.length) : roundTrip LEN cs = .ok (ideal LEN cs) := by
  rw [roundTrip_eq LEN h]
  congr 1
  by_cases h0 : LEN = 0
  · simp [actual, ideal, h0]
  · simp only [actual, ideal, h0, if_false]
    rw [List.take_append_of_le_length (by simp; omega)]
    rw [← List.take_append_drop (LEN - 1) cs]
    rw [List.reverse_append, List.take_append_of_le_length (by simp; omega)]
    simp

/-- **C18, negation.** For every capacity ≥ 1 and every path of fewer than `2·LEN - 1` genuine
components (none equal to the filler), what is read back is not the expected path: it contains the
filler. -/
theorem roundTrip_ne_ideal (LEN : Nat) (h0 : LEN ≠ 0) (h : LEN ≤ 255) (cs : List Nat)
    (hk : cs.length < 2 * LEN - 1) (hg : ∀ x ∈ cs, x ≠ filler) :
    ∃ got, roundTrip LEN cs = .ok got ∧ filler ∈ got ∧ got ≠ ideal LEN cs := by
  refine ⟨_, roundTrip_eq LEN h cs, ?_⟩
  have hm : filler ∈ actual LEN cs := by
    simp only [actual, h0, if_false]
    rw [List.take_append]
    apply List.mem_append_right
    have : LEN - (cs.drop (LEN - 1)).reverse.length = (LEN - (cs.drop (LEN - 1)).reverse.length - 1) + 1 := by
      simp; omega
    rw [this, List.take_succ_cons]
    exact List.mem_cons_self
  refine ⟨hm, ?_⟩
  intro he
  rw [he] at hm
  have := List.mem_of_mem_take hm
  simp at this
  exact hg _ this rfl

example : roundTrip 3 [7, 8, 9] = .ok [9, filler, 8] := by rfl
example : roundTrip 3 [5, 6, 7, 8, 9] = .ok [9, 8, 7] := by rfl

end Sherman.Cursor
