import Verif.MockProps
/-!
# C36: lookups, references and iteration of the `Mock`
-/
namespace Sherman
namespace Mock
variable {S : Type} {MAX : Nat}

/-- Start, end, size and slice of every run in a list. -/
def listing : Nat → List (Ent S) → List (Nat × Nat × Nat × S)
  | _, [] => []
  | b, e :: es => (b, b + e.size, e.size, e.slice) :: listing (b + e.size) es

@[simp] theorem listing_length (b : Nat) (es : List (Ent S)) : (listing b es).length = es.length := by
  induction es generalizing b with
  | nil => rfl
  | cons e es ih => simp [listing, ih]

theorem listing_at {b : Nat} {A B : List (Ent S)} {e : Ent S} :
    (listing b (A ++ e :: B))[A.length]? = some (b + total A, b + total A + e.size, e.size, e.slice) := by
  induction A generalizing b with
  | nil => simp [listing]
  | cons a A ih => simp only [List.cons_append, listing, List.length_cons, List.getElem?_cons_succ, ih, total_cons, Nat.add_assoc]

theorem split_at {X : Type} {l : List X} {n : Nat} (h : n < l.length) : ∃ A e B, l = A ++ e :: B ∧ A.length = n :=
  ⟨l.take n, l[n], l.drop (n + 1), by rw [← List.drop_eq_getElem_cons h, List.take_append_drop], by simp; omega⟩

/-! ## Lookups -/

theorem at_holds {m : Mock Nat S} {A B : List (Ent S)} {e : Ent S} (hm : m.runs = mruns 0 (A ++ e :: B)) :
    at_ m.runs A.length = .ok ⟨total A + e.size, e.slice, e.ref.getD 0⟩ ∧
    startOf (natIdx MAX) m.runs A.length = .ok (total A) := by
  rw [hm, mruns_append]
  refine ⟨?_, startOf_mruns (b := 0) rfl⟩
  simp only [mruns, Nat.zero_add]
  exact at_append (by simp)

theorem get_in {m : Mock Nat S} {A B : List (Ent S)} {e : Ent S} {o : Nat} (hm : Holds m (A ++ e :: B)) (ho : o < e.size) :
    m.get (natIdx MAX) (total A + o) = .ok (total A, total A + e.size, e.slice) := by
  obtain ⟨h1, h2⟩ := at_holds (MAX := MAX) hm.runs
  unfold get
  rw [size_mruns hm.runs, find_inside hm.runs hm.pos ho]
  rw [show check (!(natIdx MAX).lt (total A + o) (natIdx MAX).zero && (natIdx MAX).lt (total A + o) (total (A ++ e :: B))) _ = .ok () by
    simp [natIdx, IdxOps.lt, check, Nat.compare_eq_lt]; omega]
  simp only [R.bind_ok, h1, h2, R.pure_eq]

theorem get_out {m : Mock Nat S} {es : List (Ent S)} {idx : Nat} (hm : Holds m es) (h : total es ≤ idx) :
    m.get (natIdx MAX) idx = .error (.panic "assertion failed: index >= I::ZERO && index < self.size()") := by
  unfold get
  rw [size_mruns hm.runs]
  rw [show check (!(natIdx MAX).lt idx (natIdx MAX).zero && (natIdx MAX).lt idx (total es)) _ =
      .error (.panic "assertion failed: index >= I::ZERO && index < self.size()") by
    simp [natIdx, IdxOps.lt, check, Nat.compare_eq_lt]; omega]
  rfl

theorem makeRef_in {m : Mock Nat S} {A B : List (Ent S)} {e : Ent S} {o : Nat} (hm : Holds m (A ++ e :: B)) (ho : o < e.size) :
    m.makeRef (natIdx MAX) (total A + o) = .ok (m.refs.length, { m with refs := m.refs ++ [e.ref.getD 0] }) := by
  obtain ⟨h1, h2⟩ := at_holds (MAX := MAX) hm.runs
  unfold makeRef
  rw [size_mruns hm.runs, find_inside hm.runs hm.pos ho]
  rw [show check (!(natIdx MAX).lt (total A + o) (natIdx MAX).zero && (natIdx MAX).lt (total A + o) (total (A ++ e :: B))) _ = .ok () by
    simp [natIdx, IdxOps.lt, check, Nat.compare_eq_lt]; omega]
  simp only [R.bind_ok, h1, R.pure_eq]

theorem ref_holds {m : Mock Nat S} {A B : List (Ent S)} {e : Ent S} {k sid : Nat} (hm : Holds m (A ++ e :: B))
    (hk : m.refs[k]? = some sid) (he : e.ref = some sid) :
    m.refRange (natIdx MAX) k = .ok (some (total A, total A + e.size)) ∧ m.refSlice k = .ok (some e.slice) := by
  obtain ⟨h1, h2⟩ := at_holds (MAX := MAX) hm.runs
  have hi : m.stable[sid]? = some (some A.length) := by
    rw [hm.ids sid A.length, sids_append, sids_cons, List.getElem?_append_right (by simp)]
    simp [he]
  have hx : m.refIdx k = .ok (some A.length) := by simp [refIdx, hk, hi]
  constructor
  · simp only [refRange, hx, R.bind_ok, h1, h2, R.pure_eq]
  · simp only [refSlice, hx, R.bind_ok, h1, R.pure_eq]

/-! ## Iteration -/

/-- A listed run has a position in the range. -/
def touchesRun (r : Range.Rng Nat) (x : Nat × Nat × Nat × S) : Bool :=
  (List.range x.2.1).any fun q => decide (x.1 ≤ q) && Range.contains r q

/-- `next` and `next_back` as told. -/
def runIter (ix : IdxOps Nat) (it : Iter Nat S) : List Bool → R (List (Option (Nat × Nat × Nat × S)))
  | [] => pure []
  | false :: ops => do
    let (x, it) ← it.next ix
    let xs ← runIter ix it ops
    pure (x :: xs)
  | true :: ops => do
    let (x, it) ← it.nextBack ix
    let xs ← runIter ix it ops
    pure (x :: xs)

theorem window_next {X : Type} {l : List X} {f k : Nat} (hf : f < k) {x : X} (hx : l[f]? = some x) :
    (l.take k).drop f = x :: (l.take k).drop (f + 1) := by
  have hl := (List.getElem?_eq_some_iff.1 hx)
  rw [List.drop_eq_getElem_cons (by simp; exact ⟨hf, hl.1⟩)]
  congr 1
  rw [List.getElem_take]; exact hl.2

theorem window_back {X : Type} {l : List X} {f k : Nat} (hf : f < k + 1) {x : X} (hx : l[k]? = some x) :
    (l.take (k + 1)).drop f = (l.take k).drop f ++ [x] := by
  have hl := (List.getElem?_eq_some_iff.1 hx).1
  rw [List.take_succ, hx, List.drop_append_of_le_length (by simp; omega)]
  rfl

theorem run_window {es : List (Ent S)} (ops : List Bool) {f k : Nat} (hk : k ≤ es.length) :
    runIter (natIdx MAX) ⟨mruns 0 es, f, k⟩ ops = .ok (runDeque (((listing 0 es).take k).drop f) ops) := by
  have hget : ∀ {n : Nat}, n < es.length → ∃ x : Nat × Nat × Nat × S, (listing 0 es)[n]? = some x ∧
      startOf (natIdx MAX) (mruns 0 es) n = .ok x.1 ∧ (∃ sid, at_ (mruns 0 es) n = .ok ⟨x.2.1, x.2.2.2, sid⟩) ∧
      (natIdx MAX).subL x.2.1 x.1 = .ok x.2.2.1 := by
    intro n hn
    obtain ⟨A, e, B, rfl, rfl⟩ := split_at hn
    have h := at_holds (MAX := MAX) (m := ⟨mruns 0 (A ++ e :: B), [], []⟩) rfl
    refine ⟨_, listing_at, by simpa using h.2, ⟨_, by simpa using h.1⟩, ?_⟩
    simp [natIdx]
  induction ops generalizing f k with
  | nil => rfl
  | cons op ops ih =>
    by_cases hlt : f ≥ k
    · have he : ((listing 0 es).take k).drop f = [] := by rw [List.drop_eq_nil_iff]; simp; omega
      have ih' := ih (f := f) hk
      rw [he, runDeque_nil] at ih' ⊢
      cases op <;> simp [runIter, Iter.next, Iter.nextBack, hlt, ih']
    · cases op with
      | false =>
        obtain ⟨x, h1, h2, ⟨sid, h3⟩, h4⟩ := hget (n := f) (by omega)
        simp only [runIter, Iter.next, hlt, if_false, h2, R.bind_ok, h3, h4, R.pure_eq, ih (f := f + 1) hk]
        rw [window_next (by omega) h1]
        rfl
      | true =>
        obtain ⟨k, rfl⟩ : ∃ j, k = j + 1 := ⟨k - 1, by omega⟩
        obtain ⟨x, h1, h2, ⟨sid, h3⟩, h4⟩ := hget (n := k) (by omega)
        simp only [runIter, Iter.nextBack, hlt, if_false, Nat.add_sub_cancel, h2, R.bind_ok, h3, h4, R.pure_eq, ih (f := f) (k := k) (by omega)]
        rw [window_back (by omega) h1]
        simp [runDeque]

theorem filter_window {X : Type} {l : List X} {p : X → Bool} {f k : Nat}
    (h : ∀ (n : Nat) (x : X), l[n]? = some x → (p x = true ↔ f ≤ n ∧ n < k)) : l.filter p = (l.take k).drop f := by
  induction l generalizing f k with
  | nil => simp
  | cons a l ih =>
    have h0 := h 0 a rfl
    have ih' := ih (f := f - 1) (k := k - 1) (fun n x hx => by rw [h (n + 1) x hx]; omega)
    cases k with
    | zero =>
      have : p a = false := by
        cases hp : p a with
        | false => rfl
        | true => have := h0.1 hp; omega
      rw [List.filter_cons_of_neg (by simp [this]), ih']; simp
    | succ k =>
      cases f with
      | zero =>
        rw [List.filter_cons_of_pos (h0.2 (by omega)), ih']; simp
      | succ f =>
        have : p a = false := by
          cases hp : p a with
          | false => rfl
          | true => have := h0.1 hp; omega
        rw [List.filter_cons_of_neg (by simp [this]), ih']; simp

theorem touchesRun_iff {r : Range.Rng Nat} {x : Nat × Nat × Nat × S} :
    touchesRun r x = true ↔ ∃ q, x.1 ≤ q ∧ q < x.2.1 ∧ Range.contains r q = true := by
  simp only [touchesRun, List.any_eq_true, List.mem_range, Bool.and_eq_true, decide_eq_true_eq]
  exact ⟨fun ⟨q, a, b, c⟩ => ⟨q, b, a, c⟩, fun ⟨q, a, b, c⟩ => ⟨q, b, a, c⟩⟩

/-- The first run that ends after `i`. -/
theorem locate {es : List (Ent S)} {i : Nat} (h : i < total es) : ∃ A e B o, es = A ++ e :: B ∧ i = total A + o ∧ o < e.size := by
  obtain ⟨L, Z, o, _, rfl, rfl, h4⟩ := cutAt_spec (Nat.le_of_lt h)
  rcases h4 with ⟨rfl, rfl⟩ | ⟨e, Z', rfl, ho⟩
  · simp at h
  · exact ⟨L, e, Z', o, rfl, rfl, ho⟩

theorem listing_order {es A B : List (Ent S)} {e : Ent S} (hes : es = A ++ e :: B) (hp : Pos es) {n : Nat} {x : Nat × Nat × Nat × S}
    (hx : (listing 0 es)[n]? = some x) :
    x.1 < x.2.1 ∧ x.2.1 ≤ total es ∧ (n < A.length → x.2.1 ≤ total A) ∧ (A.length ≤ n → total A + e.size ≤ x.2.1) ∧
      (n ≤ A.length → x.1 ≤ total A) ∧ (A.length < n → total A + e.size ≤ x.1) := by
  have hn : n < es.length := by simpa using (List.getElem?_eq_some_iff.1 hx).1
  obtain ⟨A', e', B', h1, rfl⟩ := split_at hn
  rw [h1, listing_at] at hx
  cases hx
  have hpe : 0 < e'.size := hp e' (by rw [h1]; simp)
  have hpe2 : 0 < e.size := hp e (by rw [hes]; simp)
  have hA : A = es.take A.length := by rw [hes]; simp
  have hA' : A' = es.take A'.length := by rw [h1]; simp
  have mono : ∀ {i j : Nat}, i ≤ j → total (es.take i) ≤ total (es.take j) := by
    intro i j hij
    obtain ⟨d, rfl⟩ : ∃ d, j = i + d := ⟨j - i, by omega⟩
    rw [List.take_add, total_append]; omega
  have hs : total (es.take (A.length + 1)) = total A + e.size := by
    have : es.take (A.length + 1) = A ++ [e] := by
      rw [hes, show A ++ e :: B = (A ++ [e]) ++ B by simp, List.take_left' (by simp)]
    rw [this]; simp
  have hs' : total (es.take (A'.length + 1)) = total A' + e'.size := by
    have : es.take (A'.length + 1) = A' ++ [e'] := by
      rw [h1, show A' ++ e' :: B' = (A' ++ [e']) ++ B' by simp, List.take_left' (by simp)]
    rw [this]; simp
  simp only [Nat.zero_add]
  refine ⟨by omega, by rw [h1]; simp, fun h => ?_, fun h => ?_, fun h => ?_, fun h => ?_⟩
  · rw [← hs', hA]; simpa using mono (i := A'.length + 1) (j := A.length) h
  · rw [← hs', ← hs]; exact mono (by omega)
  · rw [hA, hA']; simpa using mono h
  · rw [← hs, hA']; simpa using mono (i := A.length + 1) (j := A'.length) h

/-- The first position of a range. -/
def posOf : Range.StartBound Nat → Nat
  | .included i => i
  | .unbounded => 0

/-- Whether a range has no first position. -/
def unbOf : Range.StartBound Nat → Bool
  | .included _ => false
  | .unbounded => true

/-- A position is not after the end of a range. -/
def startsIn (t : Range.EndBound Nat) (a : Nat) : Prop :=
  match t with
  | .included j => a ≤ j
  | .excluded j => a < j
  | .unbounded => True

/-- Iteration over a valid range behaves as a double-ended queue of the runs that touch the range. -/
theorem iter_deque {m : Mock Nat S} {es : List (Ent S)} (hm : Holds m es) {r : Range.Rng Nat} (hv : ValidRange (total es) r) :
    ∃ it, m.iter (natIdx MAX) r = .ok it ∧
      ∀ ops, runIter (natIdx MAX) it ops = .ok (runDeque ((listing 0 es).filter (touchesRun r)) ops) := by
  obtain ⟨s, t⟩ := r
  obtain ⟨v1, v2, v3⟩ := hv
  simp only at v1 v2 v3
  -- start
  have hstart : ∃ p u f, m.iterStart (natIdx MAX) s = .ok (p, u, f) ∧ f ≤ es.length ∧
      p = posOf s ∧ u = unbOf s ∧
      ∀ (n : Nat) x, (listing 0 es)[n]? = some x → (f ≤ n ↔ p < x.2.1) := by
    cases s with
    | unbounded =>
      refine ⟨0, true, 0, rfl, by omega, rfl, rfl, fun n x hx => ?_⟩
      have hn : n < es.length := by simpa using (List.getElem?_eq_some_iff.1 hx).1
      obtain ⟨A, e, B, h1, _⟩ := split_at hn
      have := listing_order h1 hm.pos hx
      simp; omega
    | included i =>
      obtain ⟨A, e, B, o, rfl, rfl, ho⟩ := locate v2
      refine ⟨total A + o, false, A.length, ?_, by simp, rfl, rfl, fun n x hx => ?_⟩
      · simp only [iterStart, size_mruns hm.runs, find_inside hm.runs hm.pos ho]
        rw [show check ((natIdx MAX).lt (total A + o) (total (A ++ e :: B))) _ = .ok () by
          simp [natIdx, IdxOps.lt, check, Nat.compare_eq_lt]; omega]
        rfl
      · obtain ⟨_, _, g1, g2, _⟩ := listing_order rfl hm.pos hx
        constructor
        · intro h; have := g2 h; omega
        · intro h; by_contra hc; have := g1 (by omega); omega
  obtain ⟨p, u, f, hs1, hs2, hs3, hs4, hs5⟩ := hstart
  -- end
  have hstop : ∃ k, m.iterEnd (natIdx MAX) p u t = .ok k ∧ k ≤ es.length ∧
      ∀ (n : Nat) x, (listing 0 es)[n]? = some x → (n < k ↔ startsIn t x.1) := by
    cases t with
    | unbounded =>
      refine ⟨es.length, by simp [iterEnd, hm.runs], by omega, fun n x hx => ?_⟩
      have hn : n < es.length := by simpa using (List.getElem?_eq_some_iff.1 hx).1
      simpa [startsIn] using hn
    | included j =>
      simp only at v3
      obtain ⟨A, e, B, o, rfl, rfl, ho⟩ := locate v3
      have hpj : ¬ total A + o < p := by
        cases s with
        | unbounded => simp only [posOf] at hs3; omega
        | included i => simp only [posOf] at hs3 v1; omega
      refine ⟨A.length + 1, ?_, by simp, fun n x hx => ?_⟩
      · simp only [iterEnd, size_mruns hm.runs]
        rw [show check (!((natIdx MAX).lt (total A + o) p || !(natIdx MAX).lt (total A + o) (total (A ++ e :: B)))) _ = .ok () by
          simp [natIdx, IdxOps.lt, check, Nat.compare_eq_lt]; omega]
        simp only [R.bind_ok]
        by_cases h0 : o = 0
        · subst h0
          simp only [Nat.add_zero]
          rw [search_edge hm.runs hm.pos]
          by_cases hA : A = []
          · subst hA; rfl
          · have : 0 < A.length := by cases A <;> simp at *
            simp only [hA, if_false, R.bind_ok, R.pure_eq]
            congr 1; omega
        · rw [search_inside hm.runs hm.pos (by omega) ho]; rfl
      · obtain ⟨_, _, _, _, g1, g2⟩ := listing_order rfl hm.pos hx
        simp only [startsIn]
        constructor
        · intro h; have := g1 (by omega); omega
        · intro h; by_contra hc; have := g2 (by omega); omega
    | excluded j =>
      simp only at v3
      have hpj : ¬ (j < p ∨ (j = p ∧ u = false) ∨ total es < j) := by
        cases s with
        | unbounded => simp only [posOf, unbOf] at hs3 hs4; subst hs3 hs4; rintro (h | ⟨_, h⟩ | h) <;> first | omega | cases h
        | included i => simp only [posOf] at hs3 v1; omega
      have hchk : check (!((natIdx MAX).lt j p || ((natIdx MAX).eq j p && !u) || (natIdx MAX).lt (total es) j))
          "invalid range, or end index out of bounds" = .ok () := by
        simp only [natIdx, IdxOps.lt, IdxOps.eq, check]
        have h1 : compare j p ≠ .lt := by rw [Ne, Nat.compare_eq_lt]; omega
        have h2 : compare (total es) j ≠ .lt := by rw [Ne, Nat.compare_eq_lt]; omega
        have h3 : ¬ (compare j p = .eq ∧ u = false) := fun h => hpj (.inr (.inl ⟨Nat.compare_eq_eq.1 h.1, h.2⟩))
        cases u <;> simp_all
      by_cases hj0 : j = 0
      · subst hj0
        refine ⟨0, ?_, by omega, fun n x hx => by simp [startsIn]⟩
        simp only [iterEnd, size_mruns hm.runs, hchk, R.bind_ok]
        simp [natIdx, IdxOps.eq]
      · obtain ⟨A, e, B, o, rfl, ho1, ho⟩ := locate (es := es) (i := j - 1) (by omega)
        have hje : j = total A + (o + 1) := by omega
        refine ⟨A.length + 1, ?_, by simp, fun n x hx => ?_⟩
        · simp only [iterEnd, size_mruns hm.runs, hchk, R.bind_ok]
          rw [if_neg (by simp [natIdx, IdxOps.eq]; omega)]
          by_cases h0 : o + 1 = e.size
          · have hr : m.runs = mruns 0 ((A ++ [e]) ++ B) := by rw [hm.runs]; simp
            have := search_edge (MAX := MAX) hr (by have := hm.pos; simpa using this)
            rw [show total (A ++ [e]) = j by simp; omega] at this
            rw [this]
            simp
          · rw [hje, search_inside hm.runs hm.pos (by omega) (by omega)]; rfl
        · obtain ⟨_, _, _, _, g1, g2⟩ := listing_order rfl hm.pos hx
          simp only [startsIn]
          constructor
          · intro h; have := g1 (by omega); omega
          · intro h; by_contra hc; have := g2 (by omega); omega
  obtain ⟨k, hk1, hk2, hk3⟩ := hstop
  refine ⟨⟨m.runs, f, k⟩, by simp only [iter, hs1, R.bind_ok, hk1, R.pure_eq], fun ops => ?_⟩
  rw [hm.runs, run_window ops hk2]
  rw [filter_window (f := f) (k := k)]
  intro n x hx
  have hx1 : x.1 < x.2.1 ∧ x.2.1 ≤ total es := by
    have hn : n < es.length := by simpa using (List.getElem?_eq_some_iff.1 hx).1
    obtain ⟨A, e, B, h1, _⟩ := split_at hn
    have := listing_order h1 hm.pos hx
    exact ⟨this.1, this.2.1⟩
  rw [touchesRun_iff, hs5 n x hx, hk3 n x hx]
  obtain ⟨a, b, c, d⟩ := x
  simp only at hx1 ⊢
  clear hs1 hs5 hk1 hk3 hx
  cases s with
  | unbounded =>
    simp only [posOf] at hs3
    subst hs3
    cases t with
    | unbounded => simp [Range.contains, startsIn]; exact ⟨fun _ => by omega, fun _ => ⟨a, by omega, by omega⟩⟩
    | included j => simp [Range.contains, startsIn]; exact ⟨fun ⟨q, _, _, _⟩ => by omega, fun _ => ⟨a, by omega, by omega, by omega⟩⟩
    | excluded j => simp [Range.contains, startsIn]; exact ⟨fun ⟨q, _, _, _⟩ => by omega, fun _ => ⟨a, by omega, by omega, by omega⟩⟩
  | included i =>
    simp only [posOf] at hs3
    subst hs3
    cases t with
    | unbounded => simp [Range.contains, startsIn]; exact ⟨fun ⟨q, _, _, _⟩ => by omega, fun _ => ⟨max a p, by omega, by omega, by omega⟩⟩
    | included j => simp only at v1; simp [Range.contains, startsIn]; exact ⟨fun ⟨q, _, _, _, _⟩ => by omega, fun _ => ⟨max a p, by omega, by omega, by omega, by omega⟩⟩
    | excluded j => simp only at v1; simp [Range.contains, startsIn]; exact ⟨fun ⟨q, _, _, _, _⟩ => by omega, fun _ => ⟨max a p, by omega, by omega, by omega, by omega⟩⟩

/-- Invalid ranges make `iter` panic. -/
theorem iter_invalid {m : Mock Nat S} {es : List (Ent S)} (hm : Holds m es) {r : Range.Rng Nat} (hv : ¬ ValidRange (total es) r) :
    ∃ msg, m.iter (natIdx MAX) r = .error (.panic msg) := by
  obtain ⟨s, t⟩ := r
  unfold iter
  have fin : ∀ p u, (¬ match t with | .included y => p ≤ y ∧ y < total es | .excluded y => (p < y ∨ (p = y ∧ u = true)) ∧ y ≤ total es | .unbounded => True) →
      ∃ msg, m.iterEnd (natIdx MAX) p u t = .error (.panic msg) := by
    intro p u h
    cases t with
    | unbounded => exact absurd trivial h
    | included y =>
      refine ⟨"invalid range, or end index out of bounds", ?_⟩
      simp only [iterEnd, size_mruns hm.runs]
      rw [show check (!((natIdx MAX).lt y p || !(natIdx MAX).lt y (total es))) _ = .error (.panic "invalid range, or end index out of bounds") by
        simp [natIdx, IdxOps.lt, check, Nat.compare_eq_lt]; simp only at h; omega]
      rfl
    | excluded y =>
      refine ⟨"invalid range, or end index out of bounds", ?_⟩
      simp only [iterEnd, size_mruns hm.runs]
      rw [show check (!((natIdx MAX).lt y p || ((natIdx MAX).eq y p && !u) || (natIdx MAX).lt (total es) y)) _ =
          .error (.panic "invalid range, or end index out of bounds") by
        cases u <;> simp [natIdx, IdxOps.lt, IdxOps.eq, check, Nat.compare_eq_lt] <;> simp only [Bool.false_eq_true, and_false, or_false, and_true] at h <;> omega]
      rfl
  cases s with
  | unbounded =>
    simp only [iterStart, R.pure_eq, R.bind_ok]
    obtain ⟨msg, h⟩ := fin 0 true (by
      cases t <;> simp_all [ValidRange] <;> omega)
    rw [show (natIdx MAX).zero = 0 from rfl, h]
    exact ⟨msg, rfl⟩
  | included i =>
    by_cases hi : i < total es
    · obtain ⟨A, e, B, o, rfl, rfl, ho⟩ := locate hi
      simp only [iterStart, size_mruns hm.runs, find_inside hm.runs hm.pos ho]
      rw [show check ((natIdx MAX).lt (total A + o) (total (A ++ e :: B))) _ = .ok () by
        simp [natIdx, IdxOps.lt, check, Nat.compare_eq_lt]; omega]
      simp only [R.bind_ok, R.pure_eq]
      obtain ⟨msg, h⟩ := fin (total A + o) false (by
        cases t <;> simp_all [ValidRange] <;> omega)
      rw [h]
      exact ⟨msg, rfl⟩
    · simp only [iterStart, size_mruns hm.runs]
      rw [show check ((natIdx MAX).lt i (total es)) _ = .error (.panic "start index out of bounds") by
        simp [natIdx, IdxOps.lt, check, Nat.compare_eq_lt]; omega]
      exact ⟨_, rfl⟩

end Mock
end Sherman
