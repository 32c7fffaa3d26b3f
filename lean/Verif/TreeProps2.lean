import Verif.TreeProps
/-!
# Properties of insertion and lookup, continued: C03-C12, C17, C38
-/
namespace Sherman
variable {S : Type} {MAX : Nat} {E : Env Nat S}

/-! ## C03, C04: bookkeeping -/

/-- C03: `size()` is the sum of the sizes of the runs, and so is every recorded subtree size. -/
theorem size_eq_total (hE : E.ix = natIdx MAX) {t : RleTree Nat S} (ht : Reach MAX E t) :
    t.size E = total t.runs ∧ ∀ r, t.root = some r → SizesT r.tree := by
  obtain ⟨_, h1, _⟩ := ht.holds hE
  refine ⟨h1.size hE, ?_⟩
  intro r hr
  have := h1.2
  rw [hr] at this
  exact this.1.sizes

/-- C03: an insertion increases `size()` by the size inserted. -/
theorem insert_size (hE : E.ix = natIdx MAX) {t t' : RleTree Nat S} (ht : Reach MAX E t) {nop : Bool} {hints : List Nat}
    {idx : Nat} {s : S} {size : Nat} {w : World} {out : Inserted} (hs : size ≤ MAX)
    (h : t.insert E nop hints idx s size w = .ok (t', out)) : t'.size E = t.size E + size := by
  obtain ⟨⟨hM, hM'⟩, h1, h2⟩ := ht.holds hE
  obtain ⟨_, _, _, es', h3, h4, h5⟩ := insert_returned hE hM hM' h1 h2 hs h
  rw [h4.size hE, h1.size hE, h5]

/-- C04: `number_of_slices()` is the number of runs. -/
theorem numberOfSlices_eq (hE : E.ix = natIdx MAX) {t : RleTree Nat S} (ht : Reach MAX E t) :
    t.numberOfSlices = t.runs.length := (ht.holds hE).2.1.len

example : ∃ t, Reach 255 exEnv t ∧ t.size exEnv = 29 ∧ t.numberOfSlices = 11 := by
  obtain ⟨t, _, h2, h3⟩ := exReach
  refine ⟨t, h2, ?_, ?_⟩
  · rw [(size_eq_total (MAX := 255) rfl h2).1]
    have : total t.runs = ((t.runs.map (fun e => (e.size, e.slice))).map (·.1)).sum := by
      simp [total, Function.comp_def]
    rw [this, h3]; rfl
  · rw [numberOfSlices_eq (MAX := 255) rfl h2]
    have := congrArg List.length h3
    simpa using this

/-! ## C05, C06, C07, C17: lookup -/

theorem get_cursorTo_spec (hE : E.ix = natIdx MAX) {t : RleTree Nat S} (ht : Reach MAX E t) {idx : Nat}
    (h : idx < t.size E) :
    ∃ a e b path ptr k, t.runs = a ++ e :: b ∧ total a ≤ idx ∧ idx < total a + e.size ∧
      (∀ r, t.root = some r → (cells r.tree)[a.length]? = some ⟨path, ptr, k, e.slice, e.ref⟩) ∧
      (∀ hints, t.get E hints idx = .ok ⟨total a, total a + e.size, e.slice, ptr, k, e.ref⟩) ∧
      t.cursorTo E idx = .ok path := by
  obtain ⟨_, h1, h2⟩ := ht.holds hE
  have hsz := h1.size hE
  obtain ⟨root⟩ := t
  cases root with
  | none => simp only [RleTree.size, hE, natIdx] at h; omega
  | some r =>
    obtain ⟨hp, hr, _⟩ := h1
    rw [hsz] at h
    obtain ⟨a, e, b, path, ptr, k, g1, g2, g3, g4, g5, g6⟩ :=
      search_spec (MAX := MAX) (base := 0) hr hp h (by omega)
    refine ⟨a, e, b, path, ptr, k, g1, g2, g3, ?_, ?_, ?_⟩
    · intro r' hr'; cases hr'; exact g4
    · intro hints
      have := g5 (some hints)
      simp only [Nat.zero_add] at this
      have c1 : (!(natIdx MAX).lt idx (natIdx MAX).zero) = true := by
        simp [natIdx, IdxOps.lt, Nat.compare_eq_lt]
      have c2 : (natIdx MAX).lt idx (RleTree.size E ⟨some r⟩) = true := by
        rw [hsz]; simp [natIdx, IdxOps.lt, Nat.compare_eq_lt, h]
      simp only [RleTree.get, hE, c1, c2, check_true, Sherman.R.bind_ok, this]
    · have c1 : (!(natIdx MAX).lt idx (natIdx MAX).zero) = true := by
        simp [natIdx, IdxOps.lt, Nat.compare_eq_lt]
      have c2 : (natIdx MAX).lt idx (RleTree.size E ⟨some r⟩) = true := by
        rw [hsz]; simp [natIdx, IdxOps.lt, Nat.compare_eq_lt, h]
      simp only [RleTree.cursorTo, hE, c1, c2, check_true, Sherman.R.bind_ok, g6]

/-- C05: `get(idx)` returns the run covering `idx`, with its absolute range. -/
theorem get_covers (hE : E.ix = natIdx MAX) {t : RleTree Nat S} (ht : Reach MAX E t) (hints : List Nat) {idx : Nat}
    (h : idx < t.size E) :
    ∃ a e b ent, t.runs = a ++ e :: b ∧ t.get E hints idx = .ok ent ∧ ent.start = total a ∧
      ent.stop = total a + e.size ∧ ent.slice = e.slice ∧ ent.start ≤ idx ∧ idx < ent.stop := by
  obtain ⟨a, e, b, path, ptr, k, g1, g2, g3, _, g5, _⟩ := get_cursorTo_spec hE ht h
  exact ⟨a, e, b, _, g1, g5 hints, rfl, rfl, rfl, g2, g3⟩

/-- C06: `get` fails exactly out of bounds, and then with the documented panic. -/
theorem get_panics_iff (hE : E.ix = natIdx MAX) {t : RleTree Nat S} (ht : Reach MAX E t) (hints : List Nat) (idx : Nat) :
    (t.size E ≤ idx ↔ t.get E hints idx = .error (.panic "index out of bounds")) ∧
    (idx < t.size E ↔ ∃ ent, t.get E hints idx = .ok ent) := by
  have hout : t.size E ≤ idx → t.get E hints idx = .error (.panic "index out of bounds") := by
    intro h
    have c1 : (!(natIdx MAX).lt idx (natIdx MAX).zero) = true := by
      simp [natIdx, IdxOps.lt, Nat.compare_eq_lt]
    have c2 : (natIdx MAX).lt idx (RleTree.size E t) = false := by
      simp only [natIdx, IdxOps.lt]
      have : compare idx (t.size E) ≠ .lt := by rw [Ne, Nat.compare_eq_lt]; omega
      simp [this]
    simp only [RleTree.get, hE, c1, c2, check_true, Sherman.R.bind_ok]
    rfl
  by_cases h : idx < t.size E
  · obtain ⟨_, _, _, ent, _, h2, _⟩ := get_covers hE ht hints h
    refine ⟨⟨fun h' => absurd h (by omega), fun h' => by rw [h2] at h'; cases h'⟩, fun _ => ⟨ent, h2⟩, fun _ => h⟩
  · have := hout (by omega)
    exact ⟨⟨hout, fun _ => by omega⟩, fun h' => absurd h' h, fun ⟨e, h'⟩ => by rw [this] at h'; cases h'⟩

/-- C06: `cursor_to` fails exactly out of bounds, and then with the documented panic. -/
theorem cursorTo_panics_iff (hE : E.ix = natIdx MAX) {t : RleTree Nat S} (ht : Reach MAX E t) (idx : Nat) :
    (t.size E ≤ idx ↔ t.cursorTo E idx = .error (.panic "index out of bounds")) ∧
    (idx < t.size E ↔ ∃ p, t.cursorTo E idx = .ok p) := by
  have hout : t.size E ≤ idx → t.cursorTo E idx = .error (.panic "index out of bounds") := by
    intro h
    have c1 : (!(natIdx MAX).lt idx (natIdx MAX).zero) = true := by
      simp [natIdx, IdxOps.lt, Nat.compare_eq_lt]
    have c2 : (natIdx MAX).lt idx (RleTree.size E t) = false := by
      simp only [natIdx, IdxOps.lt]
      have : compare idx (t.size E) ≠ .lt := by rw [Ne, Nat.compare_eq_lt]; omega
      simp [this]
    simp only [RleTree.cursorTo, hE, c1, c2, check_true, Sherman.R.bind_ok]
    rfl
  by_cases h : idx < t.size E
  · obtain ⟨_, _, _, p, _, _, _, _, _, _, _, h2⟩ := get_cursorTo_spec hE ht h
    refine ⟨⟨fun h' => absurd h (by omega), fun h' => by rw [h2] at h'; cases h'⟩, fun _ => ⟨p, h2⟩, fun _ => h⟩
  · have := hout (by omega)
    exact ⟨⟨hout, fun _ => by omega⟩, fun h' => absurd h' h, fun ⟨e, h'⟩ => by rw [this] at h'; cases h'⟩

/-- C07: any two cursors give the same `get`, and the same `insert` in every respect: tree, returned path, store. -/
theorem hints_irrelevant (hE : E.ix = natIdx MAX) {t : RleTree Nat S} (ht : Reach MAX E t) (hints hints' : List Nat)
    (idx : Nat) : t.get E hints idx = t.get E hints' idx ∧
      ∀ nop s size w, t.insert E nop hints idx s size w = t.insert E nop hints' idx s size w := by
  obtain ⟨_, h1, _⟩ := ht.holds hE
  refine ⟨?_, fun nop s size w => insert_hints hE h1 nop hints hints' idx s size w⟩
  by_cases h : idx < t.size E
  · obtain ⟨_, _, _, p, _, _, _, _, _, _, h2, _⟩ := get_cursorTo_spec hE ht h
    rw [h2, h2]
  · rw [((get_panics_iff hE ht hints idx).1).1 (by omega), ((get_panics_iff hE ht hints' idx).1).1 (by omega)]

/-- C17: `cursor_to(idx)` is the path from the root to the node where the run covering `idx` is stored. -/
theorem cursorTo_path (hE : E.ix = natIdx MAX) {t : RleTree Nat S} (ht : Reach MAX E t) {idx : Nat} (h : idx < t.size E) :
    ∃ a e b r c, t.runs = a ++ e :: b ∧ total a ≤ idx ∧ idx < total a + e.size ∧ t.root = some r ∧
      (cells r.tree)[a.length]? = some c ∧ t.cursorTo E idx = .ok c.path := by
  obtain ⟨a, e, b, path, ptr, k, g1, g2, g3, g4, _, g6⟩ := get_cursorTo_spec hE ht h
  obtain ⟨root⟩ := t
  cases root with
  | none => simp only [RleTree.size, hE, natIdx] at h; omega
  | some r => exact ⟨a, e, b, r, _, g1, g2, g3, rfl, g4 r rfl, g6⟩

theorem exSize : ∃ t, Reach 255 exEnv t ∧ t.size exEnv = 29 ∧ t.runs.length = 11 := by
  obtain ⟨t, _, h2, h3⟩ := exReach
  refine ⟨t, h2, ?_, ?_⟩
  · rw [(size_eq_total (MAX := 255) rfl h2).1]
    have : total t.runs = ((t.runs.map (fun e => (e.size, e.slice))).map (·.1)).sum := by
      simp [total, Function.comp_def]
    rw [this, h3]; rfl
  · have := congrArg List.length h3
    simpa using this

/-- Instances: index 8 is in the example tree, index 29 is not. -/
example : ∃ t, Reach 255 exEnv t ∧
    (∃ ent, t.get exEnv [3, 200] 8 = .ok ent ∧ ent.start ≤ 8 ∧ 8 < ent.stop) ∧
    (∃ p, t.cursorTo exEnv 8 = .ok p) ∧
    t.get exEnv [] 29 = .error (.panic "index out of bounds") := by
  obtain ⟨t, h2, hsz, _⟩ := exSize
  obtain ⟨a, e, b, ent, g1, g2, g3, g4, g5, g6, g7⟩ := get_covers (MAX := 255) (E := exEnv) rfl h2 [3, 200] (idx := 8)
    (by omega)
  exact ⟨t, h2, ⟨ent, g2, g6, g7⟩, ((cursorTo_panics_iff (MAX := 255) (E := exEnv) rfl h2 8).2).1 (by omega),
    ((get_panics_iff (MAX := 255) (E := exEnv) rfl h2 [] 29).1).1 (by omega)⟩

/-! ## C08, C09: shape -/

/-- C08: in every tree that can be built each node other than the root has between `M` and `2*M` runs, the root between 1
and `2*M`, internal nodes one child more than runs, and all leaves are at the same depth (by the type of trees). -/
theorem shape (hE : E.ix = natIdx MAX) {t : RleTree Nat S} (ht : Reach MAX E t) {r : Root Nat S} (hr : t.root = some r) :
    ShapeT E.M 1 r.tree := by
  have := (ht.holds hE).2.1.2
  rw [hr] at this
  exact this.1.shape

/-- C09: the number of levels below the root is logarithmic in the number of runs. -/
theorem height_log (hE : E.ix = natIdx MAX) {t : RleTree Nat S} (ht : Reach MAX E t) {r : Root Nat S} (hr : t.root = some r) :
    2 * (E.M + 1) ^ r.h ≤ t.numberOfSlices + 1 := by
  have h1 := (ht.holds hE).2.1
  rw [h1.len]
  have := h1.2
  rw [hr] at this
  exact this.1.countRoot

/-- C09: in particular, `(M+1)^h ≤ n`, and the height of a tree with fewer than `2^k` runs is below `k`. -/
theorem height_bound (hE : E.ix = natIdx MAX) {t : RleTree Nat S} (ht : Reach MAX E t) {r : Root Nat S} (hr : t.root = some r) :
    (E.M + 1) ^ r.h ≤ t.numberOfSlices ∧ ∀ k, t.numberOfSlices < 2 ^ k → r.h < k := by
  have h0 := height_log hE ht hr
  have hM := (ht.holds hE).1.1
  have hpos : 0 < (E.M + 1) ^ r.h := Nat.pow_pos (by omega)
  have h1 : (E.M + 1) ^ r.h ≤ t.numberOfSlices := by omega
  refine ⟨h1, ?_⟩
  intro k hk
  have h2 : 2 ^ r.h ≤ (E.M + 1) ^ r.h := Nat.pow_le_pow_left (by omega) _
  have h3 : 2 ^ r.h < 2 ^ k := by omega
  exact (Nat.pow_lt_pow_iff_right (by omega)).1 h3

/-- The example tree has a root, with at most two levels below it. -/
example : ∃ t r, Reach 255 exEnv t ∧ t.root = some r ∧ r.h ≤ 2 ∧ ShapeT 1 1 r.tree := by
  obtain ⟨t, h2, hsz, hl⟩ := exSize
  cases hr : t.root with
  | none =>
    have : t.size exEnv = 0 := by simp [RleTree.size, hr, natIdx]
    omega
  | some r =>
    have h0 := height_log (MAX := 255) (E := exEnv) rfl h2 hr
    rw [numberOfSlices_eq (MAX := 255) rfl h2, hl] at h0
    refine ⟨t, r, h2, hr, ?_, shape (MAX := 255) (E := exEnv) rfl h2 hr⟩
    have h1 : (2 : Nat) ^ r.h ≤ 6 := by
      have : 2 * 2 ^ r.h ≤ 12 := h0
      omega
    have h3 : (2 : Nat) ^ r.h < 2 ^ 3 := by omega
    have := (Nat.pow_lt_pow_iff_right (a := 2) (by omega)).1 h3
    omega

/-! ## C10, C11, C38: when insertion fails -/

/-- The inserted slice lies between two runs and joins with both. -/
def JoinsBoth (sl : SliceOps Nat S) (es : List (Ent S)) (idx : Nat) (s : S) : Prop :=
  sl.mayJoin = true ∧ ∃ A l r B x y, es = A ++ l :: r :: B ∧ idx = total A + l.size ∧
    sl.tryJoin l.slice s = .inl x ∧ sl.tryJoin x r.slice = .inl y

/-- The list specification fails only in the unimplemented case. -/
theorem specInsert_error_iff {sl : SliceOps Nat S} {es : List (Ent S)} {idx : Nat} {s : S} {size : Nat} (hp : Pos es)
    (hidx : idx ≤ total es) :
    (JoinsBoth sl es idx s ↔ specInsert sl es idx s size = .error (.todo "handle_join_deletion")) ∧
    (¬ JoinsBoth sl es idx s ↔ ∃ es', specInsert sl es idx s size = .ok es') := by
  obtain ⟨L, R, o, h1, rfl, rfl, h4⟩ := cutAt_spec hidx
  have key : (JoinsBoth sl (L ++ R) (total L + o) s ∧
        specInsert sl (L ++ R) (total L + o) s size = .error (.todo "handle_join_deletion")) ∨
      (¬ JoinsBoth sl (L ++ R) (total L + o) s ∧ ∃ es', specInsert sl (L ++ R) (total L + o) s size = .ok es') := by
    have hj : ∀ {A B : List (Ent S)} {l r : Ent S}, L ++ R = A ++ l :: r :: B → total L + o = total A + l.size →
        o = 0 ∧ L = A ++ [l] ∧ R = r :: B := by
      intro A B l r e1 e2
      have h5 : L ++ R = (A ++ [l]) ++ r :: B := by simp [e1]
      have h6 := cutAt_edge (L := A ++ [l]) (R := r :: B) (by rw [← h5]; exact hp)
      rw [← h5] at h6
      have h7 : total (A ++ [l]) = total L + o := by simp [e2]
      rw [h7, h1] at h6
      cases h6
      exact ⟨rfl, rfl, rfl⟩
    simp only [specInsert, h1]
    cases o with
    | succ o =>
      rcases h4 with ⟨_, h4⟩ | ⟨e, R, rfl, h4⟩
      · cases h4
      · refine .inr ⟨?_, _, rfl⟩
        rintro ⟨_, A, l, r, B, x, y, e1, e2, _, _⟩
        exact absurd (hj e1 e2).1 (by omega)
    | zero =>
      simp only
      by_cases hm : sl.mayJoin = true
      case neg =>
        have hm' : sl.mayJoin = false := by simpa using hm
        refine .inr ⟨fun h => hm h.1, ?_⟩
        simp [specEdge, hm']
      case pos =>
        rcases List.eq_nil_or_concat L with rfl | ⟨L, l, rfl⟩
        · refine .inr ⟨?_, ?_⟩
          · rintro ⟨_, A, l, r, B, x, y, e1, e2, _, _⟩
            have := (hj e1 e2).2.1
            simp at this
          · unfold specEdge
            rw [if_neg (by simp [hm])]
            cases R with
            | nil => exact ⟨_, rfl⟩
            | cons r R =>
              simp only [List.getLast?_nil]
              split <;> exact ⟨_, rfl⟩
        · rw [List.concat_eq_append] at *
          cases R with
          | nil =>
            refine .inr ⟨?_, ?_⟩
            · rintro ⟨_, A, l, r, B, x, y, e1, e2, _, _⟩
              have := (hj e1 e2).2.2
              cases this
            · unfold specEdge
              rw [if_neg (by simp [hm])]
              simp only [List.getLast?_concat]
              split <;> exact ⟨_, rfl⟩
          | cons r R =>
            cases hx : sl.tryJoin l.slice s with
            | inl x =>
              cases hy : sl.tryJoin x r.slice with
              | inl y =>
                left
                refine ⟨⟨hm, L, l, r, R, x, y, by simp, by simp, hx, hy⟩, ?_⟩
                simp [specEdge, hm, hx, hy]
              | inr ab =>
                right
                refine ⟨?_, ?_⟩
                · rintro ⟨_, A, l', r', B, x', y', e1, e2, e3, e4⟩
                  obtain ⟨_, e5, e6⟩ := hj e1 e2
                  obtain ⟨e7, e8⟩ := List.append_inj' e5 rfl
                  cases e7; cases e8; cases e6
                  rw [hx] at e3; cases e3
                  rw [hy] at e4; cases e4
                · simp [specEdge, hm, hx, hy]
            | inr ab =>
              right
              refine ⟨?_, ?_⟩
              · rintro ⟨_, A, l', r', B, x', y', e1, e2, e3, e4⟩
                obtain ⟨_, e5, e6⟩ := hj e1 e2
                obtain ⟨e7, e8⟩ := List.append_inj' e5 rfl
                cases e7; cases e8
                rw [hx] at e3; cases e3
              · obtain ⟨a, b⟩ := ab
                unfold specEdge
                rw [if_neg (by simp [hm])]
                simp only [List.getLast?_concat, hx]
                split <;> exact ⟨_, rfl⟩
  rcases key with ⟨k1, k2⟩ | ⟨k1, k2⟩
  · exact ⟨⟨fun _ => k2, fun _ => k1⟩, fun h => absurd k1 h, fun ⟨_, h⟩ => by rw [k2] at h; cases h⟩
  · refine ⟨⟨fun h => absurd h k1, fun h => ?_⟩, fun _ => k2, fun _ => k1⟩
    obtain ⟨_, k2⟩ := k2
    rw [k2] at h; cases h

/-- C10: out of bounds indices and sizes that are not positive give the documented panics, in every tree. -/
theorem insert_panics (hE : E.ix = natIdx MAX) (t : RleTree Nat S) (nop : Bool) (hints : List Nat) (idx : Nat) (s : S)
    (size : Nat) (w : World) :
    (t.size E < idx → t.insert E nop hints idx s size w = .error (.panic "cannot insert new slice, index out of bounds")) ∧
    (idx ≤ t.size E → size = 0 →
      t.insert E nop hints idx s size w = .error (.panic "cannot insert new slice, size is not greater than zero")) := by
  constructor
  · intro h
    have : (!E.ix.lt (t.size E) idx) = false := by
      rw [hE]; simp [natIdx, IdxOps.lt, Nat.compare_eq_lt]; omega
    simp only [RleTree.insert, this]
    rfl
  · intro h hz
    subst hz
    have h1 : (!E.ix.lt (t.size E) idx) = true := by
      rw [hE]; simp [natIdx, IdxOps.lt, Nat.compare_eq_lt]; omega
    have h2 : (!E.ix.le 0 E.ix.zero) = false := by
      rw [hE]; simp [natIdx, IdxOps.le]
    simp only [RleTree.insert, h1, h2]
    rfl

/-- C10: `insert` fails if and only if the index is out of bounds, the size is zero, the new
total does not fit the index type, or the slice joins with both neighbours at an edge. -/
theorem insert_fails_iff (hE : E.ix = natIdx MAX) {t : RleTree Nat S} (ht : Reach MAX E t)
    (nop : Bool) (hints : List Nat) (idx : Nat) (s : S) {size : Nat} (hsz : size ≤ MAX) (w : World) :
    (∃ f, t.insert E nop hints idx s size w = .error f) ↔
      t.size E < idx ∨ size = 0 ∨ MAX < t.size E + size ∨ JoinsBoth E.sl t.runs idx s := by
  obtain ⟨⟨hM, hM'⟩, h1, h2⟩ := ht.holds hE
  have hs := h1.size hE
  rw [hs]
  constructor
  · rintro ⟨f, hf⟩
    by_cases c1 : total t.runs < idx
    · exact .inl c1
    by_cases c2 : size = 0
    · exact .inr (.inl c2)
    by_cases c3 : MAX < total t.runs + size
    · exact .inr (.inr (.inl c3))
    refine .inr (.inr (.inr ?_))
    cases Classical.em (JoinsBoth E.sl t.runs idx s) with
    | inl h => exact h
    | inr h =>
      obtain ⟨es', h3⟩ := ((specInsert_error_iff (size := size) h1.1 (by omega : idx ≤ total t.runs)).2).1 h
      obtain ⟨t', out, h4, _⟩ := insert_returns hE ht nop hints s w (by omega) (by omega) (by omega) h3
      rw [hf] at h4; cases h4
  · intro h
    cases hr : t.insert E nop hints idx s size w with
    | error f => exact ⟨f, rfl⟩
    | ok r =>
      exfalso
      obtain ⟨t', out⟩ := r
      obtain ⟨g1, g2, g3, es', g4, _⟩ := insert_returned hE hM hM' h1 h2 hsz hr
      rcases h with h | h | h | h
      · omega
      · omega
      · omega
      · rw [((specInsert_error_iff (size := size) h1.1 g1).1).1 h] at g4; cases g4

/-- C10, with slice references or without: an insertion that returns met the documented conditions. -/
theorem insert_ok_conditions (hE : E.ix = natIdx MAX) {t : RleTree Nat S} (ht : Reach MAX E t)
    {nop : Bool} {hints : List Nat} {idx : Nat} {s : S} {size : Nat} (hsz : size ≤ MAX) {w : World}
    {r : RleTree Nat S × Inserted} (h : t.insert E nop hints idx s size w = .ok r) :
    idx ≤ t.size E ∧ 0 < size ∧ t.size E + size ≤ MAX ∧ ¬ JoinsBoth E.sl t.runs idx s := by
  obtain ⟨⟨hM, hM'⟩, h1, h2⟩ := ht.holds hE
  obtain ⟨t', out⟩ := r
  obtain ⟨g1, g2, g3, es', g4, _⟩ := insert_returned hE hM hM' h1 h2 hsz h
  rw [h1.size hE]
  exact ⟨g1, g2, g3, ((specInsert_error_iff (size := size) h1.1 g1).2).2 ⟨es', g4⟩⟩

/-- C38: if the new total fits the index type then no arithmetic of an insertion over- or underflows; the only failure left
in bounds is the unimplemented double join. -/
theorem insert_no_overflow (hE : E.ix = natIdx MAX) {t : RleTree Nat S} (ht : Reach MAX E t)
    (nop : Bool) (hints : List Nat) {idx : Nat} (s : S) {size : Nat} (w : World) (hidx : idx ≤ t.size E) (hs : 0 < size)
    (hb : t.size E + size ≤ MAX) {f : Fault} (h : t.insert E nop hints idx s size w = .error f) :
    f = .todo "handle_join_deletion" := by
  obtain ⟨⟨hM, hM'⟩, h1, h2⟩ := ht.holds hE
  rw [h1.size hE] at hidx hb
  have h3 := insert_refines hE hM hM' h1 hidx (nop := nop) (hints := hints) (s := s) hs (w := w) hb
  have h4 := specInsert_error_iff (sl := E.sl) (s := s) (size := size) h1.1 hidx
  cases Classical.em (JoinsBoth E.sl t.runs idx s) with
  | inl hj =>
    rw [(h4.1).1 hj] at h3
    simp only at h3
    rw [h] at h3
    cases h3; rfl
  | inr hj =>
    obtain ⟨es', h5⟩ := (h4.2).1 hj
    rw [h5] at h3
    obtain ⟨t', out, h3, _⟩ := h3
    rw [h] at h3; cases h3

/-- How an insertion into a well-formed tree fails. -/
theorem insert_faults (hE : E.ix = natIdx MAX) (hM : 1 ≤ E.M) (hM' : E.M ≤ 127) {t : RleTree Nat S} {es : List (Ent S)} (h1 : Holds E t es)
    (h2 : total es ≤ MAX) {nop : Bool} {hints : List Nat} {idx : Nat} {s : S} {size : Nat} (hsz : size ≤ MAX) {w : World} {f : Fault}
    (h : t.insert E nop hints idx s size w = .error f) :
    (t.size E < idx ∧ f = .panic "cannot insert new slice, index out of bounds") ∨
    (idx ≤ t.size E ∧ size = 0 ∧ f = .panic "cannot insert new slice, size is not greater than zero") ∨
    (idx ≤ t.size E ∧ 0 < size ∧ MAX < t.size E + size ∧ f = .overflow) ∨
    (idx ≤ t.size E ∧ 0 < size ∧ JoinsBoth E.sl es idx s ∧ f = .todo "handle_join_deletion") := by
  have hp := insert_panics hE t nop hints idx s size w
  by_cases c1 : t.size E < idx
  · have := hp.1 c1
    rw [h] at this; cases this
    exact .inl ⟨c1, rfl⟩
  have c1 : idx ≤ t.size E := by omega
  by_cases c2 : size = 0
  · have := hp.2 c1 c2
    rw [h] at this; cases this
    exact .inr (.inl ⟨c1, c2, rfl⟩)
  have c2 : 0 < size := by omega
  have hs := h1.size hE
  have c1' : idx ≤ total es := by omega
  have h4 := specInsert_error_iff (sl := E.sl) (s := s) (size := size) h1.1 c1'
  have hj : ∀ g, specInsert E.sl es idx s size = .error g → JoinsBoth E.sl es idx s ∧ g = .todo "handle_join_deletion" := by
    intro g hg
    cases Classical.em (JoinsBoth E.sl es idx s) with
    | inl hj =>
      have := h4.1.1 hj
      rw [hg] at this; cases this
      exact ⟨hj, rfl⟩
    | inr hj =>
      obtain ⟨es', h5⟩ := h4.2.1 hj
      rw [hg] at h5; cases h5
  by_cases c3 : MAX < t.size E + size
  · rcases insert_overflows hE hM hM' h1 h2 c1' c2 hsz (by omega) (nop := nop) (hints := hints) (s := s) (w := w) with h5 | ⟨g, h5, h6⟩
    · rw [h] at h5; cases h5
      exact .inr (.inr (.inl ⟨c1, c2, c3, rfl⟩))
    · rw [h] at h6; cases h6
      obtain ⟨k1, k2⟩ := hj _ h5
      exact .inr (.inr (.inr ⟨c1, c2, k1, k2⟩))
  · have h3 := insert_refines hE hM hM' h1 c1' (nop := nop) (hints := hints) (s := s) c2 (w := w) (by omega)
    cases h5 : specInsert E.sl es idx s size with
    | error g =>
      rw [h5] at h3
      simp only at h3
      rw [h] at h3; cases h3
      obtain ⟨k1, k2⟩ := hj _ h5
      exact .inr (.inr (.inr ⟨c1, c2, k1, k2⟩))
    | ok es' =>
      rw [h5] at h3
      obtain ⟨t', out, h3, _⟩ := h3
      rw [h] at h3; cases h3

/-- C10, C38: how an insertion fails.  Besides the two documented panics there are only the overflow of the index type, when the new total
does not fit it, and the unimplemented double join; no other panic, no underflow, no violated precondition of unsafe code. -/
theorem insert_fault_cases (hE : E.ix = natIdx MAX) {t : RleTree Nat S} (ht : Reach MAX E t)
    {nop : Bool} {hints : List Nat} {idx : Nat} {s : S} {size : Nat} (hsz : size ≤ MAX) {w : World} {f : Fault}
    (h : t.insert E nop hints idx s size w = .error f) :
    (t.size E < idx ∧ f = .panic "cannot insert new slice, index out of bounds") ∨
    (idx ≤ t.size E ∧ size = 0 ∧ f = .panic "cannot insert new slice, size is not greater than zero") ∨
    (idx ≤ t.size E ∧ 0 < size ∧ MAX < t.size E + size ∧ f = .overflow) ∨
    (idx ≤ t.size E ∧ 0 < size ∧ JoinsBoth E.sl t.runs idx s ∧ f = .todo "handle_join_deletion") := by
  obtain ⟨⟨hM, hM'⟩, h1, h2⟩ := ht.holds hE
  exact insert_faults hE hM hM' h1 h2 hsz h

/-- The third case does occur: the ninth insertion into the tree of `exReach`, of a size beyond what `u8` has left. -/
example : ∃ t, Reach 255 exEnv t ∧ t.insert exEnv false [] 5 'z' 240 exWorld = .error .overflow := by
  obtain ⟨t, _, h2, h3⟩ := exReach
  have ht : total t.runs = 29 := by
    rw [total, show t.runs.map Ent.size = (t.runs.map (fun e => (e.size, e.slice))).map Prod.fst by simp [List.map_map, Function.comp_def], h3]
    rfl
  refine ⟨t, h2, ?_⟩
  have hn : ∀ r, t.insert exEnv false [] 5 'z' 240 exWorld ≠ .ok r := by
    rintro r h
    have := (insert_ok_conditions (E := exEnv) (MAX := 255) rfl h2 (by decide) h).2.2.1
    rw [(size_eq_total (E := exEnv) (MAX := 255) rfl h2).1] at this; omega
  cases h : t.insert exEnv false [] 5 'z' 240 exWorld with
  | ok r => exact absurd h (hn r)
  | error f =>
    have hs := (size_eq_total (E := exEnv) (MAX := 255) rfl h2).1
    rcases insert_fault_cases (E := exEnv) (MAX := 255) rfl h2 (by decide) h with k | k | k | k
    · omega
    · omega
    · rw [k.2.2.2]
    · exfalso
      obtain ⟨_, _, ⟨_, A, l, r, B, x, y, e1, e2, e3, _⟩, _⟩ := k
      have hl : ('z' : Char) ∉ t.runs.map Ent.slice := by
        rw [show t.runs.map Ent.slice = (t.runs.map (fun e => (e.size, e.slice))).map Prod.snd by simp [List.map_map, Function.comp_def], h3]
        decide
      apply hl
      have : l.slice = 'z' := by
        simp only [exEnv, constSl] at e3
        split at e3
        · rename_i hh; simpa using hh
        · cases e3
      rw [e1, ← this]; simp

/-- C11: joining with both neighbours at an edge ends in the unimplemented branch, whenever the sizes fit. -/
theorem insert_joinsBoth (hE : E.ix = natIdx MAX) {t : RleTree Nat S} (ht : Reach MAX E t)
    (nop : Bool) (hints : List Nat) {idx : Nat} {s : S} {size : Nat} (w : World) (hs : 0 < size)
    (hb : t.size E + size ≤ MAX) (hj : JoinsBoth E.sl t.runs idx s) :
    t.insert E nop hints idx s size w = .error (.todo "handle_join_deletion") := by
  obtain ⟨⟨hM, hM'⟩, h1, h2⟩ := ht.holds hE
  have hidx : idx ≤ total t.runs := by
    obtain ⟨_, A, l, r, B, x, y, e1, e2, _, _⟩ := hj
    rw [e1]; simp; omega
  have h3 := insert_refines hE hM hM' h1 hidx (nop := nop) (hints := hints) (s := s) hs (w := w)
    (by rw [h1.size hE] at hb; exact hb)
  rw [((specInsert_error_iff (sl := E.sl) (s := s) (size := size) h1.1 hidx).1).1 hj] at h3
  exact h3

/-- A lawful slice type for which that happens: pieces `start..stop` of a buffer, joined when contiguous. -/
def pieceSl : SliceOps Nat (Nat × Nat) where
  mayJoin := true
  splitAt s o := ((s.1, s.1 + o), (s.1 + o, s.2))
  tryJoin a b := if a.2 = b.1 then .inl (a.1, b.2) else .inr (a, b)

theorem pieceSl_denotes :
    Denotes pieceSl Nat (fun n s => s.1 + n = s.2) (fun n s => (List.range n).map (s.1 + ·)) where
  len := by simp
  split := by
    intro n o s hv h0 h1
    refine ⟨rfl, by simp only [pieceSl]; omega, ?_⟩
    simp only [pieceSl]
    have : n = o + (n - o) := by omega
    conv => rhs; rw [this, List.range_add]
    simp [Function.comp_def, Nat.add_assoc]
  join := by
    intro n m a b c ha hb h
    simp only [pieceSl] at h
    split at h
    · rename_i hab
      cases h
      refine ⟨by simp only; omega, ?_⟩
      rw [List.range_add]
      have : b.1 = a.1 + n := by omega
      simp [Function.comp_def, this, Nat.add_assoc]
    · cases h
  noJoin := by
    intro n m a b a' b' ha hb h
    simp only [pieceSl] at h
    split at h
    · cases h
    · cases h; exact ⟨ha, hb, rfl, rfl⟩

abbrev pieceEnv : Env Nat (Nat × Nat) := ⟨natIdx 255, pieceSl, 3, false⟩

/-- C11: the documented behaviour (the slice joins both neighbours into one run) is not what happens: pieces `0..3` and
`6..9` are in the tree, inserting `3..6` between them panics although everything is in bounds. -/
theorem doubleJoin_counterexample : ∃ t, Reach 255 pieceEnv t ∧ t.runs = [⟨3, (0, 3), none⟩, ⟨3, (6, 9), none⟩] ∧
    ∀ nop hints w, t.insert pieceEnv nop hints 3 (3, 6) 3 w = .error (.todo "handle_join_deletion") := by
  obtain ⟨t, _, h2, h3⟩ := insertAll_returns (E := pieceEnv) (MAX := 255) rfl (.empty (t := ⟨none⟩) rfl)
    (ops := [⟨0, (0, 3), 3, false, [], exWorld⟩, ⟨3, (6, 9), 3, false, [], exWorld⟩])
    (by decide) (es' := [⟨3, (0, 3), none⟩, ⟨3, (6, 9), none⟩]) (by decide)
  refine ⟨t, h3, h2, fun nop hints w => ?_⟩
  refine insert_joinsBoth (E := pieceEnv) (MAX := 255) rfl h3 nop hints w (by omega) ?_ ?_
  · rw [(size_eq_total (MAX := 255) rfl h3).1, h2]; decide
  · rw [h2]
    exact ⟨rfl, [], ⟨3, (0, 3), none⟩, ⟨3, (6, 9), none⟩, [], (0, 6), (0, 9), rfl, rfl, rfl, rfl⟩

/-- C11, the part that holds: between two runs that are the last and first of the tree's parts, everything but the double join
is handled; in particular a slice strictly inside a run may join with both halves. -/
theorem insert_inside_partial (hE : E.ix = natIdx MAX) {t : RleTree Nat S} (ht : Reach MAX E t)
    (nop : Bool) (hints : List Nat) (s : S) {size : Nat} (w : World) (hs : 0 < size) (hb : t.size E + size ≤ MAX)
    {A B : List (Ent S)} {e : Ent S} {o : Nat} {x y : S} (hr : t.runs = A ++ e :: B) (h0 : 0 < o) (h1 : o < e.size)
    (hm : E.sl.mayJoin = true) (hx : E.sl.tryJoin (E.sl.splitAt e.slice o).1 s = .inl x)
    (hy : E.sl.tryJoin x (E.sl.splitAt e.slice o).2 = .inl y) :
    ∃ t' out, t.insert E nop hints (total A + o) s size w = .ok (t', out) ∧
      t'.runs = A ++ ⟨e.size + size, y, e.ref⟩ :: B := by
  obtain ⟨_, g1, g2⟩ := ht.holds hE
  have hspec : specInsert E.sl t.runs (total A + o) s size = .ok (A ++ ⟨e.size + size, y, e.ref⟩ :: B) := by
    rw [hr]
    obtain ⟨o, rfl⟩ : ∃ k, o = k + 1 := ⟨o - 1, by omega⟩
    simp only [specInsert, cutAt_inside h1, specSplit, hm, hx, hy]
    have : o + 1 + size + (e.size - (o + 1)) = e.size + size := by omega
    simp [this]
  obtain ⟨t', out, h3, h4, _⟩ := insert_returns hE ht nop hints s w (by rw [hr]; simp; omega) hs
    (by rw [← g1.size hE]; exact hb) hspec
  exact ⟨t', out, h3, h4⟩

end Sherman
