import Verif.ConstRle
/-!
# Insertions at different places

An insertion leaves all runs alone that do not touch its position; and two insertions give the same elements in either order.
-/
namespace Sherman
variable {S T : Type} {MAX : Nat} {E : Env Nat S}

/-! ## What an insertion leaves alone -/

/-- How two lists of runs differ: some neighbouring runs, all of which touch position `idx`, have been replaced. -/
structure Around (idx size : Nat) (es es' A mid mid' B : List (Ent S)) : Prop where
  old : es = A ++ mid ++ B
  new : es' = A ++ mid' ++ B
  few : mid.length ≤ 2
  more : mid.length ≤ mid'.length
  bound : mid'.length ≤ mid.length + 2
  from_ : total A ≤ idx
  to_ : idx ≤ total A + total mid
  touch : ∀ a e b, mid = a ++ e :: b → total A + total a ≤ idx ∧ idx ≤ total A + total a + e.size
  sum : total mid' = total mid + size

theorem specEdge_around {sl : SliceOps Nat S} {L R es' : List (Ent S)} {s : S} {size : Nat} (h : specEdge sl L R s size = .ok es') :
    ∃ A mid mid' B, Around (total L) size (L ++ R) es' A mid mid' B := by
  unfold specEdge at h
  have none_ : ∀ x : Ent S, x.size = size → Around (total L) size (L ++ R) (L ++ x :: R) L [] [x] R := fun x hx =>
    ⟨by simp, by simp, by simp, by simp, by simp, Nat.le_refl _, by simp, fun a e b h => by simp at h, by simp [hx]⟩
  split at h
  · cases h; exact ⟨_, _, _, _, none_ _ rfl⟩
  rcases List.eq_nil_or_concat L with rfl | ⟨L, l, rfl⟩
  · cases R with
    | nil => cases h; exact ⟨_, _, _, _, none_ _ rfl⟩
    | cons r R =>
      have key : ∀ mid' : List (Ent S), 1 ≤ mid'.length → mid'.length ≤ 3 → total mid' = r.size + size →
          Around (total ([] : List (Ent S))) size ([] ++ r :: R) (mid' ++ R) [] [r] mid' R := fun mid' h1 h2 h3 =>
        ⟨by simp, by simp, by simp, by simpa using h1, by simpa using h2, by simp, by simp, fun a e b h => by
          cases a with
          | nil => simp at h ⊢
          | cons x a => simp at h, by simpa using h3⟩
      simp only [List.getLast?_nil] at h
      split at h
      · cases h; exact ⟨_, _, _, _, key [_] (by simp) (by simp) (by simp; omega)⟩
      · cases h; exact ⟨_, _, _, _, key [_, _] (by simp) (by simp) (by simp; omega)⟩
  · rw [List.concat_eq_append] at h ⊢
    simp only [List.getLast?_append, List.getLast?_singleton, Option.some_or, List.dropLast_concat] at h
    cases R with
    | nil =>
      have key : ∀ mid' : List (Ent S), 1 ≤ mid'.length → mid'.length ≤ 3 → total mid' = l.size + size →
          Around (total (L ++ [l])) size (L ++ [l] ++ []) (L ++ mid') L [l] mid' [] := fun mid' h1 h2 h3 =>
        ⟨by simp, by simp, by simp, by simpa using h1, by simpa using h2, by simp, by simp, fun a e b h => by
          cases a with
          | nil => simp at h; simp [h]
          | cons x a => simp at h, by simpa using h3⟩
      simp only at h
      split at h
      · cases h; exact ⟨_, _, _, _, key [_] (by simp) (by simp) (by simp)⟩
      · cases h; exact ⟨_, _, _, _, key [_, _] (by simp) (by simp) (by simp)⟩
    | cons r R =>
      have key : ∀ mid' : List (Ent S), 2 ≤ mid'.length → mid'.length ≤ 4 → total mid' = l.size + r.size + size →
          Around (total (L ++ [l])) size (L ++ [l] ++ r :: R) (L ++ mid' ++ R) L [l, r] mid' R := fun mid' h1 h2 h3 =>
        ⟨by simp, by simp, by simp, by simpa using h1, by simpa using h2, by simp, by simp, fun a e b h => by
          cases a with
          | nil => simp at h; simp [h.1]
          | cons x a =>
            cases a with
            | nil => simp at h; simp [h.1]
            | cons y a => simp at h, by simp; omega⟩
      simp only at h
      split at h
      · split at h
        · cases h
        · cases h; exact ⟨_, _, _, _, by simpa using key [_, _] (by simp) (by simp) (by simp; omega)⟩
      · split at h
        · cases h; exact ⟨_, _, _, _, by simpa using key [_, _] (by simp) (by simp) (by simp; omega)⟩
        · cases h; exact ⟨_, _, _, _, by simpa using key [_, _, _] (by simp) (by simp) (by simp; omega)⟩

theorem specSplit_shape (sl : SliceOps Nat S) (e : Ent S) {o : Nat} (ho : o < e.size) (s : S) (size : Nat) :
    1 ≤ (specSplit sl e o s size).length ∧ (specSplit sl e o s size).length ≤ 3 ∧ total (specSplit sl e o s size) = e.size + size := by
  simp only [specSplit]
  split
  · refine ⟨by simp, by simp, by simp; omega⟩
  · split
    · split <;> refine ⟨by simp, by simp, by simp; omega⟩
    · split <;> refine ⟨by simp, by simp, by simp; omega⟩

theorem specInsert_around {sl : SliceOps Nat S} {es es' : List (Ent S)} {idx : Nat} {s : S} {size : Nat} (hidx : idx ≤ total es)
    (h : specInsert sl es idx s size = .ok es') : ∃ A mid mid' B, Around idx size es es' A mid mid' B := by
  obtain ⟨L, R, o, h1, rfl, rfl, h4⟩ := cutAt_spec hidx
  simp only [specInsert, h1] at h
  cases o with
  | zero => exact specEdge_around h
  | succ o =>
    rcases h4 with ⟨_, h4⟩ | ⟨e, R, rfl, h4⟩
    · cases h4
    · simp only at h
      cases h
      obtain ⟨g1, g2, g3⟩ := specSplit_shape sl e h4 s size
      refine ⟨L, [e], specSplit sl e (o + 1) s size, R, by simp, by simp, by simp, by simpa using g1, by simpa using g2, by omega,
        by simp; omega, fun a x b h => ?_, by simpa using g3⟩
      cases a with
      | nil => simp at h; simp [← h.1]; omega
      | cons y a => simp at h

/-- C63: an insertion replaces at most two runs, which touch its position; `number_of_slices` does not decrease and grows by at most two. -/
theorem insert_around (hE : E.ix = natIdx MAX) {t t' : RleTree Nat S} (ht : Reach MAX E t) {nop : Bool} {hints : List Nat} {idx : Nat} {s : S}
    {size : Nat} {w : World} {out : Inserted} (hsz : size ≤ MAX) (h : t.insert E nop hints idx s size w = .ok (t', out)) :
    (∃ A mid mid' B, Around idx size t.runs t'.runs A mid mid' B) ∧
      t.numberOfSlices ≤ t'.numberOfSlices ∧ t'.numberOfSlices ≤ t.numberOfSlices + 2 := by
  obtain ⟨⟨hM, hM'⟩, h1, h2⟩ := ht.holds hE
  obtain ⟨hidx, _⟩ := insert_returned hE hM hM' h1 h2 hsz h
  obtain ⟨A, mid, mid', B, k⟩ := specInsert_around hidx (insert_runs hE ht hsz h)
  refine ⟨⟨A, mid, mid', B, k⟩, ?_⟩
  rw [numberOfSlices_eq hE ht, numberOfSlices_eq hE (ht.insert hsz h), k.old, k.new]
  have := k.more
  have := k.bound
  simp only [List.length_append]
  omega

/-- The run at a position is unique. -/
theorem run_at_unique {a a' b b' : List (Ent S)} {e e' : Ent S} {p : Nat} (h : a ++ e :: b = a' ++ e' :: b') (h1 : total a ≤ p) (h2 : p < total a + e.size)
    (h3 : total a' ≤ p) (h4 : p < total a' + e'.size) : a = a' ∧ e = e' := by
  have g1 := cutAt_inside (L := a) (R := b) (e := e) (o := p - total a) (by omega)
  have g2 := cutAt_inside (L := a') (R := b') (e := e') (o := p - total a') (by omega)
  rw [show total a + (p - total a) = p by omega] at g1
  rw [show total a' + (p - total a') = p by omega, ← h, g1] at g2
  simp only [Prod.mk.injEq, List.cons.injEq] at g2
  exact ⟨g2.1, g2.2.1.1⟩

/-- C63: runs that end before the position of an insertion are found by `get` as before, with any cursors. -/
theorem insert_leaves_before (hE : E.ix = natIdx MAX) {t t' : RleTree Nat S} (ht : Reach MAX E t) {nop : Bool} {hints : List Nat} {idx : Nat}
    {s : S} {size : Nat} {w : World} {out : Inserted} (hsz : size ≤ MAX) (h : t.insert E nop hints idx s size w = .ok (t', out))
    {c c' : List Nat} {p : Nat} {x : Entry Nat S} (hg : t.get E c p = .ok x) (hx : x.stop < idx) :
    ∃ x', t'.get E c' p = .ok x' ∧ x'.start = x.start ∧ x'.stop = x.stop ∧ x'.slice = x.slice := by
  have ht' := ht.insert hsz h
  obtain ⟨⟨A, mid, mid', B, k⟩, -⟩ := insert_around hE ht hsz h
  have hp : p < t.size E := by
    exact (get_panics_iff hE ht c p).2.2 ⟨x, hg⟩
  have hs' := insert_size hE ht hsz h
  obtain ⟨a, e, b, y, g1, g2, g3, g4, g5, g6, g7⟩ := get_covers hE ht c hp
  rw [hg] at g2; cases g2
  obtain ⟨a', e', b', x', i1, i2, i3, i4, i5, i6, i7⟩ := get_covers hE ht' c' (idx := p) (by omega)
  have e1 : ∃ b1, A = a ++ e :: b1 := by
    have := g1.symm.trans k.old
    rw [List.append_assoc, List.append_eq_append_iff] at this
    rcases this with ⟨d, d1, d2⟩ | ⟨d, d1, d2⟩
    · cases d with
      | nil =>
        exfalso
        have := k.to_
        simp at d1 d2
        subst d1
        cases mid with
        | nil => simp at this; omega
        | cons m mid =>
          simp at d2
          have := k.touch [] m mid rfl
          simp [← d2.1] at this
          omega
      | cons z d =>
        simp at d2
        exact ⟨d, by rw [d1, d2.1]⟩
    · exfalso
      have hta : total a = total A + total d := by rw [d1, total_append]
      rw [List.append_eq_append_iff] at d2
      rcases d2 with ⟨d', q1, q2⟩ | ⟨d', q1, q2⟩
      · have := k.to_
        have : total d = total mid + total d' := by rw [q1, total_append]
        omega
      · cases d' with
        | nil =>
          have := k.to_
          simp at q1
          subst q1
          omega
        | cons z d' =>
          simp at q2
          have := k.touch d z d' q1
          rw [← q2.1] at this
          omega
  obtain ⟨b1, rfl⟩ := e1
  have := k.new
  rw [i1] at this
  obtain ⟨u1, u2⟩ := run_at_unique (p := p) (b := b') (b' := b1 ++ mid' ++ B) (by rw [this]; simp) (by omega) (by omega) (by omega) (show p < total a + e.size by omega)
  refine ⟨x', i2, ?_, ?_, ?_⟩
  · rw [i3, g3, u1]
  · rw [i4, g4, u1, u2]
  · rw [i5, g5, u2]

/-- C63: runs that start after the position of an insertion are found by `get` as before, moved by the size of the insertion. -/
theorem insert_leaves_after (hE : E.ix = natIdx MAX) {t t' : RleTree Nat S} (ht : Reach MAX E t) {nop : Bool} {hints : List Nat} {idx : Nat}
    {s : S} {size : Nat} {w : World} {out : Inserted} (hsz : size ≤ MAX) (h : t.insert E nop hints idx s size w = .ok (t', out))
    {c c' : List Nat} {p : Nat} {x : Entry Nat S} (hg : t.get E c p = .ok x) (hx : idx < x.start) :
    ∃ x', t'.get E c' (p + size) = .ok x' ∧ x'.start = x.start + size ∧ x'.stop = x.stop + size ∧ x'.slice = x.slice := by
  have ht' := ht.insert hsz h
  obtain ⟨⟨A, mid, mid', B, k⟩, -⟩ := insert_around hE ht hsz h
  have hp : p < t.size E := by
    exact (get_panics_iff hE ht c p).2.2 ⟨x, hg⟩
  have hs' := insert_size hE ht hsz h
  obtain ⟨a, e, b, y, g1, g2, g3, g4, g5, g6, g7⟩ := get_covers hE ht c hp
  rw [hg] at g2; cases g2
  obtain ⟨a', e', b', x', i1, i2, i3, i4, i5, i6, i7⟩ := get_covers hE ht' c' (idx := p + size) (by omega)
  have e1 : ∃ d, a = A ++ mid ++ d ∧ B = d ++ e :: b := by
    have hk := g1.symm.trans k.old
    rw [List.append_eq_append_iff] at hk
    rcases hk with ⟨d, d1, d2⟩ | ⟨d, d1, d2⟩
    · cases d with
      | nil => exact ⟨[], by simpa using d1.symm, by simpa using d2.symm⟩
      | cons z d =>
        exfalso
        simp at d2
        obtain ⟨rfl, -⟩ := d2
        rw [List.append_eq_append_iff] at d1
        rcases d1 with ⟨q, q1, q2⟩ | ⟨q, q1, q2⟩
        · have := k.touch q e d q2
          have : total a = total A + total q := by rw [q1, total_append]
          omega
        · have := k.from_
          have : total A = total a + total q := by rw [q1, total_append]
          omega
    · exact ⟨d, d1, d2⟩
  obtain ⟨d, rfl, rfl⟩ := e1
  have hn := k.new
  rw [i1] at hn
  have hsum := k.sum
  simp only [total_append] at g3 g4
  obtain ⟨u1, u2⟩ := run_at_unique (p := p + size) (b := b') (a' := A ++ mid' ++ d) (b' := b) (e' := e) (by rw [hn]; simp) (by omega) (by omega)
    (by simp only [total_append]; omega) (by simp only [total_append]; omega)
  refine ⟨x', i2, ?_, ?_, ?_⟩
  · rw [i3, u1]; simp only [total_append]; omega
  · rw [i4, u1, u2]; simp only [total_append]; omega
  · rw [i5, g5, u2]

/-! ## Two insertions -/

theorem put_commute {α : Type} {l x y : List α} {i j : Nat} (hij : i ≤ j) (hj : j ≤ l.length) :
    (l.take i ++ x ++ l.drop i).take (j + x.length) ++ y ++ (l.take i ++ x ++ l.drop i).drop (j + x.length) =
      (l.take j ++ y ++ l.drop j).take i ++ x ++ (l.take j ++ y ++ l.drop j).drop i := by
  have hl : (l.take i).length = i := by rw [List.length_take]; omega
  have e1 : (l.take i ++ x ++ l.drop i).take (j + x.length) = l.take i ++ x ++ (l.drop i).take (j - i) := by
    rw [List.take_append, List.take_of_length_le (by simp [hl]; omega)]
    congr 2
    simp [hl]; omega
  have e2 : (l.take i ++ x ++ l.drop i).drop (j + x.length) = l.drop j := by
    rw [List.drop_append, List.drop_of_length_le (by simp [hl]; omega), List.nil_append, List.drop_drop]
    congr 1
    simp [hl]; omega
  have e3 : (l.take j ++ y ++ l.drop j).take i = l.take i := by
    rw [List.append_assoc, List.take_append_of_le_length (by rw [List.length_take]; omega), List.take_take, Nat.min_eq_left hij]
  have e4 : (l.take j ++ y ++ l.drop j).drop i = (l.drop i).take (j - i) ++ y ++ l.drop j := by
    rw [List.append_assoc, List.drop_append_of_le_length (by rw [List.length_take]; omega), List.drop_take, List.append_assoc]
  rw [e1, e2, e3, e4]
  simp

section
variable {α : Type} {valid : Nat → S → Prop} {den : Nat → S → List α}

/-- C63: two insertions give the same elements in either order, the position of the later one being moved by the size of the earlier one.
For all slice types that denote sequences, and whatever cursors are used. -/
theorem insert_commute (hE : E.ix = natIdx MAX) (hd : Denotes E.sl α valid den) {t t1 t2 u1 u2 : RleTree Nat S} (ht : Reach MAX E t)
    (hv : AllValid valid t.runs) {i j m n : Nat} (hij : i ≤ j) {x y : S} (hm : m ≤ MAX) (hn : n ≤ MAX) (hx : valid m x) (hy : valid n y)
    {b1 b2 b3 b4 : Bool} {c1 c2 c3 c4 : List Nat} {w1 w2 w3 w4 : World} {o1 o2 o3 o4 : Inserted}
    (h1 : t.insert E b1 c1 i x m w1 = .ok (t1, o1)) (h2 : t1.insert E b2 c2 (j + m) y n w2 = .ok (t2, o2))
    (h3 : t.insert E b3 c3 j y n w3 = .ok (u1, o3)) (h4 : u1.insert E b4 c4 i x m w4 = .ok (u2, o4)) :
    elements den t2.runs = elements den u2.runs := by
  obtain ⟨v1, g1⟩ := insert_elements hE hd ht hv hm hx h1
  obtain ⟨-, g2⟩ := insert_elements hE hd (ht.insert hm h1) v1 hn hy h2
  obtain ⟨v3, g3⟩ := insert_elements hE hd ht hv hn hy h3
  obtain ⟨-, g4⟩ := insert_elements hE hd (ht.insert hn h3) v3 hm hx h4
  obtain ⟨⟨hM, hM'⟩, k1, k2⟩ := ht.holds hE
  obtain ⟨hj, _⟩ := insert_returned hE hM hM' k1 k2 hn h3
  rw [g2, g4, g1, g3]
  have := put_commute (l := elements den t.runs) (x := den m x) (y := den n y) hij (by rw [elements_length hd hv]; exact hj)
  rw [hd.len hx] at this
  exact this

end

/-- C63: with constants both orders return, and the trees have the same runs: nothing that a program can see tells in which order the
insertions were made. -/
theorem const_commute [BEq T] [LawfulBEq T] {M : Nat} {t : RleTree Nat T} (ht : Reach MAX ⟨natIdx MAX, constSl T, M, false⟩ t)
    {i j m n : Nat} (hij : i ≤ j) (hj : j ≤ t.items.length) (hm : 0 < m) (hn : 0 < n) (hb : t.items.length + m + n ≤ MAX) (x y : T)
    (b1 b2 b3 b4 : Bool) (c1 c2 c3 c4 : List Nat) (w1 w2 w3 w4 : World) :
    ∃ t' u', insertAll ⟨natIdx MAX, constSl T, M, false⟩ t [⟨i, x, m, b1, c1, w1⟩, ⟨j + m, y, n, b2, c2, w2⟩] = .ok t' ∧
      insertAll ⟨natIdx MAX, constSl T, M, false⟩ t [⟨j, y, n, b3, c3, w3⟩, ⟨i, x, m, b4, c4, w4⟩] = .ok u' ∧
      (t'.runs.map fun e => (e.size, e.slice)) = u'.runs.map fun e => (e.size, e.slice) := by
  obtain ⟨t', h1, -, h2, h3⟩ := const_history ht (ops := [⟨i, x, m, b1, c1, w1⟩, ⟨j + m, y, n, b2, c2, w2⟩])
    ⟨by simp; omega, hm, by simp; omega, by simp; omega, hn, by simp; omega, by simp [InBounds]; omega⟩
  obtain ⟨u', g1, -, g2, g3⟩ := const_history ht (ops := [⟨j, y, n, b3, c3, w3⟩, ⟨i, x, m, b4, c4, w4⟩])
    ⟨hj, hn, by simp; omega, by simp; omega, hm, by simp; omega, by simp [InBounds]; omega⟩
  refine ⟨t', u', h1, g1, ?_⟩
  rw [h3, g3]
  have := put_commute (l := t.items) (x := List.replicate m x) (y := List.replicate n y) hij hj
  simp only [List.length_replicate] at this
  simp only [putAll, List.foldl_cons, List.foldl_nil]
  rw [this]

/-- The hypotheses hold for a tree of eleven runs: an insertion into the run of `c`s at 10 and 11 leaves the `a`s before it and the `b`s after it
alone. -/
example : ∃ t t' out, Reach 255 exEnv t ∧ t.insert exEnv false [] 11 'z' 4 exWorld = .ok (t', out) ∧
    (t.get exEnv [] 5).map (fun x => (x.start, x.stop, x.slice)) = .ok (3, 8, 'a') ∧
    (t'.get exEnv [7] 5).map (fun x => (x.start, x.stop, x.slice)) = .ok (3, 8, 'a') ∧
    (t.get exEnv [] 20).map (fun x => (x.start, x.stop, x.slice)) = .ok (18, 29, 'b') ∧
    (t'.get exEnv [1] 24).map (fun x => (x.start, x.stop, x.slice)) = .ok (22, 33, 'b') ∧ t.numberOfSlices = 11 ∧ t'.numberOfSlices = 13 := by
  obtain ⟨t, h1, h2, h3⟩ := exReach
  have hk : insertAll exEnv ⟨none⟩ exOps = .ok t := h1
  have key : (match insertAll exEnv ⟨none⟩ exOps with
    | .error _ => false
    | .ok t =>
      match t.insert exEnv false [] 11 'z' 4 exWorld with
      | .error _ => false
      | .ok (t', _) =>
        decide ((t.get exEnv [] 5).toOption.map (fun x => (x.start, x.stop, x.slice)) = some (3, 8, 'a')) &&
        decide ((t'.get exEnv [7] 5).toOption.map (fun x => (x.start, x.stop, x.slice)) = some (3, 8, 'a')) &&
        decide ((t.get exEnv [] 20).toOption.map (fun x => (x.start, x.stop, x.slice)) = some (18, 29, 'b')) &&
        decide ((t'.get exEnv [1] 24).toOption.map (fun x => (x.start, x.stop, x.slice)) = some (22, 33, 'b')) &&
        decide (t.numberOfSlices = 11) && decide (t'.numberOfSlices = 13)) = true := by decide +kernel
  rw [hk] at key
  simp only at key
  have opt : ∀ {α β : Type} {r : R α} {f : α → β} {b : β}, r.toOption.map f = some b → r.map f = .ok b := by
    intro α β r f b h
    cases r with
    | error _ => simp [Except.toOption] at h
    | ok a => simp [Except.toOption] at h; simp [Except.map, h]
  split at key
  · cases key
  · rename_i t' out hi
    simp only [Bool.and_eq_true, decide_eq_true_eq] at key
    obtain ⟨⟨⟨⟨⟨k1, k2⟩, k3⟩, k4⟩, k5⟩, k6⟩ := key
    exact ⟨t, t', out, h2, hi, opt k1, opt k2, opt k3, opt k4, k5, k6⟩

/-- Two insertions into this tree in either order, one of which splits a run while the other one is joined with its neighbour. -/
example : ∃ t t' u', Reach 255 exEnv t ∧ insertAll exEnv t [⟨5, 'q', 2, false, [], exWorld⟩, ⟨20 + 2, 'b', 3, true, [1], exWorld⟩] = .ok t' ∧
    insertAll exEnv t [⟨20, 'b', 3, false, [9], exWorld⟩, ⟨5, 'q', 2, false, [], exWorld⟩] = .ok u' ∧
    (t'.runs.map fun e => (e.size, e.slice)) = u'.runs.map fun e => (e.size, e.slice) := by
  obtain ⟨t, h1, h2, h3⟩ := exReach
  have hl : t.items.length = 29 := by
    have : t.items.length = total t.runs := elements_length (constSl_denotes (T := Char)) (fun _ _ => trivial)
    have h4 : total t.runs = ((t.runs.map fun e => (e.size, e.slice)).map Prod.fst).sum := by
      simp [total, List.map_map, Function.comp_def]
    rw [this, h4, h3]; rfl
  obtain ⟨t', u', g1, g2, g3⟩ := const_commute (MAX := 255) (M := 1) h2 (i := 5) (j := 20) (m := 2) (n := 3) (by omega) (by omega) (by omega)
    (by omega) (by omega) 'q' 'b' false true false false [] [1] [9] [] exWorld exWorld exWorld exWorld
  exact ⟨t, t', u', h2, g1, g2, g3⟩

end Sherman
