import Verif.IterStack
/-!
# An iterator behaves like the list of the runs it has still to yield
-/
namespace Sherman
variable {S : Type}

/-- The entries for runs `es` stored at `cs`, the first of them starting at `o`. -/
def entriesFrom : Nat → List (Cell S) → List (Ent S) → List (Entry Nat S)
  | o, c :: cs, e :: es => ⟨o, o + e.size, e.slice, c.ptr, c.idx, e.ref⟩ :: entriesFrom (o + e.size) cs es
  | _, _, _ => []

/-- The entries of the runs `X` that follow `A`. -/
def seg (cs : List (Cell S)) (A X : List (Ent S)) : List (Entry Nat S) := entriesFrom (total A) (cs.drop A.length) X

@[simp] theorem seg_nil (cs : List (Cell S)) (A : List (Ent S)) : seg cs A [] = [] := by
  unfold seg; cases cs.drop A.length <;> rfl

theorem seg_cons {cs : List (Cell S)} {A X : List (Ent S)} {e : Ent S} {c : Cell S} (h : cs[A.length]? = some c) :
    seg cs A (e :: X) = ⟨total A, total A + e.size, e.slice, c.ptr, c.idx, e.ref⟩ :: seg cs (A ++ [e]) X := by
  obtain ⟨h1, h2⟩ := List.getElem?_eq_some_iff.mp h
  unfold seg
  rw [List.drop_eq_getElem_cons h1, h2]
  simp [entriesFrom]

theorem seg_append {cs : List (Cell S)} {A X Y : List (Ent S)} (h : A.length + X.length ≤ cs.length) :
    seg cs A (X ++ Y) = seg cs A X ++ seg cs (A ++ X) Y := by
  induction X generalizing A with
  | nil => simp
  | cons e X ih =>
    have hl : A.length < cs.length := by simp at h; omega
    have hc : cs[A.length]? = some cs[A.length] := List.getElem?_eq_getElem hl
    rw [List.cons_append, seg_cons hc, seg_cons hc, ih (by simp at h ⊢; omega)]
    simp

theorem mem_seg {cs : List (Cell S)} {A X : List (Ent S)} {x : Entry Nat S} (h : x ∈ seg cs A X) :
    ∃ X1 e X2, X = X1 ++ e :: X2 ∧ x.start = total A + total X1 ∧ x.stop = x.start + e.size := by
  induction X generalizing A with
  | nil => simp at h
  | cons e X ih =>
    cases hc : cs[A.length]? with
    | none =>
      have : cs.drop A.length = [] := by
        rw [List.drop_eq_nil_iff]; simpa using hc
      simp [seg, this, entriesFrom] at h
    | some c =>
      rw [seg_cons hc, List.mem_cons] at h
      rcases h with rfl | h
      · exact ⟨[], e, X, rfl, by simp, rfl⟩
      · obtain ⟨X1, e', X2, rfl, h2, h3⟩ := ih h
        exact ⟨e :: X1, e', X2, rfl, by simp [h2]; omega, h3⟩

theorem Hits.unique {excl : Bool} {A B P Q : List (Ent S)} {e w : Ent S} {s : Nat} (h : A ++ e :: B = P ++ w :: Q)
    (h1 : Hits excl (total A) e.size s) (h2 : Hits excl (total P) w.size s) : A = P ∧ e = w ∧ B = Q := by
  rcases List.append_eq_append_iff.mp h with ⟨a, ha, hb⟩ | ⟨a, ha, hb⟩
  · cases a with
    | nil => simp at ha hb; simp [ha, hb]
    | cons x a =>
      simp at hb
      obtain ⟨rfl, rfl⟩ := hb
      subst ha
      cases excl <;> simp [Hits] at h1 h2 <;> omega
  · cases a with
    | nil => simp at ha hb; simp [ha, hb]
    | cons x a =>
      simp at hb
      obtain ⟨rfl, rfl⟩ := hb
      subst ha
      cases excl <;> simp [Hits] at h1 h2 <;> omega

section
variable {MAX M H : Nat} {root : Tree Nat S (H + 1)} {es : List (Ent S)} {start t : Nat} {excl : Bool}

/-- The bound for `excl` and `t`. -/
def mkBound (excl : Bool) (t : Nat) : IterBound Nat := if excl then .excluded t else .included t

/-- `W` are the runs between the bounds, `P` those before. -/
def Window (excl : Bool) (start t : Nat) (P W : List (Ent S)) : Prop :=
  (∃ w W', W = w :: W' ∧ Hits false (total P) w.size start) ∧
  (∃ W' l, W = W' ++ [l] ∧ Hits excl (total (P ++ W')) l.size t)

/-- The forward stack is at the last of the runs `F` yielded so far. -/
def FwdAt (M : Nat) (root : Tree Nat S (H + 1)) (fwd : Option (IterStack Nat S (H + 1))) (P F Q : List (Ent S)) : Prop :=
  (F = [] ∧ fwd = none) ∨
  ∃ F' f hd, F = F' ++ [f] ∧ fwd = some ⟨hd, total (P ++ F)⟩ ∧ HeadAt M root hd (P ++ F') f Q

/-- The backward stack is at the first of the runs `Y` yielded from the back so far. -/
def BkwdAt (M : Nat) (root : Tree Nat S (H + 1)) (bkwd : Option (IterStack Nat S (H + 1))) (A Y Z : List (Ent S)) : Prop :=
  (Y = [] ∧ bkwd = none) ∨
  ∃ y Y' hd, Y = y :: Y' ∧ bkwd = some ⟨hd, total A + y.size⟩ ∧ HeadAt M root hd A y (Y' ++ Z)

/-- The iterator has still to yield `rem`. -/
def Sim (M : Nat) (root : Tree Nat S (H + 1)) (es : List (Ent S)) (start : Nat) (excl : Bool) (t : Nat) (it : Iter Nat S)
    (rem : List (Entry Nat S)) : Prop :=
  it.start = start ∧ it.stop = mkBound excl t ∧
  ((it.state = none ∧ rem = []) ∨
    ∃ cursor fwd bkwd P F X Y Z, it.state = some ⟨H, root, cursor, fwd, bkwd⟩ ∧ es = P ++ F ++ X ++ Y ++ Z ∧
      Window excl start t P (F ++ X ++ Y) ∧ rem = seg (cells root) (P ++ F) X ∧
      FwdAt M root fwd P F (X ++ Y ++ Z) ∧ BkwdAt M root bkwd (P ++ F ++ X) Y Z)

theorem Window.first {P X : List (Ent S)} {x : Ent S} (h : Window excl start t P (x :: X)) :
    Hits false (total P) x.size start := by
  obtain ⟨⟨w, W', hw, h1⟩, _⟩ := h
  simp at hw
  rw [hw.1]; exact h1

theorem Window.last {P X : List (Ent S)} {x : Ent S} (h : Window excl start t P (X ++ [x])) :
    Hits excl (total (P ++ X)) x.size t := by
  obtain ⟨_, W', l, hw, h1⟩ := h
  obtain ⟨rfl, h2⟩ := List.append_inj' hw rfl
  simp at h2
  rw [h2]; exact h1

theorem pastEnd_iff {P F Q : List (Ent S)} (hF : F ≠ []) (h : Window excl start t P (F ++ Q)) :
    Iter.pastEnd (natIdx MAX) (mkBound excl t) (total (P ++ F)) = true ↔ Q = [] := by
  constructor
  · intro hp
    rcases List.eq_nil_or_concat Q with rfl | ⟨q, l, rfl⟩
    · rfl
    · exfalso
      rw [List.concat_eq_append, ← List.append_assoc] at h
      have h1 := h.last
      cases excl <;> simp [Hits, Iter.pastEnd, mkBound] at h1 hp <;> omega
  · rintro rfl
    rcases List.eq_nil_or_concat F with rfl | ⟨q, l, rfl⟩
    · exact absurd rfl hF
    · rw [List.append_nil, List.concat_eq_append] at h
      have h1 := h.last
      cases excl <;> simp [Hits, Iter.pastEnd, mkBound] at h1 ⊢ <;> omega

/-- The rest of `next` once the new head is known: at the first of the remaining runs, or at the first of those
yielded from the back. -/
theorem yieldFwd_spec {P F X Y Z B : List (Ent S)} {x : Ent S} {it : Iter Nat S} {cursor : Option (List Nat)}
    {fwd bkwd : Option (IterStack Nat S (H + 1))} {hd : Head Nat S (H + 1)}
    (hd0 : ((cells root).map (fun c => (c.ptr, c.idx))).Nodup)
    (h1 : it.start = start) (h2 : it.stop = mkBound excl t) (h3 : es = P ++ F ++ X ++ Y ++ Z)
    (h4 : Window excl start t P (F ++ X ++ Y)) (h5 : BkwdAt M root bkwd (P ++ F ++ X) Y Z)
    (h6 : HeadAt M root hd (P ++ F) x B) (h7 : x :: B = X ++ Y ++ Z) (hxy : X ++ Y ≠ []) :
    ∃ it', Iter.yieldFwd it ⟨H, root, cursor, fwd, bkwd⟩ ⟨hd, total (P ++ F) + x.size⟩ (total (P ++ F)) =
        .ok ((seg (cells root) (P ++ F) X).head?, it') ∧
      Sim M root es start excl t it' (seg (cells root) (P ++ F) X).tail := by
  cases X with
  | nil =>
    rcases h5 with ⟨rfl, _⟩ | ⟨y, Y', hd', rfl, rfl, h5⟩
    · simp at hxy
    · have hs : hd'.same hd = true := (HeadAt.same hd0 h5 h6).mpr (by simp)
      refine ⟨{ it with state := none }, ?_, h1, h2, .inl ⟨rfl, by simp⟩⟩
      simp [Iter.yieldFwd, Iter.metBy, hs]
  | cons x' X =>
    simp only [List.cons_append, List.cons.injEq] at h7
    obtain ⟨rfl, rfl⟩ := h7
    rw [seg_cons h6.cell]
    have hns : Iter.metBy bkwd hd = false := by
      rcases h5 with ⟨_, rfl⟩ | ⟨y, Y', hd', rfl, rfl, h5⟩
      · rfl
      · have := HeadAt.same hd0 h5 h6
        cases hc : hd'.same hd with
        | false => exact hc
        | true =>
          have := this.mp hc
          simp at this
    refine ⟨{ it with state := some ⟨H, root, cursor, some ⟨hd, total (P ++ F) + x.size⟩, bkwd⟩ }, ?_, h1, h2, .inr ?_⟩
    · simp only [Iter.yieldFwd]
      rw [if_neg (by simp [hns]), h6.entry]
      rfl
    · refine ⟨cursor, _, bkwd, P, F ++ [x], X, Y, Z, rfl, by simp [h3], by simpa using h4, by simp, .inr ?_, ?_⟩
      · exact ⟨F, x, hd, rfl, by simp; omega, h6⟩
      · simpa using h5

theorem Sim.next (hM : 1 ≤ M) (hr : Rep M 1 root es) (hp : Pos es) (hb : total es ≤ MAX)
    (hd0 : ((cells root).map (fun c => (c.ptr, c.idx))).Nodup) (hs : start < total es)
    {it : Iter Nat S} {rem : List (Entry Nat S)} (h : Sim M root es start excl t it rem) :
    ∃ it', it.next (natIdx MAX) = .ok (rem.head?, it') ∧ Sim M root es start excl t it' rem.tail := by
  obtain ⟨h1, h2, ⟨h3, rfl⟩ | ⟨cursor, fwd, bkwd, P, F, X, Y, Z, h3, h4, h5, rfl, h7, h8⟩⟩ := h
  · refine ⟨it, ?_, h1, h2, .inl ⟨h3, rfl⟩⟩
    simp only [Iter.next, h3]; rfl
  · rcases h7 with ⟨rfl, rfl⟩ | ⟨F', f, hd, rfl, rfl, h7⟩
    · -- the first call
      obtain ⟨hd, A, e, B, q1, q2, q3, q4⟩ := makeStack_spec hM hr hp hb cursor false (t := start)
        (by simpa [TargetIn] using hs)
      obtain ⟨⟨w, W', hw, hw'⟩, _⟩ := id h5
      have hes : A ++ e :: B = P ++ w :: (W' ++ Z) := by
        rw [← q3, h4]
        simp only [List.append_nil, List.nil_append] at hw ⊢
        rw [show P ++ X ++ Y ++ Z = P ++ (X ++ Y) ++ Z by simp, hw]; simp
      obtain ⟨rfl, rfl, rfl⟩ := q4.unique hes hw'
      have hle : e.size ≤ total A + e.size := by omega
      have hx : total A + e.size - e.size = total A := by omega
      have := yieldFwd_spec (t := t) (excl := excl) (es := es) (P := A) (F := []) (X := X) (Y := Y) (Z := Z)
        (B := W' ++ Z) (x := e) (it := it) (cursor := none) (fwd := none) (bkwd := bkwd) (hd := hd)
        hd0 h1 h2 h4 h5 h8 (by simpa using q2)
        (by simp only [List.nil_append] at hw; rw [hw]; simp)
        (by simp only [List.nil_append] at hw; rw [hw]; simp)
      simp only [List.append_nil] at this
      obtain ⟨it', y1, y2⟩ := this
      refine ⟨it', ?_, by simpa using y2⟩
      simp only [Bool.false_eq_true, if_false] at q1
      simp only [Iter.next, h3, h1, q1, R.bind_ok, q2.sliceSize, subR_ok hle, hx, y1]
      simp
    · -- a later call
      have hpe := pastEnd_iff (MAX := MAX) (P := P) (F := F' ++ [f]) (Q := X ++ Y) (by simp) (by simpa using h5)
      by_cases hq : X ++ Y = []
      · obtain ⟨rfl, rfl⟩ := List.append_eq_nil_iff.mp hq
        refine ⟨{ it with state := none }, ?_, h1, h2, .inl ⟨rfl, by simp⟩⟩
        simp only [Iter.next, h3, h2]
        rw [if_pos (hpe.mpr rfl)]
        simp
      · have hnp : ¬ Iter.pastEnd (natIdx MAX) (mkBound excl t) (total (P ++ (F' ++ [f]))) = true := by
          rw [hpe]; exact hq
        obtain ⟨x, B, hx⟩ : ∃ x B, X ++ Y ++ Z = x :: B := by
          cases h : X ++ Y ++ Z with
          | nil => exact absurd (List.append_eq_nil_iff.mp h).1 hq
          | cons x B => exact ⟨x, B, rfl⟩
        rw [hx] at h7
        obtain ⟨hd', q1, q2⟩ := h7.succ hM
        rw [List.append_assoc] at q2
        have hb' : total (P ++ (F' ++ [f])) + x.size ≤ MAX := by
          have := q2.ents.runs
          rw [hr.runs] at this
          rw [this] at hb
          simp at hb ⊢; omega
        obtain ⟨it', y1, y2⟩ := yieldFwd_spec (cursor := cursor) (fwd := some ⟨hd, total (P ++ (F' ++ [f]))⟩)
          hd0 h1 h2 h4 h5 h8 q2 hx.symm hq
        refine ⟨it', ?_, y2⟩
        simp only [Iter.next, h3, h2]
        rw [if_neg hnp]
        simp only [IterStack.fwdStep, q1, R.bind_ok, q2.sliceSize, addR_ok hb']
        exact y1

/-- The rest of `next_back` once the new head is known. -/
theorem yieldBkwd_spec {P F X Y Z A : List (Ent S)} {x : Ent S} {it : Iter Nat S} {cursor : Option (List Nat)}
    {fwd bkwd : Option (IterStack Nat S (H + 1))} {hd : Head Nat S (H + 1)}
    (hd0 : ((cells root).map (fun c => (c.ptr, c.idx))).Nodup)
    (h1 : it.start = start) (h2 : it.stop = mkBound excl t) (h3 : es = P ++ F ++ X ++ Y ++ Z)
    (h4 : Window excl start t P (F ++ X ++ Y)) (h5 : FwdAt M root fwd P F (X ++ Y ++ Z))
    (h6 : HeadAt M root hd A x (Y ++ Z)) (h7 : A ++ [x] = P ++ F ++ X) (hxy : F ++ X ≠ []) :
    ∃ it', Iter.yieldBkwd (natIdx MAX) it ⟨H, root, cursor, fwd, bkwd⟩ ⟨hd, total A + x.size⟩ =
        .ok ((seg (cells root) (P ++ F) X).getLast?, it') ∧
      Sim M root es start excl t it' (seg (cells root) (P ++ F) X).dropLast := by
  rcases List.eq_nil_or_concat X with rfl | ⟨X', x', rfl⟩
  · rcases h5 with ⟨rfl, _⟩ | ⟨F', f, hd', rfl, rfl, h5⟩
    · simp at hxy
    · have h7' : A ++ [x] = (P ++ F') ++ [f] := by rw [h7]; simp
      obtain ⟨rfl, _⟩ := List.append_inj' h7' rfl
      have hs : hd'.same hd = true := (HeadAt.same hd0 h5 h6).mpr rfl
      refine ⟨{ it with state := none }, ?_, h1, h2, .inl ⟨rfl, by simp⟩⟩
      simp [Iter.yieldBkwd, Iter.metBy, hs]
  · rw [List.concat_eq_append] at *
    have h7' : A ++ [x] = (P ++ F ++ X') ++ [x'] := by rw [h7]; simp
    obtain ⟨rfl, h8⟩ := List.append_inj' h7' rfl
    simp at h8
    subst h8
    have hlen : (cells root).length = (P ++ F ++ X' ++ x :: (Y ++ Z)).length := cells_length h6.ents
    rw [seg_append (by simp at hlen ⊢; omega), seg_cons h6.cell]
    have hns : Iter.metBy fwd hd = false := by
      rcases h5 with ⟨_, rfl⟩ | ⟨F', f, hd', rfl, rfl, h5⟩
      · rfl
      · have := HeadAt.same hd0 h5 h6
        cases hc : hd'.same hd with
        | false => exact hc
        | true =>
          have := this.mp hc
          simp at this
    have hle : x.size ≤ total (P ++ F ++ X') + x.size := by omega
    have hx : total (P ++ F ++ X') + x.size - x.size = total (P ++ F ++ X') := by omega
    refine ⟨{ it with state := some ⟨H, root, cursor, fwd, some ⟨hd, total (P ++ F ++ X') + x.size⟩⟩ }, ?_, h1, h2,
      .inr ?_⟩
    · simp only [Iter.yieldBkwd]
      rw [if_neg (by simp [hns]), h6.sliceSize]
      simp only [R.bind_ok, subR_ok hle, hx, h6.entry]
      simp
    · refine ⟨cursor, fwd, _, P, F, X', x :: Y, Z, rfl, by simp [h3], by simpa using h4, by simp, ?_, .inr ?_⟩
      · simpa using h5
      · exact ⟨x, Y, hd, rfl, rfl, h6⟩

theorem Sim.nextBack (hM : 1 ≤ M) (hr : Rep M 1 root es) (hp : Pos es) (hb : total es ≤ MAX)
    (hd0 : ((cells root).map (fun c => (c.ptr, c.idx))).Nodup) (ht : TargetIn excl t (total es))
    {it : Iter Nat S} {rem : List (Entry Nat S)} (h : Sim M root es start excl t it rem) :
    ∃ it', it.nextBack (natIdx MAX) = .ok (rem.getLast?, it') ∧ Sim M root es start excl t it' rem.dropLast := by
  obtain ⟨h1, h2, ⟨h3, rfl⟩ | ⟨cursor, fwd, bkwd, P, F, X, Y, Z, h3, h4, h5, rfl, h7, h8⟩⟩ := h
  · refine ⟨it, ?_, h1, h2, .inl ⟨h3, rfl⟩⟩
    simp only [Iter.nextBack, h3]; rfl
  · rcases h8 with ⟨rfl, rfl⟩ | ⟨y, Y', hd, rfl, rfl, h8⟩
    · -- the first call
      obtain ⟨hd, A, e, B, q1, q2, q3, q4⟩ := makeStack_spec hM hr hp hb cursor excl ht
      obtain ⟨_, W', l, hw, hw'⟩ := id h5
      have hes : A ++ e :: B = (P ++ W') ++ l :: Z := by
        rw [← q3, h4]
        simp only [List.append_nil] at hw ⊢
        rw [show P ++ F ++ X ++ Z = P ++ (F ++ X) ++ Z by simp, hw]; simp
      obtain ⟨rfl, rfl, rfl⟩ := q4.unique hes hw'
      simp only [List.append_nil] at hw
      obtain ⟨it', y1, y2⟩ := yieldBkwd_spec (MAX := MAX) (t := t) (excl := excl) (es := es) (P := P) (F := F) (X := X)
        (Y := []) (Z := B) (A := P ++ W') (x := e) (it := it) (cursor := none) (fwd := fwd) (bkwd := none) (hd := hd)
        hd0 h1 h2 h4 h5 h7 q2
        (by rw [List.append_assoc P F X, hw]; simp)
        (by rw [hw]; simp)
      refine ⟨it', ?_, y2⟩
      simp only [Iter.nextBack, h3, h2]
      unfold mkBound
      rw [q1]
      simp only [R.bind_ok]
      exact y1
    · -- a later call
      have hle : y.size ≤ total (P ++ F ++ X) + y.size := by omega
      have hx : total (P ++ F ++ X) + y.size - y.size = total (P ++ F ++ X) := by omega
      have hpe : (natIdx MAX).le (total (P ++ F ++ X)) start = true ↔ F ++ X = [] := by
        constructor
        · intro hl
          simp only [natIdx_le, decide_eq_true_eq] at hl
          cases hf : F ++ X with
          | nil => rfl
          | cons f F' =>
            exfalso
            rw [hf] at h5
            rw [List.append_assoc, hf] at hl
            have := h5.first
            simp [Hits] at this hl
            omega
        · intro hf
          rw [hf] at h5
          rw [List.append_assoc, hf]
          have := h5.first
          simp [Hits] at this ⊢
          omega
      by_cases hq : F ++ X = []
      · obtain ⟨rfl, rfl⟩ := List.append_eq_nil_iff.mp hq
        refine ⟨{ it with state := none }, ?_, h1, h2, .inl ⟨rfl, by simp⟩⟩
        simp only [Iter.nextBack, h3, h8.sliceSize, R.bind_ok, subR_ok hle, hx, h1]
        rw [if_pos (hpe.mpr hq)]
        simp
      · have hnp : ¬ (natIdx MAX).le (total (P ++ F ++ X)) start = true := by rw [hpe]; exact hq
        obtain ⟨x, A, hA⟩ : ∃ x A, P ++ F ++ X = A ++ [x] := by
          rcases List.eq_nil_or_concat (F ++ X) with h | ⟨q, l, h⟩
          · exact absurd h hq
          · exact ⟨l, P ++ q, by rw [List.append_assoc P F X, h]; simp⟩
        have h8' := h8
        rw [hA] at h8'
        obtain ⟨hd', q1, q2⟩ := h8'.pred hM
        have htot : total (P ++ F ++ X) = total A + x.size := by rw [hA]; simp
        obtain ⟨it', y1, y2⟩ := yieldBkwd_spec (MAX := MAX) (cursor := cursor)
          (bkwd := some ⟨hd, total (P ++ F ++ X) + y.size⟩) hd0 h1 h2 h4 h5 h7 q2 hA.symm hq
        refine ⟨it', ?_, y2⟩
        simp only [Iter.nextBack, h3, h8.sliceSize, R.bind_ok, subR_ok hle, hx, h1]
        rw [if_neg hnp]
        simp only [IterStack.bkwdStep, q1, R.bind_ok, h8.sliceSize, subR_ok hle, hx]
        rw [← htot] at y1
        exact y1

end
end Sherman
