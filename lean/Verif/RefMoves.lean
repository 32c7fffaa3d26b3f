import Verif.RefProps
import Verif.TreeProps2
/-!
# C19: what insertions and new references do to the range of a reference
-/
namespace Sherman
variable {S : Type} {MAX rcMax : Nat} {E : Env Nat S}

/-! ## Specification -/

/-- Where the element at `q` is after inserting `size` elements at `idx`. -/
def movedTo (idx size q : Nat) : Nat := if q < idx then q else q + size

/-- How the range `[x, y)` of a reference may change to `[x', y')` when `size` elements are inserted at `idx`.  Every
element of the range stays in it, except that when the insertion is strictly inside the range the elements after it may
be lost to a new run.  Everything else in the new range was inserted. -/
def RangeMoves (idx size x y x' y' : Nat) : Prop :=
  (∀ q, x ≤ q → q < y → (q < idx ∨ idx ≤ x) → x' ≤ movedTo idx size q ∧ movedTo idx size q < y') ∧
  (∀ q', x' ≤ q' → q' < y' → (idx ≤ q' ∧ q' < idx + size) ∨ ∃ q, x ≤ q ∧ q < y ∧ q' = movedTo idx size q)

theorem RangeMoves.left {idx size x y : Nat} (h : y ≤ idx) : RangeMoves idx size x y x y := by
  refine ⟨?_, ?_⟩
  · intro q h1 h2 _
    simp only [movedTo, if_pos (show q < idx by omega)]; omega
  · intro q h1 h2
    exact .inr ⟨q, h1, h2, by simp only [movedTo, if_pos (show q < idx by omega)]⟩

theorem RangeMoves.right {idx size x y : Nat} (h : idx ≤ x) : RangeMoves idx size x y (x + size) (y + size) := by
  refine ⟨?_, ?_⟩
  · intro q h1 h2 _
    simp only [movedTo, if_neg (show ¬ q < idx by omega)]; omega
  · intro q h1 h2
    exact .inr ⟨q - size, by omega, by omega, by simp only [movedTo, if_neg (show ¬ q - size < idx by omega)]; omega⟩

theorem RangeMoves.grow {idx size x y : Nat} (hx : x ≤ idx) (hy : idx ≤ y) : RangeMoves idx size x y x (y + size) := by
  refine ⟨?_, ?_⟩
  · intro q h1 h2 _
    unfold movedTo
    split <;> omega
  · intro q h1 h2
    by_cases c1 : q < idx
    · exact .inr ⟨q, h1, by omega, by simp only [movedTo, if_pos c1]⟩
    · by_cases c2 : q < idx + size
      · exact .inl ⟨by omega, c2⟩
      · exact .inr ⟨q - size, by omega, by omega, by simp only [movedTo, if_neg (show ¬ q - size < idx by omega)]; omega⟩

theorem RangeMoves.cut {idx size x y y' : Nat} (hx : x < idx) (hy : idx < y) (h : y' = idx ∨ y' = idx + size) :
    RangeMoves idx size x y x y' := by
  refine ⟨?_, ?_⟩
  · intro q h1 h2 h3
    have : q < idx := by omega
    simp only [movedTo, if_pos this]; omega
  · intro q h1 h2
    by_cases c1 : q < idx
    · exact .inr ⟨q, h1, by omega, by simp only [movedTo, if_pos c1]⟩
    · exact .inl (by omega)

/-! ## Spans -/

/-- The references of a list of runs that starts at position `b`, with their ranges. -/
def spans : Nat → List (Ent S) → List (Nat × Nat × Nat)
  | _, [] => []
  | b, e :: es => (e.ref.toList.map fun r => (r, b, b + e.size)) ++ spans (b + e.size) es

theorem spans_append (b : Nat) (l m : List (Ent S)) : spans b (l ++ m) = spans b l ++ spans (b + total l) m := by
  induction l generalizing b with
  | nil => simp [spans]
  | cons e l ih => simp [spans, ih, Nat.add_assoc]

theorem mem_spans {b r x y : Nat} {es : List (Ent S)} : (r, x, y) ∈ spans b es ↔
    ∃ A e B, es = A ++ e :: B ∧ e.ref = some r ∧ x = b + total A ∧ y = b + total A + e.size := by
  induction es generalizing b with
  | nil => simp [spans]
  | cons e es ih =>
    simp only [spans, List.mem_append, ih]
    constructor
    · rintro (h | ⟨A, e', B, rfl, h2, rfl, rfl⟩)
      · refine ⟨[], e, es, rfl, ?_⟩
        cases hr : e.ref with
        | none => simp [hr] at h
        | some r' => simp [hr] at h; obtain ⟨rfl, rfl, rfl⟩ := h; simp
      · exact ⟨e :: A, e', B, rfl, h2, by simp [Nat.add_assoc], by simp [Nat.add_assoc]⟩
    · rintro ⟨A, e', B, h1, h2, rfl, rfl⟩
      cases A with
      | nil =>
        simp only [List.nil_append, List.cons.injEq] at h1
        obtain ⟨rfl, rfl⟩ := h1
        exact .inl (by simp [h2])
      | cons a A =>
        simp only [List.cons_append, List.cons.injEq] at h1
        obtain ⟨rfl, rfl⟩ := h1
        exact .inr ⟨A, e', B, rfl, h2, by simp [Nat.add_assoc], by simp [Nat.add_assoc]⟩

theorem spans_bounds {b r x y : Nat} {es : List (Ent S)} (h : (r, x, y) ∈ spans b es) : b ≤ x ∧ y ≤ b + total es := by
  obtain ⟨A, e, B, rfl, _, rfl, rfl⟩ := mem_spans.1 h
  simp; omega

theorem spans_shift {b r x y k : Nat} {es : List (Ent S)} (h : (r, x, y) ∈ spans b es) : (r, x + k, y + k) ∈ spans (b + k) es := by
  obtain ⟨A, e, B, rfl, h2, rfl, rfl⟩ := mem_spans.1 h
  exact mem_spans.2 ⟨A, e, B, rfl, h2, by omega, by omega⟩

/-- Every reference of `m` is in `m'`, with an accordingly moved range. -/
def Tracks (b idx size : Nat) (m m' : List (Ent S)) : Prop :=
  ∀ r x y, (r, x, y) ∈ spans b m → ∃ x' y', (r, x', y') ∈ spans b m' ∧ RangeMoves idx size x y x' y'

theorem Tracks.frame {b idx size : Nat} {pre m m' post : List (Ent S)} (h1 : b + total pre ≤ idx)
    (h2 : idx ≤ b + total pre + total m) (h3 : total m' = total m + size) (h : Tracks (b + total pre) idx size m m') :
    Tracks b idx size (pre ++ m ++ post) (pre ++ m' ++ post) := by
  intro r x y hm
  simp only [spans_append, List.mem_append] at hm ⊢
  rcases hm with (hm | hm) | hm
  · have := spans_bounds hm
    exact ⟨x, y, .inl (.inl hm), .left (by omega)⟩
  · obtain ⟨x', y', g1, g2⟩ := h r x y hm
    exact ⟨x', y', .inl (.inr g1), g2⟩
  · have := spans_bounds hm
    refine ⟨x + size, y + size, .inr ?_, .right (by simp at this; omega)⟩
    have e := spans_shift (k := size) hm
    have : b + total (pre ++ m) + size = b + total (pre ++ m') := by simp; omega
    rwa [this] at e

/-- The two neighbours of an insertion between runs. -/
theorem Tracks.pair {b idx size : Nat} {l r : Ent S} {m' : List (Ent S)} (hi : idx = b + l.size)
    (hl : ∀ i, l.ref = some i → (i, b, idx) ∈ spans b m' ∨ (i, b, idx + size) ∈ spans b m')
    (hr : ∀ i, r.ref = some i → (i, idx, idx + size + r.size) ∈ spans b m' ∨
      (i, idx + size, idx + size + r.size) ∈ spans b m') : Tracks b idx size [l, r] m' := by
  intro i x y hm
  simp only [spans, List.append_nil, List.mem_append, List.mem_map] at hm
  rcases hm with ⟨i', hi', he⟩ | ⟨i', hi', he⟩
  · cases he
    have := hl i (by simpa using hi')
    rw [← hi]
    rcases this with h | h
    · exact ⟨_, _, h, .left (Nat.le_refl _)⟩
    · exact ⟨_, _, h, .grow (by omega) (Nat.le_refl _)⟩
  · cases he
    have := hr i (by simpa using hi')
    rw [← hi]
    rcases this with h | h
    · exact ⟨_, _, h, by have e : idx + size + r.size = idx + r.size + size := by omega
                         rw [e]; exact .grow (Nat.le_refl _) (by omega)⟩
    · exact ⟨_, _, h, by have e : idx + size + r.size = idx + r.size + size := by omega
                         rw [e]; exact .right (Nat.le_refl _)⟩

theorem Tracks.one_left {b idx size : Nat} {l : Ent S} {m' : List (Ent S)} (hi : idx = b + l.size)
    (hl : ∀ i, l.ref = some i → (i, b, idx) ∈ spans b m' ∨ (i, b, idx + size) ∈ spans b m') : Tracks b idx size [l] m' := by
  intro i x y hm
  simp only [spans, List.append_nil, List.mem_map] at hm
  obtain ⟨i', hi', he⟩ := hm
  cases he
  have := hl i (by simpa using hi')
  rw [← hi]
  rcases this with h | h
  · exact ⟨_, _, h, .left (Nat.le_refl _)⟩
  · exact ⟨_, _, h, .grow (by omega) (Nat.le_refl _)⟩

theorem Tracks.one_right {b size : Nat} {r : Ent S} {m' : List (Ent S)}
    (hr : ∀ i, r.ref = some i → (i, b, b + size + r.size) ∈ spans b m' ∨ (i, b + size, b + size + r.size) ∈ spans b m') :
    Tracks b b size [r] m' := by
  intro i x y hm
  simp only [spans, List.append_nil, List.mem_map] at hm
  obtain ⟨i', hi', he⟩ := hm
  cases he
  have e : b + size + r.size = b + r.size + size := by omega
  have := hr i (by simpa using hi')
  rw [e] at this
  rcases this with h | h
  · exact ⟨_, _, h, .grow (Nat.le_refl _) (by omega)⟩
  · exact ⟨_, _, h, .right (Nat.le_refl _)⟩

theorem specEdge_tracks {sl : SliceOps Nat S} {L R es' : List (Ent S)} {s : S} {size : Nat}
    (h : specEdge sl L R s size = .ok es') : Tracks 0 (total L) size (L ++ R) es' := by
  unfold specEdge at h
  split at h
  · cases h
    have := Tracks.frame (b := 0) (idx := total L) (size := size) (pre := L) (m := []) (m' := [⟨size, s, none⟩]) (post := R)
      (by omega) (by simp) (by simp) (by intro r x y hm; simp [spans] at hm)
    simpa using this
  · rcases List.eq_nil_or_concat L with rfl | ⟨L', l, rfl⟩
    · cases R with
      | nil => intro r x y hm; simp [spans] at hm
      | cons r R =>
        simp only [List.getLast?_nil] at h
        have fr : ∀ m', total m' = r.size + size → Tracks 0 0 size [r] m' → Tracks 0 0 size (r :: R) (m' ++ R) := by
          intro m' h1 h2
          have := Tracks.frame (b := 0) (idx := 0) (size := size) (pre := []) (m := [r]) (m' := m') (post := R)
            (by simp) (by simp) (by simp [h1]) (by simpa using h2)
          simpa using this
        split at h
        · cases h
          exact fr [⟨size + r.size, _, r.ref⟩] (by simp; omega) (.one_right fun i hi => .inl (by simp [spans, hi]))
        · cases h
          exact fr [⟨size, _, none⟩, ⟨r.size, _, r.ref⟩] (by simp; omega) (.one_right fun i hi => .inr (by simp [spans, hi]))
    · rw [List.concat_eq_append] at *
      simp only [List.getLast?_concat, List.dropLast_concat] at h
      cases R with
      | nil =>
        have fr : ∀ m', total m' = l.size + size → Tracks (total L') (total L' + l.size) size [l] m' →
            Tracks 0 (total (L' ++ [l])) size (L' ++ [l] ++ []) (L' ++ m') := by
          intro m' h1 h2
          have := Tracks.frame (b := 0) (idx := total L' + l.size) (size := size) (pre := L') (m := [l]) (m' := m') (post := [])
            (by omega) (by simp) (by simp [h1]) (by simpa using h2)
          simpa using this
        simp only at h
        split at h
        · cases h
          exact fr [⟨l.size + size, _, l.ref⟩] (by simp) (.one_left rfl fun i hi => .inr (by simp [spans, hi]; omega))
        · cases h
          exact fr [⟨l.size, _, l.ref⟩, ⟨size, _, none⟩] (by simp) (.one_left rfl fun i hi => .inl (by simp [spans, hi]))
      | cons r R =>
        have fr : ∀ m', total m' = l.size + r.size + size → Tracks (total L') (total L' + l.size) size [l, r] m' →
            Tracks 0 (total (L' ++ [l])) size (L' ++ [l] ++ r :: R) (L' ++ (m' ++ R)) := by
          intro m' h1 h2
          have := Tracks.frame (b := 0) (idx := total L' + l.size) (size := size) (pre := L') (m := [l, r]) (m' := m') (post := R)
            (by omega) (by simp) (by simp [h1]) (by simpa using h2)
          simpa using this
        simp only at h
        split at h
        · split at h
          · cases h
          · cases h
            exact fr [⟨l.size + size, _, l.ref⟩, ⟨r.size, _, r.ref⟩] (by simp; omega)
              (.pair rfl (fun i hi => .inr (by simp [spans, hi]; omega)) (fun i hi => .inr (by simp [spans, hi]; omega)))
        · split at h
          · cases h
            exact fr [⟨l.size, _, l.ref⟩, ⟨size + r.size, _, r.ref⟩] (by simp; omega)
              (.pair rfl (fun i hi => .inl (by simp [spans, hi])) (fun i hi => .inl (by simp [spans, hi]; omega)))
          · cases h
            exact fr [⟨l.size, _, l.ref⟩, ⟨size, _, none⟩, ⟨r.size, _, r.ref⟩] (by simp; omega)
              (.pair rfl (fun i hi => .inl (by simp [spans, hi])) (fun i hi => .inr (by simp [spans, hi])))

theorem specSplit_tracks {sl : SliceOps Nat S} {e : Ent S} {b o : Nat} {s : S} {size : Nat} (h0 : 0 < o) (h1 : o < e.size) :
    Tracks b (b + o) size [e] (specSplit sl e o s size) := by
  intro i x y hm
  simp only [spans, List.append_nil, List.mem_map] at hm
  obtain ⟨i', hi', he⟩ := hm
  cases he
  have hi : e.ref = some i := by simpa using hi'
  unfold specSplit
  simp only
  split
  · exact ⟨b, b + o, by simp [spans, hi], .cut (by omega) (by omega) (.inl rfl)⟩
  · split
    · split
      · exact ⟨b, b + e.size + size, by simp [spans, hi]; omega, .grow (by omega) (by omega)⟩
      · exact ⟨b, b + o + size, by simp [spans, hi]; omega, .cut (by omega) (by omega) (.inr rfl)⟩
    · split
      · exact ⟨b, b + o, by simp [spans, hi], .cut (by omega) (by omega) (.inl rfl)⟩
      · exact ⟨b, b + o, by simp [spans, hi], .cut (by omega) (by omega) (.inl rfl)⟩

theorem specInsert_tracks {sl : SliceOps Nat S} {es es' : List (Ent S)} {idx : Nat} {s : S} {size : Nat}
    (hidx : idx ≤ total es) (h : specInsert sl es idx s size = .ok es') : Tracks 0 idx size es es' := by
  obtain ⟨L, R, o, h1, rfl, rfl, h4⟩ := cutAt_spec hidx
  simp only [specInsert, h1] at h
  rcases h4 with ⟨rfl, rfl⟩ | ⟨e, R', rfl, ho⟩
  · exact specEdge_tracks h
  · cases o with
    | zero => exact specEdge_tracks h
    | succ o =>
      simp only at h
      cases h
      have hs : total (specSplit sl e (o + 1) s size) = e.size + size := by
        unfold specSplit
        simp only
        repeat' split
        all_goals (simp; try omega)
      have := Tracks.frame (b := 0) (idx := total L + (o + 1)) (size := size) (pre := L) (m := [e]) (post := R')
        (by omega) (by simp; omega) (by rw [hs]; simp) (by simpa using specSplit_tracks (b := total L) (sl := sl) (s := s) (by omega) ho)
      simpa using this

/-! ## C19 -/

theorem range_iff (hE : E.ix = natIdx MAX) {st : RefTree Nat S} {ids : List Nat} (h : Live MAX rcMax E st ids) {r x y : Nat}
    (hr : r ∈ ids) : st.range E r = .ok (x, y) ↔ (r, x, y) ∈ spans 0 st.tree.runs := by
  obtain ⟨A, e, B, c, h1, h2, _, _, h3, _⟩ := ref_resolves hE h hr
  rw [mem_spans]
  constructor
  · intro hx
    rw [h3] at hx
    cases hx
    exact ⟨A, e, B, h1, h2, by simp, by simp⟩
  · rintro ⟨A', e', B', g1, g2, rfl, rfl⟩
    obtain ⟨rfl, rfl, rfl⟩ := ref_unique hE h h1 g1 h2 g2
    rw [h3]
    simp

/-- C19: an insertion moves the range of every reference with the elements it covers. -/
theorem insert_moves_range (hE : E.ix = natIdx MAX) {st st' : RefTree Nat S} {ids : List Nat} (h : Live MAX rcMax E st ids)
    {nop : Bool} {hints : List Nat} {idx : Nat} {s : S} {size : Nat} {out} (hs : size ≤ MAX)
    (hi : st.insert E nop hints idx s size = .ok (st', out)) {r : Nat} (hr : r ∈ ids) :
    ∃ x y x' y', st.range E r = .ok (x, y) ∧ st'.range E r = .ok (x', y') ∧ RangeMoves idx size x y x' y' := by
  have h' : Live MAX rcMax E st' ids := h.insert hs hi
  obtain ⟨A, e, B, c, h1, h2, _, _, h3, _⟩ := ref_resolves hE h hr
  obtain ⟨path, hd⟩ := out
  obtain ⟨t, out, k1, rfl, _, _⟩ := RefTree.insert_ok hi
  obtain ⟨⟨hM, hM'⟩, hh, hb⟩ := (h.inv hE).reach.holds hE
  obtain ⟨c1, _, _, es', c2, c3, _⟩ := insert_returned hE hM hM' hh hb hs k1
  obtain ⟨x', y', g1, g2⟩ := specInsert_tracks c1 c2 r (total A) (total A + e.size)
    (mem_spans.2 ⟨A, e, B, h1, h2, by simp, by simp⟩)
  rw [← c3.runs] at g1
  exact ⟨_, _, x', y', h3, (range_iff hE h' hr).2 g1, g2⟩

theorem clone_returns {rv : Recycle.RecycleVec Stored} {r : Nat} {hd : Option (Nat × Nat)} (h : absS rv r = some hd)
    (hc : ∀ (id c : Nat) (v : Stored), rv.vals[id]? = some (.value c v) → c < rcMax) : ∃ rv', Recycle.clone rcMax rv r = .ok (r, rv') := by
  obtain ⟨c, hv⟩ := absS_some h
  have := hc _ _ _ hv
  simp only [Recycle.clone, hv, if_pos (show c + 1 ≤ rcMax from this)]
  exact ⟨_, rfl⟩

/-- The number of references to each id is at most one more than the number of references handed out. -/
def CountsLe (rv : Recycle.RecycleVec Stored) (n : Nat) : Prop := ∀ (id c : Nat) (v : Stored), rv.vals[id]? = some (.value c v) → c ≤ n

theorem CountsLe.mono {rv : Recycle.RecycleVec Stored} {n m : Nat} (h : CountsLe rv n) (hm : n ≤ m) : CountsLe rv m :=
  fun id c v hv => Nat.le_trans (h id c v hv) hm

theorem CountsLe.set {rv : Recycle.RecycleVec Stored} {n i c : Nat} {v : Stored} {hd : Option Nat} (h : CountsLe rv n)
    (hc : c ≤ n) : CountsLe ⟨rv.vals.set i (.value c v), hd⟩ n := by
  intro id c' v' hv
  simp only [List.getElem?_set] at hv
  split at hv
  · split at hv
    · cases hv; exact hc
    · cases hv
  · exact h id c' v' hv

theorem CountsLe.clone {rv rv' : Recycle.RecycleVec Stored} {n i i' : Nat} (h : CountsLe rv n)
    (hc : Recycle.clone rcMax rv i = .ok (i', rv')) : CountsLe rv' (n + 1) := by
  unfold Recycle.clone at hc
  split at hc
  · cases hc
  · cases hc
  · rename_i rc inner hv
    split at hc
    · cases hc
      exact (h.mono (Nat.le_succ n)).set (by have := h _ _ _ hv; omega)
    · cases hc

theorem CountsLe.push {rv rv' : Recycle.RecycleVec Stored} {n i : Nat} {v : Stored} (h : CountsLe rv n) (hn : 1 ≤ n)
    (hc : Recycle.push rv v = .ok (i, rv')) : CountsLe rv' n := by
  unfold Recycle.push at hc
  split at hc
  · simp only [bind_ok_iff] at hc
    obtain ⟨hd, _, hc⟩ := hc
    split at hc
    · cases hc
      exact h.set hn
    · cases hc
  · cases hc
    intro id c v' hv
    simp only [List.getElem?_append] at hv
    split at hv
    · exact h _ _ _ hv
    · have := List.mem_of_getElem? hv
      simp at this
      omega

theorem CountsLe.cmd {rv rv' : Recycle.RecycleVec Stored} {n : Nat} {cmd : StoreCmd} (h : CountsLe rv n)
    (hc : storeCmd rv cmd = .ok rv') : CountsLe rv' n := by
  have key : ∀ {r v old rv1}, Recycle.replace rv r v = .ok (old, rv1) → CountsLe rv1 n := by
    intro r v old rv1 hr
    unfold Recycle.replace at hr
    split at hr
    · cases hr
    · cases hr
    · rename_i hv
      cases hr
      exact h.set (h _ _ _ hv)
  cases cmd with
  | update r p i =>
    simp only [storeCmd, bind_ok_iff] at hc
    obtain ⟨⟨old, rv1⟩, h1, hc⟩ := hc
    simp only at hc
    split at hc
    · cases hc; exact key h1
    · cases hc
  | suspend r =>
    simp only [storeCmd, bind_ok_iff] at hc
    obtain ⟨⟨old, rv1⟩, h1, hc⟩ := hc
    simp only at hc
    split at hc
    · cases hc; exact key h1
    · cases hc

theorem CountsLe.cmds {log : List StoreCmd} {rv rv' : Recycle.RecycleVec Stored} {n : Nat} (h : CountsLe rv n)
    (hc : log.foldlM storeCmd rv = .ok rv') : CountsLe rv' n := by
  induction log generalizing rv with
  | nil => cases hc; exact h
  | cons cmd log ih =>
    simp only [List.foldlM_cons, bind_ok_iff] at hc
    obtain ⟨rv1, h1, h2⟩ := hc
    exact ih (h.cmd h1) h2

theorem countsLe_empty (n : Nat) : CountsLe Recycle.empty n := by
  intro id c v hv
  simp [Recycle.empty] at hv

theorem Live.counts {st : RefTree Nat S} {ids : List Nat} (h : Live MAX rcMax E st ids) :
    CountsLe st.refs (ids.length + 1) := by
  induction h with
  | empty => exact countsLe_empty _
  | single => exact countsLe_empty _
  | @insert st st' ids nop hints idx s size out _ hs h ih =>
    simp only [RefTree.insert, bind_ok_iff] at h
    obtain ⟨_, _, rv, h1, h2⟩ := h
    cases h2
    refine CountsLe.cmds ?_ h1
    split
    · exact countsLe_empty _
    · exact ih
  | makeRef _ h ih =>
    simp only [RefTree.makeRef, bind_ok_iff] at h
    obtain ⟨c, _, h⟩ := h
    split at h
    · simp only [bind_ok_iff] at h
      obtain ⟨⟨i1, rv1⟩, h1, h⟩ := h
      cases h
      exact ih.clone h1
    · simp only [bind_ok_iff] at h
      obtain ⟨⟨i1, rv1⟩, h1, ⟨i2, rv2⟩, h2, h⟩ := h
      cases h
      exact (ih.push (by omega) h1).clone h2
  | cloneRef _ _ h ih =>
    simp only [RefTree.cloneRef, bind_ok_iff] at h
    obtain ⟨⟨i1, rv1⟩, h1, h⟩ := h
    cases h
    exact ih.clone h1

theorem makeRef_returns (hE : E.ix = natIdx MAX) {st : RefTree Nat S} {ids : List Nat} (h : Live MAX rcMax E st ids)
    (hc : ids.length + 1 < rcMax) {c : Cell S} (hm : c ∈ st.tree.places) : ∃ id st', st.makeRef rcMax c.at = .ok (id, st') := by
  have hi := h.inv hE
  have hh := (hi.reach.holds hE).2.1
  have hcnt := h.counts
  have hd := deref_place (places_nodup hi.own.addrs) hm
  cases hr : c.ref with
  | some r =>
    have : absS st.refs r = some (some c.at) := by
      obtain ⟨σ, k1, k2, _⟩ := hi.own.run
      cases k1
      refine k2 (r, c.at) ?_
      rw [hh.H, Multiset.mem_coe, List.mem_filterMap]
      exact ⟨c, hm, by simp [Cell.refAt, hr, Cell.at]⟩
    obtain ⟨rv, h1⟩ := clone_returns this (fun id c v hv => Nat.lt_of_le_of_lt (hcnt id c v hv) hc)
    exact ⟨r, { st with refs := rv }, by simp only [RefTree.makeRef, hd, R.bind_ok, hr, h1]; rfl⟩
  | none =>
    obtain ⟨s, hs⟩ := hi.store
    obtain ⟨i, rv1, h1, _⟩ := Recycle.push_step hs (.handle (some c.at))
    obtain ⟨p1, p2, p3⟩ := push_abs hi.store h1
    have : absS rv1 i = some (some c.at) := by rw [p2]; simp
    obtain ⟨rv2, h2⟩ := clone_returns (rcMax := rcMax) this
      (fun id c v hv => Nat.lt_of_le_of_lt (hcnt.push (by omega) h1 id c v hv) hc)
    exact ⟨i, { st with refs := rv2, tree := st.tree.setRef c.at i }, by
      simp only [RefTree.makeRef, hd, R.bind_ok, hr, h1, h2]; rfl⟩

/-- References are handed out for runs that have none, and no run loses one. -/
theorem makeRef_spans {st st' : RefTree Nat S} {A B : List (Cell S)} {c : Cell S} {id : Nat}
    (h1 : st.tree.places = A ++ c :: B) (h2 : st'.tree.places = A ++ { c with ref := some id } :: B)
    (h3 : c.ref = none ∨ c.ref = some id) (hh : Holds E st.tree st.tree.runs) (hh' : Holds E st'.tree st'.tree.runs)
    (h4 : st'.tree.runs.map (fun e => (e.size, e.slice)) = st.tree.runs.map (fun e => (e.size, e.slice))) :
    ∃ A' e B', st.tree.runs = A' ++ e :: B' ∧ st'.tree.runs = A' ++ { e with ref := some id } :: B' ∧
      A'.length = A.length ∧ e.ref = c.ref := by
  have p1 := hh.places
  have p2 := hh'.places
  rw [h1] at p1
  rw [h2] at p2
  have hlen : A.length < st.tree.runs.length := by
    have := congrArg List.length p1
    simp at this
    omega
  have hd := List.take_append_drop A.length st.tree.runs
  rw [← List.cons_getElem_drop_succ (h := hlen)] at hd
  generalize hA : st.tree.runs.take A.length = A' at hd
  generalize he : st.tree.runs[A.length] = e at hd
  generalize hB : st.tree.runs.drop (A.length + 1) = B' at hd
  have hl : A'.length = A.length := by rw [← hA]; simp; omega
  rw [← hd] at p1 h4 
  simp only [List.map_append, List.map_cons] at p1
  have q1 := List.append_inj p1 (by simp [hl])
  obtain ⟨q2, q3⟩ := q1
  simp only [List.cons.injEq] at q3
  refine ⟨A', e, B', hd.symm, ?_, hl, by have := q3.1; simp at this; exact this.2.symm⟩
  have hx : ∀ l m : List (Ent S), l.map (fun e => (e.size, e.slice)) = m.map (fun e => (e.size, e.slice)) →
      l.map (fun e => (e.slice, e.ref)) = m.map (fun e => (e.slice, e.ref)) → l = m := by
    intro l
    induction l with
    | nil => intro m h _; cases m with
      | nil => rfl
      | cons x m => simp at h
    | cons x l ih =>
      intro m g1 g2
      cases m with
      | nil => simp at g1
      | cons z m =>
        simp at g1 g2
        obtain ⟨⟨a1, a2⟩, a3⟩ := g1
        obtain ⟨⟨b1, b2⟩, b3⟩ := g2
        obtain ⟨z1, z2, z3⟩ := z
        obtain ⟨x1, x2, x3⟩ := x
        simp only at a1 a2 b2
        subst a1 a2 b2
        rw [ih m (by simpa using a3) (by simpa using b3)]
  refine hx _ _ (by rw [h4]; simp) ?_
  rw [← p2]
  simp only [List.map_append, List.map_cons, q2, q3.2]
  have := q3.1
  simp at this
  rw [this.1]

/-- C19: `tree.get(idx).make_ref()` gives a reference to the run covering `idx`, which is the reference already handed out
for that run if there is one; the tree and the ranges of the other references do not change. -/
theorem refAt_spec (hE : E.ix = natIdx MAX) {st : RefTree Nat S} {ids : List Nat} (h : Live MAX rcMax E st ids)
    (hc : ids.length + 1 < rcMax) {idx : Nat} (hidx : idx < st.tree.size E) :
    ∃ id st' x y, st.refAt rcMax E idx = .ok (id, st') ∧ Live MAX rcMax E st' (id :: ids) ∧
      st'.range E id = .ok (x, y) ∧ x ≤ idx ∧ idx < y ∧
      st'.tree.runs.map (fun e => (e.size, e.slice)) = st.tree.runs.map (fun e => (e.size, e.slice)) ∧
      (∀ r ∈ ids, st'.range E r = st.range E r) ∧
      (∀ r ∈ ids, st.range E r = .ok (x, y) → r = id) := by
  have hi := h.inv hE
  obtain ⟨_, hh, _⟩ := hi.reach.holds hE
  obtain ⟨a, e, b, path, ptr, k, g1, g2, g3, g4, g5, _⟩ := get_cursorTo_spec hE hi.reach hidx
  have hcell : st.tree.places[a.length]? = some ⟨path, ptr, k, e.slice, e.ref⟩ := by
    unfold RleTree.places
    cases hroot : st.tree.root with
    | none => 
      have : st.tree.runs = [] := by unfold RleTree.runs; rw [hroot]
      rw [this] at g1; simp at g1
    | some r => exact g4 r hroot
  obtain ⟨id, st', hm⟩ := makeRef_returns hE h hc (List.mem_of_getElem? hcell)
  obtain ⟨hi', A, c, B, m1, m2, m3, m4, m5, m6⟩ := makeRef_inv hE hi hm
  have hh' := (hi'.reach.holds hE).2.1
  have hL : Live MAX rcMax E st' (id :: ids) := h.makeRef hm
  obtain ⟨A', e', B', s1, s2, s3, s4⟩ := makeRef_spans m1 m3 m4 hh hh' m6
  have hAa : A.length = a.length := by
    have hnd := places_nodup hi.own.addrs
    have e1 : (st.tree.places.map Cell.at)[A.length]? = some c.at := by rw [List.getElem?_map, m1]; simp
    have e2 : (st.tree.places.map Cell.at)[a.length]? = some c.at := by
      rw [List.getElem?_map, hcell, m2]; rfl
    have l1 := lt_of_get? e1
    have l2 := lt_of_get? e2
    exact (List.getElem?_inj l1 hnd).1 (e1.trans e2.symm)
  rw [s1] at g1
  obtain ⟨rfl, q⟩ := List.append_inj g1 (by omega)
  simp only [List.cons.injEq] at q
  obtain ⟨rfl, rfl⟩ := q
  have hrange : st'.range E id = .ok (total A', total A' + e'.size) :=
    (range_iff hE hL (by simp)).2 (mem_spans.2 ⟨A', _, B', s2, rfl, by simp, by simp⟩)
  refine ⟨id, st', total A', total A' + e'.size, ?_, hL, hrange, g2, g3, m6, ?_, ?_⟩
  · simp only [RefTree.refAt, g5 [], R.bind_ok]
    exact hm
  · intro r hr
    obtain ⟨A1, e1, B1, c1, t1, t2, _, _, t3, _⟩ := ref_resolves hE h hr
    rw [t3]
    refine (range_iff hE hL (by simp [hr])).2 ?_
    have hsp : (r, total A1, total A1 + e1.size) ∈ spans 0 st.tree.runs := mem_spans.2 ⟨A1, e1, B1, t1, t2, by simp, by simp⟩
    rw [s1] at hsp
    rw [s2]
    simp only [spans_append, spans, List.mem_append] at hsp ⊢
    rcases hsp with hsp | hsp | hsp
    · exact .inl hsp
    · refine .inr (.inl ?_)
      rcases m4 with m4 | m4
      · rw [s4, m4] at hsp; simp at hsp
      · rw [s4, m4] at hsp; simpa using hsp
    · exact .inr (.inr hsp)
  · intro r hr hrr
    have hsp := (range_iff hE h hr).1 hrr
    obtain ⟨A1, e1, B1, t1, t2, t3, t4⟩ := mem_spans.1 hsp
    have hp := hh.1
    rw [s1] at t1 hp
    obtain ⟨rfl, rfl, rfl⟩ := run_unique (s := total A') t1 ⟨Nat.le_refl _, by
      have := hp e' (by simp); omega⟩ ⟨by omega, by
      have := hp e' (by simp); omega⟩
    rcases m4 with m4 | m4
    · rw [s4, m4] at t2; cases t2
    · rw [s4, m4] at t2; cases t2; rfl

end Sherman
