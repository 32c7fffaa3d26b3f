import Verif.MockIds
import Verif.LiveProps
import Mathlib.Data.List.Forall2
/-!
# C36: the `Mock` used as an oracle by the fuzz tests is right
-/
namespace Sherman
namespace Mock
variable {S : Type} {MAX : Nat}

/-! ## Searching -/

theorem mruns_stops_mem {b : Nat} {es : List (Ent S)} (hp : Pos es) {a : Nat} (h : a ∈ (mruns b es).map (·.stop)) :
    b < a ∧ a ≤ b + total es := by
  induction es generalizing b with
  | nil => simp [mruns] at h
  | cons e es ih =>
    have hp' := Pos.cons.1 hp
    simp only [mruns, List.map_cons, List.mem_cons] at h
    rcases h with rfl | h
    · simp; omega
    · have := ih hp'.2 h
      simp; omega

theorem mruns_stops_last {b : Nat} {es : List (Ent S)} {e : Ent S} : (mruns b (es ++ [e])).map (·.stop) =
    (mruns b es).map (·.stop) ++ [b + total (es ++ [e])] := by
  simp [mruns_append, mruns, Nat.add_assoc]

theorem mruns_stops_lt {b : Nat} {es : List (Ent S)} {e : Ent S} (hp : Pos (es ++ [e])) :
    ∀ a ∈ (mruns b es).map (·.stop), a < b + total (es ++ [e]) := by
  intro a ha
  have h := Pos.append.1 hp
  have := mruns_stops_mem h.1 ha
  have h2 := Pos.cons.1 h.2
  simp; omega

/-- Searching the position of a boundary or the start of the list. -/
theorem search_edge {m : Mock Nat S} {L Z : List (Ent S)} (hm : m.runs = mruns 0 (L ++ Z)) (hp : Pos (L ++ Z)) :
    m.search (natIdx MAX) (total L) = .ok (if L = [] then .inr 0 else .inl (L.length - 1)) := by
  have hp' := Pos.append.1 hp
  unfold search
  rw [hm]
  rcases List.eq_nil_or_concat L with rfl | ⟨L', l, rfl⟩
  · have := bsearch_err (MAX := MAX) (t := 0) (A := []) (B := (mruns 0 Z).map (·.stop)) (by simp)
      (fun b hb => (mruns_stops_mem hp'.2 hb).1) (left := 0) (right := (mruns 0 Z).length) (by simp) (by simp) (by simp)
    simpa using this
  · rw [List.concat_eq_append] at *
    have := bsearch_ok (MAX := MAX) (t := total (L' ++ [l])) (A := (mruns 0 L').map (·.stop))
      (B := (mruns (total (L' ++ [l])) Z).map (·.stop)) (by simpa using mruns_stops_lt (b := 0) hp'.1)
      (fun b hb => (mruns_stops_mem hp'.2 hb).1) (left := 0) (right := (mruns 0 (L' ++ [l] ++ Z)).length)
      (by simp) (by simp) (by simp)
    have e : (mruns 0 (L' ++ [l] ++ Z)).map (·.stop) = (mruns 0 L').map (·.stop) ++ total (L' ++ [l]) ::
        (mruns (total (L' ++ [l])) Z).map (·.stop) := by
      rw [mruns_append, List.map_append, mruns_stops_last]; simp
    rw [e, this]
    simp

theorem search_inside {m : Mock Nat S} {L Z : List (Ent S)} {e : Ent S} {o : Nat} (hm : m.runs = mruns 0 (L ++ e :: Z))
    (hp : Pos (L ++ e :: Z)) (h0 : 0 < o) (h1 : o < e.size) : m.search (natIdx MAX) (total L + o) = .ok (.inr L.length) := by
  have hp' := Pos.append.1 hp
  unfold search
  rw [hm]
  have := bsearch_err (MAX := MAX) (t := total L + o) (A := (mruns 0 L).map (·.stop)) (B := (mruns (total L) (e :: Z)).map (·.stop))
    (by intro a ha; have := mruns_stops_mem hp'.1 ha; omega)
    (by
      intro b hb
      simp only [mruns, List.map_cons, List.mem_cons] at hb
      rcases hb with rfl | hb
      · omega
      · have := mruns_stops_mem (Pos.cons.1 hp'.2).2 hb; omega)
    (left := 0) (right := (mruns 0 (L ++ e :: Z)).length) (by simp) (by simp) (by simp)
  rw [mruns_append, List.map_append]
  simpa using this

theorem find_edge {m : Mock Nat S} {L Z : List (Ent S)} (hm : m.runs = mruns 0 (L ++ Z)) (hp : Pos (L ++ Z)) :
    m.find (natIdx MAX) (total L) = .ok L.length := by
  unfold find
  rw [search_edge hm hp]
  by_cases h : L = []
  · subst h; rfl
  · have : 0 < L.length := by cases L <;> simp at *
    simp only [h, if_false, R.bind_ok, R.pure_eq]
    congr 1; omega

theorem find_inside {m : Mock Nat S} {L Z : List (Ent S)} {e : Ent S} {o : Nat} (hm : m.runs = mruns 0 (L ++ e :: Z))
    (hp : Pos (L ++ e :: Z)) (h1 : o < e.size) : m.find (natIdx MAX) (total L + o) = .ok L.length := by
  by_cases h0 : o = 0
  · subst h0; exact find_edge hm hp
  · unfold find
    rw [search_inside hm hp (by omega) h1]
    rfl

theorem at_append {A B : List (MRun Nat S)} {x : MRun Nat S} {n : Nat} (h : n = A.length) : at_ (A ++ x :: B) n = .ok x := by
  subst h; simp [at_]

theorem startOf_mruns {b : Nat} {L : List (Ent S)} {T : List (MRun Nat S)} {n : Nat} (h : n = L.length) :
    startOf (natIdx MAX) (mruns 0 L ++ T) n = .ok (total L) := by
  subst h
  rcases List.eq_nil_or_concat L with rfl | ⟨L', l, rfl⟩
  · rfl
  · rw [List.concat_eq_append]
    simp only [startOf, List.length_append, List.length_singleton, Nat.add_one_ne_zero, if_false, Nat.add_sub_cancel,
      mruns_append, mruns, List.append_assoc, List.singleton_append]
    rw [at_append (by simp)]
    simp

theorem size_mruns {m : Mock Nat S} {es : List (Ent S)} (hm : m.runs = mruns 0 es) : m.size (natIdx MAX) = total es := by
  unfold size
  rw [hm]
  rcases List.eq_nil_or_concat es with rfl | ⟨L', l, rfl⟩
  · rfl
  · rw [List.concat_eq_append]
    simp [mruns_append, mruns]

/-! ## Index arithmetic -/

theorem subL_nat {a b : Nat} (h : b ≤ a) : (natIdx MAX).subL a b = .ok (a - b) := by simp [natIdx, h]
theorem addL_nat {a b : Nat} : (natIdx MAX).addL a b = if b + a ≤ MAX then .ok (b + a) else .error .overflow := rfl
theorem addR_nat {a b : Nat} : (natIdx MAX).addR a b = if a + b ≤ MAX then .ok (a + b) else .error .overflow := rfl

/-! ## Vectors -/

theorem insertIdx_at {X : Type} {A B : List X} {y : X} {n : Nat} (h : n = A.length) : (A ++ B).insertIdx n y = A ++ y :: B := by
  subst h
  induction A with
  | nil => rfl
  | cons a A ih => simp [ih]

theorem eraseIdx_at {X : Type} {A B : List X} {y : X} {n : Nat} (h : n = A.length) : (A ++ y :: B).eraseIdx n = A ++ B := by
  subst h
  induction A with
  | nil => rfl
  | cons a A ih => simp [ih]

theorem vecInsert_at {A B : List (MRun Nat S)} {y : MRun Nat S} {n : Nat} (h : n = A.length) :
    vecInsert (A ++ B) n y = .ok (A ++ y :: B) := by
  simp only [vecInsert]
  rw [if_pos (by subst h; simp), insertIdx_at h]
  rfl

/-! ## Splitting -/

/-- Every entry carries a stable id. -/
def Labelled (es : List (Ent S)) : Prop := ∀ e ∈ es, e.ref.isSome = true

theorem Labelled.append {a b : List (Ent S)} : Labelled (a ++ b) ↔ Labelled a ∧ Labelled b := by
  simp only [Labelled, List.mem_append]
  exact ⟨fun h => ⟨fun e he => h e (.inl he), fun e he => h e (.inr he)⟩, fun h e he => he.elim (h.1 e) (h.2 e)⟩

theorem Labelled.cons {e : Ent S} {b : List (Ent S)} : Labelled (e :: b) ↔ e.ref.isSome = true ∧ Labelled b := by
  simp [Labelled]

/-- The mock holds these entries. -/
structure Holds (m : Mock Nat S) (es : List (Ent S)) : Prop where
  runs : m.runs = mruns 0 es
  labelled : Labelled es
  ids : IdInv (sids es) m.stable
  pos : Pos es

theorem cut_edge {sl : SliceOps Nat S} {m : Mock Nat S} {L Z : List (Ent S)} (hm : Holds m (L ++ Z)) :
    m.cut (natIdx MAX) sl (total L) = .ok (m, L.length) := by
  unfold cut
  rw [find_edge hm.runs hm.pos]
  simp only [R.bind_ok]
  split
  · rw [hm.runs, mruns_append, startOf_mruns (b := 0) rfl]
    simp [natIdx, IdxOps.lt]
  · rfl

theorem cut_inside {sl : SliceOps Nat S} {m : Mock Nat S} {L Z : List (Ent S)} {e : Ent S} {o : Nat} (hm : Holds m (L ++ e :: Z))
    (h0 : 0 < o) (h1 : o < e.size) : ∃ m', m.cut (natIdx MAX) sl (total L + o) = .ok (m', L.length + 1) ∧
      Holds m' ((L ++ [⟨o, (sl.splitAt e.slice o).1, e.ref⟩]) ++ ⟨e.size - o, (sl.splitAt e.slice o).2, some m.stable.length⟩ :: Z) ∧
      m'.refs = m.refs := by
  have hl := Labelled.append.1 hm.labelled
  have hl2 := Labelled.cons.1 hl.2
  have hp := Pos.append.1 hm.pos
  have hp2 := Pos.cons.1 hp.2
  have hlt : (natIdx MAX).lt (total L) (total L + o) = true := by simp [natIdx, IdxOps.lt, Nat.compare_eq_lt]; omega
  have hrun : m.runs = mruns 0 L ++ ⟨total L + e.size, e.slice, e.ref.getD 0⟩ :: mruns (total L + e.size) Z := by
    rw [hm.runs, mruns_append]; simp [mruns]
  have hids := IdInv.insert (A := sids (L ++ [e])) (B := sids Z) (st := m.stable)
    (by have := hm.ids; simpa [sids] using this)
  refine ⟨⟨mruns 0 L ++ ⟨total L + o, (sl.splitAt e.slice o).1, e.ref.getD 0⟩ ::
      ⟨total L + e.size, (sl.splitAt e.slice o).2, m.stable.length⟩ :: mruns (total L + e.size) Z,
      (mapInsert m.stable (L.length + 1)).2, m.refs⟩, ?_, ⟨?_, ?_, ?_, ?_⟩, rfl⟩
  · unfold cut
    rw [find_inside hm.runs hm.pos h1]
    simp only [R.bind_ok]
    rw [if_pos (by rw [hrun]; simp)]
    rw [show startOf (natIdx MAX) m.runs L.length = .ok (total L) by rw [hrun]; exact startOf_mruns (b := 0) rfl]
    simp only [R.bind_ok, hlt, if_true]
    rw [subL_nat (by omega), show at_ m.runs L.length = .ok ⟨total L + e.size, e.slice, e.ref.getD 0⟩ by rw [hrun]; exact at_append (by simp)]
    simp only [R.bind_ok, Nat.add_sub_cancel_left]
    have hset : ∀ x, m.runs.set L.length x = mruns 0 L ++ x :: mruns (total L + e.size) Z := by
      intro x; rw [hrun, List.set_append_right _ _ (by simp)]; simp
    rw [hset, show ∀ x : MRun Nat S, mruns 0 L ++ x :: mruns (total L + e.size) Z = (mruns 0 L ++ [x]) ++ mruns (total L + e.size) Z by simp,
      vecInsert_at (by simp)]
    simp only [R.pure_eq, R.bind_ok, mapInsert]
    simp
  · simp [mruns_append, mruns, show total L + o + (e.size - o) = total L + e.size by omega]
  · refine Labelled.append.2 ⟨Labelled.append.2 ⟨hl.1, ?_⟩, Labelled.cons.2 ⟨rfl, hl2.2⟩⟩
    exact Labelled.cons.2 ⟨hl2.1, by simp [Labelled]⟩
  · simpa [sids] using hids
  · refine Pos.append.2 ⟨Pos.append.2 ⟨hp.1, ?_⟩, Pos.cons.2 ⟨by simp; omega, hp2.2⟩⟩
    exact Pos.cons.2 ⟨h0, Pos.nil⟩

/-! ## Joining -/

/-- The state of `insert` after the attempts to join: `L` and `Z` are left and right of the gap. -/
structure St (x : Loc Nat S) (L Z : List (Ent S)) (s : S) (o n : Nat) (lid rid : Option Nat) (rs : List Nat) : Prop where
  runs : x.m.runs = mruns 0 L ++ mruns (total L + o) Z
  ids : IdInv (sids (L ++ Z)) x.m.stable
  refs : x.m.refs = rs
  idx : x.idx = L.length
  base : x.base = total L
  slice : x.slice = s
  old : x.old = o
  new : x.new = n
  lhsId : x.lhsId = lid
  rhsId : x.rhsId = rid
  lhsEnd : rid = none → x.lhsEnd = none ∧ o = 0 ∨ x.lhsEnd = some (total L + o)

theorem getD_some {e : Ent S} (h : e.ref.isSome = true) : some (e.ref.getD 0) = e.ref := by
  cases hr : e.ref <;> simp [hr] at h ⊢

theorem sids_append (a b : List (Ent S)) : sids (a ++ b) = sids a ++ sids b := by simp [sids]
theorem sids_cons (e : Ent S) (b : List (Ent S)) : sids (e :: b) = e.ref.getD 0 :: sids b := by simp [sids]
@[simp] theorem sids_length (a : List (Ent S)) : (sids a).length = a.length := by simp [sids]

theorem joinLhs_nil {sl : SliceOps Nat S} {index : Nat} {x : Loc Nat S} {Z : List (Ent S)} {s : S} {old new : Nat} {lid rid refs}
    (h : St x [] Z s old new lid rid refs) : joinLhs (natIdx MAX) sl index x = .ok x := by
  simp [joinLhs, h.idx]

theorem joinLhs_err {sl : SliceOps Nat S} {x : Loc Nat S} {L Z : List (Ent S)} {l : Ent S} {s a b : S} {size : Nat} {refs}
    (h : St x (L ++ [l]) Z s 0 size none none refs) (hl : l.ref.isSome = true) (hj : sl.tryJoin l.slice s = .inr (a, b)) :
    ∃ x', joinLhs (natIdx MAX) sl (total (L ++ [l])) x = .ok x' ∧
      St x' (L ++ [⟨l.size, a, l.ref⟩]) Z b 0 size none none refs := by
  have hrun : x.m.runs = mruns 0 L ++ ⟨total L + l.size, l.slice, l.ref.getD 0⟩ :: mruns (total L + l.size) Z := by
    rw [h.runs, mruns_append]; simp [mruns]
  have hids := h.ids
  rw [sids_append, sids_append, sids_cons, List.append_assoc] at hids
  obtain ⟨st1, hs1, hi1, hn1, _⟩ := IdInv.remove hids
  obtain ⟨st2, hs2, hi2, _⟩ := hi1.reinsert hn1
  simp only [sids_length] at hs1 hs2
  simp only [joinLhs, h.idx, List.length_append, List.length_singleton, Nat.add_one_ne_zero, if_false, Nat.add_sub_cancel]
  rw [hrun, at_append (by simp), eraseIdx_at (by simp)]
  simp only [R.bind_ok, hs1]
  rw [show check ((natIdx MAX).eq (total L + l.size) (total (L ++ [l]))) "assertion failed: lhs_end == index" = .ok () by
    simp [IdxOps.eq, natIdx, check]]
  simp only [R.bind_ok, h.slice, hj]
  rw [vecInsert_at (by simp)]
  simp only [R.bind_ok, hs2, R.pure_eq]
  refine ⟨_, rfl, ⟨?_, ?_, h.refs, ?_, ?_, rfl, h.old, h.new, h.lhsId, h.rhsId, ?_⟩⟩
  · simp [mruns_append, mruns]
  · rw [sids_append, sids_append, sids_cons, List.append_assoc]; simpa using hi2
  · simp [h.idx]
  · simp [h.base]
  · intro _
    rcases h.lhsEnd rfl with h | h
    · exact .inl h
    · right; simpa using h

theorem joinLhs_ok {sl : SliceOps Nat S} {x : Loc Nat S} {L Z : List (Ent S)} {l : Ent S} {s y : S} {size : Nat} {refs}
    (h : St x (L ++ [l]) Z s 0 size none none refs) (hl : l.ref.isSome = true) (hj : sl.tryJoin l.slice s = .inl y)
    (hb : total (L ++ [l]) ≤ MAX) :
    (MAX < l.size + size ∧ joinLhs (natIdx MAX) sl (total (L ++ [l])) x = .error .overflow) ∨
    ∃ x', joinLhs (natIdx MAX) sl (total (L ++ [l])) x = .ok x' ∧ St x' L Z y l.size (l.size + size) l.ref none refs := by
  have hrun : x.m.runs = mruns 0 L ++ ⟨total L + l.size, l.slice, l.ref.getD 0⟩ :: mruns (total L + l.size) Z := by
    rw [h.runs, mruns_append]; simp [mruns]
  have hids := h.ids
  rw [sids_append, sids_append, sids_cons, List.append_assoc] at hids
  obtain ⟨st1, hs1, hi1, hn1, _⟩ := IdInv.remove hids
  simp only [sids_length] at hs1
  simp only [total_append, total_cons, total_nil] at hb
  simp only [joinLhs, h.idx, List.length_append, List.length_singleton, Nat.add_one_ne_zero, if_false, Nat.add_sub_cancel]
  rw [hrun, at_append (by simp), eraseIdx_at (by simp)]
  simp only [R.bind_ok, hs1]
  rw [show check ((natIdx MAX).eq (total L + l.size) (total (L ++ [l]))) "assertion failed: lhs_end == index" = .ok () by
    simp [IdxOps.eq, natIdx, check]]
  simp only [R.bind_ok, h.slice, hj]
  rw [startOf_mruns (b := 0) rfl]
  simp only [R.bind_ok]
  rw [subL_nat (by omega), h.old, h.new]
  simp only [R.bind_ok, Nat.add_sub_cancel_left, addL_nat, Nat.add_zero]
  rw [if_pos (by omega)]
  simp only [R.bind_ok]
  by_cases ho : l.size + size ≤ MAX
  · right
    rw [if_pos ho]
    simp only [R.bind_ok, R.pure_eq]
    refine ⟨_, rfl, ⟨?_, ?_, h.refs, rfl, rfl, rfl, rfl, rfl, ?_, h.rhsId, fun _ => .inr rfl⟩⟩
    · simp
    · rw [sids_append]; exact hi1
    · exact getD_some hl
  · left
    rw [if_neg ho]
    exact ⟨by omega, rfl⟩

theorem joinRhs_nil {sl : SliceOps Nat S} {x : Loc Nat S} {L : List (Ent S)} {s : S} {old new : Nat} {lid rid refs}
    (h : St x L [] s old new lid rid refs) : joinRhs (natIdx MAX) sl x = .ok x := by
  simp [joinRhs, h.idx, h.runs, mruns]

theorem joinRhs_err {sl : SliceOps Nat S} {x : Loc Nat S} {L Z : List (Ent S)} {r : Ent S} {s a b : S} {old new : Nat} {lid refs}
    (h : St x L (r :: Z) s old new lid none refs) (hj : sl.tryJoin s r.slice = .inr (a, b)) :
    ∃ x', joinRhs (natIdx MAX) sl x = .ok x' ∧ St x' L (⟨r.size, b, r.ref⟩ :: Z) a old new lid none refs := by
  have hrun : x.m.runs = mruns 0 L ++ ⟨total L + old + r.size, r.slice, r.ref.getD 0⟩ :: mruns (total L + old + r.size) Z := by
    rw [h.runs]; simp [mruns]
  have hids := h.ids
  rw [sids_append, sids_cons] at hids
  obtain ⟨st1, hs1, hi1, hn1, _⟩ := IdInv.remove hids
  obtain ⟨st2, hs2, hi2, _⟩ := hi1.reinsert hn1
  simp only [sids_length] at hs1 hs2
  unfold joinRhs
  rw [if_pos (by rw [hrun, h.idx]; simp)]
  rw [h.idx, hrun, at_append (by simp), eraseIdx_at (by simp)]
  simp only [R.bind_ok, hs1, h.slice, hj]
  rw [vecInsert_at (by simp)]
  simp only [R.bind_ok, hs2, R.pure_eq]
  refine ⟨_, rfl, ⟨?_, ?_, h.refs, rfl, h.base, rfl, h.old, h.new, h.lhsId, h.rhsId, h.lhsEnd⟩⟩
  · simp [mruns]
  · rw [sids_append, sids_cons]; simpa using hi2

theorem joinRhs_ok {sl : SliceOps Nat S} {x : Loc Nat S} {L Z : List (Ent S)} {r : Ent S} {s y : S} {old new : Nat} {lid refs}
    (h : St x L (r :: Z) s old new lid none refs) (hr : r.ref.isSome = true) (hj : sl.tryJoin s r.slice = .inl y)
    (hb : old + r.size ≤ MAX) :
    (MAX < new + r.size ∧ joinRhs (natIdx MAX) sl x = .error .overflow) ∨
    ∃ x', joinRhs (natIdx MAX) sl x = .ok x' ∧ St x' L Z y (old + r.size) (new + r.size) lid r.ref refs := by
  have hrun : x.m.runs = mruns 0 L ++ ⟨total L + old + r.size, r.slice, r.ref.getD 0⟩ :: mruns (total L + old + r.size) Z := by
    rw [h.runs]; simp [mruns]
  have hids := h.ids
  rw [sids_append, sids_cons] at hids
  obtain ⟨st1, hs1, hi1, hn1, _⟩ := IdInv.remove hids
  simp only [sids_length] at hs1
  have hst : rhsStart (natIdx MAX) x.lhsEnd (mruns 0 L ++ mruns (total L + old + r.size) Z) L.length = .ok (total L + old) := by
    rcases h.lhsEnd rfl with ⟨h1, h2⟩ | h1
    · rw [h1]; subst h2
      exact startOf_mruns (b := 0) rfl
    · rw [h1]; rfl
  unfold joinRhs
  rw [if_pos (by rw [hrun, h.idx]; simp)]
  rw [h.idx, hrun, at_append (by simp), eraseIdx_at (by simp)]
  simp only [R.bind_ok, hs1, h.slice, hj, hst]
  rw [subL_nat (by omega), h.old, h.new]
  simp only [R.bind_ok, Nat.add_sub_cancel_left, addR_nat]
  rw [if_pos hb]
  simp only [R.bind_ok]
  by_cases ho : new + r.size ≤ MAX
  · right
    rw [if_pos ho]
    simp only [R.bind_ok, R.pure_eq]
    refine ⟨_, rfl, ⟨?_, ?_, h.refs, rfl, h.base, rfl, rfl, rfl, h.lhsId, getD_some hr, ?_⟩⟩
    · simp [Nat.add_assoc]
    · rw [sids_append]; simpa using hi1
    · intro hc; simp [hc] at hr
  · left
    rw [if_neg ho]
    exact ⟨by omega, rfl⟩

theorem shiftAll_mruns {d b : Nat} {es : List (Ent S)} :
    (b + d + total es ≤ MAX → shiftAll (natIdx MAX) d (mruns b es) = .ok (mruns (b + d) es)) ∧
    (MAX < b + d + total es → b + d ≤ MAX → shiftAll (natIdx MAX) d (mruns b es) = .error .overflow) := by
  induction es generalizing b with
  | nil => exact ⟨fun _ => rfl, fun h h' => by simp at h; omega⟩
  | cons e es ih =>
    simp only [total_cons, mruns, shiftAll, addL_nat]
    constructor
    · intro h
      rw [if_pos (by omega)]
      simp only [R.bind_ok]
      rw [(ih (b := b + e.size)).1 (by omega)]
      simp only [R.bind_ok, R.pure_eq]
      rw [show b + e.size + d = b + d + e.size by omega, show d + (b + e.size) = b + d + e.size by omega]
    · intro h h'
      by_cases h1 : d + (b + e.size) ≤ MAX
      · rw [if_pos h1]
        simp only [R.bind_ok]
        rw [(ih (b := b + e.size)).2 (by omega) (by omega)]
        rfl
      · rw [if_neg h1]; rfl

theorem finish_spec {x : Loc Nat S} {L Z : List (Ent S)} {s : S} {old new : Nat} {lid rid refs} {mk : Bool}
    (h : St x L Z s old new lid rid refs) (hon : old ≤ new) (hb : total L + old + total Z ≤ MAX) :
    (MAX < total L + new + total Z ∧ finish (natIdx MAX) mk x = .error .overflow) ∨
    (total L + new + total Z ≤ MAX ∧ ∃ m' n o, finish (natIdx MAX) mk x = .ok (m', o) ∧
      m'.runs = mruns 0 (L ++ ⟨new, s, some n⟩ :: Z) ∧ IdInv (sids (L ++ ⟨new, s, some n⟩ :: Z)) m'.stable ∧
      m'.refs = remapOpt (remapOpt refs lid n) rid n ++ (if mk then [n] else []) ∧
      o = (if mk then some refs.length else none)) := by
  have hids := IdInv.insert (A := sids L) (B := sids Z) (st := x.m.stable) (by simpa [sids_append] using h.ids)
  unfold finish
  simp only [mapInsert]
  rw [h.base, h.new, h.old, addR_nat]
  by_cases h1 : total L + new ≤ MAX
  · rw [if_pos h1, h.runs]
    simp only [R.bind_ok]
    rw [h.idx, vecInsert_at (by simp)]
    simp only [R.bind_ok]
    rw [addR_nat, if_pos (by omega)]
    simp only [R.bind_ok]
    rw [subL_nat (by omega)]
    simp only [R.bind_ok]
    have hd : ∀ y : MRun Nat S, (mruns 0 L ++ y :: mruns (total L + old) Z).drop (L.length + 1) = mruns (total L + old) Z := by
      intro y; rw [show mruns 0 L ++ y :: mruns (total L + old) Z = (mruns 0 L ++ [y]) ++ mruns (total L + old) Z by simp,
        List.drop_left' (by simp)]
    have ht : ∀ y : MRun Nat S, (mruns 0 L ++ y :: mruns (total L + old) Z).take (L.length + 1) = mruns 0 L ++ [y] := by
      intro y; rw [show mruns 0 L ++ y :: mruns (total L + old) Z = (mruns 0 L ++ [y]) ++ mruns (total L + old) Z by simp,
        List.take_left' (by simp)]
    rw [hd, ht]
    by_cases h2 : total L + new + total Z ≤ MAX
    · right
      refine ⟨h2, ?_⟩
      rw [(shiftAll_mruns (b := total L + old)).1 (by omega)]
      simp only [R.bind_ok]
      have hruns : mruns 0 L ++ [⟨total L + new, x.slice, x.m.stable.length⟩] ++
          mruns (total L + old + (total L + new - (total L + old))) Z =
          mruns 0 (L ++ ⟨new, s, some x.m.stable.length⟩ :: Z) := by
        rw [mruns_append, show total L + old + (total L + new - (total L + old)) = total L + new by omega]
        simp [mruns, h.slice]
      have hst : IdInv (sids (L ++ ⟨new, s, some x.m.stable.length⟩ :: Z)) (mapInsert x.m.stable L.length).2 := by
        rw [sids_append, sids_cons]; simpa using hids
      cases mk with
      | false =>
        refine ⟨_, x.m.stable.length, _, rfl, hruns, hst, ?_, rfl⟩
        simp [h.lhsId, h.rhsId, h.refs]
      | true =>
        refine ⟨_, x.m.stable.length, _, rfl, hruns, hst, ?_, ?_⟩
        · simp [h.lhsId, h.rhsId, h.refs]
        · simp only [if_true, Option.some.injEq, h.lhsId, h.rhsId, h.refs]
          cases lid <;> cases rid <;> simp [remapOpt, mapRemap]
    · left
      refine ⟨by omega, ?_⟩
      rw [(shiftAll_mruns (b := total L + old)).2 (by omega) (by omega)]
      rfl
  · left
    rw [if_neg h1]
    exact ⟨by omega, rfl⟩

/-! ## Insertion into a gap -/

/-- What is left of the runs on the left after they were offered the slice to join: the remaining runs, the slice, by how much
it grew and the label of the run that was joined. -/
def offerL (sl : SliceOps Nat S) (L : List (Ent S)) (s : S) : List (Ent S) × S × Nat × Option Nat :=
  match L.getLast? with
  | none => (L, s, 0, none)
  | some l =>
    match sl.tryJoin l.slice s with
    | .inl y => (L.dropLast, y, l.size, l.ref)
    | .inr (a, b) => (L.dropLast ++ [⟨l.size, a, l.ref⟩], b, 0, none)

/-- The same on the right. -/
def offerR (sl : SliceOps Nat S) (Z : List (Ent S)) (s : S) : List (Ent S) × S × Nat × Option Nat :=
  match Z with
  | [] => (Z, s, 0, none)
  | r :: Z =>
    match sl.tryJoin s r.slice with
    | .inl y => (Z, y, r.size, r.ref)
    | .inr (a, b) => (⟨r.size, b, r.ref⟩ :: Z, a, 0, none)

/-- The run list after insertion between `L` and `Z`; `lab` chooses the label of the inserted run. -/
def gap (sl : SliceOps Nat S) (L Z : List (Ent S)) (s : S) (size : Nat) (lab : Option Nat → Option Nat → Option Nat) : List (Ent S) :=
  let a := offerL sl L s
  let b := offerR sl Z a.2.1
  a.1 ++ ⟨a.2.2.1 + size + b.2.2.1, b.2.1, lab a.2.2.2 b.2.2.2⟩ :: b.1

theorem offerL_concat {sl : SliceOps Nat S} {L : List (Ent S)} {l : Ent S} {s : S} : offerL sl (L ++ [l]) s =
    match sl.tryJoin l.slice s with
    | .inl y => (L, y, l.size, l.ref)
    | .inr (a, b) => (L ++ [⟨l.size, a, l.ref⟩], b, 0, none) := by
  simp [offerL]

theorem joinLhs_spec {sl : SliceOps Nat S} {x : Loc Nat S} {L Z : List (Ent S)} {s : S} {size : Nat} {refs}
    (h : St x L Z s 0 size none none refs) (hl : Labelled L) (hb : total L ≤ MAX) :
    (MAX < total L + size ∧ joinLhs (natIdx MAX) sl (total L) x = .error .overflow) ∨
    ∃ x', joinLhs (natIdx MAX) sl (total L) x = .ok x' ∧ St x' (offerL sl L s).1 Z (offerL sl L s).2.1 (offerL sl L s).2.2.1
      ((offerL sl L s).2.2.1 + size) (offerL sl L s).2.2.2 none refs := by
  rcases List.eq_nil_or_concat L with rfl | ⟨L', l, rfl⟩
  · right
    exact ⟨x, joinLhs_nil h, by simpa [offerL] using h⟩
  · rw [List.concat_eq_append] at *
    have hl' := (Labelled.cons.1 (Labelled.append.1 hl).2).1
    rw [offerL_concat]
    cases hj : sl.tryJoin l.slice s with
    | inl y =>
      rcases joinLhs_ok h hl' hj hb with ⟨h1, h2⟩ | ⟨x', h1, h2⟩
      · exact .inl ⟨by simp; omega, h2⟩
      · exact .inr ⟨x', h1, h2⟩
    | inr ab =>
      obtain ⟨a, b⟩ := ab
      obtain ⟨x', h1, h2⟩ := joinLhs_err (MAX := MAX) h hl' hj
      exact .inr ⟨x', h1, by simpa using h2⟩

theorem joinRhs_spec {sl : SliceOps Nat S} {x : Loc Nat S} {L Z : List (Ent S)} {s : S} {old new : Nat} {lid refs}
    (h : St x L Z s old new lid none refs) (hl : Labelled Z) (hb : old + total Z ≤ MAX) :
    (MAX < new + total Z ∧ joinRhs (natIdx MAX) sl x = .error .overflow) ∨
    ∃ x', joinRhs (natIdx MAX) sl x = .ok x' ∧ St x' L (offerR sl Z s).1 (offerR sl Z s).2.1 (old + (offerR sl Z s).2.2.1)
      (new + (offerR sl Z s).2.2.1) lid (offerR sl Z s).2.2.2 refs := by
  cases Z with
  | nil =>
    right
    exact ⟨x, joinRhs_nil h, by simpa [offerR] using h⟩
  | cons r Z =>
    have hl' := (Labelled.cons.1 hl).1
    simp only [offerR]
    simp only [total_cons] at hb ⊢
    cases hj : sl.tryJoin s r.slice with
    | inl y =>
      rcases joinRhs_ok h hl' hj (MAX := MAX) (by omega) with ⟨h1, h2⟩ | ⟨x', h1, h2⟩
      · exact .inl ⟨by omega, h2⟩
      · exact .inr ⟨x', h1, h2⟩
    | inr ab =>
      obtain ⟨a, b⟩ := ab
      obtain ⟨x', h1, h2⟩ := joinRhs_err (MAX := MAX) h hj
      exact .inr ⟨x', h1, by simpa using h2⟩

theorem offerL_total {sl : SliceOps Nat S} {L : List (Ent S)} {s : S} : total (offerL sl L s).1 + (offerL sl L s).2.2.1 = total L := by
  rcases List.eq_nil_or_concat L with rfl | ⟨L', l, rfl⟩
  · rfl
  · rw [List.concat_eq_append, offerL_concat]
    cases sl.tryJoin l.slice s <;> simp

theorem offerR_total {sl : SliceOps Nat S} {L : List (Ent S)} {s : S} : (offerR sl L s).2.2.1 + total (offerR sl L s).1 = total L := by
  cases L with
  | nil => rfl
  | cons r L =>
    simp only [offerR]
    cases sl.tryJoin s r.slice <;> simp

theorem gap_total {sl : SliceOps Nat S} {L Z : List (Ent S)} {s : S} {size : Nat} {lab} :
    total (gap sl L Z s size lab) = total L + size + total Z := by
  have h1 := offerL_total (sl := sl) (L := L) (s := s)
  have h2 := offerR_total (sl := sl) (L := Z) (s := (offerL sl L s).2.1)
  simp only [gap, total_append, total_cons]
  omega

theorem offerL_good {P : Ent S → Prop} (hP : ∀ a b c d, P ⟨a, b, c⟩ → P ⟨a, d, c⟩) {sl : SliceOps Nat S} {L : List (Ent S)} {s : S}
    (h : ∀ e ∈ L, P e) : ∀ e ∈ (offerL sl L s).1, P e := by
  rcases List.eq_nil_or_concat L with rfl | ⟨L', l, rfl⟩
  · simpa [offerL] using h
  · rw [List.concat_eq_append] at *
    rw [offerL_concat]
    cases hj : sl.tryJoin l.slice s with
    | inl y => intro e he; exact h e (by simp [he])
    | inr ab =>
      intro e he
      simp only [List.mem_append, List.mem_singleton] at he
      rcases he with he | rfl
      · exact h e (by simp [he])
      · exact hP _ l.slice _ _ (h l (by simp))

theorem offerR_good {P : Ent S → Prop} (hP : ∀ a b c d, P ⟨a, b, c⟩ → P ⟨a, d, c⟩) {sl : SliceOps Nat S} {L : List (Ent S)} {s : S}
    (h : ∀ e ∈ L, P e) : ∀ e ∈ (offerR sl L s).1, P e := by
  cases L with
  | nil => simp [offerR]
  | cons r L =>
    simp only [offerR]
    cases hj : sl.tryJoin s r.slice with
    | inl y => intro e he; exact h e (by simp [he])
    | inr ab =>
      intro e he
      simp only [List.mem_cons] at he
      rcases he with rfl | he
      · exact hP _ r.slice _ _ (h r (by simp))
      · exact h e (by simp [he])

theorem insertGap {sl : SliceOps Nat S} {m : Mock Nat S} {L Z : List (Ent S)} (hm : Holds m (L ++ Z)) {s : S} {size : Nat} {mk : Bool}
    (hs : 0 < size) (hb : total (L ++ Z) ≤ MAX) {q : R (Mock Nat S × Option Nat)}
    (hq : q = (joinLhs (natIdx MAX) sl (total L) ⟨m, L.length, s, total L, 0, size, none, none, none⟩ >>= fun x =>
      joinRhs (natIdx MAX) sl x >>= fun x => finish (natIdx MAX) mk x)) :
    (MAX < total (L ++ Z) + size ∧ q = .error .overflow) ∨
    (total (L ++ Z) + size ≤ MAX ∧ ∃ m' n o, q = .ok (m', o) ∧ Holds m' (gap sl L Z s size fun _ _ => some n) ∧
      m'.refs = remapOpt (remapOpt m.refs (offerL sl L s).2.2.2 n) (offerR sl Z (offerL sl L s).2.1).2.2.2 n ++ (if mk then [n] else []) ∧
      o = (if mk then some m.refs.length else none)) := by
  have hl := Labelled.append.1 hm.labelled
  have hp := Pos.append.1 hm.pos
  simp only [total_append] at hb ⊢
  have h0 : St ⟨m, L.length, s, total L, 0, size, none, none, none⟩ L Z s 0 size none none m.refs :=
    ⟨by simp [hm.runs, mruns_append], hm.ids, rfl, rfl, rfl, rfl, rfl, rfl, rfl, rfl, fun _ => .inl ⟨rfl, rfl⟩⟩
  have tL := offerL_total (sl := sl) (L := L) (s := s)
  have tR := offerR_total (sl := sl) (L := Z) (s := (offerL sl L s).2.1)
  rcases joinLhs_spec h0 hl.1 (MAX := MAX) (sl := sl) (by omega) with ⟨h1, h2⟩ | ⟨x1, h1, h2⟩
  · left; rw [h2] at hq; exact ⟨by omega, hq⟩
  rw [h1] at hq
  simp only [R.bind_ok] at hq
  rcases joinRhs_spec h2 hl.2 (MAX := MAX) (sl := sl) (by omega) with ⟨h3, h4⟩ | ⟨x2, h3, h4⟩
  · left; rw [h4] at hq; exact ⟨by omega, hq⟩
  rw [h3] at hq
  simp only [R.bind_ok] at hq
  rcases finish_spec (mk := mk) h4 (MAX := MAX) (by omega) (by omega) with ⟨h5, h6⟩ | ⟨h5, m', n, o, h6, h7, h8, h9, h10⟩
  · left; rw [h6] at hq; exact ⟨by omega, hq⟩
  · right
    refine ⟨by omega, m', n, o, hq.trans h6, ⟨h7, ?_, h8, ?_⟩, h9, h10⟩
    · refine Labelled.append.2 ⟨?_, Labelled.cons.2 ⟨rfl, ?_⟩⟩
      · exact offerL_good (P := fun e => e.ref.isSome = true) (fun _ _ _ _ h => h) hl.1
      · exact offerR_good (P := fun e => e.ref.isSome = true) (fun _ _ _ _ h => h) hl.2
    · refine Pos.append.2 ⟨?_, Pos.cons.2 ⟨by simp; omega, ?_⟩⟩
      · exact offerL_good (P := fun e => 0 < e.size) (fun _ _ _ _ h => h) hp.1
      · exact offerR_good (P := fun e => 0 < e.size) (fun _ _ _ _ h => h) hp.2

/-! ## The specification as insertion into a gap -/

/-- A run that does not join is left alone: what a slice type without joins must do. -/
def LawfulJoin (sl : SliceOps Nat S) : Prop := sl.mayJoin = false → ∀ a b, sl.tryJoin a b = .inr (a, b)

theorem specEdge_gap {sl : SliceOps Nat S} (hl : LawfulJoin sl) {L Z es' : List (Ent S)} {s : S} {size : Nat}
    (h : specEdge sl L Z s size = .ok es') : es' = gap sl L Z s size fun a b => a.or b := by
  unfold specEdge at h
  by_cases hm : sl.mayJoin = false
  · rw [if_pos hm] at h
    cases h
    have hj := hl hm
    rcases List.eq_nil_or_concat L with rfl | ⟨L', l, rfl⟩
    · cases Z <;> simp [gap, offerL, offerR, hj]
    · rw [List.concat_eq_append]
      cases Z <;> simp [gap, offerL_concat, offerR, hj]
  · rw [if_neg hm] at h
    rcases List.eq_nil_or_concat L with rfl | ⟨L', l, rfl⟩
    · cases Z with
      | nil => simp at h; subst h; simp [gap, offerL, offerR]
      | cons r Z =>
        simp only [List.getLast?_nil] at h
        cases hj : sl.tryJoin s r.slice <;> simp only [hj] at h <;> cases h <;> simp [gap, offerL, offerR, hj]
    · rw [List.concat_eq_append] at *
      cases Z with
      | nil =>
        simp only [List.getLast?_concat, List.dropLast_concat] at h
        cases hj : sl.tryJoin l.slice s <;> simp only [hj] at h <;> cases h <;> simp [gap, offerL_concat, offerR, hj]
      | cons r Z =>
        simp only [List.getLast?_concat, List.dropLast_concat] at h
        cases hj : sl.tryJoin l.slice s with
        | inl x =>
          simp only [hj] at h
          cases hk : sl.tryJoin x r.slice <;> simp only [hk] at h <;> cases h
          simp [gap, offerL_concat, offerR, hj, hk]
        | inr ab =>
          simp only [hj] at h
          cases hk : sl.tryJoin ab.2 r.slice <;> simp only [hk] at h <;> cases h <;> simp [gap, offerL_concat, offerR, hj, hk]

theorem specSplit_gap {sl : SliceOps Nat S} (hl : LawfulJoin sl) {A B : List (Ent S)} {e : Ent S} {o : Nat} {s : S} {size : Nat} :
    A ++ specSplit sl e o s size ++ B = gap sl (A ++ [⟨o, (sl.splitAt e.slice o).1, e.ref⟩])
      (⟨e.size - o, (sl.splitAt e.slice o).2, none⟩ :: B) s size fun a b => a.or b := by
  rcases hsp : sl.splitAt e.slice o with ⟨l, r⟩
  simp only [specSplit, hsp]
  by_cases hm : sl.mayJoin = false
  · simp [hm, gap, offerL_concat, offerR, hl hm]
  · rw [if_neg hm]
    cases hj : sl.tryJoin l s with
    | inl x => cases hk : sl.tryJoin x r <;> simp [gap, offerL_concat, offerR, hj, hk]
    | inr ab => cases hk : sl.tryJoin ab.2 r <;> simp [gap, offerL_concat, offerR, hj, hk]

/-! ## References -/

/-- An entry of the tree and one of the mock agree; `prs` are the pairs of references handed out together. -/
def Agree (prs : List (Nat × Nat)) (refs : List Nat) (e e' : Ent S) : Prop :=
  e.size = e'.size ∧ e.slice = e'.slice ∧
    ∀ r k : Nat, (r, k) ∈ prs → e.ref = some r → ∃ sid, e'.ref = some sid ∧ refs[k]? = some sid

theorem remapOpt_get {refs : List Nat} {id : Option Nat} {n k sid : Nat} (h : refs[k]? = some sid) :
    (remapOpt refs id n)[k]? = some (if id = some sid then n else sid) := by
  cases id with
  | none => simpa [remapOpt] using h
  | some i => simp [remapOpt, mapRemap, h, eq_comm]

/-- Where a reference to `sid` leads after the joined runs were replaced by the new one. -/
theorem remap_get {refs ex : List Nat} {lid rid : Option Nat} {n k sid : Nat} (h : refs[k]? = some sid) :
    (remapOpt (remapOpt refs lid n) rid n ++ ex)[k]? = some (if lid = some sid ∨ rid = some sid then n else sid) := by
  have h1 := remapOpt_get (id := rid) (n := n) (remapOpt_get (id := lid) (n := n) h)
  rw [List.getElem?_append_left (List.getElem?_eq_some_iff.1 h1).1, h1]
  by_cases c : lid = some sid
  · simp [c]
  · simp [c]

theorem Agree.keep {prs : List (Nat × Nat)} {refs ex : List Nat} {lid rid : Option Nat} {n : Nat} {e e' : Ent S}
    (h : Agree prs refs e e') (h1 : e'.ref ≠ lid) (h2 : e'.ref ≠ rid) :
    Agree prs (remapOpt (remapOpt refs lid n) rid n ++ ex) e e' := by
  refine ⟨h.1, h.2.1, fun r k hk hr => ?_⟩
  obtain ⟨sid, g1, g2⟩ := h.2.2 r k hk hr
  refine ⟨sid, g1, ?_⟩
  rw [remap_get g2, if_neg]
  rw [g1] at h1 h2
  rintro (h | h)
  · exact h1 h.symm
  · exact h2 h.symm

theorem Agree.joined {prs : List (Nat × Nat)} {refs ex : List Nat} {lid rid : Option Nat} {n z : Nat} {y : S} {a b : Option Nat}
    (hl : ∀ r k : Nat, (r, k) ∈ prs → a = some r → ∃ sid, lid = some sid ∧ refs[k]? = some sid)
    (hr : ∀ r k : Nat, (r, k) ∈ prs → b = some r → ∃ sid, rid = some sid ∧ refs[k]? = some sid) :
    Agree prs (remapOpt (remapOpt refs lid n) rid n ++ ex) ⟨z, y, a.or b⟩ ⟨z, y, some n⟩ := by
  refine ⟨rfl, rfl, fun r k hk hc => ⟨n, rfl, ?_⟩⟩
  have : a = some r ∨ b = some r := by
    cases a with
    | none => right; simpa using hc
    | some a => left; simpa using hc
  rcases this with h | h
  · obtain ⟨sid, g1, g2⟩ := hl r k hk h
    rw [remap_get g2, if_pos (.inl g1)]
  · obtain ⟨sid, g1, g2⟩ := hr r k hk h
    rw [remap_get g2, if_pos (.inr g1)]

theorem forall₂_concat {X Y : Type} {P : X → Y → Prop} {A : List X} {l : X} {B : List Y} (h : List.Forall₂ P (A ++ [l]) B) :
    ∃ A' l', B = A' ++ [l'] ∧ List.Forall₂ P A A' ∧ P l l' := by
  induction A generalizing B with
  | nil =>
    cases h with
    | cons h1 h2 => cases h2; exact ⟨[], _, rfl, .nil, h1⟩
  | cons a A ih =>
    cases h with
    | cons h1 h2 =>
      obtain ⟨A', l', rfl, g1, g2⟩ := ih h2
      exact ⟨_ :: A', l', rfl, .cons h1 g1, g2⟩

/-- What the two sides of an offer have in common. -/
def OfferAgree (prs : List (Nat × Nat)) (refs : List Nat) (p p' : List (Ent S) × S × Nat × Option Nat) : Prop :=
  List.Forall₂ (Agree prs refs) p.1 p'.1 ∧ p.2.1 = p'.2.1 ∧ p.2.2.1 = p'.2.2.1 ∧
    ∀ r k : Nat, (r, k) ∈ prs → p.2.2.2 = some r → ∃ sid, p'.2.2.2 = some sid ∧ refs[k]? = some sid

theorem offerL_agree {prs : List (Nat × Nat)} {refs : List Nat} {sl : SliceOps Nat S} {L L' : List (Ent S)} {s : S}
    (h : List.Forall₂ (Agree prs refs) L L') : OfferAgree prs refs (offerL sl L s) (offerL sl L' s) := by
  rcases List.eq_nil_or_concat L with rfl | ⟨A, l, rfl⟩
  · cases h; exact ⟨.nil, rfl, rfl, by simp [offerL]⟩
  · rw [List.concat_eq_append] at *
    obtain ⟨A', l', rfl, g1, g2⟩ := forall₂_concat h
    rw [offerL_concat, offerL_concat, ← g2.2.1, ← g2.1]
    cases sl.tryJoin l.slice s with
    | inl y => exact ⟨g1, rfl, rfl, g2.2.2⟩
    | inr ab => exact ⟨List.rel_append g1 (.cons ⟨rfl, rfl, g2.2.2⟩ .nil), rfl, rfl, by simp⟩

theorem offerR_agree {prs : List (Nat × Nat)} {refs : List Nat} {sl : SliceOps Nat S} {Z Z' : List (Ent S)} {s : S}
    (h : List.Forall₂ (Agree prs refs) Z Z') : OfferAgree prs refs (offerR sl Z s) (offerR sl Z' s) := by
  cases h with
  | nil => exact ⟨.nil, rfl, rfl, by simp [offerR]⟩
  | cons g2 g1 =>
    simp only [offerR]
    rw [← g2.2.1, ← g2.1]
    cases sl.tryJoin s _ with
    | inl y => exact ⟨g1, rfl, rfl, g2.2.2⟩
    | inr ab => exact ⟨.cons ⟨rfl, rfl, g2.2.2⟩ g1, rfl, rfl, by simp⟩

theorem offerL_refs {sl : SliceOps Nat S} {L : List (Ent S)} {s : S} :
    (offerL sl L s).1.map (·.ref) = L.map (·.ref) ∧ (offerL sl L s).2.2.2 = none ∨
    L.map (·.ref) = (offerL sl L s).1.map (·.ref) ++ [(offerL sl L s).2.2.2] := by
  rcases List.eq_nil_or_concat L with rfl | ⟨A, l, rfl⟩
  · exact .inl ⟨rfl, rfl⟩
  · rw [List.concat_eq_append, offerL_concat]
    cases sl.tryJoin l.slice s with
    | inl y => right; simp
    | inr ab => left; simp

theorem offerR_refs {sl : SliceOps Nat S} {L : List (Ent S)} {s : S} :
    (offerR sl L s).1.map (·.ref) = L.map (·.ref) ∧ (offerR sl L s).2.2.2 = none ∨
    L.map (·.ref) = (offerR sl L s).2.2.2 :: (offerR sl L s).1.map (·.ref) := by
  cases L with
  | nil => exact .inl ⟨rfl, rfl⟩
  | cons r L =>
    simp only [offerR]
    cases sl.tryJoin s r.slice with
    | inl y => right; simp
    | inr ab => left; simp

theorem labelled_refs {es : List (Ent S)} (h : Labelled es) : es.map (·.ref) = (sids es).map some := by
  rw [sids, List.map_map]
  apply List.map_congr_left
  intro e he
  exact (getD_some (h e he)).symm

theorem forall₂_imp_mem {X Y : Type} {P Q : X → Y → Prop} {A : List X} {B : List Y} (h : List.Forall₂ P A B)
    (hi : ∀ a b, b ∈ B → P a b → Q a b) : List.Forall₂ Q A B := by
  induction h with
  | nil => exact .nil
  | cons h1 _ ih => exact .cons (hi _ _ (by simp) h1) (ih fun a b hb => hi a b (by simp [hb]))

theorem gap_agree {prs : List (Nat × Nat)} {refs ex : List Nat} {sl : SliceOps Nat S} {L Z L' Z' : List (Ent S)} {s : S}
    {size n : Nat} (hL : List.Forall₂ (Agree prs refs) L L') (hZ : List.Forall₂ (Agree prs refs) Z Z')
    (hlab : Labelled (L' ++ Z')) (hnd : (sids (L' ++ Z')).Nodup) :
    List.Forall₂ (Agree prs (remapOpt (remapOpt refs (offerL sl L' s).2.2.2 n) (offerR sl Z' (offerL sl L' s).2.1).2.2.2 n ++ ex))
      (gap sl L Z s size fun a b => a.or b) (gap sl L' Z' s size fun _ _ => some n) := by
  obtain ⟨a1, a2, a3, a4⟩ := offerL_agree (sl := sl) (s := s) hL
  obtain ⟨b1, b2, b3, b4⟩ := offerR_agree (sl := sl) (s := (offerL sl L' s).2.1) hZ
  have hnd' : ((L' ++ Z').map (·.ref)).Nodup := by
    rw [labelled_refs hlab]; exact hnd.map (Option.some_injective _)
  rw [List.map_append, List.nodup_append] at hnd'
  obtain ⟨n1, n2, n3⟩ := hnd'
  have hlab' := Labelled.append.1 hlab
  have kL : ∀ e' ∈ (offerL sl L' s).1, e'.ref.isSome = true := offerL_good (P := fun e => e.ref.isSome = true) (fun _ _ _ _ h => h) hlab'.1
  have kZ : ∀ e' ∈ (offerR sl Z' (offerL sl L' s).2.1).1, e'.ref.isSome = true :=
    offerR_good (P := fun e => e.ref.isSome = true) (fun _ _ _ _ h => h) hlab'.2
  simp only [gap]
  rw [a2, a3]
  refine List.rel_append (forall₂_imp_mem a1 ?_) (.cons ?_ (forall₂_imp_mem b1 ?_))
  · intro e e' he' ha
    have hm : e'.ref ∈ (offerL sl L' s).1.map (·.ref) := List.mem_map_of_mem he'
    have hm' : e'.ref ∈ L'.map (·.ref) := by
      rcases offerL_refs (sl := sl) (L := L') (s := s) with ⟨h, _⟩ | h
      · rw [← h]; exact hm
      · rw [h]; simp only [List.mem_append]; exact .inl hm
    refine ha.keep ?_ ?_
    · rcases offerL_refs (sl := sl) (L := L') (s := s) with ⟨_, h⟩ | h
      · rw [h]; intro hc; have := kL e' he'; simp [hc] at this
      · rw [h, List.nodup_append] at n1
        exact n1.2.2 _ hm _ (by simp)
    · rcases offerR_refs (sl := sl) (L := Z') (s := (offerL sl L' s).2.1) with ⟨_, h⟩ | h
      · rw [h]; intro hc; have := kL e' he'; simp [hc] at this
      · exact n3 _ hm' _ (by rw [h]; simp)
  · rw [b2, b3]
    exact Agree.joined a4 b4
  · intro e e' he' ha
    have hm : e'.ref ∈ (offerR sl Z' (offerL sl L' s).2.1).1.map (·.ref) := List.mem_map_of_mem he'
    have hm' : e'.ref ∈ Z'.map (·.ref) := by
      rcases offerR_refs (sl := sl) (L := Z') (s := (offerL sl L' s).2.1) with ⟨h, _⟩ | h
      · rw [← h]; exact hm
      · rw [h]; exact List.mem_cons_of_mem _ hm
    refine ha.keep ?_ ?_
    · rcases offerL_refs (sl := sl) (L := L') (s := s) with ⟨_, h⟩ | h
      · rw [h]; intro hc; have := kZ e' he'; simp [hc] at this
      · exact Ne.symm (n3 _ (by rw [h]; simp) _ hm')
    · rcases offerR_refs (sl := sl) (L := Z') (s := (offerL sl L' s).2.1) with ⟨_, h⟩ | h
      · rw [h]; intro hc; have := kZ e' he'; simp [hc] at this
      · rw [h, List.nodup_cons] at n2
        intro hc; exact n2.1 (hc ▸ hm)

end Mock
end Sherman
