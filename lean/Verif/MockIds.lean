import Verif.Mock
import Verif.NodeLemmas
import Mathlib.Data.List.Nodup
/-!
# The `Mock`: runs and stable ids
-/
namespace Sherman
namespace Mock
variable {S : Type} {MAX : Nat}

/-! ## Representation -/

/-- The runs of a mock for a list of entries; the reference of an entry is its stable id. -/
def mruns : Nat → List (Ent S) → List (MRun Nat S)
  | _, [] => []
  | b, e :: es => ⟨b + e.size, e.slice, e.ref.getD 0⟩ :: mruns (b + e.size) es

theorem mruns_append (b : Nat) (l m : List (Ent S)) : mruns b (l ++ m) = mruns b l ++ mruns (b + total l) m := by
  induction l generalizing b with
  | nil => simp [mruns]
  | cons e l ih => simp [mruns, ih, Nat.add_assoc]

@[simp] theorem mruns_length (b : Nat) (l : List (Ent S)) : (mruns b l).length = l.length := by
  induction l generalizing b with
  | nil => rfl
  | cons e l ih => simp [mruns, ih]

/-- Stable ids of entries. -/
def sids (es : List (Ent S)) : List Nat := es.map fun e => e.ref.getD 0

theorem mruns_sids (b : Nat) (l : List (Ent S)) : (mruns b l).map (·.sid) = sids l := by
  induction l generalizing b with
  | nil => rfl
  | cons e l ih => simpa [mruns, sids] using ih _

/-- `stable_indexes` is the inverse of the list of stable ids. -/
def IdInv (ids : List Nat) (st : List (Option Nat)) : Prop := ∀ sid i : Nat, st[sid]? = some (some i) ↔ ids[i]? = some sid

theorem IdInv.nodup {ids : List Nat} {st : List (Option Nat)} (h : IdInv ids st) : ids.Nodup := by
  rw [List.nodup_iff_getElem?_ne_getElem?]
  intro i j hij hj he
  have h1 : ids[j]? = some ids[j] := List.getElem?_eq_getElem hj
  have h2 := (h _ _).2 h1
  rw [(h _ _).2 (he.trans h1)] at h2
  simp at h2
  omega

theorem IdInv.lt {ids : List Nat} {st : List (Option Nat)} (h : IdInv ids st) {a : Nat} (ha : a ∈ ids) : a < st.length := by
  obtain ⟨i, hi, rfl⟩ := List.getElem_of_mem ha
  have := (h _ _).2 (List.getElem?_eq_getElem hi)
  exact (List.getElem?_eq_some_iff.1 this).1

theorem stableApply_get {st : List (Option Nat)} {f : Nat → Bool} {g : Nat → Nat} (sid : Nat) :
    (stableApply st f g)[sid]? = st[sid]?.map fun o => o.map fun i => if f i then g i else i := by
  simp [stableApply]

@[simp] theorem stableApply_length {st : List (Option Nat)} {f : Nat → Bool} {g : Nat → Nat} :
    (stableApply st f g).length = st.length := by simp [stableApply]

theorem IdInv.insert {A B : List Nat} {st : List (Option Nat)} (h : IdInv (A ++ B) st) :
    IdInv (A ++ st.length :: B) (mapInsert st A.length).2 := by
  intro sid i
  simp only [mapInsert]
  by_cases hs : sid < st.length
  · rw [List.getElem?_append_left (by simpa using hs), stableApply_get]
    have key := h sid
    cases hv : st[sid]? with
    | none => simp [List.getElem?_eq_none_iff] at hv; omega
    | some o =>
      cases o with
      | none =>
        simp only [hv] at key
        simp only [Option.map_some, Option.map_none, Option.some.injEq, reduceCtorEq, false_iff]
        intro hc
        rcases Nat.lt_trichotomy i A.length with hi | hi | hi
        · exact absurd ((key i).2 (by rw [List.getElem?_append_left hi] at *; exact hc)) (by simp)
        · subst hi; simp at hc; omega
        · rw [List.getElem?_append_right (by omega)] at hc
          obtain ⟨j, hj⟩ : ∃ j, i - A.length = j + 1 := ⟨i - A.length - 1, by omega⟩
          rw [hj, List.getElem?_cons_succ] at hc
          exact absurd ((key (A.length + j)).2 (by rw [List.getElem?_append_right (by omega)]; simpa using hc)) (by simp)
      | some k =>
        simp only [hv, Option.some.injEq] at key
        simp only [Option.map_some, Option.some.injEq]
        have hk := (key k).1 rfl
        constructor
        · rintro rfl
          by_cases hkA : k ≥ A.length
          · rw [List.getElem?_append_right hkA] at hk
            simp only [hkA, decide_true, if_true]
            rw [List.getElem?_append_right (by omega), show k + 1 - A.length = (k - A.length) + 1 by omega, List.getElem?_cons_succ]
            exact hk
          · simp only [hkA, decide_false]
            rw [List.getElem?_append_left (by omega)] at hk
            simp only [Bool.false_eq_true, if_false]
            rw [List.getElem?_append_left (by omega)]; exact hk
        · intro hc
          rcases Nat.lt_trichotomy i A.length with hi | hi | hi
          · rw [List.getElem?_append_left hi] at hc
            have := (key i).2 (by rw [List.getElem?_append_left hi]; exact hc)
            subst this
            simp only [show ¬ k ≥ A.length by omega, decide_false]; rfl
          · subst hi; simp at hc; omega
          · rw [List.getElem?_append_right (by omega)] at hc
            obtain ⟨j, hj⟩ : ∃ j, i - A.length = j + 1 := ⟨i - A.length - 1, by omega⟩
            rw [hj, List.getElem?_cons_succ] at hc
            have := (key (A.length + j)).2 (by rw [List.getElem?_append_right (by omega)]; simpa using hc)
            subst this
            simp; omega
  · rw [List.getElem?_append_right (by simpa using hs)]
    by_cases he : sid = st.length
    · subst he
      simp only [stableApply_length, Nat.sub_self, List.getElem?_cons_zero, Option.some.injEq]
      constructor
      · rintro rfl; simp
      · intro hc
        rcases Nat.lt_trichotomy i A.length with hi | hi | hi
        · rw [List.getElem?_append_left hi] at hc
          have := (h st.length i).2 (by rw [List.getElem?_append_left hi]; exact hc)
          simp at this
        · exact hi.symm
        · rw [List.getElem?_append_right (by omega)] at hc
          obtain ⟨j, hj⟩ : ∃ j, i - A.length = j + 1 := ⟨i - A.length - 1, by omega⟩
          rw [hj, List.getElem?_cons_succ] at hc
          have := (h st.length (A.length + j)).2 (by rw [List.getElem?_append_right (by omega)]; simpa using hc)
          simp at this
    · rw [List.getElem?_eq_none (by simp; omega)]
      simp only [reduceCtorEq, false_iff]
      intro hc
      have hm := List.mem_of_getElem? hc
      simp only [List.mem_append, List.mem_cons] at hm
      have : sid < st.length ∨ sid = st.length := by
        rcases hm with hm | hm | hm
        · exact .inl (h.lt (by simp [hm]))
        · exact .inr hm
        · exact .inl (h.lt (by simp [hm]))
      omega

theorem IdInv.remove {A B : List Nat} {id : Nat} {st : List (Option Nat)} (h : IdInv (A ++ id :: B) st) :
    ∃ st', mapRemove st id A.length = .ok st' ∧ IdInv (A ++ B) st' ∧ st'[id]? = some none ∧ st'.length = st.length := by
  have hid : id < st.length := h.lt (by simp)
  have hnd := h.nodup
  refine ⟨_, by simp only [mapRemove, stableSet, hid, if_true, R.pure_eq, R.bind_ok]; rfl, ?_, ?_, by simp⟩
  · intro sid i
    rw [stableApply_get]
    by_cases hs : sid = id
    · subst hs
      rw [List.getElem?_set_self hid]
      simp only [Option.map_some, Option.map_none, Option.some.injEq, reduceCtorEq, false_iff]
      intro hc
      have hm := List.mem_of_getElem? hc
      rw [List.nodup_append] at hnd
      simp only [List.mem_append] at hm
      rcases hm with hm | hm
      · exact hnd.2.2 _ hm _ (by simp) rfl
      · exact (List.nodup_cons.1 hnd.2.1).1 hm
    · rw [List.getElem?_set_ne (Ne.symm hs)]
      have key := h sid
      cases hv : st[sid]? with
      | none =>
        simp only [hv, reduceCtorEq, false_iff] at key
        simp only [Option.map_none, reduceCtorEq, false_iff]
        intro hc
        by_cases hi : i < A.length
        · rw [List.getElem?_append_left hi] at hc
          exact key i (by rw [List.getElem?_append_left hi]; exact hc)
        · rw [List.getElem?_append_right (by omega)] at hc
          exact key (i + 1) (by rw [List.getElem?_append_right (by omega), show i + 1 - A.length = (i - A.length) + 1 by omega,
            List.getElem?_cons_succ]; exact hc)
      | some o =>
        cases o with
        | none =>
          simp only [hv, Option.some.injEq, reduceCtorEq, false_iff] at key
          simp only [Option.map_none, Option.map_some, Option.some.injEq, reduceCtorEq, false_iff]
          intro hc
          by_cases hi : i < A.length
          · rw [List.getElem?_append_left hi] at hc
            exact key i (by rw [List.getElem?_append_left hi]; exact hc)
          · rw [List.getElem?_append_right (by omega)] at hc
            exact key (i + 1) (by rw [List.getElem?_append_right (by omega), show i + 1 - A.length = (i - A.length) + 1 by omega,
              List.getElem?_cons_succ]; exact hc)
        | some k =>
          simp only [hv, Option.some.injEq] at key
          simp only [Option.map_some, Option.some.injEq]
          have hk := (key k).1 rfl
          have hkne : k ≠ A.length := by rintro rfl; simp at hk; exact hs hk.symm
          constructor
          · rintro rfl
            by_cases hkA : k > A.length
            · simp only [hkA, decide_true, if_true]
              rw [List.getElem?_append_right (by omega)] at hk ⊢
              rw [show k - A.length = (k - 1 - A.length) + 1 by omega, List.getElem?_cons_succ] at hk
              exact hk
            · simp only [hkA, decide_false, Bool.false_eq_true, if_false]
              rw [List.getElem?_append_left (by omega)] at hk ⊢
              exact hk
          · intro hc
            by_cases hi : i < A.length
            · rw [List.getElem?_append_left hi] at hc
              have := (key i).2 (by rw [List.getElem?_append_left hi]; exact hc)
              subst this
              simp only [show ¬ k > A.length by omega, decide_false]; rfl
            · rw [List.getElem?_append_right (by omega)] at hc
              have := (key (i + 1)).2 (by rw [List.getElem?_append_right (by omega), show i + 1 - A.length = (i - A.length) + 1 by omega,
                List.getElem?_cons_succ]; exact hc)
              subst this
              simp; omega
  · rw [stableApply_get, List.getElem?_set_self hid]; rfl

theorem IdInv.reinsert {A B : List Nat} {id : Nat} {st : List (Option Nat)} (h : IdInv (A ++ B) st) (hid : st[id]? = some none) :
    ∃ st', mapReinsert st A.length id = .ok st' ∧ IdInv (A ++ id :: B) st' ∧ st'.length = st.length := by
  have hlt : id < st.length := (List.getElem?_eq_some_iff.1 hid).1
  refine ⟨_, by simp only [mapReinsert, stableSet, stableApply_length, hlt, if_true]; rfl, ?_, by simp⟩
  have hni : ∀ i : Nat, (A ++ B)[i]? ≠ some id := by
    intro i hc
    have := (h id i).2 hc
    rw [hid] at this; simp at this
  have hm : id ∉ A ++ B := by
    intro hm
    obtain ⟨i, hi, he⟩ := List.getElem_of_mem hm
    exact hni i (by rw [List.getElem?_eq_getElem hi, he])
  intro sid i
  by_cases hs : sid = id
  · subst hs
    rw [List.getElem?_set_self (by simpa using hlt)]
    simp only [Option.some.injEq]
    constructor
    · rintro rfl; simp
    · intro hc
      rcases Nat.lt_trichotomy i A.length with hi | hi | hi
      · rw [List.getElem?_append_left hi] at hc
        exact absurd (List.mem_of_getElem? hc) (fun h => hm (by simp [h]))
      · exact hi.symm
      · rw [List.getElem?_append_right (by omega)] at hc
        obtain ⟨j, hj⟩ : ∃ j, i - A.length = j + 1 := ⟨i - A.length - 1, by omega⟩
        rw [hj, List.getElem?_cons_succ] at hc
        exact absurd (List.mem_of_getElem? hc) (fun h => hm (by simp [h]))
  · rw [List.getElem?_set_ne (Ne.symm hs)]
    have hI := h.insert sid i
    simp only [mapInsert] at hI
    by_cases hl : sid < st.length
    · rw [List.getElem?_append_left (by simpa using hl)] at hI
      rw [hI]
      rcases Nat.lt_trichotomy i A.length with hi | hi | hi
      · rw [List.getElem?_append_left hi, List.getElem?_append_left hi]
      · subst hi; simp [show st.length ≠ sid by omega, show id ≠ sid by omega]
      · rw [List.getElem?_append_right (by omega), List.getElem?_append_right (by omega)]
        obtain ⟨j, hj⟩ : ∃ j, i - A.length = j + 1 := ⟨i - A.length - 1, by omega⟩
        rw [hj, List.getElem?_cons_succ, List.getElem?_cons_succ]
    · rw [List.getElem?_eq_none (by simp; omega)]
      simp only [reduceCtorEq, false_iff]
      intro hc
      have hm := List.mem_of_getElem? hc
      simp only [List.mem_append, List.mem_cons] at hm
      have : sid < st.length := by
        rcases hm with hm | hm | hm
        · exact h.lt (by simp [hm])
        · exact absurd hm hs
        · exact h.lt (by simp [hm])
      omega

end Mock
end Sherman
