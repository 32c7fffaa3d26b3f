import Verif.TreeProps2
import Mathlib.Data.List.Chain
/-!
# C12: trees of `Constant` are maximally joined
-/
namespace Sherman
variable {MAX : Nat}

/-- No two adjacent runs hold equal values. -/
def Distinct {T : Type} [BEq T] (es : List (Ent T)) : Prop :=
  ∀ A a b B, es = A ++ a :: b :: B → (a.slice == b.slice) = false

abbrev Ne' {T : Type} [BEq T] (a b : Ent T) : Prop := (a.slice == b.slice) = false

theorem distinct_iff {T : Type} [BEq T] {es : List (Ent T)} : Distinct es ↔ es.IsChain Ne' := by
  constructor
  · intro h
    induction es with
    | nil => exact .nil
    | cons e es ih =>
      cases es with
      | nil => exact .singleton _
      | cons b es =>
        refine .cons_cons (h [] e b es rfl) (ih ?_)
        intro A a c B hab
        exact h (e :: A) a c B (by rw [hab]; rfl)
  · intro h A a b B hab
    rw [hab] at h
    rw [List.isChain_append] at h
    have := h.2.1
    rw [List.isChain_cons_cons] at this
    exact this.1

theorem specInsert_const {T : Type} [BEq T] [PartialEquivBEq T] {es : List (Ent T)} {idx : Nat} {s : T} {size : Nat}
    (hidx : idx ≤ total es) (h : es.IsChain Ne') :
    ∃ es', specInsert (constSl T) es idx s size = .ok es' ∧ es'.IsChain Ne' := by
  obtain ⟨L, R, o, h1, rfl, rfl, h4⟩ := cutAt_spec hidx
  have sym : ∀ a b : T, (a == b) = (b == a) := fun a b => BEq.comm
  have tr : ∀ a b c : T, (a == b) = true → (a == c) = (b == c) := fun a b c hab => by
    cases hbc : b == c with
    | true => exact BEq.trans hab hbc
    | false =>
      cases hac : a == c with
      | false => rfl
      | true =>
        have := BEq.trans (BEq.symm hab) hac
        rw [hbc] at this; cases this
  simp only [specInsert, h1]
  cases o with
  | succ o =>
    rcases h4 with ⟨_, h4⟩ | ⟨e, R, rfl, h4⟩
    · cases h4
    · refine ⟨_, rfl, ?_⟩
      rw [List.isChain_append] at h
      obtain ⟨hL, hR, hLR⟩ := h
      rw [List.isChain_cons] at hR
      simp only [specSplit, constSl]
      cases hes : e.slice == s with
      | true =>
        have hee : (e.slice == e.slice) = true := BEq.trans hes (BEq.symm hes)
        simp only [Bool.true_eq_false, if_false, hes, if_true, hee]
        simp only [List.append_assoc, List.isChain_append, List.isChain_cons, List.singleton_append]
        grind
      | false =>
        have hse : (s == e.slice) = false := by rw [sym]; exact hes
        simp only [Bool.true_eq_false, if_false, hes, Bool.false_eq_true, hse]
        simp only [List.append_assoc, List.isChain_append, List.isChain_cons, List.cons_append, List.nil_append]
        grind
  | zero =>
    simp only
    unfold specEdge
    rw [if_neg (by simp [constSl])]
    rcases List.eq_nil_or_concat L with rfl | ⟨L, l, rfl⟩
    · cases R with
      | nil => exact ⟨_, rfl, .singleton _⟩
      | cons r R =>
        simp only [List.nil_append, List.isChain_cons] at h
        simp only [List.getLast?_nil, constSl]
        cases hsr : s == r.slice with
        | true =>
          simp only [if_true]
          refine ⟨_, rfl, ?_⟩
          simp only [List.isChain_cons]
          grind
        | false =>
          simp only [Bool.false_eq_true, if_false]
          refine ⟨_, rfl, ?_⟩
          simp only [List.isChain_cons]
          grind
    · rw [List.concat_eq_append] at *
      cases R with
      | nil =>
        simp only [List.append_nil, List.isChain_append, List.isChain_cons] at h
        simp only [List.getLast?_concat, List.dropLast_concat, constSl]
        cases hls : l.slice == s with
        | true =>
          simp only [if_true]
          refine ⟨_, rfl, ?_⟩
          simp only [List.isChain_append, List.isChain_cons]
          grind
        | false =>
          simp only [Bool.false_eq_true, if_false]
          refine ⟨_, rfl, ?_⟩
          simp only [List.isChain_append, List.isChain_cons]
          grind
      | cons r R =>
        simp only [List.append_assoc, List.singleton_append, List.isChain_append, List.isChain_cons] at h
        have hlr : (l.slice == r.slice) = false := by grind
        simp only [List.getLast?_concat, List.dropLast_concat, constSl]
        cases hls : l.slice == s with
        | true =>
          simp only [if_true, hlr, Bool.false_eq_true, if_false]
          refine ⟨_, rfl, ?_⟩
          simp only [List.isChain_append, List.isChain_cons]
          grind
        | false =>
          simp only [Bool.false_eq_true, if_false]
          cases hsr : s == r.slice with
          | true =>
            simp only [if_true]
            refine ⟨_, rfl, ?_⟩
            simp only [List.isChain_append, List.isChain_cons]
            grind
          | false =>
            simp only [Bool.false_eq_true, if_false]
            refine ⟨_, rfl, ?_⟩
            simp only [List.isChain_append, List.isChain_cons]
            grind

variable {T : Type} [BEq T] [PartialEquivBEq T] {M : Nat} {refs : Bool}

/-- C12: in a tree of constants adjacent runs differ. Equality only has to be symmetric and transitive, as `PartialEq` demands. -/
theorem const_distinct {t : RleTree Nat T} (ht : Reach MAX ⟨natIdx MAX, constSl T, M, refs⟩ t) : Distinct t.runs := by
  rw [distinct_iff]
  induction ht with
  | empty h =>
    simp only [RleTree.newEmpty, bind_ok_iff] at h
    obtain ⟨_, _, _, _, h⟩ := h
    cases h
    exact .nil
  | single _ h =>
    simp only [RleTree.new, bind_ok_iff] at h
    obtain ⟨_, _, _, _, _, _, h⟩ := h
    cases h
    exact .singleton _
  | @insert t t' nop hints idx s size w out ht hs h ih =>
    have h1 := insert_ok_conditions rfl ht hs h
    have h2 := insert_runs rfl ht hs h
    obtain ⟨es', h3, h4⟩ := specInsert_const (size := size) (s := s) (idx := idx)
      (by rw [← (size_eq_total rfl ht).1]; exact h1.1) ih
    have h2 : specInsert (constSl T) t.runs idx s size = .ok t'.runs := h2
    rw [h2] at h3
    cases h3
    exact h4
  | @relabel t f ht ih =>
    have h1 := ((ht.holds rfl).2.1.relabel f).2
    have h2 : (t.relabel f).runs.map (·.slice) = t.runs.map (·.slice) := by
      have := congrArg (List.map Prod.snd) h1
      simpa only [List.map_map, Function.comp_def] using this
    rw [← List.isChain_map (f := fun e : Ent T => e.slice) (R := fun a b : T => (a == b) = false)] at ih ⊢
    rw [h2]; exact ih
  | @alike t t' e ht ih =>
    rw [(e.holds (ht.holds rfl).2.1).runs]; exact ih

/-- C12: so the unimplemented branch is out of reach, and insertion into a tree of constants fails only as documented. -/
theorem const_insert_returns {t : RleTree Nat T} (ht : Reach MAX ⟨natIdx MAX, constSl T, M, false⟩ t) (nop : Bool)
    (hints : List Nat) {idx : Nat} (s : T) {size : Nat} (w : World) (hidx : idx ≤ total t.runs) (hs : 0 < size)
    (hb : total t.runs + size ≤ MAX) :
    ∃ r, t.insert ⟨natIdx MAX, constSl T, M, false⟩ nop hints idx s size w = .ok r := by
  obtain ⟨es', h3, _⟩ := specInsert_const (size := size) (s := s) hidx (distinct_iff.1 (const_distinct ht))
  obtain ⟨t', out, h4, _⟩ := insert_returns rfl ht nop hints s w hidx hs hb h3
  exact ⟨_, h4⟩

example : ∃ t, Reach 255 exEnv t ∧ Distinct t.runs ∧ t.runs.length = 11 ∧
    ∃ r, t.insert exEnv false [] 12 'z' 9 exWorld = .ok r := by
  obtain ⟨t, h2, hsz, hl⟩ := exSize
  have h3 : total t.runs = 29 := by rw [← (size_eq_total (MAX := 255) rfl h2).1]; exact hsz
  exact ⟨t, h2, const_distinct (MAX := 255) h2, hl,
    const_insert_returns (MAX := 255) h2 false [] 'z' exWorld (by omega) (by omega) (by omega)⟩

end Sherman
