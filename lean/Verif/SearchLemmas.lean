import Verif.Rep
/-!
# Searching in a node
-/
namespace Sherman
variable {S C : Type}

/-- Every run has a positive size. -/
def Pos (es : List (Ent S)) : Prop := ∀ e ∈ es, 0 < e.size

theorem Pos.append {a b : List (Ent S)} : Pos (a ++ b) ↔ Pos a ∧ Pos b := by
  simp only [Pos, List.mem_append]
  constructor
  · intro h; exact ⟨fun e he => h e (.inl he), fun e he => h e (.inr he)⟩
  · rintro ⟨h1, h2⟩ e (he | he)
    · exact h1 e he
    · exact h2 e he

theorem Pos.cons {e : Ent S} {b : List (Ent S)} : Pos (e :: b) ↔ 0 < e.size ∧ Pos b := by
  simp [Pos]

theorem Pos.nil : Pos ([] : List (Ent S)) := by simp [Pos]

theorem bsearch_err {MAX t : Nat} {A B : List Nat} (hA : ∀ a ∈ A, a < t) (hB : ∀ b ∈ B, t < b)
    {left right : Nat} (h1 : left ≤ A.length) (h2 : A.length ≤ right) (h3 : right ≤ (A ++ B).length) :
    bsearch (natIdx MAX) (A ++ B) t left right = .ok (.inr A.length) := by
  induction hn : right - left using Nat.strongRecOn generalizing left right with
  | _ n ih =>
    unfold bsearch
    by_cases hlt : left < right
    · rw [dif_pos hlt]
      have hmid : left + (right - left) / 2 < right := by omega
      have hmid2 : left ≤ left + (right - left) / 2 := by omega
      simp only
      generalize left + (right - left) / 2 = mid at hmid hmid2
      by_cases hm : mid < A.length
      · have hg : (A ++ B)[mid]? = some A[mid] := by
          rw [List.getElem?_append_left hm, List.getElem?_eq_getElem hm]
        have hc : (natIdx MAX).cmp A[mid] t = .lt := by
          simp only [natIdx_cmp, Nat.compare_eq_lt]
          exact hA _ (List.getElem_mem hm)
        rw [hg]
        simp only [hc]
        exact ih (right - (mid + 1)) (by omega) (by omega) h2 h3 rfl
      · have hmB : mid - A.length < B.length := by simp at h3; omega
        have hg : (A ++ B)[mid]? = some B[mid - A.length] := by
          rw [List.getElem?_append_right (by omega), List.getElem?_eq_getElem hmB]
        have hc : (natIdx MAX).cmp B[mid - A.length] t = .gt := by
          simp only [natIdx_cmp, Nat.compare_eq_gt]
          exact hB _ (List.getElem_mem hmB)
        rw [hg]
        simp only [hc]
        exact ih (mid - left) (by omega) h1 (by omega) (by omega) rfl
    · rw [dif_neg hlt]
      congr 2; omega

theorem bsearch_ok {MAX t : Nat} {A B : List Nat} (hA : ∀ a ∈ A, a < t) (hB : ∀ b ∈ B, t < b)
    {left right : Nat} (h1 : left ≤ A.length) (h2 : A.length < right)
    (h3 : right ≤ (A ++ t :: B).length) :
    bsearch (natIdx MAX) (A ++ t :: B) t left right = .ok (.inl A.length) := by
  induction hn : right - left using Nat.strongRecOn generalizing left right with
  | _ n ih =>
    unfold bsearch
    have hlt : left < right := by omega
    rw [dif_pos hlt]
    have hmid : left + (right - left) / 2 < right := by omega
    have hmid2 : left ≤ left + (right - left) / 2 := by omega
    simp only
    generalize left + (right - left) / 2 = mid at hmid hmid2
    by_cases hm : mid < A.length
    · have hg : (A ++ t :: B)[mid]? = some A[mid] := by
        rw [List.getElem?_append_left hm, List.getElem?_eq_getElem hm]
      have hc : (natIdx MAX).cmp A[mid] t = .lt := by
        simp only [natIdx_cmp, Nat.compare_eq_lt]
        exact hA _ (List.getElem_mem hm)
      rw [hg]
      simp only [hc]
      exact ih (right - (mid + 1)) (by omega) (by omega) h2 h3 rfl
    · by_cases he : mid = A.length
      · subst he
        have hg : (A ++ t :: B)[A.length]? = some t := by simp
        have hc : (natIdx MAX).cmp t t = .eq := by
          simp only [natIdx_cmp, Nat.compare_eq_eq]
        rw [hg]
        simp only [hc]
      · have hmB : mid - A.length - 1 < B.length := by simp at h3; omega
        have hg : (A ++ t :: B)[mid]? = some B[mid - A.length - 1] := by
          rw [show A ++ t :: B = (A ++ [t]) ++ B by simp]
          rw [List.getElem?_append_right (by simp; omega)]
          rw [show mid - (A ++ [t]).length = mid - A.length - 1 by simp; omega]
          rw [List.getElem?_eq_getElem hmB]
        have hc : (natIdx MAX).cmp B[mid - A.length - 1] t = .gt := by
          simp only [natIdx_cmp, Nat.compare_eq_gt]
          exact hB _ (List.getElem_mem hmB)
        rw [hg]
        simp only [hc]
        exact ih (mid - left) (by omega) h1 (by omega) (by omega) rfl

/-- Positions of keys left of a child are before the child. -/
theorem keysL_pos_lt {sz : C → Nat} {psl : List (Item S C)} (h : ∀ it ∈ psl, 0 < it.size) (o : Nat) :
    ∀ k ∈ keysL sz o psl, k.pos < o + tot sz psl := by
  induction psl generalizing o with
  | nil => simp
  | cons it r ih =>
    intro k hk
    simp only [keysL_cons, List.mem_cons, tot_cons] at hk ⊢
    have h0 := h it (by simp)
    rcases hk with rfl | hk
    · simp only; omega
    · have := ih (fun x hx => h x (by simp [hx])) _ k hk
      omega

/-- Positions of keys right of a child are not before the end of the child. -/
theorem keysR_pos_ge {sz : C → Nat} {psr : List (Item S C)} (o : Nat) :
    ∀ k ∈ keysR sz o psr, o ≤ k.pos := by
  induction psr generalizing o with
  | nil => simp
  | cons it r ih =>
    intro k hk
    simp only [keysR_cons, List.mem_cons] at hk
    rcases hk with rfl | hk
    · simp
    · have := ih _ k hk
      omega

section node
variable {MAX h p t : Nat} {psl psr : List (Item S (Tree Nat S h))} {c : Tree Nat S h}
  {it : Item S (Tree Nat S h)}

/-- The search goes into the child that covers the target. -/
theorem fullStep_child (hpos : ∀ it ∈ psl, 0 < it.size) (h1 : tot szN psl ≤ t)
    (h2 : t < tot szN psl + szN c ∨ (psr = [] ∧ t ≤ tot szN psl + szN c)) :
    fullStep (h := h) (natIdx MAX) (mkG szN p psl c (szN c) psr) t = .ok (.child psl.length (tot szN psl)) := by
  have hb : bsearch (natIdx MAX) ((mkG szN p psl c (szN c) psr).keys.map (·.pos)) t 0
      (mkG szN p psl c (szN c) psr).len = .ok (.inr psl.length) := by
    have := bsearch_err (MAX := MAX) (t := t) (A := (keysL szN 0 psl).map (·.pos))
      (B := (keysR szN (tot szN psl + szN c) psr).map (·.pos)) (left := 0)
      (right := psl.length + psr.length)
      (by
        intro a ha
        simp only [List.mem_map] at ha
        obtain ⟨k, hk, rfl⟩ := ha
        have := keysL_pos_lt hpos 0 k hk
        omega)
      (by
        intro b hb
        simp only [List.mem_map] at hb
        obtain ⟨k, hk, rfl⟩ := hb
        rcases h2 with h2 | ⟨rfl, _⟩
        · have := keysR_pos_ge _ k hk
          omega
        · simp at hk)
      (by simp) (by simp) (by simp)
    simpa [mkG, Node.len] using this
  unfold fullStep
  change (bsearch (natIdx MAX) ((mkG szN p psl c (szN c) psr).keys.map (·.pos)) t 0
      (mkG szN p psl c (szN c) psr).len).bind _ = _
  rw [hb]
  simp only [Except.bind]
  cases hl : psl.length with
  | zero =>
    obtain rfl : psl = [] := List.length_eq_zero_iff.mp hl
    rfl
  | succ k =>
    have hn : (mkG szN p psl c (szN c) psr).nextPos (k + 1) = tot szN psl + szN c :=
      nextPos_at (sz := szN) (psr := psr) rfl (by simp [hl]) rfl
    have hc : (mkG szN p psl c (szN c) psr).childSize (szT (natIdx MAX)) (k + 1) = .ok (szN c) := by
      rw [szT_natIdx]
      exact childSize_at (KA := kidsOf psl) (KB := kidsOf psr) rfl (by simp [hl])
    have h3 : decide (t ≤ tot szN psl + szN c) = true := by
      rcases h2 with h2 | h2 <;> simp <;> omega
    have h4 : szN c ≤ tot szN psl + szN c := by omega
    have h5 : tot szN psl + szN c - szN c = tot szN psl := by omega
    have h6 : ¬ t < tot szN psl := by omega
    simp only [hn]
    rw [hc]
    simp [h3, subR_ok h4, h5, h6]

/-- The search finds the key that covers the target. -/
theorem fullStep_key (hpos : ∀ it ∈ psl, 0 < it.size)
    (h1 : tot szN psl + szN c ≤ t) (h2 : t < tot szN psl + szN c + it.size) :
    fullStep (h := h) (natIdx MAX) (mkG szN p psl c (szN c) (it :: psr)) t =
      .ok (.key psl.length (tot szN psl + szN c)) := by
  have hkp : (mkG szN p psl c (szN c) (it :: psr)).keyPos psl.length = .ok (tot szN psl + szN c) :=
    keyPos_at (A := keysL szN 0 psl) (k := ⟨tot szN psl + szN c, it.slice, it.ref⟩) rfl (by simp)
  have hlt : ∀ a ∈ (keysL szN 0 psl).map (·.pos), a < tot szN psl + szN c := by
    intro a ha
    simp only [List.mem_map] at ha
    obtain ⟨k, hk, rfl⟩ := ha
    have := keysL_pos_lt hpos 0 k hk
    omega
  have hgt : ∀ b ∈ (keysR szN (tot szN psl + szN c + it.size + szN it.kid) psr).map (·.pos), t < b := by
    intro b hb
    simp only [List.mem_map] at hb
    obtain ⟨k, hk, rfl⟩ := hb
    have := keysR_pos_ge _ k hk
    omega
  unfold fullStep
  by_cases he : t = tot szN psl + szN c
  · have hb : bsearch (natIdx MAX) ((mkG szN p psl c (szN c) (it :: psr)).keys.map (·.pos)) t 0
        (mkG szN p psl c (szN c) (it :: psr)).len = .ok (.inl psl.length) := by
      have := bsearch_ok (MAX := MAX) (t := t) (A := (keysL szN 0 psl).map (·.pos))
        (B := (keysR szN (tot szN psl + szN c + it.size + szN it.kid) psr).map (·.pos)) (left := 0)
        (right := psl.length + (psr.length + 1))
        (by intro a ha; have := hlt a ha; omega) hgt (by simp) (by simp) (by simp)
      simpa [mkG, Node.len, he] using this
    change (bsearch (natIdx MAX) ((mkG szN p psl c (szN c) (it :: psr)).keys.map (·.pos)) t 0
      (mkG szN p psl c (szN c) (it :: psr)).len).bind _ = _
    rw [hb]
    simp only [Except.bind]
    rw [hkp]
    rfl
  · have hb : bsearch (natIdx MAX) ((mkG szN p psl c (szN c) (it :: psr)).keys.map (·.pos)) t 0
        (mkG szN p psl c (szN c) (it :: psr)).len = .ok (.inr (psl.length + 1)) := by
      have := bsearch_err (MAX := MAX) (t := t) (A := (keysL szN 0 psl).map (·.pos) ++ [tot szN psl + szN c])
        (B := (keysR szN (tot szN psl + szN c + it.size + szN it.kid) psr).map (·.pos)) (left := 0)
        (right := psl.length + (psr.length + 1))
        (by
          intro a ha
          simp only [List.mem_append, List.mem_singleton] at ha
          rcases ha with ha | rfl
          · have := hlt a ha; omega
          · omega) hgt (by simp) (by simp) (by simp [Nat.add_assoc, Nat.add_comm])
      simpa [mkG, Node.len] using this
    change (bsearch (natIdx MAX) ((mkG szN p psl c (szN c) (it :: psr)).keys.map (·.pos)) t 0
      (mkG szN p psl c (szN c) (it :: psr)).len).bind _ = _
    rw [hb]
    simp only [Except.bind]
    have hn : (mkG szN p psl c (szN c) (it :: psr)).nextPos (psl.length + 1) =
        tot szN psl + szN c + it.size + szN it.kid :=
      nextPos_at (sz := szN) (psr := psr)
        (A := keysL szN 0 psl ++ [⟨tot szN psl + szN c, it.slice, it.ref⟩]) (by simp [mkG]) (by simp)
        (by simp [mkG]; omega)
    have hc : (mkG szN p psl c (szN c) (it :: psr)).childSize (szT (natIdx MAX)) (psl.length + 1) =
        .ok (szN it.kid) := by
      rw [szT_natIdx]
      exact childSize_at (KA := kidsOf psl ++ [c]) (KB := kidsOf psr) (by simp [mkG]) (by simp)
    have h3 : decide (t ≤ tot szN psl + szN c + it.size + szN it.kid) = true := by simp; omega
    have h4 : szN it.kid ≤ tot szN psl + szN c + it.size + szN it.kid := by omega
    have h5 : tot szN psl + szN c + it.size + szN it.kid - szN it.kid = tot szN psl + szN c + it.size := by
      omega
    have h6 : t < tot szN psl + szN c + it.size := by omega
    simp only [hn]
    rw [hc]
    simp only [R.bind_ok, natIdx_le, h3, check_true, subR_ok h4, h5, natIdx_lt, h6, decide_true, if_true]
    rw [hkp]
    rfl

end node

/-- A child or a key of `n` covers the target. -/
def Covered (M lo : Nat) {h : Nat} (n : Tree Nat S (h + 1)) (es : List (Ent S)) (t : Nat) : Prop :=
  ∃ (psl psr : List (Item S (Tree Nat S h))) (c : Tree Nat S h) (ec : List (Ent S)),
    n = mkG szN (Node.ptr n) psl c (szN c) psr ∧ RepItems M psl ∧ Rep M M c ec ∧
    RepItems M psr ∧ es = entsL psl ++ ec ++ entsR psr ∧ lo ≤ psl.length + psr.length ∧
    psl.length + psr.length ≤ 2 * M ∧ tot szN psl ≤ t ∧
    (t < tot szN psl + szN c ∨ (psr = [] ∧ t ≤ tot szN psl + szN c) ∨
      ∃ it psr', psr = it :: psr' ∧ tot szN psl + szN c ≤ t ∧ t < tot szN psl + szN c + it.size)

theorem Rep.locate {M lo h : Nat} {n : Tree Nat S (h + 1)} {es : List (Ent S)} (hr : Rep M lo n es) {t : Nat}
    (ht : t ≤ total es) : Covered M lo n es t := by
  obtain ⟨c, ec, psr, hn, hc, hi, he, h1, h2⟩ := hr
  have key : ∀ (psr psl : List (Item S (Tree Nat S h))) (c : Tree Nat S h) (ec : List (Ent S)),
      n = mkG szN (Node.ptr n) psl c (szN c) psr → RepItems M psl → Rep M M c ec → RepItems M psr →
      es = entsL psl ++ ec ++ entsR psr → lo ≤ psl.length + psr.length →
      psl.length + psr.length ≤ 2 * M → tot szN psl ≤ t → Covered M lo n es t := by
    intro psr
    induction psr with
    | nil =>
      intro psl c ec a1 a2 a3 a4 a5 a6 a7 a8
      refine ⟨psl, [], c, ec, a1, a2, a3, a4, a5, a6, a7, a8, .inr (.inl ⟨rfl, ?_⟩)⟩
      have e1 := a2.totL
      have e2 := a3.size
      rw [a5] at ht
      simp at ht
      omega
    | cons it r ih =>
      intro psl c ec a1 a2 a3 a4 a5 a6 a7 a8
      by_cases c1 : t < tot szN psl + szN c
      · exact ⟨psl, it :: r, c, ec, a1, a2, a3, a4, a5, a6, a7, a8, .inl c1⟩
      · by_cases c2 : t < tot szN psl + szN c + it.size
        · exact ⟨psl, it :: r, c, ec, a1, a2, a3, a4, a5, a6, a7, a8,
            .inr (.inr ⟨it, r, rfl, by omega, c2⟩)⟩
        · rw [RepItems.cons] at a4
          refine ih (psl ++ [{ it with kid := c, ents := ec }]) it.kid it.ents ?_ ?_ a4.1 a4.2 ?_ ?_ ?_ ?_
          · rw [← mkG_move]; exact a1
          · exact RepItems.append.mpr ⟨a2, RepItems.cons.mpr ⟨a3, RepItems.nil⟩⟩
          · simp [a5, Item.ent]
          · simp at a6 ⊢; omega
          · simp at a7 ⊢; omega
          · simp; omega
  exact key psr [] c ec hn RepItems.nil hc hi (by simpa using he) (by simpa using h1) (by simpa using h2)
    (by simp)

theorem Pos.items {psl : List (Item S C)} (h : Pos (entsL psl)) : ∀ it ∈ psl, 0 < it.size := by
  induction psl with
  | nil => simp
  | cons x r ih =>
    rw [entsL_cons, Pos.append, Pos.cons] at h
    intro it hit
    simp only [List.mem_cons] at hit
    rcases hit with rfl | hit
    · exact h.2.1
    · exact ih h.2.2 it hit

/-- Cursors do not change the outcome of a search step. -/
theorem searchStep_hint {M MAX lo h t : Nat} {n : Tree Nat S (h + 1)} {es : List (Ent S)}
    (hr : Rep M lo n es) (hp : Pos es) (ht : t ≤ total es) (hint : Option Nat) :
    searchStep (natIdx MAX) n hint t = fullStep (natIdx MAX) n t := by
  have hs := hr.size
  have hs' : Node.size n = total es := hs
  have hchk : (!(natIdx MAX).debug || (natIdx MAX).le t (Node.size n)) = true := by rw [hs']; simp [ht]
  unfold searchStep
  rw [hchk]
  simp only [check_true, R.bind_ok]
  have hh : hintStep (natIdx MAX) n hint t = .ok none ∨
      ∃ s, hintStep (natIdx MAX) n hint t = .ok (some s) ∧ fullStep (natIdx MAX) n t = .ok s := by
    cases h with
    | zero => left; rfl
    | succ h =>
      cases hint with
      | none => left; rfl
      | some c =>
        by_cases hc : c > Node.len n
        · left; simp [hintStep, hc]
        · obtain ⟨psl, psr, ch, ec, hl, hn, a1, a2, a3, a4, _⟩ := hr.focus (i := c) (by omega)
          have hcs : Node.childSize (szT (natIdx MAX)) n c = .ok (szN ch) := by
            rw [szT_natIdx, hn]
            exact childSize_at (KA := kidsOf psl) (KB := kidsOf psr) rfl (by simp [hl])
          have hnp : Node.nextPos n c = tot szN psl + szN ch := by
            rw [hn]
            exact nextPos_at (sz := szN) (psr := psr) rfl (by simp [hl]) rfl
          have h4 : szN ch ≤ tot szN psl + szN ch := by omega
          have h5 : tot szN psl + szN ch - szN ch = tot szN psl := by omega
          simp only [hintStep, if_neg hc, hcs, R.bind_ok, hnp, subR_ok h4, h5, natIdx_le, natIdx_lt]
          by_cases hin : tot szN psl ≤ t ∧ t < tot szN psl + szN ch
          · right
            refine ⟨.child c (tot szN psl), by simp [hin], ?_⟩
            rw [hn, ← hl]
            refine fullStep_child ?_ hin.1 (.inl hin.2)
            rw [a4, Pos.append, Pos.append] at hp
            exact hp.1.1.items
          · left
            simp only [Bool.and_eq_true, decide_eq_true_eq]
            rw [if_neg hin]
            rfl
  rcases hh with hh | ⟨s, hh, hf⟩
  · rw [hh]; rfl
  · rw [hh, hf]; rfl

end Sherman
