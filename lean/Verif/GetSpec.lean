import Verif.Cells
/-!
# `get` and `cursor_to` find the run that covers the index
-/
namespace Sherman
variable {S : Type}

theorem getKey_spec {MAX h p t base : Nat} {psl psr : List (Item S (Tree Nat S h))} {c : Tree Nat S h}
    {it : Item S (Tree Nat S h)} (h1 : tot szN psl + szN c ≤ t)
    (hb : base + (tot szN psl + szN c + it.size) ≤ MAX) :
    getKey (natIdx MAX) (base + t) (h := h) (mkG szN p psl c (szN c) (it :: psr)) t psl.length
        (tot szN psl + szN c) =
      .ok ⟨base + (tot szN psl + szN c), base + (tot szN psl + szN c) + it.size, it.slice, p, psl.length, it.ref⟩ := by
  have hh : Node.handle (mkG szN p psl c (szN c) (it :: psr)) psl.length =
      .ok ⟨tot szN psl + szN c, it.slice, it.ref⟩ :=
    handle_at (A := keysL szN 0 psl) (B := keysR szN (tot szN psl + szN c + it.size + szN it.kid) psr) rfl
      (keysL_length _ _)
  have hss : Node.sliceSize (natIdx MAX) (szT (natIdx MAX)) (mkG szN p psl c (szN c) (it :: psr)) psl.length =
      .ok it.size := by
    rw [szT_natIdx]
    exact sliceSize_at (A := keysL szN 0 psl) (KA := kidsOf psl ++ [c]) (KB := kidsOf psr)
      (psr := psr) (X := tot szN psl + szN c + it.size + szN it.kid) rfl (by simp) (by simp [mkG])
      (by simp) (by simp [mkG]; omega) rfl
  have h2 : base + t - (t - (tot szN psl + szN c)) = base + (tot szN psl + szN c) := by omega
  have h3 : t - (tot szN psl + szN c) ≤ base + t := by omega
  have h4 : base + (tot szN psl + szN c) + it.size ≤ MAX := by omega
  simp only [getKey, hh, R.bind_ok, subL_ok h1, subR_ok h3, h2, hss, addR_ok h4]
  rfl

/-- A node whose key covers the target. -/
theorem search_key {MAX M lo h : Nat} {n : Tree Nat S (h + 1)} {es : List (Ent S)} {t base : Nat}
    {psl psr : List (Item S (Tree Nat S h))} {it : Item S (Tree Nat S h)} {c : Tree Nat S h} {ec : List (Ent S)}
    (hr : Rep M lo n es) (hp : Pos es) (hn : n = mkG szN (Node.ptr n) psl c (szN c) (it :: psr))
    (h1 : RepItems M psl) (h2 : Rep M M c ec) (h4 : es = entsL psl ++ ec ++ entsR (it :: psr))
    (h5 : tot szN psl + szN c ≤ t) (h6 : t < tot szN psl + szN c + it.size) (hb : base + total es ≤ MAX) :
    (∀ hint, searchStep (natIdx MAX) n hint t = .ok (.key psl.length (tot szN psl + szN c))) ∧
    total (entsL psl ++ ec) = tot szN psl + szN c ∧
    (cells n)[(entsL psl ++ ec).length]? = some ⟨[], Node.ptr n, psl.length, it.slice, it.ref⟩ ∧
    getKey (natIdx MAX) (base + t) n t psl.length (tot szN psl + szN c) =
      .ok ⟨base + total (entsL psl ++ ec), base + total (entsL psl ++ ec) + it.size, it.slice, Node.ptr n, psl.length,
        it.ref⟩ := by
  have e1 := RepItems.totL h1
  have e2 := h2.size
  have hpos : ∀ it ∈ psl, 0 < it.size := by
    have hp' := hp
    rw [h4, Pos.append, Pos.append] at hp'
    exact hp'.1.1.items
  have ht : total (entsL psl ++ ec) = tot szN psl + szN c := by simp only [total_append]; omega
  have hsz : total es = tot szN psl + szN c + it.size + total (it.ents ++ entsR psr) := by
    rw [h4]; simp [Item.ent]; omega
  refine ⟨?_, ht, ?_, ?_⟩
  · intro hint
    rw [searchStep_hint hr hp (by omega) hint]
    have := fullStep_key (MAX := MAX) (p := Node.ptr n) (psr := psr) hpos h5 h6
    rw [← hn] at this; exact this
  · rw [hn, cells_mkG]
    have l1 := cellsL_length (p := Node.ptr n) (i := 0) h1
    have l2 := cells_length h2
    have l3 : (cellsL (Node.ptr n) 0 psl ++ (cells c).map (Cell.under psl.length)).length =
        (entsL psl ++ ec).length := by simp [l1, l2]
    rw [← l3, List.getElem?_append_right (Nat.le_refl _)]
    simp [cellsR, mkG]
  · rw [ht]
    have := getKey_spec (MAX := MAX) (p := Node.ptr n) (psr := psr) (it := it) (base := base) h5 (by omega)
    rw [← hn] at this
    rw [this]

/-- Both searches end at the run that covers the target. -/
theorem search_spec {MAX M : Nat} : ∀ {h : Nat} {lo : Nat} {n : Tree Nat S (h + 1)} {es : List (Ent S)} {t base : Nat},
    Rep M lo n es → Pos es → t < total es → base + total es ≤ MAX →
    ∃ a e b path ptr k, es = a ++ e :: b ∧ total a ≤ t ∧ t < total a + e.size ∧
      (cells n)[a.length]? = some ⟨path, ptr, k, e.slice, e.ref⟩ ∧
      (∀ hints, getLoop (natIdx MAX) (base + t) n hints t =
        .ok ⟨base + total a, base + total a + e.size, e.slice, ptr, k, e.ref⟩) ∧
      cursorLoop (natIdx MAX) n t = .ok path := by
  intro h
  induction h with
  | zero =>
    intro lo n es t base hr hp ht hb
    obtain ⟨psl, psr, c, ec, hn, a1, a2, a3, a4, a5, a6, a7, a8⟩ := hr.locate (Nat.le_of_lt ht)
    have hc : szN c = 0 := rfl
    have e1 := RepItems.totL a1
    have e3 := RepItems.totR a3
    have e2 := a2.size
    have hsz : total es = tot szN psl + szN c + tot szN psr := by rw [a4]; simp; omega
    rcases a8 with h2 | ⟨rfl, h2⟩ | ⟨it, psr', rfl, h2, h3⟩
    · omega
    · simp at hsz; omega
    · obtain ⟨b1, b2, b3, b4⟩ := search_key (MAX := MAX) (base := base) hr hp hn a1 a2 a4 h2 h3 hb
      refine ⟨entsL psl ++ ec, it.ent, it.ents ++ entsR psr', [], Node.ptr n, psl.length, by simp [a4], by omega,
        by simp only [Item.ent]; omega, b3, ?_, rfl⟩
      intro hints
      simp only [getLoop, b1, R.bind_ok]
      exact b4
  | succ h ih =>
    intro lo n es t base hr hp ht hb
    obtain ⟨psl, psr, c, ec, hn, a1, a2, a3, a4, a5, a6, a7, a8⟩ := hr.locate (Nat.le_of_lt ht)
    have e1 := RepItems.totL a1
    have e3 := RepItems.totR a3
    have e2 := a2.size
    have hsz : total es = tot szN psl + szN c + tot szN psr := by rw [a4]; simp; omega
    have hp' := hp
    rw [a4, Pos.append, Pos.append] at hp'
    have hkey : ∀ it psr', psr = it :: psr' → tot szN psl + szN c ≤ t → t < tot szN psl + szN c + it.size →
        ∃ a e b path ptr k, es = a ++ e :: b ∧ total a ≤ t ∧ t < total a + e.size ∧
          (cells n)[a.length]? = some ⟨path, ptr, k, e.slice, e.ref⟩ ∧
          (∀ hints, getLoop (natIdx MAX) (base + t) n hints t =
            .ok ⟨base + total a, base + total a + e.size, e.slice, ptr, k, e.ref⟩) ∧
          cursorLoop (natIdx MAX) n t = .ok path := by
      rintro it psr' rfl h2 h3
      obtain ⟨b1, b2, b3, b4⟩ := search_key (MAX := MAX) (base := base) hr hp hn a1 a2 a4 h2 h3 hb
      refine ⟨entsL psl ++ ec, it.ent, it.ents ++ entsR psr', [], Node.ptr n, psl.length, by simp [a4], by omega,
        by simp only [Item.ent]; omega, b3, ?_, ?_⟩
      · intro hints
        simp only [getLoop, b1, R.bind_ok]
        exact b4
      · simp only [cursorLoop, b1, R.bind_ok]
        rfl
    have hchild : t < tot szN psl + szN c → 
        ∃ a e b path ptr k, es = a ++ e :: b ∧ total a ≤ t ∧ t < total a + e.size ∧
          (cells n)[a.length]? = some ⟨path, ptr, k, e.slice, e.ref⟩ ∧
          (∀ hints, getLoop (natIdx MAX) (base + t) n hints t =
            .ok ⟨base + total a, base + total a + e.size, e.slice, ptr, k, e.ref⟩) ∧
          cursorLoop (natIdx MAX) n t = .ok path := by
      intro h2
      have hs : ∀ hint, searchStep (natIdx MAX) n hint t = .ok (.child psl.length (tot szN psl)) := by
        intro hint
        rw [searchStep_hint hr hp (Nat.le_of_lt ht) hint]
        have := fullStep_child (MAX := MAX) (p := Node.ptr n) (psr := psr) hp'.1.1.items a7 (.inl h2)
        rw [← hn] at this; exact this
      have hch : Node.child n psl.length = .ok c := by
        rw [hn]; exact child_at (KA := kidsOf psl) (KB := kidsOf psr) rfl (by simp)
      obtain ⟨a, e, b, path, ptr, k, f1, f2, f3, f4, f5, f6⟩ := ih (n := c) (t := t - tot szN psl)
        (base := base + tot szN psl) a2 hp'.1.2 (by omega) (by omega)
      have hbt : base + tot szN psl + (t - tot szN psl) = base + t := by omega
      rw [hbt] at f5
      refine ⟨entsL psl ++ a, e, b ++ entsR psr, psl.length :: path, ptr, k, by rw [a4, f1]; simp,
        by simp only [total_append]; omega, by simp only [total_append]; omega, ?_, ?_, ?_⟩
      · rw [hn, cells_mkG]
        have l1 := cellsL_length (p := Node.ptr n) (i := 0) a1
        have l2 := cells_length a2
        rw [List.append_assoc, List.length_append, ← l1, List.getElem?_append_right (by omega)]
        rw [Nat.add_sub_cancel_left, List.getElem?_append_left (by simp [l2, f1]), List.getElem?_map, f4]
        rfl
      · intro hints
        simp only [getLoop, hs, R.bind_ok, subL_ok a7, hch, f5]
        simp only [total_append]
        congr 2 <;> omega
      · simp only [cursorLoop, hs, R.bind_ok, subL_ok a7, hch, f6]
        rfl
    rcases a8 with h2 | ⟨rfl, h2⟩ | ⟨it, psr', h0, h2, h3⟩
    · exact hchild h2
    · exact hchild (by simp at hsz; omega)
    · exact hkey it psr' h0 h2 h3

end Sherman
