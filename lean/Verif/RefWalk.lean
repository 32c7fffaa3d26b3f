import Verif.RefLemmas
/-!
# Walking from a handle to the root
-/
namespace Sherman
variable {I S : Type}

theorem firstKid_none {C X : Type} {f : C → R (Option X)} {l : List C} (h : ∀ c ∈ l, f c = .ok none) (j : Nat) :
    firstKid f j l = .ok none := by
  induction l generalizing j with
  | nil => rfl
  | cons c l ih =>
    simp only [firstKid, h c (by simp), R.bind_ok]
    exact ih (fun x hx => h x (by simp [hx])) _

theorem firstKid_some {C X : Type} {f : C → R (Option X)} {A B : List C} {c : C} {x : X} (hA : ∀ c ∈ A, f c = .ok none)
    (hc : f c = .ok (some x)) (j : Nat) : firstKid f j (A ++ c :: B) = .ok (some (j + A.length, x)) := by
  induction A generalizing j with
  | nil => simp only [List.nil_append, firstKid, hc, R.bind_ok]; rfl
  | cons a A ih =>
    simp only [List.cons_append, firstKid, hA a (by simp), R.bind_ok]
    rw [ih (fun x hx => hA x (by simp [hx]))]
    simp only [List.length_cons]
    congr 3; omega

theorem rangeIn_child {ix : IdxOps I} {p k h j : Nat} {n : Tree I S (h + 1)} {pos size cp q : I} (hne : ¬ Node.ptr n = p)
    (hf : firstKid (rangeIn ix p k) 0 (Node.kids n) = .ok (some (j, pos, size)))
    (hcp : Node.childPos ix (szT ix) n j = .ok cp) (ha : ix.addL pos cp = .ok q) :
    rangeIn ix p k n = .ok (some (q, size)) := by
  unfold rangeIn
  rw [if_neg hne, hf]
  simp only [R.bind_ok]
  rw [hcp, R.bind_ok, ha]
  rfl

theorem pathIn_child {p h j : Nat} {n : Tree I S (h + 1)} {path : List Nat} (hne : ¬ Node.ptr n = p)
    (hf : firstKid (pathIn p) 0 (Node.kids n) = .ok (some (j, path))) : pathIn p n = .ok (some (j :: path)) := by
  unfold pathIn
  rw [if_neg hne, hf]
  rfl

/-- An address that is not in the tree is not found. -/
theorem walk_absent (ix : IdxOps I) (p k : Nat) {h : Nat} {t : Tree I S h} (hp : p ∉ treeP t) :
    rangeIn ix p k t = .ok none ∧ pathIn p t = .ok none := by
  induction h with
  | zero => exact ⟨rfl, rfl⟩
  | succ h ih =>
    simp only [treeP, nodeP, Multiset.mem_add, Multiset.mem_singleton, not_or] at hp
    have hk : ∀ c ∈ Node.kids t, p ∉ treeP c := fun c hc hm => hp.2 (mem_sum_map.2 ⟨c, hc, hm⟩)
    have hne : ¬ Node.ptr t = p := fun h => hp.1 h.symm
    constructor
    · simp only [rangeIn, hne, if_false]
      rw [firstKid_none (fun c hc => (ih (hk c hc)).1)]
      rfl
    · simp only [pathIn, hne, if_false]
      rw [firstKid_none (fun c hc => (ih (hk c hc)).2)]
      rfl

theorem not_mem_of_nodup {A : List (Multiset Nat)} {b : Multiset Nat} {B : List (Multiset Nat)} {p : Nat}
    (h : ((A ++ b :: B).sum).Nodup) (hp : p ∈ b) : ∀ a ∈ A, p ∉ a := by
  intro a ha hpa
  rw [List.sum_append, List.sum_cons] at h
  obtain ⟨_, _, h3⟩ := Multiset.nodup_add.1 h
  have h1 : p ∈ A.sum := by
    have := (mem_sum_map (f := fun x : Multiset Nat => x) (l := A) (b := p)).2 ⟨a, ha, hpa⟩
    simpa using this
  exact (Multiset.disjoint_left.1 h3) h1 (Multiset.mem_add.2 (.inl hp))

/-- From the place of a run, walking up gives the range of the run and the path to it. -/
theorem walk_spec {MAX M : Nat} : ∀ {h lo : Nat} {n : Tree Nat S (h + 1)} {es : List (Ent S)} {t : Nat},
    Rep M lo n es → Pos es → t < total es → total es ≤ MAX → (treeP n).Nodup →
    ∃ a e b c, es = a ++ e :: b ∧ total a ≤ t ∧ t < total a + e.size ∧ (cells n)[a.length]? = some c ∧
      rangeIn (natIdx MAX) c.ptr c.idx n = .ok (some (total a, e.size)) ∧ pathIn c.ptr n = .ok (some c.path) := by
  intro h
  induction h with
  | zero =>
    intro lo n es t hr hp ht hb hnd
    obtain ⟨psl, psr, c, ec, hn, a1, a2, a3, a4, a5, a6, a7, a8⟩ := hr.locate (Nat.le_of_lt ht)
    have hc : szN c = 0 := rfl
    have e1 := RepItems.totL a1
    have e3 := RepItems.totR a3
    have e2 := a2.size
    have hsz : total es = tot szN psl + szN c + tot szN psr := by rw [a4]; simp; omega
    rcases a8 with h2 | ⟨rfl, h2⟩ | ⟨it, psr', rfl, h2, h3⟩
    · omega
    · simp at hsz; omega
    · obtain ⟨b1, b2, b3, b4⟩ := search_key (MAX := MAX) (base := 0) hr hp hn a1 a2 a4 h2 h3 (by omega)
      refine ⟨entsL psl ++ ec, it.ent, it.ents ++ entsR psr', _, by simp [a4], by omega,
        by simp only [Item.ent]; omega, b3, ?_, ?_⟩
      · have hkp : Node.keyPos n psl.length = .ok (tot szN psl + szN c) := by
          rw [hn]
          exact keyPos_at (k := ⟨tot szN psl + szN c, it.slice, it.ref⟩) (A := keysL szN 0 psl)
            (B := keysR szN (tot szN psl + szN c + it.size + szN it.kid) psr') rfl (keysL_length _ _)
        have hss : Node.sliceSize (natIdx MAX) (szT (natIdx MAX)) n psl.length = .ok it.size := by
          rw [szT_natIdx, hn]
          exact sliceSize_at (A := keysL szN 0 psl) (KA := kidsOf psl ++ [c]) (KB := kidsOf psr')
            (psr := psr') (X := tot szN psl + szN c + it.size + szN it.kid) rfl (by simp) (by simp [mkG])
            (by simp) (by simp [mkG]; omega) rfl
        simp only [rangeIn, if_true]
        rw [hkp, R.bind_ok, hss, R.bind_ok, b2]
        rfl
      · simp only [pathIn, if_true]; rfl
  | succ h ih =>
    intro lo n es t hr hp ht hb hnd
    obtain ⟨psl, psr, c, ec, hn, a1, a2, a3, a4, a5, a6, a7, a8⟩ := hr.locate (Nat.le_of_lt ht)
    have e1 := RepItems.totL a1
    have e3 := RepItems.totR a3
    have e2 := a2.size
    have hsz : total es = tot szN psl + szN c + tot szN psr := by rw [a4]; simp; omega
    have hp' := hp
    rw [a4, Pos.append, Pos.append] at hp'
    by_cases hchild : t < tot szN psl + szN c
    · have hkids : Node.kids n = kidsOf psl ++ c :: kidsOf psr := congrArg Node.kids hn
      have hnd' := hnd
      simp only [treeP, nodeP, Multiset.singleton_add, Multiset.nodup_cons] at hnd'
      obtain ⟨nd1, nd2⟩ := hnd'
      have ndc : (treeP c).Nodup :=
        Multiset.nodup_of_le (le_sum_map (f := treeP) (a := c) (by rw [hkids]; simp)) nd2
      obtain ⟨a, e, b, cl, f1, f2, f3, f4, f5, f6⟩ := ih (n := c) (t := t - tot szN psl) a2 hp'.1.2 (by omega)
        (by omega) ndc
      have hcl : cl.ptr ∈ treeP c := cells_ptr (List.mem_of_getElem? f4)
      have hne : ¬ Node.ptr n = cl.ptr := by
        intro he
        exact nd1 (mem_sum_map.2 ⟨c, by rw [hkids]; simp, by rw [he]; exact hcl⟩)
      have habs : ∀ x ∈ kidsOf psl, cl.ptr ∉ treeP x := by
        intro x hx
        rw [hkids, List.map_append, List.map_cons] at nd2
        exact not_mem_of_nodup nd2 hcl _ (List.mem_map_of_mem hx)
      refine ⟨entsL psl ++ a, e, b ++ entsR psr, cl.under psl.length, by rw [a4, f1]; simp,
        by simp only [total_append]; omega, by simp only [total_append]; omega, ?_, ?_, ?_⟩
      · rw [hn, cells_mkG]
        have l1 := cellsL_length (p := Node.ptr n) (i := 0) a1
        have l2 := cells_length a2
        rw [List.append_assoc, List.length_append, ← l1, List.getElem?_append_right (by omega)]
        rw [Nat.add_sub_cancel_left, List.getElem?_append_left (by simp [l2, f1]), List.getElem?_map, f4]
        rfl
      · have hcs : Node.childSize (szT (natIdx MAX)) n psl.length = .ok (szN c) := by
          rw [szT_natIdx]
          exact childSize_at (KA := kidsOf psl) (KB := kidsOf psr) hkids (by simp)
        have hnp : Node.nextPos n psl.length = tot szN psl + szN c := by
          rw [hn]
          exact nextPos_at (sz := szN) (psr := psr) (A := keysL szN 0 psl) rfl (by simp) (by simp [mkG])
        have hle : szN c ≤ tot szN psl + szN c := by omega
        have htot : total a + e.size ≤ szN c := by rw [e2, f1]; simp only [total_append, total_cons]; omega
        have hl : 0 + (kidsOf psl).length = psl.length := by simp
        refine rangeIn_child (j := psl.length) (pos := total a) (cp := tot szN psl) hne ?_ ?_ ?_
        · rw [hkids]
          have := firstKid_some (f := rangeIn (natIdx MAX) cl.ptr cl.idx) (B := kidsOf psr)
            (fun x hx => (walk_absent _ _ _ (habs x hx)).1) f5 0
          rw [hl] at this
          exact this
        · have hnl : psl.length ≤ Node.len n := by rw [hn]; simp [Node.len, mkG]
          have h7 : tot szN psl + szN c - szN c = tot szN psl := by omega
          simp only [Node.childPos, hnl, decide_true, weakAssert, if_true, R.bind_ok, hcs, hnp, subR_ok hle, h7]
        · rw [addL_ok (by omega)]
          simp only [total_append]
          congr 1; omega
      · have hl : 0 + (kidsOf psl).length = psl.length := by simp
        refine pathIn_child hne ?_
        rw [hkids]
        have := firstKid_some (f := pathIn cl.ptr) (B := kidsOf psr)
          (fun x hx => (walk_absent (natIdx MAX) _ 0 (habs x hx)).2) f6 0
        rw [hl] at this
        exact this
    · rcases a8 with h2 | ⟨rfl, h2⟩ | ⟨it, psr', rfl, h2, h3⟩
      · omega
      · simp at hsz; omega
      · obtain ⟨b1, b2, b3, b4⟩ := search_key (MAX := MAX) (base := 0) hr hp hn a1 a2 a4 h2 h3 (by omega)
        refine ⟨entsL psl ++ ec, it.ent, it.ents ++ entsR psr', _, by simp [a4], by omega,
          by simp only [Item.ent]; omega, b3, ?_, ?_⟩
        · have hkp : Node.keyPos n psl.length = .ok (tot szN psl + szN c) := by
            rw [hn]
            exact keyPos_at (k := ⟨tot szN psl + szN c, it.slice, it.ref⟩) (A := keysL szN 0 psl)
              (B := keysR szN (tot szN psl + szN c + it.size + szN it.kid) psr') rfl (keysL_length _ _)
          have hss : Node.sliceSize (natIdx MAX) (szT (natIdx MAX)) n psl.length = .ok it.size := by
            rw [szT_natIdx, hn]
            exact sliceSize_at (A := keysL szN 0 psl) (KA := kidsOf psl ++ [c]) (KB := kidsOf psr')
              (psr := psr') (X := tot szN psl + szN c + it.size + szN it.kid) rfl (by simp) (by simp [mkG])
              (by simp) (by simp [mkG]; omega) rfl
          simp only [rangeIn, if_true]
          rw [hkp, R.bind_ok, hss, R.bind_ok, b2]
          rfl
        · simp only [pathIn, if_true]; rfl

theorem run_unique {A B P Q : List (Ent S)} {e w : Ent S} {s : Nat} (h : A ++ e :: B = P ++ w :: Q)
    (h1 : total A ≤ s ∧ s < total A + e.size) (h2 : total P ≤ s ∧ s < total P + w.size) : A = P ∧ e = w ∧ B = Q := by
  rcases List.append_eq_append_iff.mp h with ⟨a, ha, hb⟩ | ⟨a, ha, hb⟩
  · cases a with
    | nil => simp at ha hb; simp [ha, hb]
    | cons x a =>
      simp at hb
      obtain ⟨rfl, rfl⟩ := hb
      subst ha
      simp at h2; omega
  · cases a with
    | nil => simp at ha hb; simp [ha, hb]
    | cons x a =>
      simp at hb
      obtain ⟨rfl, rfl⟩ := hb
      subst ha
      simp at h1; omega

/-- For every run. -/
theorem walk_run {MAX M h lo : Nat} {n : Tree Nat S (h + 1)} {a b : List (Ent S)} {e : Ent S}
    (hr : Rep M lo n (a ++ e :: b)) (hp : Pos (a ++ e :: b)) (hb : total (a ++ e :: b) ≤ MAX) (hnd : (treeP n).Nodup) :
    ∃ c, (cells n)[a.length]? = some c ∧ rangeIn (natIdx MAX) c.ptr c.idx n = .ok (some (total a, e.size)) ∧
      pathIn c.ptr n = .ok (some c.path) := by
  have he : 0 < e.size := hp e (by simp)
  obtain ⟨a', e', b', c, h1, h2, h3, h4, h5, h6⟩ := walk_spec (t := total a) hr hp (by simp; omega) hb hnd
  obtain ⟨rfl, rfl, rfl⟩ := run_unique h1 ⟨Nat.le_refl _, by omega⟩ ⟨h2, h3⟩
  exact ⟨c, h4, h5, h6⟩

end Sherman
