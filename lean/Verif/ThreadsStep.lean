import Verif.ThreadsLemmas
/-!
# The steps of an insertion
-/
namespace Sherman.Cow
variable {I S : Type}

theorem Way.further {H : Heap I S} {path : List Nat} {r : Nat} {X : List Nat} (w : Way H path r X) {p c q : Nat} {nd ndq : HNode I S}
    (hl : X.getLast? = some p) (hm : H.mem p = some nd) (h0 : nd.height ≠ 0) (hc : nd.kids[c]? = some q) (hq : H.mem q = some ndq)
    (h1 : ndq.count = 1) : Way H (path ++ [c]) r (X ++ [q]) := by
  induction path generalizing r X with
  | nil =>
    obtain ⟨rfl, n, g1, g2⟩ := w
    simp only [List.getLast?_singleton, Option.some.injEq] at hl
    subst hl
    rw [hm] at g1; cases g1
    exact ⟨nd, q, [q], hm, g2, h0, hc, rfl, rfl, ndq, hq, h1⟩
  | cons d path ih =>
    obtain ⟨n, q1, X', g1, g2, g3, g4, rfl, g5⟩ := w
    have hne : X' ≠ [] := by rintro rfl; exact absurd g5.head.1 (by simp)
    rw [List.getLast?_cons_of_ne_nil hne] at hl
    exact ⟨n, q1, X' ++ [q], g1, g2, g3, g4, rfl, ih g5 hl⟩

/-- The nodes on a way are not lower than its end. -/
theorem Way.low {H : Heap I S} {out : Nat → Nat} (hi : Inv H out) {path : List Nat} {r : Nat} {X : List Nat} (w : Way H path r X) {p : Nat}
    {np : HNode I S} (hl : X.getLast? = some p) (hp : H.mem p = some np) : ∀ x ∈ X, ∃ nx, H.mem x = some nx ∧ np.height ≤ nx.height := by
  induction path generalizing r X with
  | nil =>
    obtain ⟨rfl, -⟩ := w
    simp only [List.getLast?_singleton, Option.some.injEq] at hl
    subst hl
    intro x hx
    simp only [List.mem_singleton] at hx
    subst hx
    exact ⟨np, hp, Nat.le_refl _⟩
  | cons d path ih =>
    obtain ⟨n, q1, X', g1, g2, g3, g4, rfl, g5⟩ := w
    have hne : X' ≠ [] := by rintro rfl; exact absurd g5.head.1 (by simp)
    rw [List.getLast?_cons_of_ne_nil hne] at hl
    have := ih g5 hl
    intro x hx
    rcases List.mem_cons.1 hx with rfl | hx
    · obtain ⟨nq, k1, k2⟩ := this q1 g5.head.1
      obtain ⟨nq', k3, k4⟩ := hi.ht x n g1 q1 (by simp only [refsOf, g3, if_false]; exact List.mem_of_getElem? g4)
      rw [k1] at k3; cases k3
      exact ⟨n, g1, by omega⟩
    · exact this x hx

theorem Way.rch {H : Heap I S} {path : List Nat} {r : Nat} {X : List Nat} (w : Way H path r X) : ∀ x ∈ X, Rch H r x := by
  have key : ∀ (path : List Nat) (r' : Nat) (X : List Nat), Rch H r r' → Way H path r' X → ∀ x ∈ X, Rch H r x := by
    intro path
    induction path with
    | nil =>
      rintro r' X hr ⟨rfl, -⟩ x hx
      simp only [List.mem_singleton] at hx
      subst hx
      exact hr
    | cons c path ih =>
      rintro r' X hr ⟨n, q1, X', g1, g2, g3, g4, rfl, g5⟩ x hx
      rcases List.mem_cons.1 hx with rfl | hx
      · exact hr
      · refine ih q1 X' (.next hr g1 ?_) g5 x hx
        simp only [refsOf, g3, if_false]; exact List.mem_of_getElem? g4
  exact key path r X .here w

/-- There is a next node, if the way down fits. -/
theorem Way.child {H : Heap I S} {out : Nat → Nat} (hi : Inv H out) {past : List Nat} {r : Nat} {X : List Nat} (w : Way H past r X) {p c : Nat}
    {rest : List Nat} (hl : X.getLast? = some p) {h : Nat} {nd : HNode I S} (hm : H.mem r = some nd) (hh : nd.height = h) {t : Tree I S (h + 1)}
    (ht : readT H (h + 1) r = .ok t) (hf : Fits t (past ++ c :: rest)) :
    ∃ np q nq, H.mem p = some np ∧ np.height ≠ 0 ∧ np.kids[c]? = some q ∧ H.mem q = some nq ∧ nq.height + 1 = np.height := by
  induction past generalizing r X h nd with
  | nil =>
    obtain ⟨rfl, -⟩ := w
    simp only [List.getLast?_singleton, Option.some.injEq] at hl
    subst hl
    obtain ⟨n0, ks, g1, g2, rfl⟩ := readT_succ.1 ht
    rw [hm] at g1; cases g1
    obtain ⟨k0, k, k1, -⟩ := hf
    obtain ⟨q, q1, q2⟩ := forall₂_get g2 k1
    have h0 : nd.height ≠ 0 := by omega
    obtain ⟨nq, k3, k4⟩ := hi.ht r nd hm q (by simp only [refsOf, h0, if_false]; exact List.mem_of_getElem? q1)
    exact ⟨nd, q, nq, hm, h0, q1, k3, k4⟩
  | cons d past ih =>
    obtain ⟨n, q1, X', g1, g2, g3, g4, rfl, g5⟩ := w
    have hne : X' ≠ [] := by rintro rfl; exact absurd g5.head.1 (by simp)
    rw [List.getLast?_cons_of_ne_nil hne] at hl
    obtain ⟨n0, ks, e1, e2, rfl⟩ := readT_succ.1 ht
    rw [hm] at g1; cases g1
    rw [hm] at e1; cases e1
    obtain ⟨k0, k, k1, k2⟩ := hf
    obtain ⟨q, q1', q2⟩ := forall₂_get e2 k1
    rw [g4] at q1'; cases q1'
    obtain ⟨nq, k3, k4⟩ := hi.ht r nd hm q1 (by simp only [refsOf, g3, if_false]; exact List.mem_of_getElem? g4)
    cases h with
    | zero => omega
    | succ h => exact ih g5 hl k3 (by omega) q2 k2

/-- Where a thread is: `X` are the nodes on its way so far. -/
structure Task.Ok (E : Env I S) (H : Heap I S) (t : Task I S) (X past : List Nat) (tree : Tree I S (t.root.h + 1)) : Prop where
  root : ∃ nd, H.mem t.root.p = some nd ∧ nd.height = t.root.h
  read : readT H (t.root.h + 1) t.root.p = .ok tree
  way : wayDown E tree t.args.hints t.args.idx t.args.slice = .ok (past ++ t.todo)
  fits : Fits tree (past ++ t.todo)
  start : t.node = none → past = [] ∧ X = [] ∧ t.h = t.root.h
  down : ∀ p, t.node = some p → Way H past t.root.p X ∧ X.getLast? = some p ∧ ∀ nd, H.mem p = some nd → t.h = nd.height - 1
  incr : ∀ done todo, t.pc = .incr done todo → ∃ q nd, t.target H = .ok (some q) ∧ H.mem q = some nd ∧ nd.height = t.h ∧
    refsOf (some nd) = done ++ todo
  give : ∀ work, t.pc = .giveUp work → Heights H work

/-- The next node on the way of a thread. -/
theorem Task.Ok.target {E : Env I S} {H : Heap I S} {out : Nat → Nat} (hi : Inv H out) {t : Task I S} {X past : List Nat} {tree : Tree I S (t.root.h + 1)} (ok : t.Ok E H X past tree) :
    (t.target H = .ok none ∧ (∃ p, t.node = some p) ∧ t.todo = []) ∨
    ∃ q nd, t.target H = .ok (some q) ∧ H.mem q = some nd ∧ nd.height = t.h ∧ Rch H t.root.p q ∧
      ((t.node = none ∧ q = t.root.p) ∨ ∃ p c todo np, t.node = some p ∧ t.todo = c :: todo ∧ H.mem p = some np ∧ np.height ≠ 0 ∧
        np.kids[c]? = some q ∧ nd.height + 1 = np.height) := by
  obtain ⟨nr, r1, r2⟩ := ok.root
  unfold Task.target
  cases hn : t.node with
  | none =>
    right
    obtain ⟨-, -, h3⟩ := ok.start hn
    exact ⟨t.root.p, nr, rfl, r1, by rw [h3, r2], .here, .inl ⟨rfl, rfl⟩⟩
  | some p =>
    cases htodo : t.todo with
    | nil => exact .inl ⟨rfl, ⟨p, rfl⟩, rfl⟩
    | cons c todo =>
      right
      obtain ⟨w, hl, hh⟩ := ok.down p hn
      have hf := ok.fits
      rw [htodo] at hf
      obtain ⟨np, q, nq, k1, k2, k3, k4, k5⟩ := w.child hi hl r1 r2 ok.read hf
      refine ⟨q, nq, ?_, k4, by rw [hh np k1]; omega, ?_, .inr ⟨p, c, todo, np, rfl, rfl, k1, k2, k3, k5⟩⟩
      · simp only [get_ok.2 k1, R.bind_ok, k3]; rfl
      · refine .next (w.rch p (List.mem_of_getLast? hl)) k1 ?_
        simp only [refsOf, k2, if_false]; exact List.mem_of_getElem? k3

/-- The steps of others do not matter to a thread. -/
theorem Task.Ok.frame {E : Env I S} {H H' : Heap I S} {out : Nat → Nat} (hi : Inv H out) {t : Task I S} {X past : List Nat} {tree : Tree I S (t.root.h + 1)}
    (ok : t.Ok E H X past tree) (hk : ∀ p ∈ (Var.busy t).refs, Keeps H H' p) (hx : ∀ x ∈ X, H'.mem x = H.mem x) : t.Ok E H' X past tree := by
  obtain ⟨nr, r1, r2⟩ := ok.root
  have kr := hk t.root.p (by simp [Var.refs])
  have htar : ∀ q, t.target H = .ok (some q) → t.target H' = .ok (some q) := by
    intro q hq
    rcases ok.target hi with ⟨e, -⟩ | ⟨q', nd, h1, h2, h3, h4, h5⟩
    · rw [e] at hq; cases hq
    · rw [h1] at hq; cases hq
      rcases h5 with ⟨e1, e2⟩ | ⟨p, c, todo, np, e1, e2, e3, e4, e5, e6⟩
      · simp only [Task.target, e1, e2]; rfl
      · obtain ⟨w, hl, -⟩ := ok.down p e1
        have : H'.mem p = some np := by rw [hx p (List.mem_of_getLast? hl)]; exact e3
        simp only [Task.target, e1, e2, get_ok.2 this, R.bind_ok, e5]; rfl
  refine ⟨?_, kr.read hi r1 r2 ok.read, ok.way, ok.fits, ok.start, fun p hp => ?_, fun done todo hpc => ?_, fun work hpc => ?_⟩
  · obtain ⟨nd', h1, h2⟩ := kr _ _ .here r1
    exact ⟨nd', h1, by rw [← h2.1]; exact r2⟩
  · obtain ⟨w, hl, hh⟩ := ok.down p hp
    refine ⟨w.congr hx, hl, fun nd hm => hh nd ?_⟩
    rw [← hx p (List.mem_of_getLast? hl)]; exact hm
  · obtain ⟨q, nd, h1, h2, h3, h4⟩ := ok.incr done todo hpc
    have hr : Rch H t.root.p q := by
      rcases ok.target hi with ⟨e, -⟩ | ⟨q', nd, g1, g2, g3, g4, g5⟩
      · rw [e] at h1; cases h1
      · rw [g1] at h1; cases h1; exact g4
    obtain ⟨nd', h5, h6⟩ := kr q nd hr h2
    exact ⟨q, nd', htar q h1, h5, by rw [← h6.1]; exact h3, by rw [← h6.refs]; exact h4⟩
  · intro e he
    obtain ⟨nd, h1, h2⟩ := ok.give work hpc e he
    obtain ⟨nd', h3, h4⟩ := hk e.2 (by simp only [Var.refs, hpc, Pc.refs]; exact List.mem_cons_of_mem _ (List.mem_map_of_mem he)) _ _ .here h1
    exact ⟨nd', h3, by rw [← h4.1]; exact h2⟩

end Sherman.Cow
