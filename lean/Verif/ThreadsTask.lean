import Verif.ThreadsStep
/-!
# A step of an insertion, seen from its own thread
-/
namespace Sherman.Cow
variable {I S : Type}

/-- Memory is as a variable needs it. -/
def Var.Ok (E : Env I S) (H : Heap I S) : Var I S → Prop
  | .idle none => True
  | .idle (some r) => ∃ nd, H.mem r.p = some nd ∧ nd.height = r.h
  | .busy t => ∃ X past tree, t.Ok E H X past tree
  | .dying work => Heights H work

/-- What a step of an insertion does. -/
structure Stepped (E : Env I S) (H : Heap I S) (t : Task I S) (tree : Tree I S (t.root.h + 1)) (oth : Nat → Nat) (H' : Heap I S) (v : Var I S) :
    Prop where
  inv : Inv H' (fun x => v.refs.count x + oth x)
  ok : v.Ok E H'
  eff : Effect H H' (fun x => (Var.busy t).refs.count x) oth
  busy : ∀ t', v = .busy t' → t'.args = t.args ∧ ∃ tree', readT H' (t'.root.h + 1) t'.root.p = .ok tree' ∧
    RleTree.Alike ⟨some ⟨t.root.h, tree, t.root.len⟩⟩ ⟨some ⟨t'.root.h, tree', t'.root.len⟩⟩
  done : ∀ o, v = .idle o → ∃ r tree' w out, o = some r ∧ readT H' (r.h + 1) r.p = .ok tree' ∧
    RleTree.insert E ⟨some ⟨t.root.h, tree, t.root.len⟩⟩ t.args.nop t.args.hints t.args.idx t.args.slice t.args.size w =
      .ok (⟨some ⟨r.h, tree', r.len⟩⟩, out)
  stays : ∀ work, v ≠ .dying work

theorem Task.Ok.advance {E : Env I S} {H : Heap I S} {out : Nat → Nat} (hi : Inv H out) {t : Task I S} {X past : List Nat}
    {tree : Tree I S (t.root.h + 1)} (ok : t.Ok E H X past tree) {q : Nat} {nd : HNode I S} (ht : t.target H = .ok (some q))
    (hm : H.mem q = some nd) (hc : nd.count = 1) {pc : Pc} (h1 : ∀ d td, pc ≠ .incr d td) (h2 : ∀ work, pc = .giveUp work → Heights H work) :
    ∃ X' past', (t.advance q pc).Ok E H X' past' tree := by
  rcases ok.target hi with ⟨e, -⟩ | ⟨q', nd', g1, g2, g3, g4, g5⟩
  · rw [e] at ht; cases ht
  rw [g1] at ht; cases ht
  rw [hm] at g2; cases g2
  have hh : ∀ n, H.mem q = some n → t.h - 1 = n.height - 1 := fun n hn => by rw [hm] at hn; cases hn; rw [g3]
  rcases g5 with ⟨e1, e2⟩ | ⟨p, c, todo, np, e1, e2, e3, e4, e5, e6⟩
  · obtain ⟨s1, s2, s3⟩ := ok.start e1
    subst s1 s2
    have htodo : (t.advance q pc).todo = t.todo := by simp [Task.advance, e1]
    refine ⟨[q], [], ok.root, ok.read, by rw [htodo]; exact ok.way, by rw [htodo]; exact ok.fits, fun h => by (cases h), ?_,
      fun d td h => absurd h (h1 d td), h2⟩
    intro p hp
    cases hp
    refine ⟨⟨by rw [e2]; rfl, nd, ?_, hc⟩, rfl, hh⟩
    show H.mem t.root.p = some nd
    rw [← e2]; exact hm
  · obtain ⟨w, hl, -⟩ := ok.down p e1
    have htodo : (t.advance q pc).todo = todo := by simp [Task.advance, e1, e2]
    have hpath : past ++ t.todo = (past ++ [c]) ++ todo := by rw [e2]; simp
    refine ⟨X ++ [q], past ++ [c], ok.root, ok.read, by rw [htodo, ← hpath]; exact ok.way, by rw [htodo, ← hpath]; exact ok.fits,
      fun h => by (cases h), ?_, fun d td h => absurd h (h1 d td), h2⟩
    intro p' hp
    cases hp
    exact ⟨w.further hl e3 e4 e5 hm hc, by simp, hh⟩

/-- A pointer to a child is overwritten. -/
theorem put_kid {H : Heap I S} {out out' : Nat → Nat} (hi : Inv H out) {p c q q' : Nat} {nd nq : HNode I S} (hm : H.mem p = some nd)
    (h0 : nd.height ≠ 0) (hc : nd.kids[c]? = some q) (hq : H.mem q' = some nq) (hh : nq.height + 1 = nd.height)
    (ho : ∀ x, out' x + (if x = q' then 1 else 0) = out x + (if x = q then 1 else 0)) :
    Inv (H.put p { nd with kids := nd.kids.set c q' }) out' := by
  have hself : (H.put p { nd with kids := nd.kids.set c q' }).mem p = some { nd with kids := nd.kids.set c q' } := by simp [Heap.put]
  have hother : ∀ x, x ≠ p → (H.put p { nd with kids := nd.kids.set c q' }).mem x = H.mem x := fun x hx => by simp [Heap.put, hx]
  have f1 : refsOf (some nd) = nd.kids := by simp [refsOf, h0]
  have f2 : refsOf (some { nd with kids := nd.kids.set c q' }) = nd.kids.set c q' := by simp [refsOf, h0]
  have hmore : ∀ x n, H.mem x = some n → ∃ n', (H.put p { nd with kids := nd.kids.set c q' }).mem x = some n' ∧ n'.height = n.height := by
    intro x n hx
    by_cases hxp : x = p
    · subst hxp; rw [hm] at hx; cases hx; exact ⟨_, hself, rfl⟩
    · exact ⟨n, by rw [hother x hxp]; exact hx, rfl⟩
  refine ⟨fun x => ?_, fun x n hx => ?_, fun x n hx => ?_, fun x n hx y hy => ?_, fun x n hx hz y hy => ?_⟩
  · have e1 := hi.cnt x
    have e2 := refsIn_change (H := H) (H' := H.put p { nd with kids := nd.kids.set c q' }) rfl (hi.lt p nd hm)
      (fun y hy => by rw [hother y hy]) x
    rw [hself, hm, f1, f2] at e2
    have e3 := count_set (q' := q') hc x
    have e4 := ho x
    have e5 : cnt (H.put p { nd with kids := nd.kids.set c q' }) x = cnt H x := by
      unfold cnt
      by_cases hx : x = p
      · subst hx; rw [hself, hm]
      · rw [hother x hx]
    omega
  · by_cases hxp : x = p
    · subst hxp; exact hi.lt x nd hm
    · rw [hother x hxp] at hx; exact hi.lt x n hx
  · by_cases hxp : x = p
    · subst hxp; rw [hself] at hx; cases hx; exact hi.pos x nd hm
    · rw [hother x hxp] at hx; exact hi.pos x n hx
  · by_cases hxp : x = p
    · subst hxp; rw [hself] at hx; cases hx
      rw [f2] at hy
      rcases mem_set_or hy with rfl | hy
      · obtain ⟨n', k1, k2⟩ := hmore y nq hq
        exact ⟨n', k1, by rw [k2]; exact hh⟩
      · obtain ⟨ny, k1, k2⟩ := hi.ht x nd hm y (by rw [f1]; exact hy)
        obtain ⟨n', k3, k4⟩ := hmore y ny k1
        exact ⟨n', k3, by rw [k4]; exact k2⟩
    · rw [hother x hxp] at hx
      obtain ⟨ny, k1, k2⟩ := hi.ht x n hx y hy
      obtain ⟨n', k3, k4⟩ := hmore y ny k1
      exact ⟨n', k3, by rw [k4]; exact k2⟩
  · by_cases hxp : x = p
    · subst hxp; rw [hself] at hx; cases hx; exact absurd hz h0
    · rw [hother x hxp] at hx; exact hi.leaf x n hx hz y hy

/-- The last node of a way is overwritten. -/
theorem Way.set_last {H H' : Heap I S} {out : Nat → Nat} (hi : Inv H out) {path : List Nat} {r : Nat} {X : List Nat} (w : Way H path r X) {p : Nat}
    {np np' : HNode I S} (hl : X.getLast? = some p) (hp : H.mem p = some np) (hx : ∀ x ∈ X, x ≠ p → H'.mem x = H.mem x)
    (hp' : H'.mem p = some np') (hc : np'.count = 1) : Way H' path r X := by
  induction path generalizing r X with
  | nil =>
    obtain ⟨rfl, -⟩ := w
    simp only [List.getLast?_singleton, Option.some.injEq] at hl
    subst hl
    exact ⟨rfl, np', hp', hc⟩
  | cons d path ih =>
    obtain ⟨n, q1, X', g1, g2, g3, g4, rfl, g5⟩ := w
    have hne : X' ≠ [] := by rintro rfl; exact absurd g5.head.1 (by simp)
    rw [List.getLast?_cons_of_ne_nil hne] at hl
    obtain ⟨nq, k1, k2⟩ := g5.low hi hl hp q1 g5.head.1
    obtain ⟨nq', k3, k4⟩ := hi.ht r n g1 q1 (by simp only [refsOf, g3, if_false]; exact List.mem_of_getElem? g4)
    rw [k1] at k3; cases k3
    have hrp : r ≠ p := by
      rintro rfl
      rw [hp] at g1; cases g1; omega
    refine ⟨n, q1, X', ?_, g2, g3, g4, rfl, ih g5 hl (fun x hx' hxp => hx x (by simp [hx']) hxp)⟩
    rw [hx r (by simp) hrp]; exact g1

/-- A copy of a node takes its place: in the tree variable, or in its parent `p`. -/
theorem copy_alike {H H' : Heap I S} {out : Nat → Nat} (hi : Inv H out) {q q' : Nat} {nd : HNode I S} (hq : H.mem q = some nd)
    (hq' : ∃ nd', H'.mem q' = some nd' ∧ nd.Same nd')
    (hx : ∀ x n, H.mem x = some n → ∃ n', H'.mem x = some n' ∧ (n.Same n' ∨ (n.height = n'.height ∧ n.size = n'.size ∧ n.keys = n'.keys ∧
      n.height ≠ 0 ∧ ∃ c : Nat, n.kids[c]? = some q ∧ n'.kids = n.kids.set c q')))
    {x x' h : Nat} {n : HNode I S} (hm : H.mem x = some n) (hh : n.height = h) (hxx : x' = x ∨ (x = q ∧ x' = q')) {t : Tree I S (h + 1)}
    (ht : readT H (h + 1) x = .ok t) : ∃ t', readT H' (h + 1) x' = .ok t' ∧ Alike t t' := by
  refine readT_sim (rel := fun x x' => (x' = x ∧ ∃ n, H.mem x = some n) ∨ (x = q ∧ x' = q')) ?_ hi hm hh ?_ ht
  · have hrefl : ∀ z n, H.mem z = some n → ∀ y ∈ refsOf (some n), (y = y ∧ ∃ n, H.mem y = some n) ∨ (y = q ∧ y = q') := by
      intro z n hz y hy
      obtain ⟨ny, k1, -⟩ := hi.ht z n hz y hy
      exact .inl ⟨rfl, ny, k1⟩
    have hrefl' : ∀ z n, H.mem z = some n →
        List.Forall₂ (fun x x' => (x' = x ∧ ∃ n, H.mem x = some n) ∨ (x = q ∧ x' = q')) (refsOf (some n)) (refsOf (some n)) := fun z n hz =>
      List.forall₂_same.2 (hrefl z n hz)
    intro y y' hy
    rcases hy with ⟨rfl, n, hn⟩ | ⟨rfl, rfl⟩
    · obtain ⟨n', k1, k2 | ⟨k2, k3, k4, k5, c, k6, k7⟩⟩ := hx _ n hn
      · refine ⟨n, n', hn, k1, k2.1, k2.2.1, k2.2.2.1, by rw [k2.2.2.2], ?_⟩
        rw [← k2.refs]; exact hrefl' _ n hn
      · refine ⟨n, n', hn, k1, k2, k3, k4, by rw [k7]; simp, ?_⟩
        have f1 : refsOf (some n) = n.kids := by simp [refsOf, k5]
        have f2 : refsOf (some n') = n'.kids := by simp [refsOf, ← k2, k5]
        have := hrefl _ n hn
        rw [f1] at this
        rw [f1, f2, k7]
        exact forall₂_set (rel := fun x x' => (x' = x ∧ ∃ n, H.mem x = some n) ∨ (x = q ∧ x' = q')) k6 (.inr ⟨rfl, rfl⟩) this
    · obtain ⟨n', k1, k2⟩ := hq'
      refine ⟨nd, n', hq, k1, k2.1, k2.2.1, k2.2.2.1, by rw [k2.2.2.2], ?_⟩
      rw [← k2.refs]; exact hrefl' _ nd hq
  · rcases hxx with h | h
    · exact .inl ⟨h, n, hm⟩
    · exact .inr h

/-! ## The steps -/

variable {E : Env I S} {imax : Nat} {H : Heap I S} {oth : Nat → Nat} {t : Task I S} {X past : List Nat} {tree : Tree I S (t.root.h + 1)}

/-- `is_unique`. -/
theorem step_check (hi : Inv H (fun x => (Var.busy t).refs.count x + oth x)) (ok : t.Ok E H X past tree) (hpc : t.pc = .check) {q : Nat} {nd : HNode I S}
    (ht : t.target H = .ok (some q)) (hm : H.mem q = some nd) (hh : nd.height = t.h) :
    ∃ v, t.step E imax H = .ok (H, v) ∧ Stepped E H t tree oth H v := by
  simp only [Task.step, hpc, ht, R.bind_ok, get_ok.2 hm, R.pure_eq]
  have hrefs : (Var.busy t).refs = [t.root.p] := by simp [Var.refs, hpc, Pc.refs]
  rw [hrefs] at hi
  by_cases hc : nd.count = 1
  · simp only [hc, if_true]
    refine ⟨_, rfl, hi, ?_, .same _ _ _, ?_, fun o h => by (cases h), fun w h => by (cases h)⟩
    · obtain ⟨X', past', h⟩ := ok.advance hi ht hm hc (pc := .check) (fun _ _ h => by (cases h)) (fun _ h => by (cases h))
      exact ⟨X', past', tree, h⟩
    · intro t' e
      cases e
      exact ⟨rfl, tree, ok.read, RleTree.Alike.rfl' _⟩
  · simp only [hc, if_false]
    refine ⟨_, rfl, ?_, ?_, .same _ _ _, ?_, fun o h => by (cases h), fun w h => by (cases h)⟩
    · have : (Var.busy { t with pc := .incr [] (if t.h = 0 then [] else nd.kids) } : Var I S).refs = [t.root.p] := rfl
      rw [this]; exact hi
    · refine ⟨X, past, tree, ok.root, ok.read, ok.way, ok.fits, ok.start, ok.down, ?_, fun w h => by (cases h)⟩
      intro d td e
      cases e
      exact ⟨q, nd, ht, hm, hh, by simp [refsOf, hh]⟩
    · intro t' e
      cases e
      exact ⟨rfl, tree, ok.read, RleTree.Alike.rfl' _⟩

/-- `increment` of a child. -/
theorem step_incr (hi : Inv H (fun x => (Var.busy t).refs.count x + oth x)) (ok : t.Ok E H X past tree) {done todo : List Nat} {a : Nat}
    (hpc : t.pc = .incr done (a :: todo)) :
    (∃ H' v, t.step E imax H = .ok (H', v) ∧ Stepped E H t tree oth H' v) ∨
    (t.step E imax H = .error tooMany ∧ ∃ x n, H.mem x = some n ∧ imax < n.count) := by
  obtain ⟨q, nd, h1, h2, h3, h4⟩ := ok.incr _ _ hpc
  rcases ok.target hi with ⟨e, -⟩ | ⟨q', nd', g1, g2, g3, g4, g5⟩
  · rw [e] at h1; cases h1
  rw [g1] at h1; cases h1
  rw [h2] at g2; cases g2
  have ha : a ∈ refsOf (some nd) := by rw [h4]; simp
  obtain ⟨na, a1, a2⟩ := hi.ht q nd h2 a ha
  simp only [Task.step, hpc]
  rw [increment_spec a1]
  by_cases hb : imax < na.count
  · refine .inr ⟨?_, a, na, a1, hb⟩
    simp only [hb, if_true]; rfl
  left
  have hinc := increment_inv (imax := imax) (out' := fun x => (Var.busy { t with pc := .incr (done ++ [a]) todo } : Var I S).refs.count x + oth x)
    hi a1 (fun x => by
      simp only [Var.refs, hpc, Pc.refs, List.count_cons, List.count_append, List.count_nil]
      by_cases hx : x = a
      · subst hx; simp; omega
      · simp [hx, Ne.symm hx])
  rw [increment_spec a1] at hinc
  simp only [hb, if_false] at hinc ⊢
  rcases hinc with ⟨H', e, hinv, hless, hkeep⟩ | e
  swap
  · cases e
  cases e
  have hother : ∀ x, x ≠ a → (H.put a { na with count := na.count + 1 }).mem x = H.mem x := fun x hx => by simp [Heap.put, hx]
  have haX : a ∉ X := by
    intro hx
    rcases g5 with ⟨e1, -⟩ | ⟨p, c, td, np, e1, e2, e3, e4, e5, e6⟩
    · rw [(ok.start e1).2.1] at hx; cases hx
    · obtain ⟨w, hl, -⟩ := ok.down p e1
      obtain ⟨nx, k1, k2⟩ := w.low hi hl e3 a hx
      rw [a1] at k1; cases k1; omega
  have ok' : t.Ok E (H.put a { na with count := na.count + 1 }) X past tree :=
    ok.frame hi (fun p _ => Keeps.of_same hkeep p) (fun x hx => hother x (fun h => haX (h ▸ hx)))
  refine ⟨_, _, rfl, hinv, ?_, ?_, ?_, fun o h => by (cases h), fun w h => by (cases h)⟩
  · refine ⟨X, past, tree, ok'.root, ok'.read, ok'.way, ok'.fits, ok'.start, ok'.down, ?_, fun w h => by (cases h)⟩
    intro d td e
    cases e
    obtain ⟨q2, nd2, k1, k2, k3, k4⟩ := ok'.incr _ _ hpc
    exact ⟨q2, nd2, k1, k2, k3, by rw [k4]; simp⟩
  · intro x n hx
    by_cases hxa : x = a
    · subst hxa
      exact .inr ⟨⟨t.root.p, by simp [Var.refs], .next g4 h2 ha⟩, .inl (hkeep x n hx)⟩
    · exact .inl (by rw [hother x hxa]; exact hx)
  · intro t' e
    cases e
    exact ⟨rfl, tree, ok'.read, RleTree.Alike.rfl' _⟩

/-- Giving up references. -/
theorem step_giveUp (hi : Inv H (fun x => (Var.busy t).refs.count x + oth x)) (ok : t.Ok E H X past tree) {work : List (Nat × Nat)}
    (hpc : t.pc = .giveUp work) : ∃ H' v, t.step E imax H = .ok (H', v) ∧ Stepped E H t tree oth H' v := by
  cases work with
  | nil =>
    simp only [Task.step, hpc, R.pure_eq]
    refine ⟨_, _, rfl, ?_, ?_, .same _ _ _, ?_, fun o h => by (cases h), fun w h => by (cases h)⟩
    · have : (Var.busy t).refs = (Var.busy { t with pc := .check } : Var I S).refs := by simp [Var.refs, hpc, Pc.refs]
      rw [← this]; exact hi
    · exact ⟨X, past, tree, ok.root, ok.read, ok.way, ok.fits, ok.start, ok.down, fun d td e => by (cases e), fun w h => by (cases h)⟩
    · intro t' e
      cases e
      exact ⟨rfl, tree, ok.read, RleTree.Alike.rfl' _⟩
  | cons a work =>
    have e0 : (fun x => (Var.busy t).refs.count x + oth x) =
        fun x => ((a :: work).map Prod.snd).count x + ((if x = t.root.p then 1 else 0) + oth x) := by
      funext x
      simp only [Var.refs, hpc, Pc.refs, List.count_cons]
      by_cases hx : x = t.root.p
      · subst hx; simp; omega
      · simp [hx, Ne.symm hx]
    have hi0 := hi
    rw [e0] at hi0
    obtain ⟨H', work', g1, g2, g3, g4⟩ := giveUp_spec hi0 (ok.give _ hpc)
    have hroot : 0 < (fun x => (if x = t.root.p then 1 else 0) + oth x) t.root.p := by simp
    have hX : ∀ x ∈ X, H'.mem x = H.mem x := by
      cases hn : t.node with
      | none => rw [(ok.start hn).2.1]; simp
      | some p => exact g4.way hi0 (ok.down p hn).1 hroot
    have ok' : ({ t with pc := .check } : Task I S).Ok E H X past tree :=
      ⟨ok.root, ok.read, ok.way, ok.fits, ok.start, ok.down, fun d td e => by (cases e), fun w h => by (cases h)⟩
    have ok2 := ok'.frame (H' := H') hi (fun p hp => by
      simp only [Var.refs, Pc.refs, List.mem_singleton] at hp
      subst hp
      exact g4.keeps hroot) hX
    simp only [Task.step, hpc, g1, R.bind_ok, R.pure_eq]
    refine ⟨_, _, rfl, ?_, ?_, g4.mono (fun x hx => ?_) (fun x hx => by omega), ?_, fun o h => by (cases h), fun w h => by (cases h)⟩
    · have e1 : (fun x => (Var.busy { t with pc := .giveUp work' } : Var I S).refs.count x + oth x) =
          fun x => (work'.map Prod.snd).count x + ((if x = t.root.p then 1 else 0) + oth x) := by
        funext x
        simp only [Var.refs, Pc.refs, List.count_cons]
        by_cases hx : x = t.root.p
        · subst hx; simp; omega
        · simp [hx, Ne.symm hx]
      rw [e1]; exact g2
    · refine ⟨X, past, tree, ok2.root, ok2.read, ok2.way, ok2.fits, ok2.start, ok2.down, fun d td e => by (cases e), fun w h => ?_⟩
      cases h
      exact g3
    · simp only [Var.refs, hpc, Pc.refs, List.count_cons]
      simp only [List.map_cons, List.count_cons] at hx ⊢
      omega
    · intro t' e
      cases e
      exact ⟨rfl, tree, ok2.read, RleTree.Alike.rfl' _⟩

end Sherman.Cow
