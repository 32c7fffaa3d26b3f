import Verif.ThreadsLinkStep
/-!
# Links: the end of an insertion, the first insertion
-/
namespace Sherman.Cow
variable {I S : Type}

/-- As `cowMode`, for nodes that a thread takes to be shared. -/
def seenMode (H : Heap I S) (X : List Nat) (sh : Nat → Bool) (h1 : ∀ x ∈ X, sh x = false) (h2 : ∀ x, H.next ≤ x → sh x = false) : Mode where
  cow := true
  sh := sh
  tr := Ow H X
  own := by
    rintro c (hc | hc)
    · exact h1 c hc
    · exact h2 c hc
  solo := fun h => by cases h

/-- The end of an insertion.  `sh`: the nodes that are taken to be shared. -/
theorem end_links {E : Env Nat S} {H : Heap Nat S} {L : LinkMap} {oth : Nat → Nat} {p : Nat} (hi : Inv H (fun x => [p].count x + oth x)) (hs : Simple H)
    {path X : List Nat} (w : Way H path p X) {nd : HNode Nat S} {h len : Nat} (hm : H.mem p = some nd) (hh : nd.height = h) {t : Tree Nat S (h + 1)}
    (ht : readT H (h + 1) p = .ok t) {es : List (Ent S)} (hrep : Rep E.M 1 t es) {nop : Bool} {hints : List Nat} {idx z : Nat} {s : S}
    {r : Root Nat S} {o : Inserted}
    (hr : RleTree.insert E ⟨some ⟨h, t, len⟩⟩ nop hints idx s z ⟨H.next, [], [], none, []⟩ = .ok (⟨some r⟩, o))
    (hw : wayDown E t hints idx s = .ok path) (lway : LWay H L path p) (hroot : L p = none) {sh : Nat → Bool}
    (h1 : ∀ x, shared H x = true → sh x = true) (h2 : ∀ x ∈ X, sh x = false) (h3 : ∀ x, H.next ≤ x → sh x = false) :
    ∃ L', runLinks ⟨true, sh⟩ L o.world.links = .ok L' ∧ Simple (writeT H r.tree o.world.next) ∧
      (Linked H L → Linked (writeT H r.tree o.world.next) L') ∧ ((addrs t).Nodup → (addrs r.tree).Nodup) ∧ H.next ≤ o.world.next ∧
      ∀ q, 0 < oth q → ∀ x, Rch H q x → L' x = L x := by
  have hpos : 0 < (fun x => [p].count x + oth x) p := by simp
  obtain ⟨r', e1, k1, k2, k3, k4, k5⟩ := insert_write hi w hm hh hpos ht hr hw
  cases e1
  obtain ⟨f1, f2, f3, f4⟩ := way_facts hi hs (X := X) (md := seenMode H X sh h2 h3) rfl w hm hh (fun x hx => hx) (fun x hx => .inl hx) ht lway hrep
  have hp' : Node.ptr t = p := by
    obtain ⟨_, _, _, _, e⟩ := readT_succ.1 ht
    rw [e]
  have hpt : ptrT t = some p := congrArg some hp'
  have hlk : Lk (seenMode H X sh h2 h3) L ⟨H.next, [], [], none, []⟩ ((⟨some ⟨h, t, len⟩⟩ : RleTree Nat S).F (Ow H X) + 0) := by
    refine ⟨⟨L, rfl, fun f hf => ?_, fun _ _ => rfl⟩, ?_, fun x hx => ?_, fun p hp => .inr hp⟩
    · simp only [RleTree.F, hpt, free, add_zero, Multiset.mem_add, Multiset.mem_singleton] at hf
      rcases hf with hf | rfl
      · exact f2 f hf
      · exact ⟨hroot, .inl w.head.1⟩
    · simp only [RleTree.F, hpt, free, add_zero, owners_add, owners_orphan]
      rw [add_comm, Multiset.singleton_add, Multiset.nodup_cons]
      refine ⟨fun hx => ?_, f3⟩
      obtain ⟨nc, a1, a2⟩ := f4 p hx
      rw [hm] at a1; cases a1
      omega
    · simp only [RleTree.F, hpt, free, add_zero, owners_add, owners_orphan, Multiset.mem_add, Multiset.mem_singleton] at hx
      rcases hx with hx | rfl
      · obtain ⟨nc, a1, -⟩ := f4 x hx
        exact hi.lt _ _ a1
      · exact hi.lt _ _ hm
  have hlk' := Lk.insert hr (fun root h path' hpath' => by
    cases h
    rw [hw] at hpath'; cases hpath'
    exact f1) hlk
  obtain ⟨L', l1, l2, l3⟩ := hlk'.run
  have l1 : runLinks ⟨true, sh⟩ L o.world.links = .ok L' := l1
  have hinv2 : Inv (writeT H r.tree o.world.next) (fun x => [ptrOf r.tree].count x + oth x) := by
    refine k2 _ (fun x => ?_)
    simp only [List.count_cons, List.count_nil, ite_beq]
    omega
  obtain ⟨hnx, hnd⟩ := insert_nodup hr hw
  have hnx : H.next ≤ o.world.next := hnx
  have hap := w.apart hi hpos
  have hout : ∀ y n, H.mem y = some n → ¬ Ow H X y → ∀ x ∈ refsOf (some n), ¬ Ow H X x := fun y ny hy hyO q hq => by
    obtain ⟨nq, c1, -⟩ := hi.ht y ny hy q hq
    have := hi.lt _ _ c1
    rintro (h | h)
    · exact hap y ny hy (fun h => hyO (.inl h)) q hq h
    · omega
  have hrootO : Ow H X (ptrOf r.tree) := (l2 (.orphan (ptrOf r.tree)) (by
    have hpr : ptrT r.tree = some (ptrOf r.tree) := rfl
    simp [RleTree.F, hpr, free])).2
  -- a node that is not on the way and is listed by another such node, or held elsewhere, keeps its link
  have keep : ∀ x, ¬ Ow H X x → ((∃ y n, H.mem y = some n ∧ ¬ Ow H X y ∧ x ∈ refsOf (some n)) ∨ 0 < oth x) → L' x = L x := by
    intro x hxO hx
    by_cases ho : x ∈ owners ((⟨some r⟩ : RleTree Nat S).F (Ow H X) + 0)
    swap
    · exact l3 x ho
    simp only [RleTree.F, add_zero, owners_add, Multiset.mem_add] at ho
    rcases ho with ho | ho
    · obtain ⟨ndr, hmr, hhr⟩ := k3
      obtain ⟨z, q, nz, c1, c2, c3, c4⟩ := treeF_ref hinv2 hmr hhr k1 ho
      rcases l2 _ (show Fact.child x z q ∈ (⟨some r⟩ : RleTree Nat S).F (Ow H X) + 0 by simp [RleTree.F, c1]) with c6 | c6
      · exfalso
        have c7 : sh x = false := c6.1
        have c7 : shared H x = false := by
          cases hb : shared H x with
          | false => rfl
          | true => rw [h1 x hb] at c7; cases c7
        have a4 := hinv2.cnt x
        unfold cnt at a4
        rw [k4 x hxO] at a4
        have a2 := List.count_pos_iff.2 c4
        have h2 : 2 ≤ refsIn (writeT H r.tree o.world.next) x + ([ptrOf r.tree].count x + oth x) := by
          rcases hx with ⟨y, n, hy, hyO, hx⟩ | hx
          · have hy' : (writeT H r.tree o.world.next).mem y = some n := by rw [k4 y hyO]; exact hy
            have hzy : z ≠ y := fun e => hyO (e ▸ c2)
            have a1 := refsIn_two (hinv2.lt z nz c3) (hinv2.lt y n hy') hzy x
            rw [c3, hy'] at a1
            have a3 := List.count_pos_iff.2 hx
            omega
          · have a1 := refsIn_le (hinv2.lt z nz c3) x
            rw [c3] at a1
            omega
        cases hx' : H.mem x with
        | none => rw [hx'] at a4; simp only at a4; omega
        | some n =>
          rw [hx'] at a4
          simp only [shared, hx', bne_eq_false_iff_eq] at c7
          simp only at a4
          omega
      · exact c6.2
    · exfalso
      have hpr : ptrT r.tree = some (ptrOf r.tree) := rfl
      rw [hpr] at ho
      simp only [free, owners_orphan, Multiset.mem_singleton] at ho
      exact hxO (ho ▸ hrootO)
  refine ⟨L', l1, fun x n hx => ?_, fun hl => ?_, fun hn => hnd hn (addrs_live hi hm hh ht), hnx, fun q hq x hx => ?_⟩
  · rcases (k5 x n hx).1 with h | h
    · refine openT_simple (H := H) (X := X) (t := r.tree) ?_ _ h
      refine Multiset.nodup_of_le ?_ hlk'.ids
      simp only [RleTree.F, owners_add]
      exact (Multiset.le_add_right _ _).trans (Multiset.le_add_right _ _)
    · exact hs x n h.2
  · refine hl.step (fun x n hx hlt => (k5 x n hx).2 hlt) hnx (fun y n hy x hx => ?_)
    rcases (k5 y n hy).1 with hop | ⟨hyO, hy'⟩
    · -- a node that was changed
      obtain ⟨j, hj⟩ := openT_child hop hx
      rcases l2 _ (show Fact.child x y j ∈ (⟨some r⟩ : RleTree Nat S).F (Ow H X) + 0 by simp [RleTree.F, hj]) with c6 | c6
      · left
        refine ⟨y, j, c6.2, hinv2.lt y n hy, fun nq hq => ?_⟩
        rw [hy] at hq; cases hq; rfl
      · right
        have hxO : ¬ Ow H X x := c6.1
        refine ⟨c6.2, ?_⟩
        obtain ⟨nx, d1, d2⟩ := hinv2.ht y n hy x hx
        have d3 : H.mem x = some nx := by rw [← k4 x hxO]; exact d1
        have hxp : x ≠ p := fun e => hxO (.inl (e ▸ w.head.1))
        have hxr : x ≠ ptrOf r.tree := fun e => hxO (e ▸ hrootO)
        have g3 := hinv2.cnt x
        have g4 := hi.cnt x
        rw [cnt_some d1] at g3
        rw [cnt_some d3] at g4
        have g5 := refsIn_le (hinv2.lt y n hy) x
        rw [hy] at g5
        have g6 := List.count_pos_iff.2 hx
        simp only [List.count_cons, List.count_nil, ite_beq, hxp, hxr, if_false] at g3 g4
        obtain ⟨y0, n0, e1, e2⟩ := exists_parent (H := H) (x := x) (by omega)
        obtain ⟨nx', e3, e4⟩ := hi.ht y0 n0 e1 x e2
        rw [d3] at e3; cases e3
        exact ⟨y0, n0, e1, e2, by omega⟩
    · -- a node that was not changed
      exact .inr ⟨keep x (hout y n hy' hyO x hx) (.inl ⟨y, n, hy', hyO, hx⟩), y, n, hy', hx, rfl⟩
  · have hown : 0 < (fun x => [p].count x) p := by simp
    have hoff : ∀ x, Rch H q x → ¬ Ow H X x := fun x hx => by
      rintro (h | h)
      · exact w.priv hi hown hq h hx
      · have := rch_lt hi (show 0 < (fun x => [p].count x + oth x) q by dsimp only; omega) hx
        omega
    refine keep x (hoff x hx) ?_
    cases hx with
    | here => exact .inr hq
    | next g1 g2 g3 => exact .inl ⟨_, _, g2, hoff _ g1, g3⟩

/-- The first insertion into a tree: nothing but the new node is touched. -/
theorem first_links {E : Env Nat S} {H : Heap Nat S} {L : LinkMap} {out : Nat → Nat} (hi : Inv H out) (hs : Simple H)
    {nop : Bool} {hints : List Nat} {idx z : Nat} {s : S} {t2 : RleTree Nat S} {o : Inserted}
    (hr : RleTree.insert E ⟨none⟩ nop hints idx s z ⟨H.next, [], [], none, []⟩ = .ok (t2, o)) :
    ∃ (t' : Tree Nat S 1) (L' : LinkMap), t2 = ⟨some ⟨0, t', 1⟩⟩ ∧ Node.ptr t' = H.next ∧ runLinks ⟨true, shared H⟩ L o.world.links = .ok L' ∧
      o.world.next = H.next + 1 ∧ Simple (writeT H t' (H.next + 1)) ∧ (Linked H L → Linked (writeT H t' (H.next + 1)) L') ∧ (addrs t').Nodup ∧
      ∀ x, x < H.next → L' x = L x := by
  obtain ⟨t', e1, e2, e3⟩ := insert_first hr
  subst e1
  have hlk : Lk (cowMode H [] (fun x hx => by simp at hx) hi.lt) L ⟨H.next, [], [], none, []⟩ ((⟨none⟩ : RleTree Nat S).F (Ow H []) + 0) :=
    ⟨⟨L, rfl, fun f hf => by simp [RleTree.F] at hf, fun _ _ => rfl⟩, by simp [RleTree.F], fun p hp => by simp [RleTree.F] at hp, fun p hp => .inr hp⟩
  have hlk' := Lk.insert hr (fun root h => by cases h) hlk
  obtain ⟨L', l1, l2, l3⟩ := hlk'.run
  have l1 : runLinks ⟨true, shared H⟩ L o.world.links = .ok L' := l1
  have hL : ∀ x, x < H.next → L' x = L x := fun x hx => l3 x (by
    have e5 : ptrT t' = some H.next := congrArg some e2
    simp only [RleTree.F, leaf_owners, e5, free, owners_add, owners_orphan, owners_zero, zero_add, add_zero, Multiset.mem_singleton]
    omega)
  have hback : ∀ y n, (writeT H t' (H.next + 1)).mem y = some n → (y = H.next ∧ n.height = 0) ∨ H.mem y = some n := by
    intro y n hy
    simp only [writeT] at hy
    split at hy
    · rename_i e he
      cases hy
      have := mem_of_lookup he
      simp only [nodesT, List.mem_cons, List.mem_flatMap, List.not_mem_nil, and_false, exists_false, or_false, Prod.mk.injEq] at this
      rw [this.1, this.2]
      exact .inl ⟨e2, rfl⟩
    · exact .inr hy
  refine ⟨t', L', rfl, e2, l1, e3, fun x n hx => ?_, fun hl => hl.step (fun x n hx hlt => ?_) (Nat.le_succ _) (fun y n hy x hx => .inr ?_), ?_, hL⟩
  · rcases hback x n hx with ⟨-, h⟩ | h
    · simp [refsOf, h]
    · exact hs x n h
  · rcases hback x n hx with ⟨h, -⟩ | h
    · omega
    · exact ⟨n, h, rfl⟩
  · rcases hback y n hy with ⟨-, h⟩ | h
    · simp [refsOf, h] at hx
    · obtain ⟨nx, g1, -⟩ := hi.ht y n h x hx
      exact ⟨hL x (hi.lt _ _ g1), y, n, h, hx, rfl⟩
  · rw [addrs_succ]
    have : ∀ l : List (Tree Nat S 0), l.flatMap (addrs (h := 0)) = [] := fun l => by simp [addrs]
    rw [this]
    simp

variable {E : Env Nat S} {imax : Nat} {H : Heap Nat S} {L : LinkMap} {oth : Nat → Nat} {t : Task Nat S} {X past : List Nat}
  {tree : Tree Nat S (t.root.h + 1)}

/-- Every step of an insertion: the links do not stop it. -/
theorem task_links (hi : Inv H (fun x => (Var.busy t).refs.count x + oth x)) (ok : t.Ok E H X past tree) (hs : Simple H) (hlk : t.Lk E H L)
    {es : List (Ent S)} (hrep : Rep E.M 1 tree es) {H' : Heap Nat S} {v : Var Nat S} (hstep : t.step E imax H = .ok (H', v)) {sh : Nat → Bool}
    (h1 : ∀ x, shared H x = true → sh x = true) (h2 : ∀ x ∈ X, sh x = false) (h3 : ∀ x, H.next ≤ x → sh x = false) :
    ∃ L', t.linkStep E H L sh = .ok L' ∧ LStepped E H L t tree oth H' L' v := by
  obtain ⟨nr, r1, r2⟩ := ok.root
  have hroot : 0 < (fun x => (Var.busy t).refs.count x) t.root.p := by simp [Var.refs]
  have hstep' := hstep
  rcases task_step (imax := imax) hi ok with ⟨H1, v1, e, k⟩ | ⟨e, -⟩ | ⟨f, _, e, -⟩
  rotate_left
  · rw [e] at hstep; cases hstep
  · rw [e] at hstep; cases hstep
  rw [e] at hstep; cases hstep
  cases hpc : t.pc with
  | check =>
    have hrefs : (Var.busy t).refs = [t.root.p] := by simp [Var.refs, hpc, Pc.refs]
    rcases ok.target hi with ⟨e, ⟨p, hp⟩, htodo⟩ | ⟨q, nd, g1, g2, g3, g4, g5⟩
    · -- the end
      simp only [Task.step, hpc, e, R.bind_ok, Task.finish, ok.read] at hstep'
      simp only [Task.linkStep, hpc, e, R.bind_ok, ok.read]
      cases hr : RleTree.insert E ⟨some ⟨t.root.h, tree, t.root.len⟩⟩ t.args.nop t.args.hints t.args.idx t.args.slice t.args.size
          ⟨H.next, [], [], none, []⟩ with
      | error f => rw [hr] at hstep'; cases hstep'
      | ok res =>
        obtain ⟨t2, o⟩ := res
        rw [hr] at hstep'
        obtain ⟨w, hl, hh⟩ := ok.down p hp
        have hway := ok.way
        rw [htodo, List.append_nil] at hway
        obtain ⟨r', e1, kr, -⟩ := insert_write hi w r1 r2 (Nat.lt_of_lt_of_le hroot (Nat.le_add_right _ _)) ok.read hr hway
        subst e1
        simp only [R.bind_ok, R.pure_eq, Except.ok.injEq, Prod.mk.injEq] at hstep'
        obtain ⟨rfl, rfl⟩ := hstep'
        obtain ⟨l1, l2⟩ := hlk X past tree ok (by rw [hp]; simp)
        rw [hrefs] at hi
        obtain ⟨L', m1, m2, m3, m4, m5, m6⟩ := end_links hi hs w r1 r2 ok.read hrep hr hway l2 l1 h1 h2 h3
        refine ⟨L', m1, m2, m3, m6, fun hd r tree' hv hrd => ?_, (fun t' hv => nomatch hv), m5⟩
        rcases hv with hv | ⟨t', hv, rfl⟩
        · cases hv
          dsimp only at hrd
          rw [kr] at hrd; cases hrd
          exact m4 hd
        · cases hv
    · simp only [Task.linkStep, hpc, g1, R.bind_ok, get_ok.2 g2]
      simp only [Task.step, hpc, g1, R.bind_ok, get_ok.2 g2] at hstep'
      by_cases hc : nd.count = 1
      · rw [if_pos hc] at hstep' ⊢
        simp only [R.pure_eq, Except.ok.injEq, Prod.mk.injEq] at hstep'
        obtain ⟨rfl, rfl⟩ := hstep'
        exact ⟨_, rfl, advance_links hi ok hs hlk hpc g1 g2 hc k⟩
      · rw [if_neg hc] at hstep' ⊢
        simp only [R.pure_eq, Except.ok.injEq, Prod.mk.injEq] at hstep'
        obtain ⟨rfl, rfl⟩ := hstep'
        exact ⟨_, rfl, less_links hi ok hs hlk k (Less.rfl' _) rfl (Keeps.of_same (fun x n h => ⟨n, h, .refl _⟩) _)⟩
  | incr done todo =>
    cases todo with
    | nil =>
      obtain ⟨q, nd, g1, -⟩ := ok.incr _ _ hpc
      simp only [Task.linkStep, hpc, g1, R.bind_ok]
      exact ⟨_, rfl, copy_links hi ok hs hlk hpc hstep' k _⟩
    | cons a todo =>
      simp only [Task.linkStep, hpc]
      refine ⟨L, rfl, ?_⟩
      obtain ⟨q, nd, g1, g2, g3, g4⟩ := ok.incr _ _ hpc
      obtain ⟨na, a1, a2⟩ := hi.ht q nd g2 a (by rw [g4]; simp)
      simp only [Task.step, hpc] at hstep'
      rw [increment_spec a1] at hstep'
      by_cases hb : imax < na.count
      · simp only [hb, if_true] at hstep'; cases hstep'
      simp only [hb, if_false, R.bind_ok, R.pure_eq, Except.ok.injEq, Prod.mk.injEq] at hstep'
      obtain ⟨rfl, rfl⟩ := hstep'
      have hsame : ∀ x n, H.mem x = some n → ∃ n', (H.put a { na with count := na.count + 1 }).mem x = some n' ∧ n.Same n' := fun x n hx => by
        by_cases hxa : x = a
        · subst hxa
          rw [a1] at hx; cases hx
          exact ⟨{ na with count := na.count + 1 }, by simp [Heap.put], ⟨rfl, rfl, rfl, rfl⟩⟩
        · exact ⟨n, by simp [Heap.put, hxa, hx], .refl _⟩
      refine less_links hi ok hs hlk k (fun x n hx => ?_) rfl (Keeps.of_same hsame _)
      by_cases hxa : x = a
      · subst hxa
        simp only [Heap.put, if_true, Option.some.injEq] at hx
        subst hx
        exact ⟨na, a1, ⟨rfl, rfl, rfl, rfl⟩⟩
      · exact ⟨n, by simpa [Heap.put, hxa] using hx, .refl _⟩
  | giveUp work =>
    simp only [Task.linkStep, hpc]
    refine ⟨L, rfl, ?_⟩
    cases work with
    | nil =>
      simp only [Task.step, hpc, R.pure_eq, Except.ok.injEq, Prod.mk.injEq] at hstep'
      obtain ⟨rfl, rfl⟩ := hstep'
      exact less_links hi ok hs hlk k (Less.rfl' _) rfl (Keeps.of_same (fun x n h => ⟨n, h, .refl _⟩) _)
    | cons a work =>
      have e0 : (fun x => (Var.busy t).refs.count x + oth x) =
          fun x => ((a :: work).map Prod.snd).count x + ((if x = t.root.p then 1 else 0) + oth x) := by
        funext x
        simp only [Var.refs, hpc, Pc.refs, List.count_cons]
        by_cases hx : x = t.root.p
        · subst hx; simp; omega
        · simp [hx, Ne.symm hx]
      have hi0 := hi
      rw [e0] at hi0
      simp only [Task.step, hpc, bind_ok_iff] at hstep'
      obtain ⟨⟨H2, work2⟩, g, hstep'⟩ := hstep'
      simp only [R.pure_eq, Except.ok.injEq, Prod.mk.injEq] at hstep'
      obtain ⟨rfl, rfl⟩ := hstep'
      obtain ⟨l1, l2⟩ := giveUp_lessens g
      obtain ⟨H', work', g1, -, -, g4⟩ := giveUp_spec hi0 (ok.give _ hpc)
      rw [g] at g1; cases g1
      exact less_links hi ok hs hlk k l1 l2 (g4.keeps (p := t.root.p) (by simp))

end Sherman.Cow
