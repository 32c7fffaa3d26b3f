import Verif.ThreadsLinkEnd
/-!
# Links: all variables
-/
namespace Sherman.Cow
variable {S : Type}

/-- The links that an execution relies on; under `G`, those that iterators rely on as well. -/
structure LTRel (G : Prop) (E : Env Nat S) (s : LTSt Nat S) : Prop where
  simple : Simple s.st.heap
  linked : G → Linked s.st.heap s.links
  nodup : ∀ i t, s.st.view i = .ok t → t.addrs.Nodup
  lk : ∀ (i : Nat) t, s.st.vars[i]? = some (.busy t) → t.Lk E s.st.heap s.links ∧
    ∀ X past tree, t.Ok E s.st.heap X past tree → ∀ x ∈ s.seen i, x ∉ X
  seen : ∀ i, ∀ x ∈ s.seen i, x < s.st.heap.next

theorem Task.Lk.frame {I : Type} {E : Env I S} {H H' : Heap I S} {L L' : LinkMap} {out : Nat → Nat} (hi : Inv H out) {t : Task I S} {X past : List Nat}
    {tree : Tree I S (t.root.h + 1)} (ok : t.Ok E H X past tree) (hk : Keeps H H' t.root.p) (hL : ∀ x ∈ X, L' x = L x) (h : t.Lk E H L) :
    t.Lk E H' L' := by
  intro X1 past1 tree1 ok1 hn
  obtain ⟨-, rfl, -⟩ := ok.unique hi hk ok1
  obtain ⟨h1, h2⟩ := h X past1 tree ok hn
  cases hnd : t.node with
  | none => exact absurd hnd hn
  | some p =>
    obtain ⟨w, -, -⟩ := ok.down p hnd
    refine ⟨by rw [hL _ w.head.1]; exact h1, LWay.same w h2 (fun x hx nd hm => ?_) (fun x hx => hL x (List.mem_of_mem_tail hx))⟩
    obtain ⟨nd', g1, g2⟩ := hk x nd (w.rch x (List.dropLast_subset _ hx)) hm
    exact ⟨nd', g1, g2.2.2.2.symm⟩

theorem addrs_rch {I : Type} {H : Heap I S} {out : Nat → Nat} (hi : Inv H out) {h p : Nat} {nd : HNode I S} (hm : H.mem p = some nd) (hh : nd.height = h)
    {t : Tree I S (h + 1)} (ht : readT H (h + 1) p = .ok t) : ∀ x ∈ addrs t, Rch H p x := by
  have key : ∀ (h q : Nat) (nd : HNode I S) (t : Tree I S (h + 1)), Rch H p q → H.mem q = some nd → nd.height = h → readT H (h + 1) q = .ok t →
      ∀ x ∈ addrs t, Rch H p x := by
    intro h
    induction h with
    | zero =>
      intro q nd t hq _ _ ht x hx
      obtain ⟨n0, ks, h1, h2, rfl⟩ := readT_succ.1 ht
      have hx : x ∈ q :: ks.flatMap (addrs (h := 0)) := hx
      have e : ks.flatMap (addrs (h := 0)) = [] := by simp [addrs]
      rw [e, List.mem_singleton] at hx
      rw [hx]; exact hq
    | succ h ih =>
      intro q nd t hq hm hh ht x hx
      obtain ⟨n0, ks, h1, h2, rfl⟩ := readT_succ.1 ht
      obtain rfl : nd = n0 := Option.some.inj (hm.symm.trans h1)
      have hx : x ∈ q :: ks.flatMap (addrs (h := h + 1)) := hx
      rcases List.mem_cons.1 hx with rfl | hx
      · exact hq
      · obtain ⟨k, hk, hx⟩ := List.mem_flatMap.1 hx
        obtain ⟨i, hil, rfl⟩ := List.mem_iff_getElem.1 hk
        have hlen := h2.length_eq
        have hread := (List.forall₂_iff_get.1 h2).2 i (by omega) hil
        simp only [List.get_eq_getElem] at hread
        have hq' : nd.kids[i]'(by omega) ∈ refsOf (some nd) := by
          simp only [refsOf]; rw [if_neg (by omega)]; exact List.getElem_mem _
        obtain ⟨nq, g1, g2⟩ := hi.ht q nd hm _ hq'
        exact ih _ nq _ (.next hq hm hq') g1 (by omega) hread x hx
  exact key h p nd t .here hm hh ht

theorem rest_pos {I : Type} {vs : List (Var I S)} {i j : Nat} {w : Var I S} (hw : vs[j]? = some w) (hji : j ≠ i) {p : Nat} (hp : p ∈ w.refs) :
    0 < rest vs i p := by
  have h1 := rest_other hw hji p
  have h2 := List.count_pos_iff.2 hp
  omega

variable {MAX imax : Nat} {E : Env Nat S} {G : Prop}

/-- What other variables reach keeps its links. -/
def LinksKept (st : TSt Nat S) (L L' : LinkMap) (a : Act Nat S) : Prop :=
  ∀ (j : Nat) v p, st.vars[j]? = some v → a.var ≠ some j → p ∈ v.refs → ∀ x, Rch st.heap p x → L' x = L x

theorem LTRel.step {s : LTSt Nat S} {ss : Lists S} (h : RelT MAX E s.st ss) (hl : LTRel G E s) {i : Nat} {v v' : Var Nat S} (hv : s.st.vars[i]? = some v)
    {H' : Heap Nat S} {L' : LinkMap} (eff : Effect s.st.heap H' (fun x => v.refs.count x) (rest s.st.vars i))
    (hrest : Rest s.st ⟨H', s.st.vars.set i v'⟩ i) (hsim : Simple H') (hlinked : G → Linked H' L') (hnext : s.st.heap.next ≤ H'.next)
    (iso : ∀ q, 0 < rest s.st.vars i q → ∀ x, Rch s.st.heap q x → L' x = s.links x)
    (dup : ∀ t, (⟨H', s.st.vars.set i v'⟩ : TSt Nat S).view i = .ok t → t.addrs.Nodup) (lk' : ∀ t', v' = .busy t' → t'.Lk E H' L')
    {seen' : Nat → List Nat} (hs1 : seen' i = [] ∨ seen' i = s.seen i ∧ ∀ t', v' ≠ .busy t') (hs2 : ∀ j, j ≠ i → seen' j = s.seen j) :
    LTRel G E ⟨⟨H', s.st.vars.set i v'⟩, L', seen'⟩ := by
  have hi := h.ok.inv
  rw [outs_eq hv] at hi
  refine ⟨hsim, hlinked, fun j t ht => ?_, fun j t ht => ?_, fun j x hx => ?_⟩
  · by_cases hji : j = i
    · subst hji; exact dup t ht
    · have hset : (s.st.vars.set i v')[j]? = s.st.vars[j]? := List.getElem?_set_ne (Ne.symm hji)
      cases hj : s.st.vars[j]? with
      | none => simp only [TSt.view, hset, hj] at ht; cases ht
      | some w =>
        by_cases hd : ∃ work, w = .dying work
        · obtain ⟨work, rfl⟩ := hd
          simp only [TSt.view, hset, hj] at ht; cases ht
        · obtain ⟨t0, -, h0, -⟩ := h.known hj (fun work e => hd ⟨work, e⟩)
          have := hrest j hji t0 h0
          rw [this] at ht; cases ht
          exact hl.nodup j t h0
  · dsimp only at ht ⊢
    by_cases hji : j = i
    · subst hji
      rw [List.getElem?_set_self (lt_of_get hv)] at ht
      refine ⟨lk' t (Option.some.inj ht), fun X past tree _ x hx => ?_⟩
      rcases hs1 with e | ⟨-, e⟩
      · rw [e] at hx; cases hx
      · exact absurd (Option.some.inj ht) (e t)
    · rw [List.getElem?_set_ne (Ne.symm hji)] at ht
      obtain ⟨X, past, tree, okt⟩ := h.ok.var j _ ht
      obtain ⟨k1, k2⟩ := hl.lk j t ht
      have hpos : 0 < rest s.st.vars i t.root.p := rest_pos ht hji (by simp [Var.refs])
      have hkeep : Keeps s.st.heap H' t.root.p := eff.keeps hpos
      refine ⟨k1.frame hi okt hkeep (fun x hx => ?_), fun X1 past1 tree1 ok1 x hx => ?_⟩
      · cases hn : t.node with
        | none => rw [(okt.start hn).2.1] at hx; cases hx
        | some p => exact iso _ hpos x ((okt.down p hn).1.rch x hx)
      · obtain ⟨rfl, -, -⟩ := okt.unique hi hkeep ok1
        rw [hs2 j hji] at hx
        exact k2 _ _ _ okt x hx
  · dsimp only at hx ⊢
    refine Nat.lt_of_lt_of_le (hl.seen j x ?_) hnext
    by_cases hji : j = i
    · subst hji
      rcases hs1 with e | ⟨e, -⟩
      · rw [e] at hx; cases hx
      · rw [← e]; exact hx
    · rw [← hs2 j hji]; exact hx

theorem LTRel.add {s : LTSt Nat S} {ss : Lists S} (h : RelT MAX E s.st ss) (hl : LTRel G E s) {o : Option CRoot} {H' : Heap Nat S}
    (hk : ∀ x nd, s.st.heap.mem x = some nd → ∃ nd', H'.mem x = some nd' ∧ nd.Same nd') (hless : Less H' s.st.heap) (hn : H'.next = s.st.heap.next)
    (hrest : ∀ j, j < s.st.vars.length → ∀ t, s.st.view j = .ok t → (⟨H', s.st.vars ++ [.idle o]⟩ : TSt Nat S).view j = .ok t)
    (dup : ∀ t, (⟨H', s.st.vars ++ [.idle o]⟩ : TSt Nat S).view s.st.vars.length = .ok t → t.addrs.Nodup) :
    LTRel G E ⟨⟨H', s.st.vars ++ [.idle o]⟩, s.links, s.seen⟩ := by
  refine ⟨hless.simple hl.simple, fun g => hless.linked hn (hl.linked g), fun j t ht => ?_, fun j t ht => ?_, fun j x hx => by dsimp only; rw [hn]; exact hl.seen j x hx⟩
  · by_cases hj : j < s.st.vars.length
    · cases hw : s.st.vars[j]? with
      | none => rw [List.getElem?_eq_none_iff] at hw; omega
      | some w =>
        by_cases hd : ∃ work, w = .dying work
        · obtain ⟨work, rfl⟩ := hd
          simp only [TSt.view, List.getElem?_append_left hj, hw] at ht; cases ht
        · obtain ⟨t0, -, h0, -⟩ := h.known hw (fun work e => hd ⟨work, e⟩)
          have := hrest j hj t0 h0
          rw [this] at ht; cases ht
          exact hl.nodup j t h0
    · have hl' := view_lt ht
      obtain rfl : j = s.st.vars.length := by simp at hl'; omega
      exact dup t ht
  · dsimp only at ht ⊢
    have hl' := lt_of_get ht
    by_cases hj : j < s.st.vars.length
    · rw [List.getElem?_append_left hj] at ht
      obtain ⟨X, past, tree, okt⟩ := h.ok.var j _ ht
      obtain ⟨k1, k2⟩ := hl.lk j t ht
      have hkeep : Keeps s.st.heap H' t.root.p := Keeps.of_same hk _
      refine ⟨k1.frame h.ok.inv okt hkeep (fun _ _ => rfl), fun X1 past1 tree1 ok1 x hx => ?_⟩
      obtain ⟨rfl, -, -⟩ := okt.unique h.ok.inv hkeep ok1
      exact k2 _ _ _ okt x hx
    · obtain rfl : j = s.st.vars.length := by simp at hl'; omega
      simp only [List.getElem?_concat_length, Option.some.injEq] at ht
      cases ht

/-- What a thread takes to be shared, at its last step. -/
theorem LTRel.sees {s : LTSt Nat S} (hl : LTRel G E s) {out : Nat → Nat} (hi : Inv s.st.heap out) {i : Nat} {t : Task Nat S}
    (hv : s.st.vars[i]? = some (.busy t)) {X past : List Nat} {tree : Tree Nat S (t.root.h + 1)} (ok : t.Ok E s.st.heap X past tree) :
    (∀ x, shared s.st.heap x = true → s.sees i x = true) ∧ (∀ x ∈ X, s.sees i x = false) ∧ ∀ x, s.st.heap.next ≤ x → s.sees i x = false := by
  refine ⟨fun x hx => by simp [LTSt.sees, hx], fun x hx => ?_, fun x hx => ?_⟩
  · have h1 : shared s.st.heap x = false := by
      cases hn : t.node with
      | none => rw [(ok.start hn).2.1] at hx; cases hx
      | some p =>
        obtain ⟨nd, g1, g2⟩ := (ok.down p hn).1.one x hx
        simp [shared, g1, g2]
    have h2 : x ∉ s.seen i := fun h => (hl.lk i t hv).2 X past tree ok x h hx
    simp [LTSt.sees, h1, h2]
  · have h1 : shared s.st.heap x = false := by
      cases hm : s.st.heap.mem x with
      | none => simp [shared, hm]
      | some nd => have := hi.lt x nd hm; omega
    have h2 : x ∉ s.seen i := fun h => by have := hl.seen i x h; omega
    simp [LTSt.sees, h1, h2]

theorem rep_of_reach (hE : E.ix = natIdx MAX) {h len : Nat} {t : Tree Nat S (h + 1)} (hr : Reach MAX E ⟨some ⟨h, t, len⟩⟩) : ∃ es, Rep E.M 1 t es := by
  obtain ⟨es, hH, -⟩ := hr.holds hE
  exact ⟨_, hH.rep _ rfl⟩

/-- Everything that can happen: the links do not stop it, and those of other variables stay. -/
theorem LTRel.act (hE : E.ix = natIdx MAX) {s : LTSt Nat S} {ss : Lists S} (h : RelT MAX E s.st ss) (hl : LTRel G E s) (a : Act Nat S)
    {st' : TSt Nat S} {l : List (Op Nat S)} (he : s.st.act E imax a = .ok (st', l))
    (hviews : ∀ j, a.var ≠ some j → ∀ t, s.st.view j = .ok t → st'.view j = .ok t) :
    ∃ L', s.linkAct E a = .ok L' ∧ LTRel G E ⟨st', L', s.seenAfter a⟩ ∧ LinksKept s.st s.links L' a := by
  cases a with
  | new =>
    simp only [TSt.act, bind_ok_iff] at he
    obtain ⟨_, -, he⟩ := he
    cases he
    refine ⟨_, rfl, hl.add h (fun x nd hx => ⟨nd, hx, .refl _⟩) (Less.rfl' _) rfl (fun j _ t ht => hviews j (by simp [Act.var]) t ht) (fun t ht => ?_),
      fun _ _ _ _ _ _ _ _ => rfl⟩
    rw [view_idle (by simp)] at ht; cases ht
    exact List.nodup_nil
  | clone i =>
    simp only [TSt.act, bind_ok_iff] at he
    obtain ⟨o, ho, he⟩ := he
    have hv : s.st.vars[i]? = some (.idle o) := by
      unfold TSt.idle at ho
      split at ho
      · rename_i r hr; cases ho; exact hr
      · cases ho
    cases o with
    | none =>
      cases he
      refine ⟨_, rfl, hl.add h (fun x nd hx => ⟨nd, hx, .refl _⟩) (Less.rfl' _) rfl (fun j _ t ht => hviews j (by simp [Act.var]) t ht) (fun t ht => ?_),
        fun _ _ _ _ _ _ _ _ => rfl⟩
      rw [view_idle (by simp)] at ht; cases ht
      exact List.nodup_nil
    | some r =>
      simp only [bind_ok_iff] at he
      obtain ⟨H', hH, he⟩ := he
      cases he
      obtain ⟨nd, hm, hh⟩ := h.ok.var i _ hv
      rcases h.ok.clone (imax := imax) hv with ⟨H2, e, k1, k2, k3, k4⟩ | ⟨e, -⟩
      swap
      · rw [hH] at e; cases e
      rw [hH] at e; cases e
      rcases increment_inv (imax := imax) (out' := outs (s.st.vars ++ [.idle (some r)])) h.ok.inv hm (fun x => by
          rw [outs_append]; simp only [Var.refs, List.count_cons, List.count_nil, ite_beq]; omega) with ⟨H3, e, -, hless, -⟩ | e
      swap
      · rw [hH] at e; cases e
      rw [hH] at e; cases e
      have hn : H'.next = s.st.heap.next := by
        rw [increment_spec hm] at hH
        split at hH
        · cases hH
        · cases hH; rfl
      refine ⟨_, rfl, hl.add h k4 hless hn k2 (fun t ht => ?_), fun _ _ _ _ _ _ _ _ => rfl⟩
      obtain ⟨t0, -, h0, -⟩ := h.known hv (fun _ h => by cases h)
      rw [k3 t0 h0] at ht; cases ht
      exact hl.nodup i t h0
  | insert i a =>
    simp only [TSt.act, bind_ok_iff] at he
    obtain ⟨o, ho, he⟩ := he
    have hv : s.st.vars[i]? = some (.idle o) := by
      unfold TSt.idle at ho
      split at ho
      · rename_i r hr; cases ho; exact hr
      · cases ho
    have hs1 : s.seenAfter (.insert i a) i = [] := by simp [LTSt.seenAfter]
    have hs2 : ∀ j, j ≠ i → s.seenAfter (.insert i a) j = s.seen j := fun j hj => by simp [LTSt.seenAfter, hj]
    have hrest : ∀ {st' : TSt Nat S}, (∀ j, (Act.insert i a : Act Nat S).var ≠ some j → ∀ t, s.st.view j = .ok t → st'.view j = .ok t) → Rest s.st st' i :=
      fun hh j hji t ht => hh j (by simpa [Act.var] using Ne.symm hji) t ht
    cases o with
    | none =>
      simp only [bind_ok_iff] at he
      obtain ⟨⟨t2, o⟩, hr, he⟩ := he
      obtain ⟨t', L', rfl, e2, l1, e3, m1, m2, m3, m4⟩ := first_links (L := s.links) h.ok.inv hl.simple hr
      have e4 : ptrOf t' = s.st.heap.next := e2
      simp only [R.pure_eq, Except.ok.injEq, Prod.mk.injEq] at he
      obtain ⟨rfl, -⟩ := he
      have hview := h.ok.first hv hr
      obtain ⟨r, er, -, -, k3, k4⟩ := hview
      cases er
      rw [e3] at k3 k4
      have hiso : ∀ q, 0 < rest s.st.vars i q → ∀ x, Rch s.st.heap q x → L' x = s.links x := fun q hq x hx => m4 x (rch_lt h.ok.inv (by
        rw [outs_eq hv]; dsimp only; omega) hx)
      refine ⟨L', ?_, ?_, fun j v p hj hne hp x hx => hiso p (rest_pos hj (fun e => hne (by rw [e]; rfl)) hp) x hx⟩
      · simp only [LTSt.linkAct, TSt.idle, hv, R.bind_ok, hr]
        exact l1
      · simp only [e3, e4] at hviews k3 ⊢
        refine hl.step h hv (fun x nd hx => .inl (k4 x nd hx)) (hrest hviews) m1 (fun g => m2 (hl.linked g)) (Nat.le_succ _) hiso (fun t ht => ?_)
          (fun t' e => by cases e) (.inl hs1) hs2
        rw [k3] at ht; cases ht
        exact m3
    | some r =>
      simp only [bind_ok_iff] at he
      obtain ⟨t0, h0, _, -, _, -, path, -, he⟩ := he
      cases he
      refine ⟨s.links, ?_, ?_, fun _ _ _ _ _ _ _ _ => rfl⟩
      · simp only [LTSt.linkAct, TSt.idle, hv, R.bind_ok]; rfl
      · refine hl.step h hv (Effect.same _ _ _) (hrest hviews) hl.simple hl.linked (Nat.le_refl _) (fun _ _ _ _ => rfl) (fun t ht => ?_)
          (fun t' e => ?_) (.inl hs1) hs2
        · obtain ⟨t1, g1, rfl⟩ := root_view (r := r) (.inr ⟨_, List.getElem?_set_self (lt_of_get hv), rfl⟩) ht
          exact hl.nodup i _ (view_root (.inl hv) g1)
        · cases e
          intro _ _ _ _ hn
          exact absurd rfl hn
  | drop i =>
    simp only [TSt.act, bind_ok_iff] at he
    obtain ⟨o, ho, he⟩ := he
    have hv : s.st.vars[i]? = some (.idle o) := by
      unfold TSt.idle at ho
      split at ho
      · rename_i r hr; cases ho; exact hr
      · cases ho
    have hrest : ∀ {st' : TSt Nat S}, (∀ j, (Act.drop i : Act Nat S).var ≠ some j → ∀ t, s.st.view j = .ok t → st'.view j = .ok t) → Rest s.st st' i :=
      fun hh j hji t ht => hh j (by simpa [Act.var] using Ne.symm hji) t ht
    have key : ∀ work, (∀ j, (Act.drop i : Act Nat S).var ≠ some j → ∀ t, s.st.view j = .ok t →
        (⟨s.st.heap, s.st.vars.set i (.dying work)⟩ : TSt Nat S).view j = .ok t) →
        LTRel G E ⟨⟨s.st.heap, s.st.vars.set i (.dying work)⟩, s.links, s.seenAfter (.drop i)⟩ := fun work hw => by
      refine hl.step h hv (Effect.same _ _ _) (hrest hw) hl.simple hl.linked (Nat.le_refl _) (fun _ _ _ _ => rfl) (fun t ht => ?_)
        (fun t' e => by cases e) (.inr ⟨rfl, fun t' e => by cases e⟩) (fun _ _ => rfl)
      simp only [TSt.view, List.getElem?_set_self (lt_of_get hv)] at ht
      cases ht
    cases o with
    | none => cases he; exact ⟨s.links, rfl, key _ hviews, fun _ _ _ _ _ _ _ _ => rfl⟩
    | some r => cases he; exact ⟨s.links, rfl, key _ hviews, fun _ _ _ _ _ _ _ _ => rfl⟩
  | step i =>
    have hs1 : s.seenAfter (.step i) i = [] := by simp [LTSt.seenAfter]
    have hs2 : ∀ j, j ≠ i → s.seenAfter (.step i) j = s.seen j := fun j hj => by simp [LTSt.seenAfter, hj]
    have hrest : ∀ {st' : TSt Nat S}, (∀ j, (Act.step i : Act Nat S).var ≠ some j → ∀ t, s.st.view j = .ok t → st'.view j = .ok t) → Rest s.st st' i :=
      fun hh j hji t ht => hh j (by simpa [Act.var] using Ne.symm hji) t ht
    simp only [TSt.act] at he
    cases hv : s.st.vars[i]? with
    | none => rw [hv] at he; cases he
    | some v =>
      rw [hv] at he
      have hi := h.ok.inv
      rw [outs_eq hv] at hi
      cases v with
      | idle o => cases he
      | busy t =>
        simp only [bind_ok_iff] at he
        obtain ⟨⟨H', v'⟩, hstep, he⟩ := he
        simp only [R.pure_eq, Except.ok.injEq, Prod.mk.injEq] at he
        obtain ⟨rfl, -⟩ := he
        obtain ⟨X, past, tree, okt⟩ := h.ok.var i _ hv
        obtain ⟨u, -, hview, hu⟩ := h.known hv (fun _ h => by cases h)
        obtain ⟨t0, h0, rfl⟩ := root_view (.inr ⟨t, hv, rfl⟩) hview
        have e : t0 = tree := by have := okt.read; rw [h0] at this; cases this; rfl
        subst e
        obtain ⟨es, hrep⟩ := rep_of_reach hE hu
        obtain ⟨z1, z2, z3⟩ := hl.sees hi hv okt
        obtain ⟨L', m1, m2⟩ := task_links (L := s.links) hi okt hl.simple (hl.lk i t hv).1 hrep hstep z1 z2 z3
        rcases task_step (imax := imax) hi okt with ⟨H1, v1, e, k⟩ | ⟨e, -⟩ | ⟨f, _, e, -⟩
        rotate_left
        · rw [e] at hstep; cases hstep
        · rw [e] at hstep; cases hstep
        rw [e] at hstep; cases hstep
        refine ⟨L', ?_, hl.step h hv k.eff (hrest hviews) m2.simple (fun g => m2.linked (hl.linked g)) m2.next m2.iso (fun t' ht' => ?_) m2.way (.inl hs1) hs2,
          fun j v p hj hne hp x hx => m2.iso p (rest_pos hj (fun e => hne (by rw [e]; rfl)) hp) x hx⟩
        · simp only [LTSt.linkAct, hv]; exact m1
        · have hself : (s.st.vars.set i v')[i]? = some v' := List.getElem?_set_self (lt_of_get hv)
          have hdup := hl.nodup i _ hview
          cases v' with
          | idle o =>
            obtain ⟨r, tree', w, out, rfl, -⟩ := k.done o rfl
            obtain ⟨t1, g1, rfl⟩ := root_view (r := r) (.inl hself) ht'
            exact m2.dup hdup r t1 (.inl rfl) g1
          | busy t1 =>
            obtain ⟨t2, g1, rfl⟩ := root_view (r := t1.root) (.inr ⟨t1, hself, rfl⟩) ht'
            exact m2.dup hdup t1.root t2 (.inr ⟨t1, rfl, rfl⟩) g1
          | dying work => exact absurd rfl (k.stays work)
      | dying work =>
        cases work with
        | nil => cases he
        | cons w work =>
          simp only [bind_ok_iff] at he
          obtain ⟨⟨H', work'⟩, hg, he⟩ := he
          cases he
          obtain ⟨H1, work1, e, -, -, g3⟩ := giveUp_spec hi (h.ok.var i _ hv)
          rw [hg] at e; cases e
          obtain ⟨l1, l2⟩ := giveUp_lessens hg
          refine ⟨s.links, by simp only [LTSt.linkAct, hv]; rfl, hl.step h hv g3 (hrest hviews) (l1.simple hl.simple) (fun g => l1.linked l2 (hl.linked g)) (by omega)
            (fun _ _ _ _ => rfl) (fun t ht => ?_) (fun t' e => by cases e) (.inl hs1) hs2, fun _ _ _ _ _ _ _ _ => rfl⟩
          simp only [TSt.view, List.getElem?_set_self (lt_of_get hv)] at ht
          cases ht

theorem LTRel.init (E : Env Nat S) : LTRel G E LTSt.init where
  simple := fun x nd h => by simp [LTSt.init, TSt.init] at h
  linked := fun _ x nd h => by simp [LTSt.init, TSt.init] at h
  nodup := fun i t h => by simp [LTSt.init, TSt.init, TSt.view] at h
  lk := fun i t h => by simp [LTSt.init, TSt.init] at h
  seen := fun i x h => by simp [LTSt.init] at h

/-- Whether a node is shared is asked. -/
theorem LTRel.look {s : LTSt Nat S} {ss : Lists S} (h : RelT MAX E s.st ss) (hl : LTRel G E s) (i x : Nat) {s' : LTSt Nat S} {l : List (Op Nat S)}
    (he : s.act E imax (.look i x) = .ok (s', l)) : LTRel G E s' ∧ s'.st = s.st ∧ s'.links = s.links ∧ l = [] := by
  simp only [LTSt.act] at he
  cases hv : s.st.vars[i]? with
  | none => rw [hv] at he; cases he; exact ⟨hl, rfl, rfl, rfl⟩
  | some v =>
    rw [hv] at he
    cases v with
    | idle o => cases he; exact ⟨hl, rfl, rfl, rfl⟩
    | dying work => cases he; exact ⟨hl, rfl, rfl, rfl⟩
    | busy t =>
      simp only at he
      split at he
      swap
      · cases he; exact ⟨hl, rfl, rfl, rfl⟩
      rename_i hc
      cases he
      simp only [Bool.and_eq_true] at hc
      obtain ⟨nx, hx, hn⟩ : ∃ nx, s.st.heap.mem x = some nx ∧ nx.count ≠ 1 := by
        have := hc.2
        unfold shared at this
        cases hm : s.st.heap.mem x with
        | none => rw [hm] at this; cases this
        | some nx =>
          rw [hm] at this
          exact ⟨nx, rfl, by simpa using this⟩
      refine ⟨⟨hl.simple, hl.linked, hl.nodup, fun j t' ht' => ?_, fun j y hy => ?_⟩, rfl, rfl, rfl⟩
      · obtain ⟨k1, k2⟩ := hl.lk j t' ht'
        refine ⟨k1, fun X past tree ok y hy hyX => ?_⟩
        dsimp only at hy ok ht'
        split at hy
        · rename_i e
          subst e
          rcases List.mem_cons.1 hy with rfl | hy
          · cases hnd : t'.node with
            | none => rw [(ok.start hnd).2.1] at hyX; cases hyX
            | some p =>
              obtain ⟨nd, g1, g2⟩ := (ok.down p hnd).1.one y hyX
              rw [hx] at g1; cases g1
              exact hn g2
          · exact k2 X past tree ok y hy hyX
        · exact k2 X past tree ok y hy hyX
      · dsimp only at hy ⊢
        split at hy
        · rcases List.mem_cons.1 hy with rfl | hy
          · exact h.ok.inv.lt _ _ hx
          · exact hl.seen j y hy
        · exact hl.seen j y hy

end Sherman.Cow
