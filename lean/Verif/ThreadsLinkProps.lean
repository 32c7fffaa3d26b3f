import Verif.ThreadsLinkInv
import Verif.CowIterProps
/-!
# Parent links and iteration, with several threads: C47, C48

With the parent links that nodes store and the moments at which threads ask whether a node is shared, executions are the same as without.
No step depends on or writes the link of a node that another variable (or its thread) can reach; iteration over one tree goes on while threads
work on others.
-/
namespace Sherman.Cow
variable {S : Type}

/-! ## Specification -/

/-- What happens apart from questions whether nodes are shared. -/
def actsOf {I : Type} : List (LAct I S) → List (Act I S)
  | [] => []
  | .act a :: as => a :: actsOf as
  | .look _ _ :: as => actsOf as

/-- What happens while an iterator is in use, and calls of `next` (`false`) and `next_back` (`true`). -/
inductive TEvent (I S : Type) where
  | act (a : LAct I S)
  | take (back : Bool)

/-- What happens apart from the use of the iterator. -/
def eventActs {I : Type} : List (TEvent I S) → List (LAct I S)
  | [] => []
  | .act a :: evs => a :: eventActs evs
  | .take _ :: evs => eventActs evs

/-- The use of the iterator. -/
def eventTakes {I : Type} : List (TEvent I S) → List Bool
  | [] => []
  | .act _ :: evs => eventTakes evs
  | .take b :: evs => b :: eventTakes evs

/-- Events in turn; the iterator reads memory and links as they are when it is called.  The result is what the calls return. -/
def watchT {I : Type} (E : Env I S) (imax : Nat) : LTSt I S → MIter I → List (TEvent I S) → R (List (Option (Entry I S)))
  | _, _, [] => pure []
  | s, it, .act a :: evs => do
    let (s, _) ← s.act E imax a
    watchT E imax s it evs
  | s, it, .take false :: evs => do
    let (x, it) ← it.next E.ix s.st.heap s.links
    let xs ← watchT E imax s it evs
    pure (x :: xs)
  | s, it, .take true :: evs => do
    let (x, it) ← it.nextBack E.ix s.st.heap s.links
    let xs ← watchT E imax s it evs
    pure (x :: xs)

/-- Nobody who is in the middle of an insertion has the node for themselves: they cannot reach it, or another variable (or its thread) can. -/
def LTSt.Free (s : LTSt Nat S) (x : Nat) : Prop :=
  ∀ (i : Nat) (t : Task Nat S), s.st.vars[i]? = some (.busy t) → Rch s.st.heap t.root.p x → ∃ (j : Nat) (v : Var Nat S) (p : Nat), j ≠ i ∧ s.st.vars[j]? = some v ∧ p ∈ v.refs ∧ Rch s.st.heap p x

/-- Links with another value stored in one node. -/
def LTSt.setLink (s : LTSt Nat S) (x : Nat) (k : Option (Nat × Nat)) : LTSt Nat S := { s with links := s.links.put x k }

variable {MAX imax : Nat} {E : Env Nat S} {G : Prop}

/-! ## Executions -/

theorem lact_outcome (hE : E.ix = natIdx MAX) (hM : 1 ≤ E.M) (hM' : E.M ≤ 127) {s : LTSt Nat S} {ss : Lists S} (h : RelT MAX E s.st ss) (hl : LTRel G E s)
    (a : Act Nat S) (ha : a.fits MAX) :
    (∃ st' l ss' L', s.st.act E imax a = .ok (st', l) ∧ s.act E imax (.act a) = .ok (⟨st', L', s.seenAfter a⟩, l) ∧ s.linkAct E a = .ok L' ∧
      specRun MAX E.sl ss l = some ss' ∧ RelT MAX E st' ss' ∧ LTRel G E ⟨st', L', s.seenAfter a⟩ ∧
      (∀ j, a.var ≠ some j → ∀ t, s.st.view j = .ok t → st'.view j = .ok t) ∧ LinksKept s.st s.links L' a) ∨
    ∃ f, s.st.act E imax a = .error f ∧ s.act E imax (.act a) = .error f := by
  rcases act_outcome (imax := imax) hE hM hM' h a ha with ⟨st', l, ss', e, e2, e3, e4, -⟩ | ⟨e, -⟩ | ⟨_, e, -⟩ | ⟨_, _, e, -⟩
  · obtain ⟨L', g1, g2, g3⟩ := hl.act hE h a e e4
    refine .inl ⟨st', l, ss', L', e, ?_, g1, e2, e3, g2, e4, g3⟩
    simp only [LTSt.act, e, R.bind_ok, g1, R.pure_eq]
  all_goals
    refine .inr ⟨_, e, ?_⟩
    simp only [LTSt.act, e]
    rfl

theorem look_total (s : LTSt Nat S) (i x : Nat) : ∃ s', s.act E imax (.look i x) = .ok (s', []) := by
  simp only [LTSt.act]
  split <;> exact ⟨_, rfl⟩

theorem lrun_rel (hE : E.ix = natIdx MAX) (hM : 1 ≤ E.M) (hM' : E.M ≤ 127) {acts : List (LAct Nat S)} (hf : ∀ a ∈ actsOf acts, a.fits MAX)
    {s0 : LTSt Nat S} {ss0 : Lists S} (h : RelT MAX E s0.st ss0) (hl : LTRel G E s0) :
    (LTSt.run E imax s0 acts).map (fun r => (r.1.st, r.2)) = TSt.run E imax s0.st (actsOf acts) ∧
    ∀ s log, LTSt.run E imax s0 acts = .ok (s, log) → ∃ ss, specRun MAX E.sl ss0 log = some ss ∧ RelT MAX E s.st ss ∧ LTRel G E s := by
  induction acts generalizing s0 ss0 with
  | nil => exact ⟨rfl, fun s log e => by cases e; exact ⟨ss0, rfl, h, hl⟩⟩
  | cons a acts ih =>
    cases a with
    | look i x =>
      obtain ⟨s1, e⟩ := look_total (E := E) (imax := imax) s0 i x
      obtain ⟨g1, g2, g3, -⟩ := hl.look h i x e
      obtain ⟨k1, k2⟩ := ih hf (s0 := s1) (ss0 := ss0) (by rw [g2]; exact h) g1
      rw [g2] at k1
      have hrun : LTSt.run E imax s0 (.look i x :: acts) = LTSt.run E imax s1 acts := by
        simp only [LTSt.run, e, R.bind_ok]
        cases LTSt.run E imax s1 acts with
        | error f => rfl
        | ok r => rfl
      rw [hrun]
      exact ⟨k1, k2⟩
    | act a =>
      rcases lact_outcome (imax := imax) hE hM hM' h hl a (hf a (by simp [actsOf])) with
        ⟨st', l, ss', L', e1, e2, e3, e4, e5, e6, -, -⟩ | ⟨f, e1, e2⟩
      · obtain ⟨k1, k2⟩ := ih (fun a ha => hf a (by simp [actsOf, ha])) (s0 := ⟨st', L', s0.seenAfter a⟩) (ss0 := ss') e5 e6
        simp only [actsOf, LTSt.run, TSt.run, e1, e2, R.bind_ok]
        constructor
        · rw [← k1]
          cases LTSt.run E imax ⟨st', L', s0.seenAfter a⟩ acts with
          | error f => rfl
          | ok r => rfl
        · intro s log hr
          simp only [bind_ok_iff] at hr
          obtain ⟨⟨s1, l1⟩, h1, h2⟩ := hr
          cases h2
          obtain ⟨ss, g1, g2, g3⟩ := k2 s1 l1 h1
          refine ⟨ss, ?_, g2, g3⟩
          simp only [specRun, List.foldlM_append] at e4 g1 ⊢
          rw [e4]; exact g1
      · simp only [actsOf, LTSt.run, TSt.run, e1, e2]
        exact ⟨rfl, fun s log hr => by cases hr⟩

/-! ## C47 -/

/-- C47: with stored parent links, and whenever threads ask which nodes are shared, executions are those of C44: the same trees and the same
failures. -/
theorem threads_links_immaterial (hE : E.ix = natIdx MAX) (hM : 1 ≤ E.M) (hM' : E.M ≤ 127) {acts : List (LAct Nat S)}
    (hf : ∀ a ∈ actsOf acts, a.fits MAX) :
    (LTSt.run E imax LTSt.init acts).map (fun r => (r.1.st, r.2)) = TSt.run E imax TSt.init (actsOf acts) :=
  (lrun_rel hE hM hM' hf (RelT.init MAX E) (LTRel.init (G := True) E)).1

/-- C47: at any point, the links of nodes that no insertion under way has for itself may have any values at all, as they may if addresses are
used again: what follows is the same. -/
theorem threads_links_arbitrary (hE : E.ix = natIdx MAX) (hM : 1 ≤ E.M) (hM' : E.M ≤ 127) {acts : List (LAct Nat S)}
    (hf : ∀ a ∈ actsOf acts, a.fits MAX) {s : LTSt Nat S} {log : List (Op Nat S)} (h : LTSt.run E imax LTSt.init acts = .ok (s, log))
    (L : LinkMap) (hL : ∀ x, ¬ s.Free x → L x = s.links x) {acts' : List (LAct Nat S)} (hf' : ∀ a ∈ actsOf acts', a.fits MAX) :
    (LTSt.run E imax { s with links := L } acts').map (fun r => (r.1.st, r.2)) = TSt.run E imax s.st (actsOf acts') := by
  obtain ⟨ss, -, h2, h3⟩ := (lrun_rel (imax := imax) hE hM hM' hf (RelT.init MAX E) (LTRel.init (G := True) E)).2 s log h
  have h4 : LTRel False E { s with links := L } := by
    refine ⟨h3.simple, False.elim, h3.nodup, fun i t ht => ⟨?_, (h3.lk i t ht).2⟩, h3.seen⟩
    have hi := h2.ok.inv
    rw [outs_eq ht] at hi
    obtain ⟨X, past, tree, okt⟩ := h2.ok.var i _ ht
    refine (h3.lk i t ht).1.frame hi okt (Keeps.of_same (fun x n h => ⟨n, h, .refl _⟩) _) (fun y hy => hL y (fun hfree => ?_))
    cases hn : t.node with
    | none => rw [(okt.start hn).2.1] at hy; cases hy
    | some q =>
      obtain ⟨j, v, p, k1, k2, k3, k4⟩ := hfree i t ht ((okt.down q hn).1.rch y hy)
      exact (okt.down q hn).1.priv hi (by simp [Var.refs]) (rest_pos k2 k1 k3) hy k4
  exact (lrun_rel hE hM hM' hf' (s0 := { s with links := L }) h2 h4).1

theorem runLinks_agree {σ : Sharing} (hc : σ.cow = true) {x : Nat} {l : List LinkCmd} {L L2 A B : LinkMap} (h : ∀ y, y ≠ x → L2 y = L y)
    (hA : runLinks σ L l = .ok A) (hB : runLinks σ L2 l = .ok B) : ∀ y, y ≠ x → B y = A y := by
  induction l generalizing L L2 with
  | nil => cases hA; cases hB; exact h
  | cons c l ih =>
    simp only [runLinks, List.foldlM_cons, bind_ok_iff] at hA hB
    obtain ⟨A1, a1, a2⟩ := hA
    obtain ⟨B1, b1, b2⟩ := hB
    refine ih (fun y hy => ?_) a2 b2
    have hput : ∀ (c : Nat) v, (L2.put c v) y = (L.put c v) y := fun c v => by simp only [LinkMap.put]; split <;> simp [h y hy]
    cases c with
    | new c => cases a1; cases b1; exact hput _ _
    | set c p i =>
      simp only [runLink] at a1 b1
      split at a1
      · cases a1
      · rename_i hs
        rw [if_neg hs] at b1
        cases a1; cases b1; exact hput _ _
    | setOwned c p i =>
      simp only [runLink] at a1 b1
      split at a1
      · rename_i hs
        rw [if_pos hs] at b1
        cases a1; cases b1; exact h y hy
      · rename_i hs
        rw [if_neg hs] at b1
        cases a1; cases b1; exact hput _ _
    | index c p i =>
      simp only [runLink, hc, if_true] at a1 b1
      split at a1
      · rename_i hs
        rw [if_pos hs] at b1
        cases a1; cases b1; exact h y hy
      · rename_i hs
        rw [if_neg hs] at b1
        cases a1; cases b1; exact hput _ _
    | up c p i =>
      simp only [runLink] at a1 b1
      split at a1
      · split at b1
        · cases a1; cases b1; exact h y hy
        · cases b1
      · cases a1
    | top c =>
      simp only [runLink] at a1 b1
      split at a1
      · split at b1
        · cases a1; cases b1; exact h y hy
        · cases b1
      · cases a1

theorem linkStep_agree {H : Heap Nat S} {t : Task Nat S} {sh : Nat → Bool} {x : Nat} {L L2 A B : LinkMap} (h : ∀ y, y ≠ x → L2 y = L y)
    (hA : t.linkStep E H L sh = .ok A) (hB : t.linkStep E H L2 sh = .ok B) : ∀ y, y ≠ x → B y = A y := by
  have hput : ∀ (c : Nat) v y, y ≠ x → (L2.put c v) y = (L.put c v) y := fun c v y hy => by simp only [LinkMap.put]; split <;> simp [h y hy]
  unfold Task.linkStep at hA hB
  cases hpc : t.pc with
  | check =>
    simp only [hpc, bind_ok_iff] at hA hB
    obtain ⟨o, ho, hA⟩ := hA
    obtain ⟨o', ho', hB⟩ := hB
    rw [ho] at ho'; cases ho'
    cases o with
    | none =>
      simp only [bind_ok_iff] at hA hB
      obtain ⟨tr, h1, ⟨t2, out⟩, h2, hA⟩ := hA
      obtain ⟨tr', h1', ⟨t2', out'⟩, h2', hB⟩ := hB
      rw [h1] at h1'; cases h1'
      rw [h2] at h2'; cases h2'
      exact runLinks_agree rfl h hA hB
    | some q =>
      simp only [bind_ok_iff] at hA hB
      obtain ⟨nd, h1, hA⟩ := hA
      obtain ⟨nd', h1', hB⟩ := hB
      rw [h1] at h1'; cases h1'
      split at hA
      · rename_i hc
        rw [if_pos hc] at hB
        cases hA; cases hB
        exact hput _ _
      · rename_i hc
        rw [if_neg hc] at hB
        cases hA; cases hB
        exact h
  | incr done todo =>
    cases todo with
    | nil =>
      simp only [hpc, bind_ok_iff] at hA hB
      obtain ⟨o, ho, hA⟩ := hA
      obtain ⟨o', ho', hB⟩ := hB
      rw [ho] at ho'; cases ho'
      cases o with
      | none => cases hA
      | some q =>
        cases hA; cases hB
        intro y hy
        simp only [LinkMap.put]
        split
        · rfl
        · exact h y hy
    | cons a todo =>
      simp only [hpc] at hA hB
      cases hA; cases hB
      exact h
  | giveUp work =>
    simp only [hpc] at hA hB
    cases hA; cases hB
    exact h

theorem put_of_agree {A B : LinkMap} {x : Nat} {k : Option (Nat × Nat)} (h : ∀ y, y ≠ x → B y = A y) (hx : B x = k) : B = A.put x k := by
  funext y
  simp only [LinkMap.put]
  split
  · rename_i e; rw [e]; exact hx
  · rename_i e; exact h y e

/-- What a step does to links does not depend on links of nodes that others reach. -/
theorem linkAct_other (hE : E.ix = natIdx MAX) {s : LTSt Nat S} {ss : Lists S} (h : RelT MAX E s.st ss) (hl : LTRel G E s) {a : Act Nat S}
    {st' : TSt Nat S} {l : List (Op Nat S)} (he : s.st.act E imax a = .ok (st', l)) {L' : LinkMap} (hL : s.linkAct E a = .ok L')
    {j : Nat} {v : Var Nat S} {p : Nat} (hj : s.st.vars[j]? = some v) (hne : a.var ≠ some j) (hp : p ∈ v.refs) {x : Nat} (hx : Rch s.st.heap p x)
    (k : Option (Nat × Nat)) : (s.setLink x k).linkAct E a = .ok (L'.put x k) := by
  have hoff : ∀ y, y ≠ x → (s.links.put x k) y = s.links y := fun y hy => by simp [LinkMap.put, hy]
  have hon : (s.links.put x k) x = k := by simp [LinkMap.put]
  have hpure : s.linkAct E a = pure s.links → (s.setLink x k).linkAct E a = pure (s.links.put x k) → (s.setLink x k).linkAct E a = .ok (L'.put x k) := by
    intro e1 e2
    rw [e1] at hL; cases hL
    exact e2
  cases a with
  | new => exact hpure rfl rfl
  | clone i => exact hpure rfl rfl
  | drop i => exact hpure rfl rfl
  | insert i a =>
    simp only [LTSt.linkAct, bind_ok_iff] at hL
    obtain ⟨o, ho, hL⟩ := hL
    have hidle : (s.setLink x k).st.idle i = .ok o := ho
    cases o with
    | some r =>
      cases hL
      simp only [LTSt.linkAct, hidle, R.bind_ok]
      rfl
    | none =>
      simp only [bind_ok_iff] at hL
      obtain ⟨⟨t2, o⟩, hr, hL⟩ := hL
      obtain ⟨t', L2, -, -, l1, -, -, -, -, m4⟩ := first_links (L := s.links.put x k) h.ok.inv hl.simple hr
      have hlt : x < s.st.heap.next := rch_lt h.ok.inv (by
        have h1 := List.count_pos_iff.2 hp
        rw [outs_eq hj]; dsimp only; omega) hx
      have hr' : RleTree.insert E ⟨none⟩ a.nop a.hints a.idx a.slice a.size ⟨(s.setLink x k).st.heap.next, [], [], none, []⟩ = .ok (t2, o) := hr
      simp only [LTSt.linkAct, hidle, R.bind_ok, hr']
      have l1' : runLinks ⟨true, shared (s.setLink x k).st.heap⟩ (s.setLink x k).links o.world.links = .ok L2 := l1
      rw [l1', put_of_agree (runLinks_agree (σ := ⟨true, shared s.st.heap⟩) rfl hoff hL l1) (by rw [m4 x hlt, hon])]
  | step i =>
    simp only [TSt.act] at he
    cases hv : s.st.vars[i]? with
    | none => rw [hv] at he; cases he
    | some v =>
      rw [hv] at he
      cases v with
      | idle o => cases he
      | dying work =>
        refine hpure (by simp only [LTSt.linkAct, hv]) ?_
        have hv' : (s.setLink x k).st.vars[i]? = some (.dying work) := hv
        simp only [LTSt.linkAct, hv']
        rfl
      | busy t =>
        simp only [bind_ok_iff] at he
        obtain ⟨⟨H', v'⟩, hstep, -⟩ := he
        have hji : j ≠ i := fun e => hne (by rw [e]; rfl)
        have hi := h.ok.inv
        rw [outs_eq hv] at hi
        obtain ⟨X, past, tree, okt⟩ := h.ok.var i _ hv
        obtain ⟨u, -, hview, hu⟩ := h.known hv (fun _ h => by cases h)
        obtain ⟨t0, h0, rfl⟩ := root_view (.inr ⟨t, hv, rfl⟩) hview
        have e : t0 = tree := by have := okt.read; rw [h0] at this; cases this; rfl
        subst e
        obtain ⟨es, hrep⟩ := rep_of_reach hE hu
        obtain ⟨z1, z2, z3⟩ := hl.sees hi hv okt
        have hlk : t.Lk E s.st.heap (s.links.put x k) :=
          (hl.lk i t hv).1.frame hi okt (Keeps.of_same (fun x n h => ⟨n, h, .refl _⟩) _) (fun y hy => hoff y (by
            rintro rfl
            cases hn : t.node with
            | none => rw [(okt.start hn).2.1] at hy; cases hy
            | some q => exact (okt.down q hn).1.priv hi (by simp [Var.refs]) (rest_pos hj hji hp) hy hx))
        obtain ⟨L2, m1, m2⟩ := task_links hi okt hl.simple hlk hrep hstep z1 z2 z3
        simp only [LTSt.linkAct, hv] at hL
        have hv' : (s.setLink x k).st.vars[i]? = some (.busy t) := hv
        simp only [LTSt.linkAct, hv']
        have m1' : t.linkStep E (s.setLink x k).st.heap (s.setLink x k).links ((s.setLink x k).sees i) = .ok L2 := m1
        rw [m1', put_of_agree (linkStep_agree hoff hL m1) (by rw [m2.iso p (rest_pos hj hji hp) x hx, hon])]

/-- C47: no step depends on or writes the link of a node that another variable (or its thread) can reach: whatever is stored there, the step does the
same, and it is still stored there afterwards. -/
theorem threads_links_isolated (hE : E.ix = natIdx MAX) (hM : 1 ≤ E.M) (hM' : E.M ≤ 127) {acts : List (LAct Nat S)}
    (hf : ∀ a ∈ actsOf acts, a.fits MAX) {s s' : LTSt Nat S} {log l : List (Op Nat S)} (h : LTSt.run E imax LTSt.init acts = .ok (s, log))
    {a : Act Nat S} (ha : a.fits MAX) (h' : s.act E imax (.act a) = .ok (s', l)) {j : Nat} {v : Var Nat S} {p : Nat}
    (hj : s.st.vars[j]? = some v) (hne : a.var ≠ some j) (hp : p ∈ v.refs) {x : Nat} (hx : Rch s.st.heap p x) :
    s'.links x = s.links x ∧ ∀ k, (s.setLink x k).act E imax (.act a) = .ok (s'.setLink x k, l) := by
  obtain ⟨ss, -, h2, h3⟩ := (lrun_rel (imax := imax) hE hM hM' hf (RelT.init MAX E) (LTRel.init (G := True) E)).2 s log h
  rcases lact_outcome (imax := imax) hE hM hM' h2 h3 a ha with ⟨st', l', ss', L', e1, e2, e3, -, -, -, -, e8⟩ | ⟨f, -, e⟩
  swap
  · rw [h'] at e; cases e
  rw [h'] at e2; cases e2
  refine ⟨e8 j v p hj hne hp x hx, fun k => ?_⟩
  have g := linkAct_other hE h2 h3 e1 e3 hj hne hp hx k
  have e1' : (s.setLink x k).st.act E imax a = .ok (st', l) := e1
  simp only [LTSt.act, e1', R.bind_ok, g]
  rfl

/-! ## C48 -/

theorem iterT_sim {s : LTSt Nat S} {j : Nat} {o : Option CRoot} (hj : s.st.vars[j]? = some (.idle o)) {t : RleTree Nat S} (hv : s.st.view j = .ok t)
    {cursor : List Nat} {r : Range.Rng Nat} :
    (∀ it, t.iter E cursor r = .ok it →
      ∃ m, s.iter E.ix j cursor r = .ok m ∧ Sim s.links it m ∧ Rooted (fun {h} root => ∃ len, t.root = some ⟨h, root, len⟩) it) := by
  intro it hr
  unfold RleTree.iter at hr
  unfold LTSt.iter TSt.idle
  simp only [hj, R.bind_ok]
  cases o with
  | none =>
    rw [view_idle hj] at hv; cases hv
    exact new_sim (fun _ => rfl) (fun rt h => by cases h) hr
  | some c =>
    obtain ⟨t0, h2, rfl⟩ := root_view (.inl hj) hv
    obtain ⟨nd, ks, g1, g2, g3⟩ := readT_succ.1 h2
    simp only [get_ok.2 g1, R.bind_ok]
    have hsz : RleTree.size E (⟨some ⟨c.h, t0, c.len⟩⟩ : RleTree Nat S) = nd.size := by
      show Node.size t0 = _
      rw [g3]
    have hp : c.p = Node.ptr t0 := by rw [g3]
    rw [hsz] at hr
    exact new_sim (fun h => by cases h) (fun rt h => by cases h; exact ⟨c, rfl, rfl, hp⟩) hr

theorem newM_fails {ix : IdxOps Nat} {r : Range.Rng Nat} {cursor : List Nat} {f : Fault} {size : Nat} {root : Option (Root Nat S)} (cr : Option CRoot)
    (h : Iter.new ix r size cursor root = .error f) : MIter.new ix r size cursor cr = .error f := by
  unfold MIter.new
  have : Iter.new ix r size cursor (none : Option (Root Nat Unit)) = .error f := by
    unfold Iter.new at h ⊢
    simp only at h ⊢
    generalize check (!Range.startsAfterEnd r) "invalid range" = c1 at h ⊢
    cases c1 with
    | error e => cases h; rfl
    | ok _ =>
      simp only [R.bind_ok] at h ⊢
      generalize check (!ix.lt _ ix.zero) "range out of bounds below zero" = c2 at h ⊢
      cases c2 with
      | error e => cases h; rfl
      | ok _ =>
        simp only [R.bind_ok] at h ⊢
        generalize check _ "range out of bounds for tree size" = c3 at h ⊢
        cases c3 with
        | error e => cases h; rfl
        | ok _ => cases h
  rw [this]; rfl

theorem iterT_fails {s : LTSt Nat S} {j : Nat} {o : Option CRoot} (hj : s.st.vars[j]? = some (.idle o)) {t : RleTree Nat S} (hv : s.st.view j = .ok t)
    {cursor : List Nat} {r : Range.Rng Nat} {f : Fault} (hr : t.iter E cursor r = .error f) : s.iter E.ix j cursor r = .error f := by
  unfold RleTree.iter at hr
  unfold LTSt.iter TSt.idle
  simp only [hj, R.bind_ok]
  cases o with
  | none =>
    rw [view_idle hj] at hv; cases hv
    exact newM_fails _ hr
  | some c =>
    obtain ⟨t0, h2, rfl⟩ := root_view (.inl hj) hv
    obtain ⟨nd, ks, g1, g2, g3⟩ := readT_succ.1 h2
    simp only [get_ok.2 g1, R.bind_ok]
    have hsz : RleTree.size E (⟨some ⟨c.h, t0, c.len⟩⟩ : RleTree Nat S) = nd.size := by
      show Node.size t0 = _
      rw [g3]
    rw [hsz] at hr
    exact newM_fails _ hr

/-- Addresses of a tree that a variable holds can be reached from the variable. -/
theorem view_rch {s : LTSt Nat S} {ss : Lists S} (h : RelT MAX E s.st ss) {j : Nat} {t : RleTree Nat S} (hv : s.st.view j = .ok t) {x : Nat}
    (hx : x ∈ t.addrs) : ∃ v p, s.st.vars[j]? = some v ∧ p ∈ v.refs ∧ Rch s.st.heap p x := by
  have key : ∀ r : CRoot, (s.st.vars[j]? = some (.idle (some r)) ∨ ∃ k, s.st.vars[j]? = some (.busy k) ∧ k.root = r) →
      ∃ v p, s.st.vars[j]? = some v ∧ p ∈ v.refs ∧ Rch s.st.heap p x := by
    intro r hr
    obtain ⟨t0, h0, rfl⟩ := root_view hr hv
    obtain ⟨⟨nd, h1, h2⟩, v, h3, h4⟩ := h.ok.node hr
    exact ⟨v, r.p, h3, h4, addrs_rch h.ok.inv h1 h2 h0 x hx⟩
  cases hw : s.st.vars[j]? with
  | none => simp [TSt.view, hw] at hv
  | some w =>
    cases w with
    | idle o =>
      cases o with
      | none => rw [view_idle hw] at hv; cases hv; cases hx
      | some r => rw [← hw]; exact key r (.inl hw)
    | busy k => rw [← hw]; exact key k.root (.inr ⟨k, hw, rfl⟩)
    | dying work => simp [TSt.view, hw] at hv

theorem fitT {s : LTSt Nat S} {ss : Lists S} (h : RelT MAX E s.st ss) (hl : LTRel True E s) {j : Nat} {t : RleTree Nat S} (hv : s.st.view j = .ok t)
    {h' len : Nat} {root : Tree Nat S (h' + 1)} (ht : t.root = some ⟨h', root, len⟩) : Fit s.st.heap s.links [] root := by
  have key : ∀ r : CRoot, (s.st.vars[j]? = some (.idle (some r)) ∨ ∃ k, s.st.vars[j]? = some (.busy k) ∧ k.root = r) → Fit s.st.heap s.links [] root := by
    intro r hr
    obtain ⟨t0, h0, rfl⟩ := root_view hr hv
    obtain ⟨⟨nd, h1, h2⟩, -⟩ := h.ok.node hr
    cases ht
    exact fit_of_read h.ok.inv (hl.linked trivial) h1 h2 h0 (by simp)
  cases hw : s.st.vars[j]? with
  | none => simp [TSt.view, hw] at hv
  | some w =>
    cases w with
    | idle o =>
      cases o with
      | none => rw [view_idle hw] at hv; cases hv; cases ht
      | some r => exact key r (.inl hw)
    | busy k => exact key k.root (.inr ⟨k, hw, rfl⟩)
    | dying work => simp [TSt.view, hw] at hv

theorem watchT_sim (hE : E.ix = natIdx MAX) (hM : 1 ≤ E.M) (hM' : E.M ≤ 127) {j : Nat} {t : RleTree Nat S} (evs : List (TEvent Nat S))
    (hev : ∀ a ∈ actsOf (eventActs evs), a.fits MAX ∧ a.var ≠ some j) {s : LTSt Nat S} {ss : Lists S} (h : RelT MAX E s.st ss) (hl : LTRel True E s)
    (hv : s.st.view j = .ok t) {it : Iter Nat S} {m : MIter Nat} (hs : Sim s.links it m)
    (hroot : Rooted (fun {h} root => ∃ len, t.root = some ⟨h, root, len⟩) it) {s' : LTSt Nat S} {log : List (Op Nat S)}
    (hrun : LTSt.run E imax s (eventActs evs) = .ok (s', log)) {xs : List (Option (Entry Nat S))} (hx : runIter E.ix it (eventTakes evs) = .ok xs) :
    watchT E imax s m evs = .ok xs := by
  induction evs generalizing s ss it m xs log with
  | nil => cases hx; rfl
  | cons ev evs ih =>
    have hfit : Rooted (Fit s.st.heap s.links []) it := by
      intro st hst
      obtain ⟨len, hlen⟩ := hroot st hst
      exact fitT h hl hv hlen
    cases ev with
    | act a =>
      simp only [eventActs, LTSt.run, bind_ok_iff] at hrun
      obtain ⟨⟨s1, l1⟩, e1, ⟨s2, l2⟩, hrun, -, he⟩ := hrun
      simp only [watchT, e1, R.bind_ok]
      cases a with
      | look i x =>
        obtain ⟨g1, g2, g3, -⟩ := hl.look h i x e1
        exact ih hev (s := s1) (ss := ss) (by rw [g2]; exact h) g1 (by rw [g2]; exact hv) (by rw [g3]; exact hs) hroot (log := l2) hrun hx
      | act a =>
        have ha := hev a (by simp [eventActs, actsOf])
        rcases lact_outcome (imax := imax) hE hM hM' h hl a ha.1 with ⟨st', l', ss', L', g1, g2, g3, g4, g5, g6, g7, g8⟩ | ⟨f, -, e⟩
        swap
        · rw [e1] at e; cases e
        rw [e1] at g2; cases g2
        refine ih (fun a' h' => hev a' (by simp [eventActs, actsOf, h'])) g5 g6 (g7 j ha.2 t hv) (hs.congr ?_) hroot hrun hx
        intro st hst x hx
        obtain ⟨len, hlen⟩ := hroot st hst
        obtain ⟨v, p, k1, k2, k3⟩ := view_rch (x := x) h hv (by
          obtain ⟨rt⟩ := t
          cases hlen
          exact hx)
        exact g8 j v p k1 ha.2 k2 x k3
    | take b =>
      cases b with
      | false =>
        simp only [eventTakes, runIter, bind_ok_iff] at hx
        obtain ⟨⟨x, it'⟩, h1, ys, h2, hx⟩ := hx
        cases hx
        obtain ⟨m', g1, g2⟩ := next_sim hs hfit h1
        simp only [watchT, g1, R.bind_ok, ih hev h hl hv g2 (next_rooted hroot h1) hrun h2]
        rfl
      | true =>
        simp only [eventTakes, runIter, bind_ok_iff] at hx
        obtain ⟨⟨x, it'⟩, h1, ys, h2, hx⟩ := hx
        cases hx
        obtain ⟨m', g1, g2⟩ := nextBack_sim hs hfit h1
        simp only [watchT, g1, R.bind_ok, ih hev h hl hv g2 (nextBack_rooted hroot h1) hrun h2]
        rfl

/-- C48: iteration over a tree that no thread is changing returns the runs that the specification of programs with one thread says, for any valid
range, whichever way it is asked, and whatever other threads do to other trees between the calls, in the middle of insertions and of
destructors; for other ranges `iter` panics.  Missing: addresses that are used again (`iter_reuse_wrong`). -/
theorem threads_iter_partial (hE : E.ix = natIdx MAX) (hM : 1 ≤ E.M) (hM' : E.M ≤ 127) {acts : List (LAct Nat S)} (hf : ∀ a ∈ actsOf acts, a.fits MAX)
    {s : LTSt Nat S} {log : List (Op Nat S)} (h : LTSt.run E imax LTSt.init acts = .ok (s, log)) {j : Nat} {o : Option CRoot}
    (hj : s.st.vars[j]? = some (.idle o)) (cursor : List Nat) (r : Range.Rng Nat) :
    ∃ ss es, specRun MAX E.sl [] log = some ss ∧ ss[j]? = some (some es) ∧
      (¬ ValidRange (total es) r → ∃ m, s.iter E.ix j cursor r = .error (.panic m)) ∧
      (ValidRange (total es) r → ∃ it, s.iter E.ix j cursor r = .ok it ∧
        ∀ evs, (∀ a ∈ actsOf (eventActs evs), a.fits MAX ∧ a.var ≠ some j) → ∀ s' l, LTSt.run E imax s (eventActs evs) = .ok (s', l) →
          (watchT E imax s it evs).map (List.map (Option.map fun x => (x.start, x.stop, x.slice))) = .ok (runDeque (spansIn r es) (eventTakes evs))) := by
  obtain ⟨ss, h1, h2, h3⟩ := (lrun_rel (imax := imax) hE hM hM' hf (RelT.init MAX E) (LTRel.init (G := True) E)).2 s log h
  obtain ⟨t, hs, hview, hreach⟩ := h2.known hj (fun _ h => by cases h)
  obtain ⟨-, hh, -⟩ := hreach.holds hE
  have hsize : t.size E = total t.runs := hh.size hE
  refine ⟨ss, t.runs, h1, hs, fun hr => ?_, fun hr => ?_⟩
  · rw [← hsize] at hr
    obtain ⟨m, hm⟩ := iterNew_invalid (MAX := MAX) hr cursor t.root
    exact ⟨m, iterT_fails hj hview (by unfold RleTree.iter; rw [hE]; exact hm)⟩
  · rw [← hsize] at hr
    obtain ⟨it, i1, i2⟩ := iter_deque_reach hE hreach (P_nodup (h3.nodup j t hview)) cursor hr
    obtain ⟨m, g1, g2, g3⟩ := iterT_sim hj hview it i1
    refine ⟨m, g1, fun evs hev s' l hrun => ?_⟩
    rw [watchT_sim hE hM hM' evs hev h2 h3 hview g2 g3 hrun (i2 _), ← expected_spans hE hreach r, runDeque_map]
    rfl

/-! ## Examples -/

/-- `exRace`; before the end of their insertions the threads ask about the nodes. -/
def exLinkRace : List (LAct Nat Char) :=
  exRace.map .act ++ [1, 1, 1].map (fun i => .act (.step i)) ++ (List.range 7).map (.look 1)

example : (LTSt.run exEnv 1000 LTSt.init exLinkRace).toBool = true ∧ (∀ a ∈ actsOf exLinkRace, a.fits 255) := by
  constructor
  · decide +kernel
  · decide

/-- What the second thread has found shared, three links, the roots, and the number of operations that have taken effect. -/
def seenL (acts : List (LAct Nat Char)) : Option (List Nat × List (Option (Nat × Nat)) × List (List Nat) × Nat) :=
  match LTSt.run exEnv 1000 LTSt.init acts with
  | .ok (s, log) => some (s.seen 1, [3, 6, 7].map s.links, s.st.vars.map Var.refs, log.length)
  | .error _ => none

/-- The thread of the second tree is about to end its insertion and has seen that node 3 is shared.  The link of node 3 is that of the tree of
before, whose root has been freed; neither thread relies on it, and the last step leaves it as it is, though it adds a run to node 7 next to it. -/
example : seenL exLinkRace = some ([3], [some (2, 2), some (4, 0), some (5, 1)], [[4], [5]], 8) := by decide +kernel

example : seenL (exLinkRace ++ [.act (.step 1)]) = some ([], [some (2, 2), some (4, 0), some (5, 1)], [[4], [5]], 9) := by decide +kernel

/-- The hypotheses of `threads_links_isolated` hold for this step and node 3, which the first variable can reach. -/
example : ∃ s s' log l v, LTSt.run exEnv 1000 LTSt.init exLinkRace = .ok (s, log) ∧ s.act exEnv 1000 (.act (.step 1)) = .ok (s', l) ∧
    s.st.vars[0]? = some v ∧ 4 ∈ v.refs ∧ Rch s.st.heap 4 3 := by
  have h : (match LTSt.run exEnv 1000 LTSt.init exLinkRace with
    | .ok (s, _) => (s.act exEnv 1000 (.act (.step 1))).toBool && decide (s.st.vars[0]?.map Var.refs = some [4]) &&
        (refsOf (s.st.heap.mem 4)).contains 3
    | .error _ => false) = true := by decide +kernel
  split at h
  · rename_i s log e
    simp only [Bool.and_eq_true, decide_eq_true_eq, Option.map_eq_some_iff, List.contains_iff_mem] at h
    obtain ⟨⟨h1, v, h2, h3⟩, h4⟩ := h
    cases ha : s.act exEnv 1000 (.act (.step 1)) with
    | error f => rw [ha] at h1; cases h1
    | ok r =>
      refine ⟨s, r.1, log, r.2, v, e, ha, h2, by simp [h3], ?_⟩
      cases hm : s.st.heap.mem 4 with
      | none => rw [hm] at h4; cases h4
      | some nd => rw [hm] at h4; exact .next .here hm h4
  · cases h

/-- Three variables share a tree; two threads insert into two of them and drop one, while the third is iterated over. -/
def exIterEvs : List (TEvent Nat Char) :=
  [.act (.act (ins 0 1 'x')), .take false, .act (.act (ins 1 2 'y'))] ++ [0, 1, 0, 1, 0, 1].map (fun i => .act (.act (.step i))) ++ [.take true, .take false] ++
  [0, 1, 0, 1, 0, 1, 0, 1, 0, 1, 0, 1].map (fun i => .act (.act (.step i))) ++ [.act (.look 0 1), .take false] ++
  [0, 1, 0, 1, 0, 1].map (fun i => .act (.act (.step i))) ++ [.act (.act (.clone 2)), .act (.act (.drop 0)), .take true, .act (.act (.step 0)), .take true]

example : (∀ a ∈ actsOf (eventActs exIterEvs), a.fits 255 ∧ a.var ≠ some 2) ∧
    (LTSt.run exEnv 1000 LTSt.init ((exRace.take 17).map .act ++ [.act (.clone 0)]) >>= fun r => LTSt.run exEnv 1000 r.1 (eventActs exIterEvs)).toBool = true ∧
    (LTSt.run exEnv 1000 LTSt.init ((exRace.take 17).map .act ++ [.act (.clone 0)]) >>= fun r => do
      let it ← r.1.iter exEnv.ix 2 [] ⟨.included 1, .unbounded⟩
      let xs ← watchT exEnv 1000 r.1 it exIterEvs
      pure (xs.map (Option.map fun x => (x.start, x.stop, x.slice)))) =
    .ok [some (1, 2, 'b'), some (4, 5, 'e'), some (2, 3, 'c'), some (3, 4, 'd'), none, none] := by
  refine ⟨by decide, by decide +kernel, by decide +kernel⟩

end Sherman.Cow
