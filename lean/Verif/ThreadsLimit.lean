import Verif.ThreadsProps
/-!
# How many references a node can have while several threads work

No step of any thread adds more than one reference to a node.  So the panic about too many references needs `isize::MAX` steps.
-/
namespace Sherman.Cow
variable {I S : Type}

/-- No count is greater than `b`. -/
def Most (b : Nat) (H : Heap I S) : Prop := ∀ x nd, H.mem x = some nd → nd.count ≤ b

theorem Most.mono {b c : Nat} {H : Heap I S} (h : Most b H) (hb : b ≤ c) : Most c H := fun x nd hx => le_trans (h x nd hx) hb

theorem Most.put {b : Nat} {H : Heap I S} (h : Most b H) {p : Nat} {nd : HNode I S} (hc : nd.count ≤ b) : Most b (H.put p nd) := by
  intro x n hx
  simp only [Heap.put] at hx
  split at hx
  · cases hx; exact hc
  · exact h x n hx

theorem Most.free {b : Nat} {H : Heap I S} (h : Most b H) (p : Nat) : Most b (H.free p) := by
  intro x n hx
  simp only [Heap.free] at hx
  split at hx
  · cases hx
  · exact h x n hx

theorem Most.alloc {b : Nat} {H : Heap I S} (h : Most b H) {nd : HNode I S} (hc : nd.count ≤ b) : Most b (H.alloc nd).1 := by
  intro x n hx
  simp only [Heap.alloc] at hx
  split at hx
  · cases hx; exact hc
  · exact h x n hx

theorem Most.get {b : Nat} {H : Heap I S} (h : Most b H) {p : Nat} {nd : HNode I S} (hg : H.get p = .ok nd) : nd.count ≤ b :=
  h p nd (get_ok.1 hg)

theorem nodesT_most {b : Nat} {H : Heap I S} (h : Most b H) (hb : 1 ≤ b) : ∀ {k : Nat} (t : Tree I S k) (q : Nat × HNode I S), q ∈ nodesT H t → q.2.count ≤ b := by
  intro k
  induction k with
  | zero => intro t q hq; simp [nodesT] at hq
  | succ k ih =>
    intro t q hq
    simp only [nodesT, List.mem_cons, List.mem_flatMap] at hq
    rcases hq with rfl | ⟨c, -, hq⟩
    · simp only [toHNode]
      split
      · rename_i nd hm; exact h _ _ hm
      · exact hb
    · exact ih c q hq

theorem writeT_most {b : Nat} {H : Heap I S} (h : Most b H) (hb : 1 ≤ b) {k : Nat} (t : Tree I S k) (next : Nat) : Most b (writeT H t next) := by
  intro x nd hx
  simp only [writeT] at hx
  split at hx
  · rename_i n hl
    cases hx
    exact nodesT_most h hb t _ (lookup_mem hl)
  · exact h x nd hx

theorem increment_most {b imax : Nat} {H H' : Heap I S} (h : Most b H) {p : Nat} (hi : increment imax H p = .ok H') : Most (b + 1) H' := by
  simp only [increment, bind_ok_iff] at hi
  obtain ⟨nd, h1, _, -, hi⟩ := hi
  cases hi
  have := h.get h1
  exact (h.mono (by omega)).put (by simpa using this)

theorem giveUp_most {b : Nat} {H H' : Heap I S} (h : Most b H) {work work' : List (Nat × Nat)} (hg : giveUp H work = .ok (H', work')) : Most b H' := by
  cases work with
  | nil => cases hg; exact h
  | cons w work =>
    obtain ⟨k, q⟩ := w
    simp only [giveUp, bind_ok_iff] at hg
    obtain ⟨nd, h1, hg⟩ := hg
    split at hg
    · cases k <;> · cases hg; exact h.free q
    · simp only [bind_ok_iff] at hg
      obtain ⟨c, h2, hg⟩ := hg
      cases hg
      have := h.get h1
      simp only [usub] at h2
      split at h2
      · cases h2; exact h.put (by dsimp only; omega)
      · cases h2

theorem finish_most {b : Nat} {E : Env I S} {H H' : Heap I S} (h : Most b H) (hb : 1 ≤ b) {t : Task I S} {r : Option CRoot}
    (hf : t.finish E H = .ok (H', r)) : Most b H' := by
  simp only [Task.finish, bind_ok_iff] at hf
  obtain ⟨tree, -, ⟨t', out⟩, -, hf⟩ := hf
  split at hf
  · cases hf; exact h
  · cases hf; exact writeT_most h hb _ _

theorem install_most {b : Nat} {H : Heap I S} (h : Most b H) {t : Task I S} {q : Nat} {r : Heap I S × Task I S}
    (hf : t.install H q = .ok r) : Most b r.1 := by
  simp only [Task.install] at hf
  split at hf
  · simp only [bind_ok_iff] at hf
    obtain ⟨nd, h1, hf⟩ := hf
    cases hf
    have := h.get h1
    exact h.put (by dsimp only; exact this)
  · cases hf; exact h

theorem step_most {b imax : Nat} {E : Env I S} {H H' : Heap I S} (h : Most b H) {t : Task I S} {v : Var I S}
    (hs : t.step E imax H = .ok (H', v)) : Most (b + 1) H' := by
  have hm : Most (b + 1) H := h.mono (by omega)
  simp only [Task.step] at hs
  split at hs
  · simp only [bind_ok_iff] at hs
    obtain ⟨o, -, hs⟩ := hs
    split at hs
    · simp only [bind_ok_iff] at hs
      obtain ⟨⟨H1, r⟩, h1, hs⟩ := hs
      cases hs
      exact finish_most hm (by omega) h1
    · simp only [bind_ok_iff] at hs
      obtain ⟨nd, -, hs⟩ := hs
      split at hs <;> · cases hs; exact hm
  · simp only [bind_ok_iff] at hs
    obtain ⟨H1, h1, hs⟩ := hs
    cases hs
    exact increment_most h h1
  · simp only [bind_ok_iff] at hs
    obtain ⟨o, -, hs⟩ := hs
    split at hs
    · cases hs
    · simp only [bind_ok_iff] at hs
      obtain ⟨nd, -, ⟨H2, t2⟩, h2, hs⟩ := hs
      cases hs
      exact install_most (hm.alloc (by dsimp only; omega)) h2
  · cases hs; exact hm
  · simp only [bind_ok_iff] at hs
    obtain ⟨⟨H1, w⟩, h1, hs⟩ := hs
    cases hs
    exact giveUp_most hm h1

theorem act_most {b imax : Nat} {E : Env I S} {st st' : TSt I S} {l : List (Op I S)} (h : Most b st.heap) {a : Act I S}
    (hs : st.act E imax a = .ok (st', l)) : Most (b + 1) st'.heap := by
  have hm : Most (b + 1) st.heap := h.mono (by omega)
  cases a with
  | new =>
    simp only [TSt.act, bind_ok_iff] at hs
    obtain ⟨_, -, hs⟩ := hs
    cases hs; exact hm
  | clone i =>
    simp only [TSt.act, bind_ok_iff] at hs
    obtain ⟨o, -, hs⟩ := hs
    split at hs
    · cases hs; exact hm
    · simp only [bind_ok_iff] at hs
      obtain ⟨H1, h1, hs⟩ := hs
      cases hs
      exact increment_most h h1
  | insert i a =>
    simp only [TSt.act, bind_ok_iff] at hs
    obtain ⟨o, -, hs⟩ := hs
    split at hs
    · simp only [bind_ok_iff] at hs
      obtain ⟨⟨t, out⟩, -, hs⟩ := hs
      split at hs
      · cases hs; exact hm
      · cases hs; exact writeT_most hm (by omega) _ _
    · simp only [bind_ok_iff] at hs
      obtain ⟨t, -, _, -, _, -, p, -, hs⟩ := hs
      cases hs; exact hm
  | drop i =>
    simp only [TSt.act, bind_ok_iff] at hs
    obtain ⟨o, -, hs⟩ := hs
    split at hs <;> · cases hs; exact hm
  | step i =>
    simp only [TSt.act] at hs
    split at hs
    · simp only [bind_ok_iff] at hs
      obtain ⟨⟨H1, v⟩, h1, hs⟩ := hs
      cases hs
      exact step_most h h1
    · simp only [bind_ok_iff] at hs
      obtain ⟨⟨H1, w⟩, h1, hs⟩ := hs
      cases hs
      exact giveUp_most hm h1
    · cases hs

theorem run_most {b imax : Nat} {E : Env I S} {acts : List (Act I S)} {s0 st : TSt I S} {l : List (Op I S)} (h : Most b s0.heap)
    (hs : TSt.run E imax s0 acts = .ok (st, l)) : Most (b + acts.length) st.heap := by
  induction acts generalizing b s0 l with
  | nil => cases hs; exact h
  | cons a acts ih =>
    simp only [TSt.run, bind_ok_iff] at hs
    obtain ⟨⟨s1, l1⟩, h1, ⟨s2, l2⟩, h2, h3⟩ := hs
    cases h3
    have := ih (act_most h h1) h2
    rw [show b + (a :: acts).length = b + 1 + acts.length by simp; omega]
    exact this

/-- C51: within the first `imax` steps (of all threads together) no operation is stopped because a node has too many references: what the
program may do succeeds, unless it is an insertion that the specification does not allow. -/
theorem threads_succeed {MAX imax : Nat} {E : Env Nat S} (hE : E.ix = natIdx MAX) (hM : 1 ≤ E.M) (hM' : E.M ≤ 127) {acts : List (Act Nat S)}
    (hf : ∀ a ∈ acts, a.fits MAX) {st : TSt Nat S} {log : List (Op Nat S)} (h : TSt.run E imax TSt.init acts = .ok (st, log))
    (hle : acts.length ≤ imax) {a : Act Nat S} (ha : a.fits MAX) (hr : a.ready st)
    (hs : ∀ op, a.insertion st = some op → ∃ ss, specRun MAX E.sl [] (log ++ [op]) = some ss) : ∃ r, st.act E imax a = .ok r := by
  refine (threads_progress hE hM hM' hf h ha).2 hr (fun x n hx => ?_) hs
  have h0 : Most 0 (TSt.init : TSt Nat S).heap := fun x nd hx => by simp [TSt.init] at hx
  have := run_most h0 h x n hx
  omega

/-- C51: at every moment a node has no more references than steps have been taken. -/
theorem threads_few_references {imax : Nat} {E : Env I S} {acts : List (Act I S)} {st : TSt I S} {log : List (Op I S)}
    (h : TSt.run E imax TSt.init acts = .ok (st, log)) {x : Nat} {nd : HNode I S} (hx : st.heap.mem x = some nd) : nd.count ≤ acts.length := by
  have h0 : Most 0 (TSt.init : TSt I S).heap := fun x nd hx => by simp [TSt.init] at hx
  have := run_most h0 h x nd hx
  omega

/-- The execution of `Verif/ThreadsProps.lean` with two threads is one of these, and its next step succeeds; with a limit of zero it would
not have got there. -/
example : (∃ r, TSt.run exEnv 1000 TSt.init (exRace ++ [Act.step 1]) = .ok r) ∧ (exRace ++ [Act.step 1]).length ≤ 1000 ∧
    (∃ f, TSt.run exEnv 0 TSt.init exRace = .error f) := by
  refine ⟨?_, by decide, ?_⟩
  · have h : (TSt.run exEnv 1000 TSt.init (exRace ++ [Act.step 1])).toBool = true := by decide +kernel
    cases hr : TSt.run exEnv 1000 TSt.init (exRace ++ [Act.step 1]) with
    | ok r => exact ⟨r, rfl⟩
    | error f => rw [hr] at h; cases h
  · have h : (TSt.run exEnv 0 TSt.init exRace).toBool = false := by decide +kernel
    cases hr : TSt.run exEnv 0 TSt.init exRace with
    | ok r => rw [hr] at h; cases h
    | error f => exact ⟨f, rfl⟩

end Sherman.Cow
