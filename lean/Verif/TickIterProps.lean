import Verif.TickIter
/-!
# C54: iteration takes constant time per run, after a logarithmic start

A step is what `Verif/Tick.lean` says.  The bounds hold for any sequence of calls of `next` and `next_back`, also after the end.
-/
namespace Sherman
namespace Tk
variable {I S : Type}

theorem handle_lt {C : Type} {n : Node I S C} {k : Nat} {x : Key I S} (h : n.handle k = .ok x) : k < n.keys.length := by
  by_contra hk
  have : n.keys[k]? = none := List.getElem?_eq_none (by omega)
  simp only [Node.handle, this] at h
  cases h

theorem stackKey_ok {ix : IdxOps I} {M H h : Nat} {n : Tree I S (h + 1)} {ctx : Ctx I S H (h + 1)} {p kp : I} {k : Nat} {s : IterStack I S H}
    (hs : Sherman.stackKey ix n ctx p k kp = .ok s) (hx : ctx.Shape M M) (hn : FillT M M (ctx.low M) n) : s.head.Ok M M (ctx.close n) := by
  simp only [Sherman.stackKey] at hs
  obtain ⟨key, h1, hs⟩ := R.bind_eq_ok.1 hs
  obtain ⟨_, -, hs⟩ := R.bind_eq_ok.1 hs
  obtain ⟨_, -, hs⟩ := R.bind_eq_ok.1 hs
  obtain ⟨_, -, hs⟩ := R.bind_eq_ok.1 hs
  cases hs
  exact ⟨hx, hn, handle_lt h1, rfl⟩

theorem stackLoop_ok {ix : IdxOps I} {M : Nat} {ex : Bool} {H : Nat} : ∀ {h : Nat} (n : Tree I S (h + 1)) (ctx : Ctx I S H (h + 1)) (hints : Option (List Nat))
    (p t : I) {s : IterStack I S H}, Sherman.stackLoop ix ex n ctx hints p t = .ok s → ctx.Shape M M → FillT M M (ctx.low M) n → s.head.Ok M M (ctx.close n) := by
  intro h
  induction h with
  | zero =>
    intro n ctx hints p t s hs hx hn
    simp only [Sherman.stackLoop] at hs
    obtain ⟨r, -, hs⟩ := R.bind_eq_ok.1 hs
    cases r with
    | key k kp => exact stackKey_ok hs hx hn
    | child c cp => cases hs
  | succ h ih =>
    intro n ctx hints p t s hs hx hn
    simp only [Sherman.stackLoop] at hs
    obtain ⟨r, -, hs⟩ := R.bind_eq_ok.1 hs
    cases r with
    | key k kp => exact stackKey_ok hs hx hn
    | child c cp =>
      dsimp only at hs
      obtain ⟨ch, h1, hs⟩ := R.bind_eq_ok.1 hs
      obtain ⟨_, -, hs⟩ := R.bind_eq_ok.1 hs
      obtain ⟨_, -, hs⟩ := R.bind_eq_ok.1 hs
      have hi := child_mem h1
      have hc : c ≤ (Node.keys n).length := by
        have h2 : (Node.kids n).length = (Node.keys n).length + 1 := hn.arity
        have h3 := (List.getElem?_eq_some_iff.1 hi).1
        omega
      have := ih ch _ _ _ _ hs (enter_shape hn hx hc) ((fillT_succ.1 hn).2.2.2 ch (List.mem_of_getElem? hi))
      rw [enter_close (ctx := ctx) hi] at this
      exact this

theorem makeStack_ok {ix : IdxOps I} {M H : Nat} {root : Tree I S (H + 1)} {hints : Option (List Nat)} {b : IterBound I} {s : IterStack I S (H + 1)}
    (hs : Sherman.makeStack ix root hints b = .ok s) (hr : FillT M M 1 root) : s.head.Ok M M root := by
  cases b <;> exact stackLoop_ok root .top _ _ _ hs trivial hr

/-- The iterator refers to a tree of the right shape and of at most `L + 1` levels.  src/tree/iter.rs:23-97 -/
def Within (M L : Nat) (it : Iter I S) : Prop :=
  ∀ st, it.state = some st → st.H ≤ L ∧ FillT M M 1 st.root ∧ (∀ f, st.fwd = some f → f.head.Ok M M st.root) ∧ ∀ b, st.bkwd = some b → b.head.Ok M M st.root

/-- What the first call from an end is allowed (`make_stack`).  src/tree/iter.rs:257-375 -/
abbrev firstCost (M L : Nat) : Nat := (2 * M + 20) * (L + 1)

/-- What is still saved up for calls of `next`.  src/tree/iter.rs:384-467 -/
def savedFwd (M L : Nat) {H : Nat} : Option (IterStack I S H) → Nat
  | none => firstCost M L
  | some f => f.head.savedF

/-- What is still saved up for calls of `next_back`.  src/tree/iter.rs:469-558 -/
def savedBkwd (M L : Nat) {H : Nat} : Option (IterStack I S H) → Nat
  | none => firstCost M L
  | some b => b.head.savedB

/-- What is still saved up for the two ends.  src/tree/iter.rs:69-78 -/
def saved (M L : Nat) (it : Iter I S) : Nat :=
  match it.state with
  | none => 0
  | some st => savedFwd M L st.fwd + savedBkwd M L st.bkwd

section
variable {ix : IdxOps I} {M L : Nat} (hM : 1 ≤ M)

theorem within_none {it : Iter I S} : Within (S := S) M L { it with state := none } := by
  rintro st ⟨⟩

theorem cost_le {H : Nat} (hH : H ≤ L) : (2 * M + 15) * (H + 1) + 5 * (L + 1) ≤ firstCost M L := by
  have h1 : (2 * M + 15) * (H + 1) ≤ (2 * M + 15) * (L + 1) := Nat.mul_le_mul_left _ (by omega)
  have h2 : firstCost M L = (2 * M + 15) * (L + 1) + 5 * (L + 1) := by rw [← Nat.add_mul]
  omega

theorem yieldFwd_pays (it : Iter I S) (st : IterState I S) (f : IterStack I S (st.H + 1)) (a : I) {n : Nat}
    (hn : f.head.savedF + savedBkwd M L st.bkwd ≤ n) :
    Pays (Tk.yieldFwd it st f a) (Iter.yieldFwd it st f a) (fun r => saved M L r.2) n := by
  unfold Tk.yieldFwd Iter.yieldFwd
  split
  · exact .ok (Nat.zero_le _)
  · refine .bindLift (fun e _ => .ok ?_)
    exact hn

theorem yieldBkwd_pays (it : Iter I S) (st : IterState I S) (b : IterStack I S (st.H + 1)) {n : Nat}
    (hn : savedFwd M L st.fwd + b.head.savedB + 3 ≤ n) :
    Pays (Tk.yieldBkwd ix it st b) (Iter.yieldBkwd ix it st b) (fun r => saved M L r.2) n := by
  unfold Tk.yieldBkwd Iter.yieldBkwd
  split
  · exact .ok (Nat.zero_le _)
  · refine .bindTakes (headSize_sim _ _) (by omega) (fun _ _ => .bindOp (by omega) (fun _ _ => .bindLift (fun e _ => .ok ?_)))
    simp only [saved, savedBkwd]
    omega

theorem yieldFwd_within {it : Iter I S} {st : IterState I S} {f : IterStack I S (st.H + 1)} {a : I} {r : Option (Entry I S) × Iter I S}
    (hr : Iter.yieldFwd it st f a = .ok r) (h0 : st.H ≤ L) (h1 : FillT M M 1 st.root) (h3 : ∀ b, st.bkwd = some b → b.head.Ok M M st.root)
    (hf : f.head.Ok M M st.root) : Within M L r.2 := by
  unfold Iter.yieldFwd at hr
  split at hr
  · cases hr; exact within_none
  · obtain ⟨e, -, hr⟩ := R.bind_eq_ok.1 hr
    cases hr
    rintro st' ⟨⟩
    exact ⟨h0, h1, fun f' e => by cases e; exact hf, h3⟩

theorem yieldBkwd_within {it : Iter I S} {st : IterState I S} {b : IterStack I S (st.H + 1)} {r : Option (Entry I S) × Iter I S}
    (hr : Iter.yieldBkwd ix it st b = .ok r) (h0 : st.H ≤ L) (h1 : FillT M M 1 st.root) (h2 : ∀ f, st.fwd = some f → f.head.Ok M M st.root)
    (hb : b.head.Ok M M st.root) : Within M L r.2 := by
  unfold Iter.yieldBkwd at hr
  split at hr
  · cases hr; exact within_none
  · obtain ⟨_, -, hr⟩ := R.bind_eq_ok.1 hr
    obtain ⟨_, -, hr⟩ := R.bind_eq_ok.1 hr
    obtain ⟨e, -, hr⟩ := R.bind_eq_ok.1 hr
    cases hr
    rintro st' ⟨⟩
    exact ⟨h0, h1, h2, fun f' e => by cases e; exact hb⟩

include hM in
theorem fwdStep_ok {H : Nat} {root : Tree I S H} {s s' : IterStack I S H} (hs : s.fwdStep ix = .ok s') (h : s.head.Ok M M root) : s'.head.Ok M M root := by
  unfold IterStack.fwdStep at hs
  obtain ⟨hd, h1, hs⟩ := R.bind_eq_ok.1 hs
  obtain ⟨_, -, hs⟩ := R.bind_eq_ok.1 hs
  obtain ⟨_, -, hs⟩ := R.bind_eq_ok.1 hs
  cases hs
  exact (Head.succ_safe (d := true) hM h).out h1

include hM in
theorem bkwdStep_ok {H : Nat} {root : Tree I S H} {s s' : IterStack I S H} (hs : s.bkwdStep ix = .ok s') (h : s.head.Ok M M root) : s'.head.Ok M M root := by
  unfold IterStack.bkwdStep at hs
  obtain ⟨hd, h1, hs⟩ := R.bind_eq_ok.1 hs
  obtain ⟨_, -, hs⟩ := R.bind_eq_ok.1 hs
  obtain ⟨_, -, hs⟩ := R.bind_eq_ok.1 hs
  cases hs
  exact (Head.pred_safe (d := true) hM h).out h1

include hM in
theorem fwdStep_pays {H : Nat} {root : Tree I S H} {s : IterStack I S H} (h : s.head.Ok M M root) :
    Pays (Tk.fwdStep ix s) (s.fwdStep ix) (fun s' => s'.head.savedF) (s.head.savedF + 5) := by
  unfold Tk.fwdStep IterStack.fwdStep
  refine .bind (succ_pays hM h) (by omega) (fun hd _ => .bindTakes (headSize_sim _ _) (by omega) (fun _ _ => .bindOp (by omega) (fun _ _ => .ok ?_)))
  dsimp only
  omega

include hM in
theorem bkwdStep_pays {H : Nat} {root : Tree I S H} {s : IterStack I S H} (h : s.head.Ok M M root) :
    Pays (Tk.bkwdStep ix s) (s.bkwdStep ix) (fun s' => s'.head.savedB) (s.head.savedB + 5) := by
  unfold Tk.bkwdStep IterStack.bkwdStep
  refine .bind (pred_pays hM h) (by omega) (fun hd _ => .bindTakes (headSize_sim _ _) (by omega) (fun _ _ => .bindOp (by omega) (fun _ _ => .ok ?_)))
  dsimp only
  omega

include hM in
theorem next_pays {it : Iter I S} (h : Within M L it) :
    Pays (Tk.next ix it) (it.next ix) (fun r => saved M L r.2) (saved M L it + 12) ∧ ∀ r, it.next ix = .ok r → Within M L r.2 := by
  rcases hst : it.state with _ | st
  · simp only [Tk.next, Iter.next, hst]
    refine ⟨.ok (by simp [saved, hst]), fun r e => ?_⟩
    cases e
    exact h
  · obtain ⟨h0, h1, h2, h3⟩ := h st hst
    rcases hf : st.fwd with _ | f
    · have hsv : saved M L it = firstCost M L + savedBkwd M L st.bkwd := by simp only [saved, hst, hf, savedFwd]
      rw [hsv]
      have hcost := cost_le (M := M) h0
      simp only [Tk.next, Iter.next, hst, hf]
      constructor
      · refine .bindTakes (makeStack_sim ix _ _ h1) (by omega) (fun s hs => .bindTakes (headSize_sim _ _) (by omega) (fun _ _ => .bindOp (by omega) (fun _ _ => ?_)))
        refine yieldFwd_pays it { st with cursor := none } s _ ?_
        have := savedF_le s.head
        dsimp only
        omega
      · intro r hr
        obtain ⟨s, hs, hr⟩ := R.bind_eq_ok.1 hr
        obtain ⟨_, -, hr⟩ := R.bind_eq_ok.1 hr
        obtain ⟨_, -, hr⟩ := R.bind_eq_ok.1 hr
        exact yieldFwd_within hr h0 h1 h3 (makeStack_ok hs h1)
    · have hsv : saved M L it = f.head.savedF + savedBkwd M L st.bkwd := by simp only [saved, hst, hf, savedFwd]
      rw [hsv]
      simp only [Tk.next, Iter.next, hst, hf]
      constructor
      · refine .tick (by omega) ?_
        split
        · exact .ok (Nat.zero_le _)
        · refine .bind (fwdStep_pays hM (h2 f hf)) (by omega) (fun s _ => yieldFwd_pays it st s _ ?_)
          omega
      · intro r hr
        split at hr
        · cases hr; exact within_none
        · obtain ⟨s, hs, hr⟩ := R.bind_eq_ok.1 hr
          exact yieldFwd_within hr h0 h1 h3 (fwdStep_ok hM hs (h2 f hf))

include hM in
theorem nextBack_pays {it : Iter I S} (h : Within M L it) :
    Pays (Tk.nextBack ix it) (it.nextBack ix) (fun r => saved M L r.2) (saved M L it + 12) ∧ ∀ r, it.nextBack ix = .ok r → Within M L r.2 := by
  rcases hst : it.state with _ | st
  · simp only [Tk.nextBack, Iter.nextBack, hst]
    refine ⟨.ok (by simp [saved, hst]), fun r e => ?_⟩
    cases e
    exact h
  · obtain ⟨h0, h1, h2, h3⟩ := h st hst
    rcases hb : st.bkwd with _ | b
    · have hsv : saved M L it = savedFwd M L st.fwd + firstCost M L := by simp only [saved, hst, hb, savedBkwd]
      rw [hsv]
      have hcost := cost_le (M := M) h0
      simp only [Tk.nextBack, Iter.nextBack, hst, hb]
      constructor
      · refine .bindTakes (makeStack_sim ix _ _ h1) (by omega) (fun s hs => ?_)
        refine yieldBkwd_pays it { st with cursor := none } s ?_
        have := savedB_le s.head
        dsimp only
        omega
      · intro r hr
        obtain ⟨s, hs, hr⟩ := R.bind_eq_ok.1 hr
        exact yieldBkwd_within hr h0 h1 h2 (makeStack_ok hs h1)
    · have hsv : saved M L it = savedFwd M L st.fwd + b.head.savedB := by simp only [saved, hst, hb, savedBkwd]
      rw [hsv]
      simp only [Tk.nextBack, Iter.nextBack, hst, hb]
      constructor
      · refine .bindTakes (headSize_sim _ _) (by omega) (fun _ _ => .bindOp (by omega) (fun _ _ => .tick (by omega) ?_))
        split
        · exact .ok (Nat.zero_le _)
        · refine .bind (bkwdStep_pays hM (h3 b hb)) (by omega) (fun s _ => yieldBkwd_pays it st s ?_)
          omega
      · intro r hr
        obtain ⟨_, -, hr⟩ := R.bind_eq_ok.1 hr
        obtain ⟨_, -, hr⟩ := R.bind_eq_ok.1 hr
        split at hr
        · cases hr; exact within_none
        · obtain ⟨s, hs, hr⟩ := R.bind_eq_ok.1 hr
          exact yieldBkwd_within hr h0 h1 h2 (bkwdStep_ok hM hs (h3 b hb))

end

theorem saved_le {M L : Nat} {it : Iter I S} (h : Within M L it) : saved M L it ≤ 2 * firstCost M L := by
  rcases hst : it.state with _ | st
  · simp [saved, hst]
  · obtain ⟨h0, -⟩ := h st hst
    have hc := cost_le (M := M) h0
    have h1 : savedFwd M L st.fwd ≤ firstCost M L := by
      unfold savedFwd
      split
      · exact Nat.le_refl _
      · rename_i f _
        have := savedF_le f.head
        omega
    have h2 : savedBkwd M L st.bkwd ≤ firstCost M L := by
      unfold savedBkwd
      split
      · exact Nat.le_refl _
      · rename_i f _
        have := savedB_le f.head
        omega
    have hsv : saved M L it = savedFwd M L st.fwd +
      savedBkwd M L st.bkwd := by simp only [saved, hst]
    omega

theorem runIter_takes {ix : IdxOps Nat} {M L : Nat} (hM : 1 ≤ M) (ops : List Bool) {it : Iter Nat S} (h : Within M L it) :
    Takes (Tk.runIter ix it ops) (Sherman.runIter ix it ops) (saved M L it + 12 * ops.length) := by
  induction ops generalizing it with
  | nil => exact .pure
  | cons op ops ih =>
    rw [List.length_cons]
    cases op with
    | false =>
      obtain ⟨h1, h2⟩ := next_pays (ix := ix) hM h
      simp only [Tk.runIter, Sherman.runIter]
      refine Pays.takes (Φ := fun _ => 0) (.bind h1 (by omega) (fun r hr => ?_))
      exact .bindTakes (ih (h2 r hr)) (by omega) (fun _ _ => .ok (Nat.zero_le _))
    | true =>
      obtain ⟨h1, h2⟩ := nextBack_pays (ix := ix) hM h
      simp only [Tk.runIter, Sherman.runIter]
      refine Pays.takes (Φ := fun _ => 0) (.bind h1 (by omega) (fun r hr => ?_))
      exact .bindTakes (ih (h2 r hr)) (by omega) (fun _ _ => .ok (Nat.zero_le _))

/-- `iter`, then calls as told.  src/tree/mod.rs:578-610, src/tree/iter.rs:560-678 -/
def iterate (E : Env Nat S) (t : RleTree Nat S) (cursor : List Nat) (range : Range.Rng Nat) (ops : List Bool) : T (List (Option (Entry Nat S))) := do
  let it ← Tk.iter E t cursor range
  Tk.runIter E.ix it ops

end Tk

section
variable {S : Type} {MAX : Nat} {E : Env Nat S}

theorem iter_state {t : RleTree Nat S} {cursor : List Nat} {range : Range.Rng Nat} {it : Iter Nat S} (h : t.iter E cursor range = .ok it) {st : IterState Nat S}
    (hst : it.state = some st) : ∃ r, t.root = some r ∧ st = ⟨r.h, r.tree, some cursor, none, none⟩ := by
  unfold RleTree.iter Iter.new at h
  dsimp only at h
  obtain ⟨_, -, h⟩ := R.bind_eq_ok.1 h
  obtain ⟨_, -, h⟩ := R.bind_eq_ok.1 h
  obtain ⟨_, -, h⟩ := R.bind_eq_ok.1 h
  cases h
  simp only [Option.map_eq_some_iff] at hst
  obtain ⟨r, hr, rfl⟩ := hst
  refine ⟨r, ?_, rfl⟩
  generalize Range.isEmptyNaive (T := Nat) _ = b at hr
  cases b
  · exact hr
  · cases hr

theorem iter_within (hE : E.ix = natIdx MAX) {t : RleTree Nat S} (ht : Reach MAX E t) {cursor : List Nat} {range : Range.Rng Nat} {it : Iter Nat S}
    (h : t.iter E cursor range = .ok it) : Tk.Within E.M (Nat.log (E.M + 1) t.numberOfSlices) it := by
  intro st hst
  obtain ⟨r, hr, rfl⟩ := iter_state h hst
  exact ⟨(Tk.fitR hE ht r hr).1, fillT_shape.2 (shape hE ht hr), fun f e => (by cases e), fun b e => (by cases e)⟩

/-- **C54.** Iteration over any range of a tree of `n` runs, with or without a cursor, from both ends in any order: `k` calls of `next` and `next_back`
take at most `12 * k + 2 * (2 * M + 20) * (log n + 1) + 8` steps altogether, those of `iter` included. -/
theorem iter_steps (hE : E.ix = natIdx MAX) {t : RleTree Nat S} (ht : Reach MAX E t) (cursor : List Nat) (range : Range.Rng Nat) (ops : List Bool) :
    (Tk.iterate E t cursor range ops).2 = (t.iter E cursor range >>= fun it => runIter E.ix it ops) ∧
    (Tk.iterate E t cursor range ops).1 ≤ 12 * ops.length + 2 * (2 * E.M + 20) * (Nat.log (E.M + 1) t.numberOfSlices + 1) + 8 := by
  have hM := (ht.holds hE).1.1
  have : Takes (Tk.iterate E t cursor range ops) (t.iter E cursor range >>= fun it => runIter E.ix it ops)
      (12 * ops.length + 2 * (2 * E.M + 20) * (Nat.log (E.M + 1) t.numberOfSlices + 1) + 8) := by
    unfold Tk.iterate
    refine .bind (a := 8) (.tick (Nat.le_refl _) .lift) (by omega) (fun it hit => ?_)
    have hw := iter_within hE ht hit
    have h1 := Tk.saved_le hw
    refine (Tk.runIter_takes hM ops hw).mono ?_
    rw [Nat.mul_assoc]
    unfold Tk.firstCost at h1
    omega
  exact this

/-- The iterator after some calls.  src/tree/iter.rs:560-678 -/
def afterCalls {I S : Type} (ix : IdxOps I) (it : Iter I S) : List Bool → R (Iter I S)
  | [] => pure it
  | false :: ops => do
    let (_, it) ← it.next ix
    afterCalls ix it ops
  | true :: ops => do
    let (_, it) ← it.nextBack ix
    afterCalls ix it ops

theorem afterCalls_within {L M : Nat} {ix : IdxOps Nat} (hM : 1 ≤ M) (ops : List Bool) {it it' : Iter Nat S} (h : Tk.Within M L it)
    (hi : afterCalls ix it ops = .ok it') : Tk.Within M L it' := by
  induction ops generalizing it with
  | nil => cases hi; exact h
  | cons op ops ih =>
    cases op with
    | false =>
      simp only [afterCalls] at hi
      obtain ⟨r, hr, hi⟩ := R.bind_eq_ok.1 hi
      exact ih ((Tk.next_pays hM h).2 r hr) hi
    | true =>
      simp only [afterCalls] at hi
      obtain ⟨r, hr, hi⟩ := R.bind_eq_ok.1 hi
      exact ih ((Tk.nextBack_pays hM h).2 r hr) hi

/-- **C54.** No single call, after whatever calls, takes more than `2 * (2 * M + 20) * (log n + 1) + 12` steps. -/
theorem iter_call_steps (hE : E.ix = natIdx MAX) {t : RleTree Nat S} (ht : Reach MAX E t) {cursor : List Nat} {range : Range.Rng Nat} {it it' : Iter Nat S}
    (hi : t.iter E cursor range = .ok it) {ops : List Bool} (ha : afterCalls E.ix it ops = .ok it') :
    ((Tk.next E.ix it').2 = it'.next E.ix ∧ (Tk.next E.ix it').1 ≤ 2 * (2 * E.M + 20) * (Nat.log (E.M + 1) t.numberOfSlices + 1) + 12) ∧
    (Tk.nextBack E.ix it').2 = it'.nextBack E.ix ∧ (Tk.nextBack E.ix it').1 ≤ 2 * (2 * E.M + 20) * (Nat.log (E.M + 1) t.numberOfSlices + 1) + 12 := by
  have hM := (ht.holds hE).1.1
  have hw := afterCalls_within hM ops (iter_within hE ht hi) ha
  have h1 := Tk.saved_le hw
  unfold Tk.firstCost at h1
  rw [← Nat.mul_assoc] at h1
  have h2 := (Tk.next_pays (ix := E.ix) hM hw).1
  have h3 := (Tk.nextBack_pays (ix := E.ix) hM hw).1
  exact ⟨⟨h2.1, by have := h2.2.1; omega⟩, h3.1, by have := h3.2.1; omega⟩

/-- **C54.** A loop over the runs that touch a range, up to and including the first `None`: at most `12 * k + 2 * (2 * M + 20) * (log n + 1) + 20` steps for
`k` such runs of `n`, in either direction. -/
theorem iter_loop_steps {rcMax : Nat} (hE : E.ix = natIdx MAX) {st : RefTree Nat S} {ids : List Nat} (h : Live MAX rcMax E st ids) (cursor : List Nat)
    {r : Range.Rng Nat} (hv : ValidRange (st.tree.size E) r) (back : Bool) :
    (Tk.iterate E st.tree cursor r (List.replicate ((expected st.tree r).length + 1) back)).2 =
      .ok ((if back then (expected st.tree r).reverse else expected st.tree r).map some ++ [none]) ∧
    (Tk.iterate E st.tree cursor r (List.replicate ((expected st.tree r).length + 1) back)).1 ≤
      12 * (expected st.tree r).length + 2 * (2 * E.M + 20) * (Nat.log (E.M + 1) st.tree.numberOfSlices + 1) + 20 := by
  obtain ⟨it, h1, h2⟩ := iter_deque hE h cursor hv
  obtain ⟨h3, h4⟩ := iter_steps hE (h.inv hE).reach cursor r (List.replicate ((expected st.tree r).length + 1) back)
  rw [List.length_replicate] at h4
  refine ⟨?_, by omega⟩
  rw [h3, h1]
  show runIter E.ix it _ = _
  rw [h2]
  cases back
  · rw [runDeque_forward]; rfl
  · rw [runDeque_backward]; rfl

/-! ## Instances -/

/-- A loop over all eleven runs of the example, in three levels. -/
example : ∃ t, Reach 255 exEnv t ∧ t.numberOfSlices = 11 ∧ (Tk.iterate exEnv t [] Range.ofRangeFull (List.replicate 12 false)).1 ≤
    12 * 12 + 44 * (Nat.log 2 11 + 1) + 8 := by
  obtain ⟨t, h1, h2, h3⟩ := exReach
  have hn : t.numberOfSlices = 11 := by
    rw [numberOfSlices_eq (MAX := 255) rfl h2]
    have := congrArg List.length h3
    simpa using this
  have := (iter_steps (MAX := 255) (E := exEnv) rfl h2 [] Range.ofRangeFull (List.replicate 12 false)).2
  rw [hn] at this
  exact ⟨t, h2, hn, this⟩

/-- The number of steps of that loop, forwards and backwards, with the step to the end. -/
example : ((insertAll exEnv ⟨none⟩ exOps) >>= fun t => .ok [(Tk.iterate exEnv t [] Range.ofRangeFull (List.replicate 12 false)).1,
    (Tk.iterate exEnv t [] Range.ofRangeFull (List.replicate 12 true)).1]) = .ok [90, 145] := by
  decide +kernel

/-- A loop over part of a tree that can be built with references. -/
example : ∃ st ids r, Live 255 1000 exRefEnv st ids ∧ ValidRange (st.tree.size exRefEnv) r ∧
    (Tk.iterate exRefEnv st.tree [] r (List.replicate ((expected st.tree r).length + 1) false)).1 ≤
      12 * (expected st.tree r).length + 44 * (Nat.log 2 st.tree.numberOfSlices + 1) + 20 := by
  obtain ⟨st, ids, st', r, r', out, h, -⟩ := exLive
  have hv : ValidRange (st.tree.size exRefEnv) Range.ofRangeFull := by simp [ValidRange, Range.ofRangeFull]
  exact ⟨st, ids, _, h, hv, (iter_loop_steps (MAX := 255) rfl h [] hv false).2⟩

end
end Sherman
