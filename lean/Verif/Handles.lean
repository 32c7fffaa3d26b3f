import Verif.Insert
import Verif.Bound
/-!
# The handle that an insertion into a tree with references makes out of the updates it is told
-/
namespace Sherman
variable {I S : Type} {Ht : Nat}

/-- What the callback made of the updates so far. -/
def evState (w : World) : R (Option (Nat × Nat) × Bool) := w.events.foldlM applyEv (none, false)

/-- What is known of the state: without `skip`, whether there is a handle tells whether the slice is in the tree; with
`skip` the slice was in the tree from the start, and the handle can be missing only while its key is to be put back. -/
def EvOk (skip inserted : Bool) (w : World) : Prop :=
  ∃ st, evState w = .ok st ∧
    (skip = false → inserted = false → st = (none, false)) ∧
    (skip = false → inserted = true → ∃ x, st = (some x, true)) ∧
    (skip = true → inserted = true → st.2 = true) ∧
    (skip = true → inserted = false → ∃ x, st = (some x, true))

/-- There is a handle. -/
def EvSome (w : World) : Prop := ∃ x, evState w = .ok (some x, true)

theorem EvSome.ok {w : World} (h : EvSome w) (skip : Bool) : EvOk skip true w := by
  obtain ⟨x, h⟩ := h
  exact ⟨_, h, by simp, by simp, by simp, by simp⟩

theorem emit_state {cb : Cb} {ev : Ev} {w w' : World} (h : emit cb ev w = .ok w') :
    evState w' = (match cb.skip, ev with
      | true, .insertion _ _ => evState w
      | _, _ => (evState w).bind fun st => applyEv st ev) := by
  simp only [emit, bind_ok_iff] at h
  obtain ⟨w1, h1, h2⟩ := h
  have e1 : w1.events = w.events := by
    unfold emitFst at h1
    repeat' split at h1
    all_goals first
      | (cases h1; rfl)
      | (simp only [bind_ok_iff] at h1; obtain ⟨_, _, h1⟩ := h1; cases h1; rfl)
  cases h2
  obtain ⟨skip, remap⟩ := cb
  cases skip <;> cases ev <;>
    simp only [emitRec, evState, e1, List.foldlM_append, List.foldlM_cons, List.foldlM_nil] <;>
    (try rfl) <;> (cases w.events.foldlM applyEv (none, false) <;> simp [bind, Except.bind, pure, Except.pure] <;> split <;> simp_all)

theorem EvOk.move {cb : Cb} {i : Bool} {a b c d e : Nat} {w w' : World} (h : emit cb (.move a b c d e) w = .ok w')
    (hw : EvOk cb.skip i w) : EvOk cb.skip i w' := by
  have := emit_state h
  obtain ⟨⟨st, pr⟩, h0, h1, h2, h3, h4⟩ := hw
  rw [h0] at this
  have key : ∃ st', applyEv (st, pr) (.move a b c d e) = .ok (st', pr) ∧ (st' = none ↔ st = none) := by
    cases st with
    | none => exact ⟨none, rfl, by simp⟩
    | some p =>
      obtain ⟨p, j⟩ := p
      simp only [applyEv]
      split
      · exact ⟨_, rfl, by simp⟩
      · rename_i hc
        have hle : b ≤ j := by
          rcases Nat.lt_or_ge j b with h | h
          · exact absurd (.inr (by omega)) hc
          · exact h
        rw [usub_ok hle]
        exact ⟨_, rfl, by simp⟩
  obtain ⟨st', k1, k2⟩ := key
  have k3 : evState w' = .ok (st', pr) := by
    rw [this]
    obtain ⟨skip, remap⟩ := cb
    cases skip <;> exact k1
  refine ⟨_, k3, ?_, ?_, ?_, ?_⟩
  · intro a b
    have := h1 a b
    cases this
    simp [k2.2 rfl]
  · intro a b
    obtain ⟨x, hx⟩ := h2 a b
    cases hx
    cases st' with
    | none => exact absurd (k2.1 rfl) (by simp)
    | some y => exact ⟨y, rfl⟩
  · intro a b; exact h3 a b
  · intro a b
    obtain ⟨x, hx⟩ := h4 a b
    cases hx
    cases st' with
    | none => exact absurd (k2.1 rfl) (by simp)
    | some y => exact ⟨y, rfl⟩

/-- A key is taken out of the tree for now: afterwards the handle may be missing if `skip`. -/
theorem EvOk.remove {cb : Cb} {a b : Nat} {w w' : World} (h : emit cb (.remove a b) w = .ok w')
    (hw : EvOk cb.skip false w) :
    ∃ st, evState w' = .ok st ∧ (cb.skip = false → st = (none, false)) ∧ (cb.skip = true → st.2 = true) := by
  have := emit_state h
  obtain ⟨st, h0, h1, _, _, h4⟩ := hw
  rw [h0] at this
  obtain ⟨skip, remap⟩ := cb
  cases skip with
  | false =>
    have := h1 rfl rfl
    subst this
    exact ⟨(none, false), by rw [this]; rfl, by simp, by simp⟩
  | true =>
    obtain ⟨⟨p, i⟩, rfl⟩ := h4 rfl rfl
    simp only [Except.bind, applyEv] at this
    split at this
    · exact ⟨_, this, by simp, by simp⟩
    · exact ⟨_, this, by simp, by simp⟩

theorem EvOk.putBack {cb : Cb} {a b : Nat} {w w' : World} (h : emit cb (.putBack a b) w = .ok w')
    {st : Option (Nat × Nat) × Bool} (hst : evState w = .ok st) :
    evState w' = .ok (if st.2 = true ∧ st.1 = none then (some (a, b), true) else st) := by
  have := emit_state h
  rw [hst] at this
  obtain ⟨skip, remap⟩ := cb
  obtain ⟨o, p⟩ := st
  cases skip <;> cases o <;> cases p <;> rw [this] <;> rfl

theorem EvOk.insertion {cb : Cb} {a b : Nat} {w w' : World} (h : emit cb (.insertion a b) w = .ok w')
    {st : Option (Nat × Nat) × Bool} (hst : evState w = .ok st) :
    (cb.skip = true → evState w' = .ok st) ∧ (cb.skip = false → st = (none, false) → evState w' = .ok (some (a, b), true)) := by
  have := emit_state h
  rw [hst] at this
  obtain ⟨skip, remap⟩ := cb
  refine ⟨?_, ?_⟩
  · rintro rfl; exact this
  · rintro rfl rfl; exact this

theorem emitKey_ev {C : Type} {cb : Cb} {ins : Bool} {n : Node I S C} {k : Nat} {w w' : World}
    (h : emitKey cb ins n k w = .ok w') (hw : EvOk cb.skip ins w) : EvSome w' := by
  simp only [emitKey, bind_ok_iff] at h
  obtain ⟨_, _, h⟩ := h
  obtain ⟨st, h0, h1, h2, h3, h4⟩ := hw
  cases ins with
  | true =>
    have := EvOk.putBack h h0
    by_cases c : st.2 = true ∧ st.1 = none
    · rw [if_pos c] at this; exact ⟨_, this⟩
    · rw [if_neg c] at this
      cases hs : cb.skip with
      | false =>
        obtain ⟨x, rfl⟩ := h2 hs rfl
        exact ⟨x, this⟩
      | true =>
        have := h3 hs rfl
        obtain ⟨o, p⟩ := st
        simp only at this
        subst this
        cases o with
        | none => simp at c
        | some x => exact ⟨x, by assumption⟩
  | false =>
    have := EvOk.insertion h h0
    cases hs : cb.skip with
    | false => exact ⟨_, this.2 hs (h1 hs rfl)⟩
    | true =>
      obtain ⟨x, rfl⟩ := h4 hs rfl
      exact ⟨x, this.1 hs⟩

/-! ## Functions that tell nothing -/

theorem update_events (r : Option Nat) (p i : Nat) (w : World) : (w.update r p i).events = w.events := by
  cases r <;> rfl

theorem suspend_events (r : Option Nat) (w : World) : (w.suspend r).events = w.events := by
  cases r <;> rfl

theorem updateFrom_events (p i : Nat) (ks : List (Key I S)) (w : World) : (updateFrom p i ks w).events = w.events := by
  induction ks generalizing i w with
  | nil => rfl
  | cons k ks ih => simp only [updateFrom]; rw [ih, update_events]

theorem link_events (w : World) (c f) : (w.link c f).events = w.events := by
  cases c <;> rfl

theorem linkFrom_events {C : Type} [HasPtr C] (p i : Nat) (ks : List C) (w : World) : (linkFrom p i ks w).events = w.events := by
  induction ks generalizing i w with
  | nil => rfl
  | cons k ks ih => simp only [linkFrom]; rw [ih, link_events]

theorem indexFrom_events {C : Type} [HasPtr C] (p i : Nat) (ks : List C) (w : World) : (indexFrom p i ks w).events = w.events := by
  induction ks generalizing i w with
  | nil => rfl
  | cons k ks ih => simp only [indexFrom]; rw [ih, link_events]

theorem readUp_events {h : Nat} (ctx : Ctx I S Ht h) (a : Option Nat) (w : World) : (ctx.readUp a w).events = w.events := by
  induction ctx generalizing a w with
  | top => exact link_events ..
  | frame p z ks kl kr up ih => simp only [Ctx.readUp]; rw [ih, link_events]

theorem insertKC_events {C : Type} [HasPtr C] {n n' : Node I S C} {mx i : Nat} {s : S} {r : Option Nat} {c : C} {pos : I} {w w' : World}
    (h : n.insertKeyAndChild mx i s r c w = .ok (n', pos, w')) : w'.events = w.events := by
  simp only [Node.insertKeyAndChild, bind_ok_iff] at h
  obtain ⟨_, h1, _, _, h⟩ := h
  cases h
  rw [indexFrom_events, link_events, updateFrom_events]

theorem pushKC_events {C : Type} [HasPtr C] {n n' : Node I S C} {mx : Nat} {s : S} {r : Option Nat} {c : C} {z : I} {w w' : World}
    (h : n.pushKeyAndChild mx s r c z w = .ok (n', w')) : w'.events = w.events := by
  simp only [Node.pushKeyAndChild, bind_ok_iff] at h
  obtain ⟨_, h1, h⟩ := h
  cases h
  rw [update_events, link_events]

theorem split_events {C : Type} [HasPtr C] {n n' rhs : Node I S C} {mid : Nat} {key : Key I S} {w w' : World}
    (h : n.split mid w = .ok (n', key, rhs, w')) : w'.events = w.events := by
  unfold Node.split at h
  split at h
  · cases h
  · cases h
    simp only [linkFrom_events, suspend_events, updateFrom_events]
    rfl

theorem leafInsert_events {E : Env I S} {n n' : Tree I S 1} {i : Nat} {s : S} {pos : I} {w w' : World}
    (h : leafInsert E n i s w = .ok (n', pos, w')) : w'.events = w.events := insertKC_events h

theorem leafPush_events {E : Env I S} {n n' : Tree I S 1} {s : S} {r : Option Nat} {z : I} {w w' : World}
    (h : leafPush E n s r z w = .ok (n', w')) : w'.events = w.events := pushKC_events h

theorem EvOk.of {skip i : Bool} {w w' : World} (hw : EvOk skip i w) (h : w'.events = w.events) : EvOk skip i w' := by
  unfold EvOk evState at *
  rwa [h]

theorem EvSome.of {w w' : World} (hw : EvSome w) (h : w'.events = w.events) : EvSome w' := by
  unfold EvSome evState at *
  rwa [h]

/-! ## Bubbling -/

theorem bubbleRoom_ev {C : Type} [HasPtr C] {E : Env I S} {cb : Cb} {sz : C → I} {parent : Node I S C} {c : Nat} {b : Bubble I S C}
    {path : List Nat} {w : World} {r} (h : bubbleRoom E cb sz parent c b path w = .ok r) (hw : EvOk cb.skip b.inserted w) :
    EvSome r.2.2.2.2.2 := by
  simp only [bubbleRoom, bind_ok_iff] at h
  obtain ⟨_, _, _, _, ⟨_, _, _, _⟩, _, ⟨p1, _, w1⟩, h1, _, _, _, _, w2, h2, h⟩ := h
  cases h
  exact emitKey_ev h2 (hw.of (insertKC_events h1))

theorem bubbleInsertHalf_ev {C : Type} [HasPtr C] {E : Env I S} {cb : Cb} {sz : C → I} {half : Node I S C} {c : Nat} {b : Bubble I S C}
    {sh : Option (Shift I)} {path : List Nat} {w : World} {r} (h : bubbleInsertHalf E cb sz half c b sh path w = .ok r)
    (hw : EvOk cb.skip b.inserted w) : EvSome r.2.2 := by
  simp only [bubbleInsertHalf, bind_ok_iff] at h
  obtain ⟨_, _, _, _, ⟨_, _, _, _⟩, _, _, _, _, _, _, _, ⟨p1, _, w1⟩, h1, _, _, _, _, w2, h2, h⟩ := h
  cases h
  exact emitKey_ev h2 (hw.of (insertKC_events h1))

theorem bubbleSplit_ev {C : Type} [HasPtr C] {E : Env I S} {cb : Cb} {sz : C → I} {parent : Node I S C} {c : Nat} {b : Bubble I S C}
    {path : List Nat} {w : World} {r} (h : bubbleSplit E cb sz parent c b path w = .ok r) (hw : EvOk cb.skip b.inserted w) :
    EvOk cb.skip r.1.inserted r.2.2 := by
  simp only [bubbleSplit, bind_ok_iff] at h
  obtain ⟨mid, _, ⟨n1, key, rhs, w1⟩, h1, _, _, _, _, _, _, _, _, h⟩ := h
  have k1 := hw.of (split_events h1)
  split at h
  · simp only [bind_ok_iff] at h
    obtain ⟨rhs', _, h⟩ := h
    split at h
    · simp only [bind_ok_iff] at h
      obtain ⟨⟨_, _, w2⟩, h2, h⟩ := h
      cases h
      exact (bubbleInsertHalf_ev h2 k1).ok _
    · simp only [bind_ok_iff] at h
      obtain ⟨_, _, _, _, ⟨_, _, w2⟩, h2, h⟩ := h
      cases h
      exact (bubbleInsertHalf_ev h2 k1).ok _
  · simp only [bind_ok_iff] at h
    obtain ⟨⟨_, _, _⟩, h3, _, _, _, _, ⟨_, w2⟩, h2, _, _, _, _, h⟩ := h
    cases h
    unfold Node.replaceFirstChild at h3
    split at h3
    · cases h3
    · cases h3
      exact k1.of ((pushKC_events h2).trans (link_events ..))

/-- What is known at the end: the callback never failed, and there is a handle unless a new root is to be made. -/
def EvEnd (p : Post I S Ht) (w : World) : Prop :=
  ∃ st, evState w = .ok st ∧ ∀ t, p = .done t → st.1.isSome

theorem EvEnd.readUp {p : Post I S Ht} {w : World} (h : EvEnd p w) {H' h' : Nat} (ctx : Ctx I S H' h') (a : Option Nat) :
    EvEnd p (ctx.readUp a w) := by
  obtain ⟨st, h0, h1⟩ := h
  exact ⟨st, by unfold evState at h0 ⊢; rw [readUp_events]; exact h0, h1⟩

theorem EvSome.end {w : World} (h : EvSome w) (p : Post I S Ht) : EvEnd p w := by
  obtain ⟨x, h⟩ := h
  exact ⟨_, h, by simp⟩

theorem bubbleFinish_ev {E : Env I S} {cb : Cb} {m : Maps I} {h : Nat} {ctx : Ctx I S Ht h} {b : Bubble I S (Tree I S h)}
    {hd : Bool} {path : List Nat} {w : World} {r} (hr : bubbleFinish E cb m ctx b hd path w = .ok r)
    (hw : EvOk cb.skip b.inserted w) : EvEnd r.1 r.2.2 := by
  induction ctx generalizing hd path w with
  | top =>
    simp only [bubbleFinish, bind_ok_iff] at hr
    obtain ⟨_, _, _, _, hr⟩ := hr
    cases hr
    obtain ⟨st, h0, _⟩ := hw.of (link_events _ (ptrT b.lhs) .top)
    exact ⟨st, h0, by simp⟩
  | frame ptr size keys kl kr up ih =>
    simp only [bubbleFinish, bind_ok_iff] at hr
    obtain ⟨⟨hd', sh⟩, _, hr⟩ := hr
    split at hr
    · simp only [bind_ok_iff] at hr
      obtain ⟨⟨n, ov, old, new, path', w1⟩, h1, ⟨t, path2⟩, h2, hr⟩ := hr
      cases hr
      exact ((bubbleRoom_ev h1 (hw.of (link_events ..))).end _).readUp ..
    · simp only [bind_ok_iff] at hr
      obtain ⟨⟨b', path', w1⟩, h1, hr⟩ := hr
      exact ih hr (bubbleSplit_ev h1 (hw.of (link_events ..)))

/-! ## Leaves -/

/-- What is known after a key was taken out. -/
def EvGone (skip : Bool) (w : World) : Prop :=
  ∃ st, evState w = .ok st ∧ (skip = false → st = (none, false)) ∧ (skip = true → st.2 = true)

theorem EvGone.of {skip : Bool} {w w' : World} (hw : EvGone skip w) (h : w'.events = w.events) : EvGone skip w' := by
  unfold EvGone evState at *
  rwa [h]

theorem EvOk.gone {skip : Bool} {w : World} (hw : EvOk skip false w) : EvGone skip w := by
  obtain ⟨st, h0, h1, _, _, h4⟩ := hw
  exact ⟨st, h0, fun h => h1 h rfl, fun h => by obtain ⟨x, rfl⟩ := h4 h rfl; rfl⟩

theorem EvGone.putBack {cb : Cb} {a b : Nat} {w w' : World} (h : emit cb (.putBack a b) w = .ok w') (hw : EvGone cb.skip w) :
    EvOk cb.skip false w' := by
  obtain ⟨st, h0, h1, h2⟩ := hw
  have := EvOk.putBack h h0
  refine ⟨_, this, ?_, by simp, by simp, ?_⟩
  · intro hs _
    obtain rfl := h1 hs
    simp
  · intro hs _
    have := h2 hs
    obtain ⟨o, p⟩ := st
    simp only at this
    subst this
    cases o with
    | none => exact ⟨(a, b), by simp⟩
    | some x => exact ⟨x, by simp⟩

theorem EvGone.insertion {cb : Cb} {a b : Nat} {w w' : World} (h : emit cb (.insertion a b) w = .ok w') (hw : EvGone cb.skip w) :
    EvOk cb.skip true w' := by
  obtain ⟨st, h0, h1, h2⟩ := hw
  have := EvOk.insertion h h0
  cases hs : cb.skip with
  | false => exact ⟨_, this.2 hs (h1 hs), by simp, fun _ _ => ⟨_, rfl⟩, by simp, by simp⟩
  | true => exact ⟨st, this.1 hs, by simp, by simp, fun _ _ => h2 hs, by simp⟩

theorem EvOk.insertionSome {cb : Cb} {a b : Nat} {w w' : World} (h : emit cb (.insertion a b) w = .ok w')
    (hw : EvOk cb.skip false w) : EvSome w' := by
  obtain ⟨st, h0, h1, _, _, h4⟩ := hw
  have := EvOk.insertion h h0
  cases hs : cb.skip with
  | false => exact ⟨_, this.2 hs (h1 hs rfl)⟩
  | true =>
    obtain ⟨x, rfl⟩ := h4 hs rfl
    exact ⟨x, this.1 hs⟩

theorem leafSplitSmall_ev {E : Env I S} {cb : Cb} {n : Tree I S 1} {i : Nat} {ov : Option I} {f s : Sized I S} {w : World} {r}
    (h : leafSplitSmall E cb n i ov f s w = .ok r) (hw : EvOk cb.skip false w) : EvOk cb.skip r.1.inserted r.2 := by
  simp only [leafSplitSmall, bind_ok_iff] at h
  obtain ⟨_, _, _, _, _, _, _, _, ⟨n1, mid, rhs, w1⟩, h1, h⟩ := h
  have k1 := hw.of (split_events h1)
  split at h
  · simp only [bind_ok_iff] at h
    obtain ⟨⟨n3, w3⟩, h3, ⟨rhs4, w4⟩, h4, w5, h5, w6, h6, h⟩ := h
    cases h
    exact (EvOk.insertionSome h6 (EvOk.move h5 ((k1.of (leafPush_events h3)).of (leafPush_events h4)))).ok _
  · simp only [bind_ok_iff] at h
    obtain ⟨⟨n3, w3⟩, h3, ⟨rhs4, w4⟩, h4, h⟩ := h
    cases h
    exact (k1.of (leafPush_events h3)).of (leafPush_events h4)

theorem leafInsertHalf_ev {E : Env I S} {cb : Cb} {n : Tree I S 1} {i : Nat} {ov : Option I} {f : Sized I S}
    {s : Option (Sized I S)} {w : World} {r} (h : leafInsertHalf E cb n i ov f s w = .ok r) (hw : EvGone cb.skip w) :
    EvOk cb.skip true r.2 := by
  cases ov with
  | none =>
    simp only [leafInsertHalf, R.pure_eq, R.bind_ok, bind_ok_iff] at h
    obtain ⟨⟨n1, _, w1⟩, h1, _, _, n2, h2, _, _, h⟩ := h
    have k1 := hw.of (leafInsert_events h1)
    cases s with
    | none =>
      simp only [R.pure_eq, R.bind_ok, bind_ok_iff] at h
      obtain ⟨n3, h3, _, _, _, h4, h⟩ := h
      cases h
      exact k1.insertion h4
    | some s =>
      simp only [R.pure_eq, R.bind_ok, bind_ok_iff] at h
      obtain ⟨⟨n3, _, w3⟩, h3, _, _, _, _, n4, h4, n5, h5, _, _, _, h6, h⟩ := h
      cases h
      exact (k1.of (leafInsert_events h3)).insertion h6
  | some z =>
    simp only [leafInsertHalf, R.pure_eq, R.bind_ok, bind_ok_iff] at h
    obtain ⟨_, _, p, _, ss, _, ⟨n1, _, w1⟩, h1, _, _, n2, h2, _, _, h⟩ := h
    have k1 := hw.of (leafInsert_events h1)
    cases s with
    | none =>
      simp only [R.pure_eq, R.bind_ok, bind_ok_iff] at h
      obtain ⟨n3, h3, _, _, _, h4, h⟩ := h
      cases h
      exact k1.insertion h4
    | some s =>
      simp only [R.pure_eq, R.bind_ok, bind_ok_iff] at h
      obtain ⟨⟨n3, _, w3⟩, h3, _, _, _, _, n4, h4, n5, h5, _, _, _, h6, h⟩ := h
      cases h
      exact (k1.of (leafInsert_events h3)).insertion h6

theorem prependSnd_events {E : Env I S} {n : Tree I S 1} {s : Option (Sized I S)} {w : World} {r}
    (h : prependSnd E n s w = .ok r) : r.2.events = w.events := by
  cases s with
  | none => cases h; rfl
  | some s =>
    simp only [prependSnd, bind_ok_iff] at h
    obtain ⟨⟨n1, _, w1⟩, h1, n2, h2, h⟩ := h
    cases h
    exact leafInsert_events h1

/-- A second slice is only there without `skip`. -/
theorem splitPlace_ev {E : Env I S} {cb : Cb} {at_ : Side ⊕ Side} {n rhs : Tree I S 1} {key : Key I S}
    {kz rs on : I} {i mid : Nat} {ov : Option I} {f : Sized I S} {s : Option (Sized I S)} {w : World} {r}
    (h : splitPlace E cb at_ n key kz rhs rs on i mid ov f s w = .ok r) (hw : EvGone cb.skip w) :
    EvOk cb.skip r.1.inserted r.2 := by
  unfold splitPlace at h
  split at h
  · simp only [bind_ok_iff] at h
    obtain ⟨_, _, ⟨n1, w1⟩, h1, _, _, w2, h2, ⟨rhs3, w3⟩, h3, h⟩ := h
    cases h
    exact ((hw.of (leafPush_events h1)).putBack h2).of (prependSnd_events h3)
  · split at h
    · cases h
    · simp only [bind_ok_iff] at h
      obtain ⟨_, _, _, _, ⟨n1, w1⟩, h1, ⟨n2, w2⟩, h2, _, _, _, _, w3, h3, w4, h4, h⟩ := h
      cases h
      exact (EvOk.insertionSome h4 (((hw.of (leafPush_events h1)).of (leafPush_events h2)).putBack h3)).ok _
  · simp only [bind_ok_iff] at h
    obtain ⟨⟨n1, w1⟩, h1, h⟩ := h
    cases h
    exact leafInsertHalf_ev h1 hw
  · simp only [bind_ok_iff] at h
    obtain ⟨_, _, ⟨n1, w1⟩, h1, h⟩ := h
    cases h
    exact leafInsertHalf_ev h1 hw

theorem leafSplit_ev {E : Env I S} {cb : Cb} {n : Tree I S 1} {i : Nat} {ov : Option I} {f : Sized I S}
    {s : Option (Sized I S)} {w : World} {r} (h : leafSplit E cb n i ov f s w = .ok r) (hw : EvOk cb.skip false w) :
    EvOk cb.skip r.1.inserted r.2 := by
  unfold leafSplit at h
  split at h
  · split at h
    · cases h
    · exact leafSplitSmall_ev h hw
  · simp only [bind_ok_iff] at h
    obtain ⟨⟨mid, at_⟩, _, ⟨n1, key, rhs, w1⟩, h1, w2, h2, w3, h3, ⟨kz, ov'⟩, _, rhs', h4, h⟩ := h
    exact splitPlace_ev h (EvOk.remove h3 (EvOk.move h2 (hw.of (split_events h1))))

theorem leafRoom_ev {E : Env I S} {cb : Cb} {n : Tree I S 1} {i : Nat} {ov : Option I} {f : Sized I S}
    {s : Option (Sized I S)} {ad : I} {w : World} {r} (h : leafRoom E cb n i ov f s ad w = .ok r)
    (hw : EvOk cb.skip false w) : EvSome r.2.2.2.2 := by
  simp only [leafRoom, bind_ok_iff] at h
  cases ov with
  | some nl =>
    simp only [bind_ok_iff] at h
    obtain ⟨_, _, _, _, _, _, _, _, ⟨n1, _, w1⟩, h1, n2, h2, h⟩ := h
    have k1 := hw.of (leafInsert_events h1)
    cases s with
    | none =>
      simp only [bind_ok_iff, R.pure_eq, R.bind_ok] at h
      obtain ⟨_, _, _, _, _, h5, h⟩ := h
      cases h
      exact k1.insertionSome h5
    | some s =>
      simp only [bind_ok_iff, R.pure_eq, R.bind_ok] at h
      obtain ⟨⟨n3, _, w3⟩, h3, _, _, n4, h4, _, _, _, _, _, h5, h⟩ := h
      cases h
      exact (k1.of (leafInsert_events h3)).insertionSome h5
  | none =>
    simp only [bind_ok_iff] at h
    obtain ⟨⟨n1, _, w1⟩, h1, h⟩ := h
    have k1 := hw.of (leafInsert_events h1)
    cases s with
    | none =>
      simp only [bind_ok_iff, R.pure_eq, R.bind_ok] at h
      obtain ⟨_, _, _, h5, h⟩ := h
      cases h
      exact k1.insertionSome h5
    | some s =>
      simp only [bind_ok_iff, R.pure_eq, R.bind_ok] at h
      obtain ⟨⟨n3, _, w3⟩, h3, _, _, n4, h4, _, _, _, h5, h⟩ := h
      cases h
      exact (k1.of (leafInsert_events h3)).insertionSome h5

theorem noJoin_ev {E : Env I S} {cb : Cb} {m : Maps I} {n : Tree I S 1} {ctx : Ctx I S Ht 1} {i : Nat}
    {ov : Option I} {f : Sized I S} {s : Option (Sized I S)} {w : World} {r}
    (h : noJoin E cb m n ctx i ov f s w = .ok r) (hw : EvOk cb.skip false w) : EvEnd r.1 r.2.2 := by
  simp only [noJoin, bind_ok_iff] at h
  obtain ⟨_, _, _, _, h⟩ := h
  have key : ∀ (one : Nat) (ad : I), ((usub (2 * E.M) one >>= fun lim => if Node.len n ≥ lim then do
      let (b, w) ← Sherman.leafSplit E cb n i ov f s w
      Sherman.bubbleFinish E cb m ctx b false [] w
    else do
      let (n, ovPos, old, new, w) ← Sherman.leafRoom E cb n i ov f s ad w
      let (t, path) ← opKey E.ix m false ctx n (i + one) ovPos old new []
      pure (.done t, path, ctx.readUp (ptrT n) w)) = .ok r) → EvEnd r.1 r.2.2 := by
    intro one ad h
    simp only [bind_ok_iff] at h
    obtain ⟨_, _, h⟩ := h
    split at h
    · simp only [bind_ok_iff] at h
      obtain ⟨⟨b, w1⟩, h1, h⟩ := h
      exact bubbleFinish_ev h (leafSplit_ev h1 hw)
    · simp only [bind_ok_iff] at h
      obtain ⟨⟨n1, _, _, _, w1⟩, h1, ⟨t, path⟩, h2, h⟩ := h
      cases h
      exact ((leafRoom_ev h1 hw).end _).readUp ..
  cases s with
  | none => exact key 0 f.size h
  | some s =>
    simp only [bind_ok_iff, R.pure_eq, R.bind_ok] at h
    obtain ⟨ad, _, h⟩ := h
    exact key 1 ad (by simpa only [bind_ok_iff, R.pure_eq, R.bind_ok] using h)

/-! ## Edges and splits -/

theorem evStart {w : World} (h : w.events = []) : EvOk false false w :=
  ⟨(none, false), by unfold evState; rw [h]; rfl, by simp, by simp, by simp, by simp⟩

theorem finishJoin_ev {E : Env I S} {leaf : Tree I S 1} {ctx : Ctx I S Ht 1} {hd : Nat × Nat} {o n : I} {w : World} {r}
    (h : finishJoin E leaf ctx hd o n w = .ok r) (hw : w.events = []) : EvEnd r.1 r.2.2 := by
  simp only [finishJoin, bind_ok_iff] at h
  obtain ⟨⟨g, n1, cx⟩, h1, w1, h3, ⟨t, path⟩, h2, h⟩ := h
  cases h
  exact ((EvOk.insertionSome h3 (evStart hw)).end _).readUp ..

theorem tryJoinEdge_ev {E : Env I S} {leaf : Tree I S 1} {ctx : Ctx I S Ht 1} {l r : Option (Nat × Nat)} {s : S}
    {z : I} {w : World} {p} (h : tryJoinEdge E leaf ctx l r s z w = .ok (.inl p)) (hw : w.events = []) : EvEnd p.1 p.2.2 := by
  unfold tryJoinEdge at h
  split at h
  · cases h
  · split at h
    · cases h
    · simp only [bind_ok_iff] at h
      obtain ⟨_, _, h⟩ := h
      split at h
      · simp only [bind_ok_iff] at h
        obtain ⟨_, h1, _, _, _, h2, h⟩ := h
        cases h
        exact finishJoin_ev h2 hw
      · simp only [bind_ok_iff] at h
        obtain ⟨_, h1, h⟩ := h
        cases h
    · simp only [bind_ok_iff] at h
      obtain ⟨_, _, h⟩ := h
      split at h
      · simp only [bind_ok_iff] at h
        obtain ⟨_, h1, _, _, _, h2, h⟩ := h
        cases h
        exact finishJoin_ev h2 hw
      · simp only [bind_ok_iff] at h
        obtain ⟨_, h1, h⟩ := h
        cases h
    · simp only [bind_ok_iff] at h
      obtain ⟨_, _, _, _, h⟩ := h
      split at h
      · simp only [bind_ok_iff] at h
        obtain ⟨_, _, h⟩ := h
        split at h
        · cases h
        · simp only [bind_ok_iff] at h
          obtain ⟨_, h1, _, h3, _, h2, h⟩ := h
          cases h
          exact finishJoin_ev h2 hw
      · simp only [bind_ok_iff] at h
        obtain ⟨_, h1, h⟩ := h
        split at h
        · simp only [bind_ok_iff] at h
          obtain ⟨_, h3, _, _, _, h2, h⟩ := h
          cases h
          exact finishJoin_ev h2 hw
        · simp only [bind_ok_iff] at h
          obtain ⟨_, h3, h⟩ := h
          cases h

theorem insertEdge_ev {E : Env I S} {leaf : Tree I S 1} {ctx : Ctx I S Ht 1} {i : Nat} {l r : Option (Nat × Nat)} {s : S}
    {z : I} {w : World} {x} (h : insertEdge E leaf ctx i l r s z w = .ok x) (hw : w.events = []) : EvEnd x.2.1 x.2.2.2 := by
  simp only [insertEdge, bind_ok_iff] at h
  obtain ⟨_, _, y, h1, h⟩ := h
  split at h
  · cases h; exact tryJoinEdge_ev h1 hw
  · simp only [bind_ok_iff] at h
    obtain ⟨_, h2, h⟩ := h
    cases h
    exact noJoin_ev h2 (evStart hw)

theorem insertRhs_ev {E : Env I S} {h : Nat} {nop skip : Bool} {n : Tree I S (h + 1)} {ctx : Ctx I S Ht (h + 1)} {k : Nat}
    {newLhs : I} {lm : Bool} {f : Sized I S} {s : Option (Sized I S)} {w : World} {r}
    (hr : insertRhs E nop skip n ctx k newLhs lm f s w = .ok r) (hw : EvOk skip false w) : EvEnd r.1 r.2.2 := by
  simp only [insertRhs, bind_ok_iff] at hr
  obtain ⟨_, _, _, _, ⟨leaf, cx, i⟩, h1, hr⟩ := hr
  exact noJoin_ev hr hw

theorem insertSplit_ev {E : Env I S} {h : Nat} {nop : Bool} {n : Tree I S (h + 1)} {ctx : Ctx I S Ht (h + 1)} {k : Nat} {p : I}
    {s : S} {z : I} {w : World} {r} (hr : insertSplit E nop n ctx k p s z w = .ok r) (hw : w.events = []) :
    EvEnd r.2.1 r.2.2.2 := by
  simp only [insertSplit, bind_ok_iff] at hr
  obtain ⟨_, _, _, _, n', h1, _, _, hr⟩ := hr
  split at hr
  · simp only [bind_ok_iff] at hr
    obtain ⟨_, h2, hr⟩ := hr
    cases hr
    exact insertRhs_ev h2 (evStart hw)
  · split at hr
    · simp only [bind_ok_iff] at hr
      obtain ⟨_, _, hr⟩ := hr
      split at hr
      · simp only [bind_ok_iff] at hr
        obtain ⟨n2, h2, _, h4, _, _, _, _, ⟨t, path⟩, h3, hr⟩ := hr
        cases hr
        exact ((EvOk.insertionSome h4 (evStart hw)).end _).readUp ..
      · simp only [bind_ok_iff] at hr
        obtain ⟨n2, h2, _, h4, _, h3, hr⟩ := hr
        cases hr
        obtain ⟨x, hx⟩ := EvOk.insertionSome h4 (evStart hw)
        exact insertRhs_ev h3 ⟨_, hx, by simp, by simp, by simp, fun _ _ => ⟨x, rfl⟩⟩
    · simp only [bind_ok_iff] at hr
      obtain ⟨n2, h2, hr⟩ := hr
      split at hr
      · simp only [bind_ok_iff] at hr
        obtain ⟨_, _, _, h3, hr⟩ := hr
        cases hr
        exact insertRhs_ev h3 (evStart hw)
      · simp only [bind_ok_iff] at hr
        obtain ⟨_, h3, hr⟩ := hr
        cases hr
        exact insertRhs_ev h3 (evStart hw)

/-- The updates of an insertion never make the callback of `insert_ref` fail, and there is a handle at the end unless a new
root is to be made. -/
theorem insertAt_ev {E : Env I S} {nop : Bool} {pt : Point I S Ht} {s : S} {z : I} {w : World} {r}
    (hr : insertAt E nop pt s z w = .ok r) (hw : w.events = []) :
    ∃ o, applyEvs r.2.2.2.events = .ok o ∧ ∀ t, r.2.1 = .done t → o.isSome := by
  have key : EvEnd r.2.1 r.2.2.2 := by
    cases pt with
    | edge leaf ctx i l r => exact insertEdge_ev hr hw
    | split h n ctx k p => exact insertSplit_ev hr hw
  obtain ⟨st, h1, h2⟩ := key
  exact ⟨st.1, by unfold applyEvs; unfold evState at h1; rw [h1]; rfl, h2⟩

end Sherman
