import Verif.DestroyProps
/-!
# Destructors of slices that panic

`Verif/Destroy.lean` follows the values that a drop destroys, for destructors that return.  Here the destructor of some values panics.  By
the rules of Rust the other elements of the slice (`[S]`) that is being dropped are still dropped; a second panic while that is done aborts the
program; then the call of `do_drop` and all callers are left.  What remains to be done is not made up for: addresses of children
are plain pointers, without destructors.
-/
namespace Sherman.Cow
variable {I S : Type}

/-- The program is aborted since a destructor panicked while another panic was unwinding; as in src/tree/node.rs:1946-1951 -/
def aborted : Fault := .panic "abort: panic in a destructor during cleanup"

/-- The parts of `vals` that are dropped at once: what is between the holes.  src/tree/node.rs:1853-1885 -/
def holeSegs (hol : HoleArr) (vals : List S) : R (List (List S)) :=
  match hol with
  | (none, none) => pure [vals]
  | (none, some h) => do
    weakAssert (h - 1 < vals.length) "do_drop: hole in bounds"
    pure [vals.take (h - 1), vals.drop h]
  | (some _, none) => .error (.ub "invalid state for Leaf holes")
  | (some hx, some hy) => do
    weakAssert (hx - 1 < hy - 1) "do_drop: holes in order"
    weakAssert (hy - 1 < vals.length) "do_drop: hole in bounds"
    pure [vals.take (hx - 1), (vals.take (hy - 1)).drop hx, vals.drop hy]

/-- `drop_vals` for one part after another: which destructors ran, and whether there was a panic.  `bad` tells whose destructor
panics.  src/tree/node.rs:1853-1885, 1946-1951 -/
def dropSegs (bad : S → Bool) : List (List S) → R (List S × Bool)
  | [] => pure ([], false)
  | s :: ss =>
    match s.filter bad with
    | [] => do
      let (vs, b) ← dropSegs bad ss
      pure (s ++ vs, b)
    | [_] => pure (s, true)
    | _ :: _ :: _ => .error aborted

/-- The children of a node, one after another, until there is a panic.  src/tree/node.rs:1913-1930 -/
def dropKidsP (f : Heap I S → Nat → R (Heap I S × Gone S × Bool)) : Heap I S → List Nat → R (Heap I S × Gone S × Bool)
  | H, [] => pure (H, ⟨[], []⟩, false)
  | H, q :: qs => do
    let (H, g, b) ← f H q
    if b then pure (H, g, true)
    else do
      let (H, g', b') ← dropKidsP f H qs
      pure (H, ⟨g.vals ++ g'.vals, g.nodes ++ g'.nodes⟩, b')

/-- `dropLog` (`Verif/Destroy.lean`) with panics: after a panic the node is not freed and its children are not dropped.
src/tree/node.rs:1586-1600, 1846-1951 -/
def dropLogP (bad : S → Bool) (hol : Nat → HoleArr) : (h : Nat) → Heap I S → Nat → R (Heap I S × Gone S × Bool)
  | 0, H, p => do
    let nd ← H.get p
    if nd.count = 1 then do
      let segs ← holeSegs (hol p) (nd.keys.map (·.slice))
      let (vs, b) ← dropSegs bad segs
      if b then pure (H.put p { nd with count := 0 }, ⟨vs, []⟩, true)
      else pure (H.free p, ⟨vs, [p]⟩, false)
    else do
      let c ← usub nd.count 1
      pure (H.put p { nd with count := c }, ⟨[], []⟩, false)
  | h + 1, H, p => do
    let nd ← H.get p
    if nd.count = 1 then do
      let segs ← holeSegs (hol p) (nd.keys.map (·.slice))
      let (vs, b) ← dropSegs bad segs
      if b then pure (H.put p { nd with count := 0 }, ⟨vs, []⟩, true)
      else do
        let (H, g, b) ← dropKidsP (dropLogP bad hol h) (H.free p) nd.kids
        pure (H, ⟨vs ++ g.vals, p :: g.nodes⟩, b)
    else do
      let c ← usub nd.count 1
      pure (H.put p { nd with count := c }, ⟨[], []⟩, false)

/-- `drop` with destructors that may panic; the variable is gone in any case.  src/tree/mod.rs:171-179, 275-294 -/
def St.dropLogP (bad : S → Bool) (hol : Nat → HoleArr) (st : St I S) (i : Nat) : R (St I S × Gone S × Bool) := do
  match ← st.tree i with
  | none => pure (st.setTree i none, ⟨[], []⟩, false)
  | some r => do
    let (H, g, b) ← Cow.dropLogP bad hol r.h st.heap r.p
    pure ({ st with heap := H }.setTree i none, g, b)

/-! ## A drop that panics is the beginning of one that does not -/

theorem dropVals_segs {hol : HoleArr} {vals vs : List S} (h : dropVals hol vals = .ok vs) :
    ∃ segs, holeSegs hol vals = .ok segs ∧ segs.flatten = vs := by
  unfold dropVals at h
  unfold holeSegs
  split at h
  · cases h; exact ⟨_, rfl, by simp⟩
  · simp only [bind_ok_iff] at h
    obtain ⟨_, h1, h⟩ := h
    cases h
    simp only [h1, R.bind_ok]
    exact ⟨_, rfl, by simp⟩
  · cases h
  · simp only [bind_ok_iff] at h
    obtain ⟨_, h1, _, h2, h⟩ := h
    cases h
    simp only [h1, h2, R.bind_ok]
    exact ⟨_, rfl, by simp⟩

theorem dropSegs_spec (bad : S → Bool) (segs : List (List S)) :
    dropSegs bad segs = .error aborted ∧ 2 ≤ (segs.flatten.filter bad).length ∨
    dropSegs bad segs = .ok (segs.flatten, false) ∧ (∀ v ∈ segs.flatten, bad v = false) ∨
    ∃ vs, dropSegs bad segs = .ok (vs, true) ∧ vs <+: segs.flatten ∧ (vs.filter bad).length = 1 ∧
      (segs.length = 1 → vs = segs.flatten) := by
  induction segs with
  | nil => exact .inr (.inl ⟨rfl, by simp⟩)
  | cons s ss ih =>
    unfold dropSegs
    split
    · rename_i hs
      have hs' : ∀ v ∈ s, bad v = false := by simpa [List.filter_eq_nil_iff] using hs
      rcases ih with ⟨h, h'⟩ | ⟨h, h'⟩ | ⟨vs, h, h', h'', _⟩
      · exact .inl ⟨by rw [h]; rfl, by rw [List.flatten_cons, List.filter_append, hs]; exact h'⟩
      · refine .inr (.inl ⟨by rw [h]; rfl, ?_⟩)
        intro v hv
        rw [List.flatten_cons, List.mem_append] at hv
        exact hv.elim (hs' v) (h' v)
      · refine .inr (.inr ⟨s ++ vs, by rw [h]; rfl, ?_, ?_⟩)
        · rw [List.flatten_cons]; exact (List.prefix_append_right_inj s).2 h'
        · rw [List.filter_append, hs]
          refine ⟨h'', fun hl => ?_⟩
          have : ss = [] := by simpa using hl
          subst this
          simp [dropSegs] at h
    · rename_i x hs
      refine .inr (.inr ⟨s, rfl, List.prefix_append _ _, by rw [hs]; rfl, fun hl => ?_⟩)
      have : ss = [] := by simpa using hl
      subst this
      simp
    · rename_i hs
      refine .inl ⟨rfl, ?_⟩
      rw [List.flatten_cons, List.filter_append, hs]
      simp only [List.length_append, List.length_cons]
      omega

theorem segs_one {hol : HoleArr} {vals : List S} {segs : List (List S)} (h : hol = (none, none)) (e : holeSegs hol vals = .ok segs) :
    segs.length = 1 := by
  subst h
  cases e
  rfl

/-- How a drop that panicked, leaving `H1`, relates to the drop that would not have: from `H` to `H'`.  Specification of src/tree/node.rs:1846-1951 -/
structure Stopped (bad : S → Bool) (hol : Nat → HoleArr) (H H' H1 : Heap I S) (g g1 : Gone S) : Prop where
  less : Less H1 H
  less' : Less H' H1
  vals : g1.vals <+: g.vals
  nodes : g1.nodes <+: g.nodes
  one : (g1.vals.filter bad).length = 1
  place : ∃ p vs, g1.nodes ++ [p] <+: g.nodes ∧ g1.vals = g1.nodes.flatMap (kept hol H) ++ vs ∧ vs <+: kept hol H p ∧
    (hol p = (none, none) → vs = kept hol H p)
  freed : ∀ x, x ∈ g1.nodes ↔ H.mem x ≠ none ∧ H1.mem x = none

/-- What a drop with panics can do, given what it does without.  Specification of src/tree/node.rs:1846-1951 -/
def DropSim (bad : S → Bool) (hol : Nat → HoleArr) (H H' : Heap I S) (g : Gone S) (r : R (Heap I S × Gone S × Bool)) : Prop :=
  r = .error aborted ∧ 2 ≤ (g.vals.filter bad).length ∨ r = .ok (H', g, false) ∧ (∀ v ∈ g.vals, bad v = false) ∨
  ∃ H1 g1, r = .ok (H1, g1, true) ∧ Stopped bad hol H H' H1 g g1

theorem two_left {bad : S → Bool} {a b : List S} (h : 2 ≤ (a.filter bad).length) : 2 ≤ ((a ++ b).filter bad).length := by
  rw [List.filter_append, List.length_append]; omega

theorem two_right {bad : S → Bool} {a b : List S} (h : 2 ≤ (b.filter bad).length) : 2 ≤ ((a ++ b).filter bad).length := by
  rw [List.filter_append, List.length_append]; omega

theorem put_less {H : Heap I S} {p : Nat} {nd nd' : HNode I S} (hm : H.mem p = some nd) (e : nd.Same nd') : Less (H.put p nd') H := by
  intro x n h
  by_cases hx : x = p
  · subst hx
    simp only [Heap.put, if_true, Option.some.injEq] at h
    subst h
    exact ⟨nd, hm, e⟩
  · simp only [Heap.put, hx, if_false] at h
    exact ⟨n, h, .refl _⟩

theorem free_less_put {H : Heap I S} {p : Nat} {nd : HNode I S} : Less (H.free p) (H.put p nd) := by
  intro x n h
  by_cases hx : x = p
  · simp [Heap.free, hx] at h
  · simp only [Heap.free, hx, if_false] at h
    exact ⟨n, by simpa [Heap.put, hx] using h, .refl _⟩

/-- The values of the node at hand. -/
theorem sim_stop {bad : S → Bool} {hol : Nat → HoleArr} {H H' : Heap I S} {p : Nat} {nd : HNode I S} (hm : H.mem p = some nd) (hl : Less H' (H.free p))
    {vs ws : List S} {g : Gone S} (hv : vs <+: g.vals) (h1 : (vs.filter bad).length = 1) (hn : [p] <+: g.nodes)
    (hw : dropVals (hol p) (nd.keys.map (·.slice)) = .ok ws) (hv' : vs <+: ws) (hall : hol p = (none, none) → vs = ws) :
    Stopped bad hol H H' (H.put p { nd with count := 0 }) g ⟨vs, []⟩ where
  less := put_less hm ⟨rfl, rfl, rfl, rfl⟩
  less' := hl.trans free_less_put
  vals := hv
  nodes := List.nil_prefix
  one := h1
  place := by
    have hk : kept hol H p = ws := by simp [kept, hm, hw]
    exact ⟨p, vs, hn, rfl, by rw [hk]; exact hv', fun h => by rw [hk]; exact hall h⟩
  freed x := by
    constructor
    · intro h; cases h
    · rintro ⟨a, b⟩
      by_cases hx : x = p
      · simp [Heap.put, hx] at b
      · exact (a (by simpa [Heap.put, hx] using b)).elim

theorem dropKidsP_sim {bad : S → Bool} {hol : Nat → HoleArr} {f : Heap I S → Nat → R (Heap I S × Gone S)}
    {f' : Heap I S → Nat → R (Heap I S × Gone S × Bool)} (hf : ∀ H q H' g, f H q = .ok (H', g) → GoneOk hol H H' g ∧ DropSim bad hol H H' g (f' H q)) :
    ∀ {l : List Nat} {H H' : Heap I S} {g : Gone S}, dropKids f H l = .ok (H', g) → DropSim bad hol H H' g (dropKidsP f' H l) := by
  intro l
  induction l with
  | nil => intro H H' g h; cases h; exact .inr (.inl ⟨rfl, by simp⟩)
  | cons q l ih =>
    intro H H' g h
    simp only [dropKids, bind_ok_iff] at h
    obtain ⟨⟨H1, g1⟩, h1, ⟨H2, g2⟩, h2, h3⟩ := h
    cases h3
    obtain ⟨k1, s1⟩ := hf _ _ _ _ h1
    have k2 := dropKids_gone (hol := hol) (fun _ _ _ _ h => (hf _ _ _ _ h).1) h2
    rcases s1 with ⟨e, two⟩ | ⟨e, n1⟩ | ⟨Hs, gs, e, st⟩
    · exact .inl ⟨by simp [dropKidsP, e], two_left two⟩
    · rcases ih h2 with ⟨e', two⟩ | ⟨e', n2⟩ | ⟨Hs, gs, e', st⟩
      · exact .inl ⟨by simp [dropKidsP, e, e'], two_right two⟩
      · refine .inr (.inl ⟨by simp [dropKidsP, e, e'], fun v hv => ?_⟩)
        exact (List.mem_append.1 hv).elim (n1 v) (n2 v)
      · refine .inr (.inr ⟨Hs, ⟨g1.vals ++ gs.vals, g1.nodes ++ gs.nodes⟩, by simp [dropKidsP, e, e'], ?_⟩)
        refine ⟨st.less.trans k1.less, st.less', ?_, ?_, ?_, ?_, fun x => ?_⟩
        · exact (List.prefix_append_right_inj _).2 st.vals
        · exact (List.prefix_append_right_inj _).2 st.nodes
        · have : g1.vals.filter bad = [] := by
            rw [List.filter_eq_nil_iff]; intro v hv; simp [n1 v hv]
          rw [List.filter_append, this]
          exact st.one
        · obtain ⟨p, vs, a1, a2, a3, a4⟩ := st.place
          have hp : H1.mem p ≠ none := ((k2.mem p).1 (a1.subset (by simp))).1
          have e : gs.nodes.flatMap (kept hol H1) = gs.nodes.flatMap (kept hol H) :=
            flatMap_congr' (fun x hx => kept_less k1.less ((st.freed x).1 hx).1)
          rw [kept_less k1.less hp] at a3 a4
          refine ⟨p, vs, ?_, ?_, a3, a4⟩
          · show (g1.nodes ++ gs.nodes) ++ [p] <+: g1.nodes ++ g2.nodes
            rw [List.append_assoc]
            exact (List.prefix_append_right_inj _).2 a1
          · show g1.vals ++ gs.vals = List.flatMap _ (_ ++ _) ++ vs
            rw [List.flatMap_append, k1.vals, a2, e, List.append_assoc]
        · rw [List.mem_append, k1.mem, st.freed]
          constructor
          · rintro (⟨a, b⟩ | ⟨a, b⟩)
            · exact ⟨a, st.less.dead b⟩
            · exact ⟨fun h => a (k1.less.dead h), b⟩
          · rintro ⟨a, b⟩
            by_cases h : H1.mem x = none
            · exact .inl ⟨a, h⟩
            · exact .inr ⟨h, b⟩
    · refine .inr (.inr ⟨Hs, gs, by simp [dropKidsP, e], ?_⟩)
      obtain ⟨p, vs, a1, a2⟩ := st.place
      exact ⟨st.less, k2.less.trans st.less', st.vals.trans (List.prefix_append _ _), st.nodes.trans (List.prefix_append _ _), st.one,
        ⟨p, vs, a1.trans (List.prefix_append _ _), a2⟩, st.freed⟩

theorem dropLogP_sim {bad : S → Bool} {hol : Nat → HoleArr} {h : Nat} : ∀ {H H' : Heap I S} {p : Nat} {g : Gone S},
    dropLog hol h H p = .ok (H', g) → DropSim bad hol H H' g (dropLogP bad hol h H p) := by
  induction h with
  | zero =>
    intro H H' p g h
    simp only [dropLog, bind_ok_iff] at h
    obtain ⟨nd, h1, h⟩ := h
    have hm := get_ok.1 h1
    simp only [dropLogP, h1, R.bind_ok]
    split at h
    · rename_i hc
      simp only [bind_ok_iff] at h
      obtain ⟨vs, h2, h⟩ := h
      cases h
      obtain ⟨segs, e1, rfl⟩ := dropVals_segs h2
      simp only [hc, if_true, e1, R.bind_ok]
      rcases dropSegs_spec bad segs with ⟨e, two⟩ | ⟨e, n⟩ | ⟨vs, e, pre, one, all⟩
      · exact .inl ⟨by simp [e], two⟩
      · exact .inr (.inl ⟨by simp [e], n⟩)
      · exact .inr (.inr ⟨_, _, by simp [e], sim_stop hm (.refl _) pre one (List.prefix_refl _) h2 pre (fun hh => all (segs_one hh e1))⟩)
    · rename_i hc
      simp only [bind_ok_iff] at h
      obtain ⟨c, h2, h⟩ := h
      cases h
      exact .inr (.inl ⟨by simp [hc, h2], by simp⟩)
  | succ h ih =>
    intro H H' p g h
    simp only [dropLog, bind_ok_iff] at h
    obtain ⟨nd, h1, h⟩ := h
    have hm := get_ok.1 h1
    simp only [dropLogP, h1, R.bind_ok]
    split at h
    · rename_i hc
      simp only [bind_ok_iff] at h
      obtain ⟨vs, h2, ⟨H1, g1⟩, h3, h⟩ := h
      cases h
      obtain ⟨segs, e1, rfl⟩ := dropVals_segs h2
      simp only [hc, if_true, e1, R.bind_ok]
      have k := dropKids_gone (hol := hol) (fun _ _ _ _ h => dropLog_gone h) h3
      have kf := GoneOk.free hm h2
      rcases dropSegs_spec bad segs with ⟨e, two⟩ | ⟨e, n⟩ | ⟨vs, e, pre, one, all⟩
      · exact .inl ⟨by simp [e], two_left two⟩
      · rcases dropKidsP_sim (bad := bad) (fun _ _ _ _ h => ⟨dropLog_gone h, ih h⟩) h3 with ⟨e', two⟩ | ⟨e', n'⟩ | ⟨Hs, gs, e', st⟩
        · exact .inl ⟨by simp [e, e'], two_right two⟩
        · refine .inr (.inl ⟨by simp [e, e'], fun v hv => ?_⟩)
          exact (List.mem_append.1 hv).elim (n v) (n' v)
        · refine .inr (.inr ⟨Hs, ⟨segs.flatten ++ gs.vals, p :: gs.nodes⟩, by simp [e, e'], ?_⟩)
          refine ⟨st.less.trans kf.less, st.less', (List.prefix_append_right_inj _).2 st.vals, ?_, ?_, ?_, fun x => ?_⟩
          · exact List.cons_prefix_cons.2 ⟨rfl, st.nodes⟩
          · have : segs.flatten.filter bad = [] := by
              rw [List.filter_eq_nil_iff]; intro v hv; simp [n v hv]
            show (List.filter bad (_ ++ _)).length = 1
            rw [List.filter_append, this]
            exact st.one
          · obtain ⟨q, vs, a1, a2, a3, a4⟩ := st.place
            have hq : (H.free p).mem q ≠ none := ((k.mem q).1 (a1.subset (by simp))).1
            have e : gs.nodes.flatMap (kept hol (H.free p)) = gs.nodes.flatMap (kept hol H) :=
              flatMap_congr' (fun x hx => kept_less kf.less ((st.freed x).1 hx).1)
            rw [kept_less kf.less hq] at a3 a4
            have hk : kept hol H p = segs.flatten := by simp [kept, hm, h2]
            refine ⟨q, vs, List.cons_prefix_cons.2 ⟨rfl, a1⟩, ?_, a3, a4⟩
            show segs.flatten ++ gs.vals = List.flatMap _ (p :: gs.nodes) ++ vs
            rw [List.flatMap_cons, hk, a2, e, List.append_assoc]
          · show x ∈ p :: gs.nodes ↔ _
            rw [List.mem_cons, st.freed]
            have := kf.mem x
            simp only [List.mem_singleton] at this
            rw [this]
            constructor
            · rintro (⟨a, b⟩ | ⟨a, b⟩)
              · exact ⟨a, st.less.dead b⟩
              · exact ⟨fun h => a (kf.less.dead h), b⟩
            · rintro ⟨a, b⟩
              by_cases h : (H.free p).mem x = none
              · exact .inl ⟨a, h⟩
              · exact .inr ⟨h, b⟩
      · exact .inr (.inr ⟨_, _, by simp [e], sim_stop hm k.less (pre.trans (List.prefix_append _ _)) one ⟨_, rfl⟩ h2 pre (fun hh => all (segs_one hh e1))⟩)
    · rename_i hc
      simp only [bind_ok_iff] at h
      obtain ⟨c, h2, h⟩ := h
      cases h
      exact .inr (.inl ⟨by simp [hc, h2], by simp⟩)

/-! ## Other trees -/

theorem mapM_mono {α β : Type} {f g : α → R β} : ∀ {l : List α} {r : List β}, (∀ x y, f x = .ok y → g x = .ok y) → l.mapM f = .ok r → l.mapM g = .ok r
  | [], _, _, h => h
  | x :: l, r, hfg, h => by
    rw [List.mapM_cons] at h ⊢
    simp only [bind_ok_iff] at h
    obtain ⟨y, h1, ys, h2, h3⟩ := h
    rw [hfg x y h1, R.bind_ok, mapM_mono hfg h2, R.bind_ok]
    exact h3

theorem readT_less {H' H1 : Heap I S} (l : Less H' H1) : ∀ (h p : Nat) (t : Tree I S h), readT H' h p = .ok t → readT H1 h p = .ok t
  | 0, _, _, h => h
  | h + 1, p, t, e => by
    simp only [readT, bind_ok_iff] at e ⊢
    obtain ⟨nd, h1, kids, h2, h3⟩ := e
    obtain ⟨n1, g1, g2⟩ := l p nd (get_ok.1 h1)
    refine ⟨n1, get_ok.2 g1, kids, ?_, ?_⟩
    · rw [g2.2.2.2]
      exact mapM_mono (fun x y => readT_less l h x y) h2
    · rw [g2.2.1, g2.2.2.1]; exact h3

/-! ## C65 -/

/-- C65: a tree is dropped, after any program, and the destructors of some slices (`bad`) panic.  `g` is what a drop without
panics destroys (C31).  Either there is no such slice in `g`, and all is as without panics; or there are at least two and
the program is aborted; or the drop panics, and then: it has run the destructors of a part of `g` from the beginning, among them of exactly
one slice that panics, and freed some of the nodes in `g`; they are the slices of the freed nodes and of the next node; every other tree has the
runs it had. -/
theorem drop_panics {MAX imax : Nat} {E : Env Nat S} (hE : E.ix = natIdx MAX) (hM : 1 ≤ E.M) (hM' : E.M ≤ 127) {cow : Bool}
    {ops : List (Op Nat S)} (hops : ∀ op ∈ ops, op.fits MAX) {st : St Nat S} (h : St.run E imax cow St.init ops = .ok st)
    {i : Nat} {es : List (Ent S)} (hi : runsOf st i = .ok es) (bad : S → Bool) :
    ∃ st' g, st.step E imax cow (.drop i) = .ok st' ∧ st.dropLog noHoles i = .ok (st', g) ∧
      (st.dropLogP bad noHoles i = .error aborted ∧ 2 ≤ (g.vals.filter bad).length ∨
       st.dropLogP bad noHoles i = .ok (st', g, false) ∧ (∀ v ∈ g.vals, bad v = false) ∨
       ∃ st1 g1, st.dropLogP bad noHoles i = .ok (st1, g1, true) ∧ g1.vals <+: g.vals ∧ g1.nodes <+: g.nodes ∧
         (g1.vals.filter bad).length = 1 ∧
         (∃ p, g1.nodes ++ [p] <+: g.nodes ∧ g1.vals = (g1.nodes ++ [p]).flatMap (slicesAt st.heap)) ∧
         (∀ x, x ∈ g1.nodes ↔ st.heap.mem x ≠ none ∧ st1.heap.mem x = none) ∧
         ∀ j, j ≠ i → ∀ es', runsOf st j = .ok es' → runsOf st1 j = .ok es') := by
  obtain ⟨ss, -, h2⟩ := run_sound hE hM hM' hops h
  obtain ⟨t, hv, -⟩ := bind_ok_iff.1 hi
  obtain ⟨o, ho⟩ := view_tree hv
  obtain ⟨st', e, ok', htr, hl, hview⟩ := drop_step h2.ok ho
  obtain ⟨g, e', hg⟩ := St.dropLog_ok (noHoles_fit _) e
  refine ⟨st', g, e, e', ?_⟩
  simp only [St.dropLog, St.dropLogP, St.tree_ok.2 ho, R.bind_ok] at e' ⊢
  cases o with
  | none =>
    cases e'
    exact .inr (.inl ⟨rfl, by simp⟩)
  | some r =>
    simp only [bind_ok_iff] at e'
    obtain ⟨⟨H', g'⟩, d, e'⟩ := e'
    cases e'
    rcases dropLogP_sim (bad := bad) d with ⟨k, two⟩ | ⟨k, n⟩ | ⟨H1, g1, k, sp⟩
    · exact .inl ⟨by simp [k], two⟩
    · exact .inr (.inl ⟨by simp [k], n⟩)
    · refine .inr (.inr ⟨_, g1, by simp only [k, R.bind_ok]; rfl, sp.vals, sp.nodes, sp.one, ?_, sp.freed, fun j hj es' hes => ?_⟩)
      · obtain ⟨p, vs, a1, a2, -, a4⟩ := sp.place
        refine ⟨p, a1, ?_⟩
        have hk : kept noHoles st.heap = slicesAt st.heap := funext (kept_noHoles _)
        rw [a2, a4 rfl, List.flatMap_append, hk]
        simp
      obtain ⟨t', hv', hes⟩ := bind_ok_iff.1 hes
      cases hes
      have hv2 := hview j hj t' hv'
      refine bind_ok_iff.2 ⟨t', ?_, rfl⟩
      rcases St.view_cases hv2 with ⟨hn, rfl⟩ | ⟨r', t0, hn, ht0, rfl⟩
      · exact St.view_none (st := { st with heap := H1 }.setTree i none) hn
      · exact St.view_some (st := { st with heap := H1 }.setTree i none) hn (readT_less sp.less' _ _ _ ht0)

/-- Eleven steps of the program of `CowProps`, then tree 0 is dropped and the destructor of `'d'` panics: this is in the root; `'b'`, `'c'`
and the others are not destroyed and no node is freed.  If the destructor of `'f'` panics, the nodes before it are freed. -/
theorem drop_panic_leaks : ((St.run exEnv 1000 true St.init (exProg.take 11)).bind (fun st => st.dropLogP (· == 'd') noHoles 0)).map
      (fun r => (r.2.1.vals, r.2.1.nodes, r.2.2)) = .ok (['d'], [], true) ∧
    ((St.run exEnv 1000 true St.init (exProg.take 11)).bind (fun st => st.dropLogP (· == 'f') noHoles 0)).map
      (fun r => (r.2.1.vals, r.2.1.nodes, r.2.2)) = .ok (['d', 'b', 'c', 'f'], [9, 2, 1], true) ∧
    ((St.run exEnv 1000 true St.init (exProg.take 11)).bind (fun st => st.dropLogP (fun _ => false) noHoles 0)).map
      (fun r => (r.2.1.vals, r.2.1.nodes, r.2.2)) = .ok (['d', 'b', 'c', 'f', 'e', 'y'], [9, 2, 1, 8, 6, 7], false) := by decide +kernel

end Sherman.Cow
