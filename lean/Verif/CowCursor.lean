import Verif.CowIterProps
/-!
# `cursor_to` on trees that share nodes: C41

On the way down, `cursor_to` compares the address that is stored in each child as that of its parent with the address of the parent.  If they
differ it calls itself, so that the part of the path below is found without following this link.  But the call is made for the parent again
instead of the child.
-/
namespace Sherman.Cow
variable {I S : Type}

/-- How the way down ends: at a node, or at a node whose child `c` is to be entered and stores the address of another parent.
src/tree/mod.rs:476-526 -/
inductive Down (I : Type) where
  | stop (h p : Nat)
  | mismatch (h p c : Nat) (target : I)

/-- The way down of `recurse`.  src/tree/mod.rs:482-510 -/
def downM (ix : IdxOps I) (H : Heap I S) (L : LinkMap) : Nat → Nat → I → R (Down I)
  | 0, p, _ => pure (.stop 0 p)
  | h + 1, p, target => do
    let n ← rdInternal H p
    match ← searchStep ix n none target with
    | .key _ _ => pure (.stop (h + 1) p)
    | .child c cpos => do
      let target ← ix.subL target cpos
      let ch ← Node.child n c
      match L (ptrOf ch) with
      | some (q, _) => if q ≠ p then pure (.mismatch (h + 1) p c target) else downM ix H L h (ptrOf ch) target
      | none => downM ix H L h (ptrOf ch) target

/-- The way back up of `recurse`, of as many levels as are given, along stored links.  src/tree/mod.rs:512-525 -/
def upM (H : Heap I S) (L : LinkMap) : Nat → Nat → List Nat → R (List Nat)
  | 0, _, path => pure path
  | d + 1, p, path => do
    let _ ← H.get p
    match L p with
    | none => pure path
    | some (q, i) => upM H L d q (i :: path)

/-- `recurse`, with a bound on the depth of calls; `none` if that is exceeded.  src/tree/mod.rs:474-528 -/
def recM (ix : IdxOps I) (H : Heap I S) (L : LinkMap) : Nat → Nat → Nat → I → Option (R (List Nat))
  | 0, _, _, _ => none
  | fuel + 1, h, p, target =>
    match downM ix H L h p target with
    | .error f => some (.error f)
    | .ok (.stop h' p') => some (upM H L (h - h') p' [])
    | .ok (.mismatch h' p' c target') =>
      match recM ix H L fuel h' p' target' with
      | none => none
      | some (.error f) => some (.error f)
      | some (.ok path) => some (upM H L (h - h') p' (c :: path))

/-- `cursor_to(idx)` for a cursor that keeps whole paths.  src/tree/mod.rs:460-529 -/
def LSt.cursorTo (ix : IdxOps I) (fuel : Nat) (s : LSt I S) (i : Nat) (idx : I) : Option (R (List Nat)) :=
  match s.st.tree i with
  | .error f => some (.error f)
  | .ok none => some (do
    check (!ix.lt idx ix.zero) "index out of bounds, less than zero"
    check (ix.lt idx ix.zero) "index out of bounds"
    .error (.panic "`self.root` should be `Some` if `0 <= idx < size`"))
  | .ok (some r) =>
    match (do
      check (!ix.lt idx ix.zero) "index out of bounds, less than zero"
      let nd ← s.st.heap.get r.p
      check (ix.lt idx nd.size) "index out of bounds" : R Unit) with
    | .error f => some (.error f)
    | .ok () => recM ix s.st.heap s.links fuel r.h r.p idx

/-! ## Specification -/

/-- The links along a path are those of this tree. -/
def RightAlong (L : LinkMap) : {h : Nat} → Tree I S (h + 1) → List Nat → Prop
  | _, _, [] => True
  | 0, _, _ :: _ => False
  | h + 1, n, c :: cs => ∃ ch : Tree I S (h + 1), (Node.kids n)[c]? = some ch ∧ L (ptrOf ch) = some (Node.ptr n, c) ∧ RightAlong L ch cs

/-- The first links along a path name the right nodes; at its end, the first child names another node as its parent. -/
def BadFirst (L : LinkMap) : {h : Nat} → Tree I S (h + 1) → List Nat → Prop
  | 0, _, _ => False
  | h + 1, n, [] => ∃ ch : Tree I S (h + 1), (Node.kids n)[0]? = some ch ∧ ∃ q i, L (ptrOf ch) = some (q, i) ∧ q ≠ Node.ptr n
  | h + 1, n, c :: cs => ∃ ch : Tree I S (h + 1), (Node.kids n)[c]? = some ch ∧ (∃ i, L (ptrOf ch) = some (Node.ptr n, i)) ∧ BadFirst L ch cs

/-! ## Proofs -/

theorem child_cut_of {h : Nat} {n : Tree I S (h + 2)} {c : Nat} {ch : Tree I S (h + 1)} (hc : (Node.kids n)[c]? = some ch) :
    Node.child (cut n) c = .ok (stub (ptrOf ch) (Node.size ch) : Tree I S 1) := by
  refine child_cut (n := n) ?_
  unfold Node.child
  rw [hc]

theorem Fit.kid {H : Heap I S} {L : LinkMap} {h : Nat} {n : Tree I S (h + 2)} {A : List Nat} (hf : Fit H L A n) {c : Nat} {ch : Tree I S (h + 1)}
    (hc : (Node.kids n)[c]? = some ch) : Fit H L (Node.ptr n :: A) ch := hf.2.2.2 ch (List.mem_of_getElem? hc)

theorem downM_right {ix : IdxOps I} {H : Heap I S} {L : LinkMap} {h : Nat} {n : Tree I S (h + 1)} {A : List Nat} (hf : Fit H L A n) {target : I} {path : List Nat}
    (hr : cursorLoop ix n target = .ok path) (hl : RightAlong L n path) :
    ∃ h' p', downM ix H L h (Node.ptr n) target = .ok (.stop h' p') ∧ h' ≤ h ∧
      ∀ e acc, upM H L (h - h' + e) p' acc = upM H L e (Node.ptr n) (path ++ acc) := by
  induction h generalizing target path A with
  | zero =>
    cases hr
    exact ⟨0, _, rfl, Nat.le_refl _, fun e acc => by simp⟩
  | succ h ih =>
    simp only [cursorLoop, bind_ok_iff] at hr
    obtain ⟨st, h1, hr⟩ := hr
    simp only [downM, rdInternal_eq hf, R.bind_ok, searchStep_cut, h1]
    cases st with
    | key k kpos =>
      cases hr
      exact ⟨h + 1, _, rfl, Nat.le_refl _, fun e acc => by simp⟩
    | child c cpos =>
      simp only [bind_ok_iff] at hr
      obtain ⟨t', h2, ch, h3, p, h4, hr⟩ := hr
      cases hr
      have hk := child_ok h3
      obtain ⟨ch', g1, g2, g3⟩ := hl
      rw [hk] at g1; cases g1
      have hp : ptrOf (stub (ptrOf ch) (Node.size ch) : Tree I S 1) = ptrOf ch := rfl
      simp only [h2, R.bind_ok, child_cut h3, hp, g2, ne_eq, not_true_eq_false, if_false]
      have hfc := hf.kid hk
      obtain ⟨h', p', e1, e2, e3⟩ := ih hfc h4 g3
      refine ⟨h', p', e1, by omega, fun e acc => ?_⟩
      rw [show h + 1 - h' + e = h - h' + (e + 1) by omega, e3]
      obtain ⟨nd, g4, -⟩ := hfc.get
      have g4 : H.get (Node.ptr ch) = .ok nd := get_ok.2 g4
      have g2 : L (Node.ptr ch) = some (Node.ptr n, c) := g2
      simp only [upM, g4, R.bind_ok, g2]
      rfl

theorem fullStep_zero {ix : IdxOps I} {h : Nat} {n : Tree I S (h + 1)} {target cpos : I} (hs : fullStep ix n target = .ok (.child 0 cpos)) :
    cpos = ix.zero := by
  simp only [fullStep, bind_ok_iff] at hs
  obtain ⟨r, -, hs⟩ := hs
  split at hs
  · cases hs; rfl
  · simp only [bind_ok_iff] at hs
    obtain ⟨_, -, hs⟩ := hs
    cases hs
  · simp only [bind_ok_iff] at hs
    obtain ⟨_, -, _, -, _, -, hs⟩ := hs
    split at hs
    · simp only [bind_ok_iff] at hs
      obtain ⟨_, -, hs⟩ := hs
      cases hs
    · cases hs

theorem searchStep_zero {ix : IdxOps I} {h : Nat} {n : Tree I S (h + 1)} {target cpos : I}
    (hs : searchStep ix n none target = .ok (.child 0 cpos)) : cpos = ix.zero := by
  simp only [searchStep, bind_ok_iff] at hs
  obtain ⟨_, -, r, h1, hs⟩ := hs
  have : r = none := by
    cases h <;> cases h1 <;> rfl
  subst this
  exact fullStep_zero hs

theorem recM_stuck {ix : IdxOps I} (hz : ∀ t : I, ix.subL t ix.zero = .ok t) {H : Heap I S} {L : LinkMap} {h : Nat} {n : Tree I S (h + 2)}
    {A : List Nat} (hf : Fit H L A n) {target cpos : I} (hs : searchStep ix n none target = .ok (.child 0 cpos)) {ch : Tree I S (h + 1)}
    (hk : (Node.kids n)[0]? = some ch) {q i : Nat} (hl : L (ptrOf ch) = some (q, i)) (hq : q ≠ Node.ptr n) :
    downM ix H L (h + 1) (Node.ptr n) target = .ok (.mismatch (h + 1) (Node.ptr n) 0 target) ∧
    ∀ fuel, recM ix H L fuel (h + 1) (Node.ptr n) target = none := by
  have hd : downM ix H L (h + 1) (Node.ptr n) target = .ok (.mismatch (h + 1) (Node.ptr n) 0 target) := by
    have hp : ptrOf (stub (ptrOf ch) (Node.size ch) : Tree I S 1) = ptrOf ch := rfl
    simp only [downM, rdInternal_eq hf, R.bind_ok, searchStep_cut, hs]
    rw [searchStep_zero hs, hz]
    simp only [R.bind_ok, child_cut_of hk, hp, hl, ne_eq, hq, not_false_eq_true, if_true, R.pure_eq]
  refine ⟨hd, fun fuel => ?_⟩
  induction fuel with
  | zero => rfl
  | succ fuel ih => simp only [recM, hd, ih]

theorem downM_bad {ix : IdxOps I} (hz : ∀ t : I, ix.subL t ix.zero = .ok t) {H : Heap I S} {L : LinkMap} {h : Nat} {n : Tree I S (h + 1)}
    {A : List Nat} (hf : Fit H L A n) {target : I} {pre post : List Nat} (hr : cursorLoop ix n target = .ok (pre ++ 0 :: post)) (hb : BadFirst L n pre) :
    ∃ h' p' t', downM ix H L h (Node.ptr n) target = .ok (.mismatch h' p' 0 t') ∧ ∀ fuel, recM ix H L fuel h' p' t' = none := by
  induction h generalizing target pre A with
  | zero => cases hb
  | succ h ih =>
    simp only [cursorLoop, bind_ok_iff] at hr
    obtain ⟨st, h1, hr⟩ := hr
    cases st with
    | key k kpos => cases pre <;> cases hr
    | child c cpos =>
      simp only [bind_ok_iff] at hr
      obtain ⟨t', h2, ch, h3, p, h4, hr⟩ := hr
      have hr := Except.ok.inj hr
      have hk := child_ok h3
      cases pre with
      | nil =>
        obtain ⟨rfl, rfl⟩ := List.cons.inj hr
        obtain ⟨ch', g1, q, i, g2, g3⟩ := hb
        rw [hk] at g1; cases g1
        obtain ⟨e1, e2⟩ := recM_stuck hz hf h1 hk g2 g3
        exact ⟨_, _, _, e1, e2⟩
      | cons c' pre =>
        obtain ⟨rfl, rfl⟩ := List.cons.inj hr
        obtain ⟨ch', g1, ⟨i, g2⟩, g3⟩ := hb
        rw [hk] at g1; cases g1
        obtain ⟨h', p', t'', e1, e2⟩ := ih (hf.kid hk) h4 g3
        have hp : ptrOf (stub (ptrOf ch) (Node.size ch) : Tree I S 1) = ptrOf ch := rfl
        refine ⟨h', p', t'', ?_, e2⟩
        simp only [downM, rdInternal_eq hf, R.bind_ok, searchStep_cut, h1, h2, child_cut h3, hp, g2, ne_eq, not_true_eq_false, if_false]
        exact e1

/-- The checks of `cursor_to`. -/
theorem cursorTo_cases {E : Env I S} {s : LSt I S} {j : Nat} {t : RleTree I S} (hv : s.st.view j = .ok t) (idx : I) (fuel : Nat) :
    (∃ f, t.cursorTo E idx = .error f ∧ t.root = none ∧ s.cursorTo E.ix fuel j idx = some (.error f)) ∨
    ∃ r : Root I S, t.root = some r ∧
      ((∃ f, (∀ g : R (List Nat), (do
          check (!E.ix.lt idx E.ix.zero) "index out of bounds, less than zero"
          check (E.ix.lt idx (Node.size r.tree)) "index out of bounds"
          g) = .error f) ∧ s.cursorTo E.ix fuel j idx = some (.error f)) ∨
       (E.ix.lt idx (t.size E) = true ∧ t.cursorTo E idx = cursorLoop E.ix r.tree idx ∧
        s.cursorTo E.ix fuel j idx = recM E.ix s.st.heap s.links fuel r.h (Node.ptr r.tree) idx)) := by
  rcases St.view_cases hv with ⟨h1, rfl⟩ | ⟨c, t0, h1, h2, rfl⟩
  · left
    have hs : RleTree.size E (⟨none⟩ : RleTree I S) = E.ix.zero := rfl
    simp only [RleTree.cursorTo, LSt.cursorTo, St.tree_ok.2 h1, hs]
    generalize check (!E.ix.lt idx E.ix.zero) _ = c1
    generalize check (E.ix.lt idx E.ix.zero) _ = c2
    cases c1 with
    | error e => exact ⟨e, rfl, trivial, rfl⟩
    | ok _ => cases c2 with
      | error e => exact ⟨e, rfl, trivial, rfl⟩
      | ok _ => exact ⟨_, rfl, trivial, rfl⟩
  · right
    obtain ⟨nd, ks, g1, g2, g3⟩ := readT_succ.1 h2
    have hsz : nd.size = Node.size t0 := by rw [g3]
    have hp : c.p = Node.ptr t0 := by rw [g3]
    have hs : RleTree.size E (⟨some ⟨c.h, t0, c.len⟩⟩ : RleTree I S) = Node.size t0 := rfl
    refine ⟨_, rfl, ?_⟩
    simp only [RleTree.cursorTo, LSt.cursorTo, St.tree_ok.2 h1, hs, hp]
    rw [hp] at g1
    simp only [get_ok.2 g1, R.bind_ok, hsz]
    generalize check (!E.ix.lt idx E.ix.zero) _ = c1
    cases c1 with
    | error e => exact .inl ⟨e, fun g => rfl, rfl⟩
    | ok _ =>
      generalize E.ix.lt idx (Node.size t0) = b
      cases b with
      | false => exact .inl ⟨_, fun g => rfl, rfl⟩
      | true => exact .inr ⟨rfl, rfl, rfl⟩

/-! ## C41 -/

/-- C41: if the links on the way are those of the tree, `cursor_to` returns the path to the run that contains the index, without calling itself; out of
bounds it panics. -/
theorem cursorTo_shared_partial {S : Type} {MAX imax : Nat} {E : Env Nat S} (hE : E.ix = natIdx MAX) (hM : 1 ≤ E.M) (hM' : E.M ≤ 127)
    {ops : List (Op Nat S)} (hops : ∀ op ∈ ops, op.fits MAX) {s : LSt Nat S} (h : LSt.run E imax LSt.init ops = .ok s)
    {j : Nat} {t : RleTree Nat S} (hv : s.st.view j = .ok t) (idx : Nat) (fuel : Nat) :
    (idx < t.size E → ∃ a e b r c, t.runs = a ++ e :: b ∧ total a ≤ idx ∧ idx < total a + e.size ∧ t.root = some r ∧
      (cells r.tree)[a.length]? = some c ∧ t.cursorTo E idx = .ok c.path ∧
      (RightAlong s.links r.tree c.path → s.cursorTo E.ix (fuel + 1) j idx = some (.ok c.path))) ∧
    (t.size E ≤ idx → s.cursorTo E.ix (fuel + 1) j idx = some (.error (.panic "index out of bounds"))) := by
  obtain ⟨⟨ss, hrel⟩, hl⟩ := run_lok hE hM hM' hops h
  obtain ⟨o, ho⟩ := view_tree hv
  have : ∃ es, ss[j]? = some (some es) := by
    by_contra hn
    exact hrel.noTree (fun es he => hn ⟨es, he⟩) o ho
  obtain ⟨es, hes⟩ := this
  obtain ⟨t', hv', hreach, -⟩ := hrel.view j es hes
  rw [hv] at hv'; cases hv'
  refine ⟨fun hlt => ?_, fun hge => ?_⟩
  · obtain ⟨a, e, b, r', c, k1, k2, k3, k4, k5, hpath⟩ := cursorTo_path hE hreach hlt
    rcases cursorTo_cases (E := E) hv idx (fuel + 1) with ⟨f, e1, -⟩ | ⟨r, hr, ⟨f, e1, -⟩ | ⟨-, e1, e2⟩⟩
    · rw [hpath] at e1; cases e1
    · exfalso
      have hs : t.size E = Node.size r.tree := by unfold RleTree.size; rw [hr]
      have := e1 (cursorLoop E.ix r.tree idx)
      unfold RleTree.cursorTo at hpath
      rw [hs, hr] at hpath
      rw [hpath] at this
      cases this
    · obtain rfl : r = r' := by rw [hr] at k4; exact Option.some.inj k4
      refine ⟨a, e, b, r, c, k1, k2, k3, hr, k5, hpath, fun hright => ?_⟩
      rw [e2]
      rw [e1] at hpath
      have hfit : Fit s.st.heap s.links [] r.tree := fit_root hrel hl.linked hv (len := r.len) hr
      obtain ⟨h', p', g1, g2, g3⟩ := downM_right hfit hpath hright
      simp only [recM, g1]
      rw [show r.h - h' = r.h - h' + 0 by rfl, g3]
      simp [upM]
  · have hm := ((cursorTo_panics_iff hE hreach idx).1).1 hge
    rcases cursorTo_cases (E := E) hv idx (fuel + 1) with ⟨f, e1, -, e2⟩ | ⟨r, hr, ⟨f, e1, e2⟩ | ⟨e0, e1, e2⟩⟩
    · rw [hm] at e1; cases e1
      exact e2
    · have hs : t.size E = Node.size r.tree := by unfold RleTree.size; rw [hr]
      have := e1 (cursorLoop E.ix r.tree idx)
      unfold RleTree.cursorTo at hm
      rw [hs, hr] at hm
      rw [hm] at this
      cases this
      exact e2
    · exfalso
      rw [hE] at e0
      simp only [natIdx, IdxOps.lt] at e0
      have : compare idx (t.size E) = .lt := by simpa using e0
      rw [Nat.compare_eq_lt] at this
      omega

theorem rightAlong_of_none {ix : IdxOps I} {L : LinkMap} {h : Nat} {n : Tree I S (h + 1)} (hw : wrongLinks L n = []) {target : I} {path : List Nat}
    (hr : cursorLoop ix n target = .ok path) : RightAlong L n path := by
  induction h generalizing target path with
  | zero => cases hr; trivial
  | succ h ih =>
    simp only [cursorLoop, bind_ok_iff] at hr
    obtain ⟨st, h1, hr⟩ := hr
    cases st with
    | key k kpos => cases hr; trivial
    | child c cpos =>
      simp only [bind_ok_iff] at hr
      obtain ⟨t', h2, ch, h3, p, h4, hr⟩ := hr
      cases hr
      have hk := child_ok h3
      rw [wrongLinks, List.append_eq_nil_iff] at hw
      obtain ⟨w1, w2⟩ := hw
      rw [List.flatMap_eq_nil_iff] at w1 w2
      refine ⟨ch, hk, ?_, ih (w2 ch (List.mem_of_getElem? hk)) h4⟩
      have := w1 (ch, c) (List.mem_zipIdx_iff_getElem?.2 hk)
      simp only [ptrT] at this
      by_contra hne
      have hne : ¬ L (Node.ptr ch) = some (Node.ptr n, c) := hne
      simp [hne] at this

/-- C41: in particular, if no node of the tree stores a wrong link. -/
theorem cursorTo_tidy_partial {S : Type} {MAX imax : Nat} {E : Env Nat S} (hE : E.ix = natIdx MAX) (hM : 1 ≤ E.M) (hM' : E.M ≤ 127)
    {ops : List (Op Nat S)} (hops : ∀ op ∈ ops, op.fits MAX) {s : LSt Nat S} (h : LSt.run E imax LSt.init ops = .ok s)
    {j : Nat} {t : RleTree Nat S} (hv : s.st.view j = .ok t) (hw : wrongIn s j = .ok []) {idx : Nat} (hi : idx < t.size E) (fuel : Nat) :
    ∃ a e b r c, t.runs = a ++ e :: b ∧ total a ≤ idx ∧ idx < total a + e.size ∧ t.root = some r ∧
      (cells r.tree)[a.length]? = some c ∧ s.cursorTo E.ix (fuel + 1) j idx = some (.ok c.path) := by
  obtain ⟨a, e, b, r, c, k1, k2, k3, k4, k5, k6, k7⟩ := (cursorTo_shared_partial hE hM hM' hops h hv idx fuel).1 hi
  refine ⟨a, e, b, r, c, k1, k2, k3, k4, k5, k7 ?_⟩
  simp only [wrongIn, hv, R.bind_ok, k4] at hw
  simp only [RleTree.cursorTo, k4, bind_ok_iff] at k6
  obtain ⟨_, -, _, -, k6⟩ := k6
  exact rightAlong_of_none (Except.ok.inj hw) k6

/-- C41 fails in general: if the path to the run leads through the first child of a node, and that child stores another parent's address, then
`cursor_to` calls itself for ever, whatever the depth of the stack. -/
theorem cursorTo_never_returns {S : Type} {MAX imax : Nat} {E : Env Nat S} (hE : E.ix = natIdx MAX) (hM : 1 ≤ E.M) (hM' : E.M ≤ 127)
    {ops : List (Op Nat S)} (hops : ∀ op ∈ ops, op.fits MAX) {s : LSt Nat S} (h : LSt.run E imax LSt.init ops = .ok s)
    {j : Nat} {t : RleTree Nat S} (hv : s.st.view j = .ok t) {idx : Nat} {pre post : List Nat} (hp : t.cursorTo E idx = .ok (pre ++ 0 :: post))
    {r : Root Nat S} (hr : t.root = some r) (hb : BadFirst s.links r.tree pre) (fuel : Nat) : s.cursorTo E.ix fuel j idx = none := by
  obtain ⟨⟨ss, hrel⟩, hl⟩ := run_lok hE hM hM' hops h
  rcases cursorTo_cases (E := E) hv idx fuel with ⟨f, e1, -⟩ | ⟨r', hr', ⟨f, e1, -⟩ | ⟨-, e1, e2⟩⟩
  · rw [hp] at e1; cases e1
  · exfalso
    have hs : t.size E = Node.size r'.tree := by unfold RleTree.size; rw [hr']
    have := e1 (cursorLoop E.ix r'.tree idx)
    unfold RleTree.cursorTo at hp
    rw [hs, hr'] at hp
    rw [hp] at this
    cases this
  · rw [hr] at hr'; cases hr'
    rw [e1] at hp
    rw [e2]
    have hfit : Fit s.st.heap s.links [] r.tree := fit_root hrel hl.linked hv (len := r.len) hr
    have hz : ∀ t : Nat, E.ix.subL t E.ix.zero = .ok t := by
      intro t
      rw [hE]
      simp [natIdx]
    obtain ⟨h', p', t', g1, g2⟩ := downM_bad hz hfit hp hb
    cases fuel with
    | zero => rfl
    | succ fuel => simp only [recM, g1, g2]

/-! ## Witnesses -/

/-- A tree is cloned, and something is appended to the clone. -/
def cloneProg : List (Op Nat Char) :=
  [.new, .insert 0 false [] 0 'a' 1, .insert 0 false [] 1 'b' 1, .insert 0 false [] 2 'c' 1, .insert 0 false [] 3 'd' 1,
   .insert 0 false [] 4 'e' 1, .clone 0, .insert 1 false [] 5 'f' 1]

/-- A tree is cloned, and both are changed at the start. -/
def bothProg : List (Op Nat Char) :=
  [.new, .insert 0 false [] 0 'a' 1, .insert 0 false [] 1 'b' 1, .insert 0 false [] 2 'c' 1, .clone 0, .insert 1 false [] 0 'x' 1,
   .insert 0 false [] 0 'y' 1, .insert 0 false [] 0 'z' 1]

/-- What `cursor_to` returns after a program, and the path to the node where the run is. -/
def cursorBoth (ops : List (Op Nat Char)) (fuel j idx : Nat) : R (Option (R (List Nat)) × List Nat) := do
  let s ← LSt.run exEnv 1000 LSt.init ops
  let t ← s.st.view j
  let path ← t.cursorTo exEnv idx
  pure (s.cursorTo exEnv.ix fuel j idx, path)

/-- Whether the first child of the root stores the address of another parent. -/
def firstBad (s : LSt Nat Char) (j : Nat) : R Bool := do
  let t ← s.st.view j
  match t.root with
  | some ⟨_ + 1, n, _⟩ => pure (match (Node.kids n)[0]? with
    | some ch => (match s.links (ptrOf ch) with
      | some (q, _) => q != Node.ptr n
      | none => false)
    | none => false)
  | _ => pure false

/-- C41 fails: `cursor_to(0)` on a clone to which something was appended does not return. -/
theorem cursorTo_loops : ∃ s : LSt Nat Char, LSt.run exEnv 1000 LSt.init cloneProg = .ok s ∧ (∃ t, s.st.view 1 = .ok t ∧ t.size exEnv = 6) ∧
    ∀ fuel, s.cursorTo exEnv.ix fuel 1 0 = none := by
  have h : (LSt.run exEnv 1000 LSt.init cloneProg >>= fun s => do
      let t ← s.st.view 1
      let p ← t.cursorTo exEnv 0
      let b ← firstBad s 1
      pure (p, b, t.size exEnv)) = .ok ([0], true, 6) := by decide +kernel
  simp only [bind_ok_iff] at h
  obtain ⟨s, h1, t, h2, p, h3, b, h4, h5⟩ := h
  obtain ⟨rfl, rfl, h6⟩ : p = [0] ∧ b = true ∧ t.size exEnv = 6 := by
    have := Except.ok.inj h5
    simpa using this
  refine ⟨s, h1, ⟨t, h2, h6⟩, ?_⟩
  simp only [firstBad, h2, R.bind_ok] at h4
  obtain ⟨root⟩ := t
  cases root with
  | none => cases h4
  | some r =>
    obtain ⟨_ | hh, n, len⟩ := r
    · cases h4
    · have h4 := Except.ok.inj h4
      cases hk : (Node.kids n)[0]? with
      | none => simp [hk] at h4
      | some ch =>
        cases hl : s.links (ptrOf ch) with
        | none => simp [hk, hl] at h4
        | some l =>
          obtain ⟨q, i⟩ := l
          simp [hk, hl] at h4
          refine cursorTo_never_returns (MAX := 255) (imax := 1000) (E := exEnv) rfl (by decide) (by decide) (ops := cloneProg) ?_ h1 h2
            (pre := []) (post := []) h3 rfl ⟨ch, hk, q, i, hl, h4⟩
          intro op h
          simp only [cloneProg, List.mem_cons, List.not_mem_nil, or_false] at h
          rcases h with rfl | rfl | rfl | rfl | rfl | rfl | rfl | rfl <;> simp [Op.fits]

/-- C41 fails: where `cursor_to` calls itself and returns, the path has a component too many. -/
theorem cursorTo_too_long : cursorBoth bothProg 2 1 3 = .ok (some (.ok [1, 0]), [1]) := by decide +kernel

/-- C41 fails: where the stored address is right, but the stored index is not, the path leads to another node. -/
theorem cursorTo_wrong_index : cursorBoth bothProg 1 0 4 = .ok (some (.ok [1]), [2]) := by decide +kernel

/-- Links on a path of two nodes that are right, in a program that shares nodes. -/
example : cursorBoth exProg 1 0 4 = .ok (some (.ok [1, 0]), [1, 0]) ∧
    (LSt.run exEnv 1000 LSt.init exProg >>= fun s => wrongIn s 0) = .ok [] := by decide +kernel

end Sherman.Cow
