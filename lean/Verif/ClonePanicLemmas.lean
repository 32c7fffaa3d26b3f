import Verif.ClonePanic
import Verif.DestroyProps
/-!
# Panics in `Clone` of a slice: what each step leaves
-/
namespace Sherman.Cow
variable {I S : Type}

/-! ## Computations -/

theorem CM.bind_ok {α β : Type} {m : CM I S α} {f : α → CM I S β} {s s' : CSt I S} {a : α} (h : m s = (s', .ok a)) :
    (m >>= f) s = f a s' := by
  show CM.bind m f s = _
  unfold CM.bind
  rw [h]

theorem CM.bind_error {α β : Type} {m : CM I S α} {f : α → CM I S β} {s s' : CSt I S} {e : Fault} (h : m s = (s', .error e)) :
    (m >>= f) s = (s', .error e) := by
  show CM.bind m f s = _
  unfold CM.bind
  rw [h]

theorem CM.unwind_ok {α : Type} {d : CM I S Unit} {m : CM I S α} {s s' : CSt I S} {a : α} (h : m s = (s', .ok a)) :
    CM.unwind d m s = (s', .ok a) := by
  unfold CM.unwind
  rw [h]

theorem CM.unwind_error {α : Type} {d : CM I S Unit} {m : CM I S α} {s s1 s2 : CSt I S} {e : Fault} (h : m s = (s1, .error e))
    (hd : d s1 = (s2, .ok ())) : CM.unwind d m s = (s2, .error e) := by
  unfold CM.unwind
  rw [h]
  simp only [hd]

theorem CM.onHeap_ok {α : Type} {f : Heap I S → R (Heap I S × α)} {s : CSt I S} {H : Heap I S} {a : α} (h : f s.heap = .ok (H, a)) :
    CM.onHeap f s = ({ s with heap := H }, .ok a) := by
  unfold CM.onHeap
  rw [h]

theorem CM.onHeap_error {α : Type} {f : Heap I S → R (Heap I S × α)} {s : CSt I S} {e : Fault} (h : f s.heap = .error e) :
    CM.onHeap f s = (s, .error e) := by
  unfold CM.onHeap
  rw [h]

theorem cm_get_ok {s : CSt I S} {p : Nat} {nd : HNode I S} (h : s.heap.mem p = some nd) :
    CM.onHeap (fun H : Heap I S => do
      let nd ← H.get p
      pure (H, nd)) s = (s, .ok nd) := by
  have := CM.onHeap_ok (f := fun H : Heap I S => do
      let nd ← H.get p
      pure (H, nd)) (s := s) (H := s.heap) (a := nd) (by simp only [get_ok.2 h, R.bind_ok]; rfl)
  exact this

/-! ## Cloning the slices of a node -/

theorem mapM_some (l : List S) : (l.map some).mapM Gradual.assumeInit = (.ok l : R (List S)) := by
  rw [mapM_ok]
  induction l with
  | nil => exact .nil
  | cons a l ih => exact .cons rfl ih

/-- All slices are cloned, or the clones made are destroyed. -/
theorem cloneVals_spec (vs : List S) : ∀ (done : List S) (r : Nat) (s : CSt I S), vs.length ≤ r →
    cloneVals vs ⟨done.map some ++ List.replicate r none, done.length⟩ s =
      if vs.length ≤ s.left then
        ({ s with left := s.left - vs.length, made := s.made ++ vs },
          .ok ⟨(done ++ vs).map some ++ List.replicate (r - vs.length) none, (done ++ vs).length⟩)
      else ({ s with left := 0, made := s.made ++ vs.take s.left, gone := s.gone ++ (done ++ vs.take s.left) }, .error userPanic) := by
  induction vs with
  | nil => intro done r s _; simp [cloneVals, CM.pure]
  | cons v vs ih =>
    intro done r s hr
    simp only [List.length_cons] at hr
    obtain ⟨r, rfl⟩ : ∃ r', r = r' + 1 := ⟨r - 1, by omega⟩
    unfold cloneVals
    cases hl : s.left with
    | zero =>
      have h1 : cloneSlice v s = (s, .error userPanic) := by unfold cloneSlice; rw [hl]
      have h2 : Gradual.drop (⟨done.map some ++ List.replicate (r + 1) none, done.length⟩ : Gradual S) = .ok done := by
        unfold Gradual.drop
        have e1 : weakAssert (decide (done.length ≤ (done.map some ++ List.replicate (r + 1) (none : Option S)).length)) "from_raw_parts_mut" = .ok () := by
          simp [weakAssert]
        have e2 : (done.map some ++ List.replicate (r + 1) (none : Option S)).take done.length = done.map some := by
          rw [List.take_left' (by simp)]
        simp only [e1, e2, R.bind_ok, mapM_some]
      have h3 : (do
          let ds ← CM.lift (Gradual.drop (⟨done.map some ++ List.replicate (r + 1) none, done.length⟩ : Gradual S))
          CM.destroy ds : CM I S Unit) s = ({ s with gone := s.gone ++ done }, .ok ()) := by
        rw [h2]; rfl
      rw [CM.bind_error (CM.unwind_error h1 h3)]
      simp [hl]
    | succ n =>
      have h1 : cloneSlice v s = ({ s with left := n, made := s.made ++ [v] }, .ok v) := by unfold cloneSlice; rw [hl]
      rw [CM.bind_ok (CM.unwind_ok h1)]
      have h2 : Gradual.push (⟨done.map some ++ List.replicate (r + 1) none, done.length⟩ : Gradual S) v =
          .ok ⟨(done ++ [v]).map some ++ List.replicate r none, (done ++ [v]).length⟩ := by
        unfold Gradual.push
        have e1 : weakAssert (decide (done.length < (done.map some ++ List.replicate (r + 1) (none : Option S)).length)) "push_unchecked" = .ok () := by
          simp [weakAssert]
        have e2 : (done.map some ++ List.replicate (r + 1) (none : Option S)).set done.length (some v) =
            (done ++ [v]).map some ++ List.replicate r none := by
          rw [List.set_append_right _ _ (by simp)]
          simp [List.replicate_succ]
        simp only [e1, e2, R.bind_ok, R.pure_eq]
        simp
      have h3 : (CM.lift (Gradual.push (⟨done.map some ++ List.replicate (r + 1) none, done.length⟩ : Gradual S) v) : CM I S (Gradual S))
          { s with left := n, made := s.made ++ [v] } = ({ s with left := n, made := s.made ++ [v] },
            .ok ⟨(done ++ [v]).map some ++ List.replicate r none, (done ++ [v]).length⟩) := by
        rw [h2]; rfl
      rw [CM.bind_ok h3, ih (done ++ [v]) r _ (by omega)]
      simp only [List.length_cons]
      by_cases hc : vs.length ≤ n
      · rw [if_pos hc, if_pos (by omega)]
        simp [Nat.add_sub_add_right]
      · rw [if_neg hc, if_neg (by omega)]
        simp

theorem withVals_spec (keys : List (Key I S)) (os : List (Option S)) : withVals keys ((keys.map (·.slice)).map some ++ os) = .ok keys := by
  induction keys with
  | nil => rfl
  | cons k ks ih =>
    simp only [List.map_cons, List.cons_append, withVals, Gradual.assumeInit, R.bind_ok, ih, R.pure_eq]

theorem cloneKeys_spec {M : Nat} {keys : List (Key I S)} (hk : keys.length ≤ 2 * M) (s : CSt I S) :
    cloneKeys M keys s =
      if keys.length ≤ s.left then ({ s with left := s.left - keys.length, made := s.made ++ keys.map (·.slice) }, .ok keys)
      else ({ s with left := 0, made := s.made ++ (keys.map (·.slice)).take s.left, gone := s.gone ++ (keys.map (·.slice)).take s.left },
        .error userPanic) := by
  have h := cloneVals_spec (keys.map (·.slice)) [] (2 * M) s (by simpa using hk)
  simp only [List.length_map, List.map_nil, List.nil_append, List.length_nil] at h
  unfold cloneKeys
  show (cloneVals (keys.map (·.slice)) ⟨List.replicate (2 * M) none, 0⟩ >>= _) s = _
  by_cases hc : keys.length ≤ s.left
  · rw [if_pos hc] at h
    rw [CM.bind_ok h, if_pos hc]
    show (_, withVals keys _) = _
    unfold Gradual.intoUninit
    rw [withVals_spec]
  · rw [if_neg hc] at h
    rw [CM.bind_error h, if_neg hc]

/-! ## `ensure_unique` -/

theorem incrementKids_spec {imax : Nat} (l : List Nat) (s : CSt I S) :
    (∃ H, l.foldlM (fun H q => increment imax H q) s.heap = .ok H ∧ incrementKids imax l s = ({ s with heap := H }, .ok ())) ∨
    ∃ e s', l.foldlM (fun H q => increment imax H q) s.heap = .error e ∧ incrementKids imax l s = (s', .error e) := by
  induction l generalizing s with
  | nil => exact .inl ⟨s.heap, rfl, rfl⟩
  | cons a l ih =>
    unfold incrementKids
    rw [List.foldlM_cons]
    cases h : increment imax s.heap a with
    | error e => exact .inr ⟨e, s, rfl, CM.bind_error (CM.onHeap_error (by simp only [h]; rfl))⟩
    | ok H =>
      rw [CM.bind_ok (CM.onHeap_ok (H := H) (a := ()) (by simp only [h, R.bind_ok]; rfl))]
      simp only [R.bind_ok]
      exact ih { s with heap := H }

/-- The values of a node. -/
abbrev HNode.vals (nd : HNode I S) : List S := nd.keys.map (·.slice)

theorem shallowCloneC_spec {M imax h p : Nat} {s : CSt I S} {nd : HNode I S} (hm : s.heap.mem p = some nd) (hk : nd.keys.length ≤ 2 * M) :
    if nd.keys.length ≤ s.left then
      (∃ H p', shallowClone imax s.heap h p = .ok (H, p') ∧ shallowCloneC M imax h p s =
        ({ s with heap := H, left := s.left - nd.keys.length, made := s.made ++ nd.vals }, .ok p')) ∨
      ∃ e s', shallowClone imax s.heap h p = .error e ∧ shallowCloneC M imax h p s = (s', .error e)
    else shallowCloneC M imax h p s = ({ s with left := 0, made := s.made ++ nd.vals.take s.left, gone := s.gone ++ nd.vals.take s.left },
      .error userPanic) := by
  have hc := cloneKeys_spec hk s
  unfold shallowCloneC shallowClone
  rw [CM.bind_ok (cm_get_ok hm)]
  simp only [get_ok.2 hm, R.bind_ok]
  by_cases hle : nd.keys.length ≤ s.left
  · rw [if_pos hle] at hc ⊢
    rw [CM.bind_ok hc]
    have hf : (if h = 0 then (do
          let H ← (pure s.heap : R (Heap I S))
          pure (H.alloc { nd with count := 1 })) else (do
          let H ← nd.kids.foldlM (fun H q => increment imax H q) s.heap
          pure (H.alloc { nd with count := 1 }))) = (do
        let H ← (if h = 0 then [] else nd.kids).foldlM (fun H q => increment imax H q) s.heap
        (pure (H.alloc { nd with count := 1 }) : R (Heap I S × Nat))) := by
      split <;> rfl
    rw [hf]
    rcases incrementKids_spec (imax := imax) (if h = 0 then [] else nd.kids)
      ({ s with left := s.left - nd.keys.length, made := s.made ++ nd.vals } : CSt I S) with ⟨H, e1, e2⟩ | ⟨e, s', e1, e2⟩
    · left
      dsimp only at e1
      rw [CM.bind_ok e2, e1]
      simp only [R.bind_ok]
      refine ⟨_, _, rfl, ?_⟩
      rw [CM.onHeap_ok (H := (H.alloc { nd with count := 1 }).1) (a := (H.alloc { nd with count := 1 }).2) rfl]
      rfl
    · right
      dsimp only at e1
      rw [CM.bind_error e2, e1]
      exact ⟨e, s', rfl, rfl⟩
  · rw [if_neg hle] at hc ⊢
    exact CM.bind_error hc

/-- What `ensure_unique` does to a shared node. -/
theorem ensureUnique_shared {imax p : Nat} {H H1 : Heap I S} {out : Nat → Nat} (hi : Inv H out) {nd : HNode I S} (hm : H.mem p = some nd)
    (hc : nd.count ≠ 1) {p' : Nat} (e : shallowClone imax H nd.height p = .ok (H1, p')) :
    (dropRef nd.height H1 p = .ok (splitOff H p nd) ∧ p' = H.next) ∧ ensureUnique imax H nd.height p = .ok (splitOff H p nd, H.next) := by
  have hp := hi.lt p nd hm
  have hne : p ≠ H.next := by omega
  have hsc : shallowClone imax H nd.height p = (do
      let H' ← (refsOf (some nd)).foldlM (fun H q => increment imax H q) H
      pure (H'.alloc { nd with count := 1 })) := by
    simp only [shallowClone, get_ok.2 hm, R.bind_ok, refsOf]
    by_cases h0 : nd.height = 0
    · simp [h0]
    · simp [h0]
  have hb0 : (bump H (refsOf (some nd))).mem p = some nd := by
    have := List.count_eq_zero.2 (mem_refs_self hi hm)
    simp [bump, hm, this]
  have hpos := hi.pos p nd hm
  have hd : ∀ H'' : Heap I S, H''.mem p = some nd → dropRef nd.height H'' p = .ok (H''.put p { nd with count := nd.count - 1 }) := by
    intro H'' hm''
    have hu : usub nd.count 1 = .ok (nd.count - 1) := by simp [usub]; omega
    cases hh : nd.height with
    | zero => simp only [dropRef, get_ok.2 hm'', R.bind_ok, hc, if_false, hu, R.pure_eq, hh]
    | succ h => simp only [dropRef, get_ok.2 hm'', R.bind_ok, hc, if_false, hu, R.pure_eq, hh]
  rw [hsc] at e
  rcases incrementAll (imax := imax) (H := H) (l := refsOf (some nd)) (fun q hq => by
    obtain ⟨n, h1, -⟩ := hi.ht p nd hm q hq
    exact ⟨n, h1⟩) with h | h
  · rw [h] at e
    simp only [R.bind_ok, R.pure_eq, Heap.alloc] at e
    cases e
    have key : dropRef nd.height (⟨fun q => if q = (bump H (refsOf (some nd))).next then some { nd with count := 1 } else
        (bump H (refsOf (some nd))).mem q, (bump H (refsOf (some nd))).next + 1⟩ : Heap I S) p = .ok (splitOff H p nd) := by
      rw [hd _ (by dsimp only; rw [if_neg (show p ≠ (bump H (refsOf (some nd))).next from hne)]; exact hb0)]
      rfl
    refine ⟨⟨key, rfl⟩, ?_⟩
    simp only [ensureUnique, get_ok.2 hm, R.bind_ok, hc, if_false, hsc, h, R.pure_eq, Heap.alloc]
    rw [key]; rfl
  · rw [h] at e; cases e

/-- `ensure_unique` does as without panics; or it panics, and nothing has changed. -/
theorem ensureUniqueC_spec {M imax p : Nat} {s : CSt I S} {out : Nat → Nat} (hi : Inv s.heap out) {nd : HNode I S} (hm : s.heap.mem p = some nd)
    (hk : nd.keys.length ≤ 2 * M) :
    (nd.count = 1 ∧ ensureUnique imax s.heap nd.height p = .ok (s.heap, p) ∧ ensureUniqueC M imax nd.height p s = (s, .ok p)) ∨
    (nd.count ≠ 1 ∧ ensureUnique imax s.heap nd.height p = .ok (splitOff s.heap p nd, s.heap.next) ∧ nd.keys.length ≤ s.left ∧
      ensureUniqueC M imax nd.height p s =
        ({ s with heap := splitOff s.heap p nd, left := s.left - nd.keys.length, made := s.made ++ nd.vals }, .ok s.heap.next)) ∨
    (nd.count ≠ 1 ∧ s.left < nd.keys.length ∧ ensureUniqueC M imax nd.height p s =
      ({ s with left := 0, made := s.made ++ nd.vals.take s.left, gone := s.gone ++ nd.vals.take s.left }, .error userPanic)) ∨
    (ensureUnique imax s.heap nd.height p = .error tooMany ∧ ∃ s', ensureUniqueC M imax nd.height p s = (s', .error tooMany)) := by
  have hsp := shallowCloneC_spec (imax := imax) (h := nd.height) hm hk
  unfold ensureUniqueC
  rw [CM.bind_ok (cm_get_ok hm)]
  by_cases hc : nd.count = 1
  · left
    simp only [hc, if_true, ensureUnique, get_ok.2 hm, R.bind_ok, R.pure_eq]
    exact ⟨trivial, trivial, rfl⟩
  · right
    simp only [hc, if_false]
    by_cases hle : nd.keys.length ≤ s.left
    · rw [if_pos hle] at hsp
      rcases hsp with ⟨H, p', e1, e2⟩ | ⟨e, s', e1, e2⟩
      · left
        rw [CM.bind_ok e2]
        obtain ⟨e3, e4⟩ := ensureUnique_shared hi hm hc e1
        refine ⟨hc, e4, hle, ?_⟩
        obtain ⟨f1, f2⟩ := e3
        rw [CM.bind_ok (CM.onHeap_ok (H := splitOff s.heap p nd) (a := ()) (by dsimp only; rw [f1]; rfl)), f2]
        rfl
      · right; right
        rw [CM.bind_error e2]
        have h1 : ensureUnique imax s.heap nd.height p = .error e := by
          simp only [ensureUnique, get_ok.2 hm, R.bind_ok, hc, if_false, e1]; rfl
        rcases ensureUnique_spec (imax := imax) hi hm with ⟨_, _, h2, -⟩ | h2
        · rw [h1] at h2; cases h2
        · rw [h1] at h2; cases h2
          exact ⟨h1, s', rfl⟩
    · rw [if_neg hle] at hsp
      right; left
      exact ⟨hc, by omega, CM.bind_error hsp⟩

/-! ## The way down -/

/-- No node has more than `2 * M` keys or `2 * M + 1` children. -/
def CapT (M : Nat) : {h : Nat} → Tree I S h → Prop
  | 0, _ => True
  | h + 1, n => (Node.keys n).length ≤ 2 * M ∧ (Node.kids n).length ≤ 2 * M + 1 ∧ ∀ c ∈ Node.kids n, CapT M (h := h) c

theorem CapT.alike {M h : Nat} {t t' : Tree I S h} (hc : CapT M t) (e : Alike t t') : CapT M t' := by
  induction h with
  | zero => trivial
  | succ h ih =>
    obtain ⟨e1, e2, e3⟩ := alike_node.1 e
    obtain ⟨h1, h2, h3⟩ := hc
    refine ⟨by rw [← e2]; exact h1, ?_, fun c hc => ?_⟩
    · have := congrArg List.length e3
      simp only [List.length_map] at this
      omega
    · obtain ⟨i, hi⟩ := List.mem_iff_getElem?.1 hc
      obtain ⟨k, g1, g2⟩ := alike_get e3.symm hi
      exact ih (h3 k (List.mem_of_getElem? g1)) g2.symm

/-- All values in memory. -/
def valsIn (H : Heap I S) : List S := (List.range H.next).flatMap (slicesAt H)

theorem slicesAt_same {H H' : Heap I S} {x : Nat} (h : (H'.mem x).map HNode.vals = (H.mem x).map HNode.vals) : slicesAt H' x = slicesAt H x := by
  unfold slicesAt
  cases h1 : H.mem x with
  | none =>
    rw [h1] at h
    cases h2 : H'.mem x with
    | none => rfl
    | some n => rw [h2] at h; cases h
  | some n =>
    rw [h1] at h
    cases h2 : H'.mem x with
    | none => rw [h2] at h; cases h
    | some n' =>
      rw [h2] at h
      simp only [Option.map_some, Option.some.injEq] at h
      exact h

theorem valsIn_splitOff {H : Heap I S} {out : Nat → Nat} (hi : Inv H out) {p : Nat} {nd : HNode I S} (hm : H.mem p = some nd) :
    valsIn (splitOff H p nd) = valsIn H ++ nd.vals := by
  have hp := hi.lt p nd hm
  unfold valsIn
  show (List.range (H.next + 1)).flatMap _ = _
  rw [List.range_succ, List.flatMap_append]
  congr 1
  · refine flatMap_congr' (fun x hx => slicesAt_same ?_)
    rw [List.mem_range] at hx
    by_cases h1 : x = p
    · subst h1; simp [splitOff, hm]
    · have h2 : x ≠ H.next := by omega
      simp only [splitOff, h1, h2, if_false, bump]
      cases H.mem x <;> rfl
  · have h1 : H.next ≠ p := by omega
    simp [slicesAt, splitOff, h1]

theorem valsIn_put {H : Heap I S} {p : Nat} {nd nd' : HNode I S} (hm : H.mem p = some nd) (e : nd'.vals = nd.vals) :
    valsIn (H.put p nd') = valsIn H := by
  unfold valsIn
  refine flatMap_congr' (fun x _ => slicesAt_same ?_)
  by_cases h1 : x = p
  · subst h1; simp [Heap.put, hm, e]
  · simp [Heap.put, h1]

/-- Clones made and values destroyed: each clone is in memory or was destroyed. -/
structure Acc (s s' : CSt I S) (new ds : List S) : Prop where
  root : s'.root = s.root
  made : s'.made = s.made ++ new
  gone : s'.gone = s.gone ++ ds
  vals : (valsIn s'.heap ++ ds).Perm (valsIn s.heap ++ new)
  left : s.left = s'.left + new.length

theorem Acc.refl (s : CSt I S) : Acc s s [] [] := ⟨rfl, by simp, by simp, .refl _, rfl⟩

theorem Acc.trans {a b c : CSt I S} {n1 n2 d1 d2 : List S} (h : Acc a b n1 d1) (g : Acc b c n2 d2) : Acc a c (n1 ++ n2) (d1 ++ d2) := by
  refine ⟨g.root.trans h.root, by rw [g.made, h.made, List.append_assoc], by rw [g.gone, h.gone, List.append_assoc], ?_, ?_⟩
  · have h1 : (valsIn c.heap ++ (d1 ++ d2)).Perm ((valsIn c.heap ++ d2) ++ d1) := by
      rw [List.append_assoc]
      exact List.perm_append_comm.append_left _
    have h2 : ((valsIn b.heap ++ n2) ++ d1).Perm ((valsIn b.heap ++ d1) ++ n2) := by
      rw [List.append_assoc, List.append_assoc]
      exact List.perm_append_comm.append_left _
    refine h1.trans ((g.vals.append_right _).trans (h2.trans ((h.vals.append_right _).trans ?_)))
    rw [List.append_assoc]
  · rw [h.left, g.left, List.length_append]; omega

/-- The way ends in the node `q`. -/
def EndsAt (H : Heap I S) (path : List Nat) (p q : Nat) : Prop := ∃ X, Way H path p X ∧ X.getLast? = some q

theorem unshareDownC_spec {M imax : Nat} {s : CSt I S} {out : Nat → Nat} (hi : Inv s.heap out) {path : List Nat} {h p : Nat} {nd : HNode I S}
    (hm : s.heap.mem p = some nd) (hh : nd.height = h) (hc : nd.count = 1) {t : Tree I S (h + 1)} (ht : readT s.heap (h + 1) p = .ok t)
    (hf : Fits t path) (hcap : CapT M t) :
    (∃ s' q new, unshareDownC M imax path h p s = (s', .ok q) ∧ unshareDown imax path s.heap h p = .ok s'.heap ∧ Acc s s' new [] ∧
      EndsAt s'.heap path p q) ∨
    (∃ s' path' new ds, unshareDownC M imax path h p s = (s', .error userPanic) ∧ path' <+: path ∧ s'.left = 0 ∧
      unshareDown imax path' s.heap h p = .ok s'.heap ∧ Acc s s' new ds) ∨
    (unshareDown imax path s.heap h p = .error tooMany ∧ ∃ s', unshareDownC M imax path h p s = (s', .error tooMany)) := by
  induction path generalizing s h p nd with
  | nil => exact .inl ⟨s, p, [], rfl, rfl, .refl s, [p], ⟨rfl, nd, hm, hc⟩, rfl⟩
  | cons c path ih =>
    have hspec := unshareDown_spec (imax := imax) hi hm hh hc ht hf
    obtain ⟨nd0, ks, r1, r2, rfl⟩ := readT_succ.1 ht
    rw [hm] at r1; cases r1
    obtain ⟨h0, k, f1, f2⟩ := hf
    obtain ⟨q, hcq, hrq⟩ := forall₂_get r2 f1
    have hne : nd.height ≠ 0 := by omega
    obtain ⟨ndq, hq, hhq⟩ := hi.ht p nd hm q (by simp only [refsOf, hne, if_false]; exact List.mem_of_getElem? hcq)
    have hcapk : CapT M k := hcap.2.2 k (List.mem_of_getElem? f1)
    cases h with
    | zero => omega
    | succ h =>
      have eh : ndq.height = h := by omega
      subst eh
      have hkq : ndq.keys.length ≤ 2 * M := by
        obtain ⟨n0, _, g1, _, g2⟩ := readT_succ.1 hrq
        rw [hq] at g1; cases g1
        rw [g2] at hcapk
        exact hcapk.1
      have hcp : CM.onHeap (childPtr p c) s = (s, .ok q) :=
        CM.onHeap_ok (f := childPtr p c) (s := s) (H := s.heap) (a := q) (by simp only [childPtr, get_ok.2 hm, R.bind_ok, hcq, R.pure_eq])
      have go : ∀ (H1 : Heap I S) (q' : Nat) (left : Nat) (new : List S),
          ensureUnique imax s.heap ndq.height q = .ok (H1, q') →
          ensureUniqueC M imax ndq.height q s = ({ s with heap := H1, left := left, made := s.made ++ new }, .ok q') →
          valsIn H1 = valsIn s.heap ++ new → s.left = left + new.length →
          (∃ s' q new, unshareDownC M imax (c :: path) (ndq.height + 1) p s = (s', .ok q) ∧
            unshareDown imax (c :: path) s.heap (ndq.height + 1) p = .ok s'.heap ∧ Acc s s' new [] ∧ EndsAt s'.heap (c :: path) p q) ∨
          (∃ s' path' new ds, unshareDownC M imax (c :: path) (ndq.height + 1) p s = (s', .error userPanic) ∧ path' <+: c :: path ∧ s'.left = 0 ∧
            unshareDown imax path' s.heap (ndq.height + 1) p = .ok s'.heap ∧ Acc s s' new ds) ∨
          (unshareDown imax (c :: path) s.heap (ndq.height + 1) p = .error tooMany ∧
            ∃ s', unshareDownC M imax (c :: path) (ndq.height + 1) p s = (s', .error tooMany)) := by
        intro H1 q' left new e e' hv hl
        rcases ensureUnique_spec (imax := imax) hi hq with ⟨H1', q'', e2, u, -⟩ | e2
        swap
        · rw [e] at e2; cases e2
        rw [e] at e2; cases e2
        obtain ⟨k1, k2, k3, k4, k5, k6⟩ := redirect hi hm hne hcq hq u
        obtain ⟨t', k7, k8⟩ := k6 k hrq
        obtain ⟨nq, nq', g1, g2, g3, g4⟩ := u.new
        rw [hq] at g1; cases g1
        have hmq' : (H1.put p { nd with kids := nd.kids.set c q' }).mem q' = some nq' := by simp [Heap.put, k3, g2]
        have hself : (H1.put p { nd with kids := nd.kids.set c q' }).mem p = some { nd with kids := nd.kids.set c q' } := by simp [Heap.put]
        have hstep : ∀ path' : List Nat, unshareDown imax (c :: path') s.heap (ndq.height + 1) p =
            unshareDown imax path' (H1.put p { nd with kids := nd.kids.set c q' }) ndq.height q' := by
          intro path'
          simp only [unshareDown, get_ok.2 hm, R.bind_ok, hcq, R.pure_eq, Nat.add_sub_cancel, e, get_ok.2 k2]
        have hstepC : unshareDownC M imax (c :: path) (ndq.height + 1) p s =
            unshareDownC M imax path ndq.height q'
              { s with heap := H1.put p { nd with kids := nd.kids.set c q' }, left := left, made := s.made ++ new } := by
          conv_lhs => unfold unshareDownC
          rw [CM.bind_ok hcp]
          simp only [Nat.add_sub_cancel]
          rw [CM.bind_ok e']
          rw [CM.bind_ok (CM.onHeap_ok (f := setChildPtr p c q') (H := H1.put p { nd with kids := nd.kids.set c q' }) (a := ()) (by
            simp only [setChildPtr, get_ok.2 k2, R.bind_ok, R.pure_eq]))]
        have hacc : Acc s { s with heap := H1.put p { nd with kids := nd.kids.set c q' }, left := left, made := s.made ++ new } new [] := by
          refine ⟨rfl, rfl, by simp, ?_, hl⟩
          rw [List.append_nil]
          show (valsIn (H1.put p _)).Perm _
          rw [valsIn_put k2 (nd' := { nd with kids := nd.kids.set c q' }) rfl, hv]
        rcases ih (s := { s with heap := H1.put p { nd with kids := nd.kids.set c q' }, left := left, made := s.made ++ new }) k4 hmq' g3.1.symm g4 k7
          (f2.alike k8) (hcapk.alike k8) with ⟨s', x, new', a1, a2, a3, X, a4, a5⟩ | ⟨s', path', new', ds, a1, a2, a3, a4, a5⟩ | ⟨a1, s', a2⟩
        · left
          refine ⟨s', x, new ++ new', hstepC.trans a1, (hstep path).trans a2, hacc.trans a3, p :: X, ?_, ?_⟩
          · rcases unshareDown_spec (imax := imax) k4 hmq' g3.1.symm g4 k7 (f2.alike k8) with ⟨H', X', e1, e2, e3, e4, e5, e6, e7⟩ | e1
            swap
            · rw [e1] at a2; cases a2
            rw [e1] at a2; cases a2
            refine ⟨{ nd with kids := nd.kids.set c q' }, q', X, ?_, hc, hne, ?_, rfl, a4⟩
            · exact e7 p _ hself (by show ndq.height ≤ nd.height; omega) (Ne.symm k3)
            · have := (List.getElem?_eq_some_iff.1 hcq).1
              simp [this]
          · have hX : X ≠ [] := by rintro rfl; cases a5
            obtain ⟨y, ys, rfl⟩ := List.exists_cons_of_ne_nil hX
            rw [List.getLast?_cons_cons]
            exact a5
        · right; left
          refine ⟨s', c :: path', new ++ new', ds, hstepC.trans a1, ?_, a3, (hstep path').trans a4, by simpa using hacc.trans a5⟩
          exact List.cons_prefix_cons.2 ⟨rfl, a2⟩
        · right; right
          exact ⟨(hstep path).trans a1, s', hstepC.trans a2⟩
      rcases ensureUniqueC_spec (imax := imax) hi hq hkq with ⟨e1, e2, e3⟩ | ⟨e1, e2, e3, e4⟩ | ⟨e1, e2, e3⟩ | ⟨e1, s', e2⟩
      · exact go s.heap q s.left [] e2 (by rw [List.append_nil]; exact e3) (by simp) rfl
      · exact go _ _ _ _ e2 e4 (valsIn_splitOff hi hq) (by simp; omega)
      · right; left
        refine ⟨{ s with left := 0, made := s.made ++ ndq.vals.take s.left, gone := s.gone ++ ndq.vals.take s.left }, [], ndq.vals.take s.left,
          ndq.vals.take s.left, ?_, List.nil_prefix, ?_, ?_, ⟨rfl, rfl, rfl, .refl _, ?_⟩⟩
        · unfold unshareDownC
          rw [CM.bind_ok hcp]
          simp only [Nat.add_sub_cancel]
          exact CM.bind_error e3
        · rfl
        · rfl
        · simp; omega
      · right; right
        refine ⟨?_, s', ?_⟩
        · simp only [unshareDown, get_ok.2 hm, R.bind_ok, hcq, R.pure_eq, Nat.add_sub_cancel, e1]; rfl
        · unfold unshareDownC
          rw [CM.bind_ok hcp]
          simp only [Nat.add_sub_cancel]
          exact CM.bind_error e2

end Sherman.Cow
