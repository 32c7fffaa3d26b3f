import Verif.Destroy
import Verif.CowProps
/-!
# C31: dropping a tree destroys every slice exactly once
-/
namespace Sherman.Cow
variable {I S : Type}

/-! ## Specification -/

/-- Tree variable `i` holds the node `x`: there is a way from the root of the tree to it. -/
inductive Holds (st : St I S) (i : Nat) : Nat → Prop where
  | root {r : CRoot} (h : st.trees[i]? = some (some (some r))) : Holds st i r.p
  | child {p : Nat} {nd : HNode I S} {q : Nat} (h : Holds st i p) (hm : st.heap.mem p = some nd) (h0 : nd.height ≠ 0) (hq : q ∈ nd.kids) :
      Holds st i q

/-- The slices stored in a node. -/
def slicesAt (H : Heap I S) (x : Nat) : List S :=
  match H.mem x with
  | none => []
  | some nd => nd.keys.map (·.slice)

/-! ## What a drop destroys -/

/-- The values of a node that a drop destroys. -/
def kept (hol : Nat → HoleArr) (H : Heap I S) (x : Nat) : List S :=
  match H.mem x with
  | none => []
  | some nd =>
    match dropVals (hol x) (nd.keys.map (·.slice)) with
    | .ok vs => vs
    | .error _ => []

theorem kept_noHoles (H : Heap I S) (x : Nat) : kept noHoles H x = slicesAt H x := by
  unfold kept slicesAt
  cases H.mem x with
  | none => rfl
  | some nd => rfl

theorem kept_less {hol : Nat → HoleArr} {H H' : Heap I S} (l : Less H' H) {x : Nat} (hx : H'.mem x ≠ none) : kept hol H' x = kept hol H x := by
  obtain ⟨nd', h'⟩ := Option.ne_none_iff_exists'.1 hx
  obtain ⟨nd, h, e⟩ := l x nd' h'
  simp only [kept, h, h', e.2.2.1]

/-- What was destroyed between `H` and `H'`. -/
structure GoneOk (hol : Nat → HoleArr) (H H' : Heap I S) (g : Gone S) : Prop where
  less : Less H' H
  mem : ∀ x, x ∈ g.nodes ↔ H.mem x ≠ none ∧ H'.mem x = none
  nodup : g.nodes.Nodup
  vals : g.vals = g.nodes.flatMap (kept hol H)

theorem Less.refl (H : Heap I S) : Less H H := fun _ nd h => ⟨nd, h, .refl _⟩

theorem Less.dead {H H' : Heap I S} (l : Less H' H) {x : Nat} (h : H.mem x = none) : H'.mem x = none := by
  cases h' : H'.mem x with
  | none => rfl
  | some nd' =>
    obtain ⟨nd, h1, -⟩ := l x nd' h'
    rw [h] at h1; cases h1

theorem GoneOk.nil {hol : Nat → HoleArr} {H H' : Heap I S} (l : Less H' H) (h : ∀ x, H'.mem x = none → H.mem x = none) :
    GoneOk hol H H' ⟨[], []⟩ :=
  { less := l
    mem := fun x => by
      constructor
      · intro hx; cases hx
      · rintro ⟨a, b⟩; exact (a (h x b)).elim
    nodup := List.nodup_nil
    vals := rfl }

theorem flatMap_congr' {α β : Type} {f g : α → List β} {l : List α} (h : ∀ x ∈ l, f x = g x) : l.flatMap f = l.flatMap g := by
  induction l with
  | nil => rfl
  | cons a l ih => simp only [List.flatMap_cons]; rw [h a (by simp), ih (fun x hx => h x (by simp [hx]))]

theorem GoneOk.append {hol : Nat → HoleArr} {H H1 H2 : Heap I S} {g g' : Gone S} (a : GoneOk hol H H1 g) (b : GoneOk hol H1 H2 g') :
    GoneOk hol H H2 ⟨g.vals ++ g'.vals, g.nodes ++ g'.nodes⟩ where
  less := b.less.trans a.less
  mem x := by
    rw [List.mem_append, a.mem, b.mem]
    constructor
    · rintro (⟨h1, h2⟩ | ⟨h1, h2⟩)
      · exact ⟨h1, b.less.dead h2⟩
      · exact ⟨fun h => h1 (a.less.dead h), h2⟩
    · rintro ⟨h1, h2⟩
      by_cases h : H1.mem x = none
      · exact .inl ⟨h1, h⟩
      · exact .inr ⟨h, h2⟩
  nodup := List.nodup_append'.2 ⟨a.nodup, b.nodup, fun x hx hx' => by
    rw [a.mem] at hx
    rw [b.mem] at hx'
    exact hx'.1 hx.2⟩
  vals := by
    have e : g'.nodes.flatMap (kept hol H1) = g'.nodes.flatMap (kept hol H) :=
      flatMap_congr' (fun x hx => kept_less a.less ((b.mem x).1 hx).1)
    show g.vals ++ g'.vals = List.flatMap _ (_ ++ _)
    rw [List.flatMap_append, a.vals, b.vals, e]

theorem GoneOk.free {hol : Nat → HoleArr} {H : Heap I S} {p : Nat} {nd : HNode I S} (hm : H.mem p = some nd) {vs : List S}
    (hv : dropVals (hol p) (nd.keys.map (·.slice)) = .ok vs) : GoneOk hol H (H.free p) ⟨vs, [p]⟩ where
  less x nd' h := by
    by_cases hx : x = p
    · simp [Heap.free, hx] at h
    · simp only [Heap.free, hx, if_false] at h
      exact ⟨nd', h, .refl _⟩
  mem x := by
    by_cases hx : x = p
    · subst hx; simp [Heap.free, hm]
    · simp [Heap.free, hx]
  nodup := by simp
  vals := by simp [kept, hm, hv]

theorem GoneOk.keep {hol : Nat → HoleArr} {H : Heap I S} {p : Nat} {nd nd' : HNode I S} (hm : H.mem p = some nd) (e : nd.Same nd') :
    GoneOk hol H (H.put p nd') ⟨[], []⟩ := by
  refine .nil (fun x n h => ?_) (fun x h => ?_)
  · by_cases hx : x = p
    · subst hx
      simp only [Heap.put, if_true, Option.some.injEq] at h
      subst h
      exact ⟨nd, hm, e⟩
    · simp only [Heap.put, hx, if_false] at h
      exact ⟨n, h, .refl _⟩
  · by_cases hx : x = p
    · simp [Heap.put, hx] at h
    · simpa [Heap.put, hx] using h

theorem dropKids_gone {hol : Nat → HoleArr} {f : Heap I S → Nat → R (Heap I S × Gone S)} {l : List Nat} {H H' : Heap I S} {g : Gone S}
    (hf : ∀ H q H' g, f H q = .ok (H', g) → GoneOk hol H H' g) (h : dropKids f H l = .ok (H', g)) : GoneOk hol H H' g := by
  induction l generalizing H g with
  | nil => cases h; exact .nil (.refl _) (fun _ h => h)
  | cons q l ih =>
    simp only [dropKids, bind_ok_iff] at h
    obtain ⟨⟨H1, g1⟩, h1, ⟨H2, g2⟩, h2, h3⟩ := h
    cases h3
    exact (hf _ _ _ _ h1).append (ih h2)

theorem dropLog_gone {hol : Nat → HoleArr} {h : Nat} : ∀ {H H' : Heap I S} {p : Nat} {g : Gone S}, dropLog hol h H p = .ok (H', g) →
    GoneOk hol H H' g := by
  induction h with
  | zero =>
    intro H H' p g h
    simp only [dropLog, bind_ok_iff] at h
    obtain ⟨nd, h1, h⟩ := h
    have hm := get_ok.1 h1
    split at h
    · simp only [bind_ok_iff] at h
      obtain ⟨vs, h2, h⟩ := h
      cases h
      exact .free hm h2
    · simp only [bind_ok_iff] at h
      obtain ⟨c, h2, h⟩ := h
      cases h
      exact .keep hm ⟨rfl, rfl, rfl, rfl⟩
  | succ h ih =>
    intro H H' p g h
    simp only [dropLog, bind_ok_iff] at h
    obtain ⟨nd, h1, h⟩ := h
    have hm := get_ok.1 h1
    split at h
    · simp only [bind_ok_iff] at h
      obtain ⟨vs, h2, ⟨H1, g1⟩, h3, h⟩ := h
      cases h
      exact (GoneOk.free hm h2).append (dropKids_gone (fun _ _ _ _ h => ih h) h3)
    · simp only [bind_ok_iff] at h
      obtain ⟨c, h2, h⟩ := h
      cases h
      exact .keep hm ⟨rfl, rfl, rfl, rfl⟩

/-- The holes of each node are in a state that `do_drop` accepts. -/
def HolesFit (hol : Nat → HoleArr) (H : Heap I S) : Prop :=
  ∀ p nd, H.mem p = some nd → ∃ vs, dropVals (hol p) (nd.keys.map (·.slice)) = .ok vs

theorem HolesFit.less {hol : Nat → HoleArr} {H H' : Heap I S} (a : HolesFit hol H) (l : Less H' H) : HolesFit hol H' := by
  intro p nd' h'
  obtain ⟨nd, h, e⟩ := l p nd' h'
  rw [← e.2.2.1]
  exact a p nd h

theorem noHoles_fit (H : Heap I S) : HolesFit noHoles H := fun _ _ _ => ⟨_, rfl⟩

theorem dropLog_of_dropRef {hol : Nat → HoleArr} {h : Nat} : ∀ {H H' : Heap I S} {p : Nat}, HolesFit hol H → dropRef h H p = .ok H' →
    ∃ g, dropLog hol h H p = .ok (H', g) := by
  induction h with
  | zero =>
    intro H H' p a h
    simp only [dropRef, bind_ok_iff] at h
    obtain ⟨nd, h1, h⟩ := h
    have hm := get_ok.1 h1
    simp only [dropLog, h1, R.bind_ok]
    split at h
    · rename_i hc
      cases h
      obtain ⟨vs, hv⟩ := a p nd hm
      exact ⟨⟨vs, [p]⟩, by simp [hc, hv]⟩
    · rename_i hc
      simp only [bind_ok_iff] at h
      obtain ⟨c, h2, h⟩ := h
      cases h
      exact ⟨⟨[], []⟩, by simp [hc, h2]⟩
  | succ h ih =>
    intro H H' p a hd
    simp only [dropRef, bind_ok_iff] at hd
    obtain ⟨nd, h1, hd⟩ := hd
    have hm := get_ok.1 h1
    simp only [dropLog, h1, R.bind_ok]
    split at hd
    · rename_i hc
      obtain ⟨vs, hv⟩ := a p nd hm
      have key : ∀ (l : List Nat) (H : Heap I S), HolesFit hol H → l.foldlM (fun H q => dropRef h H q) H = .ok H' →
          ∃ g, dropKids (dropLog hol h) H l = .ok (H', g) := by
        intro l
        induction l with
        | nil => intro H _ h; cases h; exact ⟨_, rfl⟩
        | cons q l ihl =>
          intro H a h
          simp only [List.foldlM_cons, bind_ok_iff] at h
          obtain ⟨H1, k1, k2⟩ := h
          obtain ⟨g1, e1⟩ := ih a k1
          obtain ⟨g2, e2⟩ := ihl H1 (a.less (dropLog_gone e1).less) k2
          exact ⟨⟨g1.vals ++ g2.vals, g1.nodes ++ g2.nodes⟩, by simp [dropKids, e1, e2]⟩
      obtain ⟨g, e⟩ := key nd.kids (H.free p) (a.less (GoneOk.free hm hv).less) hd
      exact ⟨⟨vs ++ g.vals, p :: g.nodes⟩, by simp [hc, hv, e]⟩
    · rename_i hc
      simp only [bind_ok_iff] at hd
      obtain ⟨c, h2, hd⟩ := hd
      cases hd
      exact ⟨⟨[], []⟩, by simp [hc, h2]⟩

/-- Dropping a tree variable, with a record of what is destroyed. -/
theorem St.dropLog_ok {hol : Nat → HoleArr} {st st' : St I S} {i : Nat} (a : HolesFit hol st.heap) (h : st.drop i = .ok st') :
    ∃ g, st.dropLog hol i = .ok (st', g) ∧ GoneOk hol st.heap st'.heap g := by
  simp only [St.drop, bind_ok_iff] at h
  obtain ⟨o, h1, h⟩ := h
  cases o with
  | none =>
    cases h
    exact ⟨⟨[], []⟩, by simp [St.dropLog, h1], .nil (.refl _) (fun _ h => h)⟩
  | some r =>
    simp only [bind_ok_iff] at h
    obtain ⟨H', h2, h⟩ := h
    cases h
    obtain ⟨g, e⟩ := dropLog_of_dropRef a h2
    exact ⟨g, by simp [St.dropLog, h1, e], dropLog_gone e⟩

/-! ## Which nodes are in memory -/

theorem rootW_pos {v : Option (Option CRoot)} {x : Nat} (h : 0 < rootW v x) : ∃ r, v = some (some r) ∧ r.p = x := by
  unfold rootW at h
  split at h
  · rename_i r
    refine ⟨r, rfl, ?_⟩
    split at h
    · rename_i e; exact e.symm
    · omega
  · omega

theorem held_pos {ts : List (Option (Option CRoot))} {x : Nat} (h : 0 < held ts x) : ∃ (i : Nat) (r : CRoot), ts[i]? = some (some (some r)) ∧ r.p = x := by
  induction ts with
  | nil => simp [held] at h
  | cons a ts ih =>
    simp only [held, List.map_cons, List.sum_cons] at h
    by_cases ha : 0 < rootW a x
    · obtain ⟨r, rfl, hr⟩ := rootW_pos ha
      exact ⟨0, r, rfl, hr⟩
    · obtain ⟨i, r, h1, h2⟩ := ih (by unfold held; omega)
      exact ⟨i + 1, r, by simpa using h1, h2⟩

theorem Holds.alive {st : St I S} (ok : st.Ok) {i x : Nat} (h : Holds st i x) : ∃ nd, st.heap.mem x = some nd := by
  cases h with
  | root h =>
    obtain ⟨nd, h1, -⟩ := ok.root i _ h
    exact ⟨nd, h1⟩
  | child h hm h0 hq =>
    obtain ⟨nd', h1, -⟩ := ok.inv.ht _ _ hm x (by simp [refsOf, h0, hq])
    exact ⟨nd', h1⟩

/-- A node is in memory exactly if some tree holds it: nothing leaks, nothing is freed too early. -/
theorem alive_iff {st : St I S} (ok : st.Ok) {x : Nat} : (∃ nd, st.heap.mem x = some nd) ↔ ∃ i, Holds st i x := by
  constructor
  swap
  · rintro ⟨i, h⟩; exact h.alive ok
  rintro ⟨nd, hm⟩
  -- otherwise some node of maximal height is held by nobody
  by_contra hno
  classical
  have hB : ((Finset.range st.heap.next).filter (fun y => (st.heap.mem y).isSome = true ∧ ¬ ∃ i, Holds st i y)).Nonempty :=
    ⟨x, by simp only [Finset.mem_filter, Finset.mem_range]; exact ⟨ok.inv.lt x nd hm, by simp [hm], hno⟩⟩
  obtain ⟨y, hy, hmax⟩ := Finset.exists_max_image _ (fun y => match st.heap.mem y with | some n => n.height | none => 0) hB
  simp only [Finset.mem_filter, Finset.mem_range, Option.isSome_iff_exists] at hy hmax
  obtain ⟨hy1, ⟨n, hy2⟩, hy3⟩ := hy
  have hc := ok.inv.cnt y
  have hp := ok.inv.pos y n hy2
  rw [cnt_some hy2] at hc
  by_cases ho : 0 < held st.trees y
  · obtain ⟨i, r, h1, h2⟩ := held_pos ho
    exact hy3 ⟨i, h2 ▸ .root h1⟩
  · have hr : refsIn st.heap y ≠ 0 := by omega
    obtain ⟨z, hz1, hz2⟩ := Finset.exists_ne_zero_of_sum_ne_zero hr
    cases hz : st.heap.mem z with
    | none => rw [hz] at hz2; exact hz2 rfl
    | some nz =>
      rw [hz] at hz2
      have hmem : y ∈ refsOf (some nz) := List.count_pos_iff.1 (Nat.pos_of_ne_zero hz2)
      obtain ⟨ny, g1, g2⟩ := ok.inv.ht z nz hz y hmem
      rw [hy2] at g1; cases g1
      have h0 : nz.height ≠ 0 := by omega
      have hk : y ∈ nz.kids := by simpa [refsOf, h0] using hmem
      have hzno : ¬ ∃ i, Holds st i z := fun ⟨i, hi⟩ => hy3 ⟨i, .child hi hz h0 hk⟩
      have := hmax z ⟨ok.inv.lt z nz hz, ⟨nz, hz⟩, hzno⟩
      rw [hz, hy2] at this
      simp only at this
      omega

/-- A drop of tree `i` does not change what the other trees hold. -/
theorem holds_drop {st st' : St I S} (ok' : st'.Ok) {i : Nat} (ht : st'.trees = st.trees.set i none)
    (hl : Less st'.heap st.heap) {j : Nat} (hji : j ≠ i) {x : Nat} : Holds st' j x ↔ Holds st j x := by
  constructor
  · intro h
    induction h with
    | root h =>
      rw [ht, List.getElem?_set_ne (Ne.symm hji)] at h
      exact .root h
    | child _ hm h0 hq ih =>
      obtain ⟨nd, h1, h2⟩ := hl _ _ hm
      exact .child ih h1 (by rw [h2.1]; exact h0) (by rw [h2.2.2.2]; exact hq)
  · intro h
    induction h with
    | root h => exact .root (by rw [ht, List.getElem?_set_ne (Ne.symm hji)]; exact h)
    | child _ hm h0 hq ih =>
      obtain ⟨nd', h1⟩ := ih.alive ok'
      obtain ⟨nd, h2, h3⟩ := hl _ _ h1
      rw [hm] at h2; cases h2
      exact .child ih h1 (by rw [← h3.1]; exact h0) (by rw [← h3.2.2.2]; exact hq)

theorem not_holds_dropped {st' : St I S} {i : Nat} (h : st'.trees[i]? = some none) {x : Nat} : ¬ Holds st' i x := by
  intro hh
  induction hh with
  | root h' => rw [h] at h'; cases h'
  | child _ _ _ _ ih => exact ih

/-- The nodes freed when tree `i` is dropped: those that only this tree holds. -/
theorem drop_nodes {hol : Nat → HoleArr} {st st' : St I S} (ok : st.Ok) (ok' : st'.Ok) {i : Nat} {g : Gone S} (hi : i < st.trees.length)
    (ht : st'.trees = st.trees.set i none) (hg : GoneOk hol st.heap st'.heap g) (x : Nat) :
    x ∈ g.nodes ↔ Holds st i x ∧ ∀ j, j ≠ i → ¬ Holds st j x := by
  rw [hg.mem]
  have e1 : st.heap.mem x ≠ none ↔ ∃ j, Holds st j x := by rw [← alive_iff ok]; exact Option.ne_none_iff_exists'
  have e2 : st'.heap.mem x = none ↔ ¬ ∃ j, Holds st' j x := by
    rw [← alive_iff ok', ← Option.ne_none_iff_exists', not_not]
  rw [e1, e2]
  have hn : ¬ Holds st' i x := not_holds_dropped (by rw [ht]; exact List.getElem?_set_self hi)
  constructor
  · rintro ⟨⟨j, hj⟩, h2⟩
    have h3 : ∀ j, j ≠ i → ¬ Holds st j x := fun j hji hh => h2 ⟨j, (holds_drop ok' ht hg.less hji).2 hh⟩
    by_cases hji : j = i
    · subst hji; exact ⟨hj, h3⟩
    · exact (h3 j hji hj).elim
  · rintro ⟨h1, h2⟩
    refine ⟨⟨i, h1⟩, ?_⟩
    rintro ⟨j, hj⟩
    by_cases hji : j = i
    · subst hji; exact hn hj
    · exact h2 j hji ((holds_drop ok' ht hg.less hji).1 hj)

/-! ## Unshared trees: every slice of the tree, and nothing else -/

/-- The slices of a tree: those of a node, then those of its children. -/
def slicesT : {h : Nat} → Tree I S h → List S
  | 0, _ => []
  | h + 1, n => (Node.keys n).map (·.slice) ++ (Node.kids n).flatMap (slicesT (h := h))

theorem slicesK_perm {C : Type} {size : Nat} {sz : C → Nat} {rc : C → List (Ent S)} {kids : List C} {keys : List (Key Nat S)}
    (hl : kids.length = keys.length + 1) :
    ((runsK size sz rc kids keys).map (·.slice)).Perm (keys.map (·.slice) ++ kids.flatMap (fun c => (rc c).map (·.slice))) := by
  induction kids generalizing keys with
  | nil => simp at hl
  | cons c cs ih =>
    cases keys with
    | nil =>
      obtain rfl : cs = [] := by simpa using hl
      simp [runsK]
    | cons k ks =>
      have h := ih (keys := ks) (by simpa using hl)
      simp only [runsK, List.map_append, List.map_cons, List.flatMap_cons, List.cons_append]
      refine List.perm_middle.trans (List.Perm.cons _ ?_)
      refine (List.Perm.append_left _ h).trans ?_
      rw [← List.append_assoc, ← List.append_assoc]
      exact List.Perm.append_right _ List.perm_append_comm

theorem slicesT_perm {M lo h : Nat} {t : Tree Nat S h} (hs : ShapeT M lo t) : ((runsT t).map (·.slice)).Perm (slicesT t) := by
  induction h generalizing lo with
  | zero => exact .refl _
  | succ h ih =>
    obtain ⟨-, -, h1, h2⟩ := hs
    refine (slicesK_perm (S := S) h1).trans (List.Perm.append_left _ ?_)
    have key : ∀ l : List (Tree Nat S h), (∀ c ∈ l, ShapeT M M c) →
        (l.flatMap (fun c => (runsT c).map (·.slice))).Perm (l.flatMap (slicesT (h := h))) := by
      intro l hl
      induction l with
      | nil => exact .refl _
      | cons c l ihl =>
        simp only [List.flatMap_cons]
        exact (ih (hl c (by simp))).append (ihl (fun c hc => hl c (by simp [hc])))
    exact key _ h2

theorem dropLog_uno {h : Nat} : ∀ {H H' : Heap I S} {out out' : Nat → Nat} {p : Nat} {nd : HNode I S} {t : Tree I S (h + 1)} {g : Gone S},
    Inv H out → Uno H → H.mem p = some nd → nd.height = h → (∀ x, out' x + (if x = p then 1 else 0) = out x) →
    readT H (h + 1) p = .ok t → dropLog noHoles h H p = .ok (H', g) → g.vals = slicesT t := by
  induction h with
  | zero =>
    intro H H' out out' p nd t g hi u hm hh ho ht hd
    simp only [readT, get_ok.2 hm, R.bind_ok, bind_ok_iff] at ht
    obtain ⟨kids, -, ht⟩ := ht
    cases ht
    simp only [dropLog, get_ok.2 hm, R.bind_ok, u p nd hm, if_true] at hd
    cases hd
    have e : kids.flatMap (slicesT (I := I) (S := S) (h := 0)) = [] := by simp [slicesT]
    show _ = _ ++ kids.flatMap _
    rw [e, List.append_nil]
  | succ h ih =>
    intro H H' out out' p nd t g hi u hm hh ho ht hd
    rw [readT] at ht
    simp only [get_ok.2 hm, R.bind_ok, bind_ok_iff] at ht
    obtain ⟨kids, hk, ht⟩ := ht
    cases ht
    simp only [dropLog, get_ok.2 hm, R.bind_ok, u p nd hm, if_true, bind_ok_iff] at hd
    obtain ⟨vs, hv, ⟨H1, g1⟩, hd, he⟩ := hd
    cases he
    cases hv
    obtain ⟨k1, k2⟩ := drop_last hi hm (u p nd hm) ho
    have f1 : refsOf (some nd) = nd.kids := by simp [refsOf, hh]
    rw [f1] at k1
    have key : ∀ (l : List Nat) (ts : List (Tree I S (h + 1))) (H0 H' : Heap I S) (out : Nat → Nat) (g : Gone S), Inv H0 out → Uno H0 →
        (∀ x, out' x + l.count x = out x) → (∀ q ∈ l, ∀ nd, H0.mem q = some nd → nd.height = h) →
        List.Forall₂ (fun q t => readT H0 (h + 1) q = .ok t) l ts → dropKids (dropLog noHoles h) H0 l = .ok (H', g) →
        g.vals = ts.flatMap slicesT := by
      intro l
      induction l with
      | nil => intro ts H0 H' out g _ _ _ _ hf hd; cases hf; cases hd; rfl
      | cons q l ihl =>
        intro ts H0 H' out g hi u ho hl hf hd
        cases hf with
        | cons hq hf =>
        rename_i t ts
        simp only [dropKids, bind_ok_iff] at hd
        obtain ⟨⟨H1, g1⟩, d1, ⟨H2, g2⟩, d2, he⟩ := hd
        cases he
        have hq0 : 0 < out q := by
          have := ho q
          simp only [List.count_cons_self] at this
          omega
        obtain ⟨nq, hmq⟩ := hi.alive hq0
        have ho1 : ∀ x, (fun x => out' x + l.count x) x + (if x = q then 1 else 0) = out x := fun x => by
          have := ho x
          rw [List.count_cons] at this
          have e : (if (q == x) = true then 1 else 0) = (if x = q then 1 else 0) := by
            by_cases hx : x = q
            · rw [if_pos hx, if_pos (by simp [hx])]
            · rw [if_neg hx, if_neg (by simpa using Ne.symm hx)]
          rw [e] at this
          simp only
          omega
        have hht := hl q (by simp) nq hmq
        have e1 := ih hi u hmq hht ho1 hq d1
        obtain ⟨H1', c1, c2, -, c4⟩ := dropRef_spec (h := h) H0 out _ q nq hi hmq hht ho1
        have d1' : dropRef h H0 q = .ok H1 := by
          obtain ⟨g', e'⟩ := dropLog_of_dropRef (noHoles_fit H0) c1
          rw [d1] at e'
          cases e'
          exact c1
        rw [d1'] at c1; cases c1
        have e2 := ihl ts H1 _ _ g2 c2 (dropRef_uno u d1') (fun x => rfl) (fun q' hq' n hn => by
          obtain ⟨n0, a1, a2⟩ := c4 q' n hn
          rw [← a2.1]
          exact hl q' (by simp [hq']) n0 a1) (by
          rw [List.forall₂_iff_get] at hf ⊢
          refine ⟨hf.1, fun i h1 h2 => ?_⟩
          have hr := hf.2 i h1 h2
          have hmem : l.get ⟨i, h1⟩ ∈ l := List.get_mem _ _
          have hpos : 0 < out' (l.get ⟨i, h1⟩) + l.count (l.get ⟨i, h1⟩) := by
            have := List.count_pos_iff.2 hmem
            omega
          obtain ⟨n1, b1⟩ := c2.alive hpos
          obtain ⟨n0, a1, a2⟩ := c4 _ n1 b1
          exact read_less hi c2 c4 b1 (by rw [← a2.1]; exact hl _ (by simp [hmem]) n0 a1) hr) d2
        show g1.vals ++ g2.vals = _
        rw [List.flatMap_cons, e1, e2]
    have e := key nd.kids kids (H.free p) _ _ g1 k1 (free_uno u p) (fun x => rfl) (fun q hq n hn => by
      obtain ⟨n0, e1, e2⟩ := k2 q n hn
      obtain ⟨n1, e3, e4⟩ := hi.ht p nd hm q (by rw [f1]; exact hq)
      rw [e1] at e3; cases e3
      rw [← e2.1]; omega) (by
      rw [mapM_ok, List.forall₂_iff_get] at hk
      rw [List.forall₂_iff_get]
      refine ⟨hk.1, fun i h1 h2 => ?_⟩
      have hr := hk.2 i h1 h2
      have hmem : nd.kids.get ⟨i, h1⟩ ∈ nd.kids := List.get_mem _ _
      have hpos : 0 < out' (nd.kids.get ⟨i, h1⟩) + nd.kids.count (nd.kids.get ⟨i, h1⟩) := by
        have := List.count_pos_iff.2 hmem
        omega
      obtain ⟨n1, b1⟩ := k1.alive hpos
      obtain ⟨n0, a1, a2⟩ := k2 _ n1 b1
      obtain ⟨n2, e3, e4⟩ := hi.ht p nd hm _ (by rw [f1]; exact hmem)
      rw [a1] at e3; cases e3
      exact read_less hi k1 k2 b1 (by rw [← a2.1]; omega) hr) hd
    show _ ++ g1.vals = _ ++ kids.flatMap _
    rw [e]

/-! ## C31 -/

/-- C31 (and C24): when a tree is dropped, whatever the program did before, each node that only this tree holds is freed, once, and no
other; the destructor of each slice in a freed node runs, once, and no other.  Without sharing these are exactly the slices of
the tree. -/
theorem drop_destroys_once {MAX imax : Nat} {E : Env Nat S} (hE : E.ix = natIdx MAX) (hM : 1 ≤ E.M) (hM' : E.M ≤ 127) {cow : Bool}
    {ops : List (Op Nat S)} (hops : ∀ op ∈ ops, op.fits MAX) {st : St Nat S} (h : St.run E imax cow St.init ops = .ok st)
    {i : Nat} {es : List (Ent S)} (hi : runsOf st i = .ok es) :
    ∃ st' g, st.step E imax cow (.drop i) = .ok st' ∧ st.dropLog noHoles i = .ok (st', g) ∧
      g.nodes.Nodup ∧ (∀ x, x ∈ g.nodes ↔ Holds st i x ∧ ∀ j, j ≠ i → ¬ Holds st j x) ∧
      g.vals = g.nodes.flatMap (slicesAt st.heap) ∧
      (cow = false → g.vals.Perm (es.map (·.slice))) := by
  obtain ⟨ss, -, h2⟩ := run_sound hE hM hM' hops h
  simp only [runsOf, bind_ok_iff] at hi
  obtain ⟨t, hv, hi⟩ := hi
  cases hi
  obtain ⟨o, ho⟩ := view_tree hv
  obtain ⟨st', e, ok', htr, hl, -⟩ := drop_step h2.ok ho
  obtain ⟨g, e', hg⟩ := St.dropLog_ok (noHoles_fit _) e
  refine ⟨st', g, e, e', hg.nodup, drop_nodes h2.ok ok' (lt_of_get ho) htr hg, ?_, fun hc => ?_⟩
  · rw [hg.vals]
    exact flatMap_congr' (fun x _ => kept_noHoles _ _)
  · subst hc
    have u : Uno st.heap := fun x nd hx => plain_unshared h hx
    rcases St.view_cases hv with ⟨hn, rfl⟩ | ⟨r, t0, hn, ht0, rfl⟩
    · simp only [St.dropLog, St.tree_ok.2 hn, R.bind_ok] at e'
      cases e'
      exact .refl _
    · have hss : ∃ es, ss[i]? = some (some es) := by
        by_contra hc
        exact h2.noTree (fun es he => hc ⟨es, he⟩) _ hn
      obtain ⟨es, hes⟩ := hss
      obtain ⟨t', hv', hr, -⟩ := h2.view i es hes
      rw [hv] at hv'; cases hv'
      obtain ⟨nd, hm, hht⟩ := h2.ok.root i r hn
      simp only [St.dropLog, St.tree_ok.2 hn, R.bind_ok, bind_ok_iff] at e'
      obtain ⟨⟨H', g'⟩, d, e'⟩ := e'
      cases e'
      rw [dropLog_uno (out' := held (st.trees.set i none)) h2.ok.inv u hm hht (fun x => by
        have := held_set hn none x
        simpa [rootW] using this) ht0 d]
      exact (slicesT_perm (shape hE hr rfl)).symm

/-- C24, C31: at any time the nodes in memory are those that some tree holds. -/
theorem memory_is_held {MAX imax : Nat} {E : Env Nat S} (hE : E.ix = natIdx MAX) (hM : 1 ≤ E.M) (hM' : E.M ≤ 127) {cow : Bool}
    {ops : List (Op Nat S)} (hops : ∀ op ∈ ops, op.fits MAX) {st : St Nat S} (h : St.run E imax cow St.init ops = .ok st) (x : Nat) :
    st.heap.mem x ≠ none ↔ ∃ i, Holds st i x := by
  obtain ⟨ss, -, h2⟩ := run_sound hE hM hM' hops h
  rw [← alive_iff h2.ok]
  exact Option.ne_none_iff_exists'

/-- Drops in the example program, when trees 0, 1 and 2 exist: tree 1 still shares all its nodes with tree 2 if copy-on-write is used, tree 0 only
some; without copy-on-write tree 1 takes all of its slices along. -/
example : ((St.run exEnv 1000 true St.init (exProg.take 11)).bind (fun st => st.dropLog noHoles 1)).map (fun r => (r.2.vals, r.2.nodes)) =
      .ok ([], []) ∧
    ((St.run exEnv 1000 true St.init (exProg.take 11)).bind (fun st => st.dropLog noHoles 0)).map (fun r => (r.2.vals, r.2.nodes)) =
      .ok (['d', 'b', 'c', 'f', 'e', 'y'], [9, 2, 1, 8, 6, 7]) ∧
    ((St.run exEnv 1000 false St.init (exProg.take 11)).bind (fun st => st.dropLog noHoles 1)).map (fun r => (r.2.vals, r.2.nodes)) =
      .ok (['b', 'd', 'a', 'x', 'c', 'e', 'f'], [7, 4, 5, 6]) := by decide +kernel

end Sherman.Cow
