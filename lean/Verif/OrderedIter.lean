import Verif.OrderedProps
import Verif.FinUseIter
import Verif.IterProps
/-!
# C53: iteration in trees over any ordered index type
-/
set_option linter.unusedSectionVars false

namespace Sherman
variable {I J S G : Type}

/-! ## Specification -/

/-- The ends of a range. -/
def rngEnds (r : Range.Rng I) : List I :=
  (match r.start with | .included x => [x] | .unbounded => []) ++
    (match r.stop with | .included x => [x] | .excluded x => [x] | .unbounded => [])

section
variable [Zero G] [Add G] [LE G] [LT G] [DecidableLT G] [DecidableLE G]

/-- The runs of a list that starts at `o`, with where they start and end. -/
def gEntries : G → List (GRun G S) → List (G × G × S)
  | _, [] => []
  | o, e :: es => (o, o + e.size, e.slice) :: gEntries (o + e.size) es

/-- The range does not end before the run starts and does not start at or after the end of the run. -/
def gTouches (r : Range.Rng G) (x : G × G × S) : Bool :=
  (match r.start with
    | .included a => decide (a < x.2.1)
    | .unbounded => true) &&
  (match r.stop with
    | .included b => decide (x.1 ≤ b)
    | .excluded b => decide (x.1 < b)
    | .unbounded => true)

/-- The ranges that may be iterated over in a tree of a given size: they do not start after they end, they start before the
end of the tree and they do not end after it. -/
def gWithin (size : G) (r : Range.Rng G) : Prop :=
  (match r.start, r.stop with
    | .included x, .included y => x ≤ y
    | .included x, .excluded y => x < y
    | _, _ => True) ∧
  (match r.start with
    | .included x => x < size
    | .unbounded => True) ∧
  (match r.stop with
    | .included y => y < size
    | .excluded y => y ≤ size
    | .unbounded => True)

end

/-- For a range that may be iterated over, the runs that touch it are those with a position in it. -/
theorem gTouches_iff [LinearOrder G] {size : G} {r : Range.Rng G} (hr : gWithin size r) {x : G × G × S}
    (hx : x.1 < x.2.1) : gTouches r x = true ↔ ∃ q, x.1 ≤ q ∧ q < x.2.1 ∧ Range.contains r q = true := by
  obtain ⟨s, t⟩ := r
  obtain ⟨h1, _, _⟩ := hr
  cases s with
  | unbounded =>
    cases t <;> simp only [gTouches, Range.contains, Bool.true_and, decide_eq_true_eq]
    · exact ⟨fun h => ⟨x.1, le_refl _, hx, h⟩, fun ⟨q, g1, g2, g3⟩ => le_trans g1 g3⟩
    · exact ⟨fun h => ⟨x.1, le_refl _, hx, h⟩, fun ⟨q, g1, g2, g3⟩ => lt_of_le_of_lt g1 g3⟩
    · exact ⟨fun h => ⟨x.1, le_refl _, hx, trivial⟩, fun _ => trivial⟩
  | included a =>
    cases t <;> simp only [gTouches, Range.contains, Bool.and_true, Bool.and_eq_true, decide_eq_true_eq] at h1 ⊢
    · exact ⟨fun h => ⟨max x.1 a, le_max_left _ _, max_lt hx h.1, le_max_right _ _, max_le h.2 h1⟩,
        fun ⟨q, g1, g2, g3, g4⟩ => ⟨lt_of_le_of_lt g3 g2, le_trans g1 g4⟩⟩
    · exact ⟨fun h => ⟨max x.1 a, le_max_left _ _, max_lt hx h.1, le_max_right _ _, max_lt h.2 h1⟩,
        fun ⟨q, g1, g2, g3, g4⟩ => ⟨lt_of_le_of_lt g3 g2, lt_of_le_of_lt g1 g4⟩⟩
    · exact ⟨fun h => ⟨max x.1 a, le_max_left _ _, max_lt hx h, le_max_right _ _⟩,
        fun ⟨q, g1, g2, g3⟩ => lt_of_le_of_lt g3 g2⟩

theorem validRange_within {n : Nat} {r : Range.Rng Nat} (h : ValidRange n r) : gWithin n r := by
  obtain ⟨s, d⟩ := r
  cases s <;> cases d <;> exact h

/-- The nodes that a history allocates are given addresses that are not in use: `next` is the first free address. -/
def freshOps (E : Env I S) : RleTree I S → List (GOp I S) → Bool
  | _, [] => true
  | t, o :: os => o.world.log.isEmpty && decide (∀ p ∈ t.P, p < o.world.next) &&
      match t.insert E o.nop o.hints o.idx o.slice o.size o.world with
      | .ok x => freshOps E x.1 os
      | .error _ => true

/-- Then the nodes of the tree have different addresses. -/
theorem fresh_nodup {E : Env I S} {ops : List (GOp I S)} (hf : freshOps E ⟨none⟩ ops = true) {t : RleTree I S}
    (h : gInsertAll E ⟨none⟩ ops = .ok t) : t.P.Nodup := by
  have key : ∀ {t0 : RleTree I S} {σ : Store} {w : World}, freshOps E t0 ops = true → gInsertAll E t0 ops = .ok t →
      Own σ w t0.P t0.H 0 → t.P.Nodup := by
    clear hf h
    induction ops with
    | nil =>
      intro t0 σ w _ h ho
      cases h
      exact ho.addrs
    | cons o os ih =>
      intro t0 σ w hf h ho
      simp only [gInsertAll] at h
      obtain ⟨x, h1, h2⟩ := R.bind_eq_ok.1 h
      simp only [freshOps, h1, Bool.and_eq_true, List.isEmpty_iff, decide_eq_true_eq] at hf
      obtain ⟨⟨f1, f2⟩, f3⟩ := hf
      obtain ⟨σ1, r1, r2, r3⟩ := ho.run
      have ho1 : Own σ1 o.world (t0.P + 0) (t0.H + 0) 0 := by
        rw [add_zero, add_zero]
        have hl : runLog σ1 o.world.log = .ok σ1 := by rw [f1]; rfl
        refine ⟨⟨σ1, hl, r2, r3⟩, ho.ids, ho.addrs, f2, ?_⟩
        intro σ2 h3 r hh h4
        rw [hl] at h3
        cases h3
        exact ho.keep σ1 r1 r hh h4
      have ho2 := Own.insert h1 ho1
      rw [add_zero, add_zero] at ho2
      exact ih f3 h2 ho2
  refine key (σ := fun _ => none) (w := ⟨0, [], [], none, []⟩) hf h ⟨⟨_, rfl, ?_, ?_⟩, ?_, ?_, ?_, ?_⟩
  · intro x hx
    simp [RleTree.H] at hx
  · simp
  · simp [RleTree.H]
  · simp [RleTree.P]
  · simp [RleTree.P]
  · intro σ h r hh h1
    cases h
    cases h1

/-! ## Observation -/

/-- Insert, then iterate: the addresses of the nodes, and what the calls return. -/
def gSeeI [LinearOrder I] (E : Env I S) (ops : List (GOp I S)) (o : Option (List Nat × Range.Rng I × List Bool)) :
    R (Multiset Nat × List (Option (Entry I S))) := do
  let t ← gInsertAll E ⟨none⟩ ops
  match o with
  | none => pure (t.P, [])
  | some q => do
    let it ← t.iter E q.1 q.2.1
    let outs ← gRunIter E.ix it q.2.2
    pure (t.P, outs)

/-- Apply a map of indices to what was observed. -/
def seeMiI (f : I → J) (r : Multiset Nat × List (Option (Entry I S))) : Multiset Nat × List (Option (Entry J S)) :=
  (r.1, r.2.map (Option.map (Entry.mi f)))

theorem mi_treeP {f : I → J} : {h : Nat} → (t : Tree I S h) → treeP (miT f t) = treeP t
  | 0, _ => rfl
  | h + 1, n => by
    have ih : (treeP ∘ miT f : Tree I S h → Multiset Nat) = treeP := funext fun t => mi_treeP t
    show {n.ptr} + ((n.kids.map (miT f)).map treeP).sum = {n.ptr} + (n.kids.map treeP).sum
    rw [List.map_map, ih]

theorem RleTree.mi_P (f : I → J) (t : RleTree I S) : (t.mi f).P = t.P := by
  obtain ⟨_ | r⟩ := t
  · rfl
  · exact mi_treeP r.tree

theorem mi_gSeeI [LinearOrder I] [LinearOrder J] {B : Fault → Prop} {f : I → J} {E : Env I S} {F : Env J S} (hh : IHom B f E F)
    (hf : ∀ a b, f a ≤ f b ↔ a ≤ b) (ops : List (GOp I S)) (o : Option (List Nat × Range.Rng I × List Bool)) :
    ISim B (gSeeI E ops o) (gSeeI F (ops.map (GOp.mi f)) (o.map fun q => (q.1, q.2.1.mi f, q.2.2))) (seeMiI f) := by
  refine ISim.bind (mi_gInsertAll hh ⟨none⟩ ops) fun t => ?_
  cases o with
  | none => exact ISim.pure (by simp only [RleTree.mi_P]; rfl)
  | some q =>
    exact ISim.bind (RleTree.mi_iter hh hf t q.1 q.2.1) fun it => ISim.bind (mi_gRunIter hh it q.2.2) fun _ =>
      ISim.pure (by simp only [RleTree.mi_P]; rfl)

theorem gSeeI_ev [LinearOrder I] {ι : Type} {fl : Filter ι} {a : ι → Env I S} {b : Env I S} (hE : EnvEv fl a b)
    (ops : List (GOp I S)) (o : Option (List Nat × Range.Rng I × List Bool)) :
    Evt fl (fun i => gSeeI (a i) ops o) (gSeeI b ops o) := by
  have h1 : ∀ t : RleTree I S, Evt fl (fun i => gInsertAll (a i) t ops) (gInsertAll b t ops) := by
    induction ops with
    | nil => exact fun t => Evt.const _
    | cons x xs ih => exact fun t => Evt.bind (rleInsert_evt hE t x.nop x.hints x.idx x.slice x.size x.world) fun v => ih v.1
  refine Evt.bind (h1 ⟨none⟩) fun t => ?_
  cases o with
  | none => exact Evt.const _
  | some q =>
    exact Evt.bind (rleIter_evt hE t q.1 q.2.1) fun it => Evt.bind (gRunIter_evt hE.ix it q.2.2) fun x => Evt.const _

/-- The steps from the natural numbers to the given index type. -/
theorem transfer {A C D : Type} {sub : R A} {part strict given : R C} {nat : R D} {v : A → C} {n : A → D} {bad : Fault}
    (k1 : ISim (fun _ => False) sub part v) (hev : part = strict) (k2 : ISim (· = bad) sub nat n) (k3 : ISim Soft strict given id)
    (hbad : strict ≠ .error bad) :
    (∀ r, nat = .ok r → ∃ x, given = .ok (v x) ∧ r = n x) ∧ ∀ f, nat = .error f → ¬ Soft f → given = .error f := by
  subst hev
  cases sub with
  | error f =>
    rcases k1 with ⟨_, h, _⟩ | rfl
    · exact h.elim
    rcases k2 with ⟨f', hf, hf'⟩ | rfl
    · cases hf'
      exact absurd (hf ▸ rfl) hbad
    refine ⟨fun r hr => by (cases hr), fun f' hf' hs => ?_⟩
    cases hf'
    rcases k3 with ⟨f', hf, hf'⟩ | rfl
    · cases hf'
      exact absurd hf hs
    · rfl
  | ok a =>
    rcases k1 with ⟨_, h, _⟩ | rfl
    · exact h.elim
    rcases k2 with ⟨f', hf, hf'⟩ | rfl
    · cases hf'
    rcases k3 with ⟨f', hf, hf'⟩ | rfl
    · cases hf'
    exact ⟨fun r hr => by cases hr; exact ⟨a, rfl, rfl⟩, fun f hf => by cases hf⟩

section
variable [LinearOrder I] [AddCommGroup G] [LinearOrder G] [IsOrderedAddMonoid G]
variable {e : I → G} {MAX : G} {E : Env I S} {slG : SliceOps G S}

theorem exists_rng {P : I → Prop} (r : Range.Rng I) (h : ∀ x ∈ rngEnds r, P x) : ∃ r' : Range.Rng {x // P x}, r'.mi Subtype.val = r := by
  obtain ⟨s, t⟩ := r
  obtain ⟨s', hs⟩ : ∃ s' : Range.StartBound {x // P x}, s'.mi Subtype.val = s := by
    cases s with
    | unbounded => exact ⟨.unbounded, rfl⟩
    | included x => exact ⟨.included ⟨x, h x (by simp [rngEnds])⟩, rfl⟩
  obtain ⟨t', ht⟩ : ∃ t' : Range.EndBound {x // P x}, t'.mi Subtype.val = t := by
    cases t with
    | unbounded => exact ⟨.unbounded, rfl⟩
    | included x => exact ⟨.included ⟨x, h x (by simp [rngEnds])⟩, rfl⟩
    | excluded x => exact ⟨.excluded ⟨x, h x (by simp [rngEnds])⟩, rfl⟩
  exact ⟨⟨s', t'⟩, by simp only [Range.Rng.mi, hs, ht]⟩

theorem rng_mi_mi {K : Type} (f : I → J) (g : J → K) (r : Range.Rng I) : (r.mi f).mi g = r.mi fun x => g (f x) := by
  obtain ⟨s, t⟩ := r
  cases s <;> cases t <;> rfl

theorem gSeeI_transfer (L : LawfulIdx e MAX E.ix) (hord : ∀ a b : I, a ≤ b ↔ e a ≤ e b) (hs : SameSl e E.sl slG) (hM0 : 0 ≤ MAX)
    (ops : List (GOp I S)) (o : Option (List Nat × Range.Rng I × List Bool)) (hops : ∀ x ∈ ops, 0 ≤ e x.idx ∧ 0 ≤ e x.size)
    (ho : ∀ q ∈ o, ∀ x ∈ rngEnds q.2.1, 0 ≤ e x) :
    ∀ᶠ Y : Finset G in Filter.atTop, ∀ φ, GoodOn Y φ →
      ∀ r, gSeeI (natEnv E MAX Y φ slG) (ops.map (GOp.mi (natOf e φ))) (o.map fun q => (q.1, q.2.1.mi (natOf e φ), q.2.2)) = .ok r →
        ∃ r', gSeeI E ops o = .ok r' ∧ r = seeMiI (natOf e φ) r' ∧
          ∀ x, some x ∈ r'.2 → (e x.start ∈ Y ∧ 0 ≤ e x.start) ∧ e x.stop ∈ Y ∧ 0 ≤ e x.stop := by
  obtain ⟨bad, hbad⟩ : ∃ bad, gSeeI ({ E with ix := strictIx e MAX E.ix } : Env I S) ops o ≠ .error bad := by
    by_cases h : gSeeI ({ E with ix := strictIx e MAX E.ix } : Env I S) ops o = .error .overflow
    · exact ⟨.underflow, by rw [h]; intro hc; cases hc⟩
    · exact ⟨_, h⟩
  filter_upwards [gSeeI_ev (part_ev (bad := bad) E) ops o, ev_mem 0, ev_mem MAX, ev_mem_list (ops.map fun x => e x.idx),
    ev_mem_list (ops.map fun x => e x.size), ev_list (l := o.toList) fun q _ => ev_list (l := rngEnds q.2.1) fun x _ => ev_mem (e x)]
    with Y hev h0 hM h1 h2 h3 φ hφ
  have hz : e E.ix.zero ∈ Y ∧ 0 ≤ e E.ix.zero := by rw [L.zero]; exact ⟨h0, le_refl _⟩
  obtain ⟨ops', hops'⟩ : ∃ ops' : List (GOp (SubI e Y) S), ops'.map (GOp.mi Subtype.val) = ops := by
    refine exists_map fun x hx => ?_
    have g := hops x hx
    exact ⟨⟨⟨x.idx, h1 _ (List.mem_map.2 ⟨x, hx, rfl⟩), g.1⟩, x.slice, ⟨x.size, h2 _ (List.mem_map.2 ⟨x, hx, rfl⟩), g.2⟩,
      x.nop, x.hints, x.world⟩, rfl⟩
  obtain ⟨o', ho'⟩ : ∃ o' : Option (List Nat × Range.Rng (SubI e Y) × List Bool),
      (o'.map fun q => (q.1, q.2.1.mi Subtype.val, q.2.2)) = o := by
    cases o with
    | none => exact ⟨none, rfl⟩
    | some q =>
      obtain ⟨r', hr'⟩ := exists_rng (P := fun x => e x ∈ Y ∧ 0 ≤ e x) q.2.1 fun x hx => ⟨h3 q (by simp) x hx, ho q rfl x hx⟩
      exact ⟨some (q.1, r', q.2.2), by simp [hr']⟩
  have hnn : ∀ x : SubI e Y, 0 ≤ φ (e x.1) := fun x => hφ.nonneg h0 x.2.1 x.2.2
  have k1 := mi_gSeeI (sub_hom (bad := bad) L hz) (fun _ _ => Iff.rfl) ops' o'
  have k2 := mi_gSeeI (nat_hom (bad := bad) L hs hz hM hM0 hφ) (fun a b => by
    have := hnn a
    have := hnn b
    have e1 : a ≤ b ↔ a.1 ≤ b.1 := Iff.rfl
    rw [e1, hord, ← hφ.le a.2.1 b.2.1]
    unfold natOf
    omega) ops' o'
  have k3 := mi_gSeeI (strict_hom (e := e) (MAX := MAX) E) (fun _ _ => Iff.rfl) ops o
  have e1 : ops'.map (GOp.mi fun x => natOf e φ x.1) = ops.map (GOp.mi (natOf e φ)) := by
    rw [← hops', List.map_map]; rfl
  have e2 : (o'.map fun q => (q.1, q.2.1.mi fun x => natOf e φ x.1, q.2.2)) = o.map fun q => (q.1, q.2.1.mi (natOf e φ), q.2.2) := by
    rw [← ho', Option.map_map]
    cases o' with
    | none => rfl
    | some q => simp only [Option.map_some, Function.comp, rng_mi_mi]
  have e3 : ops.map (GOp.mi id) = ops := by
    have : (GOp.mi id : GOp I S → GOp I S) = id := rfl
    rw [this, List.map_id]
  have e4 : (o.map fun q => (q.1, q.2.1.mi id, q.2.2)) = o := by
    cases o with
    | none => rfl
    | some q =>
      obtain ⟨c, ⟨s, t⟩, l⟩ := q
      cases s <;> cases t <;> rfl
  have e5 : (seeMiI id : _ → Multiset Nat × List (Option (Entry I S))) = id := by
    funext x
    have : (Entry.mi id : Entry I S → Entry I S) = id := rfl
    simp [seeMiI, this]
  rw [hops', ho'] at k1
  rw [e1, e2] at k2
  rw [e3, e4, e5] at k3
  intro r hr
  obtain ⟨x, g1, g2⟩ := (transfer k1 hev k2 k3 hbad).1 r hr
  refine ⟨_, g1, ?_, ?_⟩
  · rw [g2]
    simp only [seeMiI, List.map_map]
    refine Prod.ext rfl ?_
    refine List.map_congr_left fun y _ => ?_
    cases y <;> rfl
  · intro y hy
    simp only [seeMiI, List.mem_map] at hy
    obtain ⟨z, _, hz⟩ := hy
    cases z with
    | none => cases hz
    | some z =>
      cases hz
      exact ⟨z.start.2, z.stop.2⟩

/-! ## Lists -/

theorem runDeque_map {X Z : Type} (f : X → Z) (l : List X) (calls : List Bool) :
    runDeque (l.map f) calls = (runDeque l calls).map (Option.map f) := by
  induction calls generalizing l with
  | nil => rfl
  | cons b calls ih =>
    cases b
    · simp only [runDeque, List.map_cons, List.head?_map, ← List.map_tail, ih]
    · simp only [runDeque, List.map_cons, List.getLast?_map, ← List.map_dropLast, ih]

theorem mem_runDeque {X : Type} {l : List X} {calls : List Bool} {x : X} (h : some x ∈ runDeque l calls) : x ∈ l := by
  induction calls generalizing l with
  | nil => cases h
  | cons b calls ih =>
    cases b
    · rcases List.mem_cons.1 h with h | h
      · exact List.mem_of_head? h.symm
      · exact List.mem_of_mem_tail (ih h)
    · rcases List.mem_cons.1 h with h | h
      · exact List.mem_of_getLast? h.symm
      · exact List.dropLast_subset _ (ih h)

theorem map_inj_on {X Z : Type} {f : X → Z} {l l' : List X} (hf : ∀ x ∈ l, ∀ y ∈ l', f x = f y → x = y) (h : l.map f = l'.map f) : l = l' := by
  induction l generalizing l' with
  | nil =>
    cases l' with
    | nil => rfl
    | cons => cases h
  | cons x xs ih =>
    cases l' with
    | nil => cases h
    | cons y ys =>
      simp only [List.map_cons, List.cons.injEq] at h
      rw [hf x (by simp) y (by simp) h.1, ih (fun a ha b hb => hf a (by simp [ha]) b (by simp [hb])) h.2]

theorem filter_map_eq {X Z W : Type} {f : X → W} {g : Z → W} {p : X → Bool} {q : Z → Bool} {l : List X} {l' : List Z}
    (h : l.map f = l'.map g) (hp : ∀ x ∈ l, ∀ y ∈ l', f x = g y → p x = q y) : (l.filter p).map f = (l'.filter q).map g := by
  induction l generalizing l' with
  | nil =>
    cases l' with
    | nil => rfl
    | cons => cases h
  | cons x xs ih =>
    cases l' with
    | nil => cases h
    | cons y ys =>
      simp only [List.map_cons, List.cons.injEq] at h
      have h1 := hp x (by simp) y (by simp) h.1
      have h2 := ih h.2 fun a ha b hb => hp a (by simp [ha]) b (by simp [hb])
      simp only [List.filter_cons, h1]
      split
      · simp only [List.map_cons, h.1, h2]
      · exact h2

theorem entriesFrom_pos {es : List (Ent S)} (hp : Pos es) {o : Nat} {cs : List (Cell S)} {x : Entry Nat S} (hx : x ∈ entriesFrom o cs es) :
    x.start < x.stop := by
  induction es generalizing o cs with
  | nil => cases cs <;> simp [entriesFrom] at hx
  | cons y ys ih =>
    cases cs with
    | nil => simp [entriesFrom] at hx
    | cons c cs =>
      simp only [entriesFrom, List.mem_cons] at hx
      rcases hx with rfl | hx
      · have := hp y (by simp)
        simp only
        omega
      · exact ih (fun z hz => hp z (by simp [hz])) hx

theorem gRunIter_nat {S : Type} (ix : IdxOps Nat) (it : Iter Nat S) (calls : List Bool) : gRunIter ix it calls = runIter ix it calls := by
  induction calls generalizing it with
  | nil => rfl
  | cons b calls ih => cases b <;> simp only [gRunIter, runIter, ih]

/-- The positions in the entries are sums of sizes. -/
theorem gEntries_map (o : G) (es : List (GRun G S)) : ∀ᶠ Y : Finset G in Filter.atTop, ∀ x ∈ gEntries o es, x.1 ∈ Y ∧ x.2.1 ∈ Y := by
  exact ev_list fun x _ => (ev_mem x.1).and (ev_mem x.2.1)

theorem gEntries_nat {Y : Finset G} {φ : G → ℤ} (hφ : GoodOn Y φ) {es : List (GRun G S)} {o : G} {oN : Nat} {cs : List (Cell S)}
    {esN : List (Ent S)} (hl : cs.length = esN.length) (hm : esN.map Ent.gz = es.map (GRun.map φ)) (ho : (oN : ℤ) = φ o)
    (hY : ∀ x ∈ gEntries o es, x.1 ∈ Y ∧ x.2.1 ∈ Y) (hs : ∀ x ∈ es, x.size ∈ Y) :
    (entriesFrom oN cs esN).map (fun x => ((x.start : ℤ), (x.stop : ℤ), x.slice)) = (gEntries o es).map fun x => (φ x.1, φ x.2.1, x.2.2) := by
  induction es generalizing o oN cs esN with
  | nil =>
    cases esN with
    | nil => cases cs <;> rfl
    | cons => cases hm
  | cons x xs ih =>
    cases esN with
    | nil => cases hm
    | cons xN xsN =>
      cases cs with
      | nil => cases hl
      | cons c cs =>
        simp only [List.map_cons, List.cons.injEq] at hm
        obtain ⟨h1, h2⟩ := hm
        have h3 : ((xN.size : Nat) : ℤ) = φ x.size := congrArg GRun.size h1
        have h4 : xN.slice = x.slice := congrArg GRun.slice h1
        have hoY := (hY _ (List.mem_cons_self ..)).1
        have hadd : ((oN + xN.size : Nat) : ℤ) = φ (o + x.size) := by
          rw [hφ.add hoY (hs x (by simp))]
          show _ = φ o + φ x.size
          omega
        simp only [entriesFrom, gEntries, List.map_cons, List.cons.injEq, Prod.mk.injEq]
        refine ⟨⟨ho, hadd, h4⟩, ?_⟩
        exact ih (by simpa using hl) h2 hadd (fun y hy => hY y (by simp [gEntries, hy])) fun y hy => hs y (by simp [hy])

/-! ## Iteration -/

/-- Iteration over a range with both ends not negative. -/
theorem ordered_iter_nonneg (L : LawfulIdx e MAX E.ix) (hord : ∀ a b : I, a ≤ b ↔ e a ≤ e b) (hs : SameSl e E.sl slG)
    (hM : 1 ≤ E.M ∧ E.M ≤ 127) {ops : List (GOp I S)} (hb : gBounds MAX 0 (ops.map (GOp.val e))) {es : List (GRun G S)}
    (h : gAll slG [] (ops.map (GOp.val e)) = .ok es) {t : RleTree I S} (ht : gInsertAll E ⟨none⟩ ops = .ok t) (hn : t.P.Nodup)
    (cursor : List Nat) {r : Range.Rng I} (hr : gWithin (gTotal es) (r.mi e)) (hr0 : ∀ x ∈ rngEnds r, 0 ≤ e x) :
    ∃ it, t.iter E cursor r = .ok it ∧ ∀ calls, ∃ outs, gRunIter E.ix it calls = .ok outs ∧
      outs.map (Option.map fun x => (e x.start, e x.stop, x.slice)) =
        runDeque ((gEntries 0 es).filter (gTouches (r.mi e))) calls := by
  have hnn := gBounds_nonneg hb
  have hMAX := gBounds_max (le_refl _) hb
  have hops : ∀ x ∈ ops, 0 ≤ e x.idx ∧ 0 ≤ e x.size := fun x hx => hnn _ (List.mem_map.2 ⟨x, hx, rfl⟩)
  have main : ∀ calls, ∃ outs, gSeeI E ops (some (cursor, r, calls)) = .ok (t.P, outs) ∧
      outs.map (Option.map fun x => (e x.start, e x.stop, x.slice)) =
        runDeque ((gEntries 0 es).filter (gTouches (r.mi e))) calls := by
    intro calls
    have key := (gSeeI_transfer L hord hs hMAX ops none hops fun q hq => by cases hq).and
      ((gSeeI_transfer L hord hs hMAX ops (some (cursor, r, calls)) hops fun q hq => by cases hq; exact hr0).and
      ((nat_history (slG := slG) hb).and ((gTotal_map es).and ((ev_mem (gTotal es)).and ((gEntries_map 0 es).and
      ((ev_mem_list (es.map (·.size))).and ((ev_mem 0).and (ev_list (l := rngEnds r) fun x _ => ev_mem (e x)))))))))
    obtain ⟨Y, h1, h2, h3, h4, h5, h6, h7, h0, h8⟩ := key.exists
    obtain ⟨φ, hφ⟩ := exists_good Y
    have h1 := h1 φ hφ
    have h2 := h2 φ hφ
    obtain ⟨hin, hspec⟩ := h3 φ hφ
    rw [h] at hspec
    obtain ⟨esN, hN⟩ : ∃ esN, specAll (slN Y φ slG) [] (natOps e φ ops) = .ok esN := by
      cases hc : specAll (slN Y φ slG) [] (natOps e φ ops) with
      | error f => rw [hc] at hspec; cases hspec
      | ok v => exact ⟨v, rfl⟩
    have hmap : esN.map Ent.gz = es.map (GRun.map φ) := by
      rw [hN] at hspec
      exact Except.ok.inj hspec
    have hE : (natEnv E MAX Y φ slG).ix = natIdx (φ MAX).toNat := rfl
    have hr1 : Reach (φ MAX).toNat (natEnv E MAX Y φ slG) ⟨none⟩ := .empty (by simp [RleTree.newEmpty, natEnv, check, hM.1, hM.2])
    obtain ⟨tN, ht1, ht2, ht3⟩ := insertAll_returns hE hr1 (ops := natOps e φ ops) hin (es' := esN) hN
    rw [natOps_g] at h1 h2
    have hP : tN.P = t.P := by
      obtain ⟨r', g1, g2, _⟩ := h1 (tN.P, []) (by
        unfold gSeeI
        rw [gInsertAll_nat, ht1]
        rfl)
      unfold gSeeI at g1
      rw [ht] at g1
      cases g1
      exact congrArg Prod.fst g2
    have hsz := (size_eq_total hE ht3).1
    rw [ht2] at hsz
    have htot : ((total esN : Nat) : ℤ) = φ (gTotal es) := by
      rw [← gTotal_gz, hmap]
      exact h4 φ hφ
    have hYr : ∀ x ∈ rngEnds r, (natOf e φ x : ℤ) = φ (e x) ∧ e x ∈ Y := fun x hx => by
      have := hφ.nonneg h0 (h8 x hx) (hr0 x hx)
      exact ⟨by unfold natOf; omega, h8 x hx⟩
    have hv : ValidRange (tN.size (natEnv E MAX Y φ slG)) (r.mi (natOf e φ)) := by
      rw [hsz]
      obtain ⟨s, d⟩ := r
      obtain ⟨v1, v2, v3⟩ := hr
      have lt2 : ∀ x ∈ rngEnds ⟨s, d⟩, ∀ y ∈ rngEnds ⟨s, d⟩, (natOf e φ x < natOf e φ y ↔ e x < e y) := fun x hx y hy => by
        rw [← hφ.lt (hYr x hx).2 (hYr y hy).2, ← (hYr x hx).1, ← (hYr y hy).1]; omega
      have le2 : ∀ x ∈ rngEnds ⟨s, d⟩, ∀ y ∈ rngEnds ⟨s, d⟩, (natOf e φ x ≤ natOf e φ y ↔ e x ≤ e y) := fun x hx y hy => by
        rw [← not_lt, ← not_lt, lt2 y hy x hx]
      have lt3 : ∀ x ∈ rngEnds ⟨s, d⟩, (natOf e φ x < total esN ↔ e x < gTotal es) := fun x hx => by
        rw [← hφ.lt (hYr x hx).2 h5, ← (hYr x hx).1, ← htot]; omega
      have le3 : ∀ x ∈ rngEnds ⟨s, d⟩, (natOf e φ x ≤ total esN ↔ e x ≤ gTotal es) := fun x hx => by
        rw [← hφ.le (hYr x hx).2 h5, ← (hYr x hx).1, ← htot]; omega
      refine ⟨?_, ?_, ?_⟩
      · cases s with
        | unbounded => trivial
        | included x =>
          cases d with
          | unbounded => trivial
          | included y => exact (le2 x (by simp [rngEnds]) y (by simp [rngEnds])).2 v1
          | excluded y => exact (lt2 x (by simp [rngEnds]) y (by simp [rngEnds])).2 v1
      · cases s with
        | unbounded => trivial
        | included x => exact (lt3 x (by simp [rngEnds])).2 v2
      · cases d with
        | unbounded => trivial
        | included y => exact (lt3 y (by simp [rngEnds])).2 v3
        | excluded y => exact (le3 y (by simp [rngEnds])).2 v3
    obtain ⟨itN, i1, i2⟩ := iter_deque_reach hE ht3 (by rw [hP]; exact hn) cursor hv
    obtain ⟨r', g1, g2, g3⟩ := h2 (tN.P, runDeque (expected tN (r.mi (natOf e φ))) calls) (by
      unfold gSeeI
      rw [gInsertAll_nat, ht1]
      show ((tN.iter _ _ _) >>= _) = _
      simp only [i1]
      show (gRunIter _ _ _ >>= _) = _
      rw [gRunIter_nat, i2]
      rfl)
    obtain ⟨P', outs⟩ := r'
    have g4 : tN.P = P' := congrArg Prod.fst g2
    have g5 : runDeque (expected tN (r.mi (natOf e φ))) calls = outs.map (Option.map (Entry.mi (natOf e φ))) := congrArg Prod.snd g2
    refine ⟨outs, by rw [g1, ← g4, hP], ?_⟩
    -- positions in the natural numbers
    have hpl : tN.places.length = tN.runs.length := by
      have := congrArg List.length (ht3.holds hE).2.1.places
      simpa using this
    have hent := gEntries_nat (S := S) hφ (es := es) (o := 0) (oN := 0) (cs := tN.places) (esN := esN) (by rw [hpl, ht2]) hmap
      (by rw [hφ.zero]; rfl) h6 (fun x hx => h7 _ (List.mem_map.2 ⟨x, hx, rfl⟩))
    let fN : Entry Nat S → ℤ × ℤ × S := fun x => ((x.start : ℤ), (x.stop : ℤ), x.slice)
    let fG : G × G × S → ℤ × ℤ × S := fun x => (φ x.1, φ x.2.1, x.2.2)
    have hexp : (expected tN (r.mi (natOf e φ))).map fN = ((gEntries 0 es).filter (gTouches (r.mi e))).map fG := by
      refine filter_map_eq (l := tN.entries) (by rw [← ht2] at hent; exact hent) fun x hx y hy hxy => ?_
      have hpos := entriesFrom_pos (ht3.holds hE).2.1.1 hx
      have yY := h6 y hy
      obtain ⟨y1, y2, y3⟩ := y
      have x1 : ((x.start : Nat) : ℤ) = φ y1 := congrArg Prod.fst hxy
      have x2 : ((x.stop : Nat) : ℤ) = φ y2 := congrArg (fun z => z.2.1) hxy
      have ha : touches (r.mi (natOf e φ)) x = gTouches (r.mi (natOf e φ)) (x.start, x.stop, x.slice) := by
        rw [Bool.eq_iff_iff, touches_iff, gTouches_iff (validRange_within hv) hpos]
      rw [ha]
      have lt1 : ∀ q ∈ rngEnds r, decide (natOf e φ q < x.stop) = decide (e q < y2) := fun q hq => by
        rw [decide_eq_decide, ← hφ.lt (hYr q hq).2 yY.2, ← (hYr q hq).1, ← x2]
        omega
      have lt2 : ∀ q ∈ rngEnds r, decide (x.start < natOf e φ q) = decide (y1 < e q) := fun q hq => by
        rw [decide_eq_decide, ← hφ.lt yY.1 (hYr q hq).2, ← (hYr q hq).1, ← x1]
        omega
      have le2 : ∀ q ∈ rngEnds r, decide (x.start ≤ natOf e φ q) = decide (y1 ≤ e q) := fun q hq => by
        rw [decide_eq_decide, ← hφ.le yY.1 (hYr q hq).2, ← (hYr q hq).1, ← x1]
        omega
      clear hYr hr0 hr hv ha h8 i1 i2 g2 g5 h1 h2 key
      obtain ⟨s, d⟩ := r
      unfold gTouches
      refine congrArg₂ _ ?_ ?_
      · cases s with
        | unbounded => rfl
        | included a => exact lt1 a (by simp [rngEnds])
      · cases d with
        | unbounded => rfl
        | included b => exact le2 b (by simp [rngEnds])
        | excluded b => exact lt2 b (by simp [rngEnds])
    refine map_inj_on (f := Option.map fG) ?_ ?_
    · intro x hx y hy hxy
      cases y with
      | none =>
        cases x with
        | none => rfl
        | some x => cases hxy
      | some y =>
        cases x with
        | none => cases hxy
        | some x =>
          obtain ⟨z, hz1, hz2⟩ := List.mem_map.1 hx
          cases z with
          | none => cases hz2
          | some z =>
            cases hz2
            have q1 := g3 z hz1
            have q2 := h6 y (List.mem_filter.1 (mem_runDeque hy)).1
            have hxy : fG (e z.start, e z.stop, z.slice) = fG y := Option.some.inj hxy
            obtain ⟨y1, y2, y3⟩ := y
            simp only [fG, Prod.mk.injEq] at hxy
            show some (e z.start, e z.stop, z.slice) = _
            rw [hφ.inj q1.1.1 q2.1 hxy.1, hφ.inj q1.2.1 q2.2 hxy.2.1, hxy.2.2]
    · rw [← runDeque_map, ← hexp, runDeque_map, g5, List.map_map, List.map_map]
      refine List.map_congr_left fun x hx => ?_
      cases x with
      | none => rfl
      | some x =>
        have q1 := g3 x hx
        have a1 := hφ.nonneg h0 q1.1.1 q1.1.2
        have a2 := hφ.nonneg h0 q1.2.1 q1.2.2
        simp only [Function.comp, Option.map_some, fG, fN, Entry.mi, natOf, Option.some.injEq, Prod.mk.injEq]
        exact ⟨by omega, by omega, trivial⟩
  obtain ⟨_, m1, _⟩ := main []
  unfold gSeeI at m1
  rw [ht] at m1
  have m1 : (t.iter E cursor r >>= _) = _ := m1
  obtain ⟨it, m2, _⟩ := R.bind_eq_ok.1 m1
  refine ⟨it, m2, fun calls => ?_⟩
  obtain ⟨outs, m3, m4⟩ := main calls
  refine ⟨outs, ?_, m4⟩
  unfold gSeeI at m3
  rw [ht] at m3
  have m3 : (t.iter E cursor r >>= fun it => gRunIter E.ix it calls >>= fun outs => pure (t.P, outs)) = _ := m3
  rw [m2] at m3
  have m3 : (gRunIter E.ix it calls >>= fun outs => pure (t.P, outs)) = _ := m3
  obtain ⟨outs', m7, m8⟩ := R.bind_eq_ok.1 m3
  cases m8
  exact m7

/-- The runs of the specification have positive sizes. -/
theorem gAll_pos {ops : List (GOp I S)} (hb : gBounds MAX 0 (ops.map (GOp.val e))) {es : List (GRun G S)}
    (h : gAll slG [] (ops.map (GOp.val e)) = .ok es) : ∀ x ∈ es, 0 < x.size := by
  obtain ⟨Y, h1, h2, h0⟩ := ((nat_history (slG := slG) hb).and ((ev_mem_list (es.map (·.size))).and (ev_mem 0))).exists
  obtain ⟨φ, hφ⟩ := exists_good Y
  obtain ⟨hin, hspec⟩ := h1 φ hφ
  rw [h] at hspec
  obtain ⟨esN, hN⟩ : ∃ esN, specAll (slN Y φ slG) [] (natOps e φ ops) = .ok esN := by
    cases hc : specAll (slN Y φ slG) [] (natOps e φ ops) with
    | error f => rw [hc] at hspec; cases hspec
    | ok v => exact ⟨v, rfl⟩
  have hmap : esN.map Ent.gz = es.map (GRun.map φ) := by
    rw [hN] at hspec
    exact Except.ok.inj hspec
  let F : Env Nat S := ⟨natIdx (φ MAX).toNat, slN Y φ slG, 1, false⟩
  have hr1 : Reach (φ MAX).toNat F ⟨none⟩ := .empty rfl
  obtain ⟨tN, ht1, ht2, ht3⟩ := insertAll_returns (E := F) rfl hr1 (ops := natOps e φ ops) hin (es' := esN) hN
  have hp := (ht3.holds rfl).2.1.1
  rw [ht2] at hp
  intro x hx
  have : x.map φ ∈ esN.map Ent.gz := by rw [hmap]; exact List.mem_map_of_mem hx
  obtain ⟨xN, q1, q2⟩ := List.mem_map.1 this
  have q3 : ((xN.size : Nat) : ℤ) = φ x.size := congrArg GRun.size q2
  have q4 := hp xN q1
  rw [← hφ.lt h0 (h2 _ (List.mem_map.2 ⟨x, hx, rfl⟩)), hφ.zero]
  omega

theorem gEntries_ge {es : List (GRun G S)} (hp : ∀ x ∈ es, 0 < x.size) {o : G} {x : G × G × S} (hx : x ∈ gEntries o es) : o ≤ x.1 := by
  induction es generalizing o with
  | nil => cases hx
  | cons y ys ih =>
    rcases List.mem_cons.1 hx with rfl | hx
    · exact le_refl _
    · exact le_trans (le_add_of_nonneg_right (hp y (by simp)).le) (ih (fun z hz => hp z (by simp [hz])) hx)

theorem gRunIter_none {ix : IdxOps I} {it : Iter I S} (h : it.state = none) (ops : List Bool) :
    gRunIter ix it ops = .ok (ops.map fun _ => none) := by
  induction ops with
  | nil => rfl
  | cons op ops ih =>
    cases op <;> simp only [gRunIter, Iter.next, Iter.nextBack, h, R.pure_eq, R.bind_ok, ih] <;> rfl

/-- C53: iteration over a range that starts at a non-negative position, in a tree with a lawful index type, yields from both
ends the runs of the list that have a position in the range, with their ranges. -/
theorem ordered_iter (L : LawfulIdx e MAX E.ix) (hord : ∀ a b : I, a ≤ b ↔ e a ≤ e b) (hs : SameSl e E.sl slG)
    (hM : 1 ≤ E.M ∧ E.M ≤ 127) {ops : List (GOp I S)} (hb : gBounds MAX 0 (ops.map (GOp.val e))) {es : List (GRun G S)}
    (h : gAll slG [] (ops.map (GOp.val e)) = .ok es) {t : RleTree I S} (ht : gInsertAll E ⟨none⟩ ops = .ok t) (hn : t.P.Nodup)
    (cursor : List Nat) {r : Range.Rng I} (hr : gWithin (gTotal es) (r.mi e)) (hr0 : ∀ x, r.start = .included x → 0 ≤ e x) :
    ∃ it, t.iter E cursor r = .ok it ∧ ∀ calls, ∃ outs, gRunIter E.ix it calls = .ok outs ∧
      outs.map (Option.map fun x => (e x.start, e x.stop, x.slice)) =
        runDeque ((gEntries 0 es).filter (gTouches (r.mi e))) calls := by
  by_cases hall : ∀ x ∈ rngEnds r, 0 ≤ e x
  · exact ordered_iter_nonneg L hord hs hM hb h ht hn cursor hr hall
  -- the range has no start and a negative end
  have hlt : ∀ a b, E.ix.lt a b = decide (e a < e b) := by
    intro a b
    rw [Bool.eq_iff_iff, decide_eq_true_iff, ← compare_lt_iff_lt, ← L.cmp]
    simp [IdxOps.lt]
  have hord' : ∀ a b : I, a < b ↔ e a < e b := fun a b => by rw [← not_le, ← not_le, hord]
  have hsize : e (t.size E) = gTotal es := by
    obtain ⟨t', k1, k2, _⟩ := ordered_index L hs hM hb h
    rw [ht] at k1
    cases k1
    exact k2
  have hpos := gAll_pos hb h
  have hge : ∀ x ∈ gEntries 0 es, (0 : G) ≤ x.1 := fun x hx => gEntries_ge hpos hx
  obtain ⟨s, d⟩ := r
  obtain ⟨v1, v2, v3⟩ := hr
  have key : ∀ (it : Iter I S), it.state = none → t.iter E cursor ⟨s, d⟩ = .ok it →
      (∀ x ∈ gEntries 0 es, gTouches (Range.Rng.mi e ⟨s, d⟩) x = false) →
      ∃ it, t.iter E cursor ⟨s, d⟩ = .ok it ∧ ∀ calls, ∃ outs, gRunIter E.ix it calls = .ok outs ∧
        outs.map (Option.map fun x => (e x.start, e x.stop, x.slice)) =
          runDeque ((gEntries 0 es).filter (gTouches (Range.Rng.mi e ⟨s, d⟩))) calls := by
    intro it g1 g2 g3
    refine ⟨it, g2, fun calls => ⟨_, gRunIter_none g1 calls, ?_⟩⟩
    rw [List.filter_eq_nil_iff.2 (fun x hx => by simp [g3 x hx]), runDeque_nil, List.map_map]
    exact List.map_congr_left fun _ _ => rfl
  cases s with
  | included x =>
    have h0 := hr0 x rfl
    exfalso
    apply hall
    intro y hy
    cases d with
    | unbounded =>
      simp only [rngEnds, List.append_nil, List.mem_singleton] at hy
      rw [hy]; exact h0
    | included z =>
      simp only [rngEnds, List.mem_append, List.mem_singleton] at hy
      rcases hy with rfl | rfl
      · exact h0
      · exact le_trans h0 v1
    | excluded z =>
      simp only [rngEnds, List.mem_append, List.mem_singleton] at hy
      rcases hy with rfl | rfl
      · exact h0
      · exact le_trans h0 (le_of_lt v1)
  | unbounded =>
    cases d with
    | unbounded => exact absurd (fun x hx => by simp [rngEnds] at hx) hall
    | included z =>
      have hz : e z < 0 := by
        by_contra hc
        exact hall fun y hy => by
          simp only [rngEnds, List.nil_append, List.mem_singleton] at hy
          rw [hy]; exact not_lt.1 hc
      have v3 : e z < gTotal es := v3
      refine key ⟨E.ix.zero, .included z, none⟩ rfl ?_ fun x hx => ?_
      · simp [RleTree.iter, Iter.new, Range.startsAfterEnd, Range.overlapsNaive, Range.isEmptyNaive, Range.startPastEnd,
          Range.endBeforeStart, Range.ofRangeFrom, check, hlt, hord', L.zero, hsize, hz, v3]
      · have := hge x hx
        simp [gTouches, Range.Rng.mi, Range.StartBound.mi, Range.EndBound.mi, lt_of_lt_of_le hz this]
    | excluded z =>
      have hz : e z < 0 := by
        by_contra hc
        exact hall fun y hy => by
          simp only [rngEnds, List.nil_append, List.mem_singleton] at hy
          rw [hy]; exact not_lt.1 hc
      have v3 : e z ≤ gTotal es := v3
      refine key ⟨E.ix.zero, .excluded z, none⟩ rfl ?_ fun x hx => ?_
      · simp [RleTree.iter, Iter.new, Range.startsAfterEnd, Range.overlapsNaive, Range.isEmptyNaive, Range.startPastEnd,
          Range.endBeforeStart, Range.ofRangeFrom, check, hlt, hord, hord', L.zero, hsize, hz.le, v3]
      · have := hge x hx
        simp [gTouches, Range.Rng.mi, Range.StartBound.mi, Range.EndBound.mi, le_trans hz.le this]

/-- C53: iteration over any other range, also one that starts at a negative position, panics when it is asked for. -/
theorem ordered_iter_panics (L : LawfulIdx e MAX E.ix) (hord : ∀ a b : I, a ≤ b ↔ e a ≤ e b) (t : RleTree I S) (cursor : List Nat)
    {r : Range.Rng I} (hr : ¬ gWithin (e (t.size E)) (r.mi e) ∨ ∃ x, r.start = .included x ∧ e x < 0) :
    ∃ m, t.iter E cursor r = .error (.panic m) := by
  have hlt : ∀ a b, E.ix.lt a b = decide (e a < e b) := by
    intro a b
    rw [Bool.eq_iff_iff, decide_eq_true_iff, ← compare_lt_iff_lt, ← L.cmp]
    simp [IdxOps.lt]
  have hord' : ∀ a b : I, a < b ↔ e a < e b := fun a b => by rw [← not_le, ← not_le, hord]
  obtain ⟨s, d⟩ := r
  have key : ∀ (a b c : Bool) (m1 m2 m3 : String) (k : R (Iter I S)), (a && b && c) = false →
      ∃ m, (check a m1).bind (fun _ => (check b m2).bind fun _ => (check c m3).bind fun _ => k) = .error (.panic m) := by
    intro a b c m1 m2 m3 k hk
    cases a
    · exact ⟨m1, rfl⟩
    · cases b
      · exact ⟨m2, rfl⟩
      · cases c
        · exact ⟨m3, rfl⟩
        · simp at hk
  refine key _ _ _ _ _ _ _ ?_
  rw [Bool.eq_false_iff]
  intro hk
  have hneg : ∀ x, s = .included x → ¬ e x < 0 := by
    rintro x rfl
    simp only [hlt, L.zero, Bool.and_eq_true, Bool.not_eq_true', decide_eq_false_iff_not] at hk
    exact hk.1.2
  rcases hr with hr | ⟨x, h1, h2⟩
  swap
  · exact hneg x h1 h2
  apply hr
  cases s <;> cases d <;>
    simp [gWithin, Range.startsAfterEnd, Range.overlapsNaive, Range.isEmptyNaive, Range.startPastEnd, Range.endBeforeStart,
      Range.ofRangeFrom, Range.Rng.mi, Range.StartBound.mi, Range.EndBound.mi, hlt, hord, hord'] at hk ⊢ <;> grind

end
/-! ## An example -/

/-- The indices of any ordered commutative group.  src/public_traits.rs:9-40 -/
def grpIdx (G : Type) [AddCommGroup G] [LinearOrder G] : IdxOps G where
  zero := 0
  addL a b := .ok (b + a)
  addR a b := .ok (a + b)
  subL a b := .ok (a - b)
  subR a b := .ok (a - b)
  cmp := compare

theorem grpIdx_lawful [AddCommGroup G] [LinearOrder G] (MAX : G) : LawfulIdx id MAX (grpIdx G) where
  inj h := h
  zero := rfl
  cmp _ _ := rfl
  addR a b _ _ _ := ⟨a + b, rfl, rfl⟩
  addL a b _ _ _ := ⟨b + a, rfl, add_comm b a⟩
  subR a b _ _ := ⟨a - b, rfl, rfl⟩
  subL a b _ _ := ⟨a - b, rfl, rfl⟩

/-- Pairs of integers in lexicographic order, with slices that remember where they were cut off. -/
abbrev lexEnv : Env (ℤ ×ₗ ℤ) (ℤ × ℤ) := ⟨grpIdx _, offSlG, 1, false⟩

/-- Insertions that grow the tree to three levels; every call is given addresses of its own. -/
def lexOps : List (GOp (ℤ ×ₗ ℤ) (ℤ × ℤ)) :=
  [⟨toLex (0, 0), (100, 0), toLex (3, 0), false, [], ⟨100, [], [], none, []⟩⟩,
   ⟨toLex (2, 7), (200, 0), toLex (0, 9), true, [], ⟨200, [], [], none, []⟩⟩,
   ⟨toLex (0, 5), (300, 0), toLex (0, 1), false, [3], ⟨300, [], [], none, []⟩⟩,
   ⟨toLex (3, 10), (400, 0), toLex (1, -20), false, [], ⟨400, [], [], none, []⟩⟩,
   ⟨toLex (2, 0), (500, 0), toLex (0, 2), true, [1, 0], ⟨500, [], [], none, []⟩⟩,
   ⟨toLex (0, 0), (600, 0), toLex (0, 40), false, [], ⟨600, [], [], none, []⟩⟩,
   ⟨toLex (0, 41), (700, 0), toLex (5, 0), false, [], ⟨700, [], [], none, []⟩⟩]

def lexRuns : List (GRun (ℤ ×ₗ ℤ) (ℤ × ℤ)) :=
  match gAll offSlG [] (lexOps.map (GOp.val id)) with
  | .ok es => es
  | .error _ => []

/-- The range from line 5, column 0 up to and including line 7, column 3. -/
def lexRange : Range.Rng (ℤ ×ₗ ℤ) := ⟨.included (toLex (5, 0)), .included (toLex (7, 3))⟩

theorem lex_hyp : gBounds (toLex (50, 0)) 0 (lexOps.map (GOp.val id)) ∧ gAll offSlG [] (lexOps.map (GOp.val id)) = .ok lexRuns ∧
    lexRuns.length = 11 ∧ gWithin (gTotal lexRuns) (lexRange.mi id) ∧
    ((gEntries 0 lexRuns).filter (gTouches (lexRange.mi id))).map (fun x => (ofLex x.1, ofLex x.2.1)) =
      [((0, 41), (5, 41)), ((5, 41), (5, 45)), ((5, 45), (5, 46)), ((5, 46), (7, 40))] := by
  refine ⟨?_, by decide +kernel, by decide +kernel, ?_, by decide +kernel⟩
  · simp only [lexOps, List.map, GOp.val, gBounds]
    decide +kernel
  · simp only [lexRange, Range.Rng.mi, Range.StartBound.mi, Range.EndBound.mi, gWithin]
    decide +kernel

/-- C53 applies to it: iteration from both ends. -/
theorem lex_example : ∃ t it outs, gInsertAll lexEnv ⟨none⟩ lexOps = .ok t ∧ t.iter lexEnv [] lexRange = .ok it ∧
    gRunIter lexEnv.ix it [true, false, true, true, false] = .ok outs ∧
    outs.map (Option.map fun x => (ofLex x.start, ofLex x.stop)) =
      [some ((5, 46), (7, 40)), some ((0, 41), (5, 41)), some ((5, 45), (5, 46)), some ((5, 41), (5, 45)), none] := by
  obtain ⟨h1, h2, h3, h4, h5⟩ := lex_hyp
  obtain ⟨t, k1, _⟩ := ordered_index (E := lexEnv) (grpIdx_lawful (toLex (50, 0))) ⟨rfl, rfl, fun _ _ => rfl⟩ ⟨by decide, by decide⟩ h1 h2
  have hn : t.P.Nodup := fresh_nodup (by decide +kernel) k1
  obtain ⟨it, g1, g2⟩ := ordered_iter (E := lexEnv) (grpIdx_lawful (toLex (50, 0))) (fun _ _ => Iff.rfl) ⟨rfl, rfl, fun _ _ => rfl⟩
    ⟨by decide, by decide⟩ h1 h2 k1 hn [] h4 (fun x hx => by cases hx; decide +kernel)
  obtain ⟨outs, g3, g4⟩ := g2 [true, false, true, true, false]
  refine ⟨t, it, outs, k1, g1, g3, ?_⟩
  have g5 := congrArg (List.map (Option.map fun x : (ℤ ×ₗ ℤ) × (ℤ ×ₗ ℤ) × (ℤ × ℤ) => (ofLex x.1, ofLex x.2.1))) g4
  rw [List.map_map, ← runDeque_map, h5] at g5
  refine (List.map_congr_left fun x _ => ?_).trans g5
  cases x <;> rfl

end Sherman
