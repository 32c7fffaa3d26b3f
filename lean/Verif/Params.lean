import Verif.Maximal
import Verif.ConstRle
/-!
# C62: the parameters of a tree do not change what it does

Number of keys per node, width of the index type, cursors, slice references, copy-on-write, addresses of nodes: the same calls give the
same results.  The statements compare results of calls; `Seen` is what two trees have in common.
-/
namespace Sherman
variable {S : Type} {MAX MAX' rcMax : Nat} {E E' : Env Nat S}

/-! ## Insertion into lists does not depend on references -/

theorem total_bare (es : List (Ent S)) : total (es.map bare) = total es := by
  induction es with
  | nil => rfl
  | cons e es ih => simp only [List.map_cons, total_cons, ih]; rfl

theorem cutAt_bare (es : List (Ent S)) (t : Nat) :
    cutAt (es.map bare) t = ((cutAt es t).1.map bare, (cutAt es t).2.1.map bare, (cutAt es t).2.2) := by
  induction es generalizing t with
  | nil => rfl
  | cons e es ih =>
    simp only [List.map_cons, cutAt]
    by_cases h : t < e.size
    · rw [if_pos h, if_pos (show t < (bare e).size from h)]
      rfl
    · rw [if_neg h, if_neg (show ¬ t < (bare e).size from h)]
      rw [show t - (bare e).size = t - e.size from rfl, ih]
      rfl

theorem specEdge_bare (sl : SliceOps Nat S) (L R : List (Ent S)) (s : S) (size : Nat) :
    specEdge sl (L.map bare) (R.map bare) s size = (specEdge sl L R s size).map (List.map bare) := by
  unfold specEdge
  split
  · simp [Except.map, bare]
  · rw [List.getLast?_map]
    cases hL : L.getLast? with
    | none =>
      cases R with
      | nil => rfl
      | cons r R =>
        simp only [List.map_cons, Option.map_none, show (bare r).slice = r.slice from rfl]
        split <;> simp [Except.map, bare]
    | some l =>
      cases R with
      | nil =>
        simp only [List.map_nil, Option.map_some, show (bare l).slice = l.slice from rfl]
        split <;> simp [Except.map, bare, List.map_dropLast]
      | cons r R =>
        simp only [List.map_cons, Option.map_some, show (bare l).slice = l.slice from rfl, show (bare r).slice = r.slice from rfl]
        split
        · split <;> simp [Except.map, bare, List.map_dropLast]
        · split <;> simp [Except.map, bare, List.map_dropLast]

theorem specSplit_bare (sl : SliceOps Nat S) (e : Ent S) (o : Nat) (s : S) (size : Nat) :
    specSplit sl (bare e) o s size = (specSplit sl e o s size).map bare := by
  unfold specSplit
  simp only [show (bare e).slice = e.slice from rfl]
  split
  · rfl
  · split
    · split <;> rfl
    · split <;> rfl

theorem specInsert_bare (sl : SliceOps Nat S) (es : List (Ent S)) (idx : Nat) (s : S) (size : Nat) :
    specInsert sl (es.map bare) idx s size = (specInsert sl es idx s size).map (List.map bare) := by
  unfold specInsert
  rw [cutAt_bare]
  obtain ⟨L, R, o⟩ := cutAt es idx
  cases o with
  | zero => exact specEdge_bare sl L R s size
  | succ o =>
    cases R with
    | nil => rfl
    | cons e R => simp only [List.map_cons, specSplit_bare, Except.map, List.map_append]

/-! ## Trees with the same content -/

/-- Specification: two trees hold the same slices with the same sizes, in this order. -/
def Seen (t t' : RleTree Nat S) : Prop := (t.runs.map fun e => (e.size, e.slice)) = t'.runs.map fun e => (e.size, e.slice)

theorem bare_iff {l l' : List (Ent S)} : l.map bare = l'.map bare ↔ (l.map fun e => (e.size, e.slice)) = l'.map fun e => (e.size, e.slice) := by
  induction l generalizing l' with
  | nil => cases l' <;> simp
  | cons e l ih =>
    cases l' with
    | nil => simp
    | cons e' l' => simp [ih, bare]

theorem Seen.bare {t t' : RleTree Nat S} (h : Seen t t') : t.runs.map Sherman.bare = t'.runs.map Sherman.bare := bare_iff.2 h

theorem Seen.symm {t t' : RleTree Nat S} (h : Seen t t') : Seen t' t := Eq.symm h

theorem Seen.total {t t' : RleTree Nat S} (h : Seen t t') : Sherman.total t.runs = Sherman.total t'.runs := by
  rw [← total_bare t.runs, h.bare, total_bare]

/-- What one sees of the result of an insertion: the panic, or the content. -/
def shown (r : R (RleTree Nat S × Inserted)) : R (List (Nat × S)) := r.map fun x => x.1.runs.map fun e => (e.size, e.slice)

theorem specInsert_ok_bare {sl : SliceOps Nat S} {l l' : List (Ent S)} (h : l.map bare = l'.map bare) {idx : Nat} {s : S} {size : Nat} {m : List (Ent S)}
    (hs : specInsert sl l idx s size = .ok m) : ∃ m', specInsert sl l' idx s size = .ok m' ∧ m.map bare = m'.map bare := by
  have h1 := specInsert_bare sl l idx s size
  have h2 := specInsert_bare sl l' idx s size
  rw [h, h2, hs] at h1
  cases hm : specInsert sl l' idx s size with
  | error f => rw [hm] at h1; cases h1
  | ok m' =>
    rw [hm] at h1
    simp only [Except.map, Except.ok.injEq] at h1
    exact ⟨m', rfl, h1.symm⟩

theorem joinsBoth_bare {sl : SliceOps Nat S} {l l' : List (Ent S)} (h : l.map bare = l'.map bare) (hp : Pos l) (hp' : Pos l') {idx : Nat} {s : S}
    (hidx : idx ≤ total l) (hj : JoinsBoth sl l idx s) : JoinsBoth sl l' idx s := by
  have ht : total l = total l' := by rw [← total_bare l, h, total_bare]
  by_cases hc : JoinsBoth sl l' idx s
  · exact hc
  · obtain ⟨m, hm⟩ := ((specInsert_error_iff (size := 1) hp' (by omega)).2).1 hc
    obtain ⟨m', hm', _⟩ := specInsert_ok_bare h.symm hm
    rw [((specInsert_error_iff (size := 1) hp hidx).1).1 hj] at hm'
    cases hm'

/-- C62: the same insertion into trees with the same content gives trees with the same content, or the same panic, whatever the number of
keys per node, the integer type, the cursors, the addresses of new nodes, and the references: as long as the sizes fit both integer types. -/
theorem params_insert (hE : E.ix = natIdx MAX) (hE' : E'.ix = natIdx MAX') (hsl : E'.sl = E.sl) {t t' : RleTree Nat S} (ht : Reach MAX E t)
    (ht' : Reach MAX' E' t') (h : Seen t t') (idx : Nat) (s : S) {size : Nat} (h1 : t.size E + size ≤ MAX) (h2 : t.size E + size ≤ MAX')
    (nop nop' : Bool) (hints hints' : List Nat) (w w' : World) :
    shown (t.insert E nop hints idx s size w) = shown (t'.insert E' nop' hints' idx s size w') := by
  have hs := (size_eq_total hE ht).1
  have hs' := (size_eq_total hE' ht').1
  have hT := h.total
  have hp := (ht.holds hE).2.1.1
  have hp' := (ht'.holds hE').2.1.1
  cases hr : t.insert E nop hints idx s size w with
  | ok r =>
    obtain ⟨t1, out⟩ := r
    obtain ⟨c1, c2, c3, c4⟩ := insert_ok_conditions hE ht (by omega) hr
    obtain ⟨m, hm, hmb⟩ := specInsert_ok_bare h.bare (insert_runs hE ht (by omega) hr)
    obtain ⟨t2, out', k1, k2, _⟩ := insert_returns hE' ht' nop' hints' s w' (idx := idx) (by omega) c2 (by omega) (by rw [hsl]; exact hm)
    rw [k1]
    simp only [shown, Except.map, k2]
    rw [bare_iff.1 hmb]
  | error f =>
    have hcases := insert_fault_cases hE ht (by omega) hr
    cases hr' : t'.insert E' nop' hints' idx s size w' with
    | ok r =>
      exfalso
      obtain ⟨c1, c2, c3, c4⟩ := insert_ok_conditions hE' ht' (by omega) hr'
      rw [hsl] at c4
      rcases hcases with ⟨g, _⟩ | ⟨_, g, _⟩ | ⟨_, _, g, _⟩ | ⟨g0, _, g, _⟩
      · omega
      · omega
      · omega
      · exact c4 (joinsBoth_bare h.bare hp hp' (by omega) g)
    | error f' =>
      have hcases' := insert_fault_cases hE' ht' (by omega) hr'
      have : f = f' := by
        rcases hcases with ⟨g, rfl⟩ | ⟨g0, g, rfl⟩ | ⟨_, _, g, _⟩ | ⟨g0, g1, g, rfl⟩ <;>
        rcases hcases' with ⟨g', rfl⟩ | ⟨g0', g', rfl⟩ | ⟨_, _, g', _⟩ | ⟨g0', g1', g', rfl⟩ <;>
        first | rfl | (exfalso; omega)
      rw [this]

/-- C62: size and number of slices. -/
theorem params_size (hE : E.ix = natIdx MAX) (hE' : E'.ix = natIdx MAX') {t t' : RleTree Nat S} (ht : Reach MAX E t)
    (ht' : Reach MAX' E' t') (h : Seen t t') : t.size E = t'.size E' ∧ t.numberOfSlices = t'.numberOfSlices := by
  refine ⟨by rw [(size_eq_total hE ht).1, (size_eq_total hE' ht').1, h.total], ?_⟩
  rw [numberOfSlices_eq hE ht, numberOfSlices_eq hE' ht']
  have := congrArg List.length h
  simpa using this

/-- C62: `get` gives the same slice with the same range, or the same panic. -/
theorem params_get (hE : E.ix = natIdx MAX) (hE' : E'.ix = natIdx MAX') {t t' : RleTree Nat S} (ht : Reach MAX E t)
    (ht' : Reach MAX' E' t') (h : Seen t t') (hints hints' : List Nat) (idx : Nat) :
    (t.get E hints idx).map (fun x => (x.start, x.stop, x.slice)) = (t'.get E' hints' idx).map fun x => (x.start, x.stop, x.slice) := by
  have hsz := (params_size hE hE' ht ht' h).1
  by_cases hi : idx < t.size E
  · obtain ⟨a, e, b, x, a1, a2, a3, a4, a5, a6, a7⟩ := get_covers hE ht hints hi
    obtain ⟨a', e', b', x', b1, b2, b3, b4, b5, b6, b7⟩ := get_covers hE' ht' hints' (by rw [← hsz]; exact hi)
    have c1 := cutAt_inside (L := a) (R := b) (e := e) (o := idx - total a) (by omega)
    have c2 := cutAt_inside (L := a') (R := b') (e := e') (o := idx - total a') (by omega)
    rw [show total a + (idx - total a) = idx by omega, ← a1] at c1
    rw [show total a' + (idx - total a') = idx by omega, ← b1] at c2
    have d := h.bare
    have d1 := cutAt_bare t.runs idx
    have d2 := cutAt_bare t'.runs idx
    rw [d, d2, c1, c2] at d1
    simp only [Prod.mk.injEq, List.map_cons, List.cons.injEq] at d1
    obtain ⟨k1, ⟨k2, _⟩, _⟩ := d1
    have k3 : total a = total a' := by rw [← total_bare a, ← k1, total_bare]
    have k4 : e'.size = e.size := (Ent.mk.inj k2).1
    have k5 : e'.slice = e.slice := (Ent.mk.inj k2).2.1
    rw [a2, b2]
    simp only [Except.map, a3, a4, a5, b3, b4, b5, k3, k4, k5]
  · rw [((get_panics_iff hE ht hints idx).1).1 (by omega), ((get_panics_iff hE' ht' hints' idx).1).1 (by omega)]

theorem spans_bare (o : Nat) (es : List (Ent S)) : Cow.spans o (es.map bare) = Cow.spans o es := by
  induction es generalizing o with
  | nil => rfl
  | cons e es ih => simp only [List.map_cons, Cow.spans, ih]; rfl

/-- C62: iteration over a range yields the same slices with the same ranges, however `next` and `next_back` are called.  (`P.Nodup`: the
nodes of a tree have different addresses.) -/
theorem params_iter (hE : E.ix = natIdx MAX) (hE' : E'.ix = natIdx MAX') {t t' : RleTree Nat S} (ht : Reach MAX E t)
    (ht' : Reach MAX' E' t') (hn : t.P.Nodup) (hn' : t'.P.Nodup) (h : Seen t t') (cursor cursor' : List Nat) (r : Range.Rng Nat) :
    ((∃ f, t.iter E cursor r = .error f) ↔ ∃ f, t'.iter E' cursor' r = .error f) ∧
    ∀ it it', t.iter E cursor r = .ok it → t'.iter E' cursor' r = .ok it' → ∀ calls, ∃ outs outs', runIter E.ix it calls = .ok outs ∧
      runIter E'.ix it' calls = .ok outs' ∧
      outs.map (Option.map fun x => (x.start, x.stop, x.slice)) = outs'.map (Option.map fun x => (x.start, x.stop, x.slice)) := by
  have hsz := (params_size hE hE' ht ht' h).1
  refine ⟨by rw [iter_panics_iff hE, iter_panics_iff hE', hsz], ?_⟩
  intro it it' h1 h2 calls
  by_cases hv : ValidRange (t.size E) r
  · obtain ⟨i, k1, k2⟩ := iter_deque_reach hE ht hn cursor hv
    obtain ⟨i', k1', k2'⟩ := iter_deque_reach hE' ht' hn' cursor' (hsz ▸ hv)
    rw [h1] at k1
    cases k1
    rw [h2] at k1'
    cases k1'
    refine ⟨_, _, k2 calls, k2' calls, ?_⟩
    rw [← Cow.runDeque_map, ← Cow.runDeque_map, Cow.expected_spans hE ht, Cow.expected_spans hE' ht']
    unfold Cow.spansIn
    rw [← spans_bare 0 t.runs, h.bare, spans_bare]
  · obtain ⟨f, hf⟩ := (iter_panics_iff hE t cursor r).2 hv
    rw [h1] at hf
    cases hf

/-! ## Histories -/

/-- Specification: the same insertion, with other cursors and other new nodes. -/
def Op.Like (o o' : Op S) : Prop := o.idx = o'.idx ∧ o.slice = o'.slice ∧ o.size = o'.size

/-- C62: the same history of insertions with other parameters returns as well, if the sizes fit, and gives a tree with the same content. -/
theorem params_history (hE : E.ix = natIdx MAX) (hE' : E'.ix = natIdx MAX') (hsl : E'.sl = E.sl) {t t' t1 : RleTree Nat S} (ht : Reach MAX E t)
    (ht' : Reach MAX' E' t') (h : Seen t t') {ops ops' : List (Op S)} (hl : List.Forall₂ Op.Like ops ops') (hs : ∀ o ∈ ops, o.size ≤ MAX)
    (hr : insertAll E t ops = .ok t1) (hb : t1.size E ≤ MAX') : ∃ t1', insertAll E' t' ops' = .ok t1' ∧ Seen t1 t1' ∧ Reach MAX E t1 ∧ Reach MAX' E' t1' := by
  induction hl generalizing t t' with
  | nil => cases hr; exact ⟨t', rfl, h, ht, ht'⟩
  | @cons o o' ops ops' ho hl ih =>
    simp only [insertAll, bind_ok_iff] at hr
    obtain ⟨⟨t2, out⟩, h1, hr⟩ := hr
    have hso := hs o (by simp)
    obtain ⟨c1, c2, c3, c4⟩ := insert_ok_conditions hE ht hso h1
    have ht2 := ht.insert hso h1
    have hgrow : t2.size E ≤ t1.size E := by
      clear ih hl
      have : ∀ {t t1 : RleTree Nat S} {ops : List (Op S)}, Reach MAX E t → (∀ o ∈ ops, o.size ≤ MAX) → insertAll E t ops = .ok t1 → t.size E ≤ t1.size E := by
        intro t t1 ops
        induction ops generalizing t with
        | nil => intro _ _ h; cases h; exact Nat.le_refl _
        | cons o ops ih =>
          intro ht hs h
          simp only [insertAll, bind_ok_iff] at h
          obtain ⟨⟨t3, out⟩, g1, g2⟩ := h
          have := ih (ht.insert (hs o (by simp)) g1) (fun o h => hs o (by simp [h])) g2
          have := insert_size hE ht (hs o (by simp)) g1
          omega
      exact this ht2 (fun o h => hs o (by simp [h])) hr
    have hsz := insert_size hE ht hso h1
    have hp := params_insert hE hE' hsl ht ht' h o.idx o.slice (size := o.size) c3 (by omega) o.nop o'.nop o.hints o'.hints o.world o'.world
    rw [h1] at hp
    cases hi : t'.insert E' o'.nop o'.hints o.idx o.slice o.size o'.world with
    | error f => rw [hi] at hp; cases hp
    | ok r =>
      obtain ⟨t2', out'⟩ := r
      rw [hi] at hp
      simp only [shown, Except.map, Except.ok.injEq] at hp
      have hle : t.size E ≤ MAX' := by omega
      obtain ⟨t1', k1, k2, k3, k4⟩ := ih ht2 (ht'.insert (by omega) hi) hp (fun o h => hs o (by simp [h])) hr
      refine ⟨t1', ?_, k2, k3, k4⟩
      obtain ⟨e1, e2, e3⟩ := ho
      simp only [insertAll, ← e1, ← e2, ← e3, hi, R.bind_ok, k1]

/-- C62: a tree with slice references, whatever references there are, does the same as a plain one. -/
theorem params_refs (hE : E.ix = natIdx MAX) (hE' : E'.ix = natIdx MAX') (hsl : E'.sl = E.sl) {t : RleTree Nat S} (ht : Reach MAX E t)
    {st : RefTree Nat S} {ids : List Nat} (hl : Live MAX' rcMax E' st ids) (h : Seen t st.tree) {idx : Nat} {s : S} {size : Nat} (hs : size ≤ MAX)
    (hb : t.size E + size ≤ MAX') {nop nop' : Bool} {hints hints' : List Nat} {w : World} {t1 : RleTree Nat S} {out : Inserted}
    (hr : t.insert E nop hints idx s size w = .ok (t1, out)) :
    ∃ st1 out', st.insert E' nop' hints' idx s size = .ok (st1, out') ∧ Seen t1 st1.tree ∧ Live MAX' rcMax E' st1 ids := by
  obtain ⟨c1, c2, c3, c4⟩ := insert_ok_conditions hE ht hs hr
  have hz := (size_eq_total hE ht).1
  have hT := h.total
  obtain ⟨m, hm, hmb⟩ := specInsert_ok_bare h.bare (insert_runs hE ht hs hr)
  obtain ⟨st1, out', k1, k2, k3⟩ := live_insert_returns hE' hl nop' hints' s (idx := idx) (by omega) c2 (by omega) (by rw [hsl]; exact hm)
  exact ⟨st1, out', k1, by unfold Seen; rw [k3, bare_iff.1 hmb], k2⟩

/-! ## Copy-on-write -/

namespace Cow

/-- Specification: the same operation, with other cursors. -/
def Op.Like : Op Nat S → Op Nat S → Prop
  | .new, .new => True
  | .insert i _ _ idx s z, .insert i' _ _ idx' s' z' => i = i' ∧ idx = idx' ∧ s = s' ∧ z = z'
  | .clone i, .clone i' => i = i'
  | .drop i, .drop i' => i = i'
  | _, _ => False

theorem specStep_like {sl : SliceOps Nat S} (hM : MAX ≤ MAX') {op op' : Op Nat S} (hl : Op.Like op op') {ss s1 : Lists S}
    (h : specStep MAX sl ss op = some s1) : specStep MAX' sl ss op' = some s1 := by
  cases op <;> cases op' <;> simp only [Op.Like] at hl
  · exact h
  · obtain ⟨rfl, rfl, rfl, rfl⟩ := hl
    simp only [specStep] at h ⊢
    split at h
    · split at h
      · rename_i hc
        rw [if_pos ⟨hc.1, hc.2.1, by omega⟩]
        exact h
      · cases h
    · cases h
  · subst hl; exact h
  · subst hl; exact h

theorem specRun_like {sl : SliceOps Nat S} (hM : MAX ≤ MAX') {ops ops' : List (Op Nat S)} (hl : List.Forall₂ Op.Like ops ops') {ss s1 : Lists S}
    (h : specRun MAX sl ss ops = some s1) : specRun MAX' sl ss ops' = some s1 := by
  induction hl generalizing ss with
  | nil => exact h
  | cons ho _ ih =>
    simp only [specRun, List.foldlM_cons, Option.bind_eq_bind, Option.bind_eq_some_iff] at h ⊢
    obtain ⟨s2, h1, h2⟩ := h
    exact ⟨s2, specStep_like hM ho h1, ih h2⟩

/-- C62: a program of insertions, clones and drops gives trees with the same content with and without copy-on-write, and with other numbers
of keys per node, other (not smaller) integer types and other cursors.  The one difference is the limit to the number of sharers. -/
theorem params_program (hE : E.ix = natIdx MAX) (hE' : E'.ix = natIdx MAX') (hsl : E'.sl = E.sl) (hM : 1 ≤ E.M) (hM1 : E.M ≤ 127)
    (hM' : 1 ≤ E'.M) (hM1' : E'.M ≤ 127) (hmax : MAX ≤ MAX') {imax : Nat} (imax' : Nat) {cow : Bool} (cow' : Bool) {ops ops' : List (Op Nat S)}
    (hl : List.Forall₂ Op.Like ops ops') (hops : ∀ op ∈ ops, op.fits MAX) {st : St Nat S} (h : St.run E imax cow St.init ops = .ok st) :
    (cow' = true ∧ St.run E' imax' cow' St.init ops' = .error tooMany) ∨
    ∃ st', St.run E' imax' cow' St.init ops' = .ok st' ∧ st.trees.length = st'.trees.length ∧ ∀ i,
      (st.trees[i]? = some none ∧ st'.trees[i]? = some none) ∨ st.trees[i]? = none ∨
      ∃ t t', st.view i = .ok t ∧ st'.view i = .ok t' ∧ Reach MAX E t ∧ Reach MAX' E' t' ∧ Seen t t' := by
  obtain ⟨ss, hss, hr⟩ := run_sound hE hM hM1 hops h
  have hops' : ∀ op ∈ ops', op.fits MAX' := by
    clear h hss hr
    induction hl with
    | nil => simp
    | @cons o o' _ _ ho _ ih =>
      intro op hop
      simp only [List.mem_cons] at hop
      rcases hop with rfl | hop
      · have h1 := hops o (by simp)
        cases o <;> cases op <;> simp only [Op.Like] at ho
        · trivial
        · obtain ⟨rfl, rfl, rfl, rfl⟩ := ho
          simp only [Op.fits] at h1 ⊢
          omega
        · trivial
        · trivial
      · exact ih (fun op h => hops op (by simp [h])) op hop
  rcases run_refines (imax := imax') hE' hM' hM1' cow' hops' (by rw [hsl]; exact specRun_like hmax hl hss) with ⟨st', k1, k2⟩ | ⟨k1, k2⟩
  · refine .inr ⟨st', k1, by rw [hr.len, k2.len], fun i => ?_⟩
    rcases hi : ss[i]? with _ | _ | es
    · refine .inr (.inl ?_)
      rw [List.getElem?_eq_none_iff] at hi ⊢
      rw [hr.len]; exact hi
    · exact .inl ⟨hr.gone i hi, k2.gone i hi⟩
    · obtain ⟨t, a1, a2, a3⟩ := hr.view i es hi
      obtain ⟨t', b1, b2, b3⟩ := k2.view i es hi
      exact .inr (.inr ⟨t, t', a1, b1, a2, b2, by unfold Seen; rw [a3, b3]⟩)
  · exact .inl ⟨k1, k2⟩

/-! ## Examples -/

/-- The example program: one key per node and copy-on-write, or three keys, a wider integer type, full cursors and deep copies. -/
example : ∃ st st', St.run exEnv 1000 true St.init exProg = .ok st ∧ St.run ⟨natIdx 1000, constSl Char, 3, false⟩ 0 false St.init exProg = .ok st' ∧
    ∃ t t', st.view 2 = .ok t ∧ st'.view 2 = .ok t' ∧ Seen t t' := by
  have hlike : List.Forall₂ Op.Like exProg exProg := by
    rw [List.forall₂_same]
    intro op _
    cases op <;> simp [Op.Like]
  cases hr : St.run exEnv 1000 true St.init exProg with
  | error f =>
    have h : (St.run exEnv 1000 true St.init exProg).toBool = true := by decide +kernel
    rw [hr] at h; cases h
  | ok st =>
    rcases params_program (E := exEnv) (E' := ⟨natIdx 1000, constSl Char, 3, false⟩) (MAX := 255) (MAX' := 1000) rfl rfl rfl (by decide) (by decide) (by decide) (by decide)
      (by decide) 0 false hlike (by
        intro op h
        simp only [exProg, List.mem_cons, List.not_mem_nil, or_false] at h
        rcases h with rfl | rfl | rfl | rfl | rfl | rfl | rfl | rfl | rfl | rfl | rfl | rfl | rfl <;> simp [Op.fits]) hr with ⟨h, _⟩ | ⟨st', h1, h2, h3⟩
    · cases h
    · refine ⟨st, st', rfl, h1, ?_⟩
      have hv : ((St.run exEnv 1000 true St.init exProg >>= fun st => .ok (st.trees[2]?.map Option.isSome))) = .ok (some true) := by decide +kernel
      rw [hr, R.bind_ok] at hv
      simp only [Except.ok.injEq] at hv
      rcases h3 2 with ⟨g, _⟩ | g | ⟨t, t', g1, g2, _, _, g3⟩
      · rw [g] at hv; cases hv
      · rw [g] at hv; cases hv
      · exact ⟨t, t', g1, g2, g3⟩

end Cow

/-- The history of `exReach` with one key per node in `u8`, or three keys in a wider type. -/
example : ∃ t t', insertAll exEnv ⟨none⟩ exOps = .ok t ∧ insertAll ⟨natIdx 1000, constSl Char, 3, false⟩ ⟨none⟩ exOps = .ok t' ∧ Seen t t' ∧
    ∀ hints hints' idx, (t.get exEnv hints idx).map (fun x => (x.start, x.stop, x.slice)) =
      (t'.get ⟨natIdx 1000, constSl Char, 3, false⟩ hints' idx).map fun x => (x.start, x.stop, x.slice) := by
  obtain ⟨t, h1, h2, h3⟩ := exReach
  have hlike : List.Forall₂ Op.Like exOps exOps := by
    rw [List.forall₂_same]; exact fun _ _ => ⟨rfl, rfl, rfl⟩
  obtain ⟨t', k1, k2, k3, k4⟩ := params_history (E := exEnv) (E' := ⟨natIdx 1000, constSl Char, 3, false⟩) (MAX := 255) (MAX' := 1000) rfl rfl rfl
    exEmpty (.empty (t := ⟨none⟩) rfl) rfl hlike (by decide) h1 (by
      rw [(size_eq_total (E := exEnv) (MAX := 255) rfl h2).1]
      have : total t.runs = ((t.runs.map (fun e => (e.size, e.slice))).map (·.1)).sum := by
        simp [total, Function.comp_def]
      rw [this, h3]; decide)
  exact ⟨t, t', h1, k1, k2, fun hints hints' idx => params_get (E := exEnv) (MAX := 255) (MAX' := 1000) rfl rfl k3 k4 k2 hints hints' idx⟩

/-- A tree with slice references enabled: insertion as into the plain tree, and iteration with other cursors. -/
example : ∃ st st1 out, Live 255 1000 exRefEnv st [] ∧ st.tree.runs.length = 4 ∧ st.insert exRefEnv true [7] 1 'z' 3 = .ok (st1, out) ∧
    (∀ t1 out', st.tree.insert exRefEnv false [] 1 'z' 3 exWorld = .ok (t1, out') → Seen t1 st1.tree) ∧
    ∀ cursor cursor' r it it', st.tree.iter exRefEnv cursor r = .ok it → st.tree.iter exRefEnv cursor' r = .ok it' → ∀ calls,
      ∃ outs outs', runIter exRefEnv.ix it calls = .ok outs ∧ runIter exRefEnv.ix it' calls = .ok outs' ∧
        outs.map (Option.map fun x => (x.start, x.stop, x.slice)) = outs'.map (Option.map fun x => (x.start, x.stop, x.slice)) := by
  obtain ⟨st, _, hl, hr⟩ := exLive0
  have hre := (hl.inv (E := exRefEnv) (MAX := 255) rfl).reach
  have hn := (hl.inv (E := exRefEnv) (MAX := 255) rfl).own.addrs
  have hsz := (size_eq_total (E := exRefEnv) (MAX := 255) rfl hre).1
  have ht : total st.tree.runs + 3 ≤ 255 := by rw [hr]; decide
  cases hi : st.tree.insert exRefEnv false [] 1 'z' 3 exWorld with
  | error f =>
    exfalso
    have := (insert_fails_iff (E := exRefEnv) (MAX := 255) rfl hre false [] 1 'z' (size := 3) (by omega) exWorld).1 ⟨f, hi⟩
    rw [hsz] at this
    have h1 : 1 ≤ total st.tree.runs := by rw [hr]; decide
    rcases this with g | g | g | g
    · omega
    · omega
    · omega
    · obtain ⟨_, A, l, r, B, x, y, g1, g2, g3, _⟩ := g
      have hd : ∀ e ∈ st.tree.runs, e.slice ≠ 'z' := by rw [hr]; decide
      have := hd l (by rw [g1]; simp)
      simp only [exRefEnv, constSl] at g3
      split at g3
      · rename_i hz
        exact this (by simpa using hz)
      · cases g3
  | ok r =>
    obtain ⟨t1, out⟩ := r
    obtain ⟨st1, out', k1, k2, _⟩ := params_refs (E := exRefEnv) (E' := exRefEnv) (MAX := 255) (MAX' := 255) rfl rfl rfl hre hl rfl (by omega)
      (by rw [hsz]; exact ht) (nop' := true) (hints' := [7]) hi
    refine ⟨st, st1, out', hl, by rw [hr]; rfl, k1, fun t2 o h => (by rw [hi] at h; cases h; exact k2), fun cursor cursor' r => ?_⟩
    exact (params_iter (E := exRefEnv) (E' := exRefEnv) (MAX := 255) (MAX' := 255) rfl rfl hre hre hn hn rfl cursor cursor' r).2

end Sherman
