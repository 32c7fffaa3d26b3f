import Verif.CowState
/-!
# Programs with several trees: C22-C24

The specification of a program is a list of lists of runs, one for each tree variable: cloning copies a list, insertion changes one list,
dropping forgets one.  Memory with shared nodes and counts refines it.
-/
namespace Sherman.Cow
variable {S : Type}

/-! ## Specification -/

/-- Tree variables; `none` after `drop`. -/
abbrev Lists (S : Type) := List (Option (List (Ent S)))

/-- One operation on lists of runs; `none` where the operation may not return: index out of bounds, size zero, total above `MAX`, the
unimplemented double join, or a variable that is not in use. -/
def specStep (MAX : Nat) (sl : SliceOps Nat S) (ss : Lists S) : Op Nat S → Option (Lists S)
  | .new => some (ss ++ [some []])
  | .insert i _ _ idx s z =>
    match ss[i]? with
    | some (some es) =>
      if idx ≤ total es ∧ 0 < z ∧ total es + z ≤ MAX then
        match specInsert sl es idx s z with
        | .ok es' => some (ss.set i (some es'))
        | .error _ => none
      else none
    | _ => none
  | .clone i =>
    match ss[i]? with
    | some (some es) => some (ss ++ [some es])
    | _ => none
  | .drop i =>
    match ss[i]? with
    | some (some _) => some (ss.set i none)
    | _ => none

def specRun (MAX : Nat) (sl : SliceOps Nat S) (ss : Lists S) (ops : List (Op Nat S)) : Option (Lists S) :=
  ops.foldlM (specStep MAX sl) ss

/-- Sizes that values of the index type can have. -/
def Op.fits (MAX : Nat) : Op Nat S → Prop
  | .insert _ _ _ _ _ z => z ≤ MAX
  | _ => True

/-- Faults that are orderly: panics, not violated preconditions of unsafe code (access to freed nodes among them) or wrapped arithmetic. -/
def _root_.Sherman.Fault.orderly : Fault → Bool
  | .panic _ => true
  | .todo _ => true
  | .overflow => true
  | _ => false

/-- The runs that a program sees in its trees. -/
structure Rel (MAX : Nat) (E : Env Nat S) (st : St Nat S) (ss : Lists S) : Prop where
  ok : st.Ok
  len : st.trees.length = ss.length
  gone : ∀ i : Nat, ss[i]? = some none → st.trees[i]? = some none
  view : ∀ (i : Nat) (es : List (Ent S)), ss[i]? = some (some es) → ∃ t, st.view i = .ok t ∧ Reach MAX E t ∧ t.runs = es

theorem Rel.init (MAX : Nat) (E : Env Nat S) : Rel MAX E St.init [] where
  ok := by
    refine ⟨⟨fun x => ?_, ?_, ?_, ?_, ?_⟩, fun i r h => by simp [St.init] at h⟩
    · simp [St.init, cnt, refsIn, held]
    all_goals intro p nd h; simp [St.init] at h
  len := rfl
  gone := by simp
  view := by simp

theorem view_tree {I : Type} {st : St I S} {i : Nat} {t : RleTree I S} (hv : st.view i = .ok t) : ∃ o, st.trees[i]? = some (some o) := by
  rcases St.view_cases hv with ⟨h, -⟩ | ⟨r, _, h, -⟩
  · exact ⟨_, h⟩
  · exact ⟨_, h⟩

theorem Rel.noTree {MAX : Nat} {E : Env Nat S} {st : St Nat S} {ss : Lists S} (h : Rel MAX E st ss) {i : Nat}
    (hi : ∀ es, ss[i]? ≠ some (some es)) (r : Option CRoot) : st.trees[i]? ≠ some (some r) := by
  intro hr
  have hl := lt_of_get hr
  rw [h.len] at hl
  cases hs : ss[i]? with
  | none => rw [List.getElem?_eq_none_iff] at hs; omega
  | some o =>
    cases o with
    | none => rw [h.gone i hs] at hr; cases hr
    | some es => exact hi es hs

theorem _root_.Sherman.RleTree.Alike.runs {E : Env Nat S} {MAX : Nat} (hE : E.ix = natIdx MAX) {t t' : RleTree Nat S} (e : t.Alike t')
    (ht : Reach MAX E t) : t'.runs = t.runs := (e.holds (ht.holds hE).2.1).runs

/-- One step of a program on trees in memory does what the specification says. -/
theorem step_refines {MAX imax : Nat} {E : Env Nat S} (hE : E.ix = natIdx MAX) (hM : 1 ≤ E.M) (hM' : E.M ≤ 127) (cow : Bool)
    {st : St Nat S} {ss : Lists S} (h : Rel MAX E st ss) (op : Op Nat S) (hop : op.fits MAX) :
    (∀ ss', specStep MAX E.sl ss op = some ss' →
      (∃ st', st.step E imax cow op = .ok st' ∧ Rel MAX E st' ss') ∨
        (st.step E imax cow op = .error tooMany ∧ (cow = false → ¬ Uno st.heap))) ∧
    (specStep MAX E.sl ss op = none → ∃ f, st.step E imax cow op = .error f ∧ f.orderly = true) := by
  cases op with
  | new =>
    refine ⟨fun ss' hs => ?_, fun hs => by cases hs⟩
    cases hs
    left
    obtain ⟨h1, h2, h3⟩ := new_step (E := E) h.ok hM hM'
    refine ⟨_, h1, h2, by simp [h.len], fun i hi => ?_, fun i es hi => ?_⟩
    · by_cases hl : i < ss.length
      · rw [List.getElem?_append_left hl] at hi
        rw [(h3 i (by rw [h.len]; exact hl)).1]
        exact h.gone i hi
      · have := lt_of_get hi
        obtain rfl : i = ss.length := by simp at this; omega
        simp at hi
    · by_cases hl : i < ss.length
      · rw [List.getElem?_append_left hl] at hi
        obtain ⟨t, k1, k2⟩ := h.view i es hi
        exact ⟨t, (h3 i (by rw [h.len]; exact hl)).2 t k1, k2⟩
      · have := lt_of_get hi
        obtain rfl : i = ss.length := by simp at this; omega
        simp at hi
        subst hi
        refine ⟨⟨none⟩, St.view_none (by rw [← h.len]; simp), .empty ?_, rfl⟩
        simp [RleTree.newEmpty, check, hM, hM']
  | insert i nop hints idx s z =>
    simp only [St.step]
    simp only [Op.fits] at hop
    have hno : (∀ es, ss[i]? ≠ some (some es)) →
        st.insert E imax i nop hints idx s z = .error (.panic "no such tree") := by
      intro hn
      simp only [St.insert, St.tree_error (h.noTree hn)]; rfl
    cases hsi : ss[i]? with
    | none =>
      refine ⟨fun ss' hs => by simp [specStep, hsi] at hs, fun _ => ⟨_, hno (by simp [hsi]), rfl⟩⟩
    | some o =>
    cases o with
    | none =>
      refine ⟨fun ss' hs => by simp [specStep, hsi] at hs, fun _ => ⟨_, hno (by simp [hsi]), rfl⟩⟩
    | some es =>
      obtain ⟨t, hv, ht, rfl⟩ := h.view i es hsi
      obtain ⟨_, hH, hb⟩ := ht.holds hE
      have hil := lt_of_get hsi
      have spec : ∀ ss', specStep MAX E.sl ss (.insert i nop hints idx s z) = some ss' ↔
          idx ≤ total t.runs ∧ 0 < z ∧ total t.runs + z ≤ MAX ∧ ∃ es', specInsert E.sl t.runs idx s z = .ok es' ∧ ss' = ss.set i (some es') := by
        intro ss'
        simp only [specStep, hsi]
        split
        · rename_i hc
          cases hsp : specInsert E.sl t.runs idx s z with
          | ok es' => simp [hc, eq_comm]
          | error f => simp
        · rename_i hc
          simp only [reduceCtorEq, false_iff]
          rintro ⟨a, b, c, -⟩
          exact hc ⟨a, b, c⟩
      rcases insert_step (imax := imax) h.ok hv hH.rep nop hints idx s z with
        ⟨st', t1, t2, w, o, e, al, hr, hv', ok', hl', oth⟩ | ⟨e, hu⟩ | ⟨f, t1, w, e, al, hr⟩
      · -- the insertion returned
        have ht1 : Reach MAX E t1 := .alike al ht
        have hruns := insert_runs hE ht1 hop hr
        rw [al.runs hE ht] at hruns
        obtain ⟨g1, g2, g3, -⟩ := insert_ok_conditions hE ht1 hop hr
        rw [(size_eq_total hE ht1).1, al.runs hE ht] at g1 g3
        have hsp : specStep MAX E.sl ss (.insert i nop hints idx s z) = some (ss.set i (some t2.runs)) :=
          (spec _).2 ⟨g1, g2, g3, _, hruns, rfl⟩
        refine ⟨fun ss' hs => ?_, fun hs => by rw [hs] at hsp; cases hsp⟩
        rw [hsp] at hs
        cases hs
        refine .inl ⟨st', e, ok', by simp [hl', h.len], fun j hj => ?_, fun j ej hj => ?_⟩
        · by_cases hji : j = i
          · subst hji
            rw [List.getElem?_set_self hil] at hj; cases hj
          · rw [List.getElem?_set_ne (Ne.symm hji)] at hj
            rw [(oth j hji (by rw [h.len]; exact lt_of_get hj)).1]
            exact h.gone j hj
        · by_cases hji : j = i
          · subst hji
            rw [List.getElem?_set_self hil] at hj; cases hj
            exact ⟨t2, hv', .insert ht1 hop hr, rfl⟩
          · rw [List.getElem?_set_ne (Ne.symm hji)] at hj
            obtain ⟨tj, k1, k2, k3⟩ := h.view j ej hj
            obtain ⟨tj', k4, k5⟩ := (oth j hji (by rw [h.len]; exact lt_of_get hj)).2 tj k1
            exact ⟨tj', k4, .alike k5 k2, by rw [k5.runs hE k2, k3]⟩
      · exact ⟨fun _ _ => .inr ⟨e, fun _ => hu⟩, fun _ => ⟨_, e, rfl⟩⟩
      · have ht1 : Reach MAX E t1 := .alike al ht
        have hruns := al.runs hE ht
        refine ⟨fun ss' hs => ?_, fun _ => ⟨f, e, ?_⟩⟩
        · obtain ⟨g1, g2, g3, es', g4, rfl⟩ := (spec ss').1 hs
          rw [← hruns] at g1 g3 g4
          obtain ⟨t', o, g5, -⟩ := insert_returns hE ht1 nop hints s w g1 g2 g3 g4
          rw [g5] at hr; cases hr
        · rcases insert_fault_cases hE ht1 hop hr with k | k | k | k
          · rw [k.2]; rfl
          · rw [k.2.2]; rfl
          · rw [k.2.2.2]; rfl
          · rw [k.2.2.2]; rfl
  | clone i =>
    simp only [St.step]
    have hno : (∀ es, ss[i]? ≠ some (some es)) →
        (if cow = true then st.cloneCow imax i else st.clonePlain i) = .error (.panic "no such tree") := by
      intro hn
      split
      · simp only [St.cloneCow, St.tree_error (h.noTree hn)]; rfl
      · simp only [St.clonePlain, St.tree_error (h.noTree hn)]; rfl
    cases hsi : ss[i]? with
    | none =>
      refine ⟨fun ss' hs => by simp [specStep, hsi] at hs, fun _ => ⟨_, hno (by simp [hsi]), rfl⟩⟩
    | some o =>
    cases o with
    | none =>
      refine ⟨fun ss' hs => by simp [specStep, hsi] at hs, fun _ => ⟨_, hno (by simp [hsi]), rfl⟩⟩
    | some es =>
      obtain ⟨t, hv, ht, hr⟩ := h.view i es hsi
      obtain ⟨o, hi⟩ := view_tree hv
      refine ⟨fun ss' hs => ?_, fun hs => by simp [specStep, hsi] at hs⟩
      simp only [specStep, hsi, Option.some.injEq] at hs
      subst hs
      have fin : ∀ st', CloneOf st st' i → Rel MAX E st' (ss ++ [some es]) := by
        rintro st' ⟨c1, c2, c3, c4⟩
        refine ⟨c1, by simp [c2, h.len], fun j hj => ?_, fun j ej hj => ?_⟩
        · by_cases hl : j < ss.length
          · rw [List.getElem?_append_left hl] at hj
            rw [(c3 j (by rw [h.len]; exact hl)).1]
            exact h.gone j hj
          · have := lt_of_get hj
            obtain rfl : j = ss.length := by simp at this; omega
            simp at hj
        · by_cases hl : j < ss.length
          · rw [List.getElem?_append_left hl] at hj
            obtain ⟨t, k1, k2⟩ := h.view j ej hj
            exact ⟨t, (c3 j (by rw [h.len]; exact hl)).2 t k1, k2⟩
          · have := lt_of_get hj
            obtain rfl : j = ss.length := by simp at this; omega
            simp at hj
            subst hj
            obtain ⟨t', k1, k2⟩ := c4 t hv
            rw [← h.len]
            exact ⟨t', k1, .alike k2 ht, by rw [k2.runs hE ht, hr]⟩
      cases cow with
      | true =>
        rcases cloneCow_step (imax := imax) h.ok hi with ⟨st', e, hc⟩ | e
        · exact .inl ⟨st', e, fin st' hc⟩
        · exact .inr ⟨e, fun h => by cases h⟩
      | false =>
        obtain ⟨st', e, hc⟩ := clonePlain_step h.ok hi
        exact .inl ⟨st', e, fin st' hc⟩
  | drop i =>
    simp only [St.step]
    have hno : (∀ es, ss[i]? ≠ some (some es)) → st.drop i = .error (.panic "no such tree") := by
      intro hn
      simp only [St.drop, St.tree_error (h.noTree hn)]; rfl
    cases hsi : ss[i]? with
    | none =>
      refine ⟨fun ss' hs => by simp [specStep, hsi] at hs, fun _ => ⟨_, hno (by simp [hsi]), rfl⟩⟩
    | some o =>
    cases o with
    | none =>
      refine ⟨fun ss' hs => by simp [specStep, hsi] at hs, fun _ => ⟨_, hno (by simp [hsi]), rfl⟩⟩
    | some es =>
      obtain ⟨t, hv, ht, hr⟩ := h.view i es hsi
      obtain ⟨o, hi⟩ := view_tree hv
      refine ⟨fun ss' hs => ?_, fun hs => by simp [specStep, hsi] at hs⟩
      simp only [specStep, hsi, Option.some.injEq] at hs
      subst hs
      obtain ⟨st', e, c1, c2, -, c3⟩ := drop_step h.ok hi
      refine .inl ⟨st', e, c1, by simp [c2, h.len], fun j hj => ?_, fun j ej hj => ?_⟩
      · rw [c2]
        by_cases hji : j = i
        · subst hji
          exact List.getElem?_set_self (lt_of_get hi)
        · rw [List.getElem?_set_ne (Ne.symm hji)] at hj ⊢
          exact h.gone j hj
      · by_cases hji : j = i
        · subst hji
          rw [List.getElem?_set_self (lt_of_get hsi)] at hj; cases hj
        · rw [List.getElem?_set_ne (Ne.symm hji)] at hj
          obtain ⟨tj, k1, k2⟩ := h.view j ej hj
          exact ⟨tj, c3 j hji tj k1, k2⟩

/-! ## Programs -/

/-- C22, C23: a program that the specification allows does what it says, seen through any of its trees; the only other outcome
is the panic about too many references, and only with copy-on-write. -/
theorem run_refines {MAX imax : Nat} {E : Env Nat S} (hE : E.ix = natIdx MAX) (hM : 1 ≤ E.M) (hM' : E.M ≤ 127) (cow : Bool)
    {ops : List (Op Nat S)} (hops : ∀ op ∈ ops, op.fits MAX) {ss : Lists S} (hs : specRun MAX E.sl [] ops = some ss) :
    (∃ st, St.run E imax cow St.init ops = .ok st ∧ Rel MAX E st ss) ∨ (cow = true ∧ St.run E imax cow St.init ops = .error tooMany) := by
  have key : ∀ (ops : List (Op Nat S)) (st : St Nat S) (s0 : Lists S), (∀ op ∈ ops, op.fits MAX) → Rel MAX E st s0 →
      (cow = false → Uno st.heap) → specRun MAX E.sl s0 ops = some ss →
      (∃ st', St.run E imax cow st ops = .ok st' ∧ Rel MAX E st' ss) ∨ (cow = true ∧ St.run E imax cow st ops = .error tooMany) := by
    intro ops
    induction ops with
    | nil => intro st s0 _ hr _ hs; cases hs; exact .inl ⟨st, rfl, hr⟩
    | cons op ops ih =>
      intro st s0 hf hr hu hs
      simp only [specRun, List.foldlM_cons, Option.bind_eq_bind, Option.bind_eq_some_iff] at hs
      obtain ⟨s1, h1, hs⟩ := hs
      simp only [St.run, List.foldlM_cons]
      rcases (step_refines (imax := imax) hE hM hM' cow hr op (hf op (by simp))).1 s1 h1 with ⟨st1, e, hr1⟩ | ⟨e, hn⟩
      · rw [e, R.bind_ok]
        exact ih st1 s1 (fun o ho => hf o (by simp [ho])) hr1 (fun hc => by subst hc; exact step_uno (hu rfl) e) hs
      · right
        have hc : cow = true := by
          cases cow with
          | true => rfl
          | false => exact absurd (hu rfl) (hn rfl)
        rw [e]
        exact ⟨hc, rfl⟩
  exact key ops _ _ hops (Rel.init MAX E) (fun _ x nd h => by cases h) hs

/-- C22-C24: whatever a program did, if it has returned then the specification allowed it and describes its trees. -/
theorem run_sound {MAX imax : Nat} {E : Env Nat S} (hE : E.ix = natIdx MAX) (hM : 1 ≤ E.M) (hM' : E.M ≤ 127) {cow : Bool}
    {ops : List (Op Nat S)} (hops : ∀ op ∈ ops, op.fits MAX) {st : St Nat S} (h : St.run E imax cow St.init ops = .ok st) :
    ∃ ss, specRun MAX E.sl [] ops = some ss ∧ Rel MAX E st ss := by
  have key : ∀ (ops : List (Op Nat S)) (st0 : St Nat S) (s0 : Lists S), (∀ op ∈ ops, op.fits MAX) → Rel MAX E st0 s0 →
      St.run E imax cow st0 ops = .ok st → ∃ ss, specRun MAX E.sl s0 ops = some ss ∧ Rel MAX E st ss := by
    intro ops
    induction ops with
    | nil => intro st0 s0 _ hr h; cases h; exact ⟨s0, rfl, hr⟩
    | cons op ops ih =>
      intro st0 s0 hf hr h
      simp only [St.run, List.foldlM_cons, bind_ok_iff] at h
      obtain ⟨st1, h1, h⟩ := h
      have hstep := step_refines (imax := imax) hE hM hM' cow hr op (hf op (by simp))
      cases hs : specStep MAX E.sl s0 op with
      | none =>
        obtain ⟨f, e, -⟩ := hstep.2 hs
        rw [e] at h1; cases h1
      | some s1 =>
        rcases hstep.1 s1 hs with ⟨st2, e, hr1⟩ | ⟨e, -⟩
        · rw [e] at h1; cases h1
          obtain ⟨ss, k1, k2⟩ := ih _ s1 (fun o ho => hf o (by simp [ho])) hr1 h
          refine ⟨ss, ?_, k2⟩
          simp only [specRun, List.foldlM_cons, hs]
          exact k1
        · rw [e] at h1; cases h1
  exact key ops _ _ hops (Rel.init MAX E) h

/-- C24: no program accesses a freed node, frees one twice or violates another precondition of unsafe code; it may only panic. -/
theorem run_orderly {MAX imax : Nat} {E : Env Nat S} (hE : E.ix = natIdx MAX) (hM : 1 ≤ E.M) (hM' : E.M ≤ 127) {cow : Bool}
    {ops : List (Op Nat S)} (hops : ∀ op ∈ ops, op.fits MAX) {f : Fault} (h : St.run E imax cow St.init ops = .error f) :
    f.orderly = true := by
  have key : ∀ (ops : List (Op Nat S)) (st0 : St Nat S) (s0 : Lists S), (∀ op ∈ ops, op.fits MAX) → Rel MAX E st0 s0 →
      St.run E imax cow st0 ops = .error f → f.orderly = true := by
    intro ops
    induction ops with
    | nil => intro st0 s0 _ hr h; cases h
    | cons op ops ih =>
      intro st0 s0 hf hr h
      simp only [St.run, List.foldlM_cons] at h
      have hstep := step_refines (imax := imax) hE hM hM' cow hr op (hf op (by simp))
      cases hs : specStep MAX E.sl s0 op with
      | none =>
        obtain ⟨g, e, hg⟩ := hstep.2 hs
        rw [e] at h; cases h
        exact hg
      | some s1 =>
        rcases hstep.1 s1 hs with ⟨st2, e, hr1⟩ | ⟨e, -⟩
        · rw [e, R.bind_ok] at h
          exact ih _ s1 (fun o ho => hf o (by simp [ho])) hr1 h
        · rw [e] at h; cases h; rfl
  exact key ops _ _ hops (Rel.init MAX E) h

/-- The runs of tree `i`. -/
def runsOf (st : St Nat S) (i : Nat) : R (List (Ent S)) := do
  let t ← st.view i
  pure t.runs

theorem Rel.runsOf {MAX : Nat} {E : Env Nat S} {st : St Nat S} {ss : Lists S} (h : Rel MAX E st ss) {i : Nat} {es : List (Ent S)}
    (hi : ss[i]? = some (some es)) : runsOf st i = .ok es := by
  obtain ⟨t, h1, -, h2⟩ := h.view i es hi
  simp only [Cow.runsOf, h1, R.bind_ok, h2]; rfl

/-- C23 (and C22): an insertion into one tree changes its runs as specified, and those of no other tree, whatever happened before. -/
theorem insert_isolated {MAX imax : Nat} {E : Env Nat S} (hE : E.ix = natIdx MAX) (hM : 1 ≤ E.M) (hM' : E.M ≤ 127) {cow : Bool}
    {ops : List (Op Nat S)} (hops : ∀ op ∈ ops, op.fits MAX) {st st' : St Nat S} (h : St.run E imax cow St.init ops = .ok st)
    {i : Nat} {nop : Bool} {hints : List Nat} {idx : Nat} {s : S} {z : Nat} (hz : z ≤ MAX)
    (h' : st.step E imax cow (.insert i nop hints idx s z) = .ok st') :
    (∃ es es', runsOf st i = .ok es ∧ specInsert E.sl es idx s z = .ok es' ∧ runsOf st' i = .ok es') ∧
    ∀ j es, j ≠ i → runsOf st j = .ok es → runsOf st' j = .ok es := by
  obtain ⟨ss, h1, h2⟩ := run_sound hE hM hM' hops h
  have hstep := step_refines (imax := imax) hE hM hM' cow h2 (.insert i nop hints idx s z) hz
  cases hs : specStep MAX E.sl ss (.insert i nop hints idx s z) with
  | none =>
    obtain ⟨f, e, -⟩ := hstep.2 hs
    rw [e] at h'; cases h'
  | some s1 =>
    rcases hstep.1 s1 hs with ⟨st2, e, hr1⟩ | ⟨e, -⟩
    swap
    · rw [e] at h'; cases h'
    rw [e] at h'; cases h'
    simp only [specStep] at hs
    split at hs
    · rename_i es hi
      split at hs
      · cases hsp : specInsert E.sl es idx s z with
        | error f => rw [hsp] at hs; cases hs
        | ok es' =>
          rw [hsp] at hs
          cases hs
          refine ⟨⟨es, es', h2.runsOf hi, hsp, hr1.runsOf (List.getElem?_set_self (lt_of_get hi))⟩, fun j ej hji hj => ?_⟩
          simp only [runsOf, bind_ok_iff] at hj
          obtain ⟨t, hv, hj⟩ := hj
          cases hj
          have hsj : ∃ ej, ss[j]? = some (some ej) := by
            by_contra hc
            obtain ⟨o, ho⟩ := view_tree hv
            exact h2.noTree (fun es he => hc ⟨es, he⟩) _ ho
          obtain ⟨ej, hej⟩ := hsj
          have e1 := h2.runsOf hej
          simp only [runsOf, hv, R.bind_ok, R.pure_eq] at e1
          rw [Except.ok.inj e1]
          exact hr1.runsOf (by rw [List.getElem?_set_ne (Ne.symm hji)]; exact hej)
      · cases hs
    · cases hs

/-- C22, C23: a clone has the runs of the original, and no tree changes when one is cloned or dropped. -/
theorem clone_runs {MAX imax : Nat} {E : Env Nat S} (hE : E.ix = natIdx MAX) (hM : 1 ≤ E.M) (hM' : E.M ≤ 127) {cow : Bool}
    {ops : List (Op Nat S)} (hops : ∀ op ∈ ops, op.fits MAX) {st st' : St Nat S} (h : St.run E imax cow St.init ops = .ok st)
    {i : Nat} (h' : st.step E imax cow (.clone i) = .ok st') :
    (∃ es, runsOf st i = .ok es ∧ runsOf st' st.trees.length = .ok es) ∧ ∀ j es, runsOf st j = .ok es → runsOf st' j = .ok es := by
  obtain ⟨ss, h1, h2⟩ := run_sound hE hM hM' hops h
  have hstep := step_refines (imax := imax) hE hM hM' cow h2 (.clone i) trivial
  cases hs : specStep MAX E.sl ss (.clone i) with
  | none =>
    obtain ⟨f, e, -⟩ := hstep.2 hs
    rw [e] at h'; cases h'
  | some s1 =>
    rcases hstep.1 s1 hs with ⟨st2, e, hr1⟩ | ⟨e, -⟩
    swap
    · rw [e] at h'; cases h'
    rw [e] at h'; cases h'
    simp only [specStep] at hs
    split at hs
    · rename_i es hi
      cases hs
      refine ⟨⟨es, h2.runsOf hi, hr1.runsOf (by rw [h2.len]; simp)⟩, fun j ej hj => ?_⟩
      simp only [runsOf, bind_ok_iff] at hj
      obtain ⟨t, hv, hj⟩ := hj
      cases hj
      have hsj : ∃ ej, ss[j]? = some (some ej) := by
        by_contra hc
        obtain ⟨o, ho⟩ := view_tree hv
        exact h2.noTree (fun es he => hc ⟨es, he⟩) _ ho
      obtain ⟨ej, hej⟩ := hsj
      have e1 := h2.runsOf hej
      simp only [runsOf, hv, R.bind_ok, R.pure_eq] at e1
      rw [Except.ok.inj e1]
      exact hr1.runsOf (by rw [List.getElem?_append_left (lt_of_get hej)]; exact hej)
    · cases hs

/-! ## Counts -/

/-- All references to the node at `x` that exist in memory: child slots of internal nodes, and root pointers of trees in use. -/
def allRefs (st : St Nat S) (x : Nat) : Nat :=
  ((List.range st.heap.next).map (fun q => match st.heap.mem q with
    | some nd => if nd.height = 0 then 0 else nd.kids.count x
    | none => 0)).sum +
  (st.trees.map (fun o => match o with
    | some (some r) => if x = r.p then 1 else 0
    | _ => 0)).sum

theorem sum_range_list (f : Nat → Nat) (n : Nat) : ∑ q ∈ Finset.range n, f q = ((List.range n).map f).sum := by
  induction n with
  | zero => rfl
  | succ n ih => rw [Finset.sum_range_succ, ih, List.range_succ]; simp

theorem allRefs_eq (st : St Nat S) (x : Nat) : allRefs st x = refsIn st.heap x + held st.trees x := by
  unfold allRefs refsIn held
  rw [sum_range_list]
  congr 2
  · refine List.map_congr_left (fun q _ => ?_)
    cases st.heap.mem q with
    | none => simp [refsOf]
    | some nd =>
      simp only [refsOf]
      split_ifs <;> simp
  · refine List.map_congr_left (fun o _ => ?_)
    rcases o with _ | _ | r <;> rfl

/-- C24: after any program, the count of every node in memory is the number of references to it and positive; what is referred to
has not been freed; a node of a plain tree has one reference. -/
theorem counts_exact {MAX imax : Nat} {E : Env Nat S} (hE : E.ix = natIdx MAX) (hM : 1 ≤ E.M) (hM' : E.M ≤ 127) {cow : Bool}
    {ops : List (Op Nat S)} (hops : ∀ op ∈ ops, op.fits MAX) {st : St Nat S} (h : St.run E imax cow St.init ops = .ok st) (x : Nat) :
    (∀ nd, st.heap.mem x = some nd → nd.count = allRefs st x ∧ 0 < nd.count) ∧ (0 < allRefs st x ↔ ∃ nd, st.heap.mem x = some nd) := by
  obtain ⟨ss, -, h2⟩ := run_sound hE hM hM' hops h
  have hc := h2.ok.inv.cnt x
  rw [← allRefs_eq] at hc
  have h1 : ∀ nd, st.heap.mem x = some nd → nd.count = allRefs st x ∧ 0 < nd.count := fun nd hm => by
    rw [cnt_some hm] at hc
    exact ⟨hc, h2.ok.inv.pos x nd hm⟩
  refine ⟨h1, fun h0 => ?_, fun ⟨nd, hm⟩ => by have := h1 nd hm; omega⟩
  cases hm : st.heap.mem x with
  | some nd => exact ⟨nd, rfl⟩
  | none => rw [cnt_none hm] at hc; omega

/-- C22: nodes of plain trees are never shared, neither between trees nor within one. -/
theorem plain_unshared {imax : Nat} {E : Env Nat S} {ops : List (Op Nat S)} {st : St Nat S} (h : St.run E imax false St.init ops = .ok st)
    {x : Nat} {nd : HNode Nat S} (hx : st.heap.mem x = some nd) : nd.count = 1 := by
  have key : ∀ (ops : List (Op Nat S)) (st0 : St Nat S), Uno st0.heap → St.run E imax false st0 ops = .ok st → Uno st.heap := by
    intro ops
    induction ops with
    | nil => intro st0 u h; cases h; exact u
    | cons op ops ih =>
      intro st0 u h
      simp only [St.run, List.foldlM_cons, bind_ok_iff] at h
      obtain ⟨st1, h1, h⟩ := h
      exact ih st1 (step_uno u h1) h
  exact key ops _ (fun x nd h => by cases h) h x nd hx

/-- C24, C31: when all trees have been dropped no node is left in memory. -/
theorem no_leak {MAX imax : Nat} {E : Env Nat S} (hE : E.ix = natIdx MAX) (hM : 1 ≤ E.M) (hM' : E.M ≤ 127) {cow : Bool}
    {ops : List (Op Nat S)} (hops : ∀ op ∈ ops, op.fits MAX) {st : St Nat S} (h : St.run E imax cow St.init ops = .ok st)
    (hd : ∀ o ∈ st.trees, o = none) (x : Nat) : st.heap.mem x = none := by
  obtain ⟨ss, -, h2⟩ := run_sound hE hM hM' hops h
  refine Inv.empty (H := st.heap) ?_ x
  have : held st.trees = fun _ => 0 := by
    funext x
    unfold held
    rw [List.sum_eq_zero_iff]
    intro w hw
    obtain ⟨o, ho, rfl⟩ := List.mem_map.1 hw
    rw [hd o ho]; rfl
  rw [← this]
  exact h2.ok.inv

/-! ## An example: three trees with shared nodes -/

/-- Trees of characters with `M = 1` over `u8`; enough insertions for several levels, then clones that are changed apart. -/
def exProg : List (Op Nat Char) :=
  [.new, .insert 0 false [] 0 'a' 1, .insert 0 false [] 1 'b' 1, .insert 0 false [] 2 'c' 1, .insert 0 false [] 3 'd' 1,
   .insert 0 false [] 4 'e' 1, .insert 0 false [] 5 'f' 1, .clone 0, .insert 1 false [] 2 'x' 1, .clone 1, .insert 0 true [] 6 'y' 1,
   .drop 1, .insert 2 false [] 0 'z' 1]

theorem exProg_spec : (specRun 255 (constSl Char) [] exProg).map (·.map (Option.map (·.map Ent.slice))) =
    some [some ['a', 'b', 'c', 'd', 'e', 'f', 'y'], none, some ['z', 'a', 'b', 'x', 'c', 'd', 'e', 'f']] := by decide

/-- With and without copy-on-write the program returns, so that the theorems above apply; its trees are as specified. -/
example (cow : Bool) : ∃ st, St.run exEnv 1000 cow St.init exProg = .ok st ∧
    (runsOf st 0).map (·.map Ent.slice) = .ok ['a', 'b', 'c', 'd', 'e', 'f', 'y'] ∧
    (runsOf st 2).map (·.map Ent.slice) = .ok ['z', 'a', 'b', 'x', 'c', 'd', 'e', 'f'] := by
  have h : ∀ cow, (St.run exEnv 1000 cow St.init exProg).toBool = true := by decide +kernel
  have h0 : ∀ cow, ((St.run exEnv 1000 cow St.init exProg >>= fun st => runsOf st 0).map (·.map Ent.slice)) =
      .ok ['a', 'b', 'c', 'd', 'e', 'f', 'y'] := by decide +kernel
  have h2 : ∀ cow, ((St.run exEnv 1000 cow St.init exProg >>= fun st => runsOf st 2).map (·.map Ent.slice)) =
      .ok ['z', 'a', 'b', 'x', 'c', 'd', 'e', 'f'] := by decide +kernel
  cases hr : St.run exEnv 1000 cow St.init exProg with
  | error f => have := h cow; rw [hr] at this; cases this
  | ok st =>
    have h0 := h0 cow
    have h2 := h2 cow
    rw [hr] at h0 h2
    exact ⟨st, rfl, h0, h2⟩

/-- Nodes are indeed shared on the way, also when the two trees have been changed apart: counts of all nodes before tree 1 is dropped. -/
example : (St.run exEnv 1000 true St.init (exProg.take 11)).map (fun st =>
      (List.range st.heap.next).filterMap (fun q => (st.heap.mem q).map HNode.count)) = .ok [2, 1, 1, 1, 2, 1, 1, 1, 1, 1] := by decide +kernel

/-- The bound on the number of references is what limits clones. -/
example : (St.run exEnv 1 true St.init [.new, .insert 0 false [] 0 'a' 1, .clone 0, .clone 0]).map (fun _ => ()) = .error tooMany := by
  decide +kernel

example : ∀ op ∈ exProg, op.fits 255 := by
  intro op h
  simp only [exProg, List.mem_cons, List.not_mem_nil, or_false] at h
  rcases h with rfl | rfl | rfl | rfl | rfl | rfl | rfl | rfl | rfl | rfl | rfl | rfl | rfl <;> simp [Op.fits]

end Sherman.Cow
