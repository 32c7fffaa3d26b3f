import Verif.Commute
import Verif.CowLimit
/-!
# Insertions at different places of clones

C63 for programs with several trees that share nodes: an insertion changes runs around its position only, and an insertion into one tree commutes
with all operations on other trees.
-/
namespace Sherman.Cow
variable {S : Type}

/-- The trees that an operation works on; `clone` reads its tree. -/
def Op.names : Op Nat S → Nat → Prop
  | .new, _ => False
  | .insert i .., k => i = k
  | .clone i, k => i = k
  | .drop i, k => i = k

/-- A program that returned had a tree to insert into, and a place in it. -/
theorem specStep_insert {MAX : Nat} {sl : SliceOps Nat S} {ss ss' : Lists S} {i : Nat} {nop : Bool} {hints : List Nat} {idx : Nat} {s : S} {z : Nat}
    (h : specStep MAX sl ss (.insert i nop hints idx s z) = some ss') :
    ∃ es es', ss[i]? = some (some es) ∧ idx ≤ total es ∧ 0 < z ∧ total es + z ≤ MAX ∧ specInsert sl es idx s z = .ok es' ∧
      ss' = ss.set i (some es') := by
  simp only [specStep] at h
  split at h
  · rename_i es hi
    split at h
    · rename_i hb
      cases hsp : specInsert sl es idx s z with
      | error f => rw [hsp] at h; cases h
      | ok es' =>
        rw [hsp] at h
        cases h
        exact ⟨es, es', hi, hb.1, hb.2.1, hb.2.2, hsp, rfl⟩
    · cases h
  · cases h

/-- C63: an insertion into one of several trees that share nodes replaces at most two of its runs, which touch the position. -/
theorem insert_around {MAX imax : Nat} {E : Env Nat S} (hE : E.ix = natIdx MAX) (hM : 1 ≤ E.M) (hM' : E.M ≤ 127) {cow : Bool}
    {ops : List (Op Nat S)} (hops : ∀ op ∈ ops, op.fits MAX) {st st' : St Nat S} (h : St.run E imax cow St.init ops = .ok st)
    {i : Nat} {nop : Bool} {hints : List Nat} {idx : Nat} {s : S} {z : Nat} (hz : z ≤ MAX)
    (h' : st.step E imax cow (.insert i nop hints idx s z) = .ok st') :
    ∃ es es' A mid mid' B, runsOf st i = .ok es ∧ runsOf st' i = .ok es' ∧ Around idx z es es' A mid mid' B := by
  obtain ⟨ss, h1, h2⟩ := run_sound hE hM hM' hops h
  have hstep := step_refines (imax := imax) hE hM hM' cow h2 (.insert i nop hints idx s z) hz
  cases hs : specStep MAX E.sl ss (.insert i nop hints idx s z) with
  | none =>
    obtain ⟨f, e, -⟩ := hstep.2 hs
    rw [e] at h'; cases h'
  | some s1 =>
    rcases hstep.1 s1 hs with ⟨st2, e, hr1⟩ | ⟨e, -⟩
    swap
    · rw [e] at h'; cases h'
    rw [e] at h'; cases h'
    obtain ⟨es, es', k1, k2, -, -, k5, rfl⟩ := specStep_insert hs
    obtain ⟨A, mid, mid', B, k⟩ := specInsert_around k2 k5
    exact ⟨es, es', A, mid, mid', B, h2.runsOf k1, hr1.runsOf (List.getElem?_set_self (lt_of_get k1)), k⟩

/-- On lists of runs an insertion into one tree commutes with operations on other trees. -/
theorem specStep_commute {MAX : Nat} {sl : SliceOps Nat S} {ss s1 s2 : Lists S} {i : Nat} {nop : Bool} {hints : List Nat} {idx : Nat} {s : S} {z : Nat}
    {op : Op Nat S} (hn : ¬ op.names i) (h1 : specStep MAX sl ss (.insert i nop hints idx s z) = some s1) (h2 : specStep MAX sl s1 op = some s2) :
    ∃ s1', specStep MAX sl ss op = some s1' ∧ specStep MAX sl s1' (.insert i nop hints idx s z) = some s2 := by
  obtain ⟨es, es', k1, k2, k3, k4, k5, rfl⟩ := specStep_insert h1
  have hl := lt_of_get k1
  cases op with
  | new =>
    cases h2
    refine ⟨_, rfl, ?_⟩
    simp only [specStep, List.getElem?_append_left hl, k1]
    rw [if_pos ⟨k2, k3, k4⟩, k5]
    simp [List.set_append_left _ _ hl]
  | insert j nop' hints' idx' s' z' =>
    have hij : i ≠ j := fun e => hn e.symm
    obtain ⟨fs, fs', g1, g2, g3, g4, g5, rfl⟩ := specStep_insert h2
    rw [List.getElem?_set_ne hij] at g1
    refine ⟨ss.set j (some fs'), ?_, ?_⟩
    · simp only [specStep, g1]
      rw [if_pos ⟨g2, g3, g4⟩, g5]
    · simp only [specStep, List.getElem?_set_ne (Ne.symm hij), k1]
      rw [if_pos ⟨k2, k3, k4⟩, k5]
      simp only
      rw [List.set_comm _ _ (Ne.symm hij)]
  | clone j =>
    have hij : i ≠ j := fun e => hn e.symm
    simp only [specStep, List.getElem?_set_ne hij] at h2
    split at h2
    · rename_i fs hj
      cases h2
      refine ⟨ss ++ [some fs], by simp only [specStep, hj], ?_⟩
      simp only [specStep, List.getElem?_append_left hl, k1]
      rw [if_pos ⟨k2, k3, k4⟩, k5]
      simp [List.set_append_left _ _ hl]
    · cases h2
  | drop j =>
    have hij : i ≠ j := fun e => hn e.symm
    simp only [specStep, List.getElem?_set_ne hij] at h2
    split at h2
    · rename_i fs hj
      cases h2
      refine ⟨ss.set j none, by simp only [specStep, hj], ?_⟩
      simp only [specStep, List.getElem?_set_ne (Ne.symm hij), k1]
      rw [if_pos ⟨k2, k3, k4⟩, k5]
      simp only
      rw [List.set_comm _ _ (Ne.symm hij)]
    · cases h2

theorem same_runs {MAX : Nat} {E : Env Nat S} {st st' : St Nat S} {ss : Lists S} (h : Rel MAX E st ss) (h' : Rel MAX E st' ss) (k : Nat)
    (es : List (Ent S)) : runsOf st k = .ok es ↔ runsOf st' k = .ok es := by
  have key : ∀ {a b : St Nat S}, Rel MAX E a ss → Rel MAX E b ss → runsOf a k = .ok es → runsOf b k = .ok es := by
    intro a b ha hb hk
    have hk' := hk
    simp only [runsOf, bind_ok_iff] at hk
    obtain ⟨t, hv, -⟩ := hk
    by_cases hc : ∃ ek, ss[k]? = some (some ek)
    · obtain ⟨ek, hek⟩ := hc
      have := ha.runsOf hek
      rw [hk'] at this
      cases this
      exact hb.runsOf hek
    · obtain ⟨o, ho⟩ := view_tree hv
      exact absurd ho (ha.noTree (fun es he => hc ⟨es, he⟩) o)
  exact ⟨key h h', key h' h⟩

/-- C63: in programs with several trees that share nodes, an insertion into one tree may be moved behind any operation that does not name this tree,
and all operations that follow: the program returns, unless it meets the limit on references, and all its trees hold the same runs. -/
theorem trees_commute {MAX imax : Nat} {E : Env Nat S} (hE : E.ix = natIdx MAX) (hM : 1 ≤ E.M) (hM' : E.M ≤ 127) {cow : Bool}
    {pre mid post : List (Op Nat S)} {i : Nat} {nop : Bool} {hints : List Nat} {idx : Nat} {s : S} {z : Nat}
    (hops : ∀ op ∈ pre ++ .insert i nop hints idx s z :: mid ++ post, op.fits MAX) (hn : ∀ op ∈ mid, ¬ op.names i) {st : St Nat S}
    (h : St.run E imax cow St.init (pre ++ .insert i nop hints idx s z :: mid ++ post) = .ok st) :
    (∃ st', St.run E imax cow St.init (pre ++ mid ++ .insert i nop hints idx s z :: post) = .ok st' ∧
      ∀ k es, runsOf st k = .ok es ↔ runsOf st' k = .ok es) ∨
    (cow = true ∧ St.run E imax cow St.init (pre ++ mid ++ .insert i nop hints idx s z :: post) = .error tooMany) := by
  obtain ⟨ss, h1, h2⟩ := run_sound hE hM hM' hops h
  have key : ∀ (mid : List (Op Nat S)) (s0 s2 : Lists S), (∀ op ∈ mid, ¬ op.names i) →
      specRun MAX E.sl s0 (.insert i nop hints idx s z :: mid) = some s2 → specRun MAX E.sl s0 (mid ++ [.insert i nop hints idx s z]) = some s2 := by
    intro mid
    induction mid with
    | nil => intro s0 s2 _ hs; exact hs
    | cons op mid ih =>
      intro s0 s2 hn hs
      simp only [specRun, List.foldlM_cons, Option.bind_eq_bind, Option.bind_eq_some_iff] at hs
      obtain ⟨s1, a1, sm, a2, a3⟩ := hs
      obtain ⟨s1', b1, b2⟩ := specStep_commute (hn op (by simp)) a1 a2
      have := ih s1' s2 (fun o ho => hn o (by simp [ho])) (by
        simp only [specRun, List.foldlM_cons, Option.bind_eq_bind, Option.bind_eq_some_iff]; exact ⟨sm, b2, a3⟩)
      simp only [specRun] at this
      simp only [specRun, List.cons_append, List.foldlM_cons, Option.bind_eq_bind, Option.bind_eq_some_iff]
      exact ⟨s1', b1, this⟩
  have hs : specRun MAX E.sl [] (pre ++ mid ++ .insert i nop hints idx s z :: post) = some ss := by
    simp only [specRun, List.append_assoc, List.foldlM_append, Option.bind_eq_bind, Option.bind_eq_some_iff] at h1 ⊢
    obtain ⟨sp, a1, sq, a2, a3⟩ := h1
    have a2 := key mid sp sq hn a2
    simp only [specRun, List.foldlM_append, Option.bind_eq_bind, Option.bind_eq_some_iff] at a2
    obtain ⟨sr, a4, a5⟩ := a2
    refine ⟨sp, a1, sr, a4, ?_⟩
    simp only [List.foldlM_cons, List.foldlM_nil, Option.bind_eq_bind, Option.bind_eq_some_iff] at a5 ⊢
    obtain ⟨sv, a6, a7⟩ := a5
    obtain rfl : sv = sq := Option.some.inj a7
    exact ⟨sv, a6, a3⟩
  rcases run_refines (imax := imax) hE hM hM' cow (fun op ho => hops op (by simp at ho ⊢; tauto)) hs with ⟨st', g1, g2⟩ | g
  · exact .inl ⟨st', g1, same_runs h2 g2⟩
  · exact .inr g

/-- The hypotheses hold for the program of `exProg`, whose trees share nodes: the insertion of `x` into the clone may not be moved behind the
second clone, which names its tree, but that of `y` into the original may be moved to the end. -/
example (cow : Bool) : ∃ pre mid : List (Op Nat Char), exProg = pre ++ .insert 0 true [] 6 'y' 1 :: mid ++ [] ∧ mid.length = 2 ∧
    (∀ op ∈ mid, ¬ op.names 0) ∧ (∀ op ∈ exProg, op.fits 255) ∧ (St.run exEnv 1000 cow St.init exProg).toBool = true ∧
    (St.run exEnv 1000 cow St.init (pre ++ mid ++ [.insert 0 true [] 6 'y' 1])).toBool = true := by
  refine ⟨exProg.take 10, exProg.drop 11, rfl, rfl, ?_, ?_, ?_, ?_⟩
  · intro op ho
    simp [exProg] at ho
    rcases ho with rfl | rfl <;> simp [Op.names]
  · intro op ho
    simp [exProg] at ho
    rcases ho with rfl | rfl | rfl | rfl | rfl | rfl | rfl | rfl | rfl | rfl | rfl | rfl | rfl <;> simp [Op.fits]
  · revert cow; decide +kernel
  · revert cow; decide +kernel

end Sherman.Cow
