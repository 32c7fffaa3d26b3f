import Verif.CowLinkStep
/-!
# Programs with copy-on-write and stored parent links: C39

A node that two trees share stores one parent link, so that the link is wrong for at least one of them.  Programs behave all the same as if
links were always right, as far as insertion, cloning and dropping go; and an insertion does not write the links of nodes that belong to
other trees also, which other threads may be reading.
-/
namespace Sherman.Cow
variable {S : Type}

theorem Less.simple {I : Type} {H H' : Heap I S} (h : Less H' H) (hs : Simple H) : Simple H' := by
  intro x nd hx
  obtain ⟨n, h1, h2⟩ := h x nd hx
  rw [← h2.refs]
  exact hs x n h1

/-- The tree variable that an operation changes. -/
def Op.target {I : Type} : Op I S → Option Nat
  | .insert i .. => some i
  | .drop i => some i
  | _ => none

/-- One operation, with and without links. -/
theorem stepL {MAX imax : Nat} {E : Env Nat S} (hE : E.ix = natIdx MAX) (hM : 1 ≤ E.M) (hM' : E.M ≤ 127) {st : St Nat S} {ss : Lists S}
    (h : Rel MAX E st ss) (hs : Simple st.heap) (L : LinkMap) (op : Op Nat S) :
    (∃ st' L', st.step E imax true op = .ok st' ∧ LSt.step E imax ⟨st, L⟩ op = .ok ⟨st', L'⟩ ∧ Simple st'.heap ∧
      ∀ j t, op.target ≠ some j → st.view j = .ok t → st'.view j = .ok t ∧ ∀ x ∈ t.addrs, L' x = L x) ∨
    ∃ f, st.step E imax true op = .error f ∧ LSt.step E imax ⟨st, L⟩ op = .error f := by
  cases op with
  | new =>
    obtain ⟨h1, -, h3⟩ := new_step (E := E) h.ok hM hM'
    left
    simp only [LSt.step, St.step, h1, R.bind_ok]
    refine ⟨_, L, rfl, rfl, hs, fun j t _ hv => ⟨?_, fun _ _ => rfl⟩⟩
    obtain ⟨o, ho⟩ := view_tree hv
    exact (h3 j (lt_of_get ho)).2 t hv
  | insert i nop hints idx s z =>
    simp only [St.step, LSt.step]
    by_cases hi : ∃ es, ss[i]? = some (some es)
    · obtain ⟨es, hi⟩ := hi
      obtain ⟨t, hv, ht, -⟩ := h.view i es hi
      obtain ⟨es', hH, -⟩ := ht.holds hE
      rcases insertL_step (imax := imax) h.ok hs L hv hH nop hints idx s z with ⟨st', L', e1, e2, e3, -, -, e4⟩ | h
      · exact .inl ⟨st', L', e1, e2, e3, fun j t hj hv => e4 j t (fun e => hj (by rw [e]; rfl)) hv⟩
      · exact .inr h
    · right
      have hn := St.tree_error (h.noTree (fun es he => hi ⟨es, he⟩))
      exact ⟨_, by simp only [St.insert, hn]; rfl, by simp only [LSt.insert, hn]; rfl⟩
  | clone i =>
    simp only [St.step, LSt.step, if_true]
    cases hc : st.cloneCow imax i with
    | error f => exact .inr ⟨f, rfl, rfl⟩
    | ok st' =>
      left
      refine ⟨st', L, rfl, rfl, ?_, fun j t _ hv => ⟨?_, fun _ _ => rfl⟩⟩
      · simp only [St.cloneCow, bind_ok_iff] at hc
        obtain ⟨o, hi, hc⟩ := hc
        cases o with
        | none => cases hc; exact hs
        | some r =>
          simp only [bind_ok_iff] at hc
          obtain ⟨H', hH, hc⟩ := hc
          cases hc
          obtain ⟨nd, hm, -⟩ := h.ok.root i r (St.tree_ok.1 hi)
          rcases increment_inv (imax := imax) (out' := fun x => held st.trees x + (if x = r.p then 1 else 0)) h.ok.inv hm (fun _ => rfl) with
            ⟨H2, e, -, hl, -⟩ | e
          · rw [hH] at e; cases e
            exact hl.simple hs
          · rw [hH] at e; cases e
      · obtain ⟨o, ho⟩ := view_tree hv
        have hi : ∃ o, st.trees[i]? = some (some o) := by
          simp only [St.cloneCow, bind_ok_iff] at hc
          obtain ⟨o, hi, -⟩ := hc
          exact ⟨o, St.tree_ok.1 hi⟩
        obtain ⟨o', hi⟩ := hi
        rcases cloneCow_step (imax := imax) h.ok hi with ⟨st2, e, -, -, hcl, -⟩ | e
        · rw [hc] at e; cases e
          exact (hcl j (lt_of_get ho)).2 t hv
        · rw [hc] at e; cases e
  | drop i =>
    simp only [St.step, LSt.step]
    by_cases hi : ∃ es, ss[i]? = some (some es)
    · obtain ⟨es, hi⟩ := hi
      obtain ⟨t, hv, -⟩ := h.view i es hi
      obtain ⟨o, ho⟩ := view_tree hv
      obtain ⟨st', e, -, -, hl, hv'⟩ := drop_step h.ok ho
      simp only [e]
      exact .inl ⟨st', L, rfl, rfl, hl.simple hs, fun j t hj hv => ⟨hv' j (fun e => hj (by rw [e]; rfl)) t hv, fun _ _ => rfl⟩⟩
    · right
      have hn := St.tree_error (h.noTree (fun es he => hi ⟨es, he⟩))
      exact ⟨_, by simp only [St.drop, hn]; rfl, by simp only [St.drop, hn]; rfl⟩

/-- Programs, with and without links. -/
theorem runL {MAX imax : Nat} {E : Env Nat S} (hE : E.ix = natIdx MAX) (hM : 1 ≤ E.M) (hM' : E.M ≤ 127)
    {ops : List (Op Nat S)} (hops : ∀ op ∈ ops, op.fits MAX) :
    (∃ st L ss, St.run E imax true St.init ops = .ok st ∧ LSt.run E imax LSt.init ops = .ok ⟨st, L⟩ ∧ Rel MAX E st ss ∧ Simple st.heap) ∨
    ∃ f, St.run E imax true St.init ops = .error f ∧ LSt.run E imax LSt.init ops = .error f := by
  have key : ∀ (ops : List (Op Nat S)) (st : St Nat S) (L : LinkMap) (s0 : Lists S), (∀ op ∈ ops, op.fits MAX) → Rel MAX E st s0 → Simple st.heap →
      (∃ st' L' ss, St.run E imax true st ops = .ok st' ∧ LSt.run E imax ⟨st, L⟩ ops = .ok ⟨st', L'⟩ ∧ Rel MAX E st' ss ∧ Simple st'.heap) ∨
      ∃ f, St.run E imax true st ops = .error f ∧ LSt.run E imax ⟨st, L⟩ ops = .error f := by
    intro ops
    induction ops with
    | nil => intro st L s0 _ hr hs; exact .inl ⟨st, L, s0, rfl, rfl, hr, hs⟩
    | cons op ops ih =>
      intro st L s0 hf hr hs
      simp only [St.run, LSt.run, List.foldlM_cons]
      rcases stepL (imax := imax) hE hM hM' hr hs L op with ⟨st', L', e1, e2, e3, -⟩ | ⟨f, e1, e2⟩
      swap
      · exact .inr ⟨f, by rw [e1]; rfl, by rw [e2]; rfl⟩
      simp only [e1, e2, R.bind_ok]
      have hstep := step_refines (imax := imax) hE hM hM' true hr op (hf op (by simp))
      cases hsp : specStep MAX E.sl s0 op with
      | none =>
        obtain ⟨f, e, -⟩ := hstep.2 hsp
        rw [e1] at e; cases e
      | some s1 =>
        rcases hstep.1 s1 hsp with ⟨st2, e, hr1⟩ | ⟨e, -⟩
        · rw [e1] at e; cases e
          exact ih st' L' s1 (fun op h => hf op (by simp [h])) hr1 e3
        · rw [e1] at e; cases e
  exact key ops _ _ [] hops (Rel.init MAX E) (fun x nd h => by cases h)

/-- C39: whatever links shared nodes store, a program does with them what it does where no links are followed: it changes memory in the
same way, or stops with the same panic. -/
theorem links_immaterial {MAX imax : Nat} {E : Env Nat S} (hE : E.ix = natIdx MAX) (hM : 1 ≤ E.M) (hM' : E.M ≤ 127)
    {ops : List (Op Nat S)} (hops : ∀ op ∈ ops, op.fits MAX) :
    (LSt.run E imax LSt.init ops).map LSt.st = St.run E imax true St.init ops := by
  rcases runL (imax := imax) hE hM hM' hops with ⟨st, L, ss, e1, e2, -⟩ | ⟨f, e1, e2⟩
  · rw [e1, e2]; rfl
  · rw [e1, e2]; rfl

/-- C39: at any point of a program, the links may have any values at all, as they may be if addresses are used again: the next operation does
what it does where no links are followed. -/
theorem links_arbitrary {MAX imax : Nat} {E : Env Nat S} (hE : E.ix = natIdx MAX) (hM : 1 ≤ E.M) (hM' : E.M ≤ 127)
    {ops : List (Op Nat S)} (hops : ∀ op ∈ ops, op.fits MAX) {st : St Nat S} (h : St.run E imax true St.init ops = .ok st) (L : LinkMap)
    (op : Op Nat S) : (LSt.step E imax ⟨st, L⟩ op).map LSt.st = st.step E imax true op := by
  rcases runL (imax := imax) hE hM hM' hops with ⟨st0, L0, ss, e1, -, hr, hs⟩ | ⟨f, e1, -⟩ <;> rw [h] at e1 <;> cases e1
  rcases stepL (imax := imax) hE hM hM' hr hs L op with ⟨st', L', e3, e4, -⟩ | ⟨f, e3, e4⟩
  · rw [e3, e4]; rfl
  · rw [e3, e4]; rfl

/-- C39: programs that follow and write the links of shared nodes do what is specified, or the count of references overflows. -/
theorem linked_refines {MAX imax : Nat} {E : Env Nat S} (hE : E.ix = natIdx MAX) (hM : 1 ≤ E.M) (hM' : E.M ≤ 127)
    {ops : List (Op Nat S)} (hops : ∀ op ∈ ops, op.fits MAX) {ss : Lists S} (hs : specRun MAX E.sl [] ops = some ss) :
    (∃ s, LSt.run E imax LSt.init ops = .ok s ∧ ∀ i es, ss[i]? = some (some es) → runsOf s.st i = .ok es) ∨
      LSt.run E imax LSt.init ops = .error tooMany := by
  rcases run_refines (imax := imax) hE hM hM' true hops hs with ⟨st, e, hr⟩ | ⟨-, e⟩ <;>
    rcases runL (imax := imax) hE hM hM' hops with ⟨st', L, ss', e1, e2, -⟩ | ⟨f, e1, e2⟩ <;> rw [e] at e1 <;> cases e1
  · exact .inl ⟨_, e2, fun i es hi => hr.runsOf hi⟩
  · exact .inr e2

/-- C39: no link that is followed is wrong, and no node that is freed is touched: programs stop only in an orderly way. -/
theorem linked_orderly {MAX imax : Nat} {E : Env Nat S} (hE : E.ix = natIdx MAX) (hM : 1 ≤ E.M) (hM' : E.M ≤ 127)
    {ops : List (Op Nat S)} (hops : ∀ op ∈ ops, op.fits MAX) {f : Fault} (h : LSt.run E imax LSt.init ops = .error f) : f.orderly = true := by
  rcases runL (imax := imax) hE hM hM' hops with ⟨st', L, ss', e1, e2, -⟩ | ⟨g, e1, e2⟩ <;> rw [h] at e2 <;> cases e2
  exact run_orderly hE hM hM' hops e1

/-- C39: an operation on one tree leaves all other trees exactly as they are in memory: the same nodes at the same addresses with the same
contents, and each of these nodes stores the same parent link as before. -/
theorem links_isolated {MAX imax : Nat} {E : Env Nat S} (hE : E.ix = natIdx MAX) (hM : 1 ≤ E.M) (hM' : E.M ≤ 127)
    {ops : List (Op Nat S)} (hops : ∀ op ∈ ops, op.fits MAX) {s s' : LSt Nat S} (h : LSt.run E imax LSt.init ops = .ok s)
    {op : Op Nat S} (h' : s.step E imax op = .ok s') {j : Nat} (hj : op.target ≠ some j) {t : RleTree Nat S} (hv : s.st.view j = .ok t) :
    s'.st.view j = .ok t ∧ ∀ x ∈ t.addrs, s'.links x = s.links x := by
  rcases runL (imax := imax) hE hM hM' hops with ⟨st, L, ss, e1, e2, hr, hs⟩ | ⟨g, e1, e2⟩ <;> rw [h] at e2 <;> cases e2
  rcases stepL (imax := imax) hE hM hM' hr hs L op with ⟨st', L', e3, e4, -, e5⟩ | ⟨f, e3, e4⟩ <;> rw [h'] at e4 <;> cases e4
  exact e5 j t hj hv

/-! ## Examples -/

/-- Nodes of a tree whose stored links are not those of this tree. -/
def wrongLinks {I : Type} (L : LinkMap) : {h : Nat} → Tree I S h → List Nat
  | 0, _ => []
  | h + 1, n =>
    ((Node.kids n).zipIdx.flatMap (fun (k, i) => (match ptrT k with
      | some c => if L c = some (Node.ptr n, i) then [] else [c]
      | none => [])) ++ (Node.kids n).flatMap (wrongLinks L (h := h)))

def wrongIn {I : Type} (s : LSt I S) (i : Nat) : R (List Nat) := do
  let t ← s.st.view i
  pure (match t.root with
    | none => []
    | some r => wrongLinks s.links r.tree)

/-- The program of `Verif/CowProps.lean` returns when links are followed and written; before its last insertion two links in the third tree
are wrong, and after it there is one left. -/
example : (LSt.run exEnv 1000 LSt.init (exProg.take 12) >>= fun s => wrongIn s 2) = .ok [0, 3] ∧
    (LSt.run exEnv 1000 LSt.init exProg >>= fun s => wrongIn s 2) = .ok [3] ∧
    (LSt.run exEnv 1000 LSt.init exProg >>= fun s => wrongIn s 0) = .ok [] := by decide +kernel

/-- The first tree, when the last insertion into the third is made. -/
example : ∃ s s', LSt.run exEnv 1000 LSt.init (exProg.take 12) = .ok s ∧ s.step exEnv 1000 (.insert 2 false [] 0 'z' 1) = .ok s' ∧
    (∃ t, s.st.view 0 = .ok t ∧ t.addrs = [9, 2, 0, 1, 8, 6, 7]) := by
  have h : (LSt.run exEnv 1000 LSt.init (exProg.take 12) >>= fun s => do
      let _ ← s.step exEnv 1000 (.insert 2 false [] 0 'z' 1)
      let t ← s.st.view 0
      pure t.addrs) = .ok [9, 2, 0, 1, 8, 6, 7] := by decide +kernel
  simp only [bind_ok_iff] at h
  obtain ⟨s, h1, s', h2, t, h3, h4⟩ := h
  exact ⟨s, s', h1, h2, t, h3, Except.ok.inj h4⟩

end Sherman.Cow
