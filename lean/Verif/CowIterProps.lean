import Verif.CowIterSim
import Verif.CowLinkInv
import Verif.IterProps
/-!
# Iteration over trees that share nodes: C40

The iterator follows stored parent links, some of which are those of other trees, and keeps a stack of the parents that these links do not
name.  As long as addresses are not used again this gives the runs of the tree, whatever is done to other trees meanwhile.  It does not if a
node gets the address of one that was freed (`iter_reuse_wrong`).
-/
namespace Sherman.Cow
variable {S : Type}

/-! ## Specification -/

/-- What happens while an iterator is in use: operations on trees, and calls of `next` (`false`) and `next_back` (`true`). -/
inductive Event (I S : Type) where
  | op (op : Op I S)
  | take (back : Bool)

/-- The operations among the events. -/
def opsOf {I : Type} : List (Event I S) → List (Op I S)
  | [] => []
  | .op o :: evs => o :: opsOf evs
  | .take _ :: evs => opsOf evs

/-- The calls among the events. -/
def takesOf {I : Type} : List (Event I S) → List Bool
  | [] => []
  | .op _ :: evs => takesOf evs
  | .take b :: evs => b :: takesOf evs

/-- The ranges of the runs in a list. -/
def spans : Nat → List (Ent S) → List (Nat × Nat × S)
  | _, [] => []
  | o, e :: es => (o, o + e.size, e.slice) :: spans (o + e.size) es

/-- The runs of a list that have a position in the range. -/
def spansIn (r : Range.Rng Nat) (es : List (Ent S)) : List (Nat × Nat × S) :=
  (spans 0 es).filter fun x => (List.range x.2.1).any fun q => decide (x.1 ≤ q) && Range.contains r q

/-- Events in turn; the iterator reads memory as it is when it is called.  The result is what the calls return. -/
def watch {I : Type} (E : Env I S) (imax : Nat) : LSt I S → MIter I → List (Event I S) → R (List (Option (Entry I S)))
  | _, _, [] => pure []
  | s, it, .op o :: evs => do
    let s ← s.step E imax o
    watch E imax s it evs
  | s, it, .take false :: evs => do
    let (x, it) ← it.next E.ix s.st.heap s.links
    let xs ← watch E imax s it evs
    pure (x :: xs)
  | s, it, .take true :: evs => do
    let (x, it) ← it.nextBack E.ix s.st.heap s.links
    let xs ← watch E imax s it evs
    pure (x :: xs)

/-! ## Memory -/

theorem fit_of_read {I : Type} {H : Heap I S} {L : LinkMap} {out : Nat → Nat} (hi : Inv H out) (hl : Linked H L) {h p : Nat} {nd : HNode I S}
    (hm : H.mem p = some nd) (hh : nd.height = h) {t : Tree I S (h + 1)} (ht : readT H (h + 1) p = .ok t) {A : List Nat}
    (hA : ∀ a ∈ A, ∃ na, H.mem a = some na ∧ h < na.height) : Fit H L A t := by
  induction h generalizing p nd A with
  | zero =>
    have ht0 := ht
    obtain ⟨n0, ks, h1, h2, rfl⟩ := readT_succ.1 ht
    rw [hm] at h1; cases h1
    exact ⟨ht0, ⟨nd, hm, hh⟩, fun _ k c _ hc => (nomatch (show (none : Option Nat) = some c from hc)), fun _ _ => trivial⟩
  | succ h ih =>
    have ht0 := ht
    obtain ⟨n0, ks, h1, h2, rfl⟩ := readT_succ.1 ht
    rw [hm] at h1; cases h1
    have hkid : ∀ k ∈ ks, ∃ q ∈ refsOf (some nd), readT H (h + 1) q = .ok k := by
      have hr : refsOf (some nd) = nd.kids := by
        simp only [refsOf]
        rw [if_neg (by omega)]
      rw [hr]
      intro k hk
      obtain ⟨i, hi', hk⟩ := List.mem_iff_getElem.1 hk
      have hlen := h2.length_eq
      refine ⟨nd.kids[i]'(by omega), List.getElem_mem _, ?_⟩
      have := List.forall₂_iff_get.1 h2
      have := this.2 i (by omega) hi'
      simp only [List.get_eq_getElem] at this
      rw [this, hk]
    refine ⟨ht0, ⟨nd, hm, hh⟩, fun j k c hk hc => ?_, fun k hk => ?_⟩
    · obtain ⟨q, hq, hr⟩ := hkid k (List.mem_of_getElem? hk)
      obtain ⟨nq, ks', g1, g2, g3⟩ := readT_succ.1 hr
      have : c = q := by
        rw [g3] at hc
        cases hc; rfl
      subst this
      obtain ⟨y, i, e1, -, e3⟩ := hl p nd hm c hq
      refine ⟨(y, i), e1, fun _ a ha he => ?_⟩
      cases he
      obtain ⟨na, g4, g5⟩ := hA y ha
      have := e3 na g4
      omega
    · obtain ⟨q, hq, hr⟩ := hkid k hk
      obtain ⟨nq, g1, g2⟩ := hi.ht p nd hm q hq
      refine ih g1 (by omega) hr fun a ha => ?_
      rcases List.mem_cons.1 ha with rfl | ha
      · exact ⟨nd, hm, by omega⟩
      · obtain ⟨na, g4, g5⟩ := hA a ha
        exact ⟨na, g4, by omega⟩

theorem sum_coe (ls : List (List Nat)) : (ls.map (fun l : List Nat => (l : Multiset Nat))).sum = (ls.flatten : Multiset Nat) := by
  induction ls with
  | nil => rfl
  | cons l ls ih => rw [List.map_cons, List.sum_cons, ih, List.flatten_cons, Multiset.coe_add]

theorem treeP_addrs {I : Type} : ∀ {h : Nat} (t : Tree I S h), treeP t = (addrs t : Multiset Nat) := by
  intro h
  induction h with
  | zero => intro t; rfl
  | succ h ih =>
    intro t
    show nodeP treeP t = _
    have : (Node.kids t).map (treeP (h := h)) = ((Node.kids t).map (addrs (h := h))).map (fun l : List Nat => (l : Multiset Nat)) := by
      rw [List.map_map]
      exact List.map_congr_left fun k _ => ih k
    unfold nodeP
    rw [this, sum_coe, addrs_succ, List.flatMap_def]
    rfl

theorem P_nodup {I : Type} {t : RleTree I S} (h : t.addrs.Nodup) : t.P.Nodup := by
  obtain ⟨root⟩ := t
  cases root with
  | none => exact Multiset.nodup_zero
  | some r =>
    show (treeP r.tree).Nodup
    rw [treeP_addrs]
    exact h

/-! ## Making iterators -/

theorem new_sim {I : Type} [LinearOrder I] {ix : IdxOps I} {r : Range.Rng I} {size : I} {cursor : List Nat} {root : Option (Root I S)}
    {cr : Option CRoot} {L : LinkMap} (hn : root = none → cr = none)
    (hs : ∀ rt, root = some rt → ∃ c, cr = some c ∧ c.h = rt.h ∧ c.p = Node.ptr rt.tree) {it : Iter I S}
    (hr : Iter.new ix r size cursor root = .ok it) :
    ∃ m, MIter.new ix r size cursor cr = .ok m ∧ Sim L it m ∧ ∀ st, it.state = some st → ∃ len, root = some ⟨st.H, st.root, len⟩ := by
  have key : ∀ b : Bool, SimStates L ((if b = true then none else root).map fun r => (⟨r.h, r.tree, some cursor, none, none⟩ : IterState I S))
      ((if b = true then none else cr).map fun r => (⟨r.h, r.p, some cursor, none, none⟩ : MState I)) := by
    intro b
    cases b with
    | true => trivial
    | false =>
      cases root with
      | none => rw [hn rfl]; trivial
      | some rt =>
        obtain ⟨c, rfl, h1, h2⟩ := hs rt rfl
        exact ⟨h1, h2, rfl, trivial, trivial⟩
  have key' : ∀ (b : Bool) st, ((if b = true then none else root).map fun r => (⟨r.h, r.tree, some cursor, none, none⟩ : IterState I S)) = some st →
      ∃ len, root = some ⟨st.H, st.root, len⟩ := by
    intro b st h
    cases b with
    | true => cases h
    | false =>
      cases root with
      | none => cases h
      | some rt => cases h; exact ⟨rt.len, rfl⟩
  obtain ⟨a, b⟩ := r
  unfold Iter.new at hr
  simp only [bind_ok_iff] at hr
  obtain ⟨_, h1, _, h2, _, h3, hr⟩ := hr
  cases hr
  unfold MIter.new Iter.new
  simp only [h1, h2, h3, R.bind_ok, R.pure_eq]
  exact ⟨_, rfl, ⟨rfl, rfl, key _⟩, key' _⟩

/-- Iterators on a tree in memory. -/
theorem iter_sim {I : Type} [LinearOrder I] {E : Env I S} {s : LSt I S} {j : Nat} {t : RleTree I S} (hv : s.st.view j = .ok t) {cursor : List Nat}
    {r : Range.Rng I} {it : Iter I S} (hr : t.iter E cursor r = .ok it) :
    ∃ m, s.iter E.ix j cursor r = .ok m ∧ Sim s.links it m ∧ Rooted (fun {h} root => ∃ len, t.root = some ⟨h, root, len⟩) it := by
  unfold RleTree.iter at hr
  unfold LSt.iter
  rcases St.view_cases hv with ⟨h1, rfl⟩ | ⟨c, t0, h1, h2, rfl⟩
  · simp only [St.tree_ok.2 h1, R.bind_ok]
    exact new_sim (fun _ => rfl) (fun rt h => by cases h) hr
  · simp only [St.tree_ok.2 h1, R.bind_ok]
    obtain ⟨nd, ks, g1, g2, g3⟩ := readT_succ.1 h2
    simp only [get_ok.2 g1, R.bind_ok]
    have hsz : RleTree.size E (⟨some ⟨c.h, t0, c.len⟩⟩ : RleTree I S) = nd.size := by
      show Node.size t0 = _
      rw [g3]
    have hp : c.p = Node.ptr t0 := by rw [g3]
    rw [hsz] at hr
    exact new_sim (fun h => by cases h) (fun rt h => by cases h; exact ⟨c, rfl, rfl, hp⟩) hr

/-- Iterators are not made for ranges for which they are not made on trees. -/
theorem iter_fails {I : Type} [LinearOrder I] {E : Env I S} {s : LSt I S} {j : Nat} {t : RleTree I S} (hv : s.st.view j = .ok t) {cursor : List Nat}
    {r : Range.Rng I} {f : Fault} (hr : t.iter E cursor r = .error f) : s.iter E.ix j cursor r = .error f := by
  have key : ∀ (size : I) (root : Option (Root I S)) (cr : Option CRoot), Iter.new E.ix r size cursor root = .error f →
      MIter.new E.ix r size cursor cr = .error f := by
    intro size root cr h
    unfold MIter.new
    have : Iter.new E.ix r size cursor (none : Option (Root I Unit)) = .error f := by
      unfold Iter.new at h ⊢
      simp only at h ⊢
      generalize check (!Range.startsAfterEnd r) "invalid range" = c1 at h ⊢
      cases c1 with
      | error e => cases h; rfl
      | ok _ =>
        simp only [R.bind_ok] at h ⊢
        generalize check (!E.ix.lt _ E.ix.zero) "range out of bounds below zero" = c2 at h ⊢
        cases c2 with
        | error e => cases h; rfl
        | ok _ =>
          simp only [R.bind_ok] at h ⊢
          generalize check _ "range out of bounds for tree size" = c3 at h ⊢
          cases c3 with
          | error e => cases h; rfl
          | ok _ => cases h
    rw [this]; rfl
  unfold RleTree.iter at hr
  unfold LSt.iter
  rcases St.view_cases hv with ⟨h1, rfl⟩ | ⟨c, t0, h1, h2, rfl⟩
  · simp only [St.tree_ok.2 h1, R.bind_ok]
    exact key _ _ _ hr
  · simp only [St.tree_ok.2 h1, R.bind_ok]
    obtain ⟨nd, ks, g1, g2, g3⟩ := readT_succ.1 h2
    simp only [get_ok.2 g1, R.bind_ok]
    have hsz : RleTree.size E (⟨some ⟨c.h, t0, c.len⟩⟩ : RleTree I S) = nd.size := by
      show Node.size t0 = _
      rw [g3]
    rw [hsz] at hr
    exact key _ _ _ hr

/-! ## Using iterators -/

theorem fit_root {MAX : Nat} {E : Env Nat S} {s : LSt Nat S} {ss : Lists S} (hr : Rel MAX E s.st ss) (hl : Linked s.st.heap s.links) {j : Nat}
    {t : RleTree Nat S} (hv : s.st.view j = .ok t) {h len : Nat} {root : Tree Nat S (h + 1)} (ht : t.root = some ⟨h, root, len⟩) :
    Fit s.st.heap s.links [] root := by
  rcases St.view_cases hv with ⟨h1, rfl⟩ | ⟨c, t0, h1, h2, rfl⟩
  · cases ht
  · cases ht
    obtain ⟨nd, g1, g2⟩ := hr.ok.root j c h1
    exact fit_of_read hr.ok.inv hl g1 g2 h2 (by simp)

theorem watch_sim {MAX imax : Nat} {E : Env Nat S} (hE : E.ix = natIdx MAX) (hM : 1 ≤ E.M) (hM' : E.M ≤ 127) {j : Nat} {t : RleTree Nat S}
    (evs : List (Event Nat S)) (hev : ∀ o ∈ opsOf evs, o.fits MAX ∧ o.target ≠ some j) {ops : List (Op Nat S)} (hops : ∀ op ∈ ops, op.fits MAX)
    {s : LSt Nat S} (h : LSt.run E imax LSt.init ops = .ok s) (hv : s.st.view j = .ok t) {it : Iter Nat S} {m : MIter Nat} (hs : Sim s.links it m)
    (hroot : Rooted (fun {h} root => ∃ len, t.root = some ⟨h, root, len⟩) it) {s' : LSt Nat S} (hrun : LSt.run E imax s (opsOf evs) = .ok s')
    {xs : List (Option (Entry Nat S))} (hx : runIter E.ix it (takesOf evs) = .ok xs) : watch E imax s m evs = .ok xs := by
  induction evs generalizing ops s it m xs with
  | nil => cases hx; rfl
  | cons ev evs ih =>
    have hfit : Rooted (Fit s.st.heap s.links []) it := by
      obtain ⟨⟨ss, hr⟩, hl⟩ := run_lok hE hM hM' hops h
      intro st hst
      obtain ⟨len, hlen⟩ := hroot st hst
      exact fit_root hr hl.linked hv hlen
    cases ev with
    | op o =>
      simp only [opsOf, LSt.run, List.foldlM_cons, bind_ok_iff] at hrun
      obtain ⟨s1, e1, hrun⟩ := hrun
      have ho := hev o (by simp [opsOf])
      obtain ⟨g1, g2⟩ := links_isolated hE hM hM' hops h e1 ho.2 hv
      simp only [watch, e1, R.bind_ok]
      refine ih (fun o' h' => hev o' (by simp [opsOf, h'])) (ops := ops ++ [o]) ?_ ?_ g1 (hs.congr ?_) hroot hrun hx
      · intro o' h'
        rcases List.mem_append.1 h' with h' | h'
        · exact hops o' h'
        · rw [List.mem_singleton.1 h']; exact ho.1
      · simp only [LSt.run, List.foldlM_append] at h ⊢
        rw [h]
        simp only [R.bind_ok, List.foldlM_cons, e1, List.foldlM_nil]
        rfl
      · intro st hst x hx
        obtain ⟨len, hlen⟩ := hroot st hst
        refine g2 x ?_
        obtain ⟨rt⟩ := t
        cases hlen
        exact hx
    | take b =>
      cases b with
      | false =>
        simp only [takesOf, runIter, bind_ok_iff] at hx
        obtain ⟨⟨x, it'⟩, h1, ys, h2, hx⟩ := hx
        cases hx
        obtain ⟨m', g1, g2⟩ := next_sim hs hfit h1
        simp only [watch, g1, R.bind_ok, ih hev hops h hv g2 (next_rooted hroot h1) hrun h2]
        rfl
      | true =>
        simp only [takesOf, runIter, bind_ok_iff] at hx
        obtain ⟨⟨x, it'⟩, h1, ys, h2, hx⟩ := hx
        cases hx
        obtain ⟨m', g1, g2⟩ := nextBack_sim hs hfit h1
        simp only [watch, g1, R.bind_ok, ih hev hops h hv g2 (nextBack_rooted hroot h1) hrun h2]
        rfl

/-- C40: an iterator over one tree of a program yields the entries of that tree, with their ranges, in whatever order it is asked from both
ends, and whatever is done to other trees in between, provided that no address is used twice. -/
theorem iter_shared {MAX imax : Nat} {E : Env Nat S} (hE : E.ix = natIdx MAX) (hM : 1 ≤ E.M) (hM' : E.M ≤ 127)
    {ops : List (Op Nat S)} (hops : ∀ op ∈ ops, op.fits MAX) {s : LSt Nat S} (h : LSt.run E imax LSt.init ops = .ok s)
    {j : Nat} {t : RleTree Nat S} (hv : s.st.view j = .ok t) (cursor : List Nat) {r : Range.Rng Nat} (hr : ValidRange (t.size E) r) :
    ∃ it, s.iter E.ix j cursor r = .ok it ∧
      ∀ evs, (∀ o ∈ opsOf evs, o.fits MAX ∧ o.target ≠ some j) → ∀ s', LSt.run E imax s (opsOf evs) = .ok s' →
        watch E imax s it evs = .ok (runDeque (expected t r) (takesOf evs)) := by
  obtain ⟨⟨ss, hrel⟩, hl⟩ := run_lok hE hM hM' hops h
  obtain ⟨o, ho⟩ := view_tree hv
  have : ∃ es, ss[j]? = some (some es) := by
    by_contra hn
    exact hrel.noTree (fun es he => hn ⟨es, he⟩) o ho
  obtain ⟨es, hes⟩ := this
  obtain ⟨t', hv', hreach, -⟩ := hrel.view j es hes
  rw [hv] at hv'; cases hv'
  obtain ⟨it, h1, h2⟩ := iter_deque_reach hE hreach (P_nodup (hl.nodup j t hv)) cursor hr
  obtain ⟨m, g1, g2, g3⟩ := iter_sim hv h1
  exact ⟨m, g1, fun evs hev s' hrun => watch_sim hE hM hM' evs hev hops h hv g2 g3 hrun (h2 _)⟩

/-! ## The same, in terms of the specification of programs -/

theorem runDeque_map {X Y : Type} (f : X → Y) (l : List X) (ops : List Bool) : runDeque (l.map f) ops = (runDeque l ops).map (Option.map f) := by
  induction ops generalizing l with
  | nil => rfl
  | cons b ops ih =>
    cases b
    · simp only [runDeque, List.map_cons, ← ih, List.head?_map, List.map_tail]
    · simp only [runDeque, List.map_cons, ← ih, List.getLast?_map, List.map_dropLast]

theorem spans_entries {o : Nat} {cs : List (Cell S)} {es : List (Ent S)} (h : cs.length = es.length) (r : Range.Rng Nat) :
    ((entriesFrom o cs es).filter (touches r)).map (fun x => (x.start, x.stop, x.slice)) =
      (spans o es).filter fun x => (List.range x.2.1).any fun q => decide (x.1 ≤ q) && Range.contains r q := by
  induction es generalizing o cs with
  | nil => cases cs <;> simp [entriesFrom, spans]
  | cons e es ih =>
    cases cs with
    | nil => simp at h
    | cons c cs =>
      simp only [entriesFrom, spans, List.filter_cons]
      have ih := ih (o := o + e.size) (cs := cs) (by simpa using h)
      have ht : touches r (⟨o, o + e.size, e.slice, c.ptr, c.idx, e.ref⟩ : Entry Nat S) =
        (List.range (o + e.size)).any fun q => decide (o ≤ q) && Range.contains r q := rfl
      rw [ht]
      split
      · rw [List.map_cons, ih]
      · exact ih

theorem expected_spans {MAX : Nat} {E : Env Nat S} (hE : E.ix = natIdx MAX) {t : RleTree Nat S} (ht : Reach MAX E t) (r : Range.Rng Nat) :
    (expected t r).map (fun x => (x.start, x.stop, x.slice)) = spansIn r t.runs := by
  refine spans_entries ?_ r
  obtain ⟨-, hh, -⟩ := ht.holds hE
  obtain ⟨root⟩ := t
  cases root with
  | none => rfl
  | some root =>
    obtain ⟨-, hr, -⟩ := hh
    exact cells_length hr

/-- C40: where a list of runs is specified for a tree, iteration over any valid range of it returns those runs that have a position in the range,
whichever way it is asked and whatever is done to other trees meanwhile; for all other ranges `iter` panics. -/
theorem iter_shared_partial {MAX imax : Nat} {E : Env Nat S} (hE : E.ix = natIdx MAX) (hM : 1 ≤ E.M) (hM' : E.M ≤ 127)
    {ops : List (Op Nat S)} (hops : ∀ op ∈ ops, op.fits MAX) {ss : Lists S} (hs : specRun MAX E.sl [] ops = some ss)
    {j : Nat} {es : List (Ent S)} (hj : ss[j]? = some (some es)) (cursor : List Nat) (r : Range.Rng Nat) :
    LSt.run E imax LSt.init ops = .error tooMany ∨ ∃ s, LSt.run E imax LSt.init ops = .ok s ∧
      (¬ ValidRange (total es) r → ∃ m, s.iter E.ix j cursor r = .error (.panic m)) ∧
      (ValidRange (total es) r → ∃ it, s.iter E.ix j cursor r = .ok it ∧
        ∀ evs, (∀ o ∈ opsOf evs, o.fits MAX ∧ o.target ≠ some j) → ∀ s', LSt.run E imax s (opsOf evs) = .ok s' →
          (watch E imax s it evs).map (List.map (Option.map fun x => (x.start, x.stop, x.slice))) = .ok (runDeque (spansIn r es) (takesOf evs))) := by
  rcases linked_refines (imax := imax) hE hM hM' hops hs with ⟨s, hrun, -⟩ | h
  swap
  · exact .inl h
  right
  rcases run_refines (imax := imax) hE hM hM' true hops hs with ⟨st, e, hrel⟩ | ⟨-, e⟩ <;>
    have hi := links_immaterial (imax := imax) hE hM hM' hops <;> rw [e, hrun] at hi <;> cases hi
  obtain ⟨t, hv, hreach, rfl⟩ := hrel.view j es hj
  obtain ⟨-, hh, -⟩ := hreach.holds hE
  have hsize : t.size E = total t.runs := hh.size hE
  refine ⟨s, hrun, fun hr => ?_, fun hr => ?_⟩
  · rw [← hsize] at hr
    obtain ⟨m, hm⟩ := iterNew_invalid (MAX := MAX) hr cursor t.root
    exact ⟨m, iter_fails hv (by unfold RleTree.iter; rw [hE]; exact hm)⟩
  · rw [← hsize] at hr
    obtain ⟨it, g1, g2⟩ := iter_shared hE hM hM' hops hrun hv cursor hr
    refine ⟨it, g1, fun evs h1 s' h2 => ?_⟩
    rw [g2 evs h1 s' h2, ← expected_spans hE hreach r, runDeque_map]
    rfl

/-! ## What goes wrong when addresses are used again -/

/-- The links that name address `a` name address `b`.  If there is no node at either address, then this is the state of memory after a program in
which the node that was at `a`, and is gone, was at `b`. -/
def renameLinks (a b : Nat) (L : LinkMap) : LinkMap := fun x => (L x).map fun l => (if l.1 = a then b else l.1, l.2)

/-- Two trees share leaves; the first is dropped, so that its root is freed; then the root of the second is split. -/
def reuseProg : List (Op Nat Char) :=
  [.new, .insert 0 false [] 0 'a' 1, .insert 0 false [] 1 'b' 1, .insert 0 false [] 2 'c' 1, .insert 0 false [] 3 'd' 1,
   .insert 0 false [] 4 'e' 1, .clone 0, .insert 1 false [] 5 'f' 1, .drop 0]

def reuseLast : Op Nat Char := .insert 1 false [] 6 'g' 1

/-- The last operation with links to address `a` taken as links to address `b`, and then the results of calls on an iterator over the second tree. -/
def reuseRun (a b : Nat) (calls : List Bool) : R (List Char × List (Option (Nat × Nat × Char))) := do
  let s ← LSt.run exEnv 1000 LSt.init reuseProg
  let s' ← LSt.step exEnv 1000 ⟨s.st, renameLinks a b s.links⟩ reuseLast
  let es ← runsOf s'.st 1
  let it ← s'.iter exEnv.ix 1 [] ⟨.unbounded, .unbounded⟩
  let xs ← watch exEnv 1000 s' it (calls.map .take)
  pure (es.map (·.slice), xs.map (Option.map fun x => (x.start, x.stop, x.slice)))

/-- C40 fails in general: before the last operation of a program there is no node at the address `a`, where the root of the tree that was dropped has
been, and none at `b`; the operation allocates a node there, as the allocator may if `a` is `b`.  Then the second tree consists of the right runs,
but iterating over it backward yields `d` twice, and at two positions; the next call subtracts below zero. -/
theorem iter_reuse_wrong : ∃ s : LSt Nat Char, LSt.run exEnv 1000 LSt.init reuseProg = .ok s ∧ s.st.heap.mem 2 = none ∧ s.st.heap.mem 8 = none ∧
    reuseRun 2 8 [true, true, true, true, true, true] = .ok (['a', 'b', 'c', 'd', 'e', 'f', 'g'],
      [some (6, 7, 'g'), some (5, 6, 'f'), some (4, 5, 'e'), some (3, 4, 'd'), some (2, 3, 'c'), some (1, 2, 'd')]) ∧
    reuseRun 2 8 [true, true, true, true, true, true, true] = .error .underflow := by
  have h : (LSt.run exEnv 1000 LSt.init reuseProg >>= fun s => pure ((s.st.heap.mem 2).isNone && (s.st.heap.mem 8).isNone)) = .ok true := by
    decide +kernel
  simp only [bind_ok_iff] at h
  obtain ⟨s, h1, h2⟩ := h
  have h2 := Except.ok.inj h2
  simp only [Bool.and_eq_true, Option.isNone_iff_eq_none] at h2
  exact ⟨s, h1, h2.1, h2.2, by decide +kernel, by decide +kernel⟩

/-- With the addresses as they were, iteration gives all runs. -/
example : reuseRun 2 2 [true, true, true, true, true, true, true, true] = .ok (['a', 'b', 'c', 'd', 'e', 'f', 'g'],
    [some (6, 7, 'g'), some (5, 6, 'f'), some (4, 5, 'e'), some (3, 4, 'd'), some (2, 3, 'c'), some (1, 2, 'b'), some (0, 1, 'a'), none]) := by
  decide +kernel

/-! ## Examples -/

/-- A program that meets the conditions of `iter_shared_partial`, with a tree whose links are partly those of another one, and events. -/
def iterEvs : List (Event Nat Char) :=
  [.take false, .take true, .op (.insert 0 false [] 2 'x' 1), .take false, .op (.drop 0), .op (.clone 2), .take true, .take false,
   .op (.insert 3 false [] 0 'y' 1), .take false]

example : ∀ o ∈ opsOf iterEvs, o.fits 255 ∧ o.target ≠ some 2 := by
  intro op h
  simp only [iterEvs, opsOf, List.mem_cons, List.not_mem_nil, or_false] at h
  rcases h with rfl | rfl | rfl | rfl <;> simp [Op.fits, Op.target]

example : ((specRun 255 (constSl Char) [] (exProg.take 12)).bind fun ss => ss[2]?).map (Option.map (·.map Ent.slice)) =
    some (some ['a', 'b', 'x', 'c', 'd', 'e', 'f']) := by decide

example : (LSt.run exEnv 1000 LSt.init (exProg.take 12) >>= fun s => LSt.run exEnv 1000 s (opsOf iterEvs) >>= fun _ => pure ()) = .ok () ∧
    (LSt.run exEnv 1000 LSt.init (exProg.take 12) >>= fun s => do
      let it ← s.iter exEnv.ix 2 [] ⟨.included 1, .unbounded⟩
      let xs ← watch exEnv 1000 s it iterEvs
      pure (xs.map (Option.map fun x => (x.start, x.stop, x.slice)))) =
    .ok [some (1, 2, 'b'), some (6, 7, 'f'), some (2, 3, 'x'), some (5, 6, 'e'), some (3, 4, 'c'), some (4, 5, 'd')] := by
  decide +kernel

end Sherman.Cow
