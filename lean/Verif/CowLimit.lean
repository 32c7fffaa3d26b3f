import Verif.CowIterProps
import Verif.CowCost
import Verif.TickProps
/-!
# How many references a node can have

Every operation allocates few nodes, and a node refers to another one at most once.  So the panic about too many references needs very many
operations.
-/
namespace Sherman.Cow
open Finset
variable {I S : Type}

theorem Inv.count_le {H : Heap I S} {out : Nat → Nat} (hi : Inv H out) (hs : Simple H) {x : Nat} {nd : HNode I S} (hm : H.mem x = some nd) :
    nd.count ≤ H.next + out x := by
  have h1 := hi.cnt x
  rw [cnt_some hm] at h1
  have h2 : refsIn H x ≤ H.next := by
    unfold refsIn
    have : ∑ q ∈ range H.next, (refsOf (H.mem q)).count x ≤ ∑ _q ∈ range H.next, 1 := by
      refine Finset.sum_le_sum fun q _ => ?_
      cases hq : H.mem q with
      | none => simp [refsOf]
      | some n => exact List.nodup_iff_count_le_one.1 (hs q n hq) x
    simpa using this
  omega

theorem incrementAll_few {imax : Nat} {H : Heap I S} {l : List Nat} (hd : l.Nodup) (hl : ∀ q ∈ l, ∃ nd, H.mem q = some nd ∧ nd.count ≤ imax) :
    l.foldlM (fun H q => increment imax H q) H ≠ .error tooMany := by
  induction l generalizing H with
  | nil => intro h; cases h
  | cons a l ih =>
    obtain ⟨nd, hm, hc⟩ := hl a (by simp)
    rw [List.foldlM_cons, increment_spec hm, if_neg (by omega), R.bind_ok]
    rw [List.nodup_cons] at hd
    refine ih hd.2 (fun q hq => ?_)
    have hx : q ≠ a := by rintro rfl; exact hd.1 hq
    obtain ⟨n, h1, h2⟩ := hl q (by simp [hq])
    exact ⟨n, by simp [Heap.put, hx, h1], h2⟩

theorem ensureUnique_few {imax B : Nat} {H : Heap I S} {out : Nat → Nat} (hi : Inv H out) (hs : Simple H) (hB : ∀ x, out x ≤ B) (hle : H.next + B ≤ imax)
    {p : Nat} {nd : HNode I S} (hm : H.mem p = some nd) : ensureUnique imax H nd.height p ≠ .error tooMany := by
  intro h
  simp only [ensureUnique, get_ok.2 hm, R.bind_ok] at h
  split at h
  · cases h
  · have hsc : shallowClone imax H nd.height p = (do
        let H' ← (refsOf (some nd)).foldlM (fun H q => increment imax H q) H
        pure (H'.alloc { nd with count := 1 })) := by
      simp only [shallowClone, get_ok.2 hm, R.bind_ok, refsOf]
      by_cases h0 : nd.height = 0
      · simp [h0]
      · simp [h0]
    have hfew := incrementAll_few (imax := imax) (hs p nd hm) (fun q hq => by
      obtain ⟨n, h1, -⟩ := hi.ht p nd hm q hq
      have := hi.count_le hs h1
      have := hB q
      exact ⟨n, h1, by omega⟩)
    rename_i hc
    have hp := hi.lt p nd hm
    have hpos := hi.pos p nd hm
    have hb0 : (bump H (refsOf (some nd))).mem p = some nd := by
      have := List.count_eq_zero.2 (mem_refs_self hi hm)
      simp [bump, hm, this]
    rcases incrementAll (imax := imax) (H := H) (l := refsOf (some nd)) (fun q hq => by
        obtain ⟨n, h1, -⟩ := hi.ht p nd hm q hq
        exact ⟨n, h1⟩) with k | k
    · rw [hsc, k] at h
      simp only [R.bind_ok, R.pure_eq, Heap.alloc] at h
      have hd : ∀ H'' : Heap I S, H''.mem p = some nd → dropRef nd.height H'' p = .ok (H''.put p { nd with count := nd.count - 1 }) := by
        intro H'' hm''
        have hu : usub nd.count 1 = .ok (nd.count - 1) := by simp [usub]; omega
        cases hh : nd.height with
        | zero => simp only [dropRef, get_ok.2 hm'', R.bind_ok, hc, if_false, hu, R.pure_eq, hh]
        | succ h => simp only [dropRef, get_ok.2 hm'', R.bind_ok, hc, if_false, hu, R.pure_eq, hh]
      rw [hd _ (by dsimp only; rw [if_neg (show p ≠ (bump H (refsOf (some nd))).next by show p ≠ H.next; omega)]; exact hb0)] at h
      cases h
    · exact hfew k

theorem unshareDown_few {imax B : Nat} {H : Heap I S} {out : Nat → Nat} (hi : Inv H out) (hs : Simple H) (hB : ∀ x, out x ≤ B) {path : List Nat}
    (hle : H.next + path.length + B ≤ imax) {h p : Nat} {nd : HNode I S} (hm : H.mem p = some nd) (hh : nd.height = h) {t : Tree I S (h + 1)}
    (ht : readT H (h + 1) p = .ok t) (hf : Fits t path) : unshareDown imax path H h p ≠ .error tooMany := by
  induction path generalizing H h p nd with
  | nil => intro h; cases h
  | cons c path ih =>
    obtain ⟨nd0, ks, r1, r2, rfl⟩ := readT_succ.1 ht
    rw [hm] at r1; cases r1
    obtain ⟨h0, k, f1, f2⟩ := hf
    obtain ⟨q, hcq, hrq⟩ := forall₂_get r2 f1
    have hne : nd.height ≠ 0 := by omega
    obtain ⟨ndq, hq, hhq⟩ := hi.ht p nd hm q (by simp only [refsOf, hne, if_false]; exact List.mem_of_getElem? hcq)
    simp only [List.length_cons] at hle
    cases h with
    | zero => omega
    | succ h =>
      have eh : ndq.height = h := by omega
      subst eh
      simp only [unshareDown, get_ok.2 hm, R.bind_ok, hcq, R.pure_eq, Nat.add_sub_cancel]
      rcases ensureUnique_spec (imax := imax) hi hq with ⟨H1, q', e, u, -⟩ | e
      · rw [e]
        simp only [R.bind_ok]
        obtain ⟨k1, k2, k3, k4, k5, k6⟩ := redirect hi hm hne hcq hq u
        rw [get_ok.2 k2]
        simp only [R.bind_ok]
        obtain ⟨t', k7, k8⟩ := k6 k hrq
        obtain ⟨nq, nq', g1, g2, g3, g4⟩ := u.new
        rw [hq] at g1; cases g1
        have hmq' : (H1.put p { nd with kids := nd.kids.set c q' }).mem q' = some nq' := by simp [Heap.put, k3, g2]
        have hn := ensureUnique_next e
        have fr : refsOf (some nd) = nd.kids := by simp only [refsOf, hne, if_false]
        have hself : (H1.put p { nd with kids := nd.kids.set c q' }).mem p = some { nd with kids := nd.kids.set c q' } := by simp [Heap.put]
        have hother : ∀ x, x ≠ p → (H1.put p { nd with kids := nd.kids.set c q' }).mem x = H1.mem x := fun x hx => by simp [Heap.put, hx]
        refine ih k4 ?_ ?_ hmq' g3.1.symm k7 (f2.alike k8)
        · intro x n hx
          by_cases hxp : x = p
          · subst hxp
            rw [hself] at hx; cases hx
            have e0 : refsOf (some { nd with kids := nd.kids.set c q' }) = nd.kids.set c q' := by simp only [refsOf, hne, if_false]
            rw [e0]
            have hnd := hs x nd hm
            rw [fr] at hnd
            refine nodup_set hnd ?_
            rcases u.fresh with rfl | rfl
            · exact .inr hcq
            · left
              intro hmem
              obtain ⟨n, a1, -⟩ := hi.ht x nd hm _ (by rw [fr]; exact hmem)
              have := hi.lt _ _ a1
              omega
          · rw [hother x hxp] at hx; exact u.simple hs x n hx
        · simp only [Heap.put]; omega
      · exact absurd e (ensureUnique_few hi hs hB (by omega) hq)

theorem unshare_few {imax B : Nat} {H : Heap I S} {out : Nat → Nat} (hi : Inv H out) (hs : Simple H) (hB : ∀ x, out x ≤ B) {path : List Nat}
    (hle : H.next + path.length + B + 2 ≤ imax) {h p : Nat} {nd : HNode I S} (hm : H.mem p = some nd) (hh : nd.height = h) {t : Tree I S (h + 1)}
    (ht : readT H (h + 1) p = .ok t) (hf : Fits t path) (ho : 0 < out p) : unshare imax path H h p ≠ .error tooMany := by
  subst hh
  simp only [unshare]
  rcases ensureUnique_spec (imax := imax) hi hm with ⟨H1, p', e, u, -⟩ | e
  · rw [e]
    simp only [R.bind_ok]
    have hbal : ∀ x, (fun x => out x + (if x = p' then 1 else 0) - (if x = p then 1 else 0)) x + (if x = p then 1 else 0) =
        out x + (if x = p' then 1 else 0) := by
      intro x
      by_cases hx : x = p
      · subst hx; simp only [if_true]; split <;> omega
      · simp [hx]
    have k := u.root hi hbal
    obtain ⟨t1, a1, a2⟩ := u.alike hi hm ht
    obtain ⟨nq, nq', g1, g2, g3, g4⟩ := u.new
    rw [hm] at g1; cases g1
    have hn := ensureUnique_next e
    have hd := unshareDown_few (imax := imax) (B := B + 1) (path := path) k (u.simple hs) (fun x => by
      have := hB x
      split <;> split <;> omega) (by omega) g2 g3.1.symm a1 (hf.alike a2)
    intro h
    cases hu : unshareDown imax path H1 nd.height p' with
    | ok v => rw [hu] at h; cases h
    | error f => rw [hu] at h; cases h; exact hd hu
  · exact absurd e (ensureUnique_few hi hs hB (by omega) hm)

/-! ## Operations -/

theorem held_le (ts : List (Option (Option CRoot))) (x : Nat) : held ts x ≤ ts.length := by
  induction ts with
  | nil => simp [held]
  | cons a ts ih =>
    have : rootW a x ≤ 1 := by
      unfold rootW
      split
      · split <;> omega
      · omega
    simp only [held, List.map_cons, List.sum_cons, List.length_cons] at ih ⊢
    omega

theorem length_le_total {es : List (Ent S)} (h : Pos es) : es.length ≤ total es := by
  induction es with
  | nil => simp
  | cons e es ih =>
    have h1 := h e (by simp)
    have h2 := ih (fun x hx => h x (by simp [hx]))
    simp only [List.length_cons, total_cons]
    omega

/-- No tree has more levels than positions have bits. -/
theorem height_max {MAX : Nat} {E : Env Nat S} (hE : E.ix = natIdx MAX) {t : RleTree Nat S} (ht : Reach MAX E t) {r : Root Nat S} (hr : t.root = some r) :
    r.h ≤ Nat.log 2 MAX := by
  have h1 := (height_bound hE ht hr).2 (Nat.log 2 MAX + 1) ?_
  · omega
  · have h2 := length_le_total (ht.holds hE).2.1.1
    have h3 := (ht.holds hE).2.2
    rw [numberOfSlices_eq hE ht]
    have := Nat.lt_pow_succ_log_self (b := 2) (by omega) MAX
    omega

/-- After `n` operations. -/
structure Few (MAX n : Nat) (st : St Nat S) : Prop where
  simple : Simple st.heap
  next : st.heap.next ≤ n * (2 * Nat.log 2 MAX + 3)
  trees : st.trees.length ≤ n

/-- One of fewer than `imax / (2 * log₂ MAX + 4)` operations. -/
theorem few_step {MAX imax n : Nat} {E : Env Nat S} (hE : E.ix = natIdx MAX) (hM : 1 ≤ E.M) (hM' : E.M ≤ 127) {st : St Nat S} {ss ss' : Lists S}
    (h : Rel MAX E st ss) (hf : Few MAX n st) (hle : (n + 1) * (2 * Nat.log 2 MAX + 4) ≤ imax) {op : Op Nat S} (hop : op.fits MAX)
    (hs : specStep MAX E.sl ss op = some ss') : ∃ st', st.step E imax true op = .ok st' ∧ Rel MAX E st' ss' ∧ Few MAX (n + 1) st' := by
  have hmul : (n + 1) * (2 * Nat.log 2 MAX + 4) = n * (2 * Nat.log 2 MAX + 3) + n + (2 * Nat.log 2 MAX + 4) := by
    rw [Nat.add_mul, Nat.one_mul, show 2 * Nat.log 2 MAX + 4 = (2 * Nat.log 2 MAX + 3) + 1 from rfl, Nat.mul_add, Nat.mul_one]
  have hmul2 : (n + 1) * (2 * Nat.log 2 MAX + 3) = n * (2 * Nat.log 2 MAX + 3) + (2 * Nat.log 2 MAX + 3) := by rw [Nat.add_mul, Nat.one_mul]
  have hf2 := hf.next
  have hf3 := hf.trees
  have hok : ∃ st', st.step E imax true op = .ok st' ∧ st'.heap.next ≤ st.heap.next + (2 * Nat.log 2 MAX + 3) ∧ st'.trees.length ≤ st.trees.length + 1 := by
    cases op with
    | new =>
      obtain ⟨h1, -, h3⟩ := new_step (E := E) h.ok hM hM'
      exact ⟨_, h1, by simp, by simp⟩
    | insert i nop hints idx s z =>
      simp only [St.step]
      cases hsi : ss[i]? with
      | none => simp [specStep, hsi] at hs
      | some o =>
      cases o with
      | none => simp [specStep, hsi] at hs
      | some es =>
        obtain ⟨t, hv, ht, rfl⟩ := h.view i es hsi
        obtain ⟨_, hH, hb⟩ := ht.holds hE
        obtain ⟨g1, g2, g3, es', g4⟩ : idx ≤ total t.runs ∧ 0 < z ∧ total t.runs + z ≤ MAX ∧ ∃ es', specInsert E.sl t.runs idx s z = .ok es' := by
          simp only [specStep, hsi] at hs
          split at hs
          · rename_i hc
            split at hs
            · rename_i es' hsp; exact ⟨hc.1, hc.2.1, hc.2.2, es', hsp⟩
            · cases hs
          · cases hs
        have hret : ∀ t1 w, t.Alike t1 → ∃ t2 o, t1.insert E nop hints idx s z w = .ok (t2, o) := by
          intro t1 w al
          have hruns := al.runs hE ht
          obtain ⟨t2, o, k, -⟩ := insert_returns (idx := idx) (size := z) (es' := es') hE (.alike al ht) nop hints s w (by rw [hruns]; exact g1) g2 (by rw [hruns]; exact g3) (by rw [hruns]; exact g4)
          exact ⟨t2, o, k⟩
        rcases St.view_cases hv with ⟨hi, rfl⟩ | ⟨r, t0, hi, ht0, rfl⟩
        · simp only [St.insert, St.tree_ok.2 hi, R.bind_ok]
          obtain ⟨t2, o, hr⟩ := hret _ ⟨st.heap.next, [], [], none, []⟩ (RleTree.Alike.rfl' _)
          obtain ⟨t', e1, e2, e3⟩ := insert_first hr
          subst e1
          rw [hr]
          refine ⟨_, rfl, ?_, ?_⟩
          · simp only [St.store, St.setTree, e3, writeT]; omega
          · simp [St.store, St.setTree]
        · obtain ⟨nd, hm, hht⟩ := h.ok.root i r hi
          have hsz : RleTree.size E ⟨some ⟨r.h, t0, r.len⟩⟩ = Node.size t0 := rfl
          have hmax : r.h ≤ Nat.log 2 MAX := height_max hE ht rfl
          obtain ⟨t2, o, hr0⟩ := hret _ ⟨0, [], [], none, []⟩ (RleTree.Alike.rfl' _)
          have hr0' := hr0
          simp only [RleTree.insert, hsz, bind_ok_iff] at hr0'
          obtain ⟨u1, hc1, u2, hc2, pt, hpt, -⟩ := hr0'
          simp only [St.insert, St.tree_ok.2 hi, R.bind_ok, ht0, hc1, hc2]
          rcases wayDown_fits (E := E) (hH.rep _ rfl) (hints := hints) (idx := idx) (s := s) with ⟨path, hw, hfit⟩ | ⟨f, h1, h2⟩
          swap
          · rw [hpt] at h1; cases h1
          have hpos : 0 < held st.trees r.p := by
            have := held_one hi r.p
            simp only [rootW, if_true] at this
            omega
          have hfl : path.length ≤ r.h := hfit.length
          rw [hw]
          simp only [R.bind_ok]
          rcases unshare_spec (imax := imax) h.ok.inv hm hht ht0 hfit hpos with ⟨H', p', X, e, -, -, -, -, -, t', ht', alt⟩ | e
          swap
          · exact absurd e (unshare_few h.ok.inv hf.simple (held_le st.trees) (by omega) hm hht ht0 hfit hpos)
          have alr : RleTree.Alike (⟨some ⟨r.h, t0, r.len⟩⟩ : RleTree Nat S) ⟨some ⟨r.h, t', r.len⟩⟩ := ⟨rfl, rfl, alt⟩
          simp only [e, R.bind_ok, ht']
          obtain ⟨t2, o, hr⟩ := hret _ ⟨H'.next, [], [], none, []⟩ alr
          rw [hr]
          refine ⟨_, rfl, ?_, ?_⟩
          · have a1 := unshare_next e
            have a2 := insert_next hr
            dsimp only at a2
            simp only [St.store, St.setTree]
            split
            · dsimp only; omega
            · simp only [writeT]; omega
          · simp only [St.store, St.setTree]
            split <;> simp
    | clone i =>
      cases hsi : ss[i]? with
      | none => simp [specStep, hsi] at hs
      | some o =>
      cases o with
      | none => simp [specStep, hsi] at hs
      | some es =>
        obtain ⟨t, hv, ht, hr⟩ := h.view i es hsi
        obtain ⟨o, hi⟩ := view_tree hv
        simp only [St.step, St.cloneCow, St.tree_ok.2 hi, R.bind_ok, if_true]
        cases o with
        | none => exact ⟨_, rfl, by simp, by simp⟩
        | some r =>
          obtain ⟨nd, hm, hht⟩ := h.ok.root i r hi
          have h1 := h.ok.inv.count_le hf.simple hm
          have h2 := held_le st.trees r.p
          simp only [increment_spec hm]
          rw [if_neg (by omega)]
          exact ⟨_, rfl, by simp [Heap.put], by simp⟩
    | drop i =>
      rcases (step_refines (imax := imax) hE hM hM' true h (.drop i) hop).1 ss' hs with ⟨st', e, -⟩ | ⟨e, -⟩
      · refine ⟨st', e, ?_⟩
        simp only [St.step, St.drop, bind_ok_iff] at e
        obtain ⟨o, -, e⟩ := e
        cases o with
        | none => cases e; simp [St.setTree]
        | some r =>
          simp only [bind_ok_iff] at e
          obtain ⟨H, h1, e⟩ := e
          cases e
          have := dropRef_nextC h1
          simp [St.setTree, this]
      · cases hsi : ss[i]? with
        | none => simp [specStep, hsi] at hs
        | some o =>
        cases o with
        | none => simp [specStep, hsi] at hs
        | some es =>
          obtain ⟨t, hv, ht, hr⟩ := h.view i es hsi
          obtain ⟨o, hi⟩ := view_tree hv
          obtain ⟨st', e', -⟩ := drop_step h.ok hi
          simp only [St.step] at e
          rw [e'] at e; cases e
  obtain ⟨st', e, e1, e2⟩ := hok
  refine ⟨st', e, ?_, ?_, by omega, by omega⟩
  · rcases (step_refines (imax := imax) hE hM hM' true h op hop).1 ss' hs with ⟨st2, k1, k2⟩ | ⟨k1, -⟩
    · rw [e] at k1; cases k1; exact k2
    · rw [e] at k1; cases k1
  · rcases stepL (imax := imax) hE hM hM' h hf.simple (fun _ => none) op with ⟨st2, L', k1, k2, k3, -⟩ | ⟨f, k1, k2⟩
    · rw [e] at k1; cases k1; exact k3
    · rw [e] at k1; cases k1

/-- C51: programs of at most `imax / (2 * log₂ MAX + 4)` operations do what is specified. -/
theorem run_succeeds {MAX imax : Nat} {E : Env Nat S} (hE : E.ix = natIdx MAX) (hM : 1 ≤ E.M) (hM' : E.M ≤ 127)
    {ops : List (Op Nat S)} (hops : ∀ op ∈ ops, op.fits MAX) (hle : ops.length * (2 * Nat.log 2 MAX + 4) ≤ imax) {ss : Lists S}
    (hs : specRun MAX E.sl [] ops = some ss) :
    ∃ s, LSt.run E imax LSt.init ops = .ok s ∧ ∀ i es, ss[i]? = some (some es) → runsOf s.st i = .ok es := by
  have key : ∀ (ops : List (Op Nat S)) (n : Nat) (st : St Nat S) (s0 : Lists S), (∀ op ∈ ops, op.fits MAX) → Rel MAX E st s0 → Few MAX n st →
      (n + ops.length) * (2 * Nat.log 2 MAX + 4) ≤ imax → specRun MAX E.sl s0 ops = some ss → ∃ st', St.run E imax true st ops = .ok st' := by
    intro ops
    induction ops with
    | nil => intro n st s0 _ _ _ _ _; exact ⟨st, rfl⟩
    | cons op ops ih =>
      intro n st s0 hf hr hfew hle hs
      simp only [specRun, List.foldlM_cons, Option.bind_eq_bind, Option.bind_eq_some_iff] at hs
      obtain ⟨s1, h1, hs⟩ := hs
      simp only [List.length_cons] at hle
      obtain ⟨st1, e1, e2, e3⟩ := few_step hE hM hM' hr hfew (le_trans (Nat.mul_le_mul_right _ (by omega)) hle) (hf op (by simp)) h1
      obtain ⟨st', e⟩ := ih (n + 1) st1 s1 (fun o ho => hf o (by simp [ho])) e2 e3 (by rw [show n + 1 + ops.length = n + (ops.length + 1) by omega]; exact hle) hs
      exact ⟨st', by simp only [St.run, List.foldlM_cons, e1, R.bind_ok]; exact e⟩
  obtain ⟨st, e⟩ := key ops 0 St.init [] hops (.init MAX E) ⟨fun p nd h => by simp [St.init] at h, by simp [St.init], by simp [St.init]⟩ (by simpa using hle) hs
  rcases linked_refines (imax := imax) hE hM hM' hops hs with ⟨s, h1, h2⟩ | h1
  · exact ⟨s, h1, h2⟩
  · rcases runL (imax := imax) hE hM hM' hops with ⟨st', L, ss', e1, e2, -⟩ | ⟨f, e1, e2⟩
    · rw [h1] at e2; cases e2
    · rw [e] at e1; cases e1

/-- With `usize`, this is every program of up to 2⁵⁵ operations. -/
example {M : Nat} {sl : SliceOps Nat S} {refs : Bool} (hM : 1 ≤ M) (hM' : M ≤ 127) {ops : List (Op Nat S)} (hops : ∀ op ∈ ops, op.fits (2 ^ 64 - 1))
    (hle : ops.length ≤ 2 ^ 55) {ss : Lists S} (hs : specRun (2 ^ 64 - 1) sl [] ops = some ss) :
    ∃ s, LSt.run ⟨natIdx (2 ^ 64 - 1), sl, M, refs⟩ (2 ^ 63 - 1) LSt.init ops = .ok s ∧ ∀ i es, ss[i]? = some (some es) → runsOf s.st i = .ok es := by
  refine run_succeeds (E := ⟨natIdx (2 ^ 64 - 1), sl, M, refs⟩) rfl hM hM' hops ?_ hs
  have : Nat.log 2 (2 ^ 64 - 1) ≤ 63 := by
    have := Nat.log_lt_of_lt_pow (b := 2) (x := 64) (y := 2 ^ 64 - 1) (by decide) (by decide)
    omega
  calc ops.length * (2 * Nat.log 2 (2 ^ 64 - 1) + 4) ≤ 2 ^ 55 * (2 * 63 + 4) := Nat.mul_le_mul hle (by omega)
    _ ≤ 2 ^ 63 - 1 := by decide

/-- A program that is specified, with trees that share nodes; a smaller limit would stop it. -/
example : (specRun 255 (constSl Char) [] reuseProg).isSome = true ∧ reuseProg.length * (2 * Nat.log 2 255 + 4) ≤ 1000 ∧
    (LSt.run exEnv 0 LSt.init reuseProg).map (fun _ => ()) = .error tooMany := by
  refine ⟨by decide, ?_, by decide +kernel⟩
  have : Nat.log 2 255 < 8 := Nat.log_lt_of_lt_pow (by decide) (by decide)
  simp only [reuseProg, List.length_cons, List.length_nil]
  omega

end Sherman.Cow
