import Verif.ThreadsProps
/-!
# No thread is held up by others: C44

The number of steps of a call is bounded by the size of the tree when it begins, whatever the other threads do meanwhile.
-/
namespace Sherman.Cow
section
variable {I S : Type}

/-- Number of nodes of a tree. -/
def nodeNum : {h : Nat} → Tree I S h → Nat
  | 0, _ => 0
  | h + 1, n => 1 + ((Node.kids n).map (nodeNum (h := h))).sum

/-- Number of nodes of a tree in memory, shared nodes counted as often as they are reached. -/
def weight (H : Heap I S) : Nat → Nat → Nat
  | 0, _ => 1
  | h + 1, p => 1 + match H.mem p with
    | some nd => (nd.kids.map (weight H h)).sum
    | none => 0

theorem nodeNum_strip {h : Nat} (t : Tree I S h) : nodeNum (strip t) = nodeNum t := by
  induction h with
  | zero => rfl
  | succ h ih =>
    simp only [nodeNum, strip, List.map_map]
    congr 2
    exact List.map_congr_left (fun k _ => ih k)

theorem nodeNum_alike {h : Nat} {t t' : Tree I S h} (e : Alike t t') : nodeNum t' = nodeNum t := by
  rw [← nodeNum_strip t', ← nodeNum_strip t, show strip t = strip t' from e]

theorem weight_read {H : Heap I S} {h p : Nat} {t : Tree I S (h + 1)} (ht : readT H (h + 1) p = .ok t) : weight H h p = nodeNum t := by
  induction h generalizing p with
  | zero =>
    obtain ⟨nd, ks, -, -, rfl⟩ := readT_succ.1 ht
    have : (ks.map (nodeNum (I := I) (S := S) (h := 0))).sum = 0 := by
      rw [List.sum_eq_zero_iff]
      intro x hx
      obtain ⟨_, _, rfl⟩ := List.mem_map.1 hx
      rfl
    show 1 = 1 + (ks.map (nodeNum (I := I) (S := S) (h := 0))).sum
    omega
  | succ h ih =>
    obtain ⟨nd, ks, h1, h2, rfl⟩ := readT_succ.1 ht
    show (1 + match H.mem p with
      | some nd => (nd.kids.map (weight H h)).sum
      | none => 0) = 1 + (ks.map (nodeNum (I := I) (S := S) (h := h + 1))).sum
    rw [h1]
    dsimp only
    congr 1
    clear h1 ht
    generalize nd.kids = qs at h2
    induction h2 with
    | nil => rfl
    | cons a _ ih' => rw [List.map_cons, List.map_cons, List.sum_cons, List.sum_cons, ih', ih a]

theorem weight_pos (H : Heap I S) (h p : Nat) : 1 ≤ weight H h p := by
  cases h <;> simp [weight]

theorem le_sum (l : List Nat) (f : Nat → Nat) (hf : ∀ x, 1 ≤ f x) : l.length ≤ (l.map f).sum := by
  induction l with
  | nil => simp
  | cons a l ih => have := hf a; simp; omega

theorem mem_sum (l : List Nat) (f : Nat → Nat) {x : Nat} (hx : x ∈ l) : f x ≤ (l.map f).sum := by
  induction l with
  | nil => cases hx
  | cons a l ih =>
    simp only [List.map_cons, List.sum_cons]
    rcases List.mem_cons.1 hx with rfl | h
    · omega
    · have := ih h; omega

theorem rch_weight {H : Heap I S} {out : Nat → Nat} (hi : Inv H out) {p x : Nat} (hr : Rch H p x) {nd : HNode I S} (hm : H.mem p = some nd) :
    ∃ nx, H.mem x = some nx ∧ nx.height ≤ nd.height ∧ weight H nx.height x ≤ weight H nd.height p := by
  induction hr with
  | here => exact ⟨nd, hm, Nat.le_refl _, Nat.le_refl _⟩
  | next h1 h2 h3 ih =>
    rename_i z y n
    obtain ⟨nz, k1, k2, k3⟩ := ih
    rw [h2] at k1; cases k1
    obtain ⟨ny, k4, k5⟩ := hi.ht z n h2 y h3
    refine ⟨ny, k4, by omega, Nat.le_trans ?_ k3⟩
    rw [← k5]
    simp only [weight, h2]
    have h3' : y ∈ n.kids := by
      unfold refsOf at h3
      simp only at h3
      split at h3
      · cases h3
      · exact h3
    have := mem_sum n.kids (weight H ny.height) h3'
    omega

theorem Keeps.weight {H H' : Heap I S} {out : Nat → Nat} (hi : Inv H out) {p : Nat} (k : Keeps H H' p) {nd : HNode I S} (hm : H.mem p = some nd) :
    weight H' nd.height p = weight H nd.height p := by
  generalize hh : nd.height = h
  induction h generalizing p nd with
  | zero => rfl
  | succ h ih =>
    obtain ⟨nd', h1, h2⟩ := k p nd .here hm
    simp only [Cow.weight, hm, h1]
    rw [← h2.2.2.2]
    congr 2
    refine List.map_congr_left (fun q hq => ?_)
    have hq' : q ∈ refsOf (some nd) := by simp only [refsOf, hh]; simpa using hq
    obtain ⟨nq, k1, k2⟩ := hi.ht p nd hm q hq'
    refine ih (p := q) (fun x n hr hx => k x n ?_ hx) k1 (by omega)
    clear hx k ih k1
    induction hr with
    | here => exact .next .here hm hq'
    | next g1 g2 g3 ih => exact .next ih g2 g3

/-- Total weight of references that are to be given up. -/
def workload (H : Heap I S) (work : List (Nat × Nat)) : Nat := (work.map (fun e => weight H e.1 e.2)).sum

theorem workload_keeps {H H' : Heap I S} {out : Nat → Nat} (hi : Inv H out) {work : List (Nat × Nat)} (hh : Heights H work)
    (hk : ∀ e ∈ work, Keeps H H' e.2) : workload H' work = workload H work := by
  unfold workload
  congr 1
  refine List.map_congr_left (fun e he => ?_)
  obtain ⟨nd, h1, h2⟩ := hh e he
  rw [← h2]
  exact (hk e he).weight hi h1

theorem giveUp_less {H H' : Heap I S} {oth : Nat → Nat} {w : Nat × Nat} {work work' : List (Nat × Nat)}
    (hi : Inv H (fun x => ((w :: work).map Prod.snd).count x + oth x)) (hh : Heights H (w :: work))
    (h : giveUp H (w :: work) = .ok (H', work')) : workload H' work' < workload H (w :: work) := by
  obtain ⟨hq, q⟩ := w
  obtain ⟨nd, hm, hht⟩ := hh (hq, q) (by simp)
  simp only at hm hht
  have hw : Heights H work := fun e he => hh e (by simp [he])
  have e0 : workload H ((hq, q) :: work) = weight H hq q + workload H work := by simp [workload]
  have hpos := weight_pos H hq q
  simp only [giveUp, get_ok.2 hm, R.bind_ok] at h
  by_cases hc : nd.count = 1
  · simp only [hc, if_true] at h
    have hown : 0 < (fun x => (((hq, q) :: work).map Prod.snd).count x + oth x) q := by
      have : 0 < (((hq, q) :: work).map Prod.snd).count q := by simp
      exact Nat.lt_of_lt_of_le this (Nat.le_add_right _ _)
    have hq0 : q ∉ work.map Prod.snd := by
      intro hc'
      have e1 := hi.cnt q
      rw [cnt_some hm, hc] at e1
      have e2 := List.count_pos_iff.2 hc'
      simp only [List.map_cons, List.count_cons_self] at e1
      omega
    have keep : ∀ p, p ≠ q → Keeps H (H.free q) p := by
      intro p hp x n hr hx
      have hxq : x ≠ q := by
        rintro rfl
        exact not_rch hi hm hc hown hp hr
      exact ⟨n, by simp [Heap.free, hxq, hx], .refl _⟩
    have ework : workload (H.free q) work = workload H work :=
      workload_keeps hi hw (fun e he => keep e.2 (fun hc' => hq0 (List.mem_map.2 ⟨e, he, hc'⟩)))
    cases hq with
    | zero =>
      cases h
      rw [ework, e0]; omega
    | succ hq =>
      cases h
      have f1 : refsOf (some nd) = nd.kids := by simp [refsOf, hht]
      have hk : ∀ k ∈ nd.kids, ∃ nk, H.mem k = some nk ∧ nk.height = hq := by
        intro k hk
        obtain ⟨nk, h1, h2⟩ := hi.ht q nd hm k (by rw [f1]; exact hk)
        exact ⟨nk, h1, by omega⟩
      have e1 : workload (H.free q) (nd.kids.map (fun k => (hq, k))) = (nd.kids.map (weight H hq)).sum := by
        rw [workload_keeps hi (H := H) (fun e he => ?_) (fun e he => ?_)]
        · simp [workload, List.map_map, Function.comp_def]
        · obtain ⟨k, hk', rfl⟩ := List.mem_map.1 he
          exact hk k hk'
        · obtain ⟨k, hk', rfl⟩ := List.mem_map.1 he
          refine keep k ?_
          rintro rfl
          obtain ⟨nk, h1, h2⟩ := hk k hk'
          rw [hm] at h1; cases h1; omega
      have e2 : workload (H.free q) (nd.kids.map (fun k => (hq, k)) ++ work) =
          workload (H.free q) (nd.kids.map (fun k => (hq, k))) + workload (H.free q) work := by simp [workload]
      rw [e2, e1, ework, e0]
      simp only [weight, hm]
      omega
  · simp only [hc, if_false, bind_ok_iff] at h
    obtain ⟨c, -, h⟩ := h
    cases h
    have : workload (H.put q { nd with count := c }) work = workload H work := by
      refine workload_keeps hi hw (fun e _ => Keeps.of_same (fun x n hx => ?_) _)
      by_cases hxq : x = q
      · subst hxq; rw [hm] at hx; cases hx
        exact ⟨{ nd with count := c }, by simp [Heap.put], ⟨rfl, rfl, rfl, rfl⟩⟩
      · exact ⟨n, by simp [Heap.put, hxq, hx], .refl _⟩
    rw [this, e0]; omega

/-! ## Insertions -/

/-- Nodes on the way that have not been reached. -/
def Task.levels (t : Task I S) : Nat := t.todo.length + if t.node.isSome then 0 else 1

/-- A bound for the steps that are left, if the tree has `N` nodes. -/
def Task.left (H : Heap I S) (N : Nat) (t : Task I S) : Nat :=
  match t.pc with
  | .check => t.levels * (2 * N + 5) + 1
  | .incr _ todo => (t.levels - 1) * (2 * N + 5) + N + 3 + todo.length
  | .giveUp work => t.levels * (2 * N + 5) + 2 + workload H work

theorem levels_advance (t : Task I S) (q : Nat) (pc : Pc) (h : t.node = none ∨ ∃ c todo, t.todo = c :: todo) :
    (t.advance q pc).levels + 1 = t.levels := by
  unfold Task.levels Task.advance
  cases hn : t.node with
  | none => simp
  | some p =>
    rcases h with h | ⟨c, todo, h⟩
    · rw [hn] at h; cases h
    · simp [h]

theorem mul_less {a b n : Nat} (h : a + 1 = b) : a * n + n = b * n := by rw [← h, Nat.succ_mul]

theorem left_less {E : Env I S} {imax : Nat} {H H' : Heap I S} {oth : Nat → Nat} {t t' : Task I S} {X past : List Nat}
    {tree : Tree I S (t.root.h + 1)} (hi : Inv H (fun x => (Var.busy t).refs.count x + oth x)) (ok : t.Ok E H X past tree)
    (h : t.step E imax H = .ok (H', .busy t')) : t'.left H' (nodeNum tree) < t.left H (nodeNum tree) := by
  obtain ⟨nr, r1, r2⟩ := ok.root
  have hN : weight H nr.height t.root.p = nodeNum tree := by rw [r2]; exact weight_read ok.read
  generalize nodeNum tree = N at *
  cases hpc : t.pc with
  | check =>
    rcases ok.target hi with ⟨e, -⟩ | ⟨q, nd, g1, g2, g3, g4, g5⟩
    · simp only [Task.step, hpc, e, R.bind_ok, bind_ok_iff] at h
      obtain ⟨a, -, h⟩ := h
      cases h
    · have hl : t.node = none ∨ ∃ c todo, t.todo = c :: todo := by
        rcases g5 with ⟨e, -⟩ | ⟨_, c, todo, _, -, e, -⟩
        · exact .inl e
        · exact .inr ⟨c, todo, e⟩
      simp only [Task.step, hpc, g1, R.bind_ok, get_ok.2 g2] at h
      have e0 : t.left H N = t.levels * (2 * N + 5) + 1 := by simp only [Task.left, hpc]
      by_cases hc : nd.count = 1
      · simp only [hc, if_true] at h
        cases h
        have e1 := mul_less (n := 2 * N + 5) (levels_advance t q .check hl)
        have e2 : (t.advance q .check).left H N = (t.advance q .check).levels * (2 * N + 5) + 1 := rfl
        omega
      · simp only [hc, if_false] at h
        cases h
        have hl1 := levels_advance t q .check hl
        have e1 := mul_less (a := t.levels - 1) (b := t.levels) (n := 2 * N + 5) (by omega)
        have e2 : Task.left H N { t with pc := .incr [] (if t.h = 0 then [] else nd.kids) } =
          (t.levels - 1) * (2 * N + 5) + N + 3 + (if t.h = 0 then [] else nd.kids).length := rfl
        have e3 : (if t.h = 0 then [] else nd.kids).length ≤ N := by
          by_cases h0 : t.h = 0
          · simp [h0]
          · simp only [h0, if_false]
            obtain ⟨nx, k1, -, k3⟩ := rch_weight hi g4 r1
            rw [g2] at k1; cases k1
            obtain ⟨hh, hh'⟩ : ∃ k, nd.height = k + 1 := ⟨nd.height - 1, by omega⟩
            rw [hh'] at k3
            simp only [weight, g2] at k3
            have := le_sum nd.kids (weight H hh) (weight_pos H hh)
            omega
        omega
  | incr done todo =>
    obtain ⟨q, nd, h1, h2, h3, h4⟩ := ok.incr _ _ hpc
    cases todo with
    | cons a todo =>
      simp only [Task.step, hpc, bind_ok_iff] at h
      obtain ⟨H1, -, h⟩ := h
      cases h
      simp only [Task.left, hpc, Task.levels, List.length_cons]
      omega
    | nil =>
      rcases ok.target hi with ⟨e, -⟩ | ⟨q', nd', g1, g2, g3, g4, g5⟩
      · rw [e] at h1; cases h1
      rw [g1] at h1; cases h1
      rw [h2] at g2; cases g2
      have hl : t.node = none ∨ ∃ c todo, t.todo = c :: todo := by
        rcases g5 with ⟨e, -⟩ | ⟨_, c, todo, _, -, e, -⟩
        · exact .inl e
        · exact .inr ⟨c, todo, e⟩
      simp only [Task.step, hpc, g1, R.bind_ok, get_ok.2 h2, bind_ok_iff] at h
      obtain ⟨⟨H1, t1⟩, h5, h6⟩ := h
      cases h6
      obtain ⟨nx, k1, -, k3⟩ := rch_weight hi g4 r1
      rw [h2] at k1; cases k1
      have ext : ∀ x n, H.mem x = some n → (H.alloc { nd with count := 1 }).1.mem x = some n := by
        intro x n hx
        have := hi.lt x n hx
        have hne : x ≠ H.next := by omega
        simp [Heap.alloc, Heap.put, hne, hx]
      -- what has been installed
      have key : t1.levels = t.levels ∧ t1.h = t.h ∧ t1.node = t.node ∧ t1.todo = t.todo ∧ weight H1 t.h q = weight H t.h q := by
        rcases g5 with ⟨e1, e2⟩ | ⟨p, c, todo, np, e1, e2, e3, e4, e5, e6⟩
        · simp only [Task.install, e1] at h5
          cases h5
          refine ⟨by simp [Task.levels, e1], rfl, e1.symm, rfl, ?_⟩
          rw [← h3]
          exact (Keeps.of_same (fun x n hx => ⟨n, ext x n hx, .refl _⟩) q).weight hi h2
        · simp only [Task.install, e1, e2, get_ok.2 (ext p np e3), R.bind_ok] at h5
          cases h5
          refine ⟨rfl, rfl, rfl, rfl, ?_⟩
          rw [← h3]
          refine Keeps.weight hi (fun x n hr hx => ?_) h2
          have hxp : x ≠ p := by
            rintro rfl
            obtain ⟨nx, k1, k2, -⟩ := rch_weight hi hr h2
            rw [e3] at k1; cases k1; omega
          exact ⟨n, by simp only [Heap.put, hxp, if_false]; exact ext x n hx, .refl _⟩
      obtain ⟨k4, k5, k6, k7, k8⟩ := key
      have hl' : t1.node = none ∨ ∃ c todo, t1.todo = c :: todo := by rw [k6, k7]; exact hl
      have e1 := levels_advance t1 (H.alloc { nd with count := 1 }).2 (.giveUp [(t1.h, q)]) hl'
      have e2 : (t1.advance (H.alloc { nd with count := 1 }).2 (.giveUp [(t1.h, q)])).left H1 N =
          (t1.advance (H.alloc { nd with count := 1 }).2 (.giveUp [(t1.h, q)])).levels * (2 * N + 5) + 2 + workload H1 [(t1.h, q)] := rfl
      have e3 : workload H1 [(t1.h, q)] = weight H t.h q := by
        simp only [workload, List.map_cons, List.map_nil, List.sum_cons, List.sum_nil, Nat.add_zero, k5, k8]
      have e4 : t.left H N = (t.levels - 1) * (2 * N + 5) + N + 3 := by simp [Task.left, hpc]
      have e5 : (t1.advance (H.alloc { nd with count := 1 }).2 (.giveUp [(t1.h, q)])).levels = t.levels - 1 := by omega
      rw [h3, hN] at k3
      rw [e2, e3, e4, e5]
      omega
  | giveUp work =>
    cases work with
    | nil =>
      simp only [Task.step, hpc] at h
      cases h
      simp only [Task.left, hpc, Task.levels, workload]
      omega
    | cons w work =>
      simp only [Task.step, hpc, bind_ok_iff] at h
      obtain ⟨⟨H1, work1⟩, h1, h2⟩ := h
      cases h2
      have hi' : Inv H (fun x => ((w :: work).map Prod.snd).count x + ([t.root.p].count x + oth x)) := by
        have e : (fun x => ((w :: work).map Prod.snd).count x + ([t.root.p].count x + oth x)) = fun x => (Var.busy t).refs.count x + oth x := by
          funext x
          simp only [Var.refs, hpc, Pc.refs, List.count_cons, List.count_nil]
          omega
        rw [e]; exact hi
      have := giveUp_less hi' (ok.give _ hpc) h1
      simp only [Task.left, hpc, Task.levels]
      omega

end
variable {S : Type}

/-! ## Variables -/

/-- A bound for the steps that the call on a variable has left. -/
def Var.left (H : Heap Nat S) : Var Nat S → Nat
  | .idle _ => 0
  | .busy t => t.left H (weight H t.root.h t.root.p)
  | .dying work => workload H work

theorem Task.left_pos (H : Heap Nat S) (N : Nat) (t : Task Nat S) : 0 < t.left H N := by
  unfold Task.left
  cases t.pc <;> simp

theorem quiet_keeps {st st' : TSt Nat S} {a : Act Nat S} (hq : Quiet st st' a) {i : Nat} {v : Var Nat S} (hv : st.vars[i]? = some v)
    (ha : a.var ≠ some i) {p : Nat} (hp : p ∈ v.refs) : Keeps st.heap st'.heap p := by
  intro x nd hr hx
  rcases hq x nd hx with h | h
  · exact h
  · exact absurd hr (h i v p hv ha hp)

/-- Others do not make the work of a thread longer. -/
theorem left_others {E : Env Nat S} {st st' : TSt Nat S} (ok : st.Ok E) {a : Act Nat S} (hq : Quiet st st' a) {i : Nat} {v : Var Nat S}
    (hv : st.vars[i]? = some v) (ha : a.var ≠ some i) : v.left st'.heap = v.left st.heap := by
  have hk := fun p hp => quiet_keeps hq hv ha (p := p) hp
  have hok := ok.var i v hv
  cases v with
  | idle o => rfl
  | dying work =>
    exact workload_keeps ok.inv hok (fun e he => hk e.2 (by simp only [Var.refs]; exact List.mem_map_of_mem he))
  | busy t =>
    obtain ⟨X, past, tree, k⟩ := hok
    obtain ⟨nr, r1, r2⟩ := k.root
    have hN : weight st'.heap t.root.h t.root.p = weight st.heap t.root.h t.root.p := by
      rw [← r2]
      exact (hk t.root.p (by simp [Var.refs])).weight ok.inv r1
    simp only [Var.left, hN]
    unfold Task.left
    cases hpc : t.pc with
    | check => rfl
    | incr d td => rfl
    | giveUp work =>
      dsimp only
      rw [workload_keeps ok.inv (k.give work hpc) (fun e he => hk e.2 (by
        simp only [Var.refs, hpc, Pc.refs, List.mem_cons]; exact .inr (List.mem_map_of_mem he)))]

/-- A step makes it shorter. -/
theorem left_own {MAX imax : Nat} {E : Env Nat S} {st st' : TSt Nat S} {ss : Lists S} (h : RelT MAX E st ss) {i : Nat} {l : List (Op Nat S)}
    (hs : st.act E imax (.step i) = .ok (st', l)) :
    ∃ v v', st.vars[i]? = some v ∧ st'.vars[i]? = some v' ∧ v'.left st'.heap < v.left st.heap := by
  simp only [TSt.act] at hs
  split at hs
  · rename_i t hv
    simp only [bind_ok_iff] at hs
    obtain ⟨⟨H', v'⟩, h1, h2⟩ := hs
    cases h2
    refine ⟨_, v', hv, List.getElem?_set_self (lt_of_get hv), ?_⟩
    obtain ⟨X, past, tree, okt⟩ := h.ok.var i _ hv
    have hi := h.ok.inv
    rw [outs_eq hv] at hi
    rcases task_step (imax := imax) hi okt with ⟨H1, v1, e, k⟩ | ⟨e, -⟩ | ⟨f, w, e, -⟩
    · rw [h1] at e; cases e
      cases v' with
      | idle o => exact Task.left_pos _ _ _
      | dying work => exact absurd rfl (k.stays work)
      | busy t' =>
        obtain ⟨-, tree', g1, g2⟩ := k.busy t' rfl
        have hl := left_less hi okt h1
        have e1 : weight H' t'.root.h t'.root.p = nodeNum tree' := weight_read g1
        have e2 : weight st.heap t.root.h t.root.p = nodeNum tree := weight_read okt.read
        have e3 : nodeNum tree' = nodeNum tree := by
          obtain ⟨a1, a2, a3⟩ := g2
          dsimp only at a1 a2 a3
          generalize t'.root.h = hh at *
          subst a2
          exact nodeNum_alike a3
        simp only [Var.left, e1, e2, e3]
        exact hl
    · rw [h1] at e; cases e
    · rw [h1] at e; cases e
  · rename_i w work hv
    simp only [bind_ok_iff] at hs
    obtain ⟨⟨H', work'⟩, h1, h2⟩ := hs
    cases h2
    refine ⟨_, .dying work', hv, List.getElem?_set_self (lt_of_get hv), ?_⟩
    have hi := h.ok.inv
    rw [outs_eq hv] at hi
    exact giveUp_less hi (h.ok.var i _ hv) h1
  · cases hs

/-- The next step on a variable. -/
def Act.isStep (i : Nat) : Act Nat S → Bool
  | .step j => j == i
  | _ => false

theorem act_others {imax : Nat} {E : Env Nat S} {st st' : TSt Nat S} {a : Act Nat S} {l : List (Op Nat S)} (h : st.act E imax a = .ok (st', l))
    {i : Nat} (ha : a.var ≠ some i) {v : Var Nat S} (hv : st.vars[i]? = some v) : st'.vars[i]? = some v := by
  have hset : ∀ (j : Nat) (w : Var Nat S), j ≠ i → (st.vars.set j w)[i]? = some v := fun j w hj => by rw [List.getElem?_set_ne hj]; exact hv
  have happ : ∀ w : Var Nat S, (st.vars ++ [w])[i]? = some v := fun w => by rw [List.getElem?_append_left (lt_of_get hv)]; exact hv
  cases a with
  | new =>
    simp only [TSt.act, bind_ok_iff] at h
    obtain ⟨_, -, h⟩ := h
    cases h; exact happ _
  | clone j =>
    simp only [TSt.act, bind_ok_iff] at h
    obtain ⟨o, -, h⟩ := h
    cases o with
    | none => cases h; exact happ _
    | some r =>
      simp only [bind_ok_iff] at h
      obtain ⟨_, -, h⟩ := h
      cases h; exact happ _
  | insert j b =>
    have hj : j ≠ i := fun e => ha (by rw [e]; rfl)
    simp only [TSt.act, bind_ok_iff] at h
    obtain ⟨o, -, h⟩ := h
    cases o with
    | none =>
      simp only [bind_ok_iff] at h
      obtain ⟨⟨t, out⟩, -, h⟩ := h
      cases hr : t.root with
      | none => simp only [hr] at h; cases h; exact hset _ _ hj
      | some r => simp only [hr] at h; cases h; exact hset _ _ hj
    | some r =>
      simp only [bind_ok_iff] at h
      obtain ⟨_, -, _, -, _, -, _, -, h⟩ := h
      cases h; exact hset _ _ hj
  | drop j =>
    have hj : j ≠ i := fun e => ha (by rw [e]; rfl)
    simp only [TSt.act, bind_ok_iff] at h
    obtain ⟨o, -, h⟩ := h
    cases o <;> cases h <;> exact hset _ _ hj
  | step j =>
    have hj : j ≠ i := fun e => ha (by rw [e]; rfl)
    simp only [TSt.act] at h
    split at h
    · simp only [bind_ok_iff] at h
      obtain ⟨_, -, h⟩ := h
      cases h; exact hset _ _ hj
    · simp only [bind_ok_iff] at h
      obtain ⟨_, -, h⟩ := h
      cases h; exact hset _ _ hj
    · cases h

theorem run_left {MAX imax : Nat} {E : Env Nat S} (hE : E.ix = natIdx MAX) (hM : 1 ≤ E.M) (hM' : E.M ≤ 127) {acts : List (Act Nat S)}
    {s0 st : TSt Nat S} {ss0 : Lists S} {log : List (Op Nat S)} (hf : ∀ a ∈ acts, a.fits MAX) (hr : RelT MAX E s0 ss0)
    (h : TSt.run E imax s0 acts = .ok (st, log)) {i : Nat} {v : Var Nat S} (hv : s0.vars[i]? = some v)
    (ha : ∀ a ∈ acts, a.var = some i → a = .step i) :
    ∃ v', st.vars[i]? = some v' ∧ acts.countP (Act.isStep i) + v'.left st.heap ≤ v.left s0.heap := by
  induction acts generalizing s0 ss0 log v with
  | nil => cases h; exact ⟨v, hv, by simp⟩
  | cons a acts ih =>
    simp only [TSt.run, bind_ok_iff] at h
    obtain ⟨⟨s1, l1⟩, h1, ⟨s2, l2⟩, h2, h3⟩ := h
    cases h3
    rcases act_outcome (imax := imax) hE hM hM' hr a (hf a (by simp)) with ⟨s1', l1', ss1, e, -, e3, -, e5⟩ | ⟨e, -⟩ | ⟨_, e, -⟩ | ⟨_, _, e, -⟩
    · rw [h1] at e; cases e
      have ih := fun v hv => ih (v := v) (fun a ha => hf a (by simp [ha])) e3 h2 hv (fun a h => ha a (by simp [h]))
      by_cases hai : a.var = some i
      · have := ha a (by simp) hai
        subst this
        obtain ⟨w, w', g1, g2, g3⟩ := left_own hr h1
        rw [hv] at g1; cases g1
        obtain ⟨v', k1, k2⟩ := ih w' g2
        refine ⟨v', k1, ?_⟩
        have : List.countP (Act.isStep i) (Act.step i :: acts) = acts.countP (Act.isStep i) + 1 := by
          rw [List.countP_cons]; simp [Act.isStep]
        omega
      · obtain ⟨v', k1, k2⟩ := ih v (act_others h1 hai hv)
        rw [left_others hr.ok e5 hv hai] at k2
        refine ⟨v', k1, ?_⟩
        have : List.countP (Act.isStep i) (a :: acts) = acts.countP (Act.isStep i) := by
          rw [List.countP_cons]
          cases a with
          | step j =>
            have : j ≠ i := fun e => hai (by rw [e]; rfl)
            simp [Act.isStep, this]
          | _ => simp [Act.isStep]
        omega
    all_goals rw [h1] at e; cases e

theorem fits_length {h : Nat} {t : Tree Nat S (h + 1)} {path : List Nat} (hf : Fits t path) : path.length ≤ h := by
  induction path generalizing h with
  | nil => simp
  | cons c path ih =>
    obtain ⟨h0, k, -, hk⟩ := hf
    cases h with
    | zero => omega
    | succ h => have := ih hk; simp; omega

/-! ## C44 -/

variable {MAX imax : Nat} {E : Env Nat S}

/-- C44: an insertion that begins on a tree of height `h` with `N` nodes takes at most `(h + 1) * (2 * N + 5) + 1` steps of its thread, whatever
the other threads do meanwhile. -/
theorem threads_insert_bound (hE : E.ix = natIdx MAX) (hM : 1 ≤ E.M) (hM' : E.M ≤ 127) {acts acts' : List (Act Nat S)}
    (hf : ∀ a ∈ acts, a.fits MAX) (hf' : ∀ a ∈ acts', a.fits MAX) {st st1 st2 : TSt Nat S} {log l1 l2 : List (Op Nat S)}
    (h : TSt.run E imax TSt.init acts = .ok (st, log)) {i : Nat} {a : Args Nat S} (ha : a.size ≤ MAX)
    (h1 : st.act E imax (.insert i a) = .ok (st1, l1)) (h2 : TSt.run E imax st1 acts' = .ok (st2, l2))
    (hi : ∀ b ∈ acts', b.var = some i → b = .step i) {r : Root Nat S} (hr : st.view i = .ok ⟨some r⟩) :
    acts'.countP (Act.isStep i) ≤ (r.h + 1) * (2 * nodeNum r.tree + 5) + 1 := by
  obtain ⟨ss, -, hrel⟩ := run_rel hE hM hM' hf (RelT.init MAX E) h
  have hsafe := act_outcome (imax := imax) hE hM hM' hrel (.insert i a) ha
  rcases hsafe with ⟨s1, l, ss1, e, -, hrel1, -⟩ | ⟨e, -⟩ | ⟨_, e, -⟩ | ⟨_, _, e, -⟩
  · rw [h1] at e; cases e
    simp only [TSt.act, bind_ok_iff] at h1
    obtain ⟨o, ho, h1⟩ := h1
    have hv : st.vars[i]? = some (.idle o) := by
      unfold TSt.idle at ho
      split at ho
      · rename_i r' hr'; cases ho; exact hr'
      · cases ho
    cases o with
    | none => rw [view_idle hv] at hr; cases hr
    | some c =>
      obtain ⟨t0, g1, g2⟩ := root_view (.inl hv) hr
      cases g2
      simp only [bind_ok_iff] at h1
      obtain ⟨t1, k1, _, -, _, -, path, k2, h1⟩ := h1
      rw [g1] at k1; cases k1
      cases h1
      have hv1 : (st.vars.set i (.busy ⟨a, c, none, path, c.h, .check⟩))[i]? = some (.busy ⟨a, c, none, path, c.h, .check⟩) :=
        List.getElem?_set_self (lt_of_get hv)
      obtain ⟨v', -, k3⟩ := run_left hE hM hM' hf' hrel1 h2 hv1 hi
      have e1 : (Var.busy ⟨a, c, none, path, c.h, .check⟩ : Var Nat S).left st.heap = (path.length + 1) * (2 * nodeNum t0 + 5) + 1 := by
        simp only [Var.left, Task.left, Task.levels, weight_read g1]
        rfl
      obtain ⟨t, -, k4, k5⟩ := hrel.known hv (fun _ h => by cases h)
      rw [hr] at k4; cases k4
      obtain ⟨_, hH, -⟩ := k5.holds hE
      have hlen : path.length ≤ c.h := by
        rcases wayDown_fits (E := E) (hH.rep _ rfl) (hints := a.hints) (idx := a.idx) (s := a.slice) with ⟨path', hw, hfits⟩ | ⟨f, -, hw⟩
        · rw [k2] at hw; cases hw
          exact fits_length hfits
        · rw [k2] at hw; cases hw
      have := Nat.mul_le_mul_right (2 * nodeNum t0 + 5) (Nat.succ_le_succ hlen)
      simp only [Nat.succ_eq_add_one] at this
      rw [e1] at k3
      dsimp only
      omega
  all_goals rw [h1] at e; cases e

/-- C44: the destructor of a tree with `N` nodes takes at most `N` steps of its thread, whatever the other threads do meanwhile. -/
theorem threads_drop_bound (hE : E.ix = natIdx MAX) (hM : 1 ≤ E.M) (hM' : E.M ≤ 127) {acts acts' : List (Act Nat S)}
    (hf : ∀ a ∈ acts, a.fits MAX) (hf' : ∀ a ∈ acts', a.fits MAX) {st st1 st2 : TSt Nat S} {log l1 l2 : List (Op Nat S)}
    (h : TSt.run E imax TSt.init acts = .ok (st, log)) {i : Nat}
    (h1 : st.act E imax (.drop i) = .ok (st1, l1)) (h2 : TSt.run E imax st1 acts' = .ok (st2, l2))
    (hi : ∀ b ∈ acts', b.var = some i → b = .step i) {r : Root Nat S} (hr : st.view i = .ok ⟨some r⟩) :
    acts'.countP (Act.isStep i) ≤ nodeNum r.tree := by
  obtain ⟨ss, -, hrel⟩ := run_rel hE hM hM' hf (RelT.init MAX E) h
  have hsafe := act_outcome (imax := imax) hE hM hM' hrel (.drop i) trivial
  rcases hsafe with ⟨s1, l, ss1, e, -, hrel1, -⟩ | ⟨e, -⟩ | ⟨_, e, -⟩ | ⟨_, _, e, -⟩
  · rw [h1] at e; cases e
    simp only [TSt.act, bind_ok_iff] at h1
    obtain ⟨o, ho, h1⟩ := h1
    have hv : st.vars[i]? = some (.idle o) := by
      unfold TSt.idle at ho
      split at ho
      · rename_i r' hr'; cases ho; exact hr'
      · cases ho
    cases o with
    | none => rw [view_idle hv] at hr; cases hr
    | some c =>
      obtain ⟨t0, g1, g2⟩ := root_view (.inl hv) hr
      cases g2
      cases h1
      have hv1 : (st.vars.set i (.dying [(c.h, c.p)]))[i]? = some (.dying [(c.h, c.p)]) := List.getElem?_set_self (lt_of_get hv)
      obtain ⟨v', -, k3⟩ := run_left hE hM hM' hf' hrel1 h2 hv1 hi
      have e1 : (Var.dying [(c.h, c.p)] : Var Nat S).left st.heap = nodeNum t0 := by
        simp only [Var.left, workload, List.map_cons, List.map_nil, List.sum_cons, List.sum_nil, weight_read g1, Nat.add_zero]
      rw [e1] at k3
      dsimp only
      omega
  all_goals rw [h1] at e; cases e

/-- The hypotheses of both theorems hold: in the execution `exRace` an insertion takes twelve steps of its thread, while another thread works
on a clone; then the tree is dropped in four steps. -/
example : ((TSt.run exEnv 1000 TSt.init (exRace.take 18)).toBool &&
    (TSt.run exEnv 1000 TSt.init (exRace ++ [.drop 0] ++ [1, 0, 1, 0, 1, 0, 1, 0].map Act.step)).toBool) = true ∧
    (exRace.drop 18).countP (Act.isStep 0) = 12 := by decide +kernel

end Sherman.Cow
