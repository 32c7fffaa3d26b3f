import Verif.CowInsert
import Verif.CowDrop
import Verif.TreeProps2
/-!
# Programs with several trees: memory and tree variables fit together
-/
namespace Sherman.Cow
variable {I S : Type}

/-! ## References held by the trees -/

/-- References to `x` that a tree variable holds: its root pointer. -/
def rootW : Option (Option CRoot) → Nat → Nat
  | some (some r), x => if x = r.p then 1 else 0
  | _, _ => 0

/-- References to `x` held by all tree variables. -/
def held (ts : List (Option (Option CRoot))) (x : Nat) : Nat := (ts.map (rootW · x)).sum

theorem held_append (ts : List (Option (Option CRoot))) (v : Option (Option CRoot)) (x : Nat) :
    held (ts ++ [v]) x = held ts x + rootW v x := by
  simp [held]

theorem held_set {ts : List (Option (Option CRoot))} {i : Nat} {v : Option (Option CRoot)} (h : ts[i]? = some v)
    (v' : Option (Option CRoot)) (x : Nat) : held (ts.set i v') x + rootW v x = held ts x + rootW v' x := by
  induction ts generalizing i with
  | nil => simp at h
  | cons a ts ih =>
    cases i with
    | zero =>
      simp only [List.getElem?_cons_zero, Option.some.injEq] at h
      subst h
      simp only [held, List.set_cons_zero, List.map_cons, List.sum_cons]
      omega
    | succ i =>
      have := ih (i := i) (by simpa using h)
      simp only [held, List.set_cons_succ, List.map_cons, List.sum_cons] at this ⊢
      omega

theorem held_one {ts : List (Option (Option CRoot))} {j : Nat} {b : Option (Option CRoot)} (hj : ts[j]? = some b) (x : Nat) :
    rootW b x ≤ held ts x := by
  have := held_set hj none x
  rw [show rootW none x = 0 from rfl] at this
  omega

theorem held_two {ts : List (Option (Option CRoot))} {i j : Nat} {a b : Option (Option CRoot)} (hi : ts[i]? = some a) (hj : ts[j]? = some b)
    (hne : j ≠ i) (x : Nat) : rootW a x + rootW b x ≤ held ts x := by
  have h1 := held_set hi none x
  have h2 := held_one (ts := ts.set i none) (j := j) (b := b) (by rw [List.getElem?_set_ne hne.symm]; exact hj) x
  rw [show rootW none x = 0 from rfl] at h1
  omega

/-- Memory and trees fit together. -/
structure St.Ok (st : St I S) : Prop where
  inv : Inv st.heap (held st.trees)
  root : ∀ (i : Nat) (r : CRoot), st.trees[i]? = some (some (some r)) → ∃ nd, st.heap.mem r.p = some nd ∧ nd.height = r.h

theorem St.tree_ok {st : St I S} {i : Nat} {r : Option CRoot} : st.tree i = .ok r ↔ st.trees[i]? = some (some r) := by
  unfold St.tree
  split
  · rename_i r' h; rw [h]; simp
  · rename_i h
    constructor
    · intro h; cases h
    · intro h'; exact (h r h').elim

theorem St.tree_error {st : St I S} {i : Nat} (h : ∀ r, st.trees[i]? ≠ some (some r)) : st.tree i = .error (.panic "no such tree") := by
  unfold St.tree
  split
  · rename_i r' h'; exact (h r' h').elim
  · rfl

theorem St.view_none {st : St I S} {i : Nat} (h : st.trees[i]? = some (some none)) : st.view i = .ok ⟨none⟩ := by
  unfold St.view
  rw [St.tree_ok.2 h]; rfl

theorem St.view_some {st : St I S} {i : Nat} {r : CRoot} (h : st.trees[i]? = some (some (some r))) {t : Tree I S (r.h + 1)}
    (ht : readT st.heap (r.h + 1) r.p = .ok t) : st.view i = .ok ⟨some ⟨r.h, t, r.len⟩⟩ := by
  unfold St.view
  rw [St.tree_ok.2 h]
  simp only [R.bind_ok]
  rw [ht]; rfl

/-- Every tree can be read. -/
theorem St.view_cases {st : St I S} {i : Nat} {t : RleTree I S} (hv : st.view i = .ok t) :
    (st.trees[i]? = some (some none) ∧ t = ⟨none⟩) ∨
    ∃ r t0, st.trees[i]? = some (some (some r)) ∧ readT st.heap (r.h + 1) r.p = .ok t0 ∧ t = ⟨some ⟨r.h, t0, r.len⟩⟩ := by
  unfold St.view at hv
  rw [bind_ok_iff] at hv
  obtain ⟨o, h1, hv⟩ := hv
  rw [St.tree_ok] at h1
  cases o with
  | none => cases hv; exact .inl ⟨h1, rfl⟩
  | some r =>
    simp only at hv
    rw [bind_ok_iff] at hv
    obtain ⟨t0, h2, hv⟩ := hv
    cases hv
    exact .inr ⟨r, t0, h1, h2, rfl⟩

theorem RleTree.Alike.rfl' (t : RleTree I S) : t.Alike t := by
  obtain ⟨r⟩ := t
  cases r with
  | none => trivial
  | some r => exact ⟨rfl, rfl, Sherman.Alike.refl _⟩

/-- The other trees of a program, after an operation on tree `i`. -/
def Others (st st' : St I S) (i : Nat) : Prop :=
  ∀ j, j ≠ i → j < st.trees.length →
    st'.trees[j]? = st.trees[j]? ∧ ∀ t, st.view j = .ok t → ∃ t', st'.view j = .ok t' ∧ t.Alike t'

/-- The first insertion into a tree. -/
theorem insert_first {E : Env Nat S} {nop : Bool} {hints : List Nat} {idx : Nat} {s : S} {z : Nat} {w : World} {t2 : RleTree Nat S} {o : Inserted}
    (hr : RleTree.insert E ⟨none⟩ nop hints idx s z w = .ok (t2, o)) :
    ∃ t' : Tree Nat S 1, t2 = ⟨some ⟨0, t', 1⟩⟩ ∧ Node.ptr t' = w.next ∧ o.world.next = w.next + 1 := by
  simp only [RleTree.insert, RleTree.new, bind_ok_iff] at hr
  obtain ⟨_, _, _, _, ⟨a, b⟩, ⟨_, _, _, _, _, _, h2⟩, hr⟩ := hr
  cases h2
  cases hr
  exact ⟨_, rfl, rfl, rfl⟩

/-- No node is shared. -/
def Uno (H : Heap I S) : Prop := ∀ x nd, H.mem x = some nd → nd.count = 1

theorem ensureUnique_uno {imax : Nat} {H : Heap I S} (u : Uno H) (h p : Nat) :
    ensureUnique imax H h p = .ok (H, p) ∨ ensureUnique imax H h p = .error (.ub "access to a freed node") := by
  unfold ensureUnique Heap.get
  cases hm : H.mem p with
  | none => exact .inr rfl
  | some nd => left; simp [u p nd hm]

theorem unshareDown_uno {imax : Nat} {path : List Nat} {H : Heap I S} (u : Uno H) {h p : Nat} :
    (∃ H', unshareDown imax path H h p = .ok H' ∧ Uno H') ∨ ∃ m, unshareDown imax path H h p = .error (.ub m) := by
  induction path generalizing H h p with
  | nil => exact .inl ⟨H, rfl, u⟩
  | cons c path ih =>
    unfold unshareDown
    cases hm : H.mem p with
    | none => right; exact ⟨"access to a freed node", by simp [Heap.get, hm]⟩
    | some nd =>
      simp only [get_ok.2 hm, R.bind_ok]
      cases hk : nd.kids[c]? with
      | none => exact .inr ⟨_, rfl⟩
      | some q =>
        simp only [R.pure_eq, R.bind_ok]
        rcases ensureUnique_uno (imax := imax) u (h - 1) q with e | e
        · simp only [e, R.bind_ok, get_ok.2 hm]
          refine ih (fun x n hx => ?_)
          simp only [Heap.put] at hx
          split at hx
          · cases hx; exact u p nd hm
          · exact u x n hx
        · right; exact ⟨_, by simp only [e]; rfl⟩

theorem unshare_uno {imax : Nat} {path : List Nat} {H : Heap I S} (u : Uno H) {h p : Nat} :
    (∃ H' p', unshare imax path H h p = .ok (H', p') ∧ Uno H') ∨ ∃ m, unshare imax path H h p = .error (.ub m) := by
  unfold unshare
  rcases ensureUnique_uno (imax := imax) u h p with e | e
  · simp only [e, R.bind_ok]
    rcases unshareDown_uno (imax := imax) (path := path) u (h := h) (p := p) with ⟨H', e, u'⟩ | ⟨m, e⟩
    · simp only [e, R.bind_ok, R.pure_eq]
      exact .inl ⟨H', p, rfl, u'⟩
    · simp only [e]
      exact .inr ⟨m, rfl⟩
  · simp only [e]
    exact .inr ⟨_, rfl⟩

theorem insert_step {imax : Nat} {E : Env Nat S} {st : St Nat S} (ok : st.Ok) {i : Nat} {t : RleTree Nat S}
    (hv : st.view i = .ok t) {es : List (Ent S)} (hh : ∀ r, t.root = some r → Rep E.M 1 r.tree es) (nop : Bool) (hints : List Nat) (idx : Nat) (s : S) (z : Nat) :
    (∃ st' t1 t2 w o, st.insert E imax i nop hints idx s z = .ok st' ∧ t.Alike t1 ∧ t1.insert E nop hints idx s z w = .ok (t2, o) ∧
      st'.view i = .ok t2 ∧ st'.Ok ∧ st'.trees.length = st.trees.length ∧ Others st st' i) ∨
    (st.insert E imax i nop hints idx s z = .error tooMany ∧ ¬ Uno st.heap) ∨
    ∃ f t1 w, st.insert E imax i nop hints idx s z = .error f ∧ t.Alike t1 ∧ t1.insert E nop hints idx s z w = .error f := by
  have hlt : i < st.trees.length := by
    by_contra hc
    rw [St.view, St.tree_error (fun r h => by rw [List.getElem?_eq_none (by omega)] at h; cases h)] at hv
    cases hv
  rcases St.view_cases hv with ⟨hi, rfl⟩ | ⟨r, t0, hi, ht0, rfl⟩
  · -- first insertion
    simp only [St.insert, St.tree_ok.2 hi, R.bind_ok]
    cases hr : RleTree.insert E ⟨none⟩ nop hints idx s z ⟨st.heap.next, [], [], none, []⟩ with
    | error f => exact .inr (.inr ⟨f, ⟨none⟩, _, rfl, RleTree.Alike.rfl' _, hr⟩)
    | ok res =>
      obtain ⟨t2, o⟩ := res
      left
      obtain ⟨t', e1, e2, e3⟩ := insert_first hr
      subst e1
      obtain ⟨k1, k2, k3, k4⟩ := new_write (out' := held (st.trees.set i (some (some ⟨0, st.heap.next, 1⟩)))) ok.inv e2 (fun x => by
        have := held_set hi (some (some ⟨0, st.heap.next, 1⟩)) x
        simp only [rootW] at this
        omega)
      have hst : st.store i st.heap ⟨some ⟨0, t', 1⟩⟩ o.world.next =
          ⟨writeT st.heap t' (st.heap.next + 1), st.trees.set i (some (some ⟨0, st.heap.next, 1⟩))⟩ := by
        have e4 : ptrOf t' = st.heap.next := e2
        simp only [St.store, St.setTree, e4, e3]
      simp only [R.bind_ok, R.pure_eq, hst]
      refine ⟨_, ⟨none⟩, _, _, _, rfl, RleTree.Alike.rfl' _, hr, St.view_some (r := ⟨0, st.heap.next, 1⟩) (by simp [hlt]) k2, ⟨k1, ?_⟩, by simp, ?_⟩
      · intro j rj hj
        dsimp only at hj
        by_cases hji : j = i
        · subst hji
          rw [List.getElem?_set_self hlt] at hj
          cases hj
          exact k3
        · rw [List.getElem?_set_ne (Ne.symm hji)] at hj
          obtain ⟨nd, h1, h2⟩ := ok.root j rj hj
          exact ⟨nd, k4 _ _ h1, h2⟩
      · intro j hji hjl
        have hj : (st.trees.set i (some (some ⟨0, st.heap.next, 1⟩)))[j]? = st.trees[j]? := List.getElem?_set_ne (Ne.symm hji)
        refine ⟨hj, fun tj htj => ?_⟩
        rcases St.view_cases htj with ⟨hn, rfl⟩ | ⟨rj, t0, hn, ht0, rfl⟩
        · exact ⟨_, St.view_none (by dsimp only; rw [hj]; exact hn), RleTree.Alike.rfl' _⟩
        · exact ⟨_, St.view_some (by dsimp only; rw [hj]; exact hn) (readT_ext (fun x nd h => k4 x nd h) ht0), RleTree.Alike.rfl' _⟩
  · obtain ⟨nd, hm, hht⟩ := ok.root i r hi
    simp only [St.insert, St.tree_ok.2 hi, R.bind_ok, ht0]
    have hsz : RleTree.size E ⟨some ⟨r.h, t0, r.len⟩⟩ = Node.size t0 := rfl
    cases hc1 : check (!E.ix.lt (Node.size t0) idx) "cannot insert new slice, index out of bounds" with
    | error f =>
      refine .inr (.inr ⟨f, _, ⟨0, [], [], none, []⟩, rfl, RleTree.Alike.rfl' _, ?_⟩)
      simp only [RleTree.insert, hsz, hc1]; rfl
    | ok u1 =>
    cases hc2 : check (!E.ix.le z E.ix.zero) "cannot insert new slice, size is not greater than zero" with
    | error f =>
      refine .inr (.inr ⟨f, _, ⟨0, [], [], none, []⟩, rfl, RleTree.Alike.rfl' _, ?_⟩)
      simp only [RleTree.insert, hsz, hc1, hc2]; rfl
    | ok u2 =>
    simp only [R.bind_ok]
    have hrep : Rep E.M 1 t0 es := hh _ rfl
    rcases wayDown_fits (E := E) hrep (hints := hints) (idx := idx) (s := s) with ⟨path, hw, hf⟩ | ⟨f, h1, h2⟩
    swap
    · refine .inr (.inr ⟨f, _, ⟨0, [], [], none, []⟩, by rw [h2]; rfl, RleTree.Alike.rfl' _, ?_⟩)
      simp only [RleTree.insert, hsz, hc1, hc2, R.bind_ok, h1]; rfl
    rw [hw]
    simp only [R.bind_ok]
    have hpos : 0 < held st.trees r.p := by
      have := held_one hi r.p
      simp only [rootW, if_true] at this
      omega
    rcases unshare_spec (imax := imax) ok.inv hm hht ht0 hf hpos with ⟨H', p', X, e, hinv, way, al, stay, ⟨nd', hm', hht'⟩, t', ht', alt⟩ | e
    swap
    · refine .inr (.inl ⟨by rw [e]; rfl, fun u => ?_⟩)
      rcases unshare_uno (imax := imax) (path := path) u (h := r.h) (p := r.p) with ⟨_, _, e', _⟩ | ⟨_, e'⟩
      · rw [e] at e'; cases e'
      · rw [e] at e'; cases e'
    simp only [e, R.bind_ok, ht']
    have alr : RleTree.Alike (⟨some ⟨r.h, t0, r.len⟩⟩ : RleTree Nat S) ⟨some ⟨r.h, t', r.len⟩⟩ := ⟨rfl, rfl, alt⟩
    cases hr : RleTree.insert E ⟨some ⟨r.h, t', r.len⟩⟩ nop hints idx s z ⟨H'.next, [], [], none, []⟩ with
    | error f => exact .inr (.inr ⟨f, _, _, rfl, alr, hr⟩)
    | ok res =>
      obtain ⟨t2, o⟩ := res
      left
      let ts1 := st.trees.set i (some (some ⟨r.h, p', r.len⟩))
      have hi1 : Inv H' (held ts1) := hinv _ (fun x => held_set hi (some (some ⟨r.h, p', r.len⟩)) x)
      have hts1 : ts1[i]? = some (some (some ⟨r.h, p', r.len⟩)) := List.getElem?_set_self hlt
      have hpos1 : 0 < held ts1 p' := by
        have := held_one hts1 p'
        simp only [rootW, if_true] at this
        omega
      obtain ⟨r', e1, k1, k2, k3, k4, -⟩ := insert_write hi1 way hm' hht' hpos1 ht' hr (by rw [← wayDown_alike alt]; exact hw)
      subst e1
      have hst : st.store i H' ⟨some r'⟩ o.world.next =
          ⟨writeT H' r'.tree o.world.next, st.trees.set i (some (some ⟨r'.h, ptrOf r'.tree, r'.len⟩))⟩ := rfl
      simp only [R.bind_ok, R.pure_eq, hst]
      have hap := way.apart hi1 hpos1
      -- other roots are off the way
      have hoff : ∀ (j : Nat) (rj : CRoot), j ≠ i → st.trees[j]? = some (some (some rj)) → rj.p ∉ X := by
        intro j rj hji hj hx
        have h1 := way.others hi1 hpos1 hx
        have hj1 : ts1[j]? = some (some (some rj)) := by rw [List.getElem?_set_ne (Ne.symm hji)]; exact hj
        have h2 := held_two hts1 hj1 hji rj.p
        simp only [rootW, if_true] at h2
        split_ifs at h1 h2 <;> omega
      have hset : ∀ j, j ≠ i → (st.trees.set i (some (some ⟨r'.h, ptrOf r'.tree, r'.len⟩)))[j]? = st.trees[j]? :=
        fun j hji => List.getElem?_set_ne (Ne.symm hji)
      have hself : (st.trees.set i (some (some ⟨r'.h, ptrOf r'.tree, r'.len⟩)))[i]? = some (some (some ⟨r'.h, ptrOf r'.tree, r'.len⟩)) :=
        List.getElem?_set_self hlt
      refine ⟨_, _, _, _, _, rfl, alr, hr, St.view_some (r := ⟨r'.h, ptrOf r'.tree, r'.len⟩) hself k1, ⟨?_, ?_⟩, by simp, ?_⟩
      · refine k2 _ (fun x => ?_)
        have g1 := held_set hi (some (some ⟨r.h, p', r.len⟩)) x
        have g2 := held_set hi (some (some ⟨r'.h, ptrOf r'.tree, r'.len⟩)) x
        simp only [rootW] at g1 g2
        show held (st.trees.set i (some (some ⟨r'.h, ptrOf r'.tree, r'.len⟩))) x + _ = held (st.trees.set i (some (some ⟨r.h, p', r.len⟩))) x + _
        omega
      · intro j rj hj
        dsimp only at hj
        by_cases hji : j = i
        · subst hji
          rw [hself] at hj
          cases hj
          exact k3
        · rw [hset j hji] at hj
          obtain ⟨n0, h1, h2⟩ := ok.root j rj hj
          obtain ⟨n1, h3, h4⟩ := stay _ _ h1
          refine ⟨n1, ?_, by rw [← h4, h2]⟩
          dsimp only
          rw [k4]
          · exact h3
          · have := hi1.lt _ _ h3
            rintro (h | h)
            · exact hoff j rj hji hj h
            · omega
      · intro j hji hjl
        refine ⟨hset j hji, fun tj htj => ?_⟩
        rcases St.view_cases htj with ⟨hn, rfl⟩ | ⟨rj, u0, hn, hu0, rfl⟩
        · exact ⟨_, St.view_none (by dsimp only; rw [hset j hji]; exact hn), RleTree.Alike.rfl' _⟩
        · obtain ⟨n0, h1, h2⟩ := ok.root j rj hn
          obtain ⟨cnt, hgt, zz, ks, kd⟩ := n0
          simp only at h2
          subst h2
          obtain ⟨u1, hu1, alu⟩ := al _ _ _ h1 hu0
          obtain ⟨n1, h3, h4⟩ := stay _ _ h1
          have := read_outside hi1 hap k4 h3 h4.symm (hoff j rj hji hn) hu1
          exact ⟨_, St.view_some (by dsimp only; rw [hset j hji]; exact hn) this, ⟨rfl, rfl, alu⟩⟩

/-! ## Cloning and dropping -/

theorem lt_of_get {α : Type} {l : List α} {i : Nat} {v : α} (h : l[i]? = some v) : i < l.length := by
  by_contra hc
  rw [List.getElem?_eq_none (by omega)] at h; cases h

/-- A tree variable was added at the end, memory grew or stayed. -/
theorem add_step {st : St I S} (ok : st.Ok) {H : Heap I S} {v : Option (Option CRoot)} (hi : Inv H (held (st.trees ++ [v])))
    (hs : Stay st.heap H) (hr : ∀ h p t nd, st.heap.mem p = some nd → nd.height = h → readT st.heap (h + 1) p = .ok t → readT H (h + 1) p = .ok t)
    (hv : ∀ r, v = some (some r) → ∃ nd, H.mem r.p = some nd ∧ nd.height = r.h) :
    St.Ok ⟨H, st.trees ++ [v]⟩ ∧ ∀ j, j < st.trees.length → (st.trees ++ [v])[j]? = st.trees[j]? ∧
      ∀ t, st.view j = .ok t → St.view ⟨H, st.trees ++ [v]⟩ j = .ok t := by
  have hold : ∀ j, j < st.trees.length → (st.trees ++ [v])[j]? = st.trees[j]? := fun j hj => List.getElem?_append_left hj
  refine ⟨⟨hi, fun j rj hj => ?_⟩, fun j hj => ⟨hold j hj, fun t ht => ?_⟩⟩
  · dsimp only at hj
    by_cases hjl : j < st.trees.length
    · rw [hold j hjl] at hj
      obtain ⟨nd, h1, h2⟩ := ok.root j rj hj
      obtain ⟨nd', h3, h4⟩ := hs _ _ h1
      exact ⟨nd', h3, by rw [← h4, h2]⟩
    · have := lt_of_get hj
      have hjl : j = st.trees.length := by simp at this; omega
      subst hjl
      simp at hj
      exact hv rj hj
  · rcases St.view_cases ht with ⟨hn, rfl⟩ | ⟨rj, u0, hn, hu0, rfl⟩
    · exact St.view_none (by dsimp only; rw [hold j hj]; exact hn)
    · obtain ⟨nd, h1, h2⟩ := ok.root j rj hn
      exact St.view_some (by dsimp only; rw [hold j hj]; exact hn) (hr _ _ _ _ h1 h2 hu0)

/-- `new_empty`. -/
theorem new_step {E : Env I S} {st : St I S} (ok : st.Ok) (hM : 1 ≤ E.M) (hM' : E.M ≤ 127) :
    st.newEmpty E = .ok ⟨st.heap, st.trees ++ [some none]⟩ ∧ St.Ok (⟨st.heap, st.trees ++ [some none]⟩ : St I S) ∧
      ∀ j, j < st.trees.length → (st.trees ++ [some none])[j]? = st.trees[j]? ∧
      ∀ t, st.view j = .ok t → St.view ⟨st.heap, st.trees ++ [some none]⟩ j = .ok t := by
  refine ⟨?_, add_step ok ?_ (fun x nd h => ⟨nd, h, rfl⟩) (fun _ _ _ _ _ _ h => h) (fun r h => by cases h)⟩
  · simp only [St.newEmpty, RleTree.newEmpty]
    simp [hM, hM', check]
  · have : held (st.trees ++ [some none]) = held st.trees := by
      funext x; rw [held_append]; simp [rootW]
    rw [this]; exact ok.inv

/-- A clone of tree `i` was added at the end. -/
def CloneOf (st st' : St I S) (i : Nat) : Prop :=
  st'.Ok ∧ st'.trees.length = st.trees.length + 1 ∧
    (∀ j, j < st.trees.length → st'.trees[j]? = st.trees[j]? ∧ ∀ t, st.view j = .ok t → st'.view j = .ok t) ∧
    ∀ t, st.view i = .ok t → ∃ t', st'.view st.trees.length = .ok t' ∧ t.Alike t'

theorem cloneEmpty_step {st : St I S} (ok : st.Ok) {i : Nat} (hi : st.trees[i]? = some (some none)) :
    CloneOf st ⟨st.heap, st.trees ++ [some none]⟩ i := by
  have : held (st.trees ++ [some none]) = held st.trees := by
    funext x; rw [held_append]; simp [rootW]
  obtain ⟨h1, h2⟩ := add_step (H := st.heap) (v := some none) ok (by rw [this]; exact ok.inv) (fun x nd h => ⟨nd, h, rfl⟩) (fun _ _ _ _ _ _ h => h)
    (fun r h => by cases h)
  refine ⟨h1, by simp, h2, fun t ht => ?_⟩
  rw [St.view_none hi] at ht
  cases ht
  exact ⟨_, St.view_none (by simp), RleTree.Alike.rfl' _⟩

theorem cloneCow_step {imax : Nat} {st : St I S} (ok : st.Ok) {i : Nat} {o : Option CRoot} (hi : st.trees[i]? = some (some o)) :
    (∃ st', st.cloneCow imax i = .ok st' ∧ CloneOf st st' i) ∨ st.cloneCow imax i = .error tooMany := by
  simp only [St.cloneCow, St.tree_ok.2 hi, R.bind_ok]
  cases o with
  | none => exact .inl ⟨_, rfl, cloneEmpty_step ok hi⟩
  | some r =>
    obtain ⟨nd, hm, hht⟩ := ok.root i r hi
    rcases increment_inv (imax := imax) (out' := held (st.trees ++ [some (some r)])) ok.inv hm (fun x => held_append _ _ _) with
      ⟨H', e, hinv, hl, hk⟩ | e
    · left
      simp only [e, R.bind_ok, R.pure_eq]
      have hread : ∀ h p t nd, st.heap.mem p = some nd → nd.height = h → readT st.heap (h + 1) p = .ok t → readT H' (h + 1) p = .ok t := by
        intro h p t nd hm hh ht
        obtain ⟨n', h1, h2⟩ := hk _ _ hm
        exact read_less ok.inv hinv hl h1 (by rw [← h2.1]; exact hh) ht
      obtain ⟨h1, h2⟩ := add_step (v := some (some r)) ok hinv
        (fun x nd h => by obtain ⟨n', g1, g2⟩ := hk _ _ h; exact ⟨n', g1, g2.1⟩) hread
        (fun r' h => by cases h; obtain ⟨n', g1, g2⟩ := hk _ _ hm; exact ⟨n', g1, by rw [← g2.1]; exact hht⟩)
      refine ⟨_, rfl, h1, by simp, h2, fun t ht => ?_⟩
      rcases St.view_cases ht with ⟨hn, -⟩ | ⟨r', t0, hn, ht0, rfl⟩
      · rw [hi] at hn; cases hn
      · rw [hi] at hn; cases hn
        exact ⟨_, St.view_some (i := st.trees.length) (by simp) (hread _ _ _ _ hm hht ht0), RleTree.Alike.rfl' _⟩
    · right
      simp only [e]; rfl

theorem clonePlain_step {st : St I S} (ok : st.Ok) {i : Nat} {o : Option CRoot} (hi : st.trees[i]? = some (some o)) :
    ∃ st', st.clonePlain i = .ok st' ∧ CloneOf st st' i := by
  simp only [St.clonePlain, St.tree_ok.2 hi, R.bind_ok]
  cases o with
  | none => exact ⟨_, rfl, cloneEmpty_step ok hi⟩
  | some r =>
    obtain ⟨nd, hm, hht⟩ := ok.root i r hi
    obtain ⟨H', p', e, hinv, hx, hroot, hread⟩ := deepClone_spec st.heap _ r.p nd ok.inv hm hht
    simp only [e, R.bind_ok, R.pure_eq]
    have hinv : Inv H' (held (st.trees ++ [some (some { r with p := p' })])) := by
      have : held (st.trees ++ [some (some { r with p := p' })]) = fun x => held st.trees x + (if x = p' then 1 else 0) := by
        funext x; rw [held_append]; rfl
      rw [this]; exact hinv
    obtain ⟨h1, h2⟩ := add_step (v := some (some { r with p := p' })) ok hinv (fun x nd h => ⟨nd, hx _ _ h, rfl⟩)
      (fun _ _ _ _ _ _ h => readT_ext hx h) (fun r' h => by cases h; exact hroot)
    refine ⟨_, rfl, h1, by simp, h2, fun t ht => ?_⟩
    rcases St.view_cases ht with ⟨hn, -⟩ | ⟨r', t0, hn, ht0, rfl⟩
    · rw [hi] at hn; cases hn
    · rw [hi] at hn; cases hn
      obtain ⟨t', ht', al⟩ := hread t0 ht0
      exact ⟨_, St.view_some (i := st.trees.length) (r := { r with p := p' }) (by simp) ht', ⟨rfl, rfl, al⟩⟩

theorem drop_step {st : St I S} (ok : st.Ok) {i : Nat} {o : Option CRoot} (hi : st.trees[i]? = some (some o)) :
    ∃ st', st.drop i = .ok st' ∧ st'.Ok ∧ st'.trees = st.trees.set i none ∧ Less st'.heap st.heap ∧
      ∀ j, j ≠ i → ∀ t, st.view j = .ok t → st'.view j = .ok t := by
  have hlt := lt_of_get hi
  have hset : ∀ j, j ≠ i → (st.trees.set i none)[j]? = st.trees[j]? := fun j hji => List.getElem?_set_ne (Ne.symm hji)
  simp only [St.drop, St.tree_ok.2 hi, R.bind_ok]
  cases o with
  | none =>
    have hh : held (st.trees.set i none) = held st.trees := by
      funext x
      have := held_set hi none x
      simp only [rootW] at this
      omega
    refine ⟨_, rfl, ⟨?_, fun j rj hj => ?_⟩, rfl, fun x nd h => ⟨nd, h, .refl _⟩, fun j hji t ht => ?_⟩
    · show Inv st.heap (held (st.trees.set i none))
      rw [hh]; exact ok.inv
    · have hj : (st.trees.set i none)[j]? = some (some (some rj)) := hj
      by_cases hji : j = i
      · subst hji
        rw [List.getElem?_set_self hlt] at hj; cases hj
      · rw [hset j hji] at hj
        exact ok.root j rj hj
    · rcases St.view_cases ht with ⟨hn, rfl⟩ | ⟨rj, u0, hn, hu0, rfl⟩
      · exact St.view_none (by show (st.trees.set i none)[j]? = _; rw [hset j hji]; exact hn)
      · exact St.view_some (st := st.setTree i none) (by show (st.trees.set i none)[j]? = _; rw [hset j hji]; exact hn) hu0
  | some r =>
    obtain ⟨nd, hm, hht⟩ := ok.root i r hi
    obtain ⟨H', e, hinv, hn, hl⟩ := dropRef_spec (h := r.h) st.heap _ (held (st.trees.set i none)) r.p nd ok.inv hm hht
      (fun x => held_set hi none x)
    simp only [e, R.bind_ok, R.pure_eq]
    have alive : ∀ j rj, j ≠ i → st.trees[j]? = some (some (some rj)) → ∃ nd, H'.mem rj.p = some nd ∧ nd.height = rj.h := by
      intro j rj hji hj
      have : 0 < held (st.trees.set i none) rj.p := by
        have := held_one (ts := st.trees.set i none) (j := j) (by rw [hset j hji]; exact hj) rj.p
        simp only [rootW, if_true] at this
        omega
      obtain ⟨nd, h1⟩ := hinv.alive this
      obtain ⟨n0, h2, h3⟩ := hl _ _ h1
      obtain ⟨n1, h4, h5⟩ := ok.root j rj hj
      rw [h2] at h4; cases h4
      exact ⟨nd, h1, by rw [← h3.1]; exact h5⟩
    refine ⟨_, rfl, ⟨hinv, fun j rj hj => ?_⟩, rfl, hl, fun j hji t ht => ?_⟩
    · have hj : (st.trees.set i none)[j]? = some (some (some rj)) := hj
      by_cases hji : j = i
      · subst hji
        rw [List.getElem?_set_self hlt] at hj; cases hj
      · rw [hset j hji] at hj
        exact alive j rj hji hj
    · rcases St.view_cases ht with ⟨hn, rfl⟩ | ⟨rj, u0, hn, hu0, rfl⟩
      · exact St.view_none (by show (st.trees.set i none)[j]? = _; rw [hset j hji]; exact hn)
      · obtain ⟨n1, h1, h2⟩ := alive j rj hji hn
        exact St.view_some (st := ⟨H', st.trees.set i none⟩) (by show (st.trees.set i none)[j]? = _; rw [hset j hji]; exact hn)
          (read_less ok.inv hinv hl h1 h2 hu0)

/-! ## Trees that do not share -/

theorem nodesT_count {H : Heap I S} (u : Uno H) {h : Nat} (t : Tree I S h) : ∀ e ∈ nodesT H t, e.2.count = 1 := by
  induction h with
  | zero => intro e he; cases he
  | succ h ih =>
    intro e he
    rcases List.mem_cons.1 he with rfl | he
    · simp only [toHNode]
      split
      · rename_i nd hm; exact u _ _ hm
      · rfl
    · obtain ⟨k, _, hk⟩ := List.mem_flatMap.1 he
      exact ih k e hk

theorem lookup_mem {β : Type} {l : List (Nat × β)} {x : Nat} {b : β} (h : l.lookup x = some b) : (x, b) ∈ l := by
  induction l with
  | nil => cases h
  | cons a l ih =>
    obtain ⟨y, c⟩ := a
    rw [List.lookup_cons] at h
    split at h
    · rename_i hxy
      cases h
      rw [beq_iff_eq] at hxy
      subst hxy
      exact List.mem_cons_self
    · exact List.mem_cons_of_mem _ (ih h)

theorem writeT_uno {H : Heap I S} (u : Uno H) {h : Nat} (t : Tree I S h) (next : Nat) : Uno (writeT H t next) := by
  intro x nd hx
  simp only [writeT] at hx
  split at hx
  · rename_i n hl
    cases hx
    exact nodesT_count u t _ (lookup_mem hl)
  · exact u x nd hx

theorem store_uno {st : St I S} {i : Nat} {H : Heap I S} (u : Uno H) (t : RleTree I S) (next : Nat) : Uno (st.store i H t next).heap := by
  obtain ⟨r⟩ := t
  cases r with
  | none => exact u
  | some r => exact writeT_uno u r.tree next

theorem foldlM_uno {α : Type} {f : Heap I S → α → R (Heap I S)} (hf : ∀ H a H', Uno H → f H a = .ok H' → Uno H') {l : List α} {H H' : Heap I S}
    (u : Uno H) (h : l.foldlM f H = .ok H') : Uno H' := by
  induction l generalizing H with
  | nil => cases h; exact u
  | cons a l ih =>
    rw [List.foldlM_cons, bind_ok_iff] at h
    obtain ⟨H1, h1, h⟩ := h
    exact ih (hf _ _ _ u h1) h

theorem free_uno {H : Heap I S} (u : Uno H) (p : Nat) : Uno (H.free p) := by
  intro x n hx
  simp only [Heap.free] at hx
  split at hx
  · cases hx
  · exact u x n hx

theorem dropRef_uno {h : Nat} : ∀ {H H' : Heap I S} {p : Nat}, Uno H → dropRef h H p = .ok H' → Uno H' := by
  induction h with
  | zero =>
    intro H H' p u hd
    simp only [dropRef, bind_ok_iff] at hd
    obtain ⟨nd, h1, hd⟩ := hd
    rw [if_pos (u p nd (get_ok.1 h1))] at hd
    cases hd
    exact free_uno u p
  | succ h ih =>
    intro H H' p u hd
    simp only [dropRef, bind_ok_iff] at hd
    obtain ⟨nd, h1, hd⟩ := hd
    rw [if_pos (u p nd (get_ok.1 h1))] at hd
    exact foldlM_uno (fun H a H' u h => ih u h) (free_uno u p) hd

theorem overKids_uno {f : Heap I S → Nat → R (Heap I S × Nat)} (hf : ∀ H a H' q, Uno H → f H a = .ok (H', q) → Uno H') {l : List Nat}
    {H H' : Heap I S} {l' : List Nat} (u : Uno H) (h : overKids f H l = .ok (H', l')) : Uno H' := by
  induction l generalizing H l' with
  | nil => cases h; exact u
  | cons a l ih =>
    simp only [overKids, bind_ok_iff] at h
    obtain ⟨⟨H1, q⟩, h1, ⟨H2, qs⟩, h2, h⟩ := h
    cases h
    exact ih (hf _ _ _ _ u h1) h2

theorem alloc_uno {H : Heap I S} (u : Uno H) {nd : HNode I S} (hc : nd.count = 1) : Uno (H.alloc nd).1 := by
  intro x n hx
  simp only [Heap.alloc] at hx
  split at hx
  · cases hx; exact hc
  · exact u x n hx

theorem deepClone_uno {h : Nat} : ∀ {H H' : Heap I S} {p p' : Nat}, Uno H → deepClone h H p = .ok (H', p') → Uno H' := by
  induction h with
  | zero =>
    intro H H' p p' u hd
    simp only [deepClone, bind_ok_iff] at hd
    obtain ⟨nd, h1, hd⟩ := hd
    have := alloc_uno (nd := { nd with count := 1 }) u rfl
    rw [Except.ok.inj hd] at this
    exact this
  | succ h ih =>
    intro H H' p p' u hd
    simp only [deepClone, bind_ok_iff] at hd
    obtain ⟨nd, h1, ⟨H1, ks⟩, h2, hd⟩ := hd
    have := alloc_uno (nd := { nd with count := 1, kids := ks }) (overKids_uno (fun H a H' q u h => ih u h) u h2) rfl
    rw [Except.ok.inj hd] at this
    exact this

/-- Without copy-on-write nodes are never shared. -/
theorem step_uno {E : Env I S} {imax : Nat} {st st' : St I S} (u : Uno st.heap) {op : Op I S} (h : st.step E imax false op = .ok st') :
    Uno st'.heap := by
  cases op with
  | new =>
    simp only [St.step, St.newEmpty, bind_ok_iff] at h
    obtain ⟨_, _, h⟩ := h
    cases h; exact u
  | insert i nop hints idx s z =>
    simp only [St.step, St.insert, bind_ok_iff] at h
    obtain ⟨o, _, h⟩ := h
    cases o with
    | none =>
      simp only [bind_ok_iff] at h
      obtain ⟨⟨t, o⟩, _, h⟩ := h
      cases h
      exact store_uno u _ _
    | some r =>
      simp only [bind_ok_iff] at h
      obtain ⟨_, _, _, _, _, _, path, _, ⟨H, p⟩, h1, _, _, ⟨t, o⟩, _, h⟩ := h
      cases h
      rcases unshare_uno (imax := imax) (path := path) u (h := r.h) (p := r.p) with ⟨_, _, e', u'⟩ | ⟨_, e'⟩
      · rw [h1] at e'; cases e'
        exact store_uno u' _ _
      · rw [h1] at e'; cases e'
  | clone i =>
    simp only [St.step, Bool.false_eq_true, if_false, St.clonePlain, bind_ok_iff] at h
    obtain ⟨o, _, h⟩ := h
    cases o with
    | none => cases h; exact u
    | some r =>
      simp only [bind_ok_iff] at h
      obtain ⟨⟨H, p⟩, h1, h⟩ := h
      cases h
      exact deepClone_uno u h1
  | drop i =>
    simp only [St.step, St.drop, bind_ok_iff] at h
    obtain ⟨o, _, h⟩ := h
    cases o with
    | none => cases h; exact u
    | some r =>
      simp only [bind_ok_iff] at h
      obtain ⟨H, h1, h⟩ := h
      cases h
      exact dropRef_uno u h1

end Sherman.Cow
