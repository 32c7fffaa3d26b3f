import Verif.ThreadsCopy
import Verif.CowProps
/-!
# All variables, after a step on one of them
-/
namespace Sherman.Cow
variable {I S : Type}

/-- Memory and variables fit together. -/
structure TSt.Ok (E : Env I S) (st : TSt I S) : Prop where
  inv : Inv st.heap (outs st.vars)
  var : ∀ (i : Nat) (v : Var I S), st.vars[i]? = some v → v.Ok E st.heap

theorem Var.Ok.frame {E : Env I S} {H H' : Heap I S} {out : Nat → Nat} (hi : Inv H out) {v : Var I S} (ok : v.Ok E H)
    (hk : ∀ p ∈ v.refs, Keeps H H' p) (hw : ∀ path r X, Way H path r X → r ∈ v.refs → ∀ x ∈ X, H'.mem x = H.mem x) : v.Ok E H' := by
  cases v with
  | idle o =>
    cases o with
    | none => trivial
    | some r =>
      obtain ⟨nd, h1, h2⟩ := ok
      obtain ⟨nd', h3, h4⟩ := hk r.p (by simp [Var.refs]) _ _ .here h1
      exact ⟨nd', h3, by rw [← h4.1]; exact h2⟩
  | busy t =>
    obtain ⟨X, past, tree, ok⟩ := ok
    refine ⟨X, past, tree, ok.frame hi hk ?_⟩
    cases hn : t.node with
    | none => rw [(ok.start hn).2.1]; simp
    | some p => exact hw _ _ _ (ok.down p hn).1 (by simp [Var.refs])
  | dying work =>
    intro e he
    obtain ⟨nd, h1, h2⟩ := ok e he
    obtain ⟨nd', h3, h4⟩ := hk e.2 (by simp only [Var.refs]; exact List.mem_map_of_mem he) _ _ .here h1
    exact ⟨nd', h3, by rw [← h4.1]; exact h2⟩

/-- The view of a variable, if its root is where it was and nothing below has changed. -/
theorem viewT_congr {st st' : TSt I S} {j : Nat} (hv : st'.vars[j]? = st.vars[j]?)
    (hr : ∀ (r : CRoot) (t : Tree I S (r.h + 1)), (st.vars[j]? = some (.idle (some r)) ∨ ∃ task, st.vars[j]? = some (.busy task) ∧ task.root = r) →
      readT st.heap (r.h + 1) r.p = .ok t → readT st'.heap (r.h + 1) r.p = .ok t) {t : RleTree I S} (h : st.view j = .ok t) :
    st'.view j = .ok t := by
  unfold TSt.view at h ⊢
  simp only [hv]
  cases hj : st.vars[j]? with
  | none => rw [hj] at h; exact h
  | some v =>
    rw [hj] at h
    cases v with
    | idle o =>
      cases o with
      | none => exact h
      | some r =>
        simp only [bind_ok_iff] at h ⊢
        obtain ⟨tr, h1, h2⟩ := h
        exact ⟨tr, hr r tr (.inl hj) h1, h2⟩
    | busy task =>
      simp only [bind_ok_iff] at h ⊢
      obtain ⟨tr, h1, h2⟩ := h
      exact ⟨tr, hr task.root tr (.inr ⟨task, hj, rfl⟩) h1, h2⟩
    | dying work => exact h

/-- The root of a variable that holds a tree. -/
theorem TSt.Ok.node {E : Env I S} {st : TSt I S} (ok : st.Ok E) {j : Nat} {r : CRoot}
    (h : st.vars[j]? = some (.idle (some r)) ∨ ∃ task, st.vars[j]? = some (.busy task) ∧ task.root = r) :
    (∃ nd, st.heap.mem r.p = some nd ∧ nd.height = r.h) ∧ ∃ v, st.vars[j]? = some v ∧ r.p ∈ v.refs := by
  rcases h with h | ⟨task, h, rfl⟩
  · exact ⟨ok.var j _ h, _, h, by simp [Var.refs]⟩
  · obtain ⟨X, past, tree, k⟩ := ok.var j _ h
    exact ⟨k.root, _, h, by simp [Var.refs]⟩

/-- A step on variable `i` changes nothing for the others. -/
theorem TSt.Ok.step {E : Env I S} {st : TSt I S} (ok : st.Ok E) {i : Nat} {v v' : Var I S} (hv : st.vars[i]? = some v) {H' : Heap I S}
    (hi' : Inv H' (fun x => v'.refs.count x + rest st.vars i x)) (ok' : v'.Ok E H')
    (eff : Effect st.heap H' (fun x => v.refs.count x) (rest st.vars i)) :
    (⟨H', st.vars.set i v'⟩ : TSt I S).Ok E ∧ ∀ j, j ≠ i → ∀ t, st.view j = .ok t → (⟨H', st.vars.set i v'⟩ : TSt I S).view j = .ok t := by
  have hi := ok.inv
  rw [outs_eq hv] at hi
  have hpos : ∀ j w, j ≠ i → st.vars[j]? = some w → ∀ p ∈ w.refs, 0 < rest st.vars i p := by
    intro j w hji hw p hp
    have h1 := rest_other hw hji p
    have h2 := List.count_pos_iff.2 hp
    omega
  refine ⟨⟨?_, fun j w hw => ?_⟩, fun j hji t ht => ?_⟩
  · rw [outs_eq' hv]; exact hi'
  · dsimp only at hw ⊢
    by_cases hji : j = i
    · subst hji
      rw [List.getElem?_set_self (lt_of_get hv)] at hw
      cases hw
      exact ok'
    · rw [List.getElem?_set_ne (Ne.symm hji)] at hw
      exact (ok.var j w hw).frame hi (fun p hp => eff.keeps (hpos j w hji hw p hp)) (fun path r X hway hr => eff.way hi hway (hpos j w hji hw r hr))
  · refine viewT_congr (by dsimp only; rw [List.getElem?_set_ne (Ne.symm hji)]) (fun r tr hr hread => ?_) ht
    obtain ⟨⟨nd, h1, h2⟩, w, h3, h4⟩ := ok.node hr
    exact (eff.keeps (hpos j w hji h3 r.p h4)).read hi h1 h2 hread

/-- A variable is added, without changes to contents. -/
theorem TSt.Ok.add {E : Env I S} {st : TSt I S} (ok : st.Ok E) {v : Var I S} {H' : Heap I S} (hi' : Inv H' (outs (st.vars ++ [v]))) (okv : v.Ok E H')
    (hk : ∀ x nd, st.heap.mem x = some nd → ∃ nd', H'.mem x = some nd' ∧ nd.Same nd')
    (hx : ∀ (j : Nat) (w : Var I S) path r X, st.vars[j]? = some w → Way st.heap path r X → r ∈ w.refs → (∃ t, w = .busy t) → ∀ x ∈ X, H'.mem x = st.heap.mem x) :
    (⟨H', st.vars ++ [v]⟩ : TSt I S).Ok E ∧ ∀ j, j < st.vars.length → ∀ t, st.view j = .ok t → (⟨H', st.vars ++ [v]⟩ : TSt I S).view j = .ok t := by
  refine ⟨⟨hi', fun j w hw => ?_⟩, fun j hj t ht => ?_⟩
  · dsimp only at hw ⊢
    by_cases hj : j < st.vars.length
    · rw [List.getElem?_append_left hj] at hw
      have okw := ok.var j w hw
      cases w with
      | busy t => exact okw.frame ok.inv (fun p _ => Keeps.of_same hk p) (fun path r X hway hr => hx j _ path r X hw hway hr ⟨t, rfl⟩)
      | idle o =>
        cases o with
        | none => trivial
        | some r =>
          obtain ⟨nd, h1, h2⟩ := okw
          obtain ⟨nd', h3, h4⟩ := hk _ _ h1
          exact ⟨nd', h3, by rw [← h4.1]; exact h2⟩
      | dying work =>
        intro e he
        obtain ⟨nd, h1, h2⟩ := okw e he
        obtain ⟨nd', h3, h4⟩ := hk _ _ h1
        exact ⟨nd', h3, by rw [← h4.1]; exact h2⟩
    · have hl := lt_of_get hw
      obtain rfl : j = st.vars.length := by simp at hl; omega
      simp only [List.getElem?_concat_length, Option.some.injEq] at hw
      subst hw
      exact okv
  · refine viewT_congr (by dsimp only; rw [List.getElem?_append_left hj]) (fun r tr hr hread => ?_) ht
    obtain ⟨⟨nd, h1, h2⟩, -⟩ := ok.node hr
    exact (Keeps.of_same hk r.p).read ok.inv h1 h2 hread

/-- A clone. -/
theorem TSt.Ok.clone {E : Env I S} {imax : Nat} {st : TSt I S} (ok : st.Ok E) {i : Nat} {r : CRoot} (hv : st.vars[i]? = some (.idle (some r))) :
    (∃ H', increment imax st.heap r.p = .ok H' ∧ (⟨H', st.vars ++ [.idle (some r)]⟩ : TSt I S).Ok E ∧
      (∀ j, j < st.vars.length → ∀ t, st.view j = .ok t → (⟨H', st.vars ++ [.idle (some r)]⟩ : TSt I S).view j = .ok t) ∧
      (∀ t, st.view i = .ok t → (⟨H', st.vars ++ [.idle (some r)]⟩ : TSt I S).view st.vars.length = .ok t) ∧
      ∀ x nd, st.heap.mem x = some nd → ∃ nd', H'.mem x = some nd' ∧ nd.Same nd') ∨
    (increment imax st.heap r.p = .error tooMany ∧ ∃ x n, st.heap.mem x = some n ∧ imax < n.count) := by
  obtain ⟨nd, hm, hh⟩ := ok.var i _ hv
  by_cases hb : imax < nd.count
  · refine .inr ⟨?_, _, nd, hm, hb⟩
    rw [increment_spec hm]; simp [hb]
  left
  rcases increment_inv (imax := imax) (out' := outs (st.vars ++ [.idle (some r)])) ok.inv hm (fun x => by
      rw [outs_append]; simp only [Var.refs, List.count_cons, List.count_nil, ite_beq]; omega) with ⟨H', e, hinv, -, hk⟩ | e
  swap
  · rw [increment_spec hm] at e; simp [hb] at e
  have hi := ok.inv
  rw [outs_eq hv] at hi
  have he : H' = st.heap.put r.p { nd with count := nd.count + 1 } := by
    rw [increment_spec hm] at e; simp only [hb, if_false] at e; cases e; rfl
  obtain ⟨nd', h1, h2⟩ := hk _ _ hm
  obtain ⟨k1, k2⟩ := ok.add (v := .idle (some r)) hinv ⟨nd', h1, by rw [← h2.1]; exact hh⟩ hk (fun j w path q X hw hway hq hbusy x hx => by
    have hji : j ≠ i := by
      rintro rfl
      rw [hv] at hw; cases hw
      obtain ⟨t, ht⟩ := hbusy; cases ht
    have hx' : x ≠ r.p := by
      rintro rfl
      have h1 := rest_other hw hji q
      have h2 := List.count_pos_iff.2 hq
      have hi2 : Inv st.heap (fun x => rest st.vars i x + (Var.idle (some r) : Var I S).refs.count x) := by
        have e : (fun x => rest st.vars i x + (Var.idle (some r) : Var I S).refs.count x) =
          fun x => (Var.idle (some r) : Var I S).refs.count x + rest st.vars i x := funext fun x => Nat.add_comm _ _
        rw [e]; exact hi
      exact hway.priv hi2 (by omega) (p := r.p) (by simp [Var.refs]) hx .here
    rw [he]; simp [Heap.put, hx'])
  refine ⟨H', e, k1, k2, fun t ht => ?_, hk⟩
  unfold TSt.view at ht ⊢
  simp only [hv, List.getElem?_concat_length, bind_ok_iff] at ht ⊢
  obtain ⟨tr, g1, g2⟩ := ht
  exact ⟨tr, (Keeps.of_same hk r.p).read ok.inv hm hh g1, g2⟩

/-- The first insertion into a tree. -/
theorem TSt.Ok.first {E : Env Nat S} {st : TSt Nat S} (ok : st.Ok E) {i : Nat} (hv : st.vars[i]? = some (.idle none)) {nop : Bool} {hints : List Nat}
    {idx : Nat} {s : S} {z : Nat} {t2 : RleTree Nat S} {o : Inserted}
    (hr : RleTree.insert E ⟨none⟩ nop hints idx s z ⟨st.heap.next, [], [], none, []⟩ = .ok (t2, o)) :
    ∃ r, t2 = ⟨some r⟩ ∧ (⟨writeT st.heap r.tree o.world.next, st.vars.set i (.idle (some ⟨r.h, ptrOf r.tree, r.len⟩))⟩ : TSt Nat S).Ok E ∧
      (∀ j, j ≠ i → ∀ t, st.view j = .ok t →
        (⟨writeT st.heap r.tree o.world.next, st.vars.set i (.idle (some ⟨r.h, ptrOf r.tree, r.len⟩))⟩ : TSt Nat S).view j = .ok t) ∧
      (⟨writeT st.heap r.tree o.world.next, st.vars.set i (.idle (some ⟨r.h, ptrOf r.tree, r.len⟩))⟩ : TSt Nat S).view i = .ok t2 ∧
      ∀ x nd, st.heap.mem x = some nd → (writeT st.heap r.tree o.world.next).mem x = some nd := by
  obtain ⟨t', e1, e2, e3⟩ := insert_first hr
  subst e1
  have e4 : ptrOf t' = st.heap.next := e2
  obtain ⟨k1, k2, k3, k4⟩ := new_write (out' := fun x => (Var.idle (some ⟨0, st.heap.next, 1⟩) : Var Nat S).refs.count x + rest st.vars i x) ok.inv e2
    (fun x => by
      rw [outs_eq hv]
      simp only [Var.refs, List.count_cons, List.count_nil, ite_beq]
      omega)
  refine ⟨_, rfl, ?_⟩
  simp only [e4, e3]
  obtain ⟨g1, g2⟩ := ok.step (v' := .idle (some ⟨0, st.heap.next, 1⟩)) hv k1 k3 (fun x nd hx => .inl (k4 x nd hx))
  refine ⟨g1, g2, ?_, fun x nd hx => k4 x nd hx⟩
  unfold TSt.view
  simp only [List.getElem?_set_self (lt_of_get hv), bind_ok_iff]
  exact ⟨t', k2, rfl⟩

end Sherman.Cow
