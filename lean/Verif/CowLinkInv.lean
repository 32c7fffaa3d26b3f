import Verif.CowLinkProps
/-!
# What holds of the stored links after every program

Used for iteration (`Verif/CowIterProps.lean`).
-/
namespace Sherman.Cow
variable {S : Type}

/-- Links are of the right height, roots have none, and no tree has a node twice. -/
structure LOk (st : St Nat S) (L : LinkMap) : Prop where
  linked : Linked st.heap L
  nodup : ∀ j t, st.view j = .ok t → t.addrs.Nodup
  top : ∀ j t, st.view j = .ok t → ∀ r, t.root = some r → L (ptrOf r.tree) = none

theorem LOk.of {st : St Nat S} {L : LinkMap} (h1 : Linked st.heap L)
    (h2 : ∀ j t, st.view j = .ok t → t.addrs.Nodup ∧ ∀ r, t.root = some r → L (ptrOf r.tree) = none) : LOk st L :=
  ⟨h1, fun j t hv => (h2 j t hv).1, fun j t hv => (h2 j t hv).2⟩

theorem dropRef_next {I : Type} {h p : Nat} {H H' : Heap I S} (hd : dropRef h H p = .ok H') : H'.next = H.next := by
  induction h generalizing H H' p with
  | zero =>
    simp only [dropRef, bind_ok_iff] at hd
    obtain ⟨nd, -, hd⟩ := hd
    split at hd
    · cases hd; rfl
    · simp only [bind_ok_iff] at hd
      obtain ⟨c, -, hd⟩ := hd
      cases hd; rfl
  | succ h ih =>
    simp only [dropRef, bind_ok_iff] at hd
    obtain ⟨nd, -, hd⟩ := hd
    split at hd
    · have key : ∀ (l : List Nat) (H H' : Heap I S), l.foldlM (fun H q => dropRef h H q) H = .ok H' → H'.next = H.next := by
        intro l
        induction l with
        | nil => intro H H' h; cases h; rfl
        | cons q l il =>
          intro H H' hl
          rw [List.foldlM_cons] at hl
          simp only [bind_ok_iff] at hl
          obtain ⟨H1, h1, h2⟩ := hl
          rw [il H1 H' h2, ih h1]
      rw [key _ _ _ hd]; rfl
    · simp only [bind_ok_iff] at hd
      obtain ⟨c, -, hd⟩ := hd
      cases hd; rfl

theorem Less.linked {I : Type} {H H' : Heap I S} {L : LinkMap} (h : Less H' H) (hn : H'.next = H.next) (hl : Linked H L) : Linked H' L := by
  refine hl.step (fun x nd hx _ => ?_) (by omega) (fun y nd hy x hx => .inr ⟨rfl, ?_⟩)
  · obtain ⟨n, h1, h2⟩ := h x nd hx
    exact ⟨n, h1, h2.1⟩
  · obtain ⟨n, h1, h2⟩ := h y nd hy
    exact ⟨y, n, h1, by rw [h2.refs]; exact hx, h2.1⟩

theorem insert_trees {imax : Nat} {E : Env Nat S} {st st' : St Nat S} {i : Nat} {nop : Bool} {hints : List Nat} {idx : Nat} {s : S} {z : Nat}
    (h : st.insert E imax i nop hints idx s z = .ok st') : ∃ v, st'.trees = st.trees.set i v := by
  have hs : ∀ (H : Heap Nat S) (t : RleTree Nat S) (n : Nat), ∃ v, (st.store i H t n).trees = st.trees.set i v := by
    rintro H ⟨_ | r⟩ n
    · exact ⟨_, rfl⟩
    · exact ⟨_, rfl⟩
  simp only [St.insert, bind_ok_iff] at h
  obtain ⟨o, -, h⟩ := h
  cases o with
  | none =>
    simp only [bind_ok_iff] at h
    obtain ⟨r, -, h⟩ := h
    cases h
    exact hs _ _ _
  | some r =>
    simp only [bind_ok_iff] at h
    obtain ⟨_, -, _, -, _, -, _, -, _, -, _, -, _, -, h⟩ := h
    cases h
    exact hs _ _ _

theorem view_congr {I : Type} {st : St I S} {i j : Nat} (h : st.trees[i]? = st.trees[j]?) : st.view i = st.view j := by
  unfold St.view St.tree
  rw [h]

theorem LOk.step {MAX imax : Nat} {E : Env Nat S} (hE : E.ix = natIdx MAX) (hM : 1 ≤ E.M) (hM' : E.M ≤ 127) {st st' : St Nat S} {ss : Lists S}
    (h : Rel MAX E st ss) (hs : Simple st.heap) {L L' : LinkMap} (hl : LOk st L) {op : Op Nat S} (e1 : st.step E imax true op = .ok st')
    (e2 : LSt.step E imax ⟨st, L⟩ op = .ok ⟨st', L'⟩) : LOk st' L' := by
  have hkeep : ∀ j t', st'.view j = .ok t' → op.target ≠ some j → st'.trees[j]? = st.trees[j]? →
      t'.addrs.Nodup ∧ ∀ r, t'.root = some r → L' (ptrOf r.tree) = none := by
    intro j t' hv hj hj'
    obtain ⟨o, ho⟩ := view_tree hv
    rw [hj'] at ho
    have : ∃ es, ss[j]? = some (some es) := by
      by_contra hn
      exact h.noTree (fun es he => hn ⟨es, he⟩) o ho
    obtain ⟨es, hes⟩ := this
    obtain ⟨t, hvt, -⟩ := h.view j es hes
    rcases stepL (imax := imax) hE hM hM' h hs L op with ⟨st2, L2, g1, g2, -, g4⟩ | ⟨f, g1, -⟩
    · rw [e1] at g1; cases g1
      rw [e2] at g2; cases g2
      rw [(g4 j t hj hvt).1] at hv
      cases hv
      refine ⟨hl.nodup j _ hvt, fun r hr => ?_⟩
      rw [(g4 j _ hj hvt).2 _ (by simp [RleTree.addrs, hr, addrs_succ, ptrOf])]
      exact hl.top j _ hvt r hr
    · rw [e1] at g1; cases g1
  cases op with
  | new =>
    obtain ⟨h1, -, h3⟩ := new_step (E := E) h.ok hM hM'
    have h1' : st.step E imax true .new = .ok _ := h1
    rw [h1'] at e1
    cases e1
    simp only [LSt.step, h1', R.bind_ok, R.pure_eq] at e2
    cases e2
    refine .of hl.linked (fun j t hv => ?_)
    by_cases hj : j < st.trees.length
    · exact hkeep j t hv (by simp [Op.target]) (List.getElem?_append_left hj)
    · obtain ⟨o, ho⟩ := view_tree hv
      have hlt := lt_of_get ho
      simp only [List.length_append, List.length_singleton] at hlt
      obtain rfl : j = st.trees.length := by omega
      rw [St.view_none (by simp)] at hv
      cases hv
      simp [RleTree.addrs]
  | insert i nop hints idx s z =>
    have e1' : st.insert E imax i nop hints idx s z = .ok st' := e1
    have e2' : LSt.insert E imax ⟨st, L⟩ i nop hints idx s z = .ok ⟨st', L'⟩ := e2
    by_cases hi : ∃ es, ss[i]? = some (some es)
    swap
    · have hn := St.tree_error (h.noTree (fun es he => hi ⟨es, he⟩))
      simp only [St.insert, hn] at e1'
      cases e1'
    obtain ⟨es, hi⟩ := hi
    obtain ⟨t, hv, ht, -⟩ := h.view i es hi
    obtain ⟨es', hH, -⟩ := ht.holds hE
    rcases insertL_step (imax := imax) h.ok hs L hv hH nop hints idx s z with ⟨st2, L2, g1, g2, -, g4, g5, -⟩ | ⟨f, g1, -⟩
    swap
    · rw [e1'] at g1; cases g1
    rw [e1'] at g1; cases g1
    rw [e2'] at g2; cases g2
    refine .of (g4 hl.linked) (fun j tj htj => ?_)
    by_cases hj : j = i
    · subst hj
      exact ⟨(g5 tj htj).1 (hl.nodup _ _ hv), (g5 tj htj).2⟩
    · obtain ⟨v, hv⟩ := insert_trees e1'
      exact hkeep j tj htj (by simp [Op.target]; omega) (by rw [hv]; exact List.getElem?_set_ne (Ne.symm hj))
  | clone i =>
    have e1' : st.cloneCow imax i = .ok st' := e1
    simp only [LSt.step, e1, R.bind_ok, R.pure_eq] at e2
    cases e2
    simp only [St.cloneCow, bind_ok_iff] at e1'
    obtain ⟨o, hi, hc⟩ := e1'
    have hi := St.tree_ok.1 hi
    have htr : st'.trees = st.trees ++ [some o] := by
      cases o with
      | none => cases hc; rfl
      | some r =>
        simp only [bind_ok_iff] at hc
        obtain ⟨H', hH, hc⟩ := hc
        cases hc; rfl
    have hlt := lt_of_get hi
    refine .of ?_ (fun j tj htj => ?_)
    · cases o with
      | none => cases hc; exact hl.linked
      | some r =>
        simp only [bind_ok_iff] at hc
        obtain ⟨H', hH, hc⟩ := hc
        cases hc
        obtain ⟨nd, hm, -⟩ := h.ok.root i r hi
        have hn : H'.next = st.heap.next := by
          simp only [increment, bind_ok_iff] at hH
          obtain ⟨_, -, _, -, hH⟩ := hH
          cases hH; rfl
        rcases increment_inv (imax := imax) (out' := fun x => held st.trees x + (if x = r.p then 1 else 0)) h.ok.inv hm (fun _ => rfl) with
          ⟨H2, e, -, hls, -⟩ | e
        · rw [hH] at e; cases e
          exact hls.linked hn hl.linked
        · rw [hH] at e; cases e
    · by_cases hj : j < st.trees.length
      · exact hkeep j tj htj (by simp [Op.target]) (by rw [htr]; exact List.getElem?_append_left hj)
      · obtain ⟨o', ho⟩ := view_tree htj
        have hlt' := lt_of_get ho
        rw [htr] at hlt'
        simp only [List.length_append, List.length_singleton] at hlt'
        obtain rfl : j = st.trees.length := by omega
        rw [view_congr (j := i) (by rw [htr, List.getElem?_append_left hlt, hi]; simp)] at htj
        exact hkeep i tj htj (by simp [Op.target]) (by rw [htr]; exact List.getElem?_append_left hlt)
  | drop i =>
    have e1' : st.drop i = .ok st' := e1
    simp only [LSt.step, e1, R.bind_ok, R.pure_eq] at e2
    cases e2
    have hi : ∃ o, st.trees[i]? = some (some o) := by
      simp only [St.drop, bind_ok_iff] at e1'
      obtain ⟨o, hi, -⟩ := e1'
      exact ⟨o, St.tree_ok.1 hi⟩
    obtain ⟨o, ho⟩ := hi
    obtain ⟨st2, e, -, htr, hls, hv'⟩ := drop_step h.ok ho
    rw [e1'] at e; cases e
    have hn : st'.heap.next = st.heap.next := by
      simp only [St.drop, bind_ok_iff] at e1'
      obtain ⟨o, hi, hc⟩ := e1'
      cases o with
      | none => cases hc; rfl
      | some r =>
        simp only [bind_ok_iff] at hc
        obtain ⟨H', hH, hc⟩ := hc
        cases hc
        exact dropRef_next hH
    refine .of (hls.linked hn hl.linked) (fun j tj htj => ?_)
    by_cases hj : j = i
    · subst hj
      obtain ⟨o', ho'⟩ := view_tree htj
      rw [htr, List.getElem?_set_self (lt_of_get ho)] at ho'
      cases ho'
    · exact hkeep j tj htj (by simp [Op.target]; omega) (by rw [htr]; exact List.getElem?_set_ne (Ne.symm hj))

/-- After every program. -/
theorem run_lok {MAX imax : Nat} {E : Env Nat S} (hE : E.ix = natIdx MAX) (hM : 1 ≤ E.M) (hM' : E.M ≤ 127)
    {ops : List (Op Nat S)} (hops : ∀ op ∈ ops, op.fits MAX) {s : LSt Nat S} (h : LSt.run E imax LSt.init ops = .ok s) :
    (∃ ss, Rel MAX E s.st ss) ∧ LOk s.st s.links := by
  have key : ∀ (ops : List (Op Nat S)) (st : St Nat S) (L : LinkMap) (s0 : Lists S) (s : LSt Nat S), (∀ op ∈ ops, op.fits MAX) → Rel MAX E st s0 →
      Simple st.heap → LOk st L → LSt.run E imax ⟨st, L⟩ ops = .ok s → (∃ ss, Rel MAX E s.st ss) ∧ LOk s.st s.links := by
    intro ops
    induction ops with
    | nil => intro st L s0 s _ hr hs hl h; cases h; exact ⟨⟨s0, hr⟩, hl⟩
    | cons op ops ih =>
      intro st L s0 s hf hr hs hl h
      simp only [LSt.run, List.foldlM_cons] at h
      rcases stepL (imax := imax) hE hM hM' hr hs L op with ⟨st', L', e1, e2, e3, -⟩ | ⟨f, e1, e2⟩
      swap
      · rw [e2] at h; cases h
      simp only [e2, R.bind_ok] at h
      have hstep := step_refines (imax := imax) hE hM hM' true hr op (hf op (by simp))
      cases hsp : specStep MAX E.sl s0 op with
      | none =>
        obtain ⟨f, e, -⟩ := hstep.2 hsp
        rw [e1] at e; cases e
      | some s1 =>
        rcases hstep.1 s1 hsp with ⟨st2, e, hr1⟩ | ⟨e, -⟩
        · rw [e1] at e; cases e
          exact ih st' L' s1 s (fun op h => hf op (by simp [h])) hr1 e3 (hl.step hE hM hM' hr hs e1 e2) h
        · rw [e1] at e; cases e
  refine key ops _ _ [] s hops (Rel.init MAX E) (fun x nd h => by cases h) (.of (fun y nd h => (by cases h)) (fun j t hv => ?_)) h
  obtain ⟨o, ho⟩ := view_tree hv
  simp [St.init] at ho

end Sherman.Cow
