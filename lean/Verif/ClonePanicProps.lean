import Verif.ClonePanicState
/-!
# Programs that catch panics in `Clone` of a slice: C43

The specification of a program is, for each tree variable, the list of its runs and the number by which `len()` is too large: it is zero
unless an insertion into this tree was unwound after it had split a run.
-/
namespace Sherman.Cow
variable {S : Type}

/-! ## Specification -/

/-- Tree variables: runs, and the excess of `len()`; `none` after `drop`. -/
abbrev ListsC (S : Type) := List (Option (List (Ent S) × Nat))

/-- What one operation may do, if `left` calls of `Clone` return before one panics: how it ends, and the trees afterwards.

* `new`, `drop` do not clone slices.
* An insertion may panic in `Clone` only if nodes are shared (`cow`).  All runs are as before; or one run was split, and only its left part
  put back (`Hurt`).
* `clone` panics only if all slices are copied, and there are more than `left`. -/
def specC (MAX : Nat) (sl : SliceOps Nat S) (cow : Bool) (ss : ListsC S) : Op Nat S × Nat → Ended S → ListsC S → Prop
  | (.new, _), .returned, ss' => ss' = ss ++ [some ([], 0)]
  | (.insert i _ _ idx s z, _), .returned, ss' => ∃ es d es', ss[i]? = some (some (es, d)) ∧ idx ≤ total es ∧ 0 < z ∧ total es + z ≤ MAX ∧
      specInsert sl es idx s z = .ok es' ∧ ss' = ss.set i (some (es', d))
  | (.insert i _ _ idx s z, left), .panicked made _, ss' => cow = true ∧ ∃ es d, ss[i]? = some (some (es, d)) ∧ idx ≤ total es ∧ 0 < z ∧
      made.length = left ∧
      (ss' = ss ∨ ∃ es' x v rest, Hurt sl es idx s es' x v rest ∧ ss' = ss.set i (some (es', d + rest.length)))
  | (.clone i, left), .returned, ss' => ∃ es d, ss[i]? = some (some (es, d)) ∧ (cow = false → es.length ≤ left) ∧ ss' = ss ++ [some (es, d)]
  | (.clone i, left), .panicked made gone, ss' => cow = false ∧ ∃ es d, ss[i]? = some (some (es, d)) ∧ left < es.length ∧ made.length = left ∧
      made.Subperm (es.map (·.slice)) ∧ gone.Subperm made ∧ ss' = ss
  | (.drop i, _), .returned, ss' => ∃ x, ss[i]? = some (some x) ∧ ss' = ss.set i none
  | _, _, _ => False

/-- A program: how its operations end, and its trees afterwards. -/
def specRunC (MAX : Nat) (sl : SliceOps Nat S) (cow : Bool) : ListsC S → List (Op Nat S × Nat) → List (Ended S) → ListsC S → Prop
  | ss, [], [], ss' => ss' = ss
  | ss, op :: ops, e :: es, ss' => ∃ s1, specC MAX sl cow ss op e s1 ∧ specRunC MAX sl cow s1 ops es ss'
  | _, _, _, _ => False

/-- The tree `t` has the runs `es`, and its `len()` is too large by `d`. -/
def HoldsX (E : Env Nat S) (t : RleTree Nat S) (es : List (Ent S)) (d : Nat) : Prop :=
  Pos es ∧ match t.root with
  | none => es = [] ∧ d = 0
  | some r => Rep E.M 1 r.tree es ∧ r.len = es.length + d

theorem HoldsX.runs {E : Env Nat S} {t : RleTree Nat S} {es : List (Ent S)} {d : Nat} (h : HoldsX E t es d) : t.runs = es := by
  obtain ⟨root⟩ := t
  obtain ⟨hp, h⟩ := h
  cases root with
  | none => exact h.1.symm
  | some r => exact (Sherman.Holds.runs (t := ⟨some ⟨r.h, r.tree, es.length⟩⟩) (E := E) ⟨hp, h.1, rfl⟩)

theorem HoldsX.len {E : Env Nat S} {t : RleTree Nat S} {es : List (Ent S)} {d : Nat} (h : HoldsX E t es d) : t.numberOfSlices = es.length + d := by
  obtain ⟨root⟩ := t
  obtain ⟨hp, h⟩ := h
  cases root with
  | none =>
    obtain ⟨h1, h2⟩ := h
    subst h1 h2
    rfl
  | some r => exact h.2

theorem HoldsX.rep {E : Env Nat S} {t : RleTree Nat S} {es : List (Ent S)} {d : Nat} (h : HoldsX E t es d) :
    ∀ r, t.root = some r → Rep E.M 1 r.tree es := by
  intro r hr
  have := h.2
  rw [hr] at this
  exact this.1

theorem HoldsX.alike {E : Env Nat S} {t t' : RleTree Nat S} (a : t.Alike t') {es : List (Ent S)} {d : Nat} (h : HoldsX E t es d) :
    HoldsX E t' es d := by
  obtain ⟨r⟩ := t
  obtain ⟨r'⟩ := t'
  cases r with
  | none =>
    cases r' with
    | none => exact h
    | some r' => exact a.elim
  | some r =>
    cases r' with
    | none => exact a.elim
    | some r' =>
      obtain ⟨hh, tt, ll⟩ := r
      obtain ⟨hh', tt', ll'⟩ := r'
      obtain ⟨e1, e2, e3⟩ := a
      simp only at e1 e2
      subst e1 e2
      exact ⟨h.1, Alike.rep e3 h.2.1, h.2.2⟩

/-- More added to `len`. -/
def grow (d : Nat) (t : RleTree Nat S) : RleTree Nat S := ⟨t.root.map (fun r => ⟨r.h, r.tree, r.len + d⟩)⟩

theorem HoldsX.trim {E : Env Nat S} {t : RleTree Nat S} {es : List (Ent S)} {d : Nat} (h : HoldsX E t es d) :
    ∃ t0, t = grow d t0 ∧ Sherman.Holds E t0 es ∧ (t0.root = none → d = 0) := by
  obtain ⟨root⟩ := t
  obtain ⟨hp, h⟩ := h
  cases root with
  | none =>
    obtain ⟨h1, h2⟩ := h
    subst h1 h2
    exact ⟨⟨none⟩, rfl, ⟨hp, rfl⟩, fun _ => rfl⟩
  | some r =>
    refine ⟨⟨some ⟨r.h, r.tree, es.length⟩⟩, ?_, ⟨hp, h.1, rfl⟩, fun h => by cases h⟩
    obtain ⟨hh, tt, ll⟩ := r
    have := h.2
    simp only at this
    subst this
    rfl

theorem HoldsX.grow {E : Env Nat S} {t : RleTree Nat S} {es : List (Ent S)} {d : Nat} (h : Sherman.Holds E t es) (hd : t.root = none → d = 0) :
    HoldsX E (grow d t) es d := by
  obtain ⟨root⟩ := t
  obtain ⟨hp, h⟩ := h
  cases root with
  | none => exact ⟨hp, h, hd rfl⟩
  | some r => exact ⟨hp, h.1, by show r.len + d = _; rw [h.2]⟩

/-- `len` is only added to by insertions. -/
theorem insert_grow {E : Env Nat S} {t : RleTree Nat S} {d : Nat} (hd : t.root = none → d = 0) (nop : Bool) (hints : List Nat) (idx : Nat) (s : S)
    (z : Nat) (w : World) :
    (grow d t).insert E nop hints idx s z w = (t.insert E nop hints idx s z w).map (fun r => (grow d r.1, r.2)) := by
  obtain ⟨root⟩ := t
  cases root with
  | none =>
    obtain rfl := hd rfl
    have hg : ∀ t : RleTree Nat S, grow 0 t = t := by
      rintro ⟨_ | ⟨h, t, l⟩⟩ <;> rfl
    rw [hg]
    cases RleTree.insert E ⟨none⟩ nop hints idx s z w with
    | error f => rfl
    | ok r => show _ = Except.ok (grow 0 r.1, r.2); rw [hg]
  | some r =>
    obtain ⟨H, tr, len⟩ := r
    have hsz : RleTree.size E (grow d ⟨some ⟨H, tr, len⟩⟩) = RleTree.size E ⟨some ⟨H, tr, len⟩⟩ := rfl
    simp only [RleTree.insert, hsz]
    cases check (!E.ix.lt (RleTree.size E ⟨some ⟨H, tr, len⟩⟩) idx) "cannot insert new slice, index out of bounds" with
    | error f => rfl
    | ok u1 =>
    cases check (!E.ix.le z E.ix.zero) "cannot insert new slice, size is not greater than zero" with
    | error f => rfl
    | ok u2 =>
    simp only [R.bind_ok, Cow.grow, Option.map_some]
    cases findPoint E tr .top (some hints) idx none none with
    | error f => rfl
    | ok pt =>
    simp only [R.bind_ok]
    cases insertAt E nop pt s z { w with events := [], fst := none } with
    | error f => rfl
    | ok a =>
    obtain ⟨dl, post, path, w'⟩ := a
    simp only [R.bind_ok]
    have e : len + d + dl = len + dl + d := by omega
    rw [e]
    have key : ∀ handle, installRoot E (len + dl + d) post path handle w' =
        (installRoot E (len + dl) post path handle w').map (fun r => (Cow.grow d r.1, r.2)) := by
      intro handle
      unfold installRoot
      cases post with
      | done t' =>
        simp only
        cases check (!E.refs || handle.isSome) "internal error: final insertion handle is `None`" with
        | error f => rfl
        | ok u => rfl
      | newRoot lhs key ks rhs =>
        simp only
        cases makeNewParent E.ix lhs key ks rhs w' with
        | error f => rfl
        | ok b =>
          obtain ⟨t', w''⟩ := b
          simp only [R.bind_ok]
          cases check (!E.refs || (if (E.refs && handle.isNone) = true then some (Node.ptr t', 0) else handle).isSome)
            "internal error: final insertion handle is `None`" with
          | error f => rfl
          | ok u => rfl
    split
    · cases applyEvs w'.events with
      | error f => rfl
      | ok handle => simp only [R.bind_ok, key]; rfl
    · simp only [R.pure_eq, R.bind_ok, key]; rfl

/-- What a program sees in its trees. -/
structure RelC (MAX : Nat) (E : Env Nat S) (cow : Bool) (st : St Nat S) (ss : ListsC S) : Prop where
  ok : st.Ok
  len : st.trees.length = ss.length
  gone : ∀ i : Nat, ss[i]? = some none → st.trees[i]? = some none
  view : ∀ (i : Nat) (es : List (Ent S)) (d : Nat), ss[i]? = some (some (es, d)) → ∃ t, st.view i = .ok t ∧ HoldsX E t es d ∧ total es ≤ MAX
  uno : cow = false → Uno st.heap

theorem RelC.init (MAX : Nat) (E : Env Nat S) (cow : Bool) : RelC MAX E cow St.init [] where
  ok := (Rel.init MAX E).ok
  len := rfl
  gone := by simp
  view := by simp
  uno := fun _ x nd h => by cases h

theorem RelC.noTree {MAX : Nat} {E : Env Nat S} {cow : Bool} {st : St Nat S} {ss : ListsC S} (h : RelC MAX E cow st ss) {i : Nat}
    (hi : ∀ x, ss[i]? ≠ some (some x)) : st.tree i = .error (.panic "no such tree") := by
  refine St.tree_error (fun r hr => ?_)
  have hl := lt_of_get hr
  rw [h.len] at hl
  cases hs : ss[i]? with
  | none => rw [List.getElem?_eq_none_iff] at hs; omega
  | some o =>
    cases o with
    | none => rw [h.gone i hs] at hr; cases hr
    | some es => exact hi es hs

/-- One tree was changed. -/
theorem RelC.set {MAX : Nat} {E : Env Nat S} {cow : Bool} {st st' : St Nat S} {ss : ListsC S} (h : RelC MAX E cow st ss) {i : Nat} (ok' : st'.Ok)
    (hl : st'.trees.length = st.trees.length) (oth : Others st st' i) {t : RleTree Nat S} (hv : st'.view i = .ok t) {es : List (Ent S)} {d : Nat}
    (ht : HoldsX E t es d) (hb : total es ≤ MAX) (hi : i < ss.length) (hu : cow = false → Uno st'.heap) :
    RelC MAX E cow st' (ss.set i (some (es, d))) := by
  refine ⟨ok', by simp [hl, h.len], fun j hj => ?_, fun j ej dj hj => ?_, hu⟩
  · by_cases hji : j = i
    · subst hji
      rw [List.getElem?_set_self hi] at hj; cases hj
    · rw [List.getElem?_set_ne (Ne.symm hji)] at hj
      rw [(oth j hji (by rw [h.len]; exact lt_of_get hj)).1]
      exact h.gone j hj
  · by_cases hji : j = i
    · subst hji
      rw [List.getElem?_set_self hi] at hj; cases hj
      exact ⟨t, hv, ht, hb⟩
    · rw [List.getElem?_set_ne (Ne.symm hji)] at hj
      obtain ⟨tj, k1, k2, k3⟩ := h.view j ej dj hj
      obtain ⟨tj', k4, k5⟩ := (oth j hji (by rw [h.len]; exact lt_of_get hj)).2 tj k1
      exact ⟨tj', k4, k2.alike k5, k3⟩

/-- One tree was added. -/
theorem RelC.add {MAX : Nat} {E : Env Nat S} {cow : Bool} {st st' : St Nat S} {ss : ListsC S} (h : RelC MAX E cow st ss) (ok' : st'.Ok)
    (hl : st'.trees.length = st.trees.length + 1)
    (oth : ∀ j, j < st.trees.length → st'.trees[j]? = st.trees[j]? ∧ ∀ t, st.view j = .ok t → st'.view j = .ok t)
    {t : RleTree Nat S} (hv : st'.view st.trees.length = .ok t) {es : List (Ent S)} {d : Nat} (ht : HoldsX E t es d) (hb : total es ≤ MAX)
    (hu : cow = false → Uno st'.heap) : RelC MAX E cow st' (ss ++ [some (es, d)]) := by
  refine ⟨ok', by simp [hl, h.len], fun j hj => ?_, fun j ej dj hj => ?_, hu⟩
  · by_cases hjl : j < ss.length
    · rw [List.getElem?_append_left hjl] at hj
      rw [(oth j (by rw [h.len]; exact hjl)).1]
      exact h.gone j hj
    · have := lt_of_get hj
      obtain rfl : j = ss.length := by simp at this; omega
      simp at hj
  · by_cases hjl : j < ss.length
    · rw [List.getElem?_append_left hjl] at hj
      obtain ⟨tj, k1, k2⟩ := h.view j ej dj hj
      exact ⟨tj, (oth j (by rw [h.len]; exact hjl)).2 tj k1, k2⟩
    · have := lt_of_get hj
      obtain rfl : j = ss.length := by simp at this; omega
      simp only [List.getElem?_append_right (Nat.le_refl _), Nat.sub_self, List.getElem?_cons_zero, Option.some.injEq, Prod.mk.injEq] at hj
      obtain ⟨rfl, rfl⟩ := hj
      rw [← h.len]
      exact ⟨t, hv, ht, hb⟩

theorem Hurt.facts {sl : SliceOps Nat S} {es es' : List (Ent S)} {idx : Nat} {s x v : S} {rest : List S} (h : Hurt sl es idx s es' x v rest) :
    es'.length = es.length ∧ es'.map (·.size) = es.map (·.size) ∧ total es' = total es ∧ (Pos es → Pos es') := by
  obtain ⟨L, e, R, o, rfl, -, -, -, -, -, rfl⟩ := h
  refine ⟨by simp, by simp, by simp, fun hp => ?_⟩
  rw [Pos.append, Pos.cons] at hp ⊢
  exact hp

/-- One step of a program that catches panics of `Clone`. -/
theorem stepC_spec {MAX imax : Nat} {E : Env Nat S} (hE : E.ix = natIdx MAX) (hM : 1 ≤ E.M) (hM' : E.M ≤ 127) {cow : Bool}
    {st : St Nat S} {ss : ListsC S} (h : RelC MAX E cow st ss) (op : Op Nat S) (left : Nat) (hop : op.fits MAX) :
    (∃ st' e ss', st.stepC E imax cow (op, left) = .ok (st', e) ∧ specC MAX E.sl cow ss (op, left) e ss' ∧ RelC MAX E cow st' ss') ∨
    ∃ f, st.stepC E imax cow (op, left) = .error f ∧ f.orderly = true ∧
      ((f = tooMany ∧ cow = true) ∨ ∀ ss', ¬ specC MAX E.sl cow ss (op, left) .returned ss') := by
  cases op with
  | new =>
    left
    obtain ⟨h1, h2, h3⟩ := new_step (E := E) h.ok hM hM'
    refine ⟨_, .returned, _, by simp only [St.stepC, h1, R.bind_ok]; rfl, rfl, ?_⟩
    exact h.add h2 (by simp) h3 (St.view_none (by simp)) ⟨Pos.nil, ⟨rfl, rfl⟩⟩ (Nat.zero_le _) (fun hc => h.uno hc)
  | insert i nop hints idx s z =>
    simp only [Op.fits] at hop
    simp only [St.stepC]
    have hno : (∀ x, ss[i]? ≠ some (some x)) → ∃ f, st.insertC E imax left i nop hints idx s z = .error f ∧ f.orderly = true ∧
        ((f = tooMany ∧ cow = true) ∨ ∀ ss', ¬ specC MAX E.sl cow ss (.insert i nop hints idx s z, left) .returned ss') := by
      intro hn
      refine ⟨.panic "no such tree", by simp only [St.insertC, h.noTree hn]; rfl, rfl, .inr ?_⟩
      rintro ss' ⟨es, d, -, h1, -⟩
      exact hn _ h1
    by_cases hsi : ∃ x, ss[i]? = some (some x)
    swap
    · exact .inr (hno (fun x hx => hsi ⟨x, hx⟩))
    obtain ⟨⟨es, d⟩, hsi⟩ := hsi
    obtain ⟨t, hv, ht, hb⟩ := h.view i es d hsi
    have hil := lt_of_get hsi
    obtain ⟨t0, rfl, hH, hd⟩ := ht.trim
    -- without a panic of `Clone`
    have plain : st.insertC E imax left i nop hints idx s z = (do
          let st' ← st.insert E imax i nop hints idx s z
          Pure.pure (st', .returned)) →
        (∃ st' e ss', st.insertC E imax left i nop hints idx s z = .ok (st', e) ∧
          specC MAX E.sl cow ss (.insert i nop hints idx s z, left) e ss' ∧ RelC MAX E cow st' ss') ∨
        ∃ f, st.insertC E imax left i nop hints idx s z = .error f ∧ f.orderly = true ∧
          ((f = tooMany ∧ cow = true) ∨ ∀ ss', ¬ specC MAX E.sl cow ss (.insert i nop hints idx s z, left) .returned ss') := by
      intro e0
      rw [e0]
      rcases insert_step (imax := imax) h.ok hv ht.rep nop hints idx s z with
        ⟨st', t1, t2, w, o, e, al, hr, hv', ok', hl', oth⟩ | ⟨e, hu⟩ | ⟨f, t1, w, e, al, hr⟩
      · left
        obtain ⟨t10, rfl, hH1, hd1⟩ := (ht.alike al).trim
        rw [insert_grow hd1] at hr
        cases hr0 : t10.insert E nop hints idx s z w with
        | error f => rw [hr0] at hr; cases hr
        | ok res =>
          obtain ⟨t20, o'⟩ := res
          rw [hr0] at hr
          cases hr
          obtain ⟨g1, g2, g3, es', g4, g5, g6⟩ := insert_returned hE hM hM' hH1 hb hop hr0
          rw [e]
          refine ⟨st', .returned, _, rfl, ⟨es, d, es', hsi, g1, g2, g3, g4, rfl⟩, ?_⟩
          refine h.set ok' hl' oth hv' (HoldsX.grow g5 (fun hn => ?_)) (by omega) hil (fun hc => ?_)
          · have := g5.2
            rw [hn] at this
            have : es' = [] := this
            subst this
            simp at g6
            omega
          · subst hc
            exact step_uno (imax := imax) (h.uno rfl) (op := .insert i nop hints idx s z) e
      · right
        rw [e]
        refine ⟨tooMany, rfl, rfl, .inl ⟨rfl, ?_⟩⟩
        cases cow with
        | true => rfl
        | false => exact (hu (h.uno rfl)).elim
      · right
        rw [e]
        obtain ⟨t10, rfl, hH1, hd1⟩ := (ht.alike al).trim
        rw [insert_grow hd1] at hr
        cases hr0 : t10.insert E nop hints idx s z w with
        | ok res => rw [hr0] at hr; cases hr
        | error f' =>
          rw [hr0] at hr
          cases hr
          refine ⟨f, rfl, ?_, .inr ?_⟩
          · rcases insert_faults hE hM hM' hH1 hb hop hr0 with k | k | k | k
            · rw [k.2]; rfl
            · rw [k.2.2]; rfl
            · rw [k.2.2.2]; rfl
            · rw [k.2.2.2]; rfl
          · rintro ss' ⟨es1, d1, es', a1, a2, a3, a4, a5, -⟩
            rw [hsi] at a1; cases a1
            have := insert_refines hE hM hM' hH1 a2 (nop := nop) (hints := hints) (s := s) a3 (w := w) a4
            rw [a5] at this
            obtain ⟨_, _, k, _⟩ := this
            rw [hr0] at k; cases k
    by_cases hc : cow = true
    swap
    · exact plain (insertC_uno hE h.ok (h.uno (by simpa using hc)) hv hH.1 ht.rep left nop hints idx s z)
    rcases insertC_step (imax := imax) hE h.ok hv hH.1 ht.rep left nop hints idx s z with
      e | ⟨st', r, r', es', d', made, gone, e, hroot, hv', ok', hl', oth, hidx, hz, hlen, hrep, hml, hcase⟩ | e
    · exact plain e
    · left
      have hrl : r.len = es.length + d := by
        have := ht.2
        rw [hroot] at this
        exact this.2
      rcases hcase with ⟨rfl, rfl, -⟩ | ⟨x, v, rest, hh, rfl, -⟩
      · refine ⟨st', _, ss, e, ⟨hc, es', d, hsi, hidx, hz, hml, .inl rfl⟩, ?_⟩
        have := h.set ok' hl' oth hv' (es := es') (d := d) ⟨hH.1, hrep, by show r'.len = _; omega⟩ hb hil (fun hf => by rw [hc] at hf; cases hf)
        have e : ss.set i (some (es', d)) = ss := by
          refine List.ext_getElem? (fun j => ?_)
          by_cases hji : j = i
          · subst hji; rw [List.getElem?_set_self hil, hsi]
          · rw [List.getElem?_set_ne (Ne.symm hji)]
        rw [e] at this
        exact this
      · obtain ⟨f1, f2, f3, f4⟩ := hh.facts
        refine ⟨st', _, _, e, ⟨hc, es, d, hsi, hidx, hz, hml, .inr ⟨es', x, v, rest, hh, rfl⟩⟩, ?_⟩
        exact h.set ok' hl' oth hv' ⟨f4 hH.1, hrep, by show r'.len = _; omega⟩ (by omega) hil (fun hf => by rw [hc] at hf; cases hf)
    · right
      exact ⟨tooMany, e, rfl, .inl ⟨rfl, hc⟩⟩
  | clone i =>
    simp only [St.stepC]
    by_cases hsi : ∃ x, ss[i]? = some (some x)
    swap
    · right
      have hn : ∀ x, ss[i]? ≠ some (some x) := fun x hx => hsi ⟨x, hx⟩
      refine ⟨.panic "no such tree", ?_, rfl, .inr ?_⟩
      · split
        · simp only [St.cloneCow, h.noTree hn]; rfl
        · simp only [St.clonePlainC, h.noTree hn]; rfl
      · rintro ss' ⟨es, d, h1, -⟩
        exact hn _ h1
    obtain ⟨⟨es, d⟩, hsi⟩ := hsi
    obtain ⟨t, hv, ht, hb⟩ := h.view i es d hsi
    have hil := lt_of_get hsi
    have fin : ∀ st', CloneOf st st' i → (cow = false → Uno st'.heap) → RelC MAX E cow st' (ss ++ [some (es, d)]) := by
      rintro st' ⟨c1, c2, c3, c4⟩ hu
      obtain ⟨t', k1, k2⟩ := c4 t hv
      exact h.add c1 c2 c3 k1 (ht.alike k2) hb hu
    obtain ⟨o, hi⟩ := view_tree hv
    cases cow with
    | true =>
      simp only [if_true]
      rcases cloneCow_step (imax := imax) h.ok hi with ⟨st', e, hc⟩ | e
      · left
        rw [e]
        exact ⟨st', .returned, _, rfl, ⟨es, d, hsi, (fun h => by cases h), rfl⟩, fin st' hc (fun h => by cases h)⟩
      · right
        rw [e]
        exact ⟨tooMany, rfl, rfl, .inl ⟨rfl, trivial⟩⟩
    | false =>
      left
      simp only [Bool.false_eq_true, if_false]
      obtain ⟨st', e, hc⟩ := clonePlain_step h.ok hi
      have hu : Uno st'.heap := step_uno (E := E) (imax := imax) (h.uno rfl) (op := .clone i) e
      rcases St.view_cases hv with ⟨hi', rfl⟩ | ⟨r, t0, hi', ht0, rfl⟩
      · have h0 : es = [] := ht.2.1
        subst h0
        have e' : st.clonePlainC E.M left i = .ok (st', .returned) := by
          simp only [St.clonePlain, St.clonePlainC, St.tree_ok.2 hi', R.bind_ok] at e ⊢
          cases e; rfl
        exact ⟨st', .returned, _, e', ⟨[], d, hsi, fun _ => Nat.zero_le _, rfl⟩, fin st' hc (fun _ => hu)⟩
      · have hrep : Rep E.M 1 t0 es := ht.rep _ rfl
        have hperm : (es.map (·.slice)).Perm (slicesT t0) := by
          have h1 := slicesT_perm (S := S) (Rep.shape hrep)
          have h2 : runsT t0 = es := Rep.runs hrep
          rwa [h2] at h1
        have hlen : (slicesT t0).length = es.length := by
          rw [← hperm.length_eq, List.length_map]
        have hstep := clonePlainC_step (M := E.M) h.ok hi' ht0 (CapT.ofRep hrep) left
        split at hstep
        · rename_i hl
          rw [hstep, e]
          exact ⟨st', .returned, _, rfl, ⟨es, d, hsi, fun _ => by omega, rfl⟩, fin st' hc (fun _ => hu)⟩
        · rename_i hl
          obtain ⟨H, ds, e1, e2, e3, e4⟩ := hstep
          obtain ⟨k1, k2⟩ := sameMem_step h.ok e2 e3
          refine ⟨_, _, ss, e1, ⟨rfl, es, d, hsi, by omega, by simp; omega, ?_, ?_, rfl⟩, k1, h.len, h.gone, fun j ej dj hj => ?_, fun _ x n hx => ?_⟩
          · exact (List.take_sublist _ _).subperm.trans hperm.symm.subperm
          · exact (List.sublist_append_left _ _).subperm.trans e4.symm.subperm
          · obtain ⟨tj, g1, g2⟩ := h.view j ej dj hj
            exact ⟨tj, k2 j tj g1, g2⟩
          · have hx : H.mem x = some n := hx
            rw [e2] at hx
            exact h.uno rfl x n hx
  | drop i =>
    simp only [St.stepC]
    by_cases hsi : ∃ x, ss[i]? = some (some x)
    swap
    · right
      have hn : ∀ x, ss[i]? ≠ some (some x) := fun x hx => hsi ⟨x, hx⟩
      refine ⟨.panic "no such tree", by simp only [St.drop, h.noTree hn]; rfl, rfl, .inr ?_⟩
      rintro ss' ⟨x, h1, -⟩
      exact hn _ h1
    obtain ⟨⟨es, d⟩, hsi⟩ := hsi
    obtain ⟨t, hv, ht, hb⟩ := h.view i es d hsi
    obtain ⟨o, hi⟩ := view_tree hv
    left
    obtain ⟨st', e, c1, c2, -, c3⟩ := drop_step h.ok hi
    refine ⟨st', .returned, _, by rw [e]; rfl, ⟨_, hsi, rfl⟩, c1, by simp [c2, h.len], fun j hj => ?_, fun j ej dj hj => ?_, fun hc => ?_⟩
    · rw [c2]
      by_cases hji : j = i
      · subst hji
        exact List.getElem?_set_self (lt_of_get hi)
      · rw [List.getElem?_set_ne (Ne.symm hji)] at hj ⊢
        exact h.gone j hj
    · by_cases hji : j = i
      · subst hji
        rw [List.getElem?_set_self (lt_of_get hsi)] at hj; cases hj
      · rw [List.getElem?_set_ne (Ne.symm hji)] at hj
        obtain ⟨tj, k1, k2⟩ := h.view j ej dj hj
        exact ⟨tj, c3 j hji tj k1, k2⟩
    · subst hc
      exact step_uno (E := E) (imax := imax) (h.uno rfl) (op := .drop i) e

theorem runC_spec {MAX imax : Nat} {E : Env Nat S} (hE : E.ix = natIdx MAX) (hM : 1 ≤ E.M) (hM' : E.M ≤ 127) {cow : Bool} :
    ∀ (ops : List (Op Nat S × Nat)) (st0 : St Nat S) (s0 : ListsC S), (∀ op ∈ ops, op.1.fits MAX) → RelC MAX E cow st0 s0 →
      (∃ st ends ss, St.runC E imax cow st0 ops = .ok (st, ends) ∧ specRunC MAX E.sl cow s0 ops ends ss ∧ RelC MAX E cow st ss) ∨
      ∃ f, St.runC E imax cow st0 ops = .error f ∧ f.orderly = true := by
  intro ops
  induction ops with
  | nil => intro st0 s0 _ hr; exact .inl ⟨st0, [], s0, rfl, rfl, hr⟩
  | cons op ops ih =>
    intro st0 s0 hf hr
    obtain ⟨op, left⟩ := op
    rcases stepC_spec (imax := imax) hE hM hM' hr op left (hf (op, left) (by simp)) with ⟨st1, e, s1, h1, h2, h3⟩ | ⟨f, h1, h2, -⟩
    · rcases ih st1 s1 (fun o ho => hf o (by simp [ho])) h3 with ⟨st, ends, ss, k1, k2, k3⟩ | ⟨f, k1, k2⟩
      · exact .inl ⟨st, e :: ends, ss, by simp only [St.runC, h1, R.bind_ok, k1]; rfl, ⟨s1, h2, k2⟩, k3⟩
      · exact .inr ⟨f, by simp only [St.runC, h1, R.bind_ok, k1]; rfl, k2⟩
    · exact .inr ⟨f, by simp only [St.runC, h1]; rfl, h2⟩

/-- `number_of_slices()` of tree `i`. -/
def countOf (st : St Nat S) (i : Nat) : R Nat := do
  let t ← st.view i
  pure t.numberOfSlices

theorem RelC.sees {MAX : Nat} {E : Env Nat S} {cow : Bool} {st : St Nat S} {ss : ListsC S} (h : RelC MAX E cow st ss) {i : Nat}
    {es : List (Ent S)} {d : Nat} (hi : ss[i]? = some (some (es, d))) : runsOf st i = .ok es ∧ countOf st i = .ok (es.length + d) := by
  obtain ⟨t, h1, h2, -⟩ := h.view i es d hi
  simp only [Cow.runsOf, countOf, h1, R.bind_ok, h2.runs, h2.len]
  exact ⟨rfl, rfl⟩

theorem RelC.slot {MAX : Nat} {E : Env Nat S} {cow : Bool} {st : St Nat S} {ss : ListsC S} (h : RelC MAX E cow st ss) {i : Nat}
    {es : List (Ent S)} (hi : runsOf st i = .ok es) : ∃ d, ss[i]? = some (some (es, d)) := by
  by_cases hn : ∃ x, ss[i]? = some (some x)
  · obtain ⟨⟨es', d⟩, hx⟩ := hn
    have := (h.sees hx).1
    rw [hi] at this; cases this
    exact ⟨d, hx⟩
  · simp only [Cow.runsOf, St.view, h.noTree (fun x hx => hn ⟨x, hx⟩)] at hi
    cases hi

/-! ## Programs -/

/-- C43: what a program that catches panics of `Clone` sees in its trees, whenever they occur: every operation that returned did what it
does without such panics; one that panicked changed nothing, or (an insertion) one run of its own tree.  No such program violates a
precondition of unsafe code or accesses a freed node: if it stops, then with a panic.

Missing from the full claim (it is false, see `insert_torn`): that a panicking insertion always changes nothing. -/
theorem clone_panic_partial {MAX imax : Nat} {E : Env Nat S} (hE : E.ix = natIdx MAX) (hM : 1 ≤ E.M) (hM' : E.M ≤ 127) {cow : Bool}
    {ops : List (Op Nat S × Nat)} (hops : ∀ op ∈ ops, op.1.fits MAX) :
    (∃ st ends ss, St.runC E imax cow St.init ops = .ok (st, ends) ∧ specRunC MAX E.sl cow [] ops ends ss ∧ st.trees.length = ss.length ∧
      ∀ i es d, ss[i]? = some (some (es, d)) → runsOf st i = .ok es ∧ countOf st i = .ok (es.length + d)) ∨
    ∃ f, St.runC E imax cow St.init ops = .error f ∧ f.orderly = true := by
  rcases runC_spec (imax := imax) hE hM hM' ops St.init [] hops (.init MAX E cow) with ⟨st, ends, ss, h1, h2, h3⟩ | h
  · exact .inl ⟨st, ends, ss, h1, h2, h3.len, fun i es d hi => h3.sees hi⟩
  · exact .inr h

/-- Where a program is after operations that returned or panicked. -/
theorem runC_sound {MAX imax : Nat} {E : Env Nat S} (hE : E.ix = natIdx MAX) (hM : 1 ≤ E.M) (hM' : E.M ≤ 127) {cow : Bool}
    {ops : List (Op Nat S × Nat)} (hops : ∀ op ∈ ops, op.1.fits MAX) {st : St Nat S} {ends : List (Ended S)}
    (h : St.runC E imax cow St.init ops = .ok (st, ends)) : ∃ ss, specRunC MAX E.sl cow [] ops ends ss ∧ RelC MAX E cow st ss := by
  rcases runC_spec (imax := imax) hE hM hM' ops St.init [] hops (.init MAX E cow) with ⟨st', ends', ss, h1, h2, h3⟩ | ⟨f, h1, -⟩
  · rw [h] at h1; cases h1
    exact ⟨ss, h2, h3⟩
  · rw [h] at h1; cases h1

/-- C43: a panic of `Clone` in an operation on tree `i` does not change the runs of any other tree; nor those of tree `i`, if the operation is
`clone` or an insertion between two runs.  In any case the sizes of the runs stay as they are. -/
theorem clone_panic_isolated {MAX imax : Nat} {E : Env Nat S} (hE : E.ix = natIdx MAX) (hM : 1 ≤ E.M) (hM' : E.M ≤ 127) {cow : Bool}
    {ops : List (Op Nat S × Nat)} (hops : ∀ op ∈ ops, op.1.fits MAX) {st st' : St Nat S} {ends : List (Ended S)}
    (h : St.runC E imax cow St.init ops = .ok (st, ends)) {op : Op Nat S} {left : Nat} (hop : op.fits MAX) {made gone : List S}
    (h' : st.stepC E imax cow (op, left) = .ok (st', .panicked made gone)) :
    made.length = left ∧ st'.trees.length = st.trees.length ∧
    (∀ j es, runsOf st j = .ok es → ∃ es', runsOf st' j = .ok es' ∧ es'.map (·.size) = es.map (·.size)) ∧
    ∀ j es, runsOf st j = .ok es → (∀ nop hints idx s z, op = .insert j nop hints idx s z → ∃ L R, es = L ++ R ∧ idx = total L) →
      runsOf st' j = .ok es := by
  obtain ⟨ss, -, h2⟩ := runC_sound hE hM hM' hops h
  rcases stepC_spec (imax := imax) hE hM hM' h2 op left hop with ⟨st1, e, s1, k1, k2, k3⟩ | ⟨f, k1, -⟩
  swap
  · rw [h'] at k1; cases k1
  rw [h'] at k1; cases k1
  have same : s1 = ss → (∀ j es, runsOf st j = .ok es → ∃ es', runsOf st' j = .ok es' ∧ es'.map (·.size) = es.map (·.size)) ∧
      ∀ j es, runsOf st j = .ok es → (∀ nop hints idx s z, op = .insert j nop hints idx s z → ∃ L R, es = L ++ R ∧ idx = total L) →
        runsOf st' j = .ok es := by
    rintro rfl
    have : ∀ j es, runsOf st j = .ok es → runsOf st' j = .ok es := by
      intro j es hj
      obtain ⟨d, hd⟩ := h2.slot hj
      exact (k3.sees hd).1
    exact ⟨fun j es hj => ⟨es, this j es hj, rfl⟩, fun j es hj _ => this j es hj⟩
  cases op with
  | new => exact k2.elim
  | drop i => exact k2.elim
  | clone i =>
    obtain ⟨-, es, d, a1, a2, a3, a4, a5, rfl⟩ := k2
    exact ⟨a3, by rw [h2.len, k3.len], same rfl⟩
  | insert i nop hints idx s z =>
    obtain ⟨-, es, d, a1, a2, a3, a4, a5⟩ := k2
    refine ⟨a4, ?_, ?_⟩
    · rw [h2.len, k3.len]
      rcases a5 with rfl | ⟨es', x, v, rest, -, rfl⟩
      · rfl
      · simp
    · rcases a5 with rfl | ⟨es', x, v, rest, hh, rfl⟩
      · exact same rfl
      · obtain ⟨-, f2, -, -⟩ := hh.facts
        have hil := lt_of_get a1
        have other : ∀ j es, j ≠ i → runsOf st j = .ok es → runsOf st' j = .ok es := by
          intro j ej hji hj
          obtain ⟨dj, hd⟩ := h2.slot hj
          exact (k3.sees (d := dj) (by rw [List.getElem?_set_ne (Ne.symm hji)]; exact hd)).1
        have self := (k3.sees (i := i) (List.getElem?_set_self hil)).1
        have self0 := (h2.sees a1).1
        refine ⟨fun j ej hj => ?_, fun j ej hj hcut => ?_⟩
        · by_cases hji : j = i
          · subst hji
            rw [self0] at hj; cases hj
            exact ⟨es', self, f2⟩
          · exact ⟨ej, other j ej hji hj, rfl⟩
        · by_cases hji : j = i
          · subst hji
            rw [self0] at hj; cases hj
            -- the insertion was not inside a run
            exfalso
            obtain ⟨L, R, e1, e2⟩ := hcut nop hints idx s z rfl
            obtain ⟨L', e, R', o, b1, b2, b3, b4, -⟩ := hh
            rw [b1] at e1
            rcases List.append_eq_append_iff.1 e1 with ⟨m, c1, c2⟩ | ⟨m, c1, c2⟩
            · cases m with
              | nil =>
                simp only [List.append_nil] at c1
                subst c1
                omega
              | cons a m =>
                simp only [List.cons_append, List.cons.injEq] at c2
                obtain ⟨rfl, -⟩ := c2
                subst c1
                simp at e2
                omega
            · subst c1
              simp at b2
              omega
          · exact other j ej hji hj

/-- C43: counts are exact after such a program, and when all trees have been dropped no node is left in memory. -/
theorem clone_panic_counts {MAX imax : Nat} {E : Env Nat S} (hE : E.ix = natIdx MAX) (hM : 1 ≤ E.M) (hM' : E.M ≤ 127) {cow : Bool}
    {ops : List (Op Nat S × Nat)} (hops : ∀ op ∈ ops, op.1.fits MAX) {st : St Nat S} {ends : List (Ended S)}
    (h : St.runC E imax cow St.init ops = .ok (st, ends)) :
    (∀ x nd, st.heap.mem x = some nd → nd.count = allRefs st x ∧ 0 < nd.count) ∧
    ((∀ o ∈ st.trees, o = none) → ∀ x, st.heap.mem x = none) := by
  obtain ⟨ss, -, h2⟩ := runC_sound hE hM hM' hops h
  refine ⟨fun x nd hm => ?_, fun hd x => ?_⟩
  · have hc := h2.ok.inv.cnt x
    rw [← allRefs_eq, cnt_some hm] at hc
    exact ⟨hc, h2.ok.inv.pos x nd hm⟩
  · refine Inv.empty (H := st.heap) ?_ x
    have : held st.trees = fun _ => 0 := by
      funext x
      unfold held
      rw [List.sum_eq_zero_iff]
      intro w hw
      obtain ⟨o, ho, rfl⟩ := List.mem_map.1 hw
      rw [hd o ho]; rfl
    rw [← this]
    exact h2.ok.inv

/-- C43: what becomes of the values when an insertion panics in `Clone`.  Each clone made and the slice to be inserted is in memory or was
destroyed, once; or a slice `x` was split, then the same holds for its left part `v`, and the `rest`. -/
theorem insert_panic_values {MAX imax : Nat} {E : Env Nat S} (hE : E.ix = natIdx MAX) (hM : 1 ≤ E.M) (hM' : E.M ≤ 127) {cow : Bool}
    {ops : List (Op Nat S × Nat)} (hops : ∀ op ∈ ops, op.1.fits MAX) {st st' : St Nat S} {ends : List (Ended S)}
    (h : St.runC E imax cow St.init ops = .ok (st, ends)) {i : Nat} {nop : Bool} {hints : List Nat} {idx : Nat} {s : S} {z left : Nat}
    {made gone : List S} (h' : st.stepC E imax cow (.insert i nop hints idx s z, left) = .ok (st', .panicked made gone)) :
    ∃ es, runsOf st i = .ok es ∧
    ((runsOf st' i = .ok es ∧ countOf st' i = countOf st i ∧ (valsIn st'.heap ++ gone).Perm (valsIn st.heap ++ made ++ [s])) ∨
      ∃ es' x v rest n, Hurt E.sl es idx s es' x v rest ∧ runsOf st' i = .ok es' ∧ countOf st i = .ok n ∧ countOf st' i = .ok (n + rest.length) ∧
        (valsIn st'.heap ++ gone ++ [x]).Perm (valsIn st.heap ++ made ++ v :: rest)) := by
  obtain ⟨ss, -, h2⟩ := runC_sound hE hM hM' hops h
  have hsi : ∃ x, ss[i]? = some (some x) := by
    by_contra hn
    have : st.insertC E imax left i nop hints idx s z = .error (.panic "no such tree") := by
      simp only [St.insertC, h2.noTree (fun x hx => hn ⟨x, hx⟩)]; rfl
    have h' : st.insertC E imax left i nop hints idx s z = _ := h'
    rw [this] at h'; cases h'
  obtain ⟨⟨es, d⟩, hsi⟩ := hsi
  obtain ⟨t, hv, ht, hb⟩ := h2.view i es d hsi
  refine ⟨es, (h2.sees hsi).1, ?_⟩
  have h' : st.insertC E imax left i nop hints idx s z = _ := h'
  have hn := (h2.sees hsi).2
  rcases insertC_step (imax := imax) hE h2.ok hv ht.1 ht.rep left nop hints idx s z with
    e | ⟨st1, r, r', es', d', made', gone', e, hroot, hv', -, -, -, -, -, hlen, hrep, -, hcase⟩ | e
  · rw [e] at h'
    cases hi : st.insert E imax i nop hints idx s z with
    | error f => rw [hi] at h'; cases h'
    | ok a => rw [hi] at h'; cases h'
  · rw [e] at h'; cases h'
    have hrl : r.len = es.length + d := by
      have := ht.2
      rw [hroot] at this
      exact this.2
    have hc : countOf st' i = .ok (es.length + d + d') := by
      simp only [countOf, hv', R.bind_ok]
      show Except.ok r'.len = _
      rw [hlen, hrl]
    have hr : runsOf st' i = .ok es' := by
      simp only [runsOf, hv', R.bind_ok]
      show Except.ok (runsT r'.tree) = _
      rw [Rep.runs hrep]
    rcases hcase with ⟨rfl, rfl, h3⟩ | ⟨x, v, rest, hh, rfl, h3⟩
    · exact .inl ⟨hr, by rw [hc, hn]; rfl, h3⟩
    · exact .inr ⟨es', x, v, rest, _, hh, hr, hn, hc, h3⟩
  · rw [e] at h'; cases h'

/-- C43: a panic in `Clone` while a tree is copied leaves memory exactly as it was.  The clones made are the first `left` slices, where those
of a node come before those of its children; they have been destroyed, except those of nodes above the one where it panicked: these
are lost. -/
theorem clone_panic_memory {MAX imax : Nat} {E : Env Nat S} (hE : E.ix = natIdx MAX) (hM : 1 ≤ E.M) (hM' : E.M ≤ 127)
    {ops : List (Op Nat S × Nat)} (hops : ∀ op ∈ ops, op.1.fits MAX) {st : St Nat S} {ends : List (Ended S)}
    (h : St.runC E imax false St.init ops = .ok (st, ends)) {i : Nat} {r : Root Nat S} (hi : st.view i = .ok ⟨some r⟩) (left : Nat) :
    if (runsT r.tree).length ≤ left then ∃ st', st.stepC E imax false (.clone i, left) = .ok (st', .returned)
    else ∃ st' gone, st.stepC E imax false (.clone i, left) = .ok (st', .panicked ((slicesT r.tree).take left) gone) ∧
      st'.trees = st.trees ∧ (∀ x, st'.heap.mem x = st.heap.mem x) ∧ ((slicesT r.tree).take left).Perm (gone ++ leakedT r.tree left) := by
  obtain ⟨ss, -, h2⟩ := runC_sound hE hM hM' hops h
  have hr : runsOf st i = .ok (runsT r.tree) := by
    simp only [runsOf, hi, R.bind_ok]; rfl
  obtain ⟨d, hd⟩ := h2.slot hr
  obtain ⟨t, hv, ht, -⟩ := h2.view i _ d hd
  rw [hi] at hv; cases hv
  rcases St.view_cases hi with ⟨-, h0⟩ | ⟨c, t0, hi', ht0, h0⟩
  · cases h0
  cases h0
  have hrep : Rep E.M 1 t0 (runsT t0) := ht.rep _ rfl
  have hlen : (slicesT t0).length = (runsT t0).length := by
    rw [← (slicesT_perm (S := S) (Rep.shape hrep)).length_eq, List.length_map]
  have hstep := clonePlainC_step (M := E.M) h2.ok hi' ht0 (CapT.ofRep hrep) left
  show if (runsT t0).length ≤ left then _ else _
  split at hstep
  · rename_i hl
    rw [if_pos (by omega)]
    obtain ⟨st', e, -⟩ := clonePlain_step h2.ok hi'
    exact ⟨st', by show st.clonePlainC E.M left i = _; rw [hstep, e]; rfl⟩
  · rename_i hl
    rw [if_neg (by omega)]
    obtain ⟨H, ds, e1, e2, -, e4⟩ := hstep
    exact ⟨_, ds, e1, rfl, e2, e4⟩

/-! ## Where the full claim fails -/

/-- Texts as slices: `split_at` cuts them, they never join. -/
def textSl : SliceOps Nat (List Char) := ⟨false, fun s o => (s.take o, s.drop o), fun a b => .inr (a, b)⟩

/-- Trees of texts with `M = 1` over `u8`. -/
abbrev textEnv : Env Nat (List Char) := ⟨natIdx 255, textSl, 1, false⟩

/-- A tree of three texts: a root with one, and two leaves. -/
def textProg : List (Op Nat (List Char) × Nat) :=
  [(.new, 0), (.insert 0 false [] 0 ['a', 'a', 'a', 'a'] 4, 0), (.insert 0 false [] 4 ['b', 'b', 'b', 'b'] 4, 0),
    (.insert 0 false [] 8 ['c', 'c', 'c', 'c'] 4, 0)]

/-- How a program ended: its last operation (if it panicked: the clones made, and the values destroyed), and sizes, slices and
`number_of_slices()` of a tree. -/
structure Seen where
  last : Option (List (List Char) × List (List Char))
  runs : List (Nat × List Char)
  number : Nat
  deriving DecidableEq

/-- Run a program, look at tree `i`. -/
def lastOf (cow : Bool) (prog : List (Op Nat (List Char) × Nat)) (i : Nat) :
    Option Seen := do
  let (st, es) ← (St.runC textEnv 1000 cow St.init prog).toOption
  let rs ← (runsOf st i).toOption
  let n ← (countOf st i).toOption
  some ⟨match es.getLast? with
    | some (.panicked made gone) => some (made, gone)
    | _ => none, rs.map (fun e => (e.size, e.slice)), n⟩

/-- C43, the full claim is false: an insertion into a clone, in the middle of the text in the root; `Clone` copies that text and panics on
the next.  Of the four characters only two are left in a run of size four; `number_of_slices()` is five for three runs; the other two
characters and the new text were destroyed. -/
theorem insert_torn : lastOf true (textProg ++ [(.clone 0, 0), (.insert 1 false [] 6 ['x'] 1, 1)]) 1 =
    some ⟨some ([['b', 'b', 'b', 'b']], [['x'], ['b', 'b']]),
      [(4, ['a', 'a', 'a', 'a']), (4, ['b', 'b']), (4, ['c', 'c', 'c', 'c'])], 5⟩ := by decide +kernel

/-- The tree it was cloned from is as before. -/
example : lastOf true (textProg ++ [(.clone 0, 0), (.insert 1 false [] 6 ['x'] 1, 1)]) 0 =
    some ⟨some ([['b', 'b', 'b', 'b']], [['x'], ['b', 'b']]),
      [(4, ['a', 'a', 'a', 'a']), (4, ['b', 'b', 'b', 'b']), (4, ['c', 'c', 'c', 'c'])], 3⟩ := by decide +kernel

/-- The tree can be used further: another insertion returns. -/
example : lastOf true (textProg ++ [(.clone 0, 0), (.insert 1 false [] 6 ['x'] 1, 1), (.insert 1 false [] 4 ['y'] 1, 9)]) 1 =
    some ⟨none, [(4, ['a', 'a', 'a', 'a']), (1, ['y']), (4, ['b', 'b']), (4, ['c', 'c', 'c', 'c'])], 6⟩ := by decide +kernel

/-- If the first call panics then nothing is changed. -/
example : lastOf true (textProg ++ [(.clone 0, 0), (.insert 1 false [] 6 ['x'] 1, 0)]) 1 =
    some ⟨some ([], [['x']]), [(4, ['a', 'a', 'a', 'a']), (4, ['b', 'b', 'b', 'b']), (4, ['c', 'c', 'c', 'c'])], 3⟩ := by decide +kernel

/-- If none does then the insertion returns. -/
example : lastOf true (textProg ++ [(.clone 0, 0), (.insert 1 false [] 6 ['x'] 1, 2)]) 1 =
    some ⟨none, [(4, ['a', 'a', 'a', 'a']), (2, ['b', 'b']), (1, ['x']), (2, ['b', 'b']), (4, ['c', 'c', 'c', 'c'])], 5⟩ := by decide +kernel

/-- C43, the full claim is false: a panic in `Clone` on the third text; of the two clones made, one is destroyed, that of the root is lost. -/
theorem clone_leaks : lastOf false (textProg ++ [(.clone 0, 2)]) 0 =
    some ⟨some ([['b', 'b', 'b', 'b'], ['a', 'a', 'a', 'a']], [['a', 'a', 'a', 'a']]),
      [(4, ['a', 'a', 'a', 'a']), (4, ['b', 'b', 'b', 'b']), (4, ['c', 'c', 'c', 'c'])], 3⟩ := by decide +kernel

/-- The hypotheses of the theorems above are met. -/
example : textEnv.ix = natIdx 255 ∧ 1 ≤ textEnv.M ∧ textEnv.M ≤ 127 ∧
    ∀ op ∈ textProg ++ [(.clone 0, 0), (.insert 1 false [] 6 ['x'] 1, 1)], op.1.fits 255 := by
  refine ⟨rfl, by decide, by decide, ?_⟩
  intro op h
  simp only [textProg, List.cons_append, List.nil_append, List.mem_cons, List.not_mem_nil, or_false] at h
  rcases h with rfl | rfl | rfl | rfl | rfl | rfl <;> simp [Op.fits]

end Sherman.Cow
