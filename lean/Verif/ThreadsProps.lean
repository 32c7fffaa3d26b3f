import Verif.ThreadsState
/-!
# Trees that share nodes, used by several threads: C44

Whatever the order in which the steps of the threads come: the operations that have taken effect, in that order, do to lists of runs what
the specification of programs with one thread says (`specRun`); no step accesses a node that has been freed; no thread sees the work of
another one.
-/
namespace Sherman.Cow
variable {S : Type}

/-! ## Specification -/

/-- What a variable must look like. -/
def At (MAX : Nat) (E : Env Nat S) (st : TSt Nat S) (i : Nat) : Option (List (Ent S)) → Prop
  | none => ∃ work, st.vars[i]? = some (.dying work)
  | some es => ∃ t, st.view i = .ok t ∧ Reach MAX E t ∧ t.runs = es

/-- The runs that threads see in their trees. -/
structure RelT (MAX : Nat) (E : Env Nat S) (st : TSt Nat S) (ss : Lists S) : Prop where
  ok : st.Ok E
  len : st.vars.length = ss.length
  at' : ∀ (i : Nat) o, ss[i]? = some o → At MAX E st i o
  busy : ∀ (i : Nat) t, st.vars[i]? = some (.busy t) → t.args.size ≤ MAX

/-- Sizes that values of the index type can have. -/
def Act.fits (MAX : Nat) : Act Nat S → Prop
  | .insert _ a => a.size ≤ MAX
  | _ => True

/-- The program may do this now: it has the access to the variable that is needed, or there is a next step. -/
def Act.ready (st : TSt Nat S) : Act Nat S → Prop
  | .new => True
  | .clone i | .insert i _ | .drop i => ∃ r, st.vars[i]? = some (.idle r)
  | .step i => (∃ t, st.vars[i]? = some (.busy t)) ∨ ∃ w work, st.vars[i]? = some (.dying (w :: work))

/-- The insertion with these arguments. -/
def Args.op (i : Nat) (a : Args Nat S) : Op Nat S := .insert i a.nop a.hints a.idx a.slice a.size

/-- The insertion that something that happens is part of. -/
def Act.insertion (st : TSt Nat S) : Act Nat S → Option (Op Nat S)
  | .insert i a => some (a.op i)
  | .step i => match st.vars[i]? with
    | some (.busy t) => some (t.args.op i)
    | _ => none
  | _ => none

/-- The variable that may change. -/
def Act.var : Act Nat S → Option Nat
  | .insert i _ | .drop i | .step i => some i
  | _ => none

/-- What a step leaves alone: a node that another variable (or its thread) can reach is not freed, and only its count can change. -/
def Quiet (st st' : TSt Nat S) (a : Act Nat S) : Prop :=
  ∀ x nd, st.heap.mem x = some nd → (∃ nd', st'.heap.mem x = some nd' ∧ nd.Same nd') ∨
    ∀ (j : Nat) v p, st.vars[j]? = some v → a.var ≠ some j → p ∈ v.refs → ¬ Rch st.heap p x

/-! ## Insertions -/

theorem spec_ok {MAX : Nat} {E : Env Nat S} (hE : E.ix = natIdx MAX) {ss : Lists S} {i : Nat} {t t2 : RleTree Nat S} (ht : Reach MAX E t)
    (hs : ss[i]? = some (some t.runs)) {a : Args Nat S} (ha : a.size ≤ MAX) {w : World} {o : Inserted}
    (hr : t.insert E a.nop a.hints a.idx a.slice a.size w = .ok (t2, o)) :
    specStep MAX E.sl ss (a.op i) = some (ss.set i (some t2.runs)) ∧ Reach MAX E t2 := by
  have hruns := insert_runs hE ht ha hr
  obtain ⟨g1, g2, g3, -⟩ := insert_ok_conditions hE ht ha hr
  rw [(size_eq_total hE ht).1] at g1 g3
  refine ⟨?_, .insert ht ha hr⟩
  simp [Args.op, specStep, hs, g1, g2, g3, hruns]

theorem spec_error {MAX : Nat} {E : Env Nat S} (hE : E.ix = natIdx MAX) {ss : Lists S} {i : Nat} {t : RleTree Nat S} (ht : Reach MAX E t)
    (hs : ss[i]? = some (some t.runs)) {a : Args Nat S} (ha : a.size ≤ MAX) {w : World} {f : Fault}
    (hr : t.insert E a.nop a.hints a.idx a.slice a.size w = .error f) :
    specStep MAX E.sl ss (a.op i) = none ∧ f.orderly = true := by
  constructor
  · simp only [Args.op, specStep, hs]
    split
    · rename_i hc
      cases hsp : specInsert E.sl t.runs a.idx a.slice a.size with
      | error f => rfl
      | ok es' =>
        obtain ⟨t', o, g5, -⟩ := insert_returns hE ht a.nop a.hints a.slice w hc.1 hc.2.1 hc.2.2 hsp
        rw [g5] at hr; cases hr
    · rfl
  · rcases insert_fault_cases hE ht ha hr with k | k | k | k
    · rw [k.2]; rfl
    · rw [k.2.2]; rfl
    · rw [k.2.2.2]; rfl
    · rw [k.2.2.2]; rfl

/-! ## Variables and lists -/

/-- The others are as they were. -/
def Rest (st st' : TSt Nat S) (i : Nat) : Prop := ∀ j, j ≠ i → ∀ t, st.view j = .ok t → st'.view j = .ok t

theorem RelT.set {MAX : Nat} {E : Env Nat S} {st : TSt Nat S} {ss ss' : Lists S} (h : RelT MAX E st ss) {i : Nat} {v v' : Var Nat S}
    (hv : st.vars[i]? = some v) {H' : Heap Nat S} (ok' : (⟨H', st.vars.set i v'⟩ : TSt Nat S).Ok E)
    (hrest : Rest st ⟨H', st.vars.set i v'⟩ i) (o : Option (List (Ent S))) (hl : ss'.length = ss.length) (hsi : ss'[i]? = some o)
    (hsj : ∀ j, j ≠ i → ss'[j]? = ss[j]?) (ha : At MAX E ⟨H', st.vars.set i v'⟩ i o) (hb : ∀ t, v' = .busy t → t.args.size ≤ MAX) :
    RelT MAX E ⟨H', st.vars.set i v'⟩ ss' := by
  refine ⟨ok', by simp [h.len, hl], fun j oj hj => ?_, fun j t hj => ?_⟩
  · by_cases hji : j = i
    · subst hji
      rw [hsi] at hj; cases hj
      exact ha
    · rw [hsj j hji] at hj
      have := h.at' j oj hj
      cases oj with
      | none =>
        obtain ⟨work, hw⟩ := this
        exact ⟨work, by dsimp only; rw [List.getElem?_set_ne (Ne.symm hji)]; exact hw⟩
      | some es =>
        obtain ⟨t, h1, h2⟩ := this
        exact ⟨t, hrest j hji t h1, h2⟩
  · dsimp only at hj
    by_cases hji : j = i
    · subst hji
      rw [List.getElem?_set_self (lt_of_get hv)] at hj; cases hj
      exact hb t rfl
    · rw [List.getElem?_set_ne (Ne.symm hji)] at hj
      exact h.busy j t hj

theorem RelT.add {MAX : Nat} {E : Env Nat S} {st : TSt Nat S} {ss : Lists S} (h : RelT MAX E st ss) {v : Var Nat S} {H' : Heap Nat S}
    (ok' : (⟨H', st.vars ++ [v]⟩ : TSt Nat S).Ok E)
    (hrest : ∀ j, j < st.vars.length → ∀ t, st.view j = .ok t → (⟨H', st.vars ++ [v]⟩ : TSt Nat S).view j = .ok t) {es : List (Ent S)}
    (ha : At MAX E ⟨H', st.vars ++ [v]⟩ st.vars.length (some es)) (hb : ∀ t, v ≠ .busy t) :
    RelT MAX E ⟨H', st.vars ++ [v]⟩ (ss ++ [some es]) := by
  refine ⟨ok', by simp [h.len], fun j oj hj => ?_, fun j t hj => ?_⟩
  · by_cases hjl : j < ss.length
    · rw [List.getElem?_append_left hjl] at hj
      have := h.at' j oj hj
      cases oj with
      | none =>
        obtain ⟨work, hw⟩ := this
        exact ⟨work, by dsimp only; rw [List.getElem?_append_left (by rw [h.len]; exact hjl)]; exact hw⟩
      | some es =>
        obtain ⟨t, h1, h2⟩ := this
        exact ⟨t, hrest j (by rw [h.len]; exact hjl) t h1, h2⟩
    · have := lt_of_get hj
      obtain rfl : j = ss.length := by simp at this; omega
      simp only [List.getElem?_concat_length, Option.some.injEq] at hj
      subst hj
      rw [← h.len]; exact ha
  · dsimp only at hj
    by_cases hjl : j < st.vars.length
    · rw [List.getElem?_append_left hjl] at hj
      exact h.busy j t hj
    · have := lt_of_get hj
      obtain rfl : j = st.vars.length := by simp at this; omega
      simp only [List.getElem?_concat_length, Option.some.injEq] at hj
      exact absurd hj (hb t)

theorem view_lt {st : TSt Nat S} {j : Nat} {t : RleTree Nat S} (h : st.view j = .ok t) : j < st.vars.length := by
  by_contra hc
  unfold TSt.view at h
  rw [List.getElem?_eq_none (by omega)] at h
  cases h

theorem view_idle {st : TSt Nat S} {i : Nat} (h : st.vars[i]? = some (.idle none)) : st.view i = .ok ⟨none⟩ := by
  simp [TSt.view, h]

theorem view_root {st : TSt Nat S} {i : Nat} {r : CRoot} (h : st.vars[i]? = some (.idle (some r)) ∨ ∃ k, st.vars[i]? = some (.busy k) ∧ k.root = r)
    {t : Tree Nat S (r.h + 1)} (ht : readT st.heap (r.h + 1) r.p = .ok t) : st.view i = .ok ⟨some ⟨r.h, t, r.len⟩⟩ := by
  rcases h with h | ⟨k, h, rfl⟩ <;> simp [TSt.view, h, ht]

theorem root_view {st : TSt Nat S} {i : Nat} {r : CRoot} (h : st.vars[i]? = some (.idle (some r)) ∨ ∃ k, st.vars[i]? = some (.busy k) ∧ k.root = r)
    {t : RleTree Nat S} (ht : st.view i = .ok t) : ∃ t0, readT st.heap (r.h + 1) r.p = .ok t0 ∧ t = ⟨some ⟨r.h, t0, r.len⟩⟩ := by
  rcases h with h | ⟨k, h, rfl⟩ <;>
  · simp only [TSt.view, h, bind_ok_iff] at ht
    obtain ⟨t0, h1, h2⟩ := ht
    cases h2
    exact ⟨t0, h1, rfl⟩

/-- What the specification knows about a variable that holds a tree. -/
theorem RelT.known {MAX : Nat} {E : Env Nat S} {st : TSt Nat S} {ss : Lists S} (h : RelT MAX E st ss) {i : Nat} {v : Var Nat S}
    (hv : st.vars[i]? = some v) (hd : ∀ work, v ≠ .dying work) : ∃ t, ss[i]? = some (some t.runs) ∧ st.view i = .ok t ∧ Reach MAX E t := by
  have hl := lt_of_get hv
  rw [h.len] at hl
  cases hs : ss[i]? with
  | none => rw [List.getElem?_eq_none_iff] at hs; omega
  | some o =>
    have := h.at' i o hs
    cases o with
    | none =>
      obtain ⟨work, hw⟩ := this
      rw [hv] at hw; cases hw
      exact absurd rfl (hd work)
    | some es =>
      obtain ⟨t, h1, h2, h3⟩ := this
      exact ⟨t, by rw [h3], h1, h2⟩

/-! ## Everything that can happen -/

/-- Something that happens is over, and it did what the specification says; or there are too many references to a node; or it was not
possible for the program to do this; or it is part of an insertion that the specification does not allow. -/
def Outcome (MAX imax : Nat) (E : Env Nat S) (st : TSt Nat S) (ss : Lists S) (a : Act Nat S) : Prop :=
  (∃ st' l ss', st.act E imax a = .ok (st', l) ∧ specRun MAX E.sl ss l = some ss' ∧ RelT MAX E st' ss' ∧
    (∀ j, a.var ≠ some j → ∀ t, st.view j = .ok t → st'.view j = .ok t) ∧ Quiet st st' a) ∨
  (st.act E imax a = .error tooMany ∧ ∃ x n, st.heap.mem x = some n ∧ imax < n.count) ∨
  (∃ m, st.act E imax a = .error (.panic m) ∧ ¬ a.ready st) ∨
  ∃ f op, st.act E imax a = .error f ∧ f.orderly = true ∧ a.insertion st = some op ∧ specStep MAX E.sl ss op = none

theorem not_idle {st : TSt Nat S} {i : Nat} (h : ¬ ∃ r, st.vars[i]? = some (.idle r)) : st.idle i = .error (.panic "no such tree") := by
  unfold TSt.idle
  split
  · rename_i r hr; exact absurd ⟨r, hr⟩ h
  · rfl

theorem rest_of {st st' : TSt Nat S} {i : Nat} (h : Rest st st' i) (j : Nat) (hj : some i ≠ some j) (t : RleTree Nat S) (ht : st.view j = .ok t) :
    st'.view j = .ok t := h j (fun e => hj (by rw [e])) t ht

theorem set_same {ss : Lists S} {i : Nat} {o : Option (List (Ent S))} (hsi : ss[i]? = some o) (o' : Option (List (Ent S))) :
    (ss.set i o').length = ss.length ∧ (ss.set i o')[i]? = some o' ∧ ∀ j, j ≠ i → (ss.set i o')[j]? = ss[j]? :=
  ⟨by simp, List.getElem?_set_self (lt_of_get hsi), fun _ hj => List.getElem?_set_ne (Ne.symm hj)⟩

theorem quiet_effect {st st' : TSt Nat S} {i : Nat} {v : Var Nat S} (eff : Effect st.heap st'.heap (fun x => v.refs.count x) (rest st.vars i))
    {a : Act Nat S} (ha : a.var = some i) : Quiet st st' a := by
  intro x nd hx
  rcases eff x nd hx with h | ⟨-, h | h⟩
  · exact .inl ⟨nd, h, .refl _⟩
  · exact .inl h
  · refine .inr (fun j w p hw hj hp => h p ?_)
    have h1 := rest_other hw (i := i) (fun e => hj (by rw [ha, e])) p
    have h2 := List.count_pos_iff.2 hp
    omega

theorem quiet_same {st st' : TSt Nat S} {a : Act Nat S} (h : ∀ x nd, st.heap.mem x = some nd → ∃ nd', st'.heap.mem x = some nd' ∧ nd.Same nd') :
    Quiet st st' a := fun x nd hx => .inl (h x nd hx)

variable {MAX imax : Nat} {E : Env Nat S}

theorem act_new (hM : 1 ≤ E.M) (hM' : E.M ≤ 127) {st : TSt Nat S} {ss : Lists S} (h : RelT MAX E st ss) : Outcome MAX imax E st ss .new := by
  obtain ⟨k1, k2⟩ := h.ok.add (v := .idle none) (H' := st.heap)
    (by
      have : outs (st.vars ++ [.idle none]) = outs st.vars := by
        funext x; rw [outs_append]; simp [Var.refs]
      rw [this]; exact h.ok.inv) trivial (fun x nd hx => ⟨nd, hx, .refl _⟩) (fun _ _ _ _ _ _ _ _ _ _ _ => rfl)
  refine .inl ⟨_, [.new], _, ?_, rfl, h.add k1 k2 (es := []) ⟨⟨none⟩, view_idle (by simp), .empty ?_, rfl⟩ (fun t ht => by cases ht),
    fun j _ t ht => k2 j (view_lt ht) t ht, quiet_same (fun x nd hx => ⟨nd, hx, .refl _⟩)⟩
  · simp only [TSt.act, RleTree.newEmpty, check, hM, hM']
    simp
  · simp [RleTree.newEmpty, check, hM, hM']

theorem act_clone {st : TSt Nat S} {ss : Lists S} (h : RelT MAX E st ss) (i : Nat) : Outcome MAX imax E st ss (.clone i) := by
  by_cases hr : ∃ r, st.vars[i]? = some (.idle r)
  swap
  · refine .inr (.inr (.inl ⟨"no such tree", ?_, hr⟩))
    simp only [TSt.act, not_idle hr]; rfl
  obtain ⟨o, hv⟩ := hr
  obtain ⟨t, hs, hview, ht⟩ := h.known hv (fun _ h => by cases h)
  have hspec : specRun MAX E.sl ss [.clone i] = some (ss ++ [some t.runs]) := by simp [specRun, specStep, hs]
  cases o with
  | none =>
    obtain ⟨k1, k2⟩ := h.ok.add (v := .idle none) (H' := st.heap)
      (by
        have : outs (st.vars ++ [.idle none]) = outs st.vars := by
          funext x; rw [outs_append]; simp [Var.refs]
        rw [this]; exact h.ok.inv) trivial (fun x nd hx => ⟨nd, hx, .refl _⟩) (fun _ _ _ _ _ _ _ _ _ _ _ => rfl)
    rw [view_idle hv] at hview; cases hview
    refine .inl ⟨_, _, _, ?_, hspec, h.add k1 k2 ⟨⟨none⟩, view_idle (by simp), ht, rfl⟩ (fun t ht => by cases ht),
      fun j _ t ht => k2 j (view_lt ht) t ht, quiet_same (fun x nd hx => ⟨nd, hx, .refl _⟩)⟩
    simp only [TSt.act, TSt.idle, hv]; rfl
  | some r =>
    rcases h.ok.clone (imax := imax) hv with ⟨H', e, k1, k2, k3, k4⟩ | ⟨e, hb⟩
    · refine .inl ⟨_, _, _, ?_, hspec, h.add k1 k2 ⟨t, k3 t hview, ht, rfl⟩ (fun t ht => by cases ht), fun j _ t ht => k2 j (view_lt ht) t ht,
        quiet_same k4⟩
      simp only [TSt.act, TSt.idle, hv, R.bind_ok, e]; rfl
    · refine .inr (.inl ⟨?_, hb⟩)
      simp only [TSt.act, TSt.idle, hv, R.bind_ok, e]; rfl

theorem act_drop {st : TSt Nat S} {ss : Lists S} (h : RelT MAX E st ss) (i : Nat) : Outcome MAX imax E st ss (.drop i) := by
  by_cases hr : ∃ r, st.vars[i]? = some (.idle r)
  swap
  · refine .inr (.inr (.inl ⟨"no such tree", ?_, hr⟩))
    simp only [TSt.act, not_idle hr]; rfl
  obtain ⟨o, hv⟩ := hr
  obtain ⟨t, hs, hview, ht⟩ := h.known hv (fun _ h => by cases h)
  have hspec : specRun MAX E.sl ss [.drop i] = some (ss.set i none) := by simp [specRun, specStep, hs]
  have hi := h.ok.inv
  rw [outs_eq hv] at hi
  obtain ⟨s1, s2, s3⟩ := set_same hs none
  have key : ∀ work, (Var.dying work : Var Nat S).refs = (Var.idle o : Var Nat S).refs → Heights st.heap work →
      st.act E imax (.drop i) = .ok (⟨st.heap, st.vars.set i (.dying work)⟩, [.drop i]) → Outcome MAX imax E st ss (.drop i) := by
    intro work e1 e2 e3
    obtain ⟨k1, k2⟩ := h.ok.step (v' := .dying work) hv (by rw [e1]; exact hi) e2 (Effect.same _ _ _)
    exact .inl ⟨_, _, _, e3, hspec, h.set hv k1 k2 none s1 s2 s3 ⟨work, List.getElem?_set_self (lt_of_get hv)⟩ (fun t ht => by cases ht), rest_of k2,
      quiet_same (fun x nd hx => ⟨nd, hx, .refl _⟩)⟩
  cases o with
  | none =>
    refine key [] rfl (fun e he => by cases he) ?_
    simp only [TSt.act, TSt.idle, hv]; rfl
  | some r =>
    refine key [(r.h, r.p)] rfl (fun e he => ?_) ?_
    · obtain rfl := List.mem_singleton.1 he
      exact h.ok.var i _ hv
    · simp only [TSt.act, TSt.idle, hv]; rfl

theorem act_insert (hE : E.ix = natIdx MAX) {st : TSt Nat S} {ss : Lists S} (h : RelT MAX E st ss) (i : Nat) (a : Args Nat S) (ha : a.size ≤ MAX) :
    Outcome MAX imax E st ss (.insert i a) := by
  by_cases hr : ∃ r, st.vars[i]? = some (.idle r)
  swap
  · refine .inr (.inr (.inl ⟨"no such tree", ?_, hr⟩))
    simp only [TSt.act, not_idle hr]; rfl
  obtain ⟨o, hv⟩ := hr
  obtain ⟨t, hs, hview, ht⟩ := h.known hv (fun _ h => by cases h)
  have bad : ∀ f w, t.insert E a.nop a.hints a.idx a.slice a.size w = .error f → st.act E imax (.insert i a) = .error f →
      Outcome MAX imax E st ss (.insert i a) := by
    intro f w e1 e2
    obtain ⟨g1, g2⟩ := spec_error hE ht hs ha e1
    exact .inr (.inr (.inr ⟨f, _, e2, g2, rfl, g1⟩))
  cases o with
  | none =>
    rw [view_idle hv] at hview; cases hview
    cases he : RleTree.insert E ⟨none⟩ a.nop a.hints a.idx a.slice a.size ⟨st.heap.next, [], [], none, []⟩ with
    | error f =>
      refine bad f _ he ?_
      simp only [TSt.act, TSt.idle, hv, R.bind_ok, he]; rfl
    | ok res =>
      obtain ⟨t2, out⟩ := res
      obtain ⟨g1, g2⟩ := spec_ok (i := i) hE ht hs ha he
      obtain ⟨r, rfl, k1, k2, k3, k4⟩ := h.ok.first hv he
      obtain ⟨s1, s2, s3⟩ := set_same hs (some (RleTree.runs (⟨some r⟩ : RleTree Nat S)))
      refine .inl ⟨_, [a.op i], _, ?_, ?_, h.set hv k1 k2 _ s1 s2 s3 ⟨_, k3, g2, rfl⟩ (fun t ht => by cases ht), rest_of k2,
        quiet_same (fun x nd hx => ⟨nd, k4 x nd hx, .refl _⟩)⟩
      · simp only [TSt.act, TSt.idle, hv, R.bind_ok, he]; rfl
      · simp [specRun, g1]
  | some r =>
    obtain ⟨t0, h0, rfl⟩ := root_view (.inl hv) hview
    have hsz : RleTree.size E ⟨some ⟨r.h, t0, r.len⟩⟩ = Node.size t0 := rfl
    cases hc1 : check (!E.ix.lt (Node.size t0) a.idx) "cannot insert new slice, index out of bounds" with
    | error f =>
      refine bad f ⟨0, [], [], none, []⟩ ?_ ?_
      · simp only [RleTree.insert, hsz, hc1]; rfl
      · simp only [TSt.act, TSt.idle, hv, R.bind_ok, h0, hc1]; rfl
    | ok u1 =>
    cases hc2 : check (!E.ix.le a.size E.ix.zero) "cannot insert new slice, size is not greater than zero" with
    | error f =>
      refine bad f ⟨0, [], [], none, []⟩ ?_ ?_
      · simp only [RleTree.insert, hsz, hc1, hc2]; rfl
      · simp only [TSt.act, TSt.idle, hv, R.bind_ok, h0, hc1, hc2]; rfl
    | ok u2 =>
    obtain ⟨_, hH, hb⟩ := ht.holds hE
    rcases wayDown_fits (E := E) (hH.rep _ rfl) (hints := a.hints) (idx := a.idx) (s := a.slice) with ⟨path, hw, hf⟩ | ⟨f, h1, h2⟩
    swap
    · refine bad f ⟨0, [], [], none, []⟩ ?_ ?_
      · simp only [RleTree.insert, hsz, hc1, hc2, R.bind_ok, h1]; rfl
      · simp only [TSt.act, TSt.idle, hv, R.bind_ok, h0, hc1, hc2, h2]; rfl
    have hi := h.ok.inv
    rw [outs_eq hv] at hi
    have okt : (⟨a, r, none, path, r.h, .check⟩ : Task Nat S).Ok E st.heap [] [] t0 := by
      refine ⟨h.ok.var i _ hv, h0, hw, hf, fun _ => ⟨rfl, rfl, rfl⟩, fun p hp => by (cases hp), fun d td hp => by (cases hp),
        fun w hp => by (cases hp)⟩
    obtain ⟨k1, k2⟩ := h.ok.step (v' := .busy ⟨a, r, none, path, r.h, .check⟩) hv hi ⟨_, _, _, okt⟩ (Effect.same _ _ _)
    have hself : (st.vars.set i (.busy ⟨a, r, none, path, r.h, .check⟩))[i]? = some (.busy ⟨a, r, none, path, r.h, .check⟩) :=
      List.getElem?_set_self (lt_of_get hv)
    refine .inl ⟨_, [], _, ?_, rfl, h.set hv k1 k2 _ rfl hs (fun _ _ => rfl) ⟨_, view_root (r := r) (.inr ⟨_, hself, rfl⟩) h0, ht, rfl⟩
      (fun t ht => by cases ht; exact ha), rest_of k2, quiet_same (fun x nd hx => ⟨nd, hx, .refl _⟩)⟩
    simp only [TSt.act, TSt.idle, hv, R.bind_ok, h0, hc1, hc2, hw]; rfl

theorem act_step (hE : E.ix = natIdx MAX) {st : TSt Nat S} {ss : Lists S} (h : RelT MAX E st ss) (i : Nat) : Outcome MAX imax E st ss (.step i) := by
  by_cases hr : Act.ready st (.step i : Act Nat S)
  swap
  · refine .inr (.inr (.inl ⟨"nothing to do", ?_, hr⟩))
    simp only [TSt.act]
    split
    · rename_i t ht; exact absurd (.inl ⟨t, ht⟩) hr
    · rename_i w work ht; exact absurd (.inr ⟨w, work, ht⟩) hr
    · rfl
  rcases hr with ⟨t, hv⟩ | ⟨w, work, hv⟩
  · obtain ⟨u, hs, hview, hu⟩ := h.known hv (fun _ h => by cases h)
    obtain ⟨X, past, tree, okt⟩ := h.ok.var i _ hv
    obtain ⟨t0, h0, rfl⟩ := root_view (.inr ⟨t, hv, rfl⟩) hview
    have e : t0 = tree := by have := okt.read; rw [h0] at this; cases this; rfl
    subst e
    have hi := h.ok.inv
    rw [outs_eq hv] at hi
    rcases task_step (imax := imax) hi okt with ⟨H', v, e, k⟩ | ⟨e, hb⟩ | ⟨f, w, e, he⟩
    · obtain ⟨k1, k2⟩ := h.ok.step hv k.inv k.ok k.eff
      have hself : (st.vars.set i v)[i]? = some v := List.getElem?_set_self (lt_of_get hv)
      cases v with
      | idle o =>
        obtain ⟨r, tree', w, out, rfl, g1, g2⟩ := k.done o rfl
        obtain ⟨g3, g4⟩ := spec_ok (i := i) hE hu hs (h.busy i t hv) g2
        obtain ⟨s1, s2, s3⟩ := set_same hs (some (RleTree.runs (⟨some ⟨r.h, tree', r.len⟩⟩ : RleTree Nat S)))
        refine .inl ⟨_, [t.args.op i], _, ?_, ?_, h.set hv k1 k2 _ s1 s2 s3 ⟨_, view_root (r := r) (.inl hself) g1, g4, rfl⟩
          (fun t ht => by cases ht), rest_of k2, quiet_effect k.eff rfl⟩
        · simp only [TSt.act, hv, e]; rfl
        · simp [specRun, g3]
      | busy t' =>
        obtain ⟨g0, tree', g1, g2⟩ := k.busy t' rfl
        refine .inl ⟨_, [], _, ?_, rfl, h.set hv k1 k2 _ rfl hs (fun _ _ => rfl)
          ⟨_, view_root (r := t'.root) (.inr ⟨t', hself, rfl⟩) g1, .alike g2 hu, g2.runs hE hu⟩ (fun t2 ht => by
            cases ht; rw [g0]; exact h.busy i t hv), rest_of k2, quiet_effect k.eff rfl⟩
        simp only [TSt.act, hv, e]; rfl
      | dying work => exact absurd rfl (k.stays work)
    · refine .inr (.inl ⟨?_, hb⟩)
      simp only [TSt.act, hv, e]; rfl
    · obtain ⟨g1, g2⟩ := spec_error hE hu hs (h.busy i t hv) he
      refine .inr (.inr (.inr ⟨f, _, ?_, g2, by simp only [Act.insertion, hv], g1⟩))
      simp only [TSt.act, hv, e]; rfl
  · have hi := h.ok.inv
    rw [outs_eq hv] at hi
    obtain ⟨H', work', e, g1, g2, g3⟩ := giveUp_spec hi (h.ok.var i _ hv)
    obtain ⟨k1, k2⟩ := h.ok.step (v' := .dying work') hv g1 g2 g3
    have hs : ss[i]? = some none := by
      have hl := lt_of_get hv
      rw [h.len] at hl
      cases hs : ss[i]? with
      | none => rw [List.getElem?_eq_none_iff] at hs; omega
      | some o =>
        cases o with
        | none => rfl
        | some es =>
          obtain ⟨t, h1, -⟩ := h.at' i _ hs
          simp [TSt.view, hv] at h1
    refine .inl ⟨_, [], _, ?_, rfl, h.set hv k1 k2 _ rfl hs (fun _ _ => rfl) ⟨work', List.getElem?_set_self (lt_of_get hv)⟩
      (fun t ht => by cases ht), rest_of k2, quiet_effect (v := .dying (w :: work)) g3 rfl⟩
    simp only [TSt.act, hv, e]; rfl

theorem act_outcome (hE : E.ix = natIdx MAX) (hM : 1 ≤ E.M) (hM' : E.M ≤ 127) {st : TSt Nat S} {ss : Lists S} (h : RelT MAX E st ss)
    (a : Act Nat S) (ha : a.fits MAX) : Outcome MAX imax E st ss a := by
  cases a with
  | new => exact act_new hM hM' h
  | clone i => exact act_clone h i
  | insert i a => exact act_insert hE h i a ha
  | drop i => exact act_drop h i
  | step i => exact act_step hE h i

theorem RelT.init (MAX : Nat) (E : Env Nat S) : RelT MAX E TSt.init [] where
  ok := by
    refine ⟨⟨fun x => ?_, ?_, ?_, ?_, ?_⟩, fun i r h => by simp [TSt.init] at h⟩
    · simp [TSt.init, cnt, refsIn, outs]
    all_goals intro p nd h; simp [TSt.init] at h
  len := rfl
  at' := by simp
  busy := by simp [TSt.init]

/-! ## C44 -/

theorem run_rel (hE : E.ix = natIdx MAX) (hM : 1 ≤ E.M) (hM' : E.M ≤ 127) {acts : List (Act Nat S)} {s0 st : TSt Nat S} {ss0 : Lists S}
    {log : List (Op Nat S)} (hf : ∀ a ∈ acts, a.fits MAX) (hr : RelT MAX E s0 ss0) (h : TSt.run E imax s0 acts = .ok (st, log)) :
    ∃ ss, specRun MAX E.sl ss0 log = some ss ∧ RelT MAX E st ss := by
  induction acts generalizing s0 ss0 log with
  | nil => cases h; exact ⟨ss0, rfl, hr⟩
  | cons a acts ih =>
    simp only [TSt.run, bind_ok_iff] at h
    obtain ⟨⟨s1, l1⟩, h1, ⟨s2, l2⟩, h2, h3⟩ := h
    cases h3
    rcases act_outcome (imax := imax) hE hM hM' hr a (hf a (by simp)) with ⟨s1', l1', ss1, e, e2, e3, -⟩ | ⟨e, -⟩ | ⟨_, e, -⟩ | ⟨_, _, e, -⟩
    · rw [h1] at e; cases e
      obtain ⟨ss, g1, g2⟩ := ih (fun a ha => hf a (by simp [ha])) e3 h2
      refine ⟨ss, ?_, g2⟩
      simp only [specRun, List.foldlM_append] at e2 g1 ⊢
      rw [e2]; exact g1
    all_goals rw [h1] at e; cases e

/-- The runs that one sees in a tree, also while a thread works on it. -/
def runsT (st : TSt Nat S) (i : Nat) : R (List (Ent S)) := do
  let t ← st.view i
  pure t.runs

theorem RelT.runs {st : TSt Nat S} {ss : Lists S} (h : RelT MAX E st ss) (i : Nat) (es : List (Ent S)) :
    ss[i]? = some (some es) ↔ runsT st i = .ok es := by
  constructor
  · intro hs
    obtain ⟨t, h1, -, h2⟩ := h.at' i _ hs
    simp only [runsT, h1, R.bind_ok, h2]; rfl
  · intro hr
    simp only [runsT, bind_ok_iff] at hr
    obtain ⟨t, h1, h2⟩ := hr
    cases h2
    have hl := view_lt h1
    rw [h.len] at hl
    cases hs : ss[i]? with
    | none => rw [List.getElem?_eq_none_iff] at hs; omega
    | some o =>
      have := h.at' i o hs
      cases o with
      | none =>
        obtain ⟨work, hw⟩ := this
        simp [TSt.view, hw] at h1
      | some es =>
        obtain ⟨t', k1, -, k2⟩ := this
        rw [h1] at k1; cases k1
        rw [k2]

/-- C44: in every execution the operations that have taken effect, in this order, form a program that the specification of programs
with one thread allows; the runs in the trees are what it says. -/
theorem threads_linearizable (hE : E.ix = natIdx MAX) (hM : 1 ≤ E.M) (hM' : E.M ≤ 127) {acts : List (Act Nat S)}
    (hf : ∀ a ∈ acts, a.fits MAX) {st : TSt Nat S} {log : List (Op Nat S)} (h : TSt.run E imax TSt.init acts = .ok (st, log)) :
    ∃ ss, specRun MAX E.sl [] log = some ss ∧ st.vars.length = ss.length ∧ ∀ i es, ss[i]? = some (some es) ↔ runsT st i = .ok es := by
  obtain ⟨ss, h1, h2⟩ := run_rel hE hM hM' hf (RelT.init MAX E) h
  exact ⟨ss, h1, h2.len, h2.runs⟩

/-- C44: whatever has happened before, a call begins and a thread takes its next step without undefined behaviour.  It fails only if the
program could not do this now, or if a node has too many references, or if it is an insertion that the specification does not allow. -/
theorem threads_progress (hE : E.ix = natIdx MAX) (hM : 1 ≤ E.M) (hM' : E.M ≤ 127) {acts : List (Act Nat S)}
    (hf : ∀ a ∈ acts, a.fits MAX) {st : TSt Nat S} {log : List (Op Nat S)} (h : TSt.run E imax TSt.init acts = .ok (st, log))
    {a : Act Nat S} (ha : a.fits MAX) :
    (∀ f, st.act E imax a = .error f → f.orderly = true) ∧
    (a.ready st → (∀ x n, st.heap.mem x = some n → n.count ≤ imax) →
      (∀ op, a.insertion st = some op → ∃ ss, specRun MAX E.sl [] (log ++ [op]) = some ss) → ∃ r, st.act E imax a = .ok r) := by
  obtain ⟨ss, h1, h2⟩ := run_rel hE hM hM' hf (RelT.init MAX E) h
  rcases act_outcome (imax := imax) hE hM hM' h2 a ha with ⟨s1, l1, ss1, e, -⟩ | ⟨e, x, n, hx, hn⟩ | ⟨m, e, hr⟩ | ⟨f, op, e, ho, hop, hs⟩
  · exact ⟨fun f hf => by (rw [e] at hf; cases hf), fun _ _ _ => ⟨_, e⟩⟩
  · exact ⟨fun f hf => by (rw [e] at hf; cases hf; rfl), fun _ hc _ => by have := hc x n hx; omega⟩
  · exact ⟨fun f hf => by (rw [e] at hf; cases hf; rfl), fun hr' => absurd hr' hr⟩
  · refine ⟨fun f' hf => by (rw [e] at hf; cases hf; exact ho), fun _ _ hspec => ?_⟩
    obtain ⟨ss', h3⟩ := hspec op hop
    simp only [specRun, List.foldlM_append] at h1 h3
    rw [h1] at h3
    simp [hs] at h3

/-- C44: no execution leads to undefined behaviour (such as access to a freed node). -/
theorem threads_orderly (hE : E.ix = natIdx MAX) (hM : 1 ≤ E.M) (hM' : E.M ≤ 127) {acts : List (Act Nat S)}
    (hf : ∀ a ∈ acts, a.fits MAX) {f : Fault} (h : TSt.run E imax TSt.init acts = .error f) : f.orderly = true := by
  have key : ∀ (acts : List (Act Nat S)) (s0 : TSt Nat S) (ss0 : Lists S), (∀ a ∈ acts, a.fits MAX) → RelT MAX E s0 ss0 →
      TSt.run E imax s0 acts = .error f → f.orderly = true := by
    intro acts
    induction acts with
    | nil => intro s0 ss0 _ _ h; cases h
    | cons a acts ih =>
      intro s0 ss0 hf hr h
      simp only [TSt.run] at h
      rcases act_outcome (imax := imax) hE hM hM' hr a (hf a (by simp)) with ⟨s1, l1, ss1, e, -, e3, -⟩ | ⟨e, -⟩ | ⟨_, e, -⟩ | ⟨_, _, e, ho, -⟩
      · rw [e] at h
        cases h2 : TSt.run E imax s1 acts with
        | error f' =>
          simp only [R.bind_ok, h2] at h
          cases h
          exact ih s1 ss1 (fun a ha => hf a (by simp [ha])) e3 h2
        | ok r => simp only [R.bind_ok, h2] at h; cases h
      all_goals rw [e] at h; cases h
      · rfl
      · rfl
      · exact ho
  exact key acts _ _ hf (RelT.init MAX E) h

/-- C44: what happens to one variable is not seen through the others, not even in the middle of an insertion; nor does it interfere with
the work of their threads: nodes that these can reach stay allocated, with the same contents. -/
theorem threads_isolated (hE : E.ix = natIdx MAX) (hM : 1 ≤ E.M) (hM' : E.M ≤ 127) {acts : List (Act Nat S)}
    (hf : ∀ a ∈ acts, a.fits MAX) {st st' : TSt Nat S} {log l : List (Op Nat S)} (h : TSt.run E imax TSt.init acts = .ok (st, log))
    {a : Act Nat S} (ha : a.fits MAX) (h' : st.act E imax a = .ok (st', l)) :
    (∀ j, a.var ≠ some j → ∀ t, st.view j = .ok t → st'.view j = .ok t) ∧ Quiet st st' a ∧ (l = [] → ∀ i es, runsT st i = .ok es → runsT st' i = .ok es) := by
  obtain ⟨ss, h1, h2⟩ := run_rel hE hM hM' hf (RelT.init MAX E) h
  rcases act_outcome (imax := imax) hE hM hM' h2 a ha with ⟨s1, l1, ss1, e, e2, e3, e4, e5⟩ | ⟨e, -⟩ | ⟨_, e, -⟩ | ⟨_, _, e, -⟩
  · rw [h'] at e; cases e
    refine ⟨e4, e5, fun hl i es hi => ?_⟩
    subst hl
    cases e2
    exact (e3.runs i es).1 ((h2.runs i es).2 hi)
  all_goals rw [h'] at e; cases e

/-- References to a node: from other nodes, from tree variables and from the threads that work on these. -/
def refsT (st : TSt Nat S) (x : Nat) : Nat :=
  ((List.range st.heap.next).map (fun q => match st.heap.mem q with
    | some nd => if nd.height = 0 then 0 else nd.kids.count x
    | none => 0)).sum +
  (st.vars.map (fun v => v.refs.count x)).sum

theorem refsT_eq (st : TSt Nat S) (x : Nat) : refsT st x = refsIn st.heap x + outs st.vars x := by
  unfold refsT refsIn outs
  rw [sum_range_list]
  congr 2
  refine List.map_congr_left (fun q _ => ?_)
  cases st.heap.mem q with
  | none => simp [refsOf]
  | some nd =>
    simp only [refsOf]
    split_ifs <;> simp

/-- C44: at every moment the count of a node is the number of references to it, and the allocated nodes are those with references. -/
theorem threads_counts (hE : E.ix = natIdx MAX) (hM : 1 ≤ E.M) (hM' : E.M ≤ 127) {acts : List (Act Nat S)}
    (hf : ∀ a ∈ acts, a.fits MAX) {st : TSt Nat S} {log : List (Op Nat S)} (h : TSt.run E imax TSt.init acts = .ok (st, log)) (x : Nat) :
    (∀ nd, st.heap.mem x = some nd → nd.count = refsT st x ∧ 0 < nd.count) ∧ (0 < refsT st x ↔ ∃ nd, st.heap.mem x = some nd) := by
  obtain ⟨ss, -, h2⟩ := run_rel hE hM hM' hf (RelT.init MAX E) h
  have hc := h2.ok.inv.cnt x
  rw [← refsT_eq] at hc
  have h1 : ∀ nd, st.heap.mem x = some nd → nd.count = refsT st x ∧ 0 < nd.count := fun nd hm => by
    rw [cnt_some hm] at hc
    exact ⟨hc, h2.ok.inv.pos x nd hm⟩
  refine ⟨h1, fun h0 => ?_, fun ⟨nd, hm⟩ => by have := h1 nd hm; omega⟩
  cases hm : st.heap.mem x with
  | some nd => exact ⟨nd, rfl⟩
  | none => rw [cnt_none hm] at hc; omega

/-- C44: when all destructors are over, all nodes have been freed. -/
theorem threads_no_leak (hE : E.ix = natIdx MAX) (hM : 1 ≤ E.M) (hM' : E.M ≤ 127) {acts : List (Act Nat S)}
    (hf : ∀ a ∈ acts, a.fits MAX) {st : TSt Nat S} {log : List (Op Nat S)} (h : TSt.run E imax TSt.init acts = .ok (st, log))
    (hd : ∀ v ∈ st.vars, v = .dying []) (x : Nat) : st.heap.mem x = none := by
  obtain ⟨ss, -, h2⟩ := run_rel hE hM hM' hf (RelT.init MAX E) h
  refine Inv.empty (H := st.heap) ?_ x
  have : outs st.vars = fun _ => 0 := by
    funext x
    unfold outs
    rw [List.sum_eq_zero_iff]
    intro w hw
    obtain ⟨v, hv, rfl⟩ := List.mem_map.1 hw
    rw [hd v hv]; rfl
  rw [← this]
  exact h2.ok.inv

/-! ## A concrete execution -/

/-- An insertion of one character. -/
def ins (i idx : Nat) (c : Char) : Act Nat Char := .insert i ⟨false, [], idx, c, 1⟩

/-- A tree with four nodes is built and cloned; two threads insert into the two trees.  Both find the root shared and copy it before either
of them has given up the original, so that the second one frees it. -/
def exRace : List (Act Nat Char) :=
  [.new, ins 0 0 'a', ins 0 1 'b', .step 0, .step 0, ins 0 2 'c', .step 0, .step 0, ins 0 3 'd', .step 0, .step 0, .step 0, ins 0 4 'e',
   .step 0, .step 0, .step 0, .clone 0, ins 0 1 'x', ins 1 2 'y'] ++
  [0, 1, 0, 1, 0, 1, 0, 1, 0, 1, 0, 1, 0, 1, 0, 1, 0, 1, 0, 1, 0, 1, 0].map Act.step

/-- What one sees after an execution: the characters of two trees, the number of operations that have taken effect, and the counts. -/
def seen (acts : List (Act Nat Char)) : Option (List (Option (List Char)) × Nat × List (Option Nat)) :=
  match TSt.run exEnv 1000 TSt.init acts with
  | .ok (st, log) => some ((List.range st.vars.length).map (fun i => (runsT st i).toOption.map (·.map Ent.slice)), log.length,
      (List.range st.heap.next).map (fun x => (st.heap.mem x).map HNode.count))
  | .error _ => none

/-- One insertion is over, the other is not. -/
example : seen exRace = some ([some ['a', 'x', 'b', 'c', 'd', 'e'], some ['a', 'b', 'c', 'd', 'e']], 8,
    [some 1, some 2, none, some 2, some 1, some 1, some 1]) := by decide +kernel

/-- Both are over; the two trees share one node. -/
example : seen (exRace ++ [1, 1, 1, 1].map Act.step) = some ([some ['a', 'x', 'b', 'c', 'd', 'e'], some ['a', 'b', 'y', 'c', 'd', 'e']], 9,
    [some 1, some 1, none, some 2, some 1, some 1, some 1, some 1]) := by decide +kernel

/-- The first tree is dropped while the other thread goes on; in the end nothing is left. -/
example : seen (exRace ++ [.drop 0] ++ [1, 0, 1, 0, 1, 0, 1, 0].map Act.step ++ [.drop 1] ++ [1, 1, 1, 1].map Act.step) =
    some ([none, none], 11, List.replicate 8 none) := by decide +kernel

instance (MAX : Nat) (a : Act Nat Char) : Decidable (a.fits MAX) := by
  cases a <;> unfold Act.fits <;> infer_instance

/-- The hypotheses of the theorems hold for this execution. -/
example : (∃ r, TSt.run exEnv 1000 TSt.init exRace = .ok r) ∧ (∀ a ∈ exRace, a.fits 255) ∧ exEnv.ix = natIdx 255 := by
  refine ⟨?_, ?_, rfl⟩
  · have h : (TSt.run exEnv 1000 TSt.init exRace).toBool = true := by decide +kernel
    cases hr : TSt.run exEnv 1000 TSt.init exRace with
    | ok r => exact ⟨r, rfl⟩
    | error f => rw [hr] at h; cases h
  · decide

end Sherman.Cow
