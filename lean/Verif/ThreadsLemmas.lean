import Verif.Threads
import Verif.CowState
/-!
# What a step of one thread can do to the others

Everything that a thread changes can be reached from a reference that it holds, and what it does not only count but overwrite or free
can be reached from no other reference.
-/
namespace Sherman.Cow
variable {I S : Type}

/-- `x` can be reached from the node at `p`. -/
inductive Rch (H : Heap I S) (p : Nat) : Nat → Prop
  | here : Rch H p p
  | next {z x : Nat} {nd : HNode I S} : Rch H p z → H.mem z = some nd → x ∈ refsOf (some nd) → Rch H p x

/-- Nothing that can be reached from `p` has changed, apart from counts. -/
def Keeps (H H' : Heap I S) (p : Nat) : Prop :=
  ∀ x nd, Rch H p x → H.mem x = some nd → ∃ nd', H'.mem x = some nd' ∧ nd.Same nd'

theorem Keeps.of_same {H H' : Heap I S} (h : ∀ x nd, H.mem x = some nd → ∃ nd', H'.mem x = some nd' ∧ nd.Same nd') (p : Nat) :
    Keeps H H' p := fun x nd _ hm => h x nd hm

theorem Keeps.read {H H' : Heap I S} {out : Nat → Nat} (hi : Inv H out) {p h : Nat} (k : Keeps H H' p) {nd : HNode I S} (hm : H.mem p = some nd)
    (hh : nd.height = h) {t : Tree I S (h + 1)} (ht : readT H (h + 1) p = .ok t) : readT H' (h + 1) p = .ok t := by
  refine readT_frame (Z := fun x => Rch H p x ∧ ∃ nd, H.mem x = some nd) (fun x hx => ?_) ⟨.here, nd, hm⟩ hm hh ht
  obtain ⟨hr, n, hn⟩ := hx
  obtain ⟨n', h1, h2⟩ := k x n hr hn
  refine ⟨n, n', hn, h1, h2, fun q hq => ?_⟩
  obtain ⟨nq, h3, h4⟩ := hi.ht x n hn q hq
  exact ⟨⟨.next hr hn hq, nq, h3⟩, nq, h3, h4⟩

/-- A node with a single reference, which is held outside of memory, can be reached only by it. -/
theorem not_rch {H : Heap I S} {out : Nat → Nat} (hi : Inv H out) {p q : Nat} {nd : HNode I S} (hm : H.mem q = some nd) (hc : nd.count = 1)
    (ho : 0 < out q) (hne : p ≠ q) : ¬ Rch H p q := by
  intro hr
  cases hr with
  | here => exact hne rfl
  | next h1 h2 h3 =>
    rename_i z n
    have e1 := hi.cnt q
    rw [cnt_some hm, hc] at e1
    have e2 := refsIn_le (hi.lt z n h2) q
    rw [h2] at e2
    have e3 := List.count_pos_iff.2 h3
    omega

/-- The nodes on a way that are not shared can be reached only from the way. -/
theorem Way.only {H : Heap I S} {out : Nat → Nat} (hi : Inv H out) {path : List Nat} {r : Nat} {X : List Nat} (w : Way H path r X)
    (ho : 0 < out r) {p x : Nat} (hr : Rch H p x) (hx : x ∈ X) : p ∈ X := by
  induction hr with
  | here => exact hx
  | next h1 h2 h3 ih =>
    rename_i z y n
    refine ih ?_
    by_contra hz
    exact w.apart hi ho z n h2 hz y h3 hx

theorem Way.priv {H : Heap I S} {own oth : Nat → Nat} (hi : Inv H (fun x => own x + oth x)) {path : List Nat} {r : Nat} {X : List Nat}
    (w : Way H path r X) (ho : 0 < own r) {p x : Nat} (hp : 0 < oth p) (hx : x ∈ X) : ¬ Rch H p x := by
  intro hr
  have h1 := w.only hi (by omega) hr hx
  have h2 := w.others hi (by omega) h1
  by_cases h : p = r
  · subst h; simp only [if_true] at h2; omega
  · rw [if_neg h] at h2; omega

/-- What a thread may do that holds the references `own`, while there are also the references `oth`. -/
def Effect (H H' : Heap I S) (own oth : Nat → Nat) : Prop :=
  ∀ x nd, H.mem x = some nd → H'.mem x = some nd ∨
    ((∃ p, 0 < own p ∧ Rch H p x) ∧ ((∃ nd', H'.mem x = some nd' ∧ nd.Same nd') ∨ ∀ p, 0 < oth p → ¬ Rch H p x))

theorem Effect.same (H : Heap I S) (own oth : Nat → Nat) : Effect H H own oth := fun _ _ h => .inl h

theorem Effect.mono {H H' : Heap I S} {own oth own' oth' : Nat → Nat} (e : Effect H H' own oth) (h1 : ∀ x, 0 < own x → 0 < own' x)
    (h2 : ∀ x, 0 < oth' x → 0 < oth x) : Effect H H' own' oth' := by
  intro x nd hx
  rcases e x nd hx with h | ⟨⟨p, h3, h4⟩, h5⟩
  · exact .inl h
  · refine .inr ⟨⟨p, h1 p h3, h4⟩, ?_⟩
    rcases h5 with h5 | h5
    · exact .inl h5
    · exact .inr (fun p hp => h5 p (h2 p hp))

theorem Effect.keeps {H H' : Heap I S} {own oth : Nat → Nat} (e : Effect H H' own oth) {p : Nat} (hp : 0 < oth p) : Keeps H H' p := by
  intro x nd hr hx
  rcases e x nd hx with h | ⟨-, h | h⟩
  · exact ⟨nd, h, .refl _⟩
  · exact h
  · exact absurd hr (h p hp)

theorem Effect.way {H H' : Heap I S} {own oth : Nat → Nat} (hi : Inv H (fun x => own x + oth x)) (e : Effect H H' own oth) {path : List Nat}
    {r : Nat} {X : List Nat} (w : Way H path r X) (ho : 0 < oth r) : ∀ x ∈ X, H'.mem x = H.mem x := by
  intro x hx
  obtain ⟨nd, hm, -⟩ := w.one x hx
  rcases e x nd hm with h | ⟨⟨p, h1, h2⟩, -⟩
  · rw [h, hm]
  · have hi' : Inv H (fun x => oth x + own x) := by
      have : (fun x => oth x + own x) = fun x => own x + oth x := funext fun x => Nat.add_comm _ _
      rw [this]; exact hi
    exact absurd h2 (w.priv hi' ho h1 hx)

theorem Way.congr {H H' : Heap I S} {path : List Nat} {r : Nat} {X : List Nat} (w : Way H path r X) (h : ∀ x ∈ X, H'.mem x = H.mem x) :
    Way H' path r X := by
  induction path generalizing r X with
  | nil =>
    obtain ⟨rfl, nd, h1, h2⟩ := w
    exact ⟨rfl, nd, by rw [h r (by simp)]; exact h1, h2⟩
  | cons c path ih =>
    obtain ⟨nd, q, X', h1, h2, h3, h4, rfl, h5⟩ := w
    exact ⟨nd, q, X', by rw [h r (by simp)]; exact h1, h2, h3, h4, rfl, ih h5 (fun x hx => h x (by simp [hx]))⟩

/-! ## References held by variables -/

def Pc.refs : Pc → List Nat
  | .check => []
  | .incr done _ => done
  | .giveUp work => work.map Prod.snd

/-- The references that a variable holds, or the thread that works on it. -/
def Var.refs : Var I S → List Nat
  | .idle none => []
  | .idle (some r) => [r.p]
  | .busy t => t.root.p :: t.pc.refs
  | .dying work => work.map Prod.snd

/-- References to `x` from all variables. -/
def outs (vs : List (Var I S)) (x : Nat) : Nat := (vs.map (fun v => v.refs.count x)).sum

theorem outs_append (vs : List (Var I S)) (v : Var I S) (x : Nat) : outs (vs ++ [v]) x = outs vs x + v.refs.count x := by
  simp [outs]

theorem outs_set {vs : List (Var I S)} {i : Nat} {v : Var I S} (h : vs[i]? = some v) (v' : Var I S) (x : Nat) :
    outs (vs.set i v') x + v.refs.count x = outs vs x + v'.refs.count x := by
  induction vs generalizing i with
  | nil => simp at h
  | cons a vs ih =>
    cases i with
    | zero =>
      simp only [List.getElem?_cons_zero, Option.some.injEq] at h
      subst h
      simp only [outs, List.set_cons_zero, List.map_cons, List.sum_cons]
      omega
    | succ i =>
      simp only [List.getElem?_cons_succ] at h
      have := ih h
      simp only [outs, List.set_cons_succ, List.map_cons, List.sum_cons] at this ⊢
      omega

/-- References from the other variables. -/
def rest (vs : List (Var I S)) (i : Nat) (x : Nat) : Nat := outs (vs.set i (.dying [])) x

theorem outs_eq {vs : List (Var I S)} {i : Nat} {v : Var I S} (h : vs[i]? = some v) : outs vs = fun x => v.refs.count x + rest vs i x := by
  funext x
  have := outs_set h (.dying []) x
  rw [show (Var.dying ([] : List (Nat × Nat)) : Var I S).refs.count x = 0 from rfl] at this
  unfold rest
  omega

theorem outs_eq' {vs : List (Var I S)} {i : Nat} {v : Var I S} (h : vs[i]? = some v) (v' : Var I S) :
    outs (vs.set i v') = fun x => v'.refs.count x + rest vs i x := by
  funext x
  have h1 := outs_set h v' x
  have h2 := congrFun (outs_eq h) x
  omega

theorem outs_one {vs : List (Var I S)} {j : Nat} {v : Var I S} (h : vs[j]? = some v) (x : Nat) : v.refs.count x ≤ outs vs x := by
  rw [congrFun (outs_eq h) x]; omega

theorem rest_other {vs : List (Var I S)} {i j : Nat} {v : Var I S} (h : vs[j]? = some v) (hne : j ≠ i) (x : Nat) :
    v.refs.count x ≤ rest vs i x :=
  outs_one (vs := vs.set i (.dying [])) (j := j) (by rw [List.getElem?_set_ne (Ne.symm hne)]; exact h) x

/-! ## Giving up references -/

/-- The heights of nodes are as expected. -/
def Heights (H : Heap I S) (work : List (Nat × Nat)) : Prop := ∀ e ∈ work, ∃ nd, H.mem e.2 = some nd ∧ nd.height = e.1

theorem giveUp_spec {H : Heap I S} {oth : Nat → Nat} {w : Nat × Nat} {work : List (Nat × Nat)}
    (hi : Inv H (fun x => ((w :: work).map Prod.snd).count x + oth x)) (hh : Heights H (w :: work)) :
    ∃ H' work', giveUp H (w :: work) = .ok (H', work') ∧ Inv H' (fun x => (work'.map Prod.snd).count x + oth x) ∧ Heights H' work' ∧
      Effect H H' (fun x => ((w :: work).map Prod.snd).count x) oth := by
  obtain ⟨h, q⟩ := w
  obtain ⟨nd, hm, hht⟩ := hh (h, q) (by simp)
  simp only at hm hht
  have ho : ∀ x, ((work.map Prod.snd).count x + oth x) + (if x = q then 1 else 0) = (((h, q) :: work).map Prod.snd).count x + oth x := by
    intro x
    simp only [List.map_cons, List.count_cons]
    by_cases hx : x = q
    · subst hx; simp; omega
    · simp [hx, Ne.symm hx]
  have hown : 0 < (((h, q) :: work).map Prod.snd).count q := by simp
  simp only [giveUp, get_ok.2 hm, R.bind_ok]
  by_cases hc : nd.count = 1
  · simp only [hc, if_true]
    obtain ⟨k1, k2⟩ := drop_last (out' := fun x => (work.map Prod.snd).count x + oth x) hi hm hc ho
    have hother : ∀ x, x ≠ q → (H.free q).mem x = H.mem x := fun x hx => by simp [Heap.free, hx]
    have hq0 : (work.map Prod.snd).count q + oth q = 0 := by
      have e1 := hi.cnt q
      have e2 := ho q
      rw [cnt_some hm, hc] at e1
      simp only [if_true] at e2
      omega
    have heff : Effect H (H.free q) (fun x => (((h, q) :: work).map Prod.snd).count x) oth := by
      intro x n hx
      by_cases hxq : x = q
      · subst hxq
        refine .inr ⟨⟨x, hown, .here⟩, .inr (fun p hp => ?_)⟩
        refine not_rch hi hm hc (by omega) ?_
        rintro rfl
        omega
      · exact .inl (by rw [hother x hxq]; exact hx)
    have hold : Heights (H.free q) work := by
      intro e he
      obtain ⟨n, h1, h2⟩ := hh e (by simp [he])
      refine ⟨n, ?_, h2⟩
      rw [hother]
      · exact h1
      · intro hq
        have : 0 < (work.map Prod.snd).count q := List.count_pos_iff.2 (List.mem_map.2 ⟨e, he, hq⟩)
        omega
    cases h with
    | zero =>
      refine ⟨_, _, rfl, ?_, hold, heff⟩
      have e : (fun x => ((work.map Prod.snd).count x + oth x) + (refsOf (some nd)).count x) = fun x => (work.map Prod.snd).count x + oth x := by
        funext x; simp [refsOf, hht]
      rw [e] at k1
      exact k1
    | succ h =>
      have f1 : refsOf (some nd) = nd.kids := by simp [refsOf, hht]
      refine ⟨_, _, rfl, ?_, ?_, heff⟩
      · have e : (fun x => ((work.map Prod.snd).count x + oth x) + (refsOf (some nd)).count x) =
            fun x => ((nd.kids.map (fun k => (h, k)) ++ work).map Prod.snd).count x + oth x := by
          funext x
          have : (nd.kids.map (fun k => (h, k))).map Prod.snd = nd.kids := by simp
          rw [f1, List.map_append, List.count_append, this]; omega
        rw [e] at k1
        exact k1
      · intro e he
        rcases List.mem_append.1 he with he | he
        · obtain ⟨k, hk, rfl⟩ := List.mem_map.1 he
          obtain ⟨nk, h1, h2⟩ := hi.ht q nd hm k (by rw [f1]; exact hk)
          refine ⟨nk, ?_, by simp only; omega⟩
          simp only
          rw [hother]
          · exact h1
          · rintro rfl
            rw [hm] at h1; cases h1; omega
        · exact hold e he
  · have hpos := hi.pos q nd hm
    have hu : usub nd.count 1 = .ok (nd.count - 1) := by simp [usub]; omega
    simp only [hc, if_false, hu, R.bind_ok, R.pure_eq]
    obtain ⟨k1, k2⟩ := drop_shared (out' := fun x => (work.map Prod.snd).count x + oth x) hi hm hc ho
    have hself : (H.put q { nd with count := nd.count - 1 }).mem q = some { nd with count := nd.count - 1 } := by simp [Heap.put]
    have hother : ∀ x, x ≠ q → (H.put q { nd with count := nd.count - 1 }).mem x = H.mem x := fun x hx => by simp [Heap.put, hx]
    refine ⟨_, _, rfl, k1, ?_, ?_⟩
    · intro e he
      obtain ⟨n, h1, h2⟩ := hh e (by simp [he])
      by_cases hx : e.2 = q
      · rw [hx] at h1 ⊢
        rw [hm] at h1; cases h1
        exact ⟨_, hself, h2⟩
      · exact ⟨n, by rw [hother _ hx]; exact h1, h2⟩
    · intro x n hx
      by_cases hxq : x = q
      · subst hxq
        rw [hm] at hx; cases hx
        exact .inr ⟨⟨x, hown, .here⟩, .inl ⟨_, hself, ⟨rfl, rfl, rfl, rfl⟩⟩⟩
      · exact .inl (by rw [hother x hxq]; exact hx)

end Sherman.Cow
