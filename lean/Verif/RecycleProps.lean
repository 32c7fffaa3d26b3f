import Verif.Recycle
/-!
# C26: `RecycleVec` behaves like a reference-counted map with fresh ids

Specification: a partial map from ids to (value, number of outstanding ids).
-/
namespace Sherman.Recycle
variable {T : Type}

/-- Abstract state: which ids are outstanding, how many copies of each, and the stored value. -/
abbrev Spec (T : Type) := Nat → Option (Nat × T)

def Spec.empty : Spec T := fun _ => none
def Spec.set (s : Spec T) (i : Nat) (x : Option (Nat × T)) : Spec T :=
  fun j => if j = i then x else s j

/-- The caller may make this call: the id it passes is outstanding (and fewer than `rcMax` copies
of it exist when cloning). -/
def Allowed (rcMax : Nat) (s : Spec T) : Op T → Prop
  | .push _ => True
  | .recycle i => ∃ c v, s i = some (c, v)
  | .clone i => ∃ c v, s i = some (c, v) ∧ c < rcMax
  | .get i => ∃ c v, s i = some (c, v)
  | .replace i _ => ∃ c v, s i = some (c, v)

/-- Specified effect and result of a call. -/
inductive SpecStep (s : Spec T) : Op T → Out T → Spec T → Prop
  /-- `push` returns *some* id that is not outstanding -/
  | push (v i) (fresh : s i = none) : SpecStep s (.push v) (.id i) (s.set i (some (1, v)))
  | recycleLast (i v) (h : s i = some (1, v)) :
      SpecStep s (.recycle i) (.released (some v)) (s.set i none)
  | recycleMore (i c v) (h : s i = some (c + 2, v)) :
      SpecStep s (.recycle i) (.released none) (s.set i (some (c + 1, v)))
  | clone (i c v) (h : s i = some (c, v)) :
      SpecStep s (.clone i) (.id i) (s.set i (some (c + 1, v)))
  | get (i c v) (h : s i = some (c, v)) : SpecStep s (.get i) (.val v) s
  | replace (i c v w) (h : s i = some (c, v)) :
      SpecStep s (.replace i w) (.val v) (s.set i (some (c, w)))

/-- A history allowed by the specification, with its results. -/
inductive SpecRun (rcMax : Nat) : Spec T → List (Op T) → List (Out T) → Spec T → Prop
  | nil (s) : SpecRun rcMax s [] [] s
  | cons {s s' s'' op ops o os} : SpecStep s op o s' → SpecRun rcMax s' ops os s'' →
      SpecRun rcMax s (op :: ops) (o :: os) s''

/-- The free list starting at `h` visits exactly the indices `fl`. -/
def Chain (vals : List (Entry T)) : Option Nat → List Nat → Prop
  | h, [] => h = none
  | h, i :: fl => h = some i ∧ ∃ nx, vals[i]? = some (.link nx) ∧ Chain vals nx fl

/-- Representation invariant. -/
structure Inv (rv : RecycleVec T) (s : Spec T) : Prop where
  vals : ∀ i c v, rv.vals[i]? = some (.value c v) ↔ s i = some (c, v)
  pos : ∀ i c v, s i = some (c, v) → 0 < c
  free : ∃ fl : List Nat, fl.Nodup ∧ Chain rv.vals rv.headEmpty fl ∧
    ∀ i nx, rv.vals[i]? = some (.link nx) → i ∈ fl

theorem inv_empty : Inv (empty : RecycleVec T) Spec.empty :=
  ⟨by simp [empty, Spec.empty], by simp [Spec.empty], [], by simp [Chain, empty]⟩

theorem chain_set {vals : List (Entry T)} {h fl} (hc : Chain vals h fl) {i} (hi : i ∉ fl) (e) :
    Chain (vals.set i e) h fl := by
  induction fl generalizing h with
  | nil => exact hc
  | cons j fl ih =>
    obtain ⟨h1, nx, h2, h3⟩ := hc
    simp at hi
    refine ⟨h1, nx, ?_, ih h3 hi.2⟩
    rw [List.getElem?_set_ne (by omega)]; exact h2

theorem chain_append {vals : List (Entry T)} {h fl} (hc : Chain vals h fl) (es) :
    Chain (vals ++ es) h fl := by
  induction fl generalizing h with
  | nil => exact hc
  | cons j fl ih =>
    obtain ⟨h1, nx, h2, h3⟩ := hc
    refine ⟨h1, nx, ?_, ih h3⟩
    have : j < vals.length := by
      rcases Nat.lt_or_ge j vals.length with h | h
      · exact h
      · rw [List.getElem?_eq_none h] at h2; simp at h2
    rw [List.getElem?_append_left this]; exact h2

theorem chain_mem_link {vals : List (Entry T)} {h fl} (hc : Chain vals h fl) {i} (hi : i ∈ fl) :
    ∃ nx, vals[i]? = some (.link nx) := by
  induction fl generalizing h with
  | nil => simp at hi
  | cons j fl ih =>
    obtain ⟨h1, nx, h2, h3⟩ := hc
    rcases List.mem_cons.1 hi with rfl | hi
    · exact ⟨nx, h2⟩
    · exact ih h3 hi

private theorem lt_of_get {vals : List (Entry T)} {i e} (h : vals[i]? = some e) : i < vals.length := by
  rcases Nat.lt_or_ge i vals.length with h' | h'
  · exact h'
  · rw [List.getElem?_eq_none h'] at h; simp at h

theorem spec_none_of_link {rv : RecycleVec T} {s} (h : Inv rv s) {i nx}
    (hi : rv.vals[i]? = some (.link nx)) : s i = none := by
  cases hs : s i with
  | none => rfl
  | some p =>
    have := (h.vals i p.1 p.2).2 (by simpa using hs)
    rw [this] at hi; simp at hi

/-- Overwriting a slot that is not on the free list by a value keeps the invariant. -/
theorem inv_setValue {rv : RecycleVec T} {s} (h : Inv rv s) {i c v c' v'} (hs : s i = some (c, v))
    (hc' : 0 < c') :
    Inv { rv with vals := rv.vals.set i (.value c' v') } (s.set i (some (c', v'))) := by
  have hv := (h.vals i c v).2 hs
  have hlt := lt_of_get hv
  obtain ⟨fl, nd, ch, all⟩ := h.free
  have hi : i ∉ fl := fun hm => by
    obtain ⟨nx, hn⟩ := chain_mem_link ch hm
    rw [hv] at hn; simp at hn
  refine ⟨?_, ?_, fl, nd, chain_set ch hi _, ?_⟩
  · intro j c2 v2
    by_cases hj : j = i
    · subst hj; simp [List.getElem?_set_self hlt, Spec.set]
    · rw [List.getElem?_set_ne (by omega)]; simp [Spec.set, hj]; exact h.vals j c2 v2
  · intro j c2 v2
    by_cases hj : j = i
    · subst hj; simp [Spec.set]; intro a _; omega
    · simp [Spec.set, hj]; exact h.pos j c2 v2
  · intro j nx
    by_cases hj : j = i
    · subst hj; simp [List.getElem?_set_self hlt]
    · rw [List.getElem?_set_ne (by omega)]; exact all j nx

theorem push_step {rv : RecycleVec T} {s} (h : Inv rv s) (v : T) :
    ∃ i rv', push rv v = .ok (i, rv') ∧ s i = none ∧ Inv rv' (s.set i (some (1, v))) ∧
      ((∃ (j : Nat) (nx : Option Nat), rv.vals[j]? = some (Entry.link nx)) → rv'.vals.length = rv.vals.length) ∧
      rv'.vals.length ≤ rv.vals.length + 1 := by
  obtain ⟨fl, nd, ch, all⟩ := h.free
  cases fl with
  | nil =>
    simp only [Chain] at ch
    refine ⟨rv.vals.length, ⟨rv.vals ++ [.value 1 v], rv.headEmpty⟩, by simp [push, ch], ?_, ⟨?_, ?_, [], by simp, ch, ?_⟩, ?_,
      by simp⟩
    · cases hs : s rv.vals.length with
      | none => rfl
      | some p =>
        have := lt_of_get ((h.vals _ p.1 p.2).2 (by simpa using hs)); omega
    · intro j c2 v2
      by_cases hj : j = rv.vals.length
      · subst hj; simp [Spec.set]
      · simp only [Spec.set, hj, if_false, ← h.vals]
        rcases Nat.lt_or_ge j rv.vals.length with hlt | hge
        · rw [List.getElem?_append_left hlt]
        · rw [List.getElem?_eq_none (by simp; omega), List.getElem?_eq_none hge]
    · intro j c2 v2
      by_cases hj : j = rv.vals.length
      · subst hj; simp [Spec.set]; intro a _; omega
      · simp [Spec.set, hj]; exact h.pos j c2 v2
    · intro j nx hj
      rcases Nat.lt_trichotomy j rv.vals.length with hlt | rfl | hgt
      · simp only [List.getElem?_append_left hlt] at hj; exact all j nx hj
      · simp at hj
      · simp only [List.getElem?_eq_none (l := rv.vals ++ [Entry.value 1 v]) (i := j) (by simp; omega)] at hj; simp at hj
    · rintro ⟨j, nx, hj⟩; exact absurd (all j nx hj) (by simp)
  | cons i fl =>
    obtain ⟨h1, nx, h2, h3⟩ := ch
    have hlt := lt_of_get h2
    have hi : i ∉ fl := (List.nodup_cons.1 nd).1
    have hnone := spec_none_of_link h h2
    refine ⟨i, ⟨rv.vals.set i (.value 1 v), nx⟩, by simp only [push, h1, nextLink, h2, R.bind_ok, hlt, if_true]; rfl, hnone,
      ⟨?_, ?_, fl, (List.nodup_cons.1 nd).2, chain_set h3 hi _, ?_⟩, by simp, by simp⟩
    · intro j c2 v2
      by_cases hj : j = i
      · subst hj; simp [List.getElem?_set_self hlt, Spec.set]
      · rw [List.getElem?_set_ne (by omega)]; simp [Spec.set, hj]; exact h.vals j c2 v2
    · intro j c2 v2
      by_cases hj : j = i
      · subst hj; simp [Spec.set]; intro a _; omega
      · simp [Spec.set, hj]; exact h.pos j c2 v2
    · intro j nx' hj
      by_cases hji : j = i
      · subst hji; simp [List.getElem?_set_self hlt] at hj
      · rw [List.getElem?_set_ne (by omega)] at hj
        have := all j nx' hj
        simp [hji] at this; exact this

theorem recycleLast_step {rv : RecycleVec T} {s} (h : Inv rv s) {i v} (hs : s i = some (1, v)) :
    ∃ rv', recycle rv i = .ok (some v, rv') ∧ Inv rv' (s.set i none) ∧
      rv'.vals.length = rv.vals.length := by
  have hv := (h.vals i 1 v).2 hs
  have hlt := lt_of_get hv
  obtain ⟨fl, nd, ch, all⟩ := h.free
  have hi : i ∉ fl := fun hm => by
    obtain ⟨nx, hn⟩ := chain_mem_link ch hm
    rw [hv] at hn; simp at hn
  refine ⟨_, by simp [recycle, hv]; rfl, ⟨?_, ?_, i :: fl, List.nodup_cons.2 ⟨hi, nd⟩,
    ⟨rfl, rv.headEmpty, by simp [List.getElem?_set_self hlt], chain_set ch hi _⟩, ?_⟩, by simp⟩
  · intro j c2 v2
    by_cases hj : j = i
    · subst hj; simp [List.getElem?_set_self hlt, Spec.set]
    · rw [List.getElem?_set_ne (by omega)]; simp [Spec.set, hj]; exact h.vals j c2 v2
  · intro j c2 v2
    by_cases hj : j = i
    · subst hj; simp [Spec.set]
    · simp [Spec.set, hj]; exact h.pos j c2 v2
  · intro j nx hj
    by_cases hji : j = i
    · subst hji; simp
    · rw [List.getElem?_set_ne (by omega)] at hj
      exact List.mem_cons_of_mem _ (all j nx hj)

/-- **C26, one call.** An allowed call succeeds, returns what the specification says, and keeps
the invariant. -/
theorem step_refines {rv : RecycleVec T} {s} (rcMax : Nat) (h : Inv rv s) (op : Op T)
    (ha : Allowed rcMax s op) :
    ∃ o rv' s', step rcMax rv op = .ok (o, rv') ∧ SpecStep s op o s' ∧ Inv rv' s' := by
  cases op with
  | push v =>
    obtain ⟨i, rv', h1, h2, h3, _⟩ := push_step h v
    exact ⟨_, _, _, by simp [step, h1], .push v i h2, h3⟩
  | recycle i =>
    obtain ⟨c, v, hs⟩ := ha
    have hp := h.pos i c v hs
    have hv := (h.vals i c v).2 hs
    match c, hp with
    | 1, _ =>
      obtain ⟨rv', h1, h2, _⟩ := recycleLast_step h hs
      exact ⟨_, _, _, by simp [step, h1], .recycleLast i v hs, h2⟩
    | c + 2, _ =>
      refine ⟨_, _, _, ?_, .recycleMore i c v hs, inv_setValue h hs (c' := c + 1) (v' := v) (by omega)⟩
      simp [step, recycle, hv]
  | clone i =>
    obtain ⟨c, v, hs, hlt⟩ := ha
    have hv := (h.vals i c v).2 hs
    refine ⟨_, _, _, ?_, .clone i c v hs, inv_setValue h hs (c' := c + 1) (v' := v) (by omega)⟩
    simp [step, clone, hv, Nat.succ_le_of_lt hlt]
  | get i =>
    obtain ⟨c, v, hs⟩ := ha
    have hv := (h.vals i c v).2 hs
    exact ⟨_, _, _, by simp [step, get, hv], .get i c v hs, h⟩
  | replace i w =>
    obtain ⟨c, v, hs⟩ := ha
    have hv := (h.vals i c v).2 hs
    refine ⟨_, _, _, ?_, .replace i c v w hs,
      inv_setValue h hs (c' := c) (v' := w) (h.pos i c v hs)⟩
    simp [step, replace, hv]

/-- Every call of the history is allowed in the abstract state in which it is made, whichever
(fresh) ids earlier pushes returned. -/
def AllowedRun (rcMax : Nat) (s : Spec T) : List (Op T) → Prop
  | [] => True
  | op :: ops => Allowed rcMax s op ∧ ∀ o s', SpecStep s op o s' → AllowedRun rcMax s' ops

/-- **C26, whole histories.** Starting from an empty vector, every history of calls that only
uses outstanding ids runs without panic or UB and its results are exactly the ones allowed by the
specification. -/
theorem run_refines (rcMax : Nat) (ops : List (Op T)) (rv : RecycleVec T) (s : Spec T)
    (h : Inv rv s) (ha : AllowedRun rcMax s ops) :
    ∃ os rv' s', run rcMax rv ops = .ok (os, rv') ∧ SpecRun rcMax s ops os s' ∧ Inv rv' s' := by
  induction ops generalizing rv s with
  | nil => exact ⟨[], rv, s, rfl, .nil s, h⟩
  | cons op ops ih =>
    obtain ⟨ha1, ha2⟩ := ha
    obtain ⟨o, rv1, s1, e1, st, h1⟩ := step_refines rcMax h op ha1
    obtain ⟨os, rv2, s2, e2, r2, h2⟩ := ih rv1 s1 h1 (ha2 o s1 st)
    exact ⟨o :: os, rv2, s2, by simp [run, e1, e2], .cons st r2, h2⟩

theorem run_refines_empty (rcMax : Nat) (ops : List (Op T)) (ha : AllowedRun rcMax Spec.empty ops) :
    ∃ os rv' s', run rcMax empty ops = .ok (os, rv') ∧ SpecRun rcMax Spec.empty ops os s' ∧ Inv rv' s' :=
  run_refines rcMax ops empty Spec.empty inv_empty ha

/-- **C26.** A released slot is reused before the vector grows: in a reachable state with a free
slot, `push` does not grow the vector. -/
theorem push_reuses {rv : RecycleVec T} {s} (h : Inv rv s) (v : T)
    (hfree : ∃ i, i < rv.vals.length ∧ s i = none) :
    ∃ i rv', push rv v = .ok (i, rv') ∧ rv'.vals.length = rv.vals.length := by
  obtain ⟨i, rv', h1, _, _, h4, _⟩ := push_step h v
  refine ⟨i, rv', h1, h4 ?_⟩
  obtain ⟨j, hj, hn⟩ := hfree
  cases hv : rv.vals[j]? with
  | none => rw [List.getElem?_eq_none_iff] at hv; omega
  | some e =>
    cases e with
    | link nx => exact ⟨j, nx, hv⟩
    | value c w => rw [(h.vals j c w).1 hv] at hn; simp at hn

/-- Non-vacuity: push, clone, recycle, recycle, push is an allowed history. -/
example : ∃ os rv, run 10 (empty : RecycleVec Nat)
    [.push 7, .clone 0, .recycle 0, .recycle 0, .push 8] = .ok (os, rv) ∧ rv.vals.length = 1 :=
  ⟨_, _, rfl, rfl⟩

example : AllowedRun 10 (Spec.empty : Spec Nat) [.push 7, .push 8] :=
  ⟨trivial, fun _ _ _ => ⟨trivial, fun _ _ _ => trivial⟩⟩

end Sherman.Recycle
