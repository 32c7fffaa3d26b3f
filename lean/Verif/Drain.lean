import Verif.SliceRefProps
/-!
# `Drain` (C37)

src/tree/drain.rs, src/tree/mod.rs:614-646.  In this commit the iterator is a stub: what it does is modelled here, and compared with what
the documentation says.
-/
namespace Sherman
variable {I S : Type}

/-- `struct Drain`; src/tree/drain.rs:21-30.  `initial_cursor` is not modelled (it is never read). -/
structure Drain (I S : Type) where
  range : I × I
  root : Option (Root I S)

/-- `drain`, `drain_with_cursor` and `Drain::new`: the whole root is moved out of the tree; src/tree/drain.rs:36-50,
src/tree/mod.rs:627-645.  Returns the iterator and what is left in the tree. -/
def RleTree.drain (t : RleTree I S) (range : I × I) : Drain I S × RleTree I S := (⟨range, t.root⟩, ⟨none⟩)

/-- `Drain::next`; src/tree/drain.rs:60-62. -/
def Drain.next (_ : Drain I S) : R (Option ((I × I) × S) × Drain I S) := .error (.todo "Drain::next")

/-- `Drain::next_back`; src/tree/drain.rs:72-74. -/
def Drain.nextBack (_ : Drain I S) : R (Option ((I × I) × S) × Drain I S) := .error (.todo "Drain::next_back")

/-- Dropping a `Drain`.  There is no `Drop` for it, so its fields are dropped: the handle of the root is `ManuallyDrop`
(src/tree/mod.rs:165), so the nodes are leaked, and the tree stays as `Drain::new` left it.  Returns the tree and the slices that
are never destroyed.  (For trees with slice references see `Sys.drainAndDrop`.) -/
def Drain.drop (d : Drain I S) (t : RleTree I S) : RleTree I S × List S :=
  (t, match d.root with
    | none => []
    | some r => (cells r.tree).map (·.slice))

/-- The same on a tree with slice references: `refs_store` is a field of `Root` with a destructor (src/tree/slice_ref.rs:440-470). -/
def Sys.drainAndDrop (s : Sys I S) : R (Sys.Val I S) × Sys I S :=
  match s.st.tree.root with
  | none => (.ok .unit, s)
  | some _ =>
    match s.touch with
    | .error f => (.error f, { s with st := { s.st with tree := ⟨none⟩ } })
    | .ok () => Sys.storeDrop { s with st := { s.st with tree := ⟨none⟩ } }

variable {MAX max : Nat} {E : Env Nat S}

/-- C37: iterating over a `Drain`, from either end, always panics: nothing is ever yielded. -/
theorem drain_yields_nothing (t : RleTree I S) (range : I × I) :
    (t.drain range).1.next = .error (.todo "Drain::next") ∧ (t.drain range).1.nextBack = .error (.todo "Drain::next_back") :=
  ⟨rfl, rfl⟩

/-- C37: whatever the range, draining and dropping the `Drain` leaves an empty tree, and no slice of the old tree is destroyed. -/
theorem drain_empties (hE : E.ix = natIdx MAX) {t : RleTree Nat S} (ht : Reach MAX E t) (range : Nat × Nat) :
    (t.drain range).1.drop (t.drain range).2 = (⟨none⟩, t.runs.map (·.slice)) := by
  have hh := (ht.holds hE).2.1.places
  have := congrArg (List.map Prod.fst) hh
  simp only [List.map_map, Function.comp_def] at this
  rw [← this]
  obtain ⟨_ | r⟩ := t <;> rfl

/-- C37, as documented ("removes the range of values from the tree"): what remains has the size of the tree less that of the range.  This is
so exactly if the range is the whole tree; what is missing for the full claim is every other range, for which it is false. -/
theorem drain_size_partial (hE : E.ix = natIdx MAX) {t : RleTree Nat S} (ht : Reach MAX E t) {a b : Nat} (hab : a ≤ b) (hb : b ≤ t.size E) :
    ((t.drain (a, b)).1.drop (t.drain (a, b)).2).1.size E = t.size E - (b - a) ↔ a = 0 ∧ b = t.size E := by
  rw [drain_empties hE ht]
  have : RleTree.size E (⟨none⟩ : RleTree Nat S) = 0 := by simp [RleTree.size, hE, natIdx]
  rw [this]
  omega

/-- C37 is false: there are trees and ranges for which draining an empty range loses everything. -/
theorem drain_counterexample : ∃ (t : RleTree Nat Char), Reach 255 exEnv t ∧ t.runs ≠ [] ∧
    ((t.drain (3, 3)).1.drop (t.drain (3, 3)).2).1.runs = [] ∧ 3 ≤ t.size exEnv := by
  obtain ⟨t, _, h1, h2⟩ := exReach
  refine ⟨t, h1, ?_, ?_, ?_⟩
  · intro h; rw [h] at h2; simp at h2
  · rw [drain_empties rfl h1]; rfl
  · rw [(size_eq_total rfl h1).1]
    have := congrArg (fun l => (l.map Prod.fst).sum) h2
    simp only [List.map_map, Function.comp_def] at this
    show 3 ≤ (t.runs.map (·.size)).sum
    rw [this]
    decide

/-- C37, C28: dropping a `Drain` of a non-empty tree with slice references always panics (`unreachable!("invalid state")`), whether or not
slices are borrowed; nothing has been destroyed. -/
theorem drain_refs_panics (hE : E.ix = natIdx MAX) (h0 : RleTree.newEmpty E = .ok ⟨none⟩) {s : Sys Nat S} (h : Sys.Hist MAX max E s)
    (ho : s.owner = true) (hr : s.st.tree.root.isSome) :
    ∃ s', s.drainAndDrop = (.error (.unreachable "invalid state"), s') ∧ s'.st.tree = ⟨none⟩ ∧ s'.destroyed = 0 := by
  cases h.inv hE h0 with
  | empty _ _ _ ht => rw [ht] at hr; cases hr
  | alive ids hu ho hbs hL hlen hids =>
    obtain ⟨r, hr⟩ := Option.isSome_iff_exists.1 hr
    refine ⟨{ s with st := { s.st with tree := ⟨none⟩ } }, ?_, rfl, hu.fresh⟩
    unfold Sys.drainAndDrop
    simp only [hr, Sys.touch, hu.alloc, Sys.storeDrop, hbs, Sys.stateOf]
    by_cases hk : s.nbor = 0
    · simp only [hk, if_true, Sys.storeDropState]
    · simp only [hk, if_false, Sys.storeDropState]
  | window hu ho' => rw [ho] at ho'; cases ho'
  | gone ho' => rw [ho] at ho'; cases ho'

example : ∃ s : Sys Nat Char, Sys.Hist 255 1000 exRefEnv s ∧ s.owner = true ∧ s.st.tree.root.isSome := by
  obtain ⟨s, _, ⟨h1, h2, _, _, _, h6, _⟩, _⟩ := Sys.exSys
  exact ⟨s, h1, h2, h6⟩

end Sherman
