import Verif.SearchLemmas
/-!
# Where the runs of a tree are stored

A specification-level enumeration, in order, of the places in a tree, written without reference to any search.
-/
namespace Sherman

/-- A place in a tree: child indices from the root to the node, the node's address, the index in the node,
and the slice and reference id stored there. -/
structure Cell (S : Type) where
  path : List Nat
  ptr : Nat
  idx : Nat
  slice : S
  ref : Option Nat
  deriving DecidableEq, Repr

/-- The same place seen from the parent of whose children this is number `i`. -/
def Cell.under {S : Type} (i : Nat) (c : Cell S) : Cell S := { c with path := i :: c.path }

/-- The places of a node at address `ptr`, in order, given those of its children: child `i`, key `i`, child
`i + 1`, ... -/
def weave {I S : Type} (ptr : Nat) : Nat → List (List (Cell S)) → List (Key I S) → List (Cell S)
  | _, [], _ => []
  | i, c :: _, [] => c.map (Cell.under i)
  | i, c :: cs, k :: ks => c.map (Cell.under i) ++ ⟨[], ptr, i, k.slice, k.ref⟩ :: weave ptr (i + 1) cs ks

/-- The places of a tree in order. -/
def cells {I S : Type} : {h : Nat} → Tree I S h → List (Cell S)
  | 0, _ => []
  | _ + 1, n => weave n.ptr 0 (n.kids.map cells) n.keys

variable {S : Type}

/-- Places of items, child before key. -/
def cellsL {h : Nat} (p : Nat) : Nat → List (Item S (Tree Nat S h)) → List (Cell S)
  | _, [] => []
  | i, it :: r => (cells it.kid).map (Cell.under i) ++ ⟨[], p, i, it.slice, it.ref⟩ :: cellsL p (i + 1) r

/-- Places of items, key before child. -/
def cellsR {h : Nat} (p : Nat) : Nat → List (Item S (Tree Nat S h)) → List (Cell S)
  | _, [] => []
  | i, it :: r => ⟨[], p, i, it.slice, it.ref⟩ :: ((cells it.kid).map (Cell.under (i + 1)) ++ cellsR p (i + 1) r)

theorem weave_R {h : Nat} (p : Nat) (psr : List (Item S (Tree Nat S h))) (c : Tree Nat S h) (i o : Nat) :
    weave p i ((c :: kidsOf psr).map cells) (keysR szN o psr) =
      (cells c).map (Cell.under i) ++ cellsR p i psr := by
  induction psr generalizing c i o with
  | nil => simp [weave, cellsR]
  | cons it r ih =>
    have := ih it.kid (i + 1) (o + it.size + szN it.kid)
    simp only [List.map_cons, kidsOf_cons, keysR_cons, weave, cellsR] at this ⊢
    rw [this]

theorem weave_LR {h : Nat} (p : Nat) (psl psr : List (Item S (Tree Nat S h))) (c : Tree Nat S h) (i o o' : Nat) :
    weave p i ((kidsOf psl ++ c :: kidsOf psr).map cells) (keysL szN o psl ++ keysR szN o' psr) =
      cellsL p i psl ++ (cells c).map (Cell.under (i + psl.length)) ++ cellsR p (i + psl.length) psr := by
  induction psl generalizing i o with
  | nil => simpa [cellsL] using weave_R p psr c i o'
  | cons it r ih =>
    have := ih (i + 1) (o + szN it.kid + it.size)
    simp only [List.map_cons, kidsOf_cons, keysL_cons, List.cons_append, weave, cellsL, List.length_cons] at this ⊢
    rw [this]
    simp [Nat.add_assoc, Nat.add_comm 1]

theorem cells_mkG {h : Nat} (p : Nat) (psl psr : List (Item S (Tree Nat S h))) (c : Tree Nat S h) (sc : Nat) :
    cells (h := h + 1) (mkG szN p psl c sc psr : Node Nat S (Tree Nat S h)) =
      cellsL p 0 psl ++ (cells c).map (Cell.under psl.length) ++ cellsR p psl.length psr := by
  have := weave_LR p psl psr c 0 0 (tot szN psl + sc)
  simpa [cells, mkG] using this

theorem cells_length {M lo : Nat} : ∀ {h : Nat} {t : Tree Nat S h} {es : List (Ent S)}, Rep M lo t es →
    (cells t).length = es.length := by
  intro h
  induction h generalizing lo with
  | zero =>
    intro t es hr
    have hr : es = [] := hr
    subst hr; rfl
  | succ h ih =>
    intro t es hr
    obtain ⟨c, ec, psr, hn, hc, hi, rfl, _, _⟩ := hr
    rw [hn, cells_mkG]
    have key : ∀ (l : List (Item S (Tree Nat S h))) (i : Nat), RepItems M l →
        (cellsR (Node.ptr t) i l).length = (entsR l).length := by
      intro l
      induction l with
      | nil => intro i _; rfl
      | cons it l ihl =>
        intro i hl
        rw [RepItems.cons] at hl
        simp [cellsR, ihl (i + 1) hl.2, ih hl.1]
    simp [cellsL, key _ _ hi, ih hc]

theorem cellsL_length {M h p i : Nat} {l : List (Item S (Tree Nat S h))} (hl : RepItems M l) :
    (cellsL p i l).length = (entsL l).length := by
  induction l generalizing i with
  | nil => rfl
  | cons it l ih =>
    rw [RepItems.cons] at hl
    simp [cellsL, ih hl.2, cells_length hl.1]

/-- The slice and the reference at each place are those of the run. -/
theorem cells_map {M lo : Nat} : ∀ {h : Nat} {t : Tree Nat S h} {es : List (Ent S)}, Rep M lo t es →
    (cells t).map (fun c => (c.slice, c.ref)) = es.map (fun e => (e.slice, e.ref)) := by
  intro h
  induction h generalizing lo with
  | zero =>
    intro t es hr
    have hr : es = [] := hr
    subst hr; rfl
  | succ h ih =>
    intro t es hr
    obtain ⟨c, ec, psr, hn, hc, hi, rfl, _, _⟩ := hr
    rw [hn, cells_mkG]
    have hu : ∀ (i : Nat) (l : List (Cell S)), (l.map (Cell.under i)).map (fun c => (c.slice, c.ref)) =
        l.map (fun c => (c.slice, c.ref)) := by
      intro i l; simp [Cell.under, Function.comp_def]
    have key : ∀ (l : List (Item S (Tree Nat S h))) (i : Nat), RepItems M l →
        (cellsR (Node.ptr t) i l).map (fun c => (c.slice, c.ref)) =
          (entsR l).map (fun e => (e.slice, e.ref)) := by
      intro l
      induction l with
      | nil => intro i _; rfl
      | cons it l ihl =>
        intro i hl
        rw [RepItems.cons] at hl
        simp only [cellsR, List.map_cons, List.map_append, hu, ih hl.1, ihl (i + 1) hl.2, entsR_cons]
        rfl
    simp only [cellsL, List.nil_append, List.map_append, hu, key _ _ hi, ih hc]

end Sherman
