import Verif.NodeLemmas
/-!
# Specification: a tree as a list of runs

Independent of the tree model: only the `Slice` operations (`SliceOps`) and faults are used.
-/
namespace Sherman
variable {S : Type}

/-- Where position `t` is in a list of runs: the runs before it, the runs from it on, and how far inside the
first of the latter it is (0 at a boundary). -/
def cutAt : List (Ent S) → Nat → List (Ent S) × List (Ent S) × Nat
  | [], t => ([], [], t)
  | e :: es, t =>
    if t < e.size then ([], e :: es, t)
    else
      let (a, b, o) := cutAt es (t - e.size)
      (e :: a, b, o)

/-- Insertion of a run between `L` and `R`. First the run on the left is offered to join, then the one on
the right; a run that was joined keeps its reference.  Joining both is not implemented. -/
def specEdge (sl : SliceOps Nat S) (L R : List (Ent S)) (s : S) (size : Nat) :
    Except Fault (List (Ent S)) :=
  if sl.mayJoin = false then .ok (L ++ ⟨size, s, none⟩ :: R)
  else
    match L.getLast?, R with
    | none, [] => .ok [⟨size, s, none⟩]
    | some l, [] =>
      match sl.tryJoin l.slice s with
      | .inl x => .ok (L.dropLast ++ [⟨l.size + size, x, l.ref⟩])
      | .inr (a, b) => .ok (L.dropLast ++ [⟨l.size, a, l.ref⟩, ⟨size, b, none⟩])
    | none, r :: R =>
      match sl.tryJoin s r.slice with
      | .inl x => .ok (⟨size + r.size, x, r.ref⟩ :: R)
      | .inr (a, b) => .ok (⟨size, a, none⟩ :: ⟨r.size, b, r.ref⟩ :: R)
    | some l, r :: R =>
      match sl.tryJoin l.slice s with
      | .inl x =>
        match sl.tryJoin x r.slice with
        | .inl _ => .error (.todo "handle_join_deletion")
        | .inr (a, b) => .ok (L.dropLast ++ ⟨l.size + size, a, l.ref⟩ :: ⟨r.size, b, r.ref⟩ :: R)
      | .inr (a, s) =>
        match sl.tryJoin s r.slice with
        | .inl x => .ok (L.dropLast ++ ⟨l.size, a, l.ref⟩ :: ⟨size + r.size, x, r.ref⟩ :: R)
        | .inr (s, b) =>
          .ok (L.dropLast ++ ⟨l.size, a, l.ref⟩ :: ⟨size, s, none⟩ :: ⟨r.size, b, r.ref⟩ :: R)

/-- What replaces run `e` when a run is inserted `o` into it.  The left part keeps the reference. -/
def specSplit (sl : SliceOps Nat S) (e : Ent S) (o : Nat) (s : S) (size : Nat) : List (Ent S) :=
  let (l, r) := sl.splitAt e.slice o
  let rsize := e.size - o
  if sl.mayJoin = false then [⟨o, l, e.ref⟩, ⟨size, s, none⟩, ⟨rsize, r, none⟩]
  else
    match sl.tryJoin l s with
    | .inl x =>
      match sl.tryJoin x r with
      | .inl y => [⟨o + size + rsize, y, e.ref⟩]
      | .inr (x, r) => [⟨o + size, x, e.ref⟩, ⟨rsize, r, none⟩]
    | .inr (l, s) =>
      match sl.tryJoin s r with
      | .inl x => [⟨o, l, e.ref⟩, ⟨size + rsize, x, none⟩]
      | .inr (s, r) => [⟨o, l, e.ref⟩, ⟨size, s, none⟩, ⟨rsize, r, none⟩]

/-- Insertion of a run of `size > 0` at position `idx ≤ total es`. -/
def specInsert (sl : SliceOps Nat S) (es : List (Ent S)) (idx : Nat) (s : S) (size : Nat) :
    Except Fault (List (Ent S)) :=
  match cutAt es idx with
  | (L, R, 0) => specEdge sl L R s size
  | (L, e :: R, o + 1) => .ok (L ++ specSplit sl e (o + 1) s size ++ R)
  | (_, [], _ + 1) => .error (.panic "index out of bounds")

/-! ## `cutAt` -/

theorem cutAt_edge {L R : List (Ent S)} (hp : ∀ e ∈ L ++ R, 0 < e.size) :
    cutAt (L ++ R) (total L) = (L, R, 0) := by
  induction L with
  | nil =>
    cases R with
    | nil => rfl
    | cons e R =>
      have : 0 < e.size := hp e (by simp)
      simp [cutAt, this]
  | cons x L ih =>
    have h1 : ¬ x.size + total L < x.size := by omega
    have h2 : x.size + total L - x.size = total L := by omega
    simp only [List.cons_append, cutAt, total_cons, h1, if_false, h2]
    rw [ih (fun e he => hp e (by simp at he ⊢; exact .inr he))]

theorem cutAt_inside {L R : List (Ent S)} {e : Ent S} {o : Nat} (h : o < e.size) :
    cutAt (L ++ e :: R) (total L + o) = (L, e :: R, o) := by
  induction L with
  | nil => simp [cutAt, h]
  | cons x L ih =>
    have h1 : ¬ x.size + total L + o < x.size := by omega
    have h2 : x.size + total L + o - x.size = total L + o := by omega
    simp only [List.cons_append, cutAt, total_cons, h1, if_false, h2, ih]

/-- `cutAt` is characterised by where it cuts. -/
theorem cutAt_spec {es : List (Ent S)} {t : Nat} (ht : t ≤ total es) :
    ∃ L R o, cutAt es t = (L, R, o) ∧ es = L ++ R ∧ t = total L + o ∧
      ((R = [] ∧ o = 0) ∨ ∃ e R', R = e :: R' ∧ o < e.size) := by
  induction es generalizing t with
  | nil =>
    have : t = 0 := by simpa using ht
    subst this
    exact ⟨[], [], 0, rfl, rfl, rfl, .inl ⟨rfl, rfl⟩⟩
  | cons e es ih =>
    by_cases h : t < e.size
    · exact ⟨[], e :: es, t, by simp [cutAt, h], rfl, by simp, .inr ⟨e, es, rfl, h⟩⟩
    · obtain ⟨L, R, o, h1, h2, h3, h4⟩ := ih (t := t - e.size) (by simp at ht; omega)
      exact ⟨e :: L, R, o, by simp [cutAt, h, h1], by simp [h2], by clear h4; simp; omega, h4⟩

end Sherman
