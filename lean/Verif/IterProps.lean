import Mathlib.Data.List.Induction
import Verif.IterSim
import Verif.RangeProps
import Verif.RefProps
import Verif.TreeProps2
/-!
# C13, C14, C15: iteration
-/
namespace Sherman
variable {S : Type} {MAX rcMax : Nat} {E : Env Nat S}

/-! ## Specification -/

/-- All runs of a tree with their ranges and places. -/
def RleTree.entries (t : RleTree Nat S) : List (Entry Nat S) := entriesFrom 0 t.places t.runs

/-- Some position of the entry is in the range. -/
def touches (r : Range.Rng Nat) (x : Entry Nat S) : Bool :=
  (List.range x.stop).any fun q => decide (x.start ≤ q) && Range.contains r q

/-- What iteration over a range is to yield. -/
def expected (t : RleTree Nat S) (r : Range.Rng Nat) : List (Entry Nat S) := t.entries.filter (touches r)

/-- The ranges that may be iterated over in a tree of a given size: they do not start after they end, they start before the
end of the tree and they do not end after it.  With an excluded end, starting at the end counts as after it. -/
def ValidRange (size : Nat) (r : Range.Rng Nat) : Prop :=
  (match r.start, r.stop with
    | .included x, .included y => x ≤ y
    | .included x, .excluded y => x < y
    | _, _ => True) ∧
  (match r.start with
    | .included x => x < size
    | .unbounded => True) ∧
  (match r.stop with
    | .included y => y < size
    | .excluded y => y ≤ size
    | .unbounded => True)

/-- A list consumed from both ends; `true` asks for an element from the back. -/
def runDeque {X : Type} (l : List X) : List Bool → List (Option X)
  | [] => []
  | false :: ops => l.head? :: runDeque l.tail ops
  | true :: ops => l.getLast? :: runDeque l.dropLast ops

/-- `next` and `next_back` as told. -/
def runIter (ix : IdxOps Nat) (it : Iter Nat S) : List Bool → R (List (Option (Entry Nat S)))
  | [] => pure []
  | false :: ops => do
    let (x, it) ← it.next ix
    let xs ← runIter ix it ops
    pure (x :: xs)
  | true :: ops => do
    let (x, it) ← it.nextBack ix
    let xs ← runIter ix it ops
    pure (x :: xs)

/-! ## Lists -/

theorem entriesFrom_mem {o : Nat} {cs : List (Cell S)} {es : List (Ent S)} {x : Entry Nat S} (h : x ∈ entriesFrom o cs es) :
    o ≤ x.start ∧ x.stop ≤ o + total es := by
  induction es generalizing o cs with
  | nil => cases cs <;> simp [entriesFrom] at h
  | cons e es ih =>
    cases cs with
    | nil => simp [entriesFrom] at h
    | cons c cs =>
      simp only [entriesFrom, List.mem_cons] at h
      rcases h with rfl | h
      · simp
      · have := ih h
        simp; omega

theorem touches_iff {r : Range.Rng Nat} {x : Entry Nat S} :
    touches r x = true ↔ ∃ q, x.start ≤ q ∧ q < x.stop ∧ Range.contains r q = true := by
  simp only [touches, List.any_eq_true, List.mem_range, Bool.and_eq_true, decide_eq_true_eq]
  constructor
  · rintro ⟨q, h1, h2, h3⟩; exact ⟨q, h2, h1, h3⟩
  · rintro ⟨q, h1, h2, h3⟩; exact ⟨q, h2, h1, h3⟩

/-- A run of size `s` at `p` has a position from `start` to the end bound. -/
def InWindow (excl : Bool) (start t : Nat) (q : Nat) : Prop := start ≤ q ∧ (if excl then q < t else q ≤ t)

theorem Window.filter {root : List (Cell S)} {es P W Z : List (Ent S)} {excl : Bool} {start t : Nat} (hes : es = P ++ W ++ Z)
    (hp : Pos es) (hl : root.length = es.length) (hw : Window excl start t P W) (hst : if excl then start < t else start ≤ t)
    {f : Entry Nat S → Bool}
    (hf : ∀ x ∈ entriesFrom 0 root es, (f x = true ↔ ∃ q, x.start ≤ q ∧ q < x.stop ∧ InWindow excl start t q)) :
    (entriesFrom 0 root es).filter f = seg root P W := by
  have h0 : entriesFrom 0 root es = seg root [] es := by simp [seg]
  have hsplit : seg root [] es = seg root [] P ++ seg root P W ++ seg root (P ++ W) Z := by
    rw [hes, List.append_assoc, seg_append (by rw [hl, hes]; simp), List.append_assoc]
    congr 1
    rw [List.nil_append, seg_append (by rw [hl, hes]; simp)]
  rw [h0, hsplit] at hf ⊢
  rw [hes] at hp
  obtain ⟨⟨w, W1, hW1, hh1⟩, W2, l, hW2, hh2⟩ := hw
  rw [List.filter_append, List.filter_append]
  have e1 : (seg root [] P).filter f = [] := by
    rw [List.filter_eq_nil_iff]
    intro x hx hfx
    obtain ⟨q, q1, q2, q3, q4⟩ := (hf x (by simp [hx])).1 hfx
    obtain ⟨X1, e, X2, rfl, x1, x2⟩ := mem_seg hx
    simp only [Hits, Bool.false_eq_true, if_false] at hh1
    simp at x1 hh1
    omega
  have e2 : (seg root P W).filter f = seg root P W := by
    rw [List.filter_eq_self]
    intro x hx
    refine (hf x (by simp [hx])).2 ?_
    obtain ⟨X1, e, X2, hX, x1, x2⟩ := mem_seg hx
    have he : 0 < e.size := hp e (by rw [hX]; simp)
    refine ⟨max x.start start, by omega, ?_, by omega, ?_⟩
    · cases X1 with
      | nil =>
        rw [hX] at hW1
        simp only [List.nil_append, List.cons.injEq] at hW1
        obtain ⟨rfl, _⟩ := hW1
        simp only [Hits, Bool.false_eq_true, if_false] at hh1
        simp at x1
        omega
      | cons y X1 =>
        rw [hX] at hW1
        simp only [List.cons_append, List.cons.injEq] at hW1
        obtain ⟨rfl, _⟩ := hW1
        simp only [Hits, Bool.false_eq_true, if_false] at hh1
        simp at x1
        omega
    · have hend : if excl then x.start < t else x.start ≤ t := by
        rcases List.eq_nil_or_concat X2 with rfl | ⟨X2, y, rfl⟩
        · rw [hX] at hW2
          obtain ⟨rfl, h2⟩ := List.append_inj' hW2 rfl
          simp only [List.cons.injEq, and_true] at h2
          subst h2
          unfold Hits at hh2
          simp at hh2
          split <;> simp_all <;> omega
        · rw [List.concat_eq_append] at hX
          have : X1 ++ e :: X2 ++ [y] = W2 ++ [l] := by rw [← hW2, hX]; simp
          obtain ⟨rfl, h2⟩ := List.append_inj' this rfl
          unfold Hits at hh2
          simp at hh2
          split <;> simp_all <;> omega
      cases excl <;> simp_all <;> omega
  have e3 : (seg root (P ++ W) Z).filter f = [] := by
    rw [List.filter_eq_nil_iff]
    intro x hx hfx
    obtain ⟨q, q1, q2, q3, q4⟩ := (hf x (by simp [hx])).1 hfx
    obtain ⟨X1, e, X2, rfl, x1, x2⟩ := mem_seg hx
    rw [hW2] at x1
    unfold Hits at hh2
    simp at x1 hh2
    cases excl <;> simp_all <;> omega
  rw [e1, e2, e3]; simp

theorem window_exists {excl : Bool} {es A B P Z : List (Ent S)} {e l : Ent S} {start t : Nat} (h1 : es = A ++ e :: B)
    (h2 : es = P ++ l :: Z) (hs : Hits false (total A) e.size start) (ht : Hits excl (total P) l.size t)
    (hst : if excl then start < t else start ≤ t) : ∃ W, es = A ++ W ++ Z ∧ Window excl start t A W := by
  rw [h1] at h2
  rcases List.append_eq_append_iff.mp h2 with ⟨a, ha, hb⟩ | ⟨a, ha, hb⟩
  · -- P = A ++ a
    cases a with
    | nil =>
      simp only [List.append_nil, List.nil_append, List.cons.injEq] at ha hb
      obtain ⟨rfl, rfl⟩ := hb
      subst ha
      exact ⟨[e], by simp [h1], ⟨e, [], rfl, hs⟩, [], e, rfl, by simpa using ht⟩
    | cons x a =>
      simp only [List.cons_append, List.cons.injEq] at hb
      obtain ⟨rfl, rfl⟩ := hb
      subst ha
      exact ⟨e :: a ++ [l], by simp [h1], ⟨e, a ++ [l], by simp, hs⟩, e :: a, l, by simp, by simpa using ht⟩
  · cases a with
    | nil =>
      simp only [List.append_nil, List.nil_append, List.cons.injEq] at ha hb
      obtain ⟨rfl, rfl⟩ := hb
      subst ha
      exact ⟨[l], by simp [h1], ⟨l, [], rfl, hs⟩, [], l, rfl, by simpa using ht⟩
    | cons x a =>
      simp only [List.cons_append, List.cons.injEq] at hb
      obtain ⟨rfl, rfl⟩ := hb
      subst ha
      exfalso
      simp only [Hits, Bool.false_eq_true, if_false] at hs
      unfold Hits at ht
      cases excl <;> simp_all <;> omega

theorem Sim.run {M H : Nat} {root : Tree Nat S (H + 1)} {es : List (Ent S)} {start t : Nat} {excl : Bool} (hM : 1 ≤ M)
    (hr : Rep M 1 root es) (hp : Pos es) (hb : total es ≤ MAX) (hd0 : ((cells root).map (fun c => (c.ptr, c.idx))).Nodup)
    (hs : start < total es) (ht : TargetIn excl t (total es)) (ops : List Bool) {it : Iter Nat S} {rem : List (Entry Nat S)}
    (h : Sim M root es start excl t it rem) : runIter (natIdx MAX) it ops = .ok (runDeque rem ops) := by
  induction ops generalizing it rem with
  | nil => rfl
  | cons op ops ih =>
    cases op with
    | false =>
      obtain ⟨it', h1, h2⟩ := h.next hM hr hp hb hd0 hs
      simp only [runIter, h1, R.bind_ok, ih h2, runDeque]; rfl
    | true =>
      obtain ⟨it', h1, h2⟩ := h.nextBack hM hr hp hb hd0 ht
      simp only [runIter, h1, R.bind_ok, ih h2, runDeque]; rfl

theorem runDeque_nil {X : Type} (ops : List Bool) : runDeque ([] : List X) ops = ops.map fun _ => none := by
  induction ops with
  | nil => rfl
  | cons op ops ih => cases op <;> simp [runDeque, ih]

theorem runIter_none {ix : IdxOps Nat} {it : Iter Nat S} (h : it.state = none) (ops : List Bool) :
    runIter ix it ops = .ok (ops.map fun _ => none) := by
  induction ops with
  | nil => rfl
  | cons op ops ih =>
    cases op <;> simp only [runIter, Iter.next, Iter.nextBack, h, R.pure_eq, R.bind_ok, ih] <;> rfl

/-! ## Construction -/

/-- Start and end of the iterator made for a range. -/
def rngStart (r : Range.Rng Nat) : Nat := match r.start with | .included i => i | .unbounded => 0
def rngExcl (r : Range.Rng Nat) : Bool := match r.stop with | .included _ => false | _ => true
def rngEnd (size : Nat) (r : Range.Rng Nat) : Nat := match r.stop with | .included i => i | .excluded i => i | .unbounded => size

instance (size : Nat) (r : Range.Rng Nat) : Decidable (ValidRange size r) := by
  unfold ValidRange
  obtain ⟨s, e⟩ := r
  cases s <;> cases e <;> simp only <;> infer_instance

/-- The iterator made for a valid range. -/
theorem iterNew_valid {size : Nat} {r : Range.Rng Nat} (h : ValidRange size r) (cursor : List Nat) (root : Option (Root Nat S)) :
    Iter.new (natIdx MAX) r size cursor root = .ok ⟨rngStart r, mkBound (rngExcl r) (rngEnd size r),
      (if (rngExcl r = true ∧ rngEnd size r ≤ rngStart r) then none else root).map
        fun r => ⟨r.h, r.tree, some cursor, none, none⟩⟩ := by
  obtain ⟨s, e⟩ := r
  obtain ⟨h1, h2, h3⟩ := h
  cases s <;> cases e <;>
    simp only [Iter.new, rngStart, rngExcl, rngEnd, mkBound, Range.startsAfterEnd, Range.overlapsNaive, Range.isEmptyNaive,
      Range.startPastEnd, Range.endBeforeStart, Range.ofRangeFrom] at * <;>
    simp [natIdx, IdxOps.lt, check, Nat.compare_eq_lt, *]
  rw [if_neg (by omega)]

theorem iterNew_invalid {size : Nat} {r : Range.Rng Nat} (h : ¬ ValidRange size r) (cursor : List Nat)
    (root : Option (Root Nat S)) : ∃ m, Iter.new (natIdx MAX) r size cursor root = .error (.panic m) := by
  obtain ⟨s, e⟩ := r
  have key : ∀ (a b c : Bool) (m1 m2 m3 : String) (k : R (Iter Nat S)), (a && b && c) = false →
      ∃ m, (check a m1).bind (fun _ => (check b m2).bind fun _ => (check c m3).bind fun _ => k) = .error (.panic m) := by
    intro a b c m1 m2 m3 k hk
    cases a
    · exact ⟨m1, rfl⟩
    · cases b
      · exact ⟨m2, rfl⟩
      · cases c
        · exact ⟨m3, rfl⟩
        · simp at hk
  refine key _ _ _ _ _ _ _ ?_
  rw [Bool.eq_false_iff]
  intro hk
  apply h
  cases s <;> cases e <;>
    simp [ValidRange, Range.startsAfterEnd, Range.overlapsNaive, Range.isEmptyNaive, Range.startPastEnd, Range.endBeforeStart,
      Range.ofRangeFrom, natIdx, IdxOps.lt, Nat.compare_eq_lt] at hk ⊢ <;> omega

theorem contains_window {size : Nat} {r : Range.Rng Nat} {q : Nat} (hq : q < size) :
    Range.contains r q = true ↔ InWindow (rngExcl r) (rngStart r) (rngEnd size r) q := by
  obtain ⟨s, e⟩ := r
  cases s <;> cases e <;> simp [Range.contains, InWindow, rngExcl, rngStart, rngEnd, hq]

/-! ## C13, C14, C15 -/

theorem iter_deque_reach (hE : E.ix = natIdx MAX) {t : RleTree Nat S} (ht : Reach MAX E t) (hn : t.P.Nodup)
    (cursor : List Nat) {r : Range.Rng Nat} (hv : ValidRange (t.size E) r) :
    ∃ it, t.iter E cursor r = .ok it ∧ ∀ ops, runIter E.ix it ops = .ok (runDeque (expected t r) ops) := by
  obtain ⟨⟨hM, hM'⟩, hh, hb⟩ := ht.holds hE
  have hsize := hh.size hE
  have hnd := places_nodup hn
  have hnew := iterNew_valid (MAX := MAX) hv cursor t.root
  refine ⟨_, by unfold RleTree.iter; rw [hE]; exact hnew, ?_⟩
  intro ops
  rw [hE]
  rw [hsize] at hv ⊢
  obtain ⟨root⟩ := t
  cases root with
  | none =>
    have : expected (⟨none⟩ : RleTree Nat S) r = [] := rfl
    rw [this, runDeque_nil]
    exact runIter_none (by simp) ops
  | some root =>
    obtain ⟨hp, hr, hlen⟩ := hh
    have hcl := cells_length hr
    have hmem : ∀ x ∈ entriesFrom 0 (cells root.tree) (RleTree.runs ⟨some root⟩), (touches r x = true ↔
        ∃ q, x.start ≤ q ∧ q < x.stop ∧ InWindow (rngExcl r) (rngStart r) (rngEnd (total (RleTree.runs ⟨some root⟩)) r) q) := by
      intro x hx
      have := entriesFrom_mem hx
      rw [touches_iff]
      constructor
      · rintro ⟨q, q1, q2, q3⟩
        exact ⟨q, q1, q2, (contains_window (by omega)).1 q3⟩
      · rintro ⟨q, q1, q2, q3⟩
        exact ⟨q, q1, q2, (contains_window (by omega)).2 q3⟩
    by_cases hemp : rngExcl r = true ∧ rngEnd (total (RleTree.runs ⟨some root⟩)) r ≤ rngStart r
    · have : expected (⟨some root⟩ : RleTree Nat S) r = [] := by
        unfold expected
        rw [List.filter_eq_nil_iff]
        intro x hx hf
        obtain ⟨q, q1, q2, q3, q4⟩ := (hmem x hx).1 hf
        rw [hemp.1] at q4
        simp at q4
        omega
      rw [this, runDeque_nil]
      exact runIter_none (by rw [if_pos hemp]; rfl) ops
    · generalize hes : RleTree.runs ⟨some root⟩ = es at *
      have htot : 0 < total es := by
        cases es with
        | nil =>
          obtain ⟨c, ec, psr, _, _, _, h4, h5, _⟩ := hr
          cases psr with
          | nil => simp at h5
          | cons it psr => simp [entsR] at h4
        | cons e es => have := hp e (by simp); simp; omega
      have hst : if rngExcl r then rngStart r < rngEnd (total es) r else rngStart r ≤ rngEnd (total es) r := by
        obtain ⟨s, e⟩ := r
        obtain ⟨v1, v2, v3⟩ := hv
        cases s <;> cases e <;> simp [rngExcl, rngStart, rngEnd] at * <;> omega
      have hs : rngStart r < total es := by
        obtain ⟨s, e⟩ := r
        obtain ⟨v1, v2, v3⟩ := hv
        cases s <;> simp [rngStart] at * <;> omega
      have ht' : TargetIn (rngExcl r) (rngEnd (total es) r) (total es) := by
        obtain ⟨s, e⟩ := r
        obtain ⟨v1, v2, v3⟩ := hv
        cases s <;> cases e <;> simp [TargetIn, rngExcl, rngStart, rngEnd] at * <;> omega
      obtain ⟨_, A, e, B, _, _, a1, a2⟩ := makeStack_spec (MAX := MAX) hM hr hp hb none false (t := rngStart r)
        (by simpa [TargetIn] using hs)
      obtain ⟨_, P, l, Z, _, _, b1, b2⟩ := makeStack_spec (MAX := MAX) hM hr hp hb none (rngExcl r) ht'
      obtain ⟨W, w1, w2⟩ := window_exists a1 b1 a2 b2 hst
      have hexp : expected (⟨some root⟩ : RleTree Nat S) r = seg (cells root.tree) A W := by
        unfold expected RleTree.entries
        rw [hes]
        exact w2.filter w1 hp hcl hst hmem
      rw [hexp]
      refine Sim.run hM hr hp hb hnd hs ht' ops ⟨rfl, rfl, .inr ?_⟩
      refine ⟨some cursor, none, none, A, [], W, [], Z, ?_, by simp [w1], by simpa using w2, by simp, .inl ⟨rfl, rfl⟩, .inl ⟨rfl, rfl⟩⟩
      rw [if_neg hemp]; rfl

/-- C13, C14, C15: for every valid range and whatever cursor is passed, `iter` returns, and however `next` and `next_back` are
interleaved, and however often they are called, they never panic and yield what a double-ended queue of the runs touching
the range would. -/
theorem iter_deque (hE : E.ix = natIdx MAX) {st : RefTree Nat S} {ids : List Nat} (h : Live MAX rcMax E st ids)
    (cursor : List Nat) {r : Range.Rng Nat} (hv : ValidRange (st.tree.size E) r) :
    ∃ it, st.tree.iter E cursor r = .ok it ∧ ∀ ops, runIter E.ix it ops = .ok (runDeque (expected st.tree r) ops) :=
  iter_deque_reach hE (h.inv hE).reach (h.inv hE).own.addrs cursor hv

/-- C15: `iter` fails exactly on invalid ranges, by a panic. -/
theorem iter_panics_iff (hE : E.ix = natIdx MAX) (t : RleTree Nat S) (cursor : List Nat) (r : Range.Rng Nat) :
    (∃ f, t.iter E cursor r = .error f) ↔ ¬ ValidRange (t.size E) r := by
  constructor
  · rintro ⟨f, h⟩ hv
    unfold RleTree.iter at h
    rw [hE, iterNew_valid hv] at h
    cases h
  · intro hv
    obtain ⟨m, h⟩ := iterNew_invalid (MAX := MAX) hv cursor t.root
    exact ⟨.panic m, by unfold RleTree.iter; rw [hE]; exact h⟩

/-- C15: the failure is a panic. -/
theorem iter_failure_panics (hE : E.ix = natIdx MAX) (t : RleTree Nat S) (cursor : List Nat) (r : Range.Rng Nat) {f : Fault}
    (h : t.iter E cursor r = .error f) : ∃ m, f = .panic m := by
  obtain ⟨m, h'⟩ := iterNew_invalid (MAX := MAX) ((iter_panics_iff hE t cursor r).1 ⟨f, h⟩) cursor t.root
  unfold RleTree.iter at h
  rw [hE, h'] at h
  cases h
  exact ⟨m, rfl⟩

/-- C15: the range `..0` is valid and empty, whatever the tree. -/
theorem iter_to_zero (t : RleTree Nat S) (size : Nat) :
    ValidRange size (Range.ofRangeTo 0) ∧ expected t (Range.ofRangeTo 0) = [] := by
  refine ⟨by simp [ValidRange, Range.ofRangeTo], ?_⟩
  unfold expected
  rw [List.filter_eq_nil_iff]
  intro x _ hf
  obtain ⟨q, _, _, q3⟩ := touches_iff.1 hf
  simp [Range.contains, Range.ofRangeTo] at q3

theorem runDeque_forward {X : Type} (l : List X) (k : Nat) :
    runDeque l (List.replicate (l.length + k) false) = l.map some ++ List.replicate k none := by
  induction l with
  | nil => rw [runDeque_nil]; simp
  | cons x l ih =>
    rw [List.length_cons, show l.length + 1 + k = (l.length + k) + 1 by omega, List.replicate_succ]
    simp only [runDeque, List.head?_cons, List.tail_cons, ih]
    simp

theorem runDeque_backward {X : Type} (l : List X) (k : Nat) :
    runDeque l (List.replicate (l.length + k) true) = l.reverse.map some ++ List.replicate k none := by
  induction l using List.reverseRecOn with
  | nil => rw [runDeque_nil]; simp
  | append_singleton l x ih =>
    rw [List.length_append, show l.length + [x].length + k = (l.length + k) + 1 by simp; omega, List.replicate_succ]
    simp only [runDeque, List.getLast?_concat, List.dropLast_concat, ih]
    simp

/-- C13: `next` until `None` yields the runs touching the range, in order; then always `None`. -/
theorem iter_forward (hE : E.ix = natIdx MAX) {st : RefTree Nat S} {ids : List Nat} (h : Live MAX rcMax E st ids)
    (cursor : List Nat) {r : Range.Rng Nat} (hv : ValidRange (st.tree.size E) r) :
    ∃ it, st.tree.iter E cursor r = .ok it ∧ ∀ k, runIter E.ix it (List.replicate ((expected st.tree r).length + k) false) =
      .ok ((expected st.tree r).map some ++ List.replicate k none) := by
  obtain ⟨it, h1, h2⟩ := iter_deque hE h cursor hv
  exact ⟨it, h1, fun k => by rw [h2, runDeque_forward]⟩

/-- What the calls of one kind returned. -/
def yielded {X : Type} (back : Bool) (ops : List Bool) (outs : List (Option X)) : List X :=
  (ops.zip outs).filterMap fun p => if p.1 = back then p.2 else none

theorem runDeque_split {X : Type} (l : List X) (ops : List Bool) :
    ∃ m, l = yielded false ops (runDeque l ops) ++ m ++ (yielded true ops (runDeque l ops)).reverse ∧
      (none ∈ runDeque l ops → m = []) := by
  induction ops generalizing l with
  | nil => exact ⟨l, by simp [yielded, runDeque], by simp [runDeque]⟩
  | cons op ops ih =>
    cases op with
    | false =>
      cases l with
      | nil =>
        refine ⟨[], ?_, fun _ => rfl⟩
        obtain ⟨m, h1, _⟩ := ih []
        simp [yielded, runDeque] at h1 ⊢
        exact ⟨h1.1, h1.2.2⟩
      | cons x l =>
        obtain ⟨m, h1, h2⟩ := ih l
        refine ⟨m, ?_, ?_⟩
        · simp only [runDeque, List.head?_cons, List.tail_cons, yielded, List.zip_cons_cons, List.filterMap_cons, if_true,
            Bool.false_eq_true, if_false, List.cons_append, List.cons.injEq, true_and]
          exact h1
        · simp only [runDeque, List.head?_cons, List.tail_cons, List.mem_cons]
          rintro (h | h)
          · cases h
          · exact h2 h
    | true =>
      rcases List.eq_nil_or_concat l with rfl | ⟨l', x, rfl⟩
      · refine ⟨[], ?_, fun _ => rfl⟩
        obtain ⟨m, h1, _⟩ := ih []
        simp [yielded, runDeque] at h1 ⊢
        exact ⟨h1.1, h1.2.2⟩
      · rw [List.concat_eq_append]
        obtain ⟨m, h1, h2⟩ := ih l'
        refine ⟨m, ?_, ?_⟩
        · simp only [runDeque, List.getLast?_concat, List.dropLast_concat, yielded, List.zip_cons_cons, List.filterMap_cons,
            if_true, Bool.true_eq_false, if_false, List.reverse_cons, ← List.append_assoc]
          rw [List.append_left_inj]
          exact h1
        · simp only [runDeque, List.getLast?_concat, List.dropLast_concat, List.mem_cons]
          rintro (h | h)
          · cases h
          · exact h2 h

/-- C14: what `next` yields is a prefix and what `next_back` yields a reversed suffix of the runs touching the range, the two do
not overlap, and after a `None` nothing is missing. -/
theorem iter_split (hE : E.ix = natIdx MAX) {st : RefTree Nat S} {ids : List Nat} (h : Live MAX rcMax E st ids)
    (cursor : List Nat) {r : Range.Rng Nat} (hv : ValidRange (st.tree.size E) r) :
    ∃ it, st.tree.iter E cursor r = .ok it ∧ ∀ ops, ∃ outs m, runIter E.ix it ops = .ok outs ∧
      expected st.tree r = yielded false ops outs ++ m ++ (yielded true ops outs).reverse ∧ (none ∈ outs → m = []) := by
  obtain ⟨it, h1, h2⟩ := iter_deque hE h cursor hv
  refine ⟨it, h1, fun ops => ?_⟩
  obtain ⟨m, h3, h4⟩ := runDeque_split (expected st.tree r) ops
  exact ⟨_, m, h2 ops, h3, h4⟩

/-- C07: the cursor passed to `iter_with_cursor` makes no difference. -/
theorem iter_cursor_irrelevant (hE : E.ix = natIdx MAX) {st : RefTree Nat S} {ids : List Nat} (h : Live MAX rcMax E st ids)
    (c c' : List Nat) (r : Range.Rng Nat) (ops : List Bool) :
    (st.tree.iter E c r).bind (fun it => runIter E.ix it ops) = (st.tree.iter E c' r).bind fun it => runIter E.ix it ops := by
  by_cases hv : ValidRange (st.tree.size E) r
  · obtain ⟨it, h1, h2⟩ := iter_deque hE h c hv
    obtain ⟨it', h1', h2'⟩ := iter_deque hE h c' hv
    rw [h1, h1']
    simp only [Except.bind]
    rw [h2, h2']
  · have : ∀ c c', Iter.new (natIdx MAX) r (st.tree.size E) c st.tree.root = Iter.new (natIdx MAX) r (st.tree.size E) c' st.tree.root := by
      intro c c'
      have key : ∀ (a b d : Bool) (m1 m2 m3 : String) (k k' : R (Iter Nat S)), (a && b && d) = false →
          (check a m1).bind (fun _ => (check b m2).bind fun _ => (check d m3).bind fun _ => k) =
          (check a m1).bind (fun _ => (check b m2).bind fun _ => (check d m3).bind fun _ => k') := by
        intro a b d m1 m2 m3 k k' hk
        cases a
        · rfl
        · cases b
          · rfl
          · cases d
            · rfl
            · simp at hk
      refine key _ _ _ _ _ _ _ _ ?_
      rw [Bool.eq_false_iff]
      intro hk
      apply hv
      obtain ⟨s, e⟩ := r
      cases s <;> cases e <;>
        simp [ValidRange, Range.startsAfterEnd, Range.overlapsNaive, Range.isEmptyNaive, Range.startPastEnd,
          Range.endBeforeStart, Range.ofRangeFrom, natIdx, IdxOps.lt, Nat.compare_eq_lt] at hk ⊢ <;> omega
    unfold RleTree.iter
    rw [hE, this c c']

/-- C13: the entries list every run once, in order, with its range; they cover the tree without gaps. -/
theorem entries_runs (hE : E.ix = natIdx MAX) {st : RefTree Nat S} {ids : List Nat} (h : Live MAX rcMax E st ids) :
    st.tree.entries.map (fun x => (x.stop - x.start, x.slice, x.ref)) = st.tree.runs.map (fun e => (e.size, e.slice, e.ref)) ∧
      (∀ i x, st.tree.entries[i]? = some x → x.start = total (st.tree.runs.take i)) ∧
      st.tree.entries.map (fun x => (x.ptr, x.idx)) = st.tree.places.map Cell.at := by
  have hh := ((h.inv hE).reach.holds hE).2.1
  have hl : st.tree.places.length = st.tree.runs.length := by
    have := congrArg List.length hh.places
    simpa using this
  unfold RleTree.entries
  generalize st.tree.places = cs at hl
  generalize st.tree.runs = es at hl
  clear hh h hE
  have : ∀ o, (entriesFrom o cs es).map (fun x => (x.stop - x.start, x.slice, x.ref)) = es.map (fun e => (e.size, e.slice, e.ref)) ∧
      (∀ i x, (entriesFrom o cs es)[i]? = some x → x.start = o + total (es.take i)) ∧
      (entriesFrom o cs es).map (fun x => (x.ptr, x.idx)) = cs.map Cell.at := by
    induction es generalizing cs with
    | nil =>
      intro o
      cases cs with
      | nil => simp [entriesFrom]
      | cons c cs => simp at hl
    | cons e es ih =>
      intro o
      cases cs with
      | nil => simp at hl
      | cons c cs =>
        obtain ⟨i1, i2, i3⟩ := ih (cs := cs) (by simpa using hl) (o + e.size)
        refine ⟨by simp [entriesFrom, i1], ?_, by simp [entriesFrom, i3, Cell.at]⟩
        intro i x hx
        cases i with
        | zero => simp [entriesFrom] at hx; subst hx; simp
        | succ i =>
          simp only [entriesFrom, List.getElem?_cons_succ] at hx
          rw [i2 i x hx]; simp; omega
  simpa using this 0

end Sherman
