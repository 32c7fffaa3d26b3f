import Verif.ConstProps
import Verif.CowIterProps
import Verif.LiveProps
/-!
# C59: a tree of constants is the run-length encoding of its elements

Whatever the history, the branching factor and the cursors: the runs that one sees are the maximal repetitions in the list of elements.
-/
namespace Sherman
variable {T : Type} [BEq T] [LawfulBEq T] {MAX M : Nat} {refs : Bool}

/-! ## Specification -/

/-- Run-length encoding of a list: maximal repetitions with their lengths.  Specification of the trees of src/lib.rs:96-112 -/
def rle : List T → List (Nat × T)
  | [] => []
  | x :: xs =>
    match rle xs with
    | [] => [(1, x)]
    | (n, y) :: r => if x == y then (n + 1, y) :: r else (1, x) :: (n, y) :: r

/-- Lengths turned into ranges, from a position on.  Specification of src/tree/entry.rs:20-30 -/
def segs : Nat → List (Nat × T) → List (Nat × Nat × T)
  | _, [] => []
  | o, (n, x) :: r => (o, o + n, x) :: segs (o + n) r

/-- The elements after a history, starting from `xs`: each operation puts `size` copies in at `idx`.  Specification of src/tree/mod.rs:677-680 -/
def putAll (xs : List T) (ops : List (Op T)) : List T :=
  ops.foldl (fun l o => l.take o.idx ++ List.replicate o.size o.slice ++ l.drop o.idx) xs

/-- The elements of a tree, read off its runs.  Specification of src/lib.rs:96-112 -/
def RleTree.items (t : RleTree Nat T) : List T := elements (fun n s => List.replicate n s) t.runs

/-! ## Run-length encodings -/

omit [LawfulBEq T] in
theorem rle_ne_nil (x : T) (xs : List T) : rle (x :: xs) ≠ [] := by
  simp only [rle]
  split
  · simp
  · split <;> simp

theorem rle_replicate {n : Nat} (hn : 0 < n) {s : T} {xs : List T} (h : ∀ p ∈ (rle xs).head?, (s == p.2) = false) :
    rle (List.replicate n s ++ xs) = (n, s) :: rle xs := by
  induction n with
  | zero => omega
  | succ n ih =>
    cases n with
    | zero =>
      simp only [Nat.zero_add, List.replicate_one, List.singleton_append, rle]
      split
      · rename_i e; rw [e]
      · rename_i m y r e
        rw [e] at h ⊢
        rw [h (m, y) (by simp)]
        simp
    | succ n =>
      rw [List.replicate_succ, List.cons_append, rle, ih (by omega)]
      simp

theorem rle_elements {es : List (Ent T)} (hp : Pos es) (hc : es.IsChain Ne') :
    rle (elements (fun n s => List.replicate n s) es) = es.map fun e => (e.size, e.slice) := by
  induction es with
  | nil => rfl
  | cons e es ih =>
    rw [List.isChain_cons] at hc
    have ih := ih (fun x hx => hp x (by simp [hx])) hc.2
    rw [elements_cons, rle_replicate (hp e (by simp)), ih, List.map_cons]
    intro p hpm
    rw [ih] at hpm
    cases es with
    | nil => simp at hpm
    | cons b es =>
      simp at hpm
      subst hpm
      exact hc.1 b (by simp)

/-- What the encoding is: its parts give back the list, none is empty, and neighbours differ. -/
theorem rle_spec (xs : List T) : (rle xs).flatMap (fun p => List.replicate p.1 p.2) = xs ∧ (∀ p ∈ rle xs, 0 < p.1) ∧
    (rle xs).IsChain fun a b => (a.2 == b.2) = false := by
  induction xs with
  | nil => exact ⟨rfl, by simp [rle], .nil⟩
  | cons x xs ih =>
    obtain ⟨i1, i2, i3⟩ := ih
    simp only [rle]
    split
    · rename_i e
      rw [e] at i1
      exact ⟨by simpa using i1, by simp, .singleton _⟩
    · rename_i n y r e
      rw [e] at i1 i2 i3
      split
      · rename_i hxy
        obtain rfl : x = y := by simpa using hxy
        refine ⟨?_, ?_, ?_⟩
        · rw [List.flatMap_cons] at i1 ⊢
          rw [← i1]
          simp [List.replicate_succ]
        · intro p hp
          rcases List.mem_cons.1 hp with rfl | hp
          · simp
          · exact i2 p (by simp [hp])
        · rw [List.isChain_cons] at i3 ⊢
          exact i3
      · rename_i hxy
        refine ⟨?_, ?_, ?_⟩
        · rw [List.flatMap_cons, i1]; simp
        · intro p hp
          rcases List.mem_cons.1 hp with rfl | hp
          · simp
          · exact i2 p hp
        · rw [List.isChain_cons]
          exact ⟨by intro p hp; simp at hp; subst hp; simpa using hxy, i3⟩

/-! ## Trees -/

/-- C59: the runs of a tree of constants are the run-length encoding of its elements; there are as many of them as `number_of_slices` says, and
as many elements as `size` says. -/
theorem const_rle {t : RleTree Nat T} (ht : Reach MAX ⟨natIdx MAX, constSl T, M, refs⟩ t) :
    (t.runs.map fun e => (e.size, e.slice)) = rle t.items ∧ t.numberOfSlices = (rle t.items).length ∧
      t.size ⟨natIdx MAX, constSl T, M, refs⟩ = t.items.length := by
  have h := rle_elements (ht.holds rfl).2.1.1 (distinct_iff.1 (const_distinct ht))
  refine ⟨h.symm, ?_, ?_⟩
  · rw [numberOfSlices_eq rfl ht]
    have := congrArg List.length h
    simpa [RleTree.items] using this.symm
  · rw [(size_eq_total rfl ht).1]
    exact (elements_length (constSl_denotes (T := T)) (fun _ _ => trivial)).symm

/-- C59: every history within bounds returns, and the runs are then the run-length encoding of the elements put in. -/
theorem const_history {t : RleTree Nat T} (ht : Reach MAX ⟨natIdx MAX, constSl T, M, false⟩ t) {ops : List (Op T)}
    (hb : InBounds MAX t.items.length ops) :
    ∃ t', insertAll ⟨natIdx MAX, constSl T, M, false⟩ t ops = .ok t' ∧ Reach MAX ⟨natIdx MAX, constSl T, M, false⟩ t' ∧
      t'.items = putAll t.items ops ∧ (t'.runs.map fun e => (e.size, e.slice)) = rle (putAll t.items ops) := by
  suffices h : ∃ t', insertAll ⟨natIdx MAX, constSl T, M, false⟩ t ops = .ok t' ∧ Reach MAX ⟨natIdx MAX, constSl T, M, false⟩ t' ∧
      t'.items = putAll t.items ops by
    obtain ⟨t', h1, h2, h3⟩ := h
    exact ⟨t', h1, h2, h3, by rw [← h3]; exact (const_rle h2).1⟩
  induction ops generalizing t with
  | nil => exact ⟨t, rfl, ht, rfl⟩
  | cons o os ih =>
    obtain ⟨b1, b2, b3, b4⟩ := hb
    have hl : t.items.length = total t.runs := elements_length (constSl_denotes (T := T)) (fun _ _ => trivial)
    rw [hl] at b1 b3 b4
    obtain ⟨⟨t1, out⟩, h1⟩ := const_insert_returns ht o.nop o.hints o.slice o.world b1 b2 b3
    have h2 : t1.items = t.items.take o.idx ++ List.replicate o.size o.slice ++ t.items.drop o.idx :=
      (insert_elements rfl constSl_denotes ht (fun _ _ => trivial) (by omega) trivial h1).2
    have h3 : t1.items.length = total t.runs + o.size := by
      rw [h2, List.length_append, List.length_append, List.length_take, List.length_drop, List.length_replicate, hl]
      omega
    obtain ⟨t', g1, g2, g3⟩ := ih (ht.insert (by omega) h1) (by rw [h3]; exact b4)
    refine ⟨t', ?_, g2, ?_⟩
    · simp only [insertAll, h1, R.bind_ok, g1]
    · rw [g3, h2]; rfl

/-- C59: `get` returns the maximal repetition around the position, with any cursor. -/
theorem const_get {t : RleTree Nat T} (ht : Reach MAX ⟨natIdx MAX, constSl T, M, refs⟩ t) (hints : List Nat) {i : Nat} (hi : i < t.items.length) :
    ∃ x, t.get ⟨natIdx MAX, constSl T, M, refs⟩ hints i = .ok x ∧ x.start ≤ i ∧ i < x.stop ∧ x.stop ≤ t.items.length ∧
      (∀ j, x.start ≤ j → j < x.stop → t.items[j]? = some x.slice) ∧ (∀ j, j + 1 = x.start → t.items[j]? ≠ some x.slice) ∧
      t.items[x.stop]? ≠ some x.slice := by
  obtain ⟨a, e, b, x, h1, h2, h3, h4, h5, h6, h7⟩ := get_covers rfl ht hints (idx := i) (by rw [(const_rle ht).2.2]; exact hi)
  have hp := (ht.holds rfl).2.1.1
  have hd := const_distinct ht
  have len (l : List (Ent T)) : (elements (fun n s => List.replicate n s) l).length = total l :=
    elements_length (constSl_denotes (T := T)) (fun _ _ => trivial)
  have hit : t.items = elements (fun n s => List.replicate n s) a ++ (List.replicate e.size e.slice ++ elements (fun n s => List.replicate n s) b) := by
    rw [RleTree.items, h1, elements_append, elements_cons]
  refine ⟨x, h2, h6, h7, ?_, ?_, ?_, ?_⟩
  · rw [hit, h4]; simp [len]
  · intro j j1 j2
    rw [hit, List.getElem?_append_right (by rw [len]; omega), len, List.getElem?_append_left (by rw [List.length_replicate]; omega),
      List.getElem?_replicate, if_pos (by omega), h5]
  · intro j hj
    rcases List.eq_nil_or_concat a with rfl | ⟨a, l, rfl⟩
    · simp at h3; omega
    · rw [List.concat_eq_append] at h1 h3 hit
      have hl : 0 < l.size := hp l (by rw [h1]; simp)
      have := hd a l e b (by rw [h1]; simp)
      rw [hit, elements_append, elements_cons, elements_nil, List.append_nil, List.append_assoc]
      simp only [total_append, total_cons, total_nil] at h3
      rw [List.getElem?_append_right (by rw [len]; omega), len, List.getElem?_append_left (by rw [List.length_replicate]; omega),
        List.getElem?_replicate, if_pos (by omega), h5]
      intro he
      rw [Option.some.inj he] at this
      simp at this
  · rw [hit, h4, List.getElem?_append_right (by rw [len]; omega), len,
      List.getElem?_append_right (by rw [List.length_replicate]; omega), List.length_replicate,
      show total a + e.size - total a - e.size = 0 by omega]
    cases b with
    | nil => simp [elements_nil]
    | cons r b =>
      have hr : 0 < r.size := hp r (by rw [h1]; simp)
      have := hd a e r b h1
      rw [elements_cons, List.getElem?_append_left (by rw [List.length_replicate]; omega), List.getElem?_replicate, if_pos hr, h5]
      intro he
      rw [Option.some.inj he] at this
      simp at this

omit [BEq T] [LawfulBEq T] in
theorem spans_segs (o : Nat) (es : List (Ent T)) : Cow.spans o es = segs o (es.map fun e => (e.size, e.slice)) := by
  induction es generalizing o with
  | nil => rfl
  | cons e es ih => simp only [Cow.spans, List.map_cons, segs, ih]

/-- C59: iteration over a range yields the maximal repetitions that have a position in the range, with any cursor, from both ends in any
order.  (`t.P.Nodup`: the nodes of the tree have different addresses.) -/
theorem const_iter {t : RleTree Nat T} (ht : Reach MAX ⟨natIdx MAX, constSl T, M, refs⟩ t) (hn : t.P.Nodup) (cursor : List Nat)
    {r : Range.Rng Nat} (hv : ValidRange t.items.length r) :
    ∃ it, t.iter ⟨natIdx MAX, constSl T, M, refs⟩ cursor r = .ok it ∧ ∀ calls, ∃ outs, runIter (natIdx MAX) it calls = .ok outs ∧
      outs.map (Option.map fun x => (x.start, x.stop, x.slice)) =
        runDeque ((segs 0 (rle t.items)).filter fun x => (List.range x.2.1).any fun q => decide (x.1 ≤ q) && Range.contains r q) calls := by
  rw [← (const_rle ht).2.2] at hv
  obtain ⟨it, h1, h2⟩ := iter_deque_reach rfl ht hn cursor hv
  refine ⟨it, h1, fun calls => ⟨_, h2 calls, ?_⟩⟩
  rw [← Cow.runDeque_map, Cow.expected_spans rfl ht, ← (const_rle ht).1, ← spans_segs]
  rfl

/-- C59: trees with the same elements cannot be told apart, whatever histories, branching factors and integer types they have. -/
theorem const_canonical {MAX' M' : Nat} {refs' : Bool} {t t' : RleTree Nat T} (ht : Reach MAX ⟨natIdx MAX, constSl T, M, refs⟩ t)
    (ht' : Reach MAX' ⟨natIdx MAX', constSl T, M', refs'⟩ t') (h : t.items = t'.items) :
    t.numberOfSlices = t'.numberOfSlices ∧ t.size ⟨natIdx MAX, constSl T, M, refs⟩ = t'.size ⟨natIdx MAX', constSl T, M', refs'⟩ ∧
      (∀ hints hints' i, i < t.items.length → ∃ x x', t.get ⟨natIdx MAX, constSl T, M, refs⟩ hints i = .ok x ∧
        t'.get ⟨natIdx MAX', constSl T, M', refs'⟩ hints' i = .ok x' ∧ (x.start, x.stop, x.slice) = (x'.start, x'.stop, x'.slice)) := by
  obtain ⟨a1, a2, a3⟩ := const_rle ht
  obtain ⟨b1, b2, b3⟩ := const_rle ht'
  refine ⟨by rw [a2, b2, h], by rw [a3, b3, h], ?_⟩
  intro hints hints' i hi
  obtain ⟨x, c1, c2, c3, c4, c5, c6, c7⟩ := const_get ht hints hi
  obtain ⟨y, d1, d2, d3, d4, d5, d6, d7⟩ := const_get ht' hints' (by rw [← h]; exact hi)
  rw [← h] at d4 d5 d6 d7
  refine ⟨x, y, c1, d1, ?_⟩
  have hs : x.slice = y.slice := Option.some.inj ((c5 i c2 c3).symm.trans (d5 i d2 d3))
  rw [← hs] at d5 d6 d7
  have e1 : x.start = y.start := by
    rcases Nat.lt_trichotomy x.start y.start with hlt | he | hlt
    · exact absurd (c5 (y.start - 1) (by omega) (by omega)) (d6 _ (by omega))
    · exact he
    · exact absurd (d5 (x.start - 1) (by omega) (by omega)) (c6 _ (by omega))
  have e2 : x.stop = y.stop := by
    rcases Nat.lt_trichotomy x.stop y.stop with hlt | he | hlt
    · exact absurd (d5 x.stop (by omega) hlt) c7
    · exact he
    · exact absurd (c5 y.stop (by omega) hlt) d7
  rw [hs, e1, e2]

/-- C59: the same for trees that share nodes: after any program of insertions, clones and drops, each tree is the run-length encoding of its
elements. -/
theorem const_cow_rle {imax : Nat} (hM : 1 ≤ M) (hM' : M ≤ 127) {cow : Bool} {ops : List (Cow.Op Nat T)} (hops : ∀ op ∈ ops, op.fits MAX)
    {st : Cow.St Nat T} (h : Cow.St.run ⟨natIdx MAX, constSl T, M, false⟩ imax cow Cow.St.init ops = .ok st) {i : Nat} {r : Option Cow.CRoot}
    (hi : st.trees[i]? = some (some r)) :
    ∃ t, st.view i = .ok t ∧ (t.runs.map fun e => (e.size, e.slice)) = rle t.items ∧ t.numberOfSlices = (rle t.items).length := by
  obtain ⟨ss, -, hr⟩ := Cow.run_sound (E := ⟨natIdx MAX, constSl T, M, false⟩) rfl hM hM' hops h
  obtain ⟨es, he⟩ : ∃ es, ss[i]? = some (some es) := by
    have hl := (List.getElem?_eq_some_iff.1 hi).1
    rw [hr.len] at hl
    rcases hs : ss[i]? with _ | _ | es
    · rw [List.getElem?_eq_none_iff] at hs; omega
    · rw [hr.gone i hs] at hi; cases hi
    · exact ⟨es, rfl⟩
  obtain ⟨t, h1, h2, -⟩ := hr.view i es he
  exact ⟨t, h1, (const_rle h2).1, (const_rle h2).2.1⟩

/-! ## Examples -/

/-- The example history gives the run-length encoding of the elements put in; it has 29 elements in 11 runs. -/
example : ∃ t, insertAll exEnv ⟨none⟩ exOps = .ok t ∧ (t.runs.map fun e => (e.size, e.slice)) = rle (putAll [] exOps) ∧
    (putAll [] exOps).length = 29 ∧ (rle (putAll [] exOps)).length = 11 := by
  obtain ⟨t, h1, _, _, h2⟩ := const_history (T := Char) (MAX := 255) (M := 1) exEmpty (ops := exOps) (by decide)
  exact ⟨t, h1, h2, by decide, by decide⟩

/-- Another history with another branching factor, and the same elements as the first two operations of the example. -/
example : ∃ t t', insertAll exEnv ⟨none⟩ (exOps.take 2) = .ok t ∧
    insertAll ⟨natIdx 1000, constSl Char, 3, false⟩ ⟨none⟩ [⟨0, 'b', 4, false, [], exWorld⟩, ⟨0, 'a', 10, false, [], exWorld⟩,
      ⟨14, 'b', 6, false, [], exWorld⟩] = .ok t' ∧ t.numberOfSlices = t'.numberOfSlices := by
  obtain ⟨t, h1, h2, h3, _⟩ := const_history (T := Char) (MAX := 255) (M := 1) exEmpty (ops := exOps.take 2) (by decide)
  obtain ⟨t', g1, g2, g3, _⟩ := const_history (T := Char) (MAX := 1000) (M := 3) (t := ⟨none⟩) (.empty rfl)
    (ops := [⟨0, 'b', 4, false, [], exWorld⟩, ⟨0, 'a', 10, false, [], exWorld⟩, ⟨14, 'b', 6, false, [], exWorld⟩]) (by decide)
  exact ⟨t, t', h1, g1, (const_canonical h2 g2 (by rw [h3, g3]; decide)).1⟩

/-- The maximal repetition around position 8 of the example tree. -/
example : ∃ t, Reach 255 exEnv t ∧ ∃ x, t.get exEnv [3, 200] 8 = .ok x ∧ x.start ≤ 8 ∧ 8 < x.stop ∧
    ∀ j, x.start ≤ j → j < x.stop → t.items[j]? = some x.slice := by
  obtain ⟨t, h1, h2, _⟩ := exSize
  obtain ⟨x, g1, g2, g3, _, g5, _⟩ := const_get (T := Char) (MAX := 255) (M := 1) h1 [3, 200] (i := 8) (by rw [← (const_rle h1).2.2, h2]; omega)
  exact ⟨t, h1, x, g1, g2, g3, g5⟩

/-- Iteration over a tree with slice references, from an index on, from both ends. -/
example : ∃ st, Live 255 1000 exRefEnv st [] ∧ ∃ it outs, st.tree.iter exRefEnv [7] ⟨.included 6, .unbounded⟩ = .ok it ∧
    runIter (natIdx 255) it [false, true, false, true] = .ok outs ∧ outs.map (Option.map fun x => (x.start, x.stop, x.slice)) =
      [some (5, 8, 'c'), some (13, 23, 'b'), some (8, 13, 'a'), none] := by
  obtain ⟨st, _, h, h2⟩ := exLive0
  have hi : st.tree.items = elements (fun n s => List.replicate n s) [⟨5, 'a', none⟩, ⟨3, 'c', none⟩, ⟨5, 'a', none⟩, ⟨10, 'b', none⟩] := by
    rw [RleTree.items, h2]
  obtain ⟨it, g1, g2⟩ := const_iter (T := Char) (MAX := 255) (M := 1) (refs := true) (h.inv rfl).reach (h.inv rfl).own.addrs [7]
    (r := ⟨.included 6, .unbounded⟩) (by rw [hi]; simp [ValidRange, elements])
  obtain ⟨outs, g3, g4⟩ := g2 [false, true, false, true]
  refine ⟨st, h, it, outs, g1, g3, ?_⟩
  rw [g4, hi]
  decide

/-- A clone that shares nodes with the tree it was made from, after more insertions into both. -/
example : ∃ st t, Cow.St.run exEnv 1000 true Cow.St.init Cow.exProg = .ok st ∧ st.view 2 = .ok t ∧
    (t.runs.map fun e => (e.size, e.slice)) = rle t.items := by
  have h : ((Cow.St.run exEnv 1000 true Cow.St.init Cow.exProg).map fun st => (st.trees[2]?.join).isSome) = .ok true := by decide +kernel
  cases hr : Cow.St.run exEnv 1000 true Cow.St.init Cow.exProg with
  | error f => rw [hr] at h; cases h
  | ok st =>
    rw [hr] at h
    rcases ht : st.trees[2]? with _ | _ | r
    · simp [Except.map, ht] at h
    · simp [Except.map, ht] at h
    · obtain ⟨t, h1, h2, _⟩ := const_cow_rle (T := Char) (MAX := 255) (M := 1) (by omega) (by omega) (by
        intro op h
        simp only [Cow.exProg, List.mem_cons, List.not_mem_nil, or_false] at h
        rcases h with rfl | rfl | rfl | rfl | rfl | rfl | rfl | rfl | rfl | rfl | rfl | rfl | rfl <;> simp [Cow.Op.fits]) hr ht
      exact ⟨st, t, rfl, h1, h2⟩

end Sherman
