import Verif.Serde
import Verif.LiveProps
import Verif.ConstProps
import Mathlib.Data.List.Chain

/-!
# Serialisation (C35)
-/

namespace Sherman
variable {S : Type} {MAX rcMax : Nat} {E : Env Nat S}

/-- What a serialiser is to be given. -/
def pairs (es : List (Ent S)) : List (Nat × S) := es.map fun e => (e.size, e.slice)

theorem collect_run {fuel : Nat} : ∀ {it : Iter Nat S} {l : List (Entry Nat S)}, l.length < fuel → (∀ x ∈ l, x.start ≤ x.stop) →
    (∀ ops, runIter (natIdx MAX) it ops = .ok (runDeque l ops)) →
    collectSeq (natIdx MAX) fuel it = .ok (l.map fun x => (x.stop - x.start, x.slice)) := by
  induction fuel with
  | zero => intro it l h; omega
  | succ fuel ih =>
    intro it l hl hp h
    have h1 := h [false]
    simp only [runIter, runDeque, R.pure_eq, bind_ok_iff] at h1
    obtain ⟨⟨x, it'⟩, h2, xs, h3, h4⟩ := h1
    cases h3
    cases h4
    have h' : ∀ ops, runIter (natIdx MAX) it' ops = .ok (runDeque l.tail ops) := by
      intro ops
      have := h (false :: ops)
      simp only [runIter, runDeque, R.pure_eq, bind_ok_iff] at this
      obtain ⟨⟨x, it2⟩, g2, ys, g3, g4⟩ := this
      rw [h2] at g2
      cases g2
      cases g4
      exact g3
    cases l with
    | nil => simp only [collectSeq, h2, R.bind_ok]; rfl
    | cons e l =>
      have he : e.size (natIdx MAX) = .ok (e.stop - e.start) := by
        have := hp e (by simp)
        simp [Entry.size, natIdx, this]
      have := ih (it := it') (l := l) (by simp at hl; omega) (fun x hx => hp x (by simp [hx])) h'
      simp only [collectSeq, h2, R.bind_ok, List.head?_cons, he, this, R.pure_eq, List.map_cons]

/-- C35: serialising yields the runs, whatever features are turned on. -/
theorem serialize_runs (hE : E.ix = natIdx MAX) {st : RefTree Nat S} {ids : List Nat} (h : Live MAX rcMax E st ids) {fuel : Nat}
    (hf : st.tree.runs.length < fuel) : st.tree.serialize E fuel = .ok (pairs st.tree.runs) := by
  have hv : ValidRange (st.tree.size E) (Range.ofRangeFull : Range.Rng Nat) := by simp [ValidRange, Range.ofRangeFull]
  obtain ⟨it, h1, h2⟩ := iter_deque hE h [] hv
  have he := (entries_runs hE h).1
  have hlen : st.tree.entries.length = st.tree.runs.length := by simpa using congrArg List.length he
  have hpos := ((h.inv hE).reach.holds hE).2.1.1
  have hs : ∀ x ∈ st.tree.entries, x.start < x.stop := by
    intro x hx
    have : (x.stop - x.start, x.slice, x.ref) ∈ st.tree.entries.map (fun x => (x.stop - x.start, x.slice, x.ref)) :=
      List.mem_map_of_mem hx
    rw [he] at this
    obtain ⟨e, he1, he2⟩ := List.mem_map.1 this
    have := hpos e he1
    simp only [Prod.mk.injEq] at he2
    omega
  have hex : expected st.tree (Range.ofRangeFull : Range.Rng Nat) = st.tree.entries := by
    unfold expected
    rw [List.filter_eq_self]
    intro x hx
    have := hs x hx
    simp only [touches, List.any_eq_true]
    exact ⟨x.start, by simpa using this, by simp [Range.contains, Range.ofRangeFull]⟩
  rw [hex, hE] at h2
  unfold RleTree.serialize
  rw [h1, hE]
  simp only [R.bind_ok]
  rw [collect_run (MAX := MAX) (by omega) (fun x hx => (hs x hx).le) h2]
  have := congrArg (List.map fun p : Nat × S × Option Nat => (p.1, p.2.1)) he
  simpa [pairs, Function.comp_def] using this

/-- Appending a run to a list of runs: it joins the last one or follows it. -/
def append (sl : SliceOps Nat S) (es : List (Ent S)) (s : S) (size : Nat) : List (Ent S) :=
  match es.getLast? with
  | none => [⟨size, s, none⟩]
  | some l =>
    if sl.mayJoin = false then es ++ [⟨size, s, none⟩]
    else match sl.tryJoin l.slice s with
      | .inl x => es.dropLast ++ [⟨l.size + size, x, l.ref⟩]
      | .inr (a, b) => es.dropLast ++ [⟨l.size, a, l.ref⟩, ⟨size, b, none⟩]

theorem specInsert_append (sl : SliceOps Nat S) {es : List (Ent S)} (hp : ∀ e ∈ es, 0 < e.size) (s : S) (size : Nat) :
    specInsert sl es (total es) s size = .ok (append sl es s size) := by
  have h := cutAt_edge (L := es) (R := []) (by simpa using hp)
  rw [List.append_nil] at h
  unfold specInsert
  rw [h]
  simp only [specEdge, append]
  cases hl : es.getLast? with
  | none => rw [List.getLast?_eq_none_iff] at hl; subst hl; simp
  | some l =>
    simp only
    split
    · rfl
    · split <;> simp_all

/-- The items one after the other. -/
def appendAll (sl : SliceOps Nat S) : List (Ent S) → List (Nat × S) → List (Ent S)
  | es, [] => es
  | es, (n, s) :: items => appendAll sl (append sl es s n) items

def itemsTotal (items : List (Nat × S)) : Nat := (items.map Prod.fst).sum

theorem extend_returns (hE : E.ix = natIdx MAX) {items : List (Nat × S)} : ∀ {st : RefTree Nat S} {ids : List Nat},
    Live MAX rcMax E st ids → (∀ i ∈ items, 0 < i.1) → total st.tree.runs + itemsTotal items ≤ MAX →
    ∃ st', RefTree.extend E st items = .ok st' ∧ Live MAX rcMax E st' ids ∧ st'.tree.runs = appendAll E.sl st.tree.runs items := by
  induction items with
  | nil => intro st ids h _ _; exact ⟨st, rfl, h, rfl⟩
  | cons i items ih =>
    intro st ids h hp hb
    obtain ⟨n, s⟩ := i
    simp only [itemsTotal, List.map_cons, List.sum_cons] at hb
    have hn : 0 < n := hp (n, s) (by simp)
    have hh := ((h.inv hE).reach.holds hE).2.1
    have hspec := specInsert_append E.sl hh.1 s n
    obtain ⟨st1, out, h1, h2, h3⟩ := live_insert_returns hE h true [] s (size := n) (Nat.le_refl _) hn (by omega) hspec
    have ht := (specInsert_facts hh.1 (Nat.le_refl _) hn hspec).2
    obtain ⟨st2, k1, k2, k3⟩ := ih h2 (fun i hi => hp i (by simp [hi])) (by rw [h3, ht]; simp only [itemsTotal]; omega)
    refine ⟨st2, ?_, k2, by rw [k3, h3]; rfl⟩
    simp only [RefTree.extend, bind_ok_iff]
    exact ⟨(st1, out), by rw [hh.size hE]; exact h1, k1⟩

theorem newEmpty_ok {t : RleTree Nat S} (h : RleTree.newEmpty E = .ok t) : t = ⟨none⟩ := by
  simp only [RleTree.newEmpty, bind_ok_iff] at h
  obtain ⟨_, _, _, _, h⟩ := h
  cases h; rfl

/-- C35: deserialising a sequence of pairs whose sizes are positive and fit the index type returns the tree obtained by
appending them. -/
theorem deserialize_returns (hE : E.ix = natIdx MAX) {t0 : RleTree Nat S} (h0 : RleTree.newEmpty E = .ok t0) (n : Nat)
    {items : List (Nat × S)} (hp : ∀ i ∈ items, 0 < i.1) (hb : itemsTotal items ≤ MAX) :
    ∃ st, RefTree.deserialize E n items = .ok st ∧ Live MAX rcMax E st [] ∧ st.tree.runs = appendAll E.sl [] items := by
  have h : Live MAX rcMax E ⟨t0, Recycle.empty, n⟩ [] := .empty h0
  have hr : t0.runs = [] := by rw [newEmpty_ok h0]; rfl
  obtain ⟨st, h1, h2, h3⟩ := extend_returns hE (items := items) h hp (by simp only [hr]; simpa using hb)
  refine ⟨st, ?_, h2, by rw [h3]; simp only [hr]⟩
  simp only [RefTree.deserialize, h0, R.bind_ok]
  exact h1

/-- C35: it fails, by a panic or an overflow rather than with an error of the deserialiser, exactly when a size is zero or the sizes
do not fit. -/
theorem deserialize_fails_iff (hE : E.ix = natIdx MAX) {t0 : RleTree Nat S} (h0 : RleTree.newEmpty E = .ok t0) (n : Nat)
    (items : List (Nat × S)) (hs : ∀ i ∈ items, i.1 ≤ MAX) :
    (∃ f, RefTree.deserialize E n items = .error f) ↔ (∃ i ∈ items, i.1 = 0) ∨ MAX < itemsTotal items := by
  constructor
  · rintro ⟨f, hf⟩
    by_contra hc
    simp only [not_or, not_exists, not_and, Nat.not_lt] at hc
    obtain ⟨st, h1, _⟩ := deserialize_returns (rcMax := 0) hE h0 n (items := items)
      (fun i hi => Nat.pos_of_ne_zero (hc.1 i hi)) hc.2
    rw [hf] at h1; cases h1
  · have key : ∀ {items : List (Nat × S)} {st : RefTree Nat S} {ids}, Live MAX 0 E st ids → (∀ i ∈ items, i.1 ≤ MAX) →
        ((∃ i ∈ items, i.1 = 0) ∨ MAX < total st.tree.runs + itemsTotal items) → ∃ f, RefTree.extend E st items = .error f := by
      intro items
      induction items with
      | nil =>
        intro st ids h _ hc
        have := ((h.inv hE).reach.holds hE).2.2
        simp only [List.not_mem_nil, false_and, exists_false, false_or, itemsTotal, List.map_nil, List.sum_nil] at hc
        omega
      | cons i items ih =>
        intro st ids h hs hc
        obtain ⟨m, s⟩ := i
        simp only [RefTree.extend]
        cases hi : st.insert E true [] (st.tree.size E) s m with
        | error f => exact ⟨f, rfl⟩
        | ok o =>
          obtain ⟨st1, out⟩ := o
          simp only [R.bind_ok]
          have hm : m ≤ MAX := hs (m, s) (by simp)
          have hnf := (live_insert_fails_iff hE h true [] (st.tree.size E) s hm).not.1 (by rw [hi]; simp)
          simp only [not_or, Nat.not_lt] at hnf
          have hh := ((h.inv hE).reach.holds hE).2.1
          have h1 := h.insert hm hi
          refine ih h1 (fun i hi => hs i (by simp [hi])) ?_
          have ht : total st1.tree.runs = total st.tree.runs + m := by
            obtain ⟨st2, out2, g1, _, g3⟩ := live_insert_returns hE h true [] s (idx := total st.tree.runs) (size := m) (Nat.le_refl _)
              (by omega) (by rw [hh.size hE] at hnf; omega) (specInsert_append E.sl hh.1 s m)
            rw [hh.size hE, g1] at hi
            cases hi
            rw [g3]
            exact (specInsert_facts hh.1 (Nat.le_refl _) (by omega) (specInsert_append E.sl hh.1 s m)).2
          rcases hc with ⟨i, hi, h0⟩ | hc
          · rcases List.mem_cons.1 hi with rfl | hi
            · exact absurd h0 hnf.2.1
            · exact .inl ⟨i, hi, h0⟩
          · right
            simp only [itemsTotal, List.map_cons, List.sum_cons] at hc ⊢
            omega
    intro hc
    have hr : t0.runs = [] := by rw [newEmpty_ok h0]; rfl
    simp only [RefTree.deserialize, h0, R.bind_ok]
    refine key (.empty h0) hs ?_
    simp only [hr]
    simpa using hc

/-- No run would join the one that follows it. -/
def Unjoinable (sl : SliceOps Nat S) (es : List (Ent S)) : Prop :=
  sl.mayJoin = true → es.IsChain fun a b => sl.tryJoin a.slice b.slice = .inr (a.slice, b.slice)

/-- Without its reference. -/
def bare (e : Ent S) : Ent S := { e with ref := none }

theorem appendAll_unjoinable {sl : SliceOps Nat S} {fs : List (Ent S)} : ∀ {es : List (Ent S)}, Unjoinable sl (es ++ fs) →
    appendAll sl (es.map bare) (pairs fs) = (es ++ fs).map bare := by
  induction fs with
  | nil => intro es _; simp [pairs, appendAll]
  | cons f fs ih =>
    intro es h
    have h1 : append sl (es.map bare) f.slice f.size = (es ++ [f]).map bare := by
      rcases List.eq_nil_or_concat es with rfl | ⟨L, l, rfl⟩
      · simp [append, bare]
      · rw [List.concat_eq_append] at *
        cases hm : sl.mayJoin with
        | false => simp [append, bare, hm]
        | true =>
          have hj : sl.tryJoin l.slice f.slice = .inr (l.slice, f.slice) := by
            have h := h hm
            rw [List.append_assoc] at h
            have := List.isChain_append.1 h
            exact (List.isChain_cons_cons.1 this.2.1).1
          simp [append, bare, hm, hj]
    simp only [pairs, List.map_cons, appendAll, h1]
    have := ih (es := es ++ [f]) (by simpa using h)
    simpa [pairs] using this

theorem appendAll_elements {α : Type} {valid : Nat → S → Prop} {den : Nat → S → List α} {sl : SliceOps Nat S} (hd : Denotes sl α valid den)
    {items : List (Nat × S)} : ∀ {es : List (Ent S)}, (∀ e ∈ es, 0 < e.size) → (∀ i ∈ items, 0 < i.1 ∧ valid i.1 i.2) → AllValid valid es →
    elements den (appendAll sl es items) = elements den es ++ items.flatMap fun i => den i.1 i.2 := by
  induction items with
  | nil => intro es _ _ _; simp [appendAll]
  | cons i items ih =>
    intro es hp hi hv
    obtain ⟨n, s⟩ := i
    obtain ⟨hn, hs⟩ := hi (n, s) (by simp)
    have hspec := specInsert_append sl hp s n
    obtain ⟨g1, g2⟩ := specInsert_elements hd hv (Nat.le_refl _) hs hspec
    have hl : (elements den es).length = total es := by
      clear hspec g1 g2 ih hp
      induction es with
      | nil => rfl
      | cons e es ih =>
        rw [elements_cons, List.length_append, hd.len (hv e (by simp)), ih (fun x hx => hv x (by simp [hx])), total_cons]
    rw [List.take_of_length_le (by omega), List.drop_of_length_le (by omega), List.append_nil] at g2
    simp only [appendAll]
    rw [ih (specInsert_facts hp (Nat.le_refl _) hn hspec).1 (fun i h => hi i (by simp [h])) g1, g2]
    simp

/-- C35: the round trip returns a tree with the same elements. -/
theorem roundTrip_elements (hE : E.ix = natIdx MAX) {α : Type} {valid : Nat → S → Prop} {den : Nat → S → List α}
    (hd : Denotes E.sl α valid den) {st : RefTree Nat S} {ids : List Nat} (h : Live MAX rcMax E st ids) (hv : AllValid valid st.tree.runs)
    {fuel : Nat} (hf : st.tree.runs.length < fuel) (n : Nat) {t0 : RleTree Nat S} (h0 : RleTree.newEmpty E = .ok t0) :
    ∃ items st', st.tree.serialize E fuel = .ok items ∧ RefTree.deserialize E n items = .ok st' ∧ Live MAX rcMax E st' [] ∧
      elements den st'.tree.runs = elements den st.tree.runs := by
  obtain ⟨_, hh, hb⟩ := (h.inv hE).reach.holds hE
  have hp : ∀ i ∈ pairs st.tree.runs, 0 < i.1 := by
    intro i hi
    obtain ⟨e, he, rfl⟩ := List.mem_map.1 hi
    exact hh.1 e he
  have ht : itemsTotal (pairs st.tree.runs) = total st.tree.runs := by simp [itemsTotal, pairs, total, Function.comp_def]
  obtain ⟨st', h1, h2, h3⟩ := deserialize_returns (rcMax := rcMax) hE h0 n hp (by omega)
  refine ⟨_, st', serialize_runs hE h hf, h1, h2, ?_⟩
  rw [h3, appendAll_elements hd (by simp) ?_ (by intro e he; simp at he)]
  · simp [elements, pairs, List.flatMap_map]
  · intro i hi
    refine ⟨hp i hi, ?_⟩
    obtain ⟨e, he, rfl⟩ := List.mem_map.1 hi
    exact hv e he

/-- C35: if no two adjacent runs join, exactly the same runs (without references). -/
theorem roundTrip_runs (hE : E.ix = natIdx MAX) {st : RefTree Nat S} {ids : List Nat} (h : Live MAX rcMax E st ids)
    (hu : Unjoinable E.sl st.tree.runs) {fuel : Nat} (hf : st.tree.runs.length < fuel) (n : Nat) {t0 : RleTree Nat S}
    (h0 : RleTree.newEmpty E = .ok t0) :
    ∃ items st', st.tree.serialize E fuel = .ok items ∧ RefTree.deserialize E n items = .ok st' ∧ Live MAX rcMax E st' [] ∧
      st'.tree.runs = st.tree.runs.map fun e => ⟨e.size, e.slice, none⟩ := by
  obtain ⟨_, hh, hb⟩ := (h.inv hE).reach.holds hE
  have hp : ∀ i ∈ pairs st.tree.runs, 0 < i.1 := by
    intro i hi
    obtain ⟨e, he, rfl⟩ := List.mem_map.1 hi
    exact hh.1 e he
  have ht : itemsTotal (pairs st.tree.runs) = total st.tree.runs := by simp [itemsTotal, pairs, total, Function.comp_def]
  obtain ⟨st', h1, h2, h3⟩ := deserialize_returns (rcMax := rcMax) hE h0 n hp (by omega)
  refine ⟨_, st', serialize_runs hE h hf, h1, h2, ?_⟩
  rw [h3]
  exact appendAll_unjoinable (es := []) (by simpa using hu)

/-- C35: for `Constant<T>` that is always so. -/
theorem roundTrip_const {T : Type} [BEq T] [PartialEquivBEq T] {M : Nat} {refs : Bool} {st : RefTree Nat T} {ids : List Nat}
    (h : Live MAX rcMax ⟨natIdx MAX, constSl T, M, refs⟩ st ids) {fuel : Nat} (hf : st.tree.runs.length < fuel) (n : Nat)
    {t0 : RleTree Nat T} (h0 : RleTree.newEmpty (⟨natIdx MAX, constSl T, M, refs⟩ : Env Nat T) = .ok t0) :
    ∃ items st', st.tree.serialize ⟨natIdx MAX, constSl T, M, refs⟩ fuel = .ok items ∧
      RefTree.deserialize ⟨natIdx MAX, constSl T, M, refs⟩ n items = .ok st' ∧
      st'.tree.runs = st.tree.runs.map fun e => ⟨e.size, e.slice, none⟩ := by
  have hc := const_distinct (h.inv rfl).reach
  obtain ⟨items, st', h1, h2, _, h3⟩ := roundTrip_runs rfl h (fun _ =>
    (distinct_iff.1 hc).imp fun a b hab => by
      have hab : (a.slice == b.slice) = false := hab
      simp [constSl, hab]) hf n h0
  exact ⟨items, st', h1, h2, h3⟩

/-- The example tree of `exLive0`, with several levels, is serialised and read back. -/
example : ∃ st items st', Live 255 1000 exRefEnv st [] ∧ st.tree.serialize exRefEnv 5 = .ok items ∧
    items = [(5, 'a'), (3, 'c'), (5, 'a'), (10, 'b')] ∧ RefTree.deserialize exRefEnv 7 items = .ok st' ∧
    st'.tree.runs = st.tree.runs := by
  obtain ⟨st, _, h2, h3⟩ := exLive0
  obtain ⟨items, st', g1, g2, g3⟩ := roundTrip_const h2 (fuel := 5) (by rw [h3]; decide) 7 (t0 := ⟨none⟩) rfl
  refine ⟨st, items, st', h2, g1, ?_, g2, by rw [g3, h3]; rfl⟩
  rw [serialize_runs rfl h2 (by rw [h3]; decide), h3] at g1
  cases g1; rfl

end Sherman
