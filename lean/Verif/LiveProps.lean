import Verif.IterProps
import Verif.RefMoves
import Verif.TreeProps2
/-!
# Insertion into trees with slice references returns; a concrete history for the theorems about such trees
-/
namespace Sherman
variable {S : Type} {MAX rcMax : Nat} {E : Env Nat S}

/-- C10: insertion into a tree with slice references returns whenever the arguments are in bounds and joining does not
hit the unimplemented case; the store of references never panics. -/
theorem live_insert_returns (hE : E.ix = natIdx MAX) {st : RefTree Nat S} {ids : List Nat} (h : Live MAX rcMax E st ids)
    (nop : Bool) (hints : List Nat) {idx : Nat} (s : S) {size : Nat} (hidx : idx ≤ total st.tree.runs) (hs : 0 < size)
    (hb : total st.tree.runs + size ≤ MAX) {es' : List (Ent S)} (hspec : specInsert E.sl st.tree.runs idx s size = .ok es') :
    ∃ st' out, st.insert E nop hints idx s size = .ok (st', out) ∧ Live MAX rcMax E st' ids ∧ st'.tree.runs = es' := by
  have hi := h.inv hE
  obtain ⟨t', out, h1, h2, h3⟩ := insert_returns hE hi.reach nop hints s ⟨st.next, [], [], none, []⟩ hidx hs hb hspec
  obtain ⟨st', k1, k2, k3⟩ := insert_inv hE hi (by omega) h1
  exact ⟨st', _, k1, h.insert (by omega) k1, by rw [k2, h2]⟩

/-- C10: insertion into a tree with slice references fails if and only if the index is out of bounds, the size is zero, the new
total does not fit the index type, or the slice joins with both neighbours at an edge. -/
theorem live_insert_fails_iff (hE : E.ix = natIdx MAX) {st : RefTree Nat S} {ids : List Nat} (h : Live MAX rcMax E st ids)
    (nop : Bool) (hints : List Nat) (idx : Nat) (s : S) {size : Nat} (hs : size ≤ MAX) :
    (∃ f, st.insert E nop hints idx s size = .error f) ↔
      st.tree.size E < idx ∨ size = 0 ∨ MAX < st.tree.size E + size ∨ JoinsBoth E.sl st.tree.runs idx s := by
  have hi := h.inv hE
  rw [← insert_fails_iff hE hi.reach nop hints idx s hs ⟨st.next, [], [], none, []⟩]
  constructor
  · rintro ⟨f, hf⟩
    cases hr : st.tree.insert E nop hints idx s size ⟨st.next, [], [], none, []⟩ with
    | error f => exact ⟨f, rfl⟩
    | ok x =>
      obtain ⟨st', k1, _⟩ := insert_inv hE hi hs (t := x.1) (out := x.2) hr
      rw [hf] at k1
      cases k1
  · rintro ⟨f, hf⟩
    exact ⟨f, by unfold RefTree.insert; rw [hf]; rfl⟩

/-! ### A concrete history -/

/-- Insertions, in order. -/
def insertLive (E : Env Nat S) (st : RefTree Nat S) : List (Op S) → R (RefTree Nat S)
  | [] => pure st
  | o :: os => do
    let (st, _) ← st.insert E o.nop o.hints o.idx o.slice o.size
    insertLive E st os

theorem insertLive_returns (hE : E.ix = natIdx MAX) {st : RefTree Nat S} {ids : List Nat} (h : Live MAX rcMax E st ids)
    {ops : List (Op S)} (hb : InBounds MAX (total st.tree.runs) ops) {es' : List (Ent S)}
    (hspec : specAll E.sl st.tree.runs ops = .ok es') :
    ∃ st', insertLive E st ops = .ok st' ∧ st'.tree.runs = es' ∧ Live MAX rcMax E st' ids := by
  induction ops generalizing st with
  | nil => cases hspec; exact ⟨st, rfl, rfl, h⟩
  | cons o os ih =>
    obtain ⟨b1, b2, b3, b4⟩ := hb
    simp only [specAll] at hspec
    cases h1 : specInsert E.sl st.tree.runs o.idx o.slice o.size with
    | error f => rw [h1] at hspec; cases hspec
    | ok es1 =>
      rw [h1] at hspec
      obtain ⟨st1, out, h2, h3, h4⟩ := live_insert_returns hE h o.nop o.hints o.slice b1 b2 b3 h1
      have h5 := (specInsert_facts ((h.inv hE).reach.holds hE).2.1.1 b1 b2 h1).2
      obtain ⟨st2, h6, h7, h8⟩ := ih h3 (by rw [h4, h5]; exact b4) (by rw [h4]; exact hspec)
      refine ⟨st2, ?_, h7, h8⟩
      simp only [insertLive, bind_ok_iff]
      exact ⟨(st1, out), h2, h6⟩

/-- Trees of characters with slice references, `M = 1`, over `u8`. -/
abbrev exRefEnv : Env Nat Char := ⟨natIdx 255, constSl Char, 1, true⟩

def exStart : RefTree Nat Char := ⟨⟨none⟩, Recycle.empty, 100⟩

/-- Several levels (`M = 1` allows two keys per node), slice references turned on, no reference made yet. -/
theorem exLive0 : ∃ st, insertLive exRefEnv exStart (exOps.take 3) = .ok st ∧ Live 255 1000 exRefEnv st [] ∧
    st.tree.runs = [⟨5, 'a', none⟩, ⟨3, 'c', none⟩, ⟨5, 'a', none⟩, ⟨10, 'b', none⟩] := by
  have h0 : Live 255 1000 exRefEnv exStart [] := .empty (n := 100) rfl
  obtain ⟨st, h1, h2, h3⟩ := insertLive_returns (E := exRefEnv) (MAX := 255) rfl h0 (ops := exOps.take 3) (by decide)
    (es' := [⟨5, 'a', none⟩, ⟨3, 'c', none⟩, ⟨5, 'a', none⟩, ⟨10, 'b', none⟩]) (by decide)
  exact ⟨st, h1, h3, h2⟩

theorem ex_shape {es : List (Ent Char)} {a b c d : Nat} {p q r s : Char}
    (h : es.map (fun e => (e.size, e.slice)) = [(a, p), (b, q), (c, r), (d, s)]) :
    ∃ x y z w, es = [⟨a, p, x⟩, ⟨b, q, y⟩, ⟨c, r, z⟩, ⟨d, s, w⟩] := by
  match es, h with
  | [⟨_, _, x⟩, ⟨_, _, y⟩, ⟨_, _, z⟩, ⟨_, _, w⟩], h =>
    simp at h
    obtain ⟨⟨rfl, rfl⟩, ⟨rfl, rfl⟩, ⟨rfl, rfl⟩, ⟨rfl, rfl⟩⟩ := h
    exact ⟨x, y, z, w, rfl⟩

/-- Two references, to the second run of `a` and to the run of `b`, then an insertion that splits the former. -/
theorem exLive : ∃ st ids st' r r' out, Live 255 1000 exRefEnv st ids ∧ r ∈ ids ∧ r' ∈ ids ∧
    st.range exRefEnv r = .ok (8, 13) ∧ st.range exRefEnv r' = .ok (13, 23) ∧
    st.insert exRefEnv false [] 10 'z' 4 = .ok (st', out) ∧ Live 255 1000 exRefEnv st' ids ∧
    st'.range exRefEnv r = .ok (8, 10) ∧ st'.range exRefEnv r' = .ok (17, 27) ∧
    st'.tree.runs.length = 6 := by
  obtain ⟨st0, _, h0, e0⟩ := exLive0
  have sz : ∀ {st : RefTree Nat Char} {ids}, Live 255 1000 exRefEnv st ids → ∀ {x y z w},
      st.tree.runs = [⟨5, 'a', x⟩, ⟨3, 'c', y⟩, ⟨5, 'a', z⟩, ⟨10, 'b', w⟩] → st.tree.size exRefEnv = 23 := by
    intro st ids h x y z w e
    rw [((h.inv rfl).reach.holds rfl).2.1.size rfl, e]; rfl
  obtain ⟨r, st1, x, y, _, h1, g1, g2, g3, e1, _, _⟩ := refAt_spec rfl h0 (idx := 9) (by decide) (by rw [sz h0 e0]; omega)
  rw [e0] at e1
  obtain ⟨a1, a2, a3, a4, e1⟩ := ex_shape (a := 5) (b := 3) (c := 5) (d := 10) (p := 'a') (q := 'c') (r := 'a') (s := 'b') e1
  obtain ⟨r', st2, x', y', _, h2, f1, f2, f3, e2, c2, _⟩ := refAt_spec rfl h1 (idx := 20) (by simp) (by rw [sz h1 e1]; omega)
  rw [e1] at e2
  obtain ⟨b1, b2, b3, b4, e2⟩ := ex_shape (a := 5) (b := 3) (c := 5) (d := 10) (p := 'a') (q := 'c') (r := 'a') (s := 'b') e2
  have s1 := (range_iff rfl h2 (by simp)).1 f1
  rw [← c2 r (by simp)] at g1
  have s2 := (range_iff rfl h2 (by simp)).1 g1
  have hspec : specInsert exRefEnv.sl st2.tree.runs 10 'z' 4 =
      .ok [⟨5, 'a', b1⟩, ⟨3, 'c', b2⟩, ⟨2, 'a', b3⟩, ⟨4, 'z', none⟩, ⟨3, 'a', none⟩, ⟨10, 'b', b4⟩] := by rw [e2]; rfl
  obtain ⟨st3, out, k1, k2, k3⟩ := live_insert_returns rfl h2 false [] 'z' (idx := 10) (size := 4) (by rw [e2]; simp)
    (by omega) (by rw [e2]; simp) hspec
  rw [e2] at s1 s2
  have t1 : x' = 13 ∧ y' = 23 ∧ b4 = some r' := by
    cases b1 <;> cases b2 <;> cases b3 <;> cases b4 <;> simp [spans] at s1 ⊢ <;> omega
  have t2 : x = 8 ∧ y = 13 ∧ b3 = some r := by
    cases b1 <;> cases b2 <;> cases b3 <;> cases b4 <;> simp [spans] at s2 ⊢ <;> omega
  obtain ⟨q1, q2, q3⟩ := t1
  obtain ⟨p1, p2, p3⟩ := t2
  subst q1 q2 q3 p1 p2 p3
  refine ⟨st2, [r', r], st3, r, r', out, h2, by simp, by simp, g1, f1, k1, k2, (range_iff rfl k2 (by simp)).2 ?_,
    (range_iff rfl k2 (by simp)).2 ?_, by rw [k3]; rfl⟩
  · rw [k3]; simp [spans]
  · rw [k3]; simp [spans]

/-- The theorems about references and iteration apply to that history. -/
example : ∃ st ids, Live 255 1000 exRefEnv st ids ∧ ids ≠ [] ∧
    (∃ it, st.tree.iter exRefEnv [] (Range.ofRange 4 9) = .ok it ∧
      ∀ ops, runIter exRefEnv.ix it ops = .ok (runDeque (expected st.tree (Range.ofRange 4 9)) ops)) ∧
    ∀ r ∈ ids, ∃ h, st.resolve r = .ok (some h) := by
  obtain ⟨st, ids, st', r, r', out, h, hr, hr', g1, g2, hi, h', g3, g4, _⟩ := exLive
  have hsz : 10 ≤ st.tree.size exRefEnv := by
    have := ((live_insert_fails_iff rfl h false [] 10 'z' (size := 4) (by omega))).not.1 (by rw [hi]; simp)
    omega
  refine ⟨st, ids, h, by rintro rfl; simp at hr, iter_deque rfl h [] ?_, fun r hr => ?_⟩
  · simp [ValidRange, Range.ofRange]; omega
  · obtain ⟨A, e, B, c, _, _, _, k, _⟩ := ref_resolves rfl h hr
    exact ⟨_, k⟩

end Sherman
