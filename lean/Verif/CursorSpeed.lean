import Verif.TickProps
import Verif.CursorProps
import Verif.TreeProps2
import Verif.RefWalk
import Verif.LiveProps
import Verif.PathProps
/-!
# C58: what cursors save, and C09 for the default number of keys

Cursors are there "to speed up subsequent accesses" (src/cursor.rs:5-6).  With the path to a run, `get` finds that run without searching any node
above the one that stores it.  A `BoundedCursor` with room for the whole path is not used at all, because of C18.
-/
namespace Sherman
variable {S : Type} {MAX : Nat} {E : Env Nat S}

namespace Tk
variable {I : Type}

/-- A binary search takes one more step for each doubling. -/
theorem bsearch_log (ix : IdxOps I) (xs : List I) (t : I) (k left right : Nat) (h : right - left < 2 ^ k) :
    (bsearch ix xs t left right).1 ≤ k := by
  induction k generalizing left right with
  | zero =>
    have : ¬ left < right := by simp at h; omega
    unfold bsearch
    simp only [this, dif_neg, not_false_iff]
    exact Nat.le_refl _
  | succ k ih =>
    rw [Nat.pow_succ] at h
    unfold bsearch
    by_cases hl : left < right
    · simp only [hl, dif_pos]
      cases xs[left + (right - left) / 2]? with
      | none => exact Nat.zero_le _
      | some x =>
        dsimp only
        cases ix.cmp x t with
        | lt =>
          have := ih (left + (right - left) / 2 + 1) right (by omega)
          show 1 + (bsearch ix xs t (left + (right - left) / 2 + 1) right).1 ≤ k + 1
          omega
        | gt =>
          have := ih left (left + (right - left) / 2) (by omega)
          show 1 + (bsearch ix xs t left (left + (right - left) / 2)).1 ≤ k + 1
          omega
        | eq => exact Nat.le_add_left 1 k
    · simp only [hl, dif_neg, not_false_iff]
      exact Nat.zero_le _

theorem fullStep_log (ix : IdxOps I) {h : Nat} (n : Tree I S (h + 1)) (target : I) {k : Nat} (hk : (Node.keys n).length < 2 ^ k) :
    Takes (fullStep ix n target) (Sherman.fullStep ix n target) (k + 3) := by
  have hb : Takes (bsearch ix ((Node.keys n).map (·.pos)) target 0 (Node.len n))
      (Sherman.bsearch ix ((Node.keys n).map (·.pos)) target 0 (Node.len n)) k :=
    ⟨(bsearch_sim _ _ _ _ _).1, bsearch_log _ _ _ _ _ _ hk⟩
  simp only [fullStep, Sherman.fullStep]
  refine .bind hb (by omega) (fun x _ => ?_)
  match x with
  | .inr 0 => steps
  | .inl i => steps
  | .inr (k + 1) => steps

/-- A good hint makes a search step take four steps. -/
theorem searchStep_good (ix : IdxOps I) {h : Nat} (n : Tree I S (h + 1)) {hint : Option Nat} {target : I} {s : Step I}
    (hs : Sherman.hintStep ix n hint target = .ok (some s)) :
    Takes (searchStep ix n hint target) (Sherman.searchStep ix n hint target) 4 := by
  simp only [searchStep, Sherman.searchStep]
  refine .tick (by omega) (.bindLift (fun _ _ => .bind (hintStep_sim _ _ _ _) (by omega) (fun x hx => ?_)))
  rw [hs] at hx
  cases hx
  exact .pure

theorem searchStep_log (ix : IdxOps I) {h : Nat} (n : Tree I S (h + 1)) (hint : Option Nat) (target : I) {k : Nat}
    (hk : (Node.keys n).length < 2 ^ k) : Takes (searchStep ix n hint target) (Sherman.searchStep ix n hint target) (k + 7) := by
  simp only [searchStep, Sherman.searchStep]
  refine .tick (by omega) (.bindLift (fun _ _ => .bind (hintStep_sim _ _ _ _) (by omega) (fun x _ => ?_)))
  cases x with
  | some r => steps
  | none => exact (fullStep_log _ _ _ hk).mono (by omega)

end Tk

/-- What `cursor_to` and a hint say at a node, for a position within the node. -/
theorem step_cases {M lo h t : Nat} {n : Tree Nat S (h + 1)} {es : List (Ent S)} (hr : Rep M lo n es) (hp : Pos es) (ht : t < total es) :
    (Node.keys n).length ≤ 2 * M ∧
    ((∃ k p, ∀ hint, searchStep (natIdx MAX) n hint t = .ok (.key k p)) ∨
      ∃ c p ch ec, (∀ hint, searchStep (natIdx MAX) n hint t = .ok (.child c p)) ∧ Node.child n c = .ok ch ∧ Rep M M ch ec ∧ Pos ec ∧
        p ≤ t ∧ t - p < total ec ∧ (0 < h → hintStep (natIdx MAX) n (some c) t = .ok (some (.child c p)))) := by
  obtain ⟨psl, psr, c, ec, hn, a1, a2, a3, a4, a5, a6, a7, a8⟩ := hr.locate (Nat.le_of_lt ht)
  have hp' := hp
  rw [a4, Pos.append, Pos.append] at hp'
  have hpos : ∀ it ∈ psl, 0 < it.size := hp'.1.1.items
  refine ⟨?_, ?_⟩
  · rw [hn]
    simp only [mkG, List.length_append, keysL_length, keysR_length]
    omega
  have hchild : t < tot szN psl + szN c → ∃ c p ch ec, (∀ hint, searchStep (natIdx MAX) n hint t = .ok (.child c p)) ∧
      Node.child n c = .ok ch ∧ Rep M M ch ec ∧ Pos ec ∧ p ≤ t ∧ t - p < total ec ∧
      (0 < h → hintStep (natIdx MAX) n (some c) t = .ok (some (.child c p))) := by
    intro h2
    refine ⟨psl.length, tot szN psl, c, ec, ?_, ?_, a2, hp'.1.2, a7, ?_, ?_⟩
    · intro hint
      rw [searchStep_hint hr hp (Nat.le_of_lt ht) hint]
      have := fullStep_child (MAX := MAX) (p := Node.ptr n) (psr := psr) hpos a7 (.inl h2)
      rw [← hn] at this
      exact this
    · rw [hn]
      simp [Node.child, mkG, kidsOf]
    · have := a2.size
      omega
    · intro h0
      obtain ⟨h, rfl⟩ : ∃ g, h = g + 1 := ⟨h - 1, by omega⟩
      have hc : ¬ psl.length > Node.len n := by
        rw [hn]
        simp only [Node.len, mkG, List.length_append, keysL_length]
        omega
      have hcs : Node.childSize (szT (natIdx MAX)) n psl.length = .ok (szN c) := by
        rw [szT_natIdx, hn]
        exact childSize_at (KA := kidsOf psl) (KB := kidsOf psr) rfl (by simp)
      have hnp : Node.nextPos n psl.length = tot szN psl + szN c := by
        rw [hn]
        exact nextPos_at (sz := szN) (psr := psr) rfl (by simp) rfl
      have h4 : szN c ≤ tot szN psl + szN c := by omega
      have h5 : tot szN psl + szN c - szN c = tot szN psl := by omega
      simp only [hintStep, if_neg hc, hcs, R.bind_ok, hnp, subR_ok h4, h5, natIdx_le, natIdx_lt]
      simp [a7, h2]
  rcases a8 with h2 | ⟨rfl, h2⟩ | ⟨it, psr', rfl, h2, h3⟩
  · exact .inr (hchild h2)
  · right
    refine hchild ?_
    have e1 := a1.totL
    have e2 := a2.size
    rw [a4] at ht
    simp at ht
    omega
  · left
    refine ⟨psl.length, tot szN psl + szN c, fun hint => ?_⟩
    rw [searchStep_hint hr hp (Nat.le_of_lt ht) hint]
    have hf := fullStep_key (MAX := MAX) (p := Node.ptr n) (psr := psr') hpos h2 h3
    rw [← hn] at hf
    exact hf

/-- With the path that `cursor_to` gives, each level takes six steps, and only the last node is searched. -/
theorem getLoop_fast {M k : Nat} (hk : 2 * M < 2 ^ k) (idx : Nat) {lo h t : Nat} {n : Tree Nat S (h + 1)} {es : List (Ent S)} {path : List Nat}
    (hr : Rep M lo n es) (hp : Pos es) (ht : t < total es) (hc : cursorLoop (natIdx MAX) n t = .ok path) :
    Takes (Tk.getLoop (natIdx MAX) idx n (some path) t) (getLoop (natIdx MAX) idx n (some path) t) (6 * path.length + (k + 13)) := by
  induction h generalizing lo t es path with
  | zero =>
    obtain ⟨h1, h2⟩ := step_cases (MAX := MAX) hr hp ht
    simp only [Tk.getLoop, getLoop]
    refine .tick (by omega) (.bind (Tk.searchStep_log (k := k) _ _ _ _ (by omega)) (by omega) (fun x _ => ?_))
    cases x with
    | key k p => exact (Tk.getKey_sim _ _ _ _ _ _).mono (by omega)
    | child c p =>
      dsimp only
      steps
  | succ h ih =>
    obtain ⟨h1, h2⟩ := step_cases (MAX := MAX) hr hp ht
    rcases h2 with ⟨i, p, h2⟩ | ⟨c, p, ch, ec, h2, h3, h4, h5, h6, h7, h8⟩
    · simp only [Tk.getLoop, getLoop]
      refine .tick (by omega) (.bind (Tk.searchStep_log (k := k) _ _ _ _ (by omega)) (by omega) (fun x hx => ?_))
      rw [h2] at hx
      cases hx
      exact (Tk.getKey_sim _ _ _ _ _ _).mono (by omega)
    · simp only [cursorLoop, h2, R.bind_ok, subL_ok h6, h3, bind_ok_iff] at hc
      obtain ⟨rest, hc, hpath⟩ := hc
      cases hpath
      have g := ih h4 h5 h7 hc
      simp only [Tk.getLoop, getLoop, List.length_cons]
      refine .tick (by omega) (.bind (Tk.searchStep_good _ _ (hint := headHint (some (c :: rest))) (h8 (by omega))) (by omega) (fun x hx => ?_))
      rw [h2] at hx
      cases hx
      refine .bindOp (by omega) (fun t' ht' => .bindLift (fun ch' he => ?_))
      rw [subL_ok h6] at ht'
      cases ht'
      have e : (Node.child n c : R (Tree Nat S (h + 1))) = .ok ch := h3
      rw [e] at he
      cases he
      have e2 : nextHints (some (c :: rest)) (Step.child c p) = some rest := by simp [nextHints]
      rw [e2]
      exact g.mono (by omega)

theorem cursorLoop_length {I : Type} {ix : IdxOps I} {h : Nat} {n : Tree I S (h + 1)} {t : I} {path : List Nat}
    (hc : cursorLoop ix n t = .ok path) : path.length ≤ h := by
  induction h generalizing t path with
  | zero => cases hc; exact Nat.le_refl _
  | succ h ih =>
    simp only [cursorLoop, bind_ok_iff] at hc
    obtain ⟨s, _, hc⟩ := hc
    cases s with
    | key k p => cases hc; exact Nat.zero_le _
    | child c p =>
      simp only [bind_ok_iff] at hc
      obtain ⟨_, _, ch, _, rest, h1, h2⟩ := hc
      cases h2
      have := ih h1
      simp only [List.length_cons]
      omega

/-- `cursor_to` gives the same path for all positions of a run. -/
theorem cursorTo_same (hE : E.ix = natIdx MAX) {t : RleTree Nat S} (ht : Reach MAX E t) {a b : List (Ent S)} {e : Ent S} {i j : Nat}
    (hr : t.runs = a ++ e :: b) (hi : total a ≤ i ∧ i < total a + e.size) (hj : total a ≤ j ∧ j < total a + e.size) :
    t.cursorTo E i = t.cursorTo E j := by
  have hsz := (size_eq_total hE ht).1
  have htot : total t.runs = total a + (e.size + total b) := by rw [hr]; simp [total]
  have key : ∀ i, total a ≤ i ∧ i < total a + e.size → ∃ r c, t.root = some r ∧ (cells r.tree)[a.length]? = some c ∧
      t.cursorTo E i = .ok c.path := by
    intro i hi
    obtain ⟨a', e', b', r, c, h1, h2, h3, h4, h5, h6⟩ := cursorTo_path hE ht (idx := i) (by omega)
    have : a' = a := by
      rw [hr] at h1
      exact (run_unique h1 hi ⟨h2, h3⟩).1.symm
    subst this
    exact ⟨r, c, h4, h5, h6⟩
  obtain ⟨r, c, h1, h2, h3⟩ := key i hi
  obtain ⟨r', c', h1', h2', h3'⟩ := key j hj
  rw [h1] at h1'
  cases h1'
  rw [h2] at h2'
  cases h2'
  rw [h3, h3']

/-- **C58, partial.** A cursor that keeps the whole path to a run saves searching: `get` of a position of the run takes six steps
for each level and a binary search in the node that stores the run.  Missing: `BoundedCursor`, for which this is false (`bounded_cursor_unused`). -/
theorem cursor_saves_partial (hE : E.ix = natIdx MAX) {t : RleTree Nat S} (ht : Reach MAX E t) {a b : List (Ent S)} {e : Ent S} {i j : Nat}
    (hr : t.runs = a ++ e :: b) (hi : total a ≤ i ∧ i < total a + e.size) (hj : total a ≤ j ∧ j < total a + e.size) :
    ∃ path, t.cursorTo E j = .ok path ∧ (Tk.get E t path i).2 = t.get E [] i ∧
      (Tk.get E t path i).1 ≤ 6 * path.length + Nat.log 2 (2 * E.M) + 16 := by
  have hsz := (size_eq_total hE ht).1
  have htot : total t.runs = total a + (e.size + total b) := by rw [hr]; simp [total]
  obtain ⟨_, _, _, r, c, _, _, _, h4, _, h6⟩ := cursorTo_path hE ht (idx := i) (by omega)
  refine ⟨c.path, by rw [cursorTo_same hE ht hr hj hi, h6], ?_, ?_⟩
  · rw [(get_steps hE ht c.path i).1.1]
    exact (hints_irrelevant hE ht _ _ _).1
  · have hh := (ht.holds hE).2.1
    have hrep := hh.2
    rw [h4] at hrep
    simp only [RleTree.cursorTo, h4, bind_ok_iff] at h6
    obtain ⟨_, _, _, _, h6⟩ := h6
    rw [hE] at h6
    have hk : 2 * E.M < 2 ^ (Nat.log 2 (2 * E.M) + 1) := Nat.lt_pow_succ_log_self (by omega) _
    have g := getLoop_fast (MAX := MAX) hk i hrep.1 hh.1 (by omega) h6
    have : Takes (Tk.get E t c.path i) (t.get E c.path i) (2 + (6 * c.path.length + (Nat.log 2 (2 * E.M) + 1 + 13))) := by
      simp only [Tk.get, RleTree.get, h4, hE]
      refine .tick (by omega) (.bindLift fun _ _ => .bindLift fun _ _ => ?_)
      exact g.mono (by omega)
    exact Nat.le_trans this.2 (by omega)

/-- **C58, partial.** The same for the cursor that an insertion returns and the positions inserted.  Missing: `BoundedCursor`, as above, and the
insertions for which C16 is false. -/
theorem insert_cursor_saves_partial {rcMax : Nat} (hE : E.ix = natIdx MAX) {st st' : RefTree Nat S} {ids : List Nat} (hl : Live MAX rcMax E st ids)
    {hints : List Nat} {idx : Nat} {s : S} {size : Nat} {path : List Nat} {hd : Option (Nat × Nat)} (hs : size ≤ MAX)
    (h : st.insert E false hints idx s size = .ok (st', path, hd)) (hok : SplitFollows E st.tree idx s) {i : Nat} (h1 : idx ≤ i)
    (h2 : i < idx + size) :
    (Tk.get E st'.tree path i).2 = st'.tree.get E [] i ∧
      (Tk.get E st'.tree path i).1 ≤ 6 * path.length + Nat.log 2 (2 * E.M) + 16 := by
  obtain ⟨g1, A, e, B, c, g2, g3, g4, _, _⟩ := insert_path_partial hE hl hs h hok
  have hr : Reach MAX E st'.tree := by
    obtain ⟨t, out, k1, k2, _, _⟩ := RefTree.insert_ok h
    subst k2
    exact (hl.inv hE).reach.insert hs k1
  obtain ⟨path', k1, k2, k3⟩ := cursor_saves_partial hE hr (i := i) (j := i) g2 (by omega) (by omega)
  rw [g1 i h1 h2] at k1
  cases k1
  exact ⟨k2, k3⟩

/-! ## The default number of keys -/

/-- **C09.** With the default number of keys (src/tree/mod.rs:52), a tree with 8 levels below the root has at least 3 359 231 runs, as
the documentation of `BoundedCursor` says (src/cursor.rs:47-51), and a tree of fewer than 20 155 391 runs has at most 8. -/
theorem height_default (hE : E.ix = natIdx MAX) (hM : E.M = 5) {t : RleTree Nat S} (ht : Reach MAX E t) {r : Root Nat S} (hr : t.root = some r) :
    (8 ≤ r.h → 3359231 ≤ t.numberOfSlices) ∧ (t.numberOfSlices < 20155391 → r.h ≤ 8) := by
  have h0 := height_log hE ht hr
  rw [hM] at h0
  constructor
  · intro h
    have : (5 + 1) ^ 8 ≤ (5 + 1) ^ r.h := Nat.pow_le_pow_right (by omega) h
    omega
  · intro h
    by_contra hc
    have : (5 + 1) ^ 9 ≤ (5 + 1) ^ r.h := Nat.pow_le_pow_right (by omega) (by omega)
    omega

/-! ## Bounded cursors -/

/-- A path that starts with the filler is not used. -/
theorem hintStep_filler {I : Type} (ix : IdxOps I) {h : Nat} (n : Tree I S (h + 1)) (target : I) (hn : (Node.keys n).length < Cursor.filler) :
    Tk.hintStep ix n (some Cursor.filler) target = Tk.hintStep ix n none target := by
  cases h with
  | zero => rfl
  | succ h =>
    have : Cursor.filler > Node.len n := hn
    simp only [Tk.hintStep, this, if_true]

theorem T.bind_congr {α β : Type} {m : T α} {f g : α → T β} (h : ∀ x, m.2 = .ok x → f x = g x) : (m >>= f) = (m >>= g) := by
  obtain ⟨c, r⟩ := m
  cases r with
  | error e => rfl
  | ok x =>
    show ((c + (f x).1, (f x).2) : Nat × R β) = (c + (g x).1, (g x).2)
    rw [h x rfl]

/-- The child that a search goes into exists, or is the first. -/
theorem searchStep_child {I : Type} {ix : IdxOps I} {h : Nat} {n : Tree I S (h + 1)} {t : I} {c : Nat} {p : I}
    (hs : searchStep ix n none t = .ok (.child c p)) : c = 0 ∨ c < (Node.kids n).length := by
  simp only [searchStep, bind_ok_iff] at hs
  obtain ⟨_, _, r, h1, hs⟩ := hs
  have : r = none := by cases h <;> cases h1 <;> rfl
  subst this
  simp only [fullStep, bind_ok_iff] at hs
  obtain ⟨r, -, hs⟩ := hs
  split at hs
  · cases hs; exact .inl rfl
  · simp only [bind_ok_iff] at hs
    obtain ⟨_, -, hs⟩ := hs
    cases hs
  · simp only [bind_ok_iff] at hs
    obtain ⟨cs, h2, _, _, st, _, hs⟩ := hs
    split at hs
    · simp only [bind_ok_iff] at hs
      obtain ⟨_, -, hs⟩ := hs
      cases hs
    · cases hs
      right
      simp only [Node.childSize, bind_ok_iff] at h2
      obtain ⟨ch, h2, _⟩ := h2
      simp only [Node.child] at h2
      split at h2
      · rename_i hk
        exact (List.getElem?_eq_some_iff.1 hk).1
      · cases h2

theorem nextHints_filler {I : Type} {ix : IdxOps I} {h : Nat} {n : Tree I S (h + 1)} {t : I} {c : Nat} {p : I} (rest : List Nat)
    (hn : (Node.kids n).length ≤ Cursor.filler) (hs : searchStep ix n none t = .ok (.child c p)) (q : I) :
    nextHints (some (Cursor.filler :: rest)) (Step.child c q) = nextHints (some []) (Step.child c q) := by
  have : c ≠ Cursor.filler := by
    have := searchStep_child hs
    simp only [Cursor.filler] at *
    omega
  simp [nextHints, this]

theorem searchStep_filler {I : Type} (ix : IdxOps I) {h : Nat} (n : Tree I S (h + 1)) (rest : List Nat) (target : I)
    (hn : (Node.keys n).length < Cursor.filler) :
    Tk.searchStep ix n (headHint (some (Cursor.filler :: rest))) target = Tk.searchStep ix n none target := by
  simp only [Tk.searchStep, headHint, Option.bind_some, List.head?_cons]
  rw [hintStep_filler ix n target hn]

theorem getLoop_filler {I : Type} (ix : IdxOps I) (idx : I) {h : Nat} (n : Tree I S (h + 1)) (rest : List Nat) (target : I)
    (hn : (Node.keys n).length < Cursor.filler) (hk : (Node.kids n).length ≤ Cursor.filler) :
    Tk.getLoop ix idx n (some (Cursor.filler :: rest)) target = Tk.getLoop ix idx n (some []) target := by
  have e1 := searchStep_filler ix n rest target hn
  have e2 : headHint (some ([] : List Nat)) = none := rfl
  cases h with
  | zero => simp only [Tk.getLoop, e1, e2]
  | succ h =>
    simp only [Tk.getLoop, e1, e2]
    refine T.bind_congr fun _ _ => T.bind_congr fun x hx => ?_
    rw [(Tk.searchStep_sim ix n none target).1] at hx
    cases x with
    | key k p => rfl
    | child c p => simp only [nextHints_filler rest hk hx]

theorem findPoint_filler {H h : Nat} {I : Type} (E : Env I S) (n : Tree I S (h + 1)) (ctx : Ctx I S H (h + 1)) (rest : List Nat)
    (target : I) (l r : Option (Nat × Nat)) (hn : (Node.keys n).length < Cursor.filler) (hk : (Node.kids n).length ≤ Cursor.filler) :
    Tk.findPoint E n ctx (some (Cursor.filler :: rest)) target l r = Tk.findPoint E n ctx (some []) target l r := by
  have e1 := searchStep_filler E.ix n rest target hn
  have e2 : headHint (some ([] : List Nat)) = none := rfl
  have e3 : Tk.findStep E.ix n (headHint (some (Cursor.filler :: rest))) target = Tk.findStep E.ix n none target := by
    simp only [Tk.findStep, e1]
  cases h with
  | zero => simp only [Tk.findPoint, e3, e2]
  | succ h =>
    simp only [Tk.findPoint, e3, e2]
    refine T.bind_congr fun _ _ => T.bind_congr fun x hx => ?_
    rw [(Tk.findStep_sim (K := Cursor.filler) E.ix (n := n) ⟨by omega, by omega⟩ none target).1] at hx
    cases x with
    | key k p => rfl
    | child c p =>
      have : nextHints (some (Cursor.filler :: rest)) (Step.child c p) = nextHints (some []) (Step.child c p) := by
        have : c ≠ Cursor.filler := by
          simp only [findStep, bind_ok_iff] at hx
          obtain ⟨s, h1, hx⟩ := hx
          cases s with
          | child c' p' =>
            cases hx
            have := searchStep_child h1
            simp only [Cursor.filler] at *
            omega
          | key i q =>
            dsimp only at hx
            split at hx
            · simp only [bind_ok_iff] at hx
              obtain ⟨cs, h2, _, _, hx⟩ := hx
              cases hx
              simp only [Node.childSize, bind_ok_iff] at h2
              obtain ⟨ch, h2, _⟩ := h2
              have := (List.getElem?_eq_some_iff.1 (Tk.child_mem h2)).1
              simp only [Cursor.filler] at *
              omega
            · cases hx
        simp [nextHints, this]
      simp only [this]

/-- What is left of a path that is shorter than the cursor starts with the filler. -/
theorem actual_short {LEN : Nat} {cs : List Nat} (h : cs.length < LEN) : ∃ rest, Cursor.actual LEN cs = Cursor.filler :: rest := by
  obtain ⟨n, rfl⟩ : ∃ n, LEN = n + 1 := ⟨LEN - 1, by omega⟩
  refine ⟨((cs.take n).reverse).take n, ?_⟩
  have : cs.drop n = [] := List.drop_eq_nil_of_le (by omega)
  simp only [Cursor.actual, Nat.add_sub_cancel, this]
  rfl

/-- **C58, negation.** A `BoundedCursor` with room for more than the whole path is not used: with the cursor that `cursor_to` makes, `get` and
`insert` take exactly the steps that they take without a cursor, at every position. -/
theorem bounded_cursor_unused (hE : E.ix = natIdx MAX) {t : RleTree Nat S} (ht : Reach MAX E t) {r : Root Nat S} (hr : t.root = some r)
    {LEN : Nat} (hL : LEN ≤ 255) (hh : r.h < LEN) {j : Nat} {path : List Nat} (hc : t.cursorTo E j = .ok path) :
    ∃ hints, Cursor.roundTrip LEN path.reverse = .ok hints ∧ (∀ i, Tk.get E t hints i = Tk.get E t [] i) ∧
      ∀ nop i s z w, Tk.insert E t nop hints i s z w = Tk.insert E t nop [] i s z w := by
  have hp : path.length ≤ r.h := by
    simp only [RleTree.cursorTo, hr, bind_ok_iff] at hc
    obtain ⟨_, _, _, _, hc⟩ := hc
    exact cursorLoop_length hc
  have hM := (ht.holds hE).1.2
  have hf := (Tk.FitT.ofShape (shape hE ht hr)).1
  have h1 : (Node.keys r.tree).length < Cursor.filler := by
    have := hf.1
    simp only [Cursor.filler]
    omega
  have h2 : (Node.kids r.tree).length ≤ Cursor.filler := by
    have := hf.2
    simp only [Cursor.filler]
    omega
  obtain ⟨rest, he⟩ := actual_short (LEN := LEN) (cs := path.reverse) (by rw [List.length_reverse]; omega)
  refine ⟨_, Cursor.roundTrip_eq LEN hL _, ?_, ?_⟩
  · intro i
    rw [he]
    simp only [Tk.get, hr, getLoop_filler E.ix i r.tree rest i h1 h2]
  · intro nop i s z w
    rw [he]
    simp only [Tk.insert, hr, findPoint_filler E r.tree .top rest i none none h1 h2]

/-- **C58, negation.** In particular, with the default number of keys and the default cursor, no cursor is used in trees of fewer than
3 359 231 runs. -/
theorem default_cursor_unused (hE : E.ix = natIdx MAX) (hM : E.M = 5) {t : RleTree Nat S} (ht : Reach MAX E t)
    (hn : t.numberOfSlices < 3359231) {j : Nat} {path : List Nat} (hc : t.cursorTo E j = .ok path) :
    ∃ hints, Cursor.roundTrip 8 path.reverse = .ok hints ∧ (∀ i, Tk.get E t hints i = Tk.get E t [] i) ∧
      ∀ nop i s z w, Tk.insert E t nop hints i s z w = Tk.insert E t nop [] i s z w := by
  cases hr : t.root with
  | none =>
    simp only [RleTree.cursorTo, hr, bind_ok_iff] at hc
    obtain ⟨_, _, _, _, hc⟩ := hc
    cases hc
  | some r =>
    refine bounded_cursor_unused hE ht hr (by omega) ?_ hc
    by_contra hcon
    have := (height_default hE hM ht hr).1 (by omega)
    omega

/-! ## Examples -/

/-- Trees of characters over `u8` with the default number of keys; src/tree/mod.rs:52 -/
def exEnv5 : Env Nat Char := { exEnv with M := 5 }

/-- The example history in such a tree: it has eleven runs, and so more than one node. -/
theorem exReach5 : ∃ t, Reach 255 exEnv5 t ∧ t.runs.length = 11 ∧ t.size exEnv5 = 29 := by
  obtain ⟨t, _, h2, h3⟩ := insertAll_returns (E := exEnv5) (MAX := 255) rfl (t := ⟨none⟩) (.empty rfl) (ops := exOps)
    (by decide)
    (es' := [⟨1, 'd', none⟩, ⟨1, 'f', none⟩, ⟨1, 'd', none⟩, ⟨5, 'a', none⟩, ⟨1, 'c', none⟩, ⟨1, 'e', none⟩,
      ⟨2, 'c', none⟩, ⟨2, 'a', none⟩, ⟨1, 'e', none⟩, ⟨3, 'a', none⟩, ⟨11, 'b', none⟩]) (by decide)
  exact ⟨t, h3, by rw [h2]; rfl, by rw [(size_eq_total (MAX := 255) rfl h3).1, h2]; rfl⟩

theorem runsK_leaf {C : Type} (size : Nat) (sz : C → Nat) (cs : List C) (ks : List (Key Nat S)) :
    (runsK (S := S) size sz (fun _ => []) cs ks).length ≤ ks.length := by
  induction cs generalizing ks with
  | nil => simp [runsK]
  | cons c cs ih =>
    cases ks with
    | nil => simp [runsK]
    | cons k ks => simpa [runsK] using ih ks

/-- Two positions of one run in the middle of a tree with several levels. -/
example : ∃ t, Reach 255 exEnv t ∧ ∃ path, t.cursorTo exEnv 4 = .ok path ∧ (Tk.get exEnv t path 6).2 = t.get exEnv [] 6 ∧
    (Tk.get exEnv t path 6).1 ≤ 6 * path.length + Nat.log 2 (2 * 1) + 16 := by
  obtain ⟨t, _, h2, h3⟩ := exReach
  obtain ⟨a, b, e1, e2, e3⟩ := List.map_eq_append_iff.1
    (show t.runs.map (fun e => (e.size, e.slice)) = [(1, 'd'), (1, 'f'), (1, 'd')] ++
      [(5, 'a'), (1, 'c'), (1, 'e'), (2, 'c'), (2, 'a'), (1, 'e'), (3, 'a'), (11, 'b')] from h3)
  obtain ⟨e, b', rfl, e4, _⟩ := List.map_eq_cons_iff.1 e3
  have ha : total a = 3 := by
    have := congrArg (fun l => (l.map (·.1)).sum) e2
    simpa [total, Function.comp_def] using this
  have he : e.size = 5 := congrArg Prod.fst e4
  exact ⟨t, h2, cursor_saves_partial (E := exEnv) (MAX := 255) rfl h2 e1 (by omega) (by omega)⟩

/-- The default cursor in a tree with the default number of keys, which has more than one level. -/
example : ∃ t, Reach 255 exEnv5 t ∧ (∃ r, t.root = some r ∧ 1 ≤ r.h ∧ r.h ≤ 8) ∧ ∃ path hints, t.cursorTo exEnv5 4 = .ok path ∧
    Cursor.roundTrip 8 path.reverse = .ok hints ∧ Tk.get exEnv5 t hints 6 = Tk.get exEnv5 t [] 6 := by
  obtain ⟨t, h1, h2, h3⟩ := exReach5
  have hn : t.numberOfSlices = 11 := by rw [numberOfSlices_eq (E := exEnv5) (MAX := 255) rfl h1, h2]
  obtain ⟨_, _, _, r, c, _, _, _, h4, _, h6⟩ := cursorTo_path (E := exEnv5) (MAX := 255) rfl h1 (idx := 4) (by omega)
  obtain ⟨hints, k1, k2, _⟩ := default_cursor_unused (E := exEnv5) (MAX := 255) rfl rfl h1 (by omega) h6
  refine ⟨t, h1, ⟨r, h4, ?_, (height_default (E := exEnv5) (MAX := 255) rfl rfl h1 h4).2 (by omega)⟩, _, hints, h6, k1, k2 6⟩
  by_contra hcon
  obtain ⟨h, tree, len⟩ := r
  obtain rfl : h = 0 := by simpa using hcon
  have hf := (Tk.FitT.ofShape (shape (E := exEnv5) (MAX := 255) rfl h1 h4)).1.1
  have := runsK_leaf (S := Char) (Node.size tree) szN (Node.kids tree) (Node.keys tree)
  have he : t.runs = runsK (Node.size tree) szN (fun _ => []) (Node.kids tree) (Node.keys tree) := by
    simp only [RleTree.runs, h4]
    rfl
  rw [← he, h2] at this
  have h5 : 2 * exEnv5.M = 10 := rfl
  rw [h5] at hf
  dsimp only at hf
  omega

/-- An insertion into a tree with several levels. -/
example : ∃ st st' path hd, Live 255 1000 exRefEnv st [] ∧ st.insert exRefEnv false [] 10 'z' 4 = .ok (st', path, hd) ∧
    (Tk.get exRefEnv st'.tree path 12).1 ≤ 6 * path.length + Nat.log 2 (2 * 1) + 16 := by
  obtain ⟨st, _, hl, hr⟩ := exLive0
  obtain ⟨st', ⟨path, hd⟩, h, _, _⟩ := live_insert_returns (E := exRefEnv) (MAX := 255) rfl hl false [] 'z' (idx := 10) (size := 4)
    (by rw [hr]; decide) (by omega) (by rw [hr]; decide) (es' := [⟨5, 'a', none⟩, ⟨3, 'c', none⟩, ⟨2, 'a', none⟩, ⟨4, 'z', none⟩, ⟨3, 'a', none⟩,
      ⟨10, 'b', none⟩]) (by rw [hr]; decide)
  exact ⟨st, st', path, hd, hl, h, (insert_cursor_saves_partial (E := exRefEnv) (MAX := 255) rfl hl (by omega) h (splitFollows_const _ _ _)
    (by omega) (by omega)).2⟩

end Sherman
