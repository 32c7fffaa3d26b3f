import Verif.CursorSpeed
/-!
# What a useless cursor costs

C58: `get` drops a cursor at the first component that is not the child which the search goes into (src/tree/mod.rs:412-421).  So a cursor for a
different place costs three steps for each level where it was still right, and three for finding out.
-/
namespace Sherman
variable {S : Type} {MAX : Nat} {E : Env Nat S}

/-- How many components two paths have in common. -/
def inCommon : List Nat → List Nat → Nat
  | a :: as, b :: bs => if a = b then inCommon as bs + 1 else 0
  | _, _ => 0

theorem T.bind_le {α β : Type} {m m' : T α} {f f' : α → T β} {a b : Nat} (h : m.1 ≤ m'.1 + a) (hv : ∀ x, m.2 = .ok x → m'.2 = .ok x)
    (hf : ∀ x, m.2 = .ok x → (f x).1 ≤ (f' x).1 + b) : (m >>= f).1 ≤ (m' >>= f').1 + (a + b) := by
  obtain ⟨c, r⟩ := m
  obtain ⟨c', r'⟩ := m'
  cases r with
  | error e =>
    have h : c ≤ c' + a := h
    cases r' with
    | error e' =>
      show c ≤ c' + (a + b)
      omega
    | ok x =>
      show c ≤ c' + (f' x).1 + (a + b)
      omega
  | ok x =>
    have h1 := hv x rfl
    have h2 := hf x rfl
    dsimp only at h1
    subst h1
    have h : c ≤ c' + a := h
    show c + (f x).1 ≤ c' + (f' x).1 + (a + b)
    omega

theorem T.bind_le_right {α β : Type} {m : T α} {f f' : α → T β} {b : Nat} (hf : ∀ x, m.2 = .ok x → (f x).1 ≤ (f' x).1 + b) :
    (m >>= f).1 ≤ (m >>= f').1 + b := by
  have := T.bind_le (m := m) (m' := m) (a := 0) (Nat.le_refl _) (fun _ h => h) hf
  rwa [Nat.zero_add] at this

theorem hintStep_none {I : Type} (ix : IdxOps I) {h : Nat} (n : Tree I S (h + 1)) (t : I) : Tk.hintStep ix n none t = pure none := by
  cases h <;> rfl

/-- A hint costs at most three steps. -/
theorem searchStep_extra {I : Type} (ix : IdxOps I) {h : Nat} (n : Tree I S (h + 1)) (hint : Option Nat) (t : I) :
    (Tk.searchStep ix n hint t).1 ≤ (Tk.searchStep ix n none t).1 + 3 := by
  simp only [Tk.searchStep, hintStep_none]
  refine T.bind_le_right fun _ _ => T.bind_le_right fun _ _ => ?_
  have hc := (Tk.hintStep_sim ix n hint t).2
  generalize Tk.hintStep ix n hint t = m at hc ⊢
  obtain ⟨c, r⟩ := m
  show _ ≤ 0 + (Tk.fullStep ix n t).1 + 3
  dsimp only at hc
  cases r with
  | error e =>
    show c ≤ _
    omega
  | ok x =>
    cases x with
    | some s =>
      show c + 0 ≤ _
      omega
    | none =>
      show c + (Tk.fullStep ix n t).1 ≤ _
      omega

theorem getLoop_overhead {M : Nat} (idx : Nat) {lo h t : Nat} {n : Tree Nat S (h + 1)} {es : List (Ent S)} {path : List Nat}
    (hr : Rep M lo n es) (hp : Pos es) (ht : t < total es) (hc : cursorLoop (natIdx MAX) n t = .ok path) (hints : List Nat) :
    (Tk.getLoop (natIdx MAX) idx n (some hints) t).1 ≤ (Tk.getLoop (natIdx MAX) idx n none t).1 + 3 * (inCommon hints path + 1) := by
  induction h generalizing lo t es path hints with
  | zero =>
    obtain ⟨-, h2⟩ := step_cases (MAX := MAX) hr hp ht
    have hs : ∃ s, ∀ hint, searchStep (natIdx MAX) n hint t = .ok s := by
      rcases h2 with ⟨i, p, h2⟩ | ⟨c, p, ch, ec, h2, -⟩
      · exact ⟨_, h2⟩
      · exact ⟨_, h2⟩
    obtain ⟨s, hs⟩ := hs
    simp only [Tk.getLoop]
    refine Nat.le_trans (m := _ + 3) ?_ (Nat.add_le_add_left (by omega) _)
    refine T.bind_le_right fun _ _ => T.bind_le (a := 3) (b := 0) (searchStep_extra _ _ _ _) (fun x hx => ?_) fun x _ => Nat.le_refl _
    rw [(Tk.searchStep_sim _ _ _ _).1] at hx ⊢
    rw [hs] at hx ⊢
    exact hx
  | succ h ih =>
    obtain ⟨-, h2⟩ := step_cases (MAX := MAX) hr hp ht
    rcases h2 with ⟨i, p, h2⟩ | ⟨c, p, ch, ec, h2, h3, h4, h5, h6, h7, -⟩
    · simp only [Tk.getLoop]
      refine Nat.le_trans (m := _ + 3) ?_ (Nat.add_le_add_left (by omega) _)
      refine T.bind_le_right fun _ _ => T.bind_le (a := 3) (b := 0) (searchStep_extra _ _ _ _) (fun x hx => ?_) fun x hx => ?_
      · rw [(Tk.searchStep_sim _ _ _ _).1] at hx ⊢
        rw [h2] at hx ⊢
        exact hx
      · rw [(Tk.searchStep_sim _ _ _ _).1, h2] at hx
        cases hx
        exact Nat.le_refl _
    · simp only [cursorLoop, h2, R.bind_ok, subL_ok h6, h3, bind_ok_iff] at hc
      obtain ⟨rest, hc, hpath⟩ := hc
      cases hpath
      have key : ∀ (k k' : Nat), ((Tk.searchStep (natIdx MAX) n (headHint (some hints)) t).1 ≤
          (Tk.searchStep (natIdx MAX) n none t).1 + k) →
          ((Tk.getLoop (natIdx MAX) idx ch (nextHints (some hints) (Step.child c p)) (t - p)).1 ≤
            (Tk.getLoop (natIdx MAX) idx ch none (t - p)).1 + k') →
          (Tk.getLoop (natIdx MAX) idx n (some hints) t).1 ≤ (Tk.getLoop (natIdx MAX) idx n none t).1 + (k + k') := by
        intro k k' hk hk'
        simp only [Tk.getLoop]
        refine T.bind_le_right fun _ _ => T.bind_le (a := k) (b := k') hk (fun x hx => ?_) fun x hx => ?_
        · rw [(Tk.searchStep_sim _ _ _ _).1] at hx ⊢
          rw [h2] at hx ⊢
          exact hx
        · rw [(Tk.searchStep_sim _ _ _ _).1, h2] at hx
          cases hx
          refine T.bind_le_right fun t' ht' => T.bind_le_right fun ch' he => ?_
          have ht' : (natIdx MAX).subL t p = .ok t' := ht'
          rw [subL_ok h6] at ht'
          cases ht'
          have he : (Node.child n c : R (Tree Nat S (h + 1))) = .ok ch' := he
          rw [h3] at he
          cases he
          exact hk'
      cases hints with
      | nil =>
        refine Nat.le_trans (key 0 0 (Nat.le_refl _) (Nat.le_refl _)) (by omega)
      | cons d ds =>
        by_cases hd : d = c
        · subst hd
          have g := ih h4 h5 h7 hc ds
          have e : nextHints (some (d :: ds)) (Step.child d p) = some ds := by simp [nextHints]
          refine Nat.le_trans (key 3 (3 * (inCommon ds rest + 1)) (searchStep_extra _ _ _ _) (by rw [e]; exact g)) ?_
          simp only [inCommon, if_true]
          omega
        · have e : nextHints (some (d :: ds)) (Step.child c p) = none := by simp [nextHints, Ne.symm hd]
          refine Nat.le_trans (key 3 0 (searchStep_extra _ _ _ _) (by rw [e]; exact Nat.le_refl _)) ?_
          simp only [inCommon, if_neg hd]
          omega

theorem getLoop_nil {I : Type} (ix : IdxOps I) (idx : I) {h : Nat} (n : Tree I S (h + 1)) (t : I) :
    Tk.getLoop ix idx n (some []) t = Tk.getLoop ix idx n none t := by
  cases h <;> rfl

/-- C58: whatever path a cursor gives, `get` takes at most three more steps than without a cursor for each component that is on the way to the
position, and three for the first one that is not; what the cursor gives after that has no effect. -/
theorem cursor_costs (hE : E.ix = natIdx MAX) {t : RleTree Nat S} (ht : Reach MAX E t) {i : Nat} {path : List Nat} (hc : t.cursorTo E i = .ok path)
    (hints : List Nat) : (Tk.get E t hints i).1 ≤ (Tk.get E t [] i).1 + 3 * (inCommon hints path + 1) := by
  cases h4 : t.root with
  | none =>
    simp only [RleTree.cursorTo, h4, bind_ok_iff] at hc
    obtain ⟨_, _, _, _, hc⟩ := hc
    cases hc
  | some r =>
    have hh := (ht.holds hE).2.1
    have hrep := hh.2
    rw [h4] at hrep
    have hsz := (size_eq_total hE ht).1
    simp only [RleTree.cursorTo, h4, bind_ok_iff] at hc
    obtain ⟨_, _, _, hlt, hc⟩ := hc
    rw [hE] at hc hlt
    have hlt : i < t.size E := by
      simp only [check] at hlt
      split at hlt
      · rename_i h; simpa [natIdx, IdxOps.lt, compare_lt_iff_lt] using h
      · cases hlt
    have g := getLoop_overhead (MAX := MAX) i hrep.1 hh.1 (by omega) hc hints
    simp only [Tk.get, h4, hE]
    rw [getLoop_nil]
    exact T.bind_le_right fun _ _ => T.bind_le_right fun _ _ => T.bind_le_right fun _ _ => g

/-! ## What a cursor saves that is right in part -/

theorem inCommon_nil (path : List Nat) : inCommon [] path = 0 := by unfold inCommon; rfl

theorem getLoop_part {M k : Nat} (hk : 2 * M < 2 ^ k) (idx : Nat) {lo h t : Nat} {n : Tree Nat S (h + 1)} {es : List (Ent S)} {path : List Nat}
    (hr : Rep M lo n es) (hp : Pos es) (ht : t < total es) (hc : cursorLoop (natIdx MAX) n t = .ok path) (hs : Option (List Nat)) :
    Takes (Tk.getLoop (natIdx MAX) idx n hs t) (getLoop (natIdx MAX) idx n hs t)
      (6 * inCommon (hs.getD []) path + (k + 13) * (path.length - inCommon (hs.getD []) path + 1)) := by
  induction h generalizing lo t es path hs with
  | zero =>
    obtain ⟨h1, h2⟩ := step_cases (MAX := MAX) hr hp ht
    suffices g : Takes (Tk.getLoop (natIdx MAX) idx n hs t) (getLoop (natIdx MAX) idx n hs t) (k + 13) from g.mono (by rw [Nat.mul_add, Nat.mul_one]; omega)
    simp only [Tk.getLoop, getLoop]
    refine .tick (by omega) (.bind (Tk.searchStep_log (k := k) _ _ _ _ (by omega)) (by omega) (fun x _ => ?_))
    cases x with
    | key k p => exact (Tk.getKey_sim _ _ _ _ _ _).mono (by omega)
    | child c p =>
      dsimp only
      steps
  | succ h ih =>
    obtain ⟨h1, h2⟩ := step_cases (MAX := MAX) hr hp ht
    rcases h2 with ⟨i, p, h2⟩ | ⟨c, p, ch, ec, h2, h3, h4, h5, h6, h7, h8⟩
    · suffices g : Takes (Tk.getLoop (natIdx MAX) idx n hs t) (getLoop (natIdx MAX) idx n hs t) (k + 13) from g.mono (by rw [Nat.mul_add, Nat.mul_one]; omega)
      simp only [Tk.getLoop, getLoop]
      refine .tick (by omega) (.bind (Tk.searchStep_log (k := k) _ _ _ _ (by omega)) (by omega) (fun x hx => ?_))
      rw [h2] at hx
      cases hx
      exact (Tk.getKey_sim _ _ _ _ _ _).mono (by omega)
    · simp only [cursorLoop, h2, R.bind_ok, subL_ok h6, h3, bind_ok_iff] at hc
      obtain ⟨rest, hc, hpath⟩ := hc
      cases hpath
      have key : ∀ a b : Nat, Takes (Tk.searchStep (natIdx MAX) n (headHint hs) t) (searchStep (natIdx MAX) n (headHint hs) t) a →
          Takes (Tk.getLoop (natIdx MAX) idx ch (nextHints hs (Step.child c p)) (t - p))
            (getLoop (natIdx MAX) idx ch (nextHints hs (Step.child c p)) (t - p)) b →
          Takes (Tk.getLoop (natIdx MAX) idx n hs t) (getLoop (natIdx MAX) idx n hs t) (a + 2 + b) := by
        intro a b ha hb
        simp only [Tk.getLoop, getLoop]
        refine .tick (by omega) (.bind ha (by omega) (fun x hx => ?_))
        rw [h2] at hx
        cases hx
        refine .bindOp (by omega) (fun t' ht' => .bindLift (fun ch' he => ?_))
        rw [subL_ok h6] at ht'
        cases ht'
        have e : (Node.child n c : R (Tree Nat S (h + 1))) = .ok ch := h3
        rw [e] at he
        cases he
        exact hb.mono (by omega)
      have other : (nextHints hs (Step.child c p) = none) → inCommon (hs.getD []) (c :: rest) = 0 →
          Takes (Tk.getLoop (natIdx MAX) idx n hs t) (getLoop (natIdx MAX) idx n hs t)
            (6 * inCommon (hs.getD []) (c :: rest) + (k + 13) * ((c :: rest).length - inCommon (hs.getD []) (c :: rest) + 1)) := by
        intro e1 e2
        have g := ih h4 h5 h7 hc none
        rw [← e1] at g
        refine (key _ _ (Tk.searchStep_log (k := k) _ _ _ _ (by omega)) g).mono ?_
        rw [e2, e1]
        simp only [Option.getD_none, inCommon_nil, List.length_cons, Nat.sub_zero]
        rw [Nat.mul_add (k + 13) (rest.length + 1) 1]
        omega
      cases hs with
      | none => exact other rfl (inCommon_nil _)
      | some hl =>
        cases hl with
        | nil => exact other rfl (inCommon_nil _)
        | cons d ds =>
          by_cases hd : d = c
          · subst hd
            have g := ih h4 h5 h7 hc (some ds)
            have e : nextHints (some (d :: ds)) (Step.child d p) = some ds := by simp [nextHints]
            rw [← e] at g
            refine (key _ _ (Tk.searchStep_good _ _ (hint := headHint (some (d :: ds))) (h8 (by omega))) g).mono ?_
            rw [e]
            simp only [Option.getD_some, inCommon, if_true, List.length_cons, Nat.add_sub_add_right]
            omega
          · refine other (by simp [nextHints, Ne.symm hd]) (by simp [inCommon, hd])

/-- C58: whatever path a cursor gives, each component that is on the way to the position saves searching one node: such a level takes six steps,
the others a binary search of a node. -/
theorem cursor_saves_part (hE : E.ix = natIdx MAX) {t : RleTree Nat S} (ht : Reach MAX E t) {i : Nat} {path : List Nat}
    (hc : t.cursorTo E i = .ok path) (hints : List Nat) :
    (Tk.get E t hints i).1 ≤ 6 * inCommon hints path + (Nat.log 2 (2 * E.M) + 14) * (path.length - inCommon hints path + 1) + 2 := by
  cases h4 : t.root with
  | none =>
    simp only [RleTree.cursorTo, h4, bind_ok_iff] at hc
    obtain ⟨_, _, _, _, hc⟩ := hc
    cases hc
  | some r =>
    have hh := (ht.holds hE).2.1
    have hrep := hh.2
    rw [h4] at hrep
    have hsz := (size_eq_total hE ht).1
    simp only [RleTree.cursorTo, h4, bind_ok_iff] at hc
    obtain ⟨_, _, _, hlt, hc⟩ := hc
    rw [hE] at hc hlt
    have hlt : i < t.size E := by
      simp only [check] at hlt
      split at hlt
      · rename_i h; simpa [natIdx, IdxOps.lt, compare_lt_iff_lt] using h
      · cases hlt
    have hk : 2 * E.M < 2 ^ (Nat.log 2 (2 * E.M) + 1) := Nat.lt_pow_succ_log_self (by omega) _
    have g := getLoop_part (MAX := MAX) hk i hrep.1 hh.1 (by omega) hc (some hints)
    have : Takes (Tk.get E t hints i) (t.get E hints i) (2 + (6 * inCommon hints path +
        (Nat.log 2 (2 * E.M) + 14) * (path.length - inCommon hints path + 1))) := by
      simp only [Tk.get, RleTree.get, h4, hE]
      refine .tick (by omega) (.bindLift fun _ _ => .bindLift fun _ _ => ?_)
      exact Takes.mono g (by simp only [Option.getD_some, Nat.add_assoc, Nat.reduceAdd]; omega)
    exact Nat.le_trans this.2 (by omega)

theorem inCommon_take (path : List Nat) (n : Nat) (h : n ≤ path.length) : inCommon (path.take n) path = n := by
  induction path generalizing n with
  | nil => simp at h; subst h; rfl
  | cons a path ih =>
    cases n with
    | zero => rfl
    | succ n => simp at h; simp [inCommon, ih n h]

/-- **C58, partial.** A `BoundedCursor` in a tree that is deep enough saves as many searches as it has room for.  Missing: paths with fewer than
`2·LEN - 1` components, for which C18 is false, in particular those with fewer than `LEN` (`bounded_cursor_unused`). -/
theorem bounded_cursor_saves_partial (hE : E.ix = natIdx MAX) {t : RleTree Nat S} (ht : Reach MAX E t) {i : Nat} {path : List Nat}
    (hc : t.cursorTo E i = .ok path) {LEN : Nat} (hL : LEN ≤ 255) (hp : 2 * LEN - 1 ≤ path.length) :
    ∃ hints, Cursor.roundTrip LEN path.reverse = .ok hints ∧
      (Tk.get E t hints i).1 ≤ 6 * LEN + (Nat.log 2 (2 * E.M) + 14) * (path.length - LEN + 1) + 2 := by
  refine ⟨_, Cursor.roundTrip_ideal_partial LEN hL path.reverse (by simpa using hp), ?_⟩
  have := cursor_saves_part hE ht hc (Cursor.ideal LEN path.reverse)
  rw [Cursor.ideal, List.reverse_reverse, inCommon_take path LEN (by omega)] at this
  rw [Cursor.ideal, List.reverse_reverse]
  exact this

/-! ## Insertion -/

theorem findStep_extra {M lo h t : Nat} {n : Tree Nat S (h + 1)} {es : List (Ent S)} (hr : Rep M lo n es) (hp : Pos es) (ht : t ≤ total es)
    (hint : Option Nat) : (Tk.findStep (natIdx MAX) n hint t).1 ≤ (Tk.findStep (natIdx MAX) n none t).1 + 3 := by
  simp only [Tk.findStep]
  refine T.bind_le (a := 3) (b := 0) (searchStep_extra _ _ _ _) (fun x hx => ?_) fun x _ => Nat.le_refl _
  rw [(Tk.searchStep_sim _ _ _ _).1] at hx ⊢
  rw [searchStep_hint hr hp ht] at hx ⊢
  exact hx

theorem findStep_value {I : Type} (ix : IdxOps I) {h : Nat} (n : Tree I S (h + 1)) (hint : Option Nat) (t : I) :
    (Tk.findStep ix n hint t).2 = findStep ix n hint t :=
  (Tk.findStep_sim (K := (Node.keys n).length + (Node.kids n).length) ix (n := n) ⟨by omega, by omega⟩ hint t).1

theorem findPoint_overhead (hE : E.ix = natIdx MAX) {M H lo h t : Nat} {n : Tree Nat S (h + 1)} {es : List (Ent S)} (hr : Rep M lo n es) (hp : Pos es)
    (ht : t ≤ total es) (ctx : Ctx Nat S H (h + 1)) (l r : Option (Nat × Nat)) : ∃ path : List Nat, path.length ≤ h ∧ ∀ hints,
    (Tk.findPoint E n ctx (some hints) t l r).1 ≤ (Tk.findPoint E n ctx none t l r).1 + 3 * (inCommon hints path + 1) := by
  induction h generalizing lo t es l r with
  | zero =>
    refine ⟨[], Nat.le_refl _, fun hints => ?_⟩
    obtain ⟨psl, psr, c, ec, hn, a1, a2, a3, a4, a5, a6, a7⟩ := findStep_spec (MAX := MAX) hr hp ht
    have hs : ∃ s, ∀ hint, findStep (natIdx MAX) n hint t = .ok s := by
      rcases a7 with ⟨hf, -⟩ | ⟨_, _, -, hf, -⟩
      · exact ⟨_, hf⟩
      · exact ⟨_, hf⟩
    obtain ⟨s, hs⟩ := hs
    simp only [Tk.findPoint, hE]
    refine Nat.le_trans (m := _ + 3) ?_ (Nat.add_le_add_left (by omega) _)
    refine T.bind_le_right fun _ _ => T.bind_le (a := 3) (b := 0) (findStep_extra hr hp ht _) (fun x hx => ?_) fun x _ => Nat.le_refl _
    rw [findStep_value, hs] at hx ⊢
    exact hx
  | succ h ih =>
    obtain ⟨psl, psr, c, ec, hn, a1, a2, a3, a4, a5, a6, a7⟩ := findStep_spec (MAX := MAX) hr hp ht
    rcases a7 with ⟨hf, h1, h2⟩ | ⟨_, _, -, hf, -⟩
    · have hch : Node.child n psl.length = .ok c := by
        rw [hn]; exact child_at (KA := kidsOf psl) rfl (by simp)
      have hp' := hp
      rw [a4, Pos.append, Pos.append] at hp'
      obtain ⟨rest, g0, g⟩ := ih a2 hp'.1.2 (t := t - tot szN psl) (by rw [← a2.size]; omega)
        (.frame n.ptr n.size n.keys (n.kids.take psl.length) (n.kids.drop (psl.length + 1)) ctx)
        (adjacent E (h + 1) n psl.length l r).1 (adjacent E (h + 1) n psl.length l r).2
      refine ⟨psl.length :: rest, by simp; omega, fun hints => ?_⟩
      have key : ∀ (k k' : Nat), ((Tk.findStep (natIdx MAX) n (headHint (some hints)) t).1 ≤ (Tk.findStep (natIdx MAX) n none t).1 + k) →
          ((Tk.findPoint E c (.frame n.ptr n.size n.keys (n.kids.take psl.length) (n.kids.drop (psl.length + 1)) ctx)
            (nextHints (some hints) (Step.child psl.length (tot szN psl))) (t - tot szN psl) (adjacent E (h + 1) n psl.length l r).1
            (adjacent E (h + 1) n psl.length l r).2).1 ≤
            (Tk.findPoint E c (.frame n.ptr n.size n.keys (n.kids.take psl.length) (n.kids.drop (psl.length + 1)) ctx)
            none (t - tot szN psl) (adjacent E (h + 1) n psl.length l r).1 (adjacent E (h + 1) n psl.length l r).2).1 + k') →
          (Tk.findPoint E n ctx (some hints) t l r).1 ≤ (Tk.findPoint E n ctx none t l r).1 + (k + k') := by
        intro k k' hk hk'
        simp only [Tk.findPoint, hE]
        refine T.bind_le_right fun _ _ => T.bind_le (a := k) (b := k') hk (fun x hx => ?_) fun x hx => ?_
        · rw [findStep_value, hf] at hx ⊢
          exact hx
        · rw [findStep_value, hf] at hx
          cases hx
          refine T.bind_le_right fun t' ht' => T.bind_le_right fun ch' he => ?_
          have ht' : (natIdx MAX).subL t (tot szN psl) = .ok t' := ht'
          rw [subL_ok h1] at ht'
          cases ht'
          have he : (Node.child n psl.length : R (Tree Nat S (h + 1))) = .ok ch' := he
          rw [hch] at he
          cases he
          exact hk'
      cases hints with
      | nil => exact Nat.le_trans (key 0 0 (Nat.le_refl _) (Nat.le_refl _)) (by omega)
      | cons d ds =>
        by_cases hd : d = psl.length
        · have e : nextHints (some (d :: ds)) (Step.child psl.length (tot szN psl)) = some ds := by simp [nextHints, hd]
          refine Nat.le_trans (key 3 (3 * (inCommon ds rest + 1)) (findStep_extra hr hp ht _) (by rw [e]; exact g ds)) ?_
          simp only [inCommon, if_pos hd]
          omega
        · have e : nextHints (some (d :: ds)) (Step.child psl.length (tot szN psl)) = none := by simp [nextHints, Ne.symm hd]
          refine Nat.le_trans (key 3 0 (findStep_extra hr hp ht _) (by rw [e]; exact Nat.le_refl _)) ?_
          simp only [inCommon, if_neg hd]
          omega
    · refine ⟨[], Nat.zero_le _, fun hints => ?_⟩
      simp only [Tk.findPoint, hE]
      refine Nat.le_trans (m := _ + 3) ?_ (Nat.add_le_add_left (by omega) _)
      refine T.bind_le_right fun _ _ => T.bind_le (a := 3) (b := 0) (findStep_extra hr hp ht _) (fun x hx => ?_) fun x hx => ?_
      · rw [findStep_value, hf] at hx ⊢
        exact hx
      · rw [findStep_value, hf] at hx
        cases hx
        exact Nat.le_refl _

theorem findPoint_nil {H h : Nat} {I : Type} (E : Env I S) (n : Tree I S (h + 1)) (ctx : Ctx I S H (h + 1)) (t : I) (l r : Option (Nat × Nat)) :
    Tk.findPoint E n ctx (some []) t l r = Tk.findPoint E n ctx none t l r := by
  cases h <;> rfl

/-- C58: the same for insertions, returning or not, the way being that to the place of the insertion: there is one path, given by the tree and the
position, such that a cursor costs three steps for each component it has in common with this path, and three more. -/
theorem insert_cursor_costs (hE : E.ix = natIdx MAX) {t : RleTree Nat S} (ht : Reach MAX E t) (i : Nat) :
    ∃ path : List Nat, (∀ r, t.root = some r → path.length ≤ r.h) ∧ ∀ hints nop s size w,
      (Tk.insert E t nop hints i s size w).1 ≤ (Tk.insert E t nop [] i s size w).1 + 3 * (inCommon hints path + 1) := by
  by_cases hi : t.size E < i
  · refine ⟨[], fun _ _ => Nat.zero_le _, fun hints nop s size w => Nat.le_trans (m := _ + 0) ?_ (Nat.add_le_add_left (Nat.zero_le _) _)⟩
    simp only [Tk.insert, hE]
    refine T.bind_le_right fun _ _ => T.bind_le_right fun _ hx => ?_
    have hx : (check (!(natIdx MAX).lt (t.size E) i) "cannot insert new slice, index out of bounds" : R Unit) = .ok _ := hx
    simp [check, hi] at hx
  cases h4 : t.root with
  | none =>
    refine ⟨[], (fun _ h => by simp at h), fun hints nop s size w => Nat.le_trans (m := _ + 0) ?_ (Nat.add_le_add_left (Nat.zero_le _) _)⟩
    simp only [Tk.insert, h4]
    exact Nat.le_refl _
  | some r =>
    have hh := (ht.holds hE).2.1
    have hrep := hh.2
    rw [h4] at hrep
    have hsz := (size_eq_total hE ht).1
    obtain ⟨path, g0, g⟩ := findPoint_overhead hE hrep.1 hh.1 (t := i) (by omega) (.top : Ctx Nat S (r.h + 1) (r.h + 1)) none none
    refine ⟨path, (fun r' h => by cases h; exact g0), fun hints nop s size w => ?_⟩
    simp only [Tk.insert, h4]
    rw [findPoint_nil]
    refine T.bind_le_right fun _ _ => T.bind_le_right fun _ _ => T.bind_le_right fun _ _ =>
      T.bind_le (a := 3 * (inCommon hints path + 1)) (b := 0) (g hints) (fun x hx => ?_) fun x _ => Nat.le_refl _
    have sim := fun hs => (Tk.findPoint_sim (Nat.le_refl _) E r.tree .top (Tk.FitT.ofShape (shape hE ht h4)) trivial hs i none none).1
    rw [sim] at hx ⊢
    rw [← hx]
    exact findPoint_hints hE _ _ hrep.1 hh.1 (by omega)

/-- In a tree with several levels the cursor for position 0 and that for position 20 part at the root, so using the one for the other costs three
steps at most. -/
example : ∃ t, Reach 255 exEnv t ∧ ∃ path hints, t.cursorTo exEnv 20 = .ok path ∧ t.cursorTo exEnv 0 = .ok hints ∧ 2 ≤ hints.length ∧
    inCommon hints path = 0 ∧ (Tk.get exEnv t hints 20).1 ≤ (Tk.get exEnv t [] 20).1 + 3 := by
  obtain ⟨t, h1, h2, h3⟩ := exReach
  have hk : insertAll exEnv ⟨none⟩ exOps = .ok t := h1
  have key : (do
      let t ← insertAll exEnv ⟨none⟩ exOps
      let p ← t.cursorTo exEnv 20
      let q ← t.cursorTo exEnv 0
      pure (decide (2 ≤ q.length), inCommon q p)) = (.ok (true, 0) : R (Bool × Nat)) := by decide +kernel
  rw [hk, R.bind_ok] at key
  obtain ⟨p, k1, key⟩ := bind_ok_iff.1 key
  obtain ⟨q, k2, key⟩ := bind_ok_iff.1 key
  have key := Except.ok.inj key
  simp only [Prod.mk.injEq, decide_eq_true_eq] at key
  have := cursor_costs (E := exEnv) (MAX := 255) rfl h2 k1 q
  rw [key.2] at this
  exact ⟨t, h2, p, q, k1, k2, key.1, key.2, this⟩

/-- An insertion into this tree, which has eleven runs, returns whatever cursor is used. -/
example : ∃ t, Reach 255 exEnv t ∧ t.runs.length = 11 ∧ ∃ path : List Nat, ∀ hints,
    (∃ x, t.insert exEnv false hints 20 'z' 4 exWorld = .ok x) ∧
      (Tk.insert exEnv t false hints 20 'z' 4 exWorld).1 ≤ (Tk.insert exEnv t false [] 20 'z' 4 exWorld).1 + 3 * (inCommon hints path + 1) := by
  obtain ⟨t, h1, h2, h3⟩ := exReach
  have hk : insertAll exEnv ⟨none⟩ exOps = .ok t := h1
  have key : (do
      let t ← insertAll exEnv ⟨none⟩ exOps
      let _ ← t.insert exEnv false [] 20 'z' 4 exWorld
      pure ()) = (.ok () : R Unit) := by decide +kernel
  rw [hk, R.bind_ok] at key
  obtain ⟨x, k1, -⟩ := bind_ok_iff.1 key
  obtain ⟨path, -, g⟩ := insert_cursor_costs (E := exEnv) (MAX := 255) rfl h2 20
  refine ⟨t, h2, by simpa using congrArg List.length h3, path, fun hints => ⟨⟨x, ?_⟩, g hints _ _ _ _⟩⟩
  rw [(hints_irrelevant (E := exEnv) (MAX := 255) rfl h2 hints [] 20).2, k1]

/-- In this tree a `BoundedCursor` with room for one component saves one search. -/
example : ∃ t, Reach 255 exEnv t ∧ ∃ path hints, t.cursorTo exEnv 0 = .ok path ∧ 2 ≤ path.length ∧ Cursor.roundTrip 1 path.reverse = .ok hints ∧
    (Tk.get exEnv t hints 0).1 ≤ 6 * 1 + (Nat.log 2 (2 * 1) + 14) * (path.length - 1 + 1) + 2 := by
  obtain ⟨t, h1, h2, h3⟩ := exReach
  have hk : insertAll exEnv ⟨none⟩ exOps = .ok t := h1
  have key : (do
      let t ← insertAll exEnv ⟨none⟩ exOps
      let q ← t.cursorTo exEnv 0
      pure (decide (2 ≤ q.length))) = (.ok true : R Bool) := by decide +kernel
  rw [hk, R.bind_ok] at key
  obtain ⟨q, k2, key⟩ := bind_ok_iff.1 key
  have key := Except.ok.inj key
  simp only [decide_eq_true_eq] at key
  obtain ⟨hints, g1, g2⟩ := bounded_cursor_saves_partial (E := exEnv) (MAX := 255) rfl h2 k2 (LEN := 1) (by omega) (by omega)
  exact ⟨t, h2, q, hints, k2, key, g1, g2⟩

end Sherman
