import Verif.AnyIndexInsert
/-!
# Arbitrary implementations of `Index`: whole insertions, `get`, `cursor_to`
-/
namespace Sherman
variable {I S C : Type}
variable {μ : Nat}

/-- Some key `k` of the node `n` levels above. -/
def Ctx.HasKey {H : Nat} : Nat → {h : Nat} → Ctx I S H h → Nat → Prop
  | _, _, .top, _ => False
  | 0, _, .frame _ _ keys _ _ _, k => k < keys.length
  | n + 1, _, .frame _ _ _ _ _ up, k => up.HasKey n k

/-- The handle is about a key of an ancestor of a node of height `h`. -/
def Above (h : Nat) {H g : Nat} (ctx : Ctx I S H g) (hd : Nat × Nat) : Prop := h < hd.1 ∧ ctx.HasKey (hd.1 - h - 1) hd.2

/-- The handle is about a key of the leaf or of an ancestor. -/
def HdIn {H : Nat} (leaf : Tree I S 1) (ctx : Ctx I S H 1) (hd : Nat × Nat) : Prop :=
  (hd.1 = 0 ∧ hd.2 < (Node.keys leaf).length) ∨ Above 0 ctx hd

/-- A leaf at a place in a tree. -/
def EdgeOk (μ M : Nat) {H : Nat} (leaf : Tree I S 1) (ctx : Ctx I S H 1) : Prop := ctx.Shape μ M ∧ FillT μ M (ctx.low μ) leaf

/-- The point of an insertion is at a node of the tree. -/
def Point.Ok (μ M : Nat) {H : Nat} : Point I S H → Prop
  | .edge leaf ctx idx lhs rhs => EdgeOk μ M leaf ctx ∧ idx ≤ (Node.keys leaf).length ∧
      (∀ l, lhs = some l → HdIn leaf ctx l) ∧ (∀ r, rhs = some r → HdIn leaf ctx r)
  | .split _ n ctx k _ => ctx.Shape μ M ∧ FillT μ M (ctx.low μ) n ∧ k < (Node.keys n).length

theorem Ctx.levels {H h : Nat} (ctx : Ctx I S H h) : h ≤ H := by
  induction ctx with
  | top => exact Nat.le_refl _
  | frame _ _ _ _ _ _ ih => omega

section
variable {E : Env I S} (hc : Civil E.ix)
include hc

theorem findStep_safe {h : Nat} {n : Tree I S (h + 1)} (ha : Node.Arity n) (hint : Option Nat) (t : I) :
    Safe E.ix.debug (findStep E.ix n hint t) fun s => s.In (C := Tree I S h) n := by
  unfold findStep
  refine (searchStep_safe hc ha hint t).bind fun s hs => ?_
  cases s with
  | child c p => exact hs
  | key k p =>
    have hs : k < (Node.keys n).length := hs
    dsimp only
    split
    · refine (childSize_safe (by have : (Node.kids n).length = _ := ha; omega)).op fun _ => ?_
      ixop hc
      show k ≤ _
      omega
    · exact hs

omit hc in
theorem adjacent_in {h : Nat} (n : Tree I S (h + 1)) (c : Nat) (hcl : c ≤ (Node.keys n).length) (lhs rhs : Option (Nat × Nat)) {P : Nat × Nat → Prop}
    (hl : ∀ l, lhs = some l → P l) (hr : ∀ l, rhs = some l → P l) (hk : ∀ k, k < (Node.keys n).length → P (h, k)) :
    (∀ l, (adjacent E h (C := Tree I S h) n c lhs rhs).1 = some l → P l) ∧ (∀ r, (adjacent E h (C := Tree I S h) n c lhs rhs).2 = some r → P r) := by
  unfold adjacent
  split
  · constructor
    · intro l h'
      dsimp only at h'
      split at h'
      · cases h'; exact hk _ (by omega)
      · exact hl l h'
    · intro l h'
      dsimp only at h'
      split at h'
      · rename_i hlt; cases h'; exact hk _ hlt
      · exact hr l h'
  · exact ⟨hl, hr⟩

theorem findPoint_safe {M H : Nat} : ∀ {h : Nat} (n : Tree I S (h + 1)) (ctx : Ctx I S H (h + 1)) (hints : Option (List Nat)) (t : I)
    (lhs rhs : Option (Nat × Nat)), (1 ≤ M) → ctx.Shape μ M → FillT μ M (ctx.low μ) n → (∀ l, lhs = some l → Above h ctx l) → (∀ r, rhs = some r → Above h ctx r) →
    Safe E.ix.debug (findPoint E n ctx hints t lhs rhs) (Point.Ok μ M) := by
  intro h
  induction h with
  | zero =>
    intro n ctx hints t lhs rhs hM hx hn hl hr
    unfold findPoint
    refine (findStep_safe hc hn.arity _ _).bind fun s hs => ?_
    cases s with
    | key k p =>
      have hs : k < (Node.keys n).length := hs
      refine (handle_safe hs).op fun _ => ?_
      ixop hc
      exact ⟨hx, hn, hs⟩
    | child c p =>
      have hs : c ≤ (Node.keys n).length := hs
      obtain ⟨a1, a2⟩ := adjacent_in (E := E) n c hs lhs rhs (P := HdIn n ctx) (fun l h => .inr (hl l h)) (fun l h => .inr (hr l h))
        (fun k hk => .inl ⟨rfl, hk⟩)
      exact ⟨⟨hx, hn⟩, hs, a1, a2⟩
  | succ h ih =>
    intro n ctx hints t lhs rhs hM hx hn hl hr
    unfold findPoint
    refine (findStep_safe hc hn.arity _ _).bind fun s hs => ?_
    cases s with
    | key k p =>
      have hs : k < (Node.keys n).length := hs
      refine (handle_safe hs).op fun _ => ?_
      ixop hc
      exact ⟨hx, hn, hs⟩
    | child c p =>
      have hs : c ≤ (Node.keys n).length := hs
      dsimp only
      have hab : ∀ l, Above (h + 1) ctx l → Above h (ctx.enter n c) l := by
        rintro ⟨a, b⟩ ⟨h1, h2⟩
        refine ⟨by omega, ?_⟩
        obtain ⟨e, he⟩ : ∃ e, a = h + 1 + 1 + e := ⟨a - (h + 2), by dsimp only at h1; omega⟩
        subst he
        dsimp only at h2 ⊢
        rw [show h + 1 + 1 + e - (h + 1) - 1 = e by omega] at h2
        rw [show h + 1 + 1 + e - h - 1 = e + 1 by omega]
        exact h2
      obtain ⟨a1, a2⟩ := adjacent_in (E := E) n c hs lhs rhs (P := Above h (ctx.enter n c)) (fun l h => hab l (hl l h)) (fun l h => hab l (hr l h))
        (fun k hk => ⟨by simp, by simpa [Ctx.enter, Ctx.HasKey] using hk⟩)
      ixop hc
      refine (child_safe (by have : (Node.kids n).length = _ := hn.arity; omega)).bind fun ch hm => ?_
      exact ih ch _ _ _ _ _ hM (enter_shape hn hx hs) ((fillT_succ.1 hn).2.2.2 ch hm) a1 a2

/-! ## Joining -/

omit hc in
theorem climb_safe {d : Bool} {M : Nat} : ∀ (n : Nat) {H h : Nat} (t : Tree I S (h + 1)) (ctx : Ctx I S H (h + 1)) (k : Nat), ctx.Shape μ M →
    FillT μ M (ctx.low μ) t → ((n = 0 ∧ k < (Node.keys t).length) ∨ (0 < n ∧ ctx.HasKey (n - 1) k)) →
    Safe d (climb n t ctx) fun r => r.2.2.Shape μ M ∧ FillT μ M (r.2.2.low μ) r.2.1 ∧ k < (Node.keys r.2.1).length := by
  intro n
  induction n with
  | zero =>
    intro H h t ctx k hx ht hk
    rcases hk with ⟨-, hk⟩ | ⟨h0, -⟩
    · unfold climb; exact ⟨hx, ht, hk⟩
    · omega
  | succ n ih =>
    intro H h t ctx k hx ht hk
    rcases hk with ⟨h0, -⟩ | ⟨-, hk⟩
    · omega
    · cases ctx with
      | top => cases n <;> exact hk.elim
      | frame p z keys kl kr up =>
        unfold climb
        refine ih _ up k hx.2.2.2.2.2 (plug_shape hx ht) ?_
        cases n with
        | zero => exact .inl ⟨rfl, hk⟩
        | succ n => exact .inr ⟨by omega, hk⟩

omit hc in
theorem climb_leaf {d : Bool} {M H : Nat} {leaf : Tree I S 1} {ctx : Ctx I S H 1} {hd : Nat × Nat} (he : EdgeOk μ M leaf ctx) (hin : HdIn leaf ctx hd) :
    Safe d (climb hd.1 leaf ctx) fun r => r.2.2.Shape μ M ∧ FillT μ M (r.2.2.low μ) r.2.1 ∧ hd.2 < (Node.keys r.2.1).length := by
  refine climb_safe hd.1 leaf ctx hd.2 he.1 he.2 ?_
  rcases hin with h | ⟨h1, h2⟩
  · exact .inl h
  · exact .inr ⟨h1, h2⟩

omit hc in
theorem setSliceUp_safe {d : Bool} {M H : Nat} : ∀ (n : Nat) {h : Nat} (ctx : Ctx I S H h) (k : Nat) (s : S), ctx.Shape μ M → ctx.HasKey n k →
    Safe d (setSliceUp n ctx k s) fun c' => c'.Shape μ M ∧ c'.low μ = ctx.low μ ∧ ∀ a b, ctx.HasKey a b → c'.HasKey a b := by
  intro n
  induction n with
  | zero =>
    intro h ctx k s hx hk
    cases ctx with
    | top => exact hk.elim
    | frame p z keys kl kr up =>
      unfold setSliceUp
      have hk : k < keys.length := hk
      rw [List.getElem?_eq_getElem hk]
      refine ⟨?_, rfl, ?_⟩
      · simpa [Ctx.Shape] using hx
      · intro a b hab
        cases a with
        | zero => simpa [Ctx.HasKey] using hab
        | succ a => exact hab
  | succ n ih =>
    intro h ctx k s hx hk
    cases ctx with
    | top => exact hk.elim
    | frame p z keys kl kr up =>
      unfold setSliceUp
      refine (ih up k s hx.2.2.2.2.2 hk).bind fun up' h' => ?_
      obtain ⟨h1, h2, h3⟩ := h'
      refine ⟨?_, rfl, ?_⟩
      · obtain ⟨x1, x2, x3, x4, x5, -⟩ := hx
        exact ⟨by rw [h2]; exact x1, x2, x3, x4, x5, h1⟩
      · intro a b hab
        cases a with
        | zero => exact hab
        | succ a => exact h3 a b hab

/-- What replacing a slice leaves intact. -/
def EdgeLe (μ M : Nat) {H : Nat} (leaf : Tree I S 1) (ctx : Ctx I S H 1) (r : Tree I S 1 × Ctx I S H 1) : Prop :=
  EdgeOk μ M r.1 r.2 ∧ (Node.keys r.1).length = (Node.keys leaf).length ∧ ∀ hd, HdIn leaf ctx hd → HdIn r.1 r.2 hd

omit hc in
theorem EdgeLe.trans {M H : Nat} {leaf leaf' : Tree I S 1} {ctx ctx' : Ctx I S H 1} {r : Tree I S 1 × Ctx I S H 1} (h : EdgeLe μ M leaf ctx (leaf', ctx'))
    (h' : EdgeLe μ M leaf' ctx' r) : EdgeLe μ M leaf ctx r := ⟨h'.1, h'.2.1.trans h.2.1, fun hd hh => h'.2.2 hd (h.2.2 hd hh)⟩

omit hc in
theorem setSliceAt_safe {d : Bool} {M H : Nat} {leaf : Tree I S 1} {ctx : Ctx I S H 1} {hd : Nat × Nat} {s : S} (he : EdgeOk μ M leaf ctx)
    (hin : HdIn leaf ctx hd) : Safe d (setSliceAt leaf ctx hd s) (EdgeLe μ M leaf ctx) := by
  obtain ⟨a, k⟩ := hd
  cases a with
  | zero =>
    rcases hin with ⟨-, hk⟩ | ⟨h0, -⟩
    · refine (setSlice_safe hk).bind fun leaf' hs => ?_
      refine ⟨⟨he.1, he.2.same hs⟩, hs.1, ?_⟩
      rintro hd (⟨h1, h2⟩ | h)
      · exact .inl ⟨h1, by show _ < (Node.keys leaf').length; rw [hs.1]; exact h2⟩
      · exact .inr h
    · exact absurd h0 (by simp)
  | succ a =>
    rcases hin with ⟨h0, -⟩ | ⟨h0, hk⟩
    · cases h0
    · refine (setSliceUp_safe a ctx k s he.1 hk).bind fun c' h' => ?_
      obtain ⟨h1, h2, h3⟩ := h'
      refine ⟨⟨h1, by show FillT μ M (c'.low μ) leaf; rw [h2]; exact he.2⟩, rfl, ?_⟩
      rintro hd (h | ⟨g1, g2⟩)
      · exact .inl h
      · exact .inr ⟨g1, h3 _ _ g2⟩

theorem handleAt_safe {M H : Nat} {leaf : Tree I S 1} {ctx : Ctx I S H 1} {hd : Nat × Nat} (he : EdgeOk μ M leaf ctx) (hin : HdIn leaf ctx hd) :
    Safe E.ix.debug (handleAt E.ix leaf ctx hd) fun _ => True := by
  unfold handleAt
  refine (climb_leaf he hin).bind fun r h => ?_
  obtain ⟨h', n, c⟩ := r
  obtain ⟨h1, h2, h3⟩ := h
  exact (handle_safe h3).op fun _ => (sliceSize_safe hc h3 h2.arity).op fun _ => trivial

omit hc in
theorem emit_plain {d : Bool} {ev : Ev} {w : World} : Safe d (emit ⟨false, false⟩ ev w) fun w' => w'.fst = w.fst := by
  cases ev <;> exact rfl

theorem finishJoin_safe {M H : Nat} {leaf : Tree I S 1} {ctx : Ctx I S H 1} {hd : Nat × Nat} {old new : I} {w : World} (he : EdgeOk μ M leaf ctx)
    (hin : HdIn leaf ctx hd) : Safe E.ix.debug (finishJoin E leaf ctx hd old new w) fun r => r.1.Shape μ M := by
  unfold finishJoin
  refine (climb_leaf he hin).bind fun r h => ?_
  obtain ⟨h', n, c⟩ := r
  obtain ⟨h1, h2, h3⟩ := h
  refine emit_plain.op' fun _ => ?_
  exact (opKey_safe hc h1 h2 h3 (fun h => by cases h)).bind fun r hr => hr

theorem tryJoinEdge_safe {M H : Nat} {leaf : Tree I S 1} {ctx : Ctx I S H 1} {lhs rhs : Option (Nat × Nat)} {s : S} {z : I} {w : World}
    (he : EdgeOk μ M leaf ctx) (hl : ∀ l, lhs = some l → HdIn leaf ctx l) (hr : ∀ r, rhs = some r → HdIn leaf ctx r) :
    Safe E.ix.debug (tryJoinEdge E leaf ctx lhs rhs s z w) fun r => match r with
      | .inl p => p.1.Shape μ M
      | .inr (leaf', ctx', _) => EdgeOk μ M leaf' ctx' ∧ (Node.keys leaf').length = (Node.keys leaf).length := by
  unfold tryJoinEdge
  dsimp only
  split
  · exact ⟨he, rfl⟩
  · match lhs, rhs with
    | none, none => exact trivial
    | some l, none =>
      have hl := hl l rfl
      refine (handleAt_safe hc he hl).op fun r => ?_
      obtain ⟨ls, lsize⟩ := r
      dsimp only
      split
      · refine (setSliceAt_safe he hl).bind fun r h1 => ?_
        obtain ⟨leaf1, ctx1⟩ := r
        dsimp only
        ixop hc
        exact (finishJoin_safe hc h1.1 (h1.2.2 _ hl)).bind fun r hr => hr
      · refine (setSliceAt_safe he hl).bind fun r h1 => ?_
        obtain ⟨leaf1, ctx1⟩ := r
        exact ⟨h1.1, h1.2.1⟩
    | none, some r =>
      have hr := hr r rfl
      refine (handleAt_safe hc he hr).op fun r => ?_
      obtain ⟨ls, lsize⟩ := r
      dsimp only
      split
      · refine (setSliceAt_safe he hr).bind fun r h1 => ?_
        obtain ⟨leaf1, ctx1⟩ := r
        dsimp only
        ixop hc
        exact (finishJoin_safe hc h1.1 (h1.2.2 _ hr)).bind fun r hr => hr
      · refine (setSliceAt_safe he hr).bind fun r h1 => ?_
        obtain ⟨leaf1, ctx1⟩ := r
        exact ⟨h1.1, h1.2.1⟩
    | some l, some r =>
      have hl := hl l rfl
      have hr := hr r rfl
      refine (handleAt_safe hc he hl).op fun x => ?_
      obtain ⟨ls, lsize⟩ := x
      refine (handleAt_safe hc he hr).op fun x => ?_
      obtain ⟨rs, rsize⟩ := x
      dsimp only
      split
      · ixop hc
        split
        · exact trivial
        · refine (setSliceAt_safe he hr).bind fun x h1 => ?_
          obtain ⟨leaf1, ctx1⟩ := x
          refine (setSliceAt_safe h1.1 (h1.2.2 _ hl)).bind fun x h2 => ?_
          obtain ⟨leaf2, ctx2⟩ := x
          have h2 := h1.trans h2
          exact (finishJoin_safe hc h2.1 (h2.2.2 _ hl)).bind fun r hr => hr
      · refine (setSliceAt_safe he hl).bind fun x h1 => ?_
        obtain ⟨leaf1, ctx1⟩ := x
        dsimp only
        split
        · refine (setSliceAt_safe h1.1 (h1.2.2 _ hr)).bind fun x h2 => ?_
          obtain ⟨leaf2, ctx2⟩ := x
          have h2 := h1.trans h2
          dsimp only
          ixop hc
          exact (finishJoin_safe hc h2.1 (h2.2.2 _ hr)).bind fun r hr => hr
        · refine (setSliceAt_safe h1.1 (h1.2.2 _ hr)).bind fun x h2 => ?_
          obtain ⟨leaf2, ctx2⟩ := x
          have h2 := h1.trans h2
          exact ⟨h2.1, h2.2.1⟩

theorem insertEdge_safe {H : Nat} {leaf : Tree I S 1} {ctx : Ctx I S H 1} {idx : Nat} {lhs rhs : Option (Nat × Nat)} {s : S} {z : I} {w : World}
    (hM : 1 ≤ E.M) (hμ : μ ≤ E.M) (he : EdgeOk μ E.M leaf ctx) (hi : idx ≤ (Node.keys leaf).length) (hl : ∀ l, lhs = some l → HdIn leaf ctx l)
    (hr : ∀ r, rhs = some r → HdIn leaf ctx r) (hw : w.fst = none) :
    Safe E.ix.debug (insertEdge E leaf ctx idx lhs rhs s z w) fun r => r.2.1.Shape μ E.M := by
  unfold insertEdge
  refine (Safe.weak (decide_eq_true hi)).op fun _ => ?_
  refine (tryJoinEdge_safe hc he hl hr).bind fun r h => ?_
  match r, h with
  | .inl p, h => exact h
  | .inr (leaf', ctx', s'), h =>
    exact (noJoin_safe hc hM hμ h.1.1 h.1.2 (by rw [h.2]; exact hi) (fun h => by cases h) hw (fun h => by cases h)).bind fun r hr => hr

/-! ## Splitting a slice -/

omit hc in
theorem descend_safe {d : Bool} {M H : Nat} : ∀ {h : Nat} (n : Tree I S (h + 1)) (ctx : Ctx I S H (h + 1)), ctx.Shape μ M → FillT μ M (ctx.low μ) n →
    Safe d (descend n ctx) fun r => EdgeOk μ M r.1 r.2 := by
  intro h
  induction h with
  | zero => intro n ctx hx hn; exact ⟨hx, hn⟩
  | succ h ih =>
    intro n ctx hx hn
    unfold descend
    refine (child_safe (by have : (Node.kids n).length = _ := hn.arity; omega)).bind fun ch hm => ?_
    exact ih ch _ (enter_shape (c := 0) hn hx (Nat.zero_le _)) ((fillT_succ.1 hn).2.2.2 ch hm)

omit hc in
theorem rhsLeaf_safe {d : Bool} {M H h : Nat} {n : Tree I S (h + 1)} {ctx : Ctx I S H (h + 1)} {k : Nat} (hx : ctx.Shape μ M) (hn : FillT μ M (ctx.low μ) n)
    (hk : k < (Node.keys n).length) :
    Safe d (rhsLeaf n ctx k) fun r => EdgeOk μ M r.1 r.2.1 ∧ r.2.2 ≤ (Node.keys r.1).length ∧ (h = 0 → r.2.2 ≠ 0) := by
  cases h with
  | zero => exact ⟨⟨hx, hn⟩, hk, fun _ => Nat.succ_ne_zero k⟩
  | succ h =>
    unfold rhsLeaf
    refine (child_safe (by have : (Node.kids n).length = _ := hn.arity; omega)).bind fun ch hm => ?_
    refine (descend_safe ch _ (enter_shape (c := k + 1) hn hx hk) ((fillT_succ.1 hn).2.2.2 ch hm)).bind fun r hr => ?_
    exact ⟨hr, Nat.zero_le _, fun h => by cases h⟩

theorem insertRhs_safe {nop skip : Bool} {H h : Nat} {n : Tree I S (h + 1)} {ctx : Ctx I S H (h + 1)} {k : Nat} {newLhs : I} {lhsMode : Bool}
    {fst : Sized I S} {snd : Option (Sized I S)} {w : World} (hM : 1 ≤ E.M) (hμ : μ ≤ E.M) (hx : ctx.Shape μ E.M) (hn : FillT μ E.M (ctx.low μ) n)
    (hk : k < (Node.keys n).length) (hw : w.fst = none) :
    Safe E.ix.debug (insertRhs E nop skip n ctx k newLhs lhsMode fst snd w) fun r => r.1.Shape μ E.M := by
  unfold insertRhs
  refine (keyPos_safe hk).op fun _ => (sliceSize_safe hc hk hn.arity).op fun _ => ?_
  refine (rhsLeaf_safe hx hn hk).bind fun r hr => ?_
  obtain ⟨leaf, ctx', i⟩ := r
  obtain ⟨h1, h2, h3⟩ := hr
  refine noJoin_safe hc hM hμ h1.1 h1.2 h2 ?_ hw ?_
  · intro h
    split at h
    · rename_i h0; exact h3 h0
    · cases h
  · intro hne
    exact ⟨Nat.pos_of_ne_zero (of_decide_eq_true hne), ctx.levels⟩

theorem insertSplit_safe {nop : Bool} {H h : Nat} {n : Tree I S (h + 1)} {ctx : Ctx I S H (h + 1)} {k : Nat} {p : I} {s : S} {z : I} {w : World}
    (hM : 1 ≤ E.M) (hμ : μ ≤ E.M) (hx : ctx.Shape μ E.M) (hn : FillT μ E.M (ctx.low μ) n) (hk : k < (Node.keys n).length) (hw : w.fst = none) :
    Safe E.ix.debug (insertSplit E nop n ctx k p s z w) fun r => r.2.1.Shape μ E.M := by
  have set : ∀ {n : Tree I S (h + 1)} (s : S), FillT μ E.M (ctx.low μ) n → k < (Node.keys n).length →
      Safe E.ix.debug (Node.setSlice n k s) fun n' => FillT μ E.M (ctx.low μ) (h := h + 1) n' ∧ k < (Node.keys n').length := by
    intro n s hn hk
    exact (setSlice_safe hk).mono fun n' hs => ⟨hn.same hs, by rw [hs.1]; exact hk⟩
  unfold insertSplit
  refine (sliceSize_safe hc hk hn.arity).op fun _ => (handle_safe hk).op fun key => ?_
  generalize E.sl.splitAt key.slice p = sp
  obtain ⟨ls, rs⟩ := sp
  dsimp only
  refine (set _ hn hk).bind fun n1 h1 => ?_
  obtain ⟨hn1, hk1⟩ := h1
  ixop hc
  split
  · exact (insertRhs_safe hc hM hμ hx hn1 hk1 hw).bind fun r hr => hr
  · split
    · ixop hc
      split
      · refine (set _ hn1 hk1).bind fun n2 h2 => ?_
        obtain ⟨hn2, hk2⟩ := h2
        refine emit_plain.op' fun _ => ?_
        ixop hc
        ixop hc
        exact (opKey_safe hc hx hn2 hk2 (fun h => by cases h)).bind fun r hr => hr
      · refine (set _ hn1 hk1).bind fun n2 h2 => ?_
        obtain ⟨hn2, hk2⟩ := h2
        refine emit_plain.bind fun w' hw' => ?_
        exact (insertRhs_safe hc hM hμ hx hn2 hk2 (hw'.trans hw)).bind fun r hr => hr
    · refine (set _ hn1 hk1).bind fun n2 h2 => ?_
      obtain ⟨hn2, hk2⟩ := h2
      split
      · ixop hc
        exact (insertRhs_safe hc hM hμ hx hn2 hk2 hw).bind fun r hr => hr
      · exact (insertRhs_safe hc hM hμ hx hn2 hk2 hw).bind fun r hr => hr

/-! ## Insertions -/

omit hc in
theorem applyEvs_safe {d : Bool} (evs : List Ev) : Safe d (applyEvs evs) fun _ => True := by
  have step : ∀ st ev, Safe d (applyEv st ev) fun _ => True := by
    rintro ⟨x, a⟩ ev
    unfold applyEv
    split
    all_goals first
      | exact trivial
      | skip
    · split
      · exact trivial
      · rename_i h
        simp only [not_or, not_not] at h
        exact (Safe.usub h.2.1).op' fun _ => trivial
    · split <;> exact trivial
    · split <;> exact trivial
    · split <;> exact trivial
  have all : ∀ (evs : List Ev) st, Safe d (evs.foldlM applyEv st) fun _ => True := by
    intro evs
    induction evs with
    | nil => intro st; exact trivial
    | cons e es ih => intro st; exact (step st e).op fun st' => ih st'
  exact (all evs _).op fun _ => trivial

theorem installRoot_safe {H len : Nat} {post : Post I S (H + 1)} {path : List Nat} {hd : Option (Nat × Nat)} {w : World} (hM : 1 ≤ E.M)
    (hp : post.Shape μ E.M) : Safe E.ix.debug (installRoot E len post path hd w) fun r => ∀ root, r.1.root = some root → FillT μ E.M 1 root.tree := by
  cases post with
  | done t =>
    refine (Safe.check (by simp [debugMsgs])).op' fun _ => ?_
    rintro root ⟨⟩
    exact hp
  | newRoot l key z r =>
    unfold installRoot
    dsimp only
    have : Safe E.ix.debug (makeNewParent E.ix l key z r w) fun x => FillT μ E.M 1 x.1 := by
      unfold makeNewParent
      dsimp only
      ixop hc
      ixop hc
      refine shape_mk (k := 1) (l := [l, r]) rfl rfl (Nat.le_refl _) (by omega) rfl ?_
      intro c hcm
      simp only [List.mem_cons, List.not_mem_nil, or_false] at hcm
      rcases hcm with rfl | rfl
      · exact hp.1
      · exact hp.2
    refine this.bind fun x hx => ?_
    obtain ⟨t, w1⟩ := x
    refine (Safe.check (by simp [debugMsgs])).op' fun _ => ?_
    rintro root ⟨⟩
    exact hx

/-- The root, if there is one, is the root of a B-tree with the parameter `M`. -/
def RleTree.Shape (μ M : Nat) (t : RleTree I S) : Prop := ∀ root, t.root = some root → (1 ≤ μ ∧ μ ≤ M) ∧ FillT μ M 1 root.tree

omit hc in
theorem rleNew_safe {s : S} {z : I} {w : World} (hμ : 1 ≤ E.M → 1 ≤ μ ∧ μ ≤ E.M) : Safe E.ix.debug (RleTree.new E s z w) fun r => r.1.Shape μ E.M := by
  unfold RleTree.new
  refine (Safe.check (by simp [debugMsgs])).op' fun _ => ?_
  refine (Safe.check (by simp [debugMsgs])).bind fun _ hM => ?_
  have hM : 1 ≤ E.M := by simpa using hM
  refine (Safe.check (by simp [debugMsgs])).op' fun _ => ?_
  rintro root ⟨⟩
  refine ⟨hμ hM, ?_⟩
  exact shape_mk (k := 1) (l := [(), ()]) rfl rfl (Nat.le_refl _) (by omega) rfl (fun _ _ => trivial)

theorem rleInsert_safe {t : RleTree I S} {nop : Bool} {hints : List Nat} {idx : I} {s : S} {z : I} {w : World} (hμ : 1 ≤ E.M → 1 ≤ μ ∧ μ ≤ E.M) (ht : t.Shape μ E.M) :
    Safe E.ix.debug (t.insert E nop hints idx s z w) fun r => r.1.Shape μ E.M := by
  unfold RleTree.insert
  dsimp only
  refine (Safe.check (by simp [debugMsgs])).op' fun _ => ?_
  refine (Safe.check (by simp [debugMsgs])).op' fun _ => ?_
  cases hroot : t.root with
  | none =>
    refine (rleNew_safe hμ).bind fun r hr => ?_
    obtain ⟨t', w'⟩ := r
    dsimp only at hr ⊢
    split
    · exact trivial
    · exact hr
  | some root =>
    obtain ⟨hm, hsh⟩ := ht root hroot
    have hM := hm.1.trans hm.2
    have hμ := hm.2
    dsimp only
    refine (findPoint_safe hc root.tree .top (some hints) idx none none hM trivial hsh (fun l h => by cases h) (fun l h => by cases h)).bind
      fun pt hpt => ?_
    have hia : Safe E.ix.debug (insertAt E nop pt s z { w with events := [], fst := none }) fun r => r.2.1.Shape μ E.M := by
      cases pt with
      | edge leaf ctx i lhs rhs => exact insertEdge_safe hc hM hμ hpt.1 hpt.2.1 hpt.2.2.1 hpt.2.2.2 rfl
      | split h n ctx k p => exact insertSplit_safe hc hM hμ hpt.1 hpt.2.1 hpt.2.2 rfl
    refine hia.bind fun r hr => ?_
    obtain ⟨dlen, post, path, w1⟩ := r
    dsimp only at hr ⊢
    split
    · exact (applyEvs_safe _).op fun _ => (installRoot_safe hc hM hr).mono fun r h root e => ⟨hm, h root e⟩
    · exact (installRoot_safe hc hM hr).mono fun r h root e => ⟨hm, h root e⟩

theorem rleGet_safe {t : RleTree I S} {hints : List Nat} {idx : I} (ht : t.Shape μ E.M) :
    Safe E.ix.debug (t.get E hints idx) fun e => ∃ root, t.root = some root ∧ Place root.tree (e.ptr, e.idx) := by
  unfold RleTree.get
  refine (Safe.check (by simp [debugMsgs])).op' fun _ => ?_
  refine (Safe.check (by simp [debugMsgs])).op' fun _ => ?_
  split
  · exact .inr (by simp [debugMsgs])
  · rename_i root hroot
    exact (getLoop_safe hc idx root.tree (ht root hroot).2 _ _).mono fun e he => ⟨root, hroot, he⟩

theorem rleCursorTo_safe {t : RleTree I S} {idx : I} (ht : t.Shape μ E.M) : Safe E.ix.debug (t.cursorTo E idx) fun _ => True := by
  unfold RleTree.cursorTo
  refine (Safe.check (by simp [debugMsgs])).op' fun _ => ?_
  refine (Safe.check (by simp [debugMsgs])).op' fun _ => ?_
  split
  · exact .inr (by simp [debugMsgs])
  · rename_i root hroot
    exact cursorLoop_safe hc root.tree (ht root hroot).2 _

end

end Sherman
