import Verif.AnyIndexRun
/-!
# Arbitrary implementations of `Index`: iteration
-/
namespace Sherman
variable {I S C : Type}
variable {μ : Nat}

/-- The handle is to a key of a node of the tree. -/
def Head.Ok (μ M : Nat) {H : Nat} (root : Tree I S H) (hd : Head I S H) : Prop :=
  hd.ctx.Shape μ M ∧ FillT μ M (hd.ctx.low μ) hd.node ∧ hd.idx < (Node.keys hd.node).length ∧ hd.ctx.close hd.node = root

/-- What an iterator refers to: it will only yield entries that `Q` holds of. -/
def Iter.Ok (μ M : Nat) (Q : Nat × Nat → Prop) (it : Iter I S) : Prop :=
  ∀ st, it.state = some st → FillT μ M 1 st.root ∧ (∀ a, Place st.root a → Q a) ∧ (∀ f, st.fwd = some f → f.head.Ok μ M st.root) ∧
    (∀ b, st.bkwd = some b → b.head.Ok μ M st.root)

/-- What a call of `next` or `next_back` may return. -/
def Iter.Yields (μ M : Nat) (Q : Nat × Nat → Prop) (r : Option (Entry I S) × Iter I S) : Prop := (∀ e, r.1 = some e → Q (e.ptr, e.idx)) ∧ r.2.Ok μ M Q

theorem Iter.yields_end {M : Nat} {Q : Nat × Nat → Prop} {it : Iter I S} : Iter.Yields (S := S) μ M Q (none, { it with state := none }) := by
  refine ⟨fun e h => (by cases h), ?_⟩
  rintro st ⟨⟩

section
variable {ix : IdxOps I} (hc : Civil ix) {M : Nat} (hM : 1 ≤ μ)

omit hM in
theorem Head.sliceSize_safe (hc : Civil ix) {H : Nat} {root : Tree I S H} {hd : Head I S H} (h : hd.Ok μ M root) : Safe ix.debug (hd.sliceSize ix) fun _ => True :=
  Sherman.sliceSize_safe hc h.2.2.1 h.2.1.arity

include hc in
omit hM in
theorem exclStep_safe {h : Nat} {leaf : Bool} {n : Tree I S (h + 1)} {ex : Bool} {t : I} {r : Step I} (ha : Node.Arity n) (hr : r.In (C := Tree I S h) n) :
    Safe ix.debug (exclStep ix leaf n ex t r) fun s => s.In (C := Tree I S h) n := by
  have ha : (Node.kids n).length = (Node.keys n).length + 1 := ha
  unfold exclStep
  cases r with
  | key k p =>
    have hr : k < (Node.keys n).length := hr
    dsimp only
    split
    · split
      · split
        · exact .inr (by simp [debugMsgs])
        · exact (keyPos_safe (by omega)).op fun _ => show k - 1 < _ by omega
      · refine (childSize_safe (by omega)).op fun _ => ?_
        ixop hc
        exact (show k ≤ _ by omega)
    · exact hr
  | child c p =>
    have hr : c ≤ (Node.keys n).length := hr
    dsimp only
    split
    · split
      · exact .inr (by simp [debugMsgs])
      · exact (keyPos_safe (by omega)).op fun _ => show c - 1 < _ by omega
    · exact hr

include hc in
omit hM in
theorem lastStep_safe {h : Nat} {leaf : Bool} {n : Tree I S (h + 1)} (ha : Node.Arity n) (hl : 1 ≤ (Node.keys n).length) :
    Safe ix.debug (lastStep ix leaf n) fun s => s.In (C := Tree I S h) n := by
  have ha : (Node.kids n).length = (Node.keys n).length + 1 := ha
  unfold lastStep
  split
  · refine (Safe.usub hl).bind fun i hi => ?_
    have hi' : i < (Node.keys n).length := by subst hi; show Node.len n - 1 < _; simp only [Node.len]; omega
    exact (keyPos_safe hi').op fun _ => hi'
  · refine Safe.op (x := Node.childPos _ _ _ _) ?_ (fun _ => Nat.le_refl _)
    unfold Node.childPos
    refine (Safe.weak (decide_eq_true (Nat.le_refl _))).op fun _ => ?_
    exact (childSize_safe (by simp only [Node.len]; omega)).op fun _ => hc.sSubR _ _

include hc in
omit hM in
theorem stackStep_safe {h : Nat} {leaf : Bool} {n : Tree I S (h + 1)} {hint : Option Nat} {ex : Bool} {t : I} (ha : Node.Arity n)
    (hl : 1 ≤ (Node.keys n).length) : Safe ix.debug (stackStep ix leaf n hint ex t) fun s => s.In (C := Tree I S h) n := by
  unfold stackStep
  split
  · exact (searchStep_safe hc ha _ _).bind fun r hr => exclStep_safe hc ha hr
  · exact lastStep_safe hc ha hl

include hc in
omit hM in
theorem stackKey_safe {H h : Nat} {n : Tree I S (h + 1)} {ctx : Ctx I S H (h + 1)} {p kp : I} {k : Nat} (hx : ctx.Shape μ M) (hn : FillT μ M (ctx.low μ) n)
    (hk : k < (Node.keys n).length) : Safe ix.debug (stackKey ix n ctx p k kp) fun s => s.head.Ok μ M (ctx.close n) := by
  unfold stackKey
  refine (handle_safe hk).op fun _ => ?_
  ixop hc
  have hok : Head.Ok μ M (ctx.close n) (⟨h, n, ctx, k⟩ : Head I S H) := ⟨hx, hn, hk, rfl⟩
  refine (Head.sliceSize_safe hc hok).op fun _ => ?_
  ixop hc
  exact hok

include hc hM in
theorem stackLoop_safe {ex : Bool} {H : Nat} : ∀ {h : Nat} (n : Tree I S (h + 1)) (ctx : Ctx I S H (h + 1)) (hints : Option (List Nat)) (p t : I),
    ctx.Shape μ M → FillT μ M (ctx.low μ) n → Safe ix.debug (stackLoop ix ex n ctx hints p t) fun s => s.head.Ok μ M (ctx.close n) := by
  intro h
  induction h with
  | zero =>
    intro n ctx hints p t hx hn
    have hl : 1 ≤ (Node.keys n).length := (ctx.le_low hM).trans (fillT_succ.1 hn).1
    unfold stackLoop
    refine (stackStep_safe hc hn.arity hl).bind fun s hs => ?_
    cases s with
    | key k kp => exact stackKey_safe hc hx hn hs
    | child c cp => exact .inr (by simp [debugMsgs])
  | succ h ih =>
    intro n ctx hints p t hx hn
    have hl : 1 ≤ (Node.keys n).length := (ctx.le_low hM).trans (fillT_succ.1 hn).1
    unfold stackLoop
    refine (stackStep_safe hc hn.arity hl).bind fun s hs => ?_
    cases s with
    | key k kp => exact stackKey_safe hc hx hn hs
    | child c cp =>
      have hs : c ≤ (Node.keys n).length := hs
      refine (child_safe' (by have : (Node.kids n).length = _ := hn.arity; omega)).bind fun ch hi => ?_
      have hm := List.mem_of_getElem? hi
      ixop hc
      ixop hc
      exact (ih ch _ _ _ _ (enter_shape hn hx hs) ((fillT_succ.1 hn).2.2.2 ch hm)).mono fun s h => enter_close (ctx := ctx) hi ▸ h

include hc hM in
theorem makeStack_safe {H : Nat} {root : Tree I S (H + 1)} {hints : Option (List Nat)} {target : IterBound I} (hr : FillT μ M 1 root) :
    Safe ix.debug (makeStack ix root hints target) fun s => s.head.Ok μ M root := by
  cases target <;> exact stackLoop_safe hc hM root .top _ _ _ trivial hr

include hM in
theorem firstBelow_safe {d : Bool} {H : Nat} : ∀ {h : Nat} (n : Tree I S (h + 2)) (ctx : Ctx I S H (h + 2)) (c : Nat), ctx.Shape μ M → FillT μ M (ctx.low μ) n →
    c ≤ (Node.keys n).length → Safe d (firstBelow n ctx c) fun hd => hd.Ok μ M (ctx.close n) := by
  intro h
  induction h with
  | zero =>
    intro n ctx c hx hn hcl
    unfold firstBelow
    refine (child_safe' (by have : (Node.kids n).length = _ := hn.arity; omega)).bind fun ch hi => ?_
    have hm := List.mem_of_getElem? hi
    have hch : FillT μ M μ ch := (fillT_succ.1 hn).2.2.2 ch hm
    refine (Safe.check (by simp [debugMsgs])).op' fun _ => ?_
    exact ⟨enter_shape hn hx hcl, hch, hM.trans (fillT_succ.1 hch).1, enter_close hi⟩
  | succ h ih =>
    intro n ctx c hx hn hcl
    unfold firstBelow
    refine (child_safe' (by have : (Node.kids n).length = _ := hn.arity; omega)).bind fun ch hi => ?_
    have hm := List.mem_of_getElem? hi
    exact (ih ch _ 0 (enter_shape hn hx hcl) ((fillT_succ.1 hn).2.2.2 ch hm) (Nat.zero_le _)).mono fun s h => enter_close (ctx := ctx) hi ▸ h

include hM in
theorem lastBelow_safe {d : Bool} {H : Nat} : ∀ {h : Nat} (n : Tree I S (h + 2)) (ctx : Ctx I S H (h + 2)) (c : Nat), ctx.Shape μ M → FillT μ M (ctx.low μ) n →
    c ≤ (Node.keys n).length → Safe d (lastBelow n ctx c) fun hd => hd.Ok μ M (ctx.close n) := by
  intro h
  induction h with
  | zero =>
    intro n ctx c hx hn hcl
    unfold lastBelow
    refine (child_safe' (by have : (Node.kids n).length = _ := hn.arity; omega)).bind fun ch hi => ?_
    have hm := List.mem_of_getElem? hi
    have hch : FillT μ M μ ch := (fillT_succ.1 hn).2.2.2 ch hm
    have hl : 1 ≤ (Node.keys ch).length := hM.trans (fillT_succ.1 hch).1
    refine (Safe.check (by simp [debugMsgs])).op' fun _ => ?_
    refine (Safe.usub (by show 1 ≤ (Node.keys ch).length; exact hl)).bind fun k hk => ?_
    refine ⟨enter_shape hn hx hcl, hch, ?_, enter_close hi⟩
    subst hk
    show (Node.keys ch).length - 1 < (Node.keys ch).length
    omega
  | succ h ih =>
    intro n ctx c hx hn hcl
    unfold lastBelow
    refine (child_safe' (by have : (Node.kids n).length = _ := hn.arity; omega)).bind fun ch hi => ?_
    have hm := List.mem_of_getElem? hi
    exact (ih ch _ _ (enter_shape hn hx hcl) ((fillT_succ.1 hn).2.2.2 ch hm) (Nat.le_refl _)).mono fun s h => enter_close (ctx := ctx) hi ▸ h

omit hM in
theorem nextAbove_safe {d : Bool} {H : Nat} : ∀ {h : Nat} (ctx : Ctx I S H h) (n : Tree I S h), ctx.Shape μ M → FillT μ M (ctx.low μ) n →
    Safe d (nextAbove n ctx) fun hd => hd.Ok μ M (ctx.close n) := by
  intro h ctx
  induction ctx with
  | top => intro n hx hn; exact .inr (by simp [debugMsgs])
  | frame p z keys kl kr up ih =>
    intro n hx hn
    unfold nextAbove
    dsimp only
    have hp := plug_shape hx hn
    split
    · rename_i hlt
      exact ⟨hx.2.2.2.2.2, hp, hlt, rfl⟩
    · exact ih _ hx.2.2.2.2.2 hp

omit hM in
theorem prevAbove_safe {d : Bool} {H : Nat} : ∀ {h : Nat} (ctx : Ctx I S H h) (n : Tree I S h), ctx.Shape μ M → FillT μ M (ctx.low μ) n →
    Safe d (prevAbove n ctx) fun hd => hd.Ok μ M (ctx.close n) := by
  intro h ctx
  induction ctx with
  | top => intro n hx hn; exact .inr (by simp [debugMsgs])
  | frame p z keys kl kr up ih =>
    intro n hx hn
    unfold prevAbove
    dsimp only
    have hp := plug_shape hx hn
    split
    · rename_i hlt
      refine ⟨hx.2.2.2.2.2, hp, ?_, rfl⟩
      show kl.length - 1 < keys.length
      have := hx.2.2.1
      omega
    · exact ih _ hx.2.2.2.2.2 hp

include hM in
theorem Head.succ_safe {d : Bool} {H : Nat} {root : Tree I S H} {hd : Head I S H} (h : hd.Ok μ M root) : Safe d hd.succ fun hd' => hd'.Ok μ M root := by
  obtain ⟨g, n, ctx, k⟩ := hd
  obtain ⟨hx, hn, hk, rfl⟩ := h
  dsimp only at hx hn hk ⊢
  cases g with
  | zero =>
    unfold Head.succ
    dsimp only
    split
    · rename_i hlt; exact ⟨hx, hn, hlt, rfl⟩
    · exact nextAbove_safe ctx n hx hn
  | succ g => exact firstBelow_safe hM n ctx (k + 1) hx hn hk

include hM in
theorem Head.pred_safe {d : Bool} {H : Nat} {root : Tree I S H} {hd : Head I S H} (h : hd.Ok μ M root) : Safe d hd.pred fun hd' => hd'.Ok μ M root := by
  obtain ⟨g, n, ctx, k⟩ := hd
  obtain ⟨hx, hn, hk, rfl⟩ := h
  dsimp only at hx hn hk ⊢
  cases g with
  | zero =>
    unfold Head.pred
    dsimp only
    split
    · exact ⟨hx, hn, by show k - 1 < (Node.keys n).length; omega, rfl⟩
    · exact prevAbove_safe ctx n hx hn
  | succ g => exact lastBelow_safe hM n ctx k hx hn (by omega)

omit hM in
theorem Head.entry_safe {d : Bool} {H : Nat} {root : Tree I S H} {hd : Head I S H} {a b : I} (h : hd.Ok μ M root) :
    Safe d (hd.entry a b) fun e => Place root (e.ptr, e.idx) := by
  refine (handle_safe h.2.2.1).op fun _ => ?_
  have := place_close h.1 h.2.1 (place_key h.2.1 h.2.2.1)
  rw [h.2.2.2] at this
  exact this

include hc hM in
theorem Iter.next_safe {Q : Nat × Nat → Prop} {it : Iter I S} (h : it.Ok μ M Q) : Safe ix.debug (it.next ix) (Iter.Yields μ M Q) := by
  have yield : ∀ (st : IterState I S) (f : IterStack I S (st.H + 1)) (a : I), FillT μ M 1 st.root → (∀ a, Place st.root a → Q a) →
      (∀ b, st.bkwd = some b → b.head.Ok μ M st.root) → f.head.Ok μ M st.root → Safe ix.debug (Iter.yieldFwd it st f a) (Iter.Yields μ M Q) := by
    intro st f a h1 h2 h3 h4
    unfold Iter.yieldFwd
    split
    · exact Iter.yields_end
    · refine (Head.entry_safe h4).bind fun e he => ⟨fun e' h => by cases h; exact h2 _ he, ?_⟩
      rintro st' ⟨⟩
      exact ⟨h1, h2, fun f' e => by cases e; exact h4, h3⟩
  unfold Iter.next
  split
  · exact ⟨fun e h => (by cases h), h⟩
  · rename_i st hst
    obtain ⟨h1, hq, h2, h3⟩ := h st hst
    split
    · rename_i fwd hf
      dsimp only
      split
      · exact Iter.yields_end
      · refine Safe.bind (x := fwd.fwdStep ix) (P := fun s => s.head.Ok μ M st.root) ?_ (fun s hs => yield st s _ h1 hq h3 hs)
        unfold IterStack.fwdStep
        refine (Head.succ_safe hM (h2 fwd hf)).bind fun hd hhd => (Head.sliceSize_safe hc hhd).op fun _ => ?_
        ixop hc
        exact hhd
    · refine (makeStack_safe hc hM h1).bind fun s hs => (Head.sliceSize_safe hc hs).op fun _ => ?_
      ixop hc
      exact yield { st with cursor := none } s _ h1 hq h3 hs

include hc hM in
theorem Iter.nextBack_safe {Q : Nat × Nat → Prop} {it : Iter I S} (h : it.Ok μ M Q) : Safe ix.debug (it.nextBack ix) (Iter.Yields μ M Q) := by
  have yield : ∀ (st : IterState I S) (b : IterStack I S (st.H + 1)), FillT μ M 1 st.root → (∀ a, Place st.root a → Q a) →
      (∀ f, st.fwd = some f → f.head.Ok μ M st.root) → b.head.Ok μ M st.root → Safe ix.debug (Iter.yieldBkwd ix it st b) (Iter.Yields μ M Q) := by
    intro st b h1 hq h2 h3
    unfold Iter.yieldBkwd
    split
    · exact Iter.yields_end
    · refine (Head.sliceSize_safe hc h3).op fun _ => ?_
      ixop hc
      refine (Head.entry_safe h3).bind fun e he => ⟨fun e' h => by cases h; exact hq _ he, ?_⟩
      rintro st' ⟨⟩
      exact ⟨h1, hq, h2, fun f' e => by cases e; exact h3⟩
  unfold Iter.nextBack
  split
  · exact ⟨fun e h => (by cases h), h⟩
  · rename_i st hst
    obtain ⟨h1, hq, h2, h3⟩ := h st hst
    split
    · rename_i bk hb
      refine (Head.sliceSize_safe hc (h3 bk hb)).op fun _ => ?_
      ixop hc
      split
      · exact Iter.yields_end
      · refine Safe.bind (x := bk.bkwdStep ix) (P := fun s => s.head.Ok μ M st.root) ?_ (fun s hs => yield st s h1 hq h2 hs)
        unfold IterStack.bkwdStep
        refine (Head.pred_safe hM (h3 bk hb)).bind fun hd hhd => (Head.sliceSize_safe hc (h3 bk hb)).op fun _ => ?_
        ixop hc
        exact hhd
    · refine (makeStack_safe hc hM h1).bind fun s hs => ?_
      exact yield { st with cursor := none } s h1 hq h2 hs

end

end Sherman
