import Verif.Caught
/-!
# What insertions leave behind: lemmas

`Meets d c x L`: if `c` returns, `x` returns the same; if `c` panics, the failure is defined behaviour and what is left has `L`.
-/
namespace Sherman
variable {I S C : Type}

/-- See above. -/
structure Meets {T α : Type} (d : Bool) (c : Lv T α) (x : R α) (L : T → Prop) : Prop where
  ok : ∀ a, c = .ok a → x = .ok a
  err : ∀ f t, c = .error (f, t) → Harmless d f ∧ L t

namespace Meets
variable {T T' α β : Type} {d : Bool} {c : Lv T α} {x : R α} {L : T → Prop} {Q : α → Prop}

theorem leave {t : T} (hs : Safe d x Q) (hl : L t) : Meets d (Sherman.leave t x) x L := by
  cases x with
  | ok a => exact ⟨fun b h => by cases h; rfl, fun f t h => by cases h⟩
  | error e => exact ⟨fun b h => (by cases h), fun f t h => (by cases h; exact ⟨hs, hl⟩)⟩

theorem bind {kc : α → Lv T β} {k : α → R β} (h : Meets d c x L) (hs : Safe d x Q) (hk : ∀ a, Q a → Meets d (kc a) (k a) L) :
    Meets d (c >>= kc) (x >>= k) L := by
  cases c with
  | ok a =>
    have hx := h.ok a rfl
    subst hx
    exact hk a hs
  | error e =>
    obtain ⟨f, t⟩ := e
    exact ⟨fun b hb => (by cases hb), fun f' t' he => by cases he; exact h.err f t rfl⟩

theorem step {t : T} {kc : α → Lv T β} {k : α → R β} (hs : Safe d x Q) (hl : L t) (hk : ∀ a, Q a → Meets d (kc a) (k a) L) :
    Meets d (Sherman.leave t x >>= kc) (x >>= k) L := bind (leave hs hl) hs hk

theorem pure {a : α} : Meets d (Pure.pure a : Lv T α) (Pure.pure a) L := ⟨fun b h => by cases h; rfl, fun f t h => by cases h⟩

/-- The model of the panics makes a computation that the other model does not make here. -/
theorem extra {t : T} {y : R β} {kc : β → Lv T α} (hs : Safe d y fun _ => True) (hl : L t) (hk : ∀ a, y = .ok a → Meets d (kc a) x L) :
    Meets d (Sherman.leave t y >>= kc) x L := by
  cases y with
  | ok a => exact hk a rfl
  | error e => exact ⟨fun b h => (by cases h), fun f t h => (by cases h; exact ⟨hs, hl⟩)⟩

/-- The same if more of the computation is under the `leave`. -/
theorem stepIn {γ : Type} {t : T} {f : α → R γ} {kc : γ → Lv T β} {k : α → R β} (hs : Safe d x Q) (hl : L t)
    (hk : ∀ a, Q a → Meets d (Sherman.leave t (f a) >>= kc) (k a) L) : Meets d (Sherman.leave t (x >>= f) >>= kc) (x >>= k) L := by
  cases x with
  | ok a => exact hk a hs
  | error e => exact ⟨fun b h => (by cases h), fun f t h => (by cases h; exact ⟨hs, hl⟩)⟩

theorem within {g : T → T'} {L' : T' → Prop} (h : Meets d c x L) (hg : ∀ t, L t → L' (g t)) : Meets d (Sherman.within g c) x L' := by
  cases c with
  | ok a => exact ⟨fun b hb => (by cases hb; exact h.ok a rfl), fun f t he => by cases he⟩
  | error e =>
    obtain ⟨f, t⟩ := e
    exact ⟨fun b hb => (by cases hb), fun f' t' he => by cases he; exact ⟨(h.err f t rfl).1, hg t (h.err f t rfl).2⟩⟩

theorem mono {L' : T → Prop} (h : Meets d c x L) (hg : ∀ t, L t → L' t) : Meets d c x L' := ⟨h.ok, fun f t he => ⟨(h.err f t he).1, hg t (h.err f t he).2⟩⟩
end Meets

/-- One operation of the index type; `h` says that what is left has the property. -/
syntax "ixstep" term "," term : tactic
macro_rules
  | `(tactic| ixstep $hc, $hl) => `(tactic| first
      | refine Meets.step (Civil.sAddL $hc _ _) $hl (fun _ _ => ?_) | refine Meets.step (Civil.sAddR $hc _ _) $hl (fun _ _ => ?_)
      | refine Meets.step (Civil.sSubL $hc _ _) $hl (fun _ _ => ?_) | refine Meets.step (Civil.sSubR $hc _ _) $hl (fun _ _ => ?_))

section
variable {ix : IdxOps I}

theorem mapPosC_meets {d : Bool} {f : I → R I} (hf : ∀ x, Safe d (f x) fun _ => True) (ks : List (Key I S)) :
    Meets d (mapPosC f ks) (Node.mapPos f ks) fun ks' => ks'.length = ks.length := by
  induction ks with
  | nil => exact Meets.pure
  | cons k ks ih =>
    refine Meets.step (hf _) rfl fun p _ => ?_
    refine Meets.bind (ih.within fun t ht => ?_) (mapPos_safe hf ks) fun a _ => Meets.pure
    simp [ht]

theorem setKeyPossWithC_meets {d : Bool} {n : Node I S C} {f : I → R I} {start : Nat} (hf : ∀ x, Safe d (f x) fun _ => True)
    (hs : start ≤ n.keys.length) : Meets d (setKeyPossWithC n f start) (n.setKeyPossWith f start) (Same n) := by
  have hl : ∀ ks : List (Key I S), ks.length = (n.keys.drop start).length → Same n { n with keys := n.keys.take start ++ ks } := by
    intro ks h
    refine ⟨?_, rfl⟩
    simp only [List.length_append, h, List.length_take, List.length_drop]; omega
  refine Meets.step (Safe.weak (decide_eq_true hs)) (Same.refl n) fun _ _ => ?_
  refine Meets.bind ((mapPosC_meets hf _).within hl) (mapPos_safe hf _) fun ks hks => ?_
  exact Meets.step (hf _) (hl ks hks) fun s _ => Meets.pure

variable (hc : Civil ix)
include hc

theorem shiftKeysC_meets {n : Node I S C} {incr : Bool} {start : Nat} {pos o w : I} (hs : start ≤ n.keys.length) :
    Meets ix.debug (shiftKeysC ix n incr start pos o w) (n.shiftKeys ix incr start pos o w) (Same n) := by
  unfold shiftKeysC Node.shiftKeys
  refine Meets.step (Safe.weak (decide_eq_true hs)) (Same.refl n) fun _ _ => ?_
  ixstep hc, (Same.refl n)
  ixstep hc, (Same.refl n)
  split
  · ixstep hc, (Same.refl n)
    exact setKeyPossWithC_meets (fun _ => hc.sAddL _ _) hs
  · ixstep hc, (Same.refl n)
    exact setKeyPossWithC_meets (fun _ => hc.sSubL _ _) hs

theorem shiftKeysAutoC_meets {n : Node I S C} {start : Nat} {pos o w : I} (hs : start ≤ n.keys.length) :
    Meets ix.debug (shiftKeysAutoC ix n start pos o w) (n.shiftKeysAuto ix start pos o w) (Same n) := shiftKeysC_meets hc hs

theorem opStepC_meets {m : Maps I} {handled : Bool} {height : Nat} {n : Node I S C} {cok : COK} {ov : Option I} {old new : I}
    (hk : cok.In n) (hs : ∀ k, cok = .key k → m.sizes = true → height = m.lhsHeight → handled = true) :
    Meets ix.debug (opStepC ix m handled height n cok ov old new) (opStep ix m handled height n cok ov old new) (Same n) := by
  have hk' : ∀ k, cok = .key k → k < n.keys.length := by rintro k rfl; exact hk
  unfold opStepC opStep
  refine Meets.step (mapSizes_safe hc hk' hs) (Same.refl n) fun r hr => ?_
  obtain ⟨n1, ov1, old1, new1⟩ := r
  obtain rfl : n1 = n := hr
  refine Meets.step (opPos_safe hc hk') (Same.refl _) fun pos _ => ?_
  dsimp only
  cases cok with
  | child c => exact Meets.bind (shiftKeysAutoC_meets hc hk) (shiftKeysAuto_safe hc hk) fun n' h' => Meets.pure
  | key k => exact Meets.bind (shiftKeysAutoC_meets hc hk) (shiftKeysAuto_safe hc hk) fun n' h' => Meets.pure

omit hc in
theorem close_fill {μ M : Nat} {H : Nat} : ∀ {h : Nat} (ctx : Ctx I S H h) (t : Tree I S h), ctx.Shape μ M → FillT μ M (ctx.low μ) t →
    FillT μ M 1 (ctx.close t) := by
  intro h ctx
  induction ctx with
  | top => intro t _ ht; exact ht
  | frame p z keys kl kr up ih => intro t hx ht; exact ih _ hx.2.2.2.2.2 (plug_shape hx ht)

variable {μ : Nat}

theorem opUpC_meets {M : Nat} {m : Maps I} {handled : Bool} {H : Nat} : ∀ {h : Nat} (ctx : Ctx I S H h) (t : Tree I S h) (old new : I) (path : List Nat),
    ctx.Shape μ M → FillT μ M (ctx.low μ) t → Meets ix.debug (opUpC ix m handled ctx t old new path) (opUp ix m handled ctx t old new path) (FillT μ M 1) := by
  intro h ctx
  induction ctx with
  | top => intro t old new path _ ht; exact Meets.pure
  | @frame h p z keys kl kr up ih =>
    intro t old new path hx ht
    unfold opUpC opUp
    have hp := plug_shape (p := p) (z := z) hx ht
    have hin : (COK.child kl.length).In (plugNode p z keys kl t kr) := by
      show kl.length ≤ keys.length
      have := hx.2.2.1; omega
    refine Meets.bind ((opStepC_meets hc hin (by intro k hk; cases hk)).within fun n' hn => ?_)
      (opStep_safe hc hin (by intro k hk; cases hk)) fun r hr => ?_
    · exact close_fill up n' hx.2.2.2.2.2 (hp.same hn)
    · exact ih _ _ _ _ hx.2.2.2.2.2 (hp.same hr)

theorem opKeyC_meets {M : Nat} {m : Maps I} {handled : Bool} {H h : Nat} {ctx : Ctx I S H (h + 1)} {n : Tree I S (h + 1)} {k : Nat} {ov : Option I}
    {old new : I} {path : List Nat} (hx : ctx.Shape μ M) (hn : FillT μ M (ctx.low μ) n) (hk : k < (Node.keys n).length)
    (hs : m.sizes = true → h = m.lhsHeight → handled = true) :
    Meets ix.debug (opKeyC ix m handled ctx n k ov old new path) (opKey ix m handled ctx n k ov old new path) (FillT μ M 1) := by
  unfold opKeyC opKey
  refine Meets.bind ((opStepC_meets hc (cok := .key k) hk (fun _ _ => hs)).within fun n' hn' => ?_)
    (opStep_safe hc (cok := .key k) hk (fun _ _ => hs)) fun r hr => ?_
  · exact close_fill ctx n' hx (hn.same hn')
  · exact opUpC_meets hc ctx _ _ _ _ hx (hn.same hr)
end

section
variable {E : Env I S} (hc : Civil E.ix)
include hc

/-- The node left is the one before, or has one more key and child. -/
def Grown (c : Nat) (x : C) (n n' : Node I S C) : Prop :=
  Same n n' ∨ (n'.keys.length = n.keys.length + 1 ∧ n'.kids = n.kids.take (c + 1) ++ x :: n.kids.drop (c + 1))

omit hc in
theorem Grown.then {c : Nat} {x : C} {n n' n'' : Node I S C} (h : n'.keys.length = n.keys.length + 1 ∧ n'.kids = n.kids.take (c + 1) ++ x :: n.kids.drop (c + 1))
    (hs : Same n' n'') : Grown c x n n'' := .inr ⟨hs.1.trans h.1, hs.2.trans h.2⟩

theorem bubbleRoomC_meets [HasPtr C] {cb : Cb} {sz : C → I} {n : Node I S C} {c : Nat} {b : Bubble I S C} {path : List Nat} {w : World} {tot : I}
    (hcl : c ≤ n.keys.length) (hm : n.keys.length < 2 * E.M) (ht : bubbleTotal E.ix sz b = .ok tot) :
    Meets E.ix.debug (bubbleRoomC E cb sz n c b tot path w) (bubbleRoom E cb sz n c b path w) (Grown c b.rhs n) := by
  unfold bubbleTotal at ht
  obtain ⟨t1, ht1, ht2⟩ := R.bind_eq_ok.1 ht
  unfold bubbleRoomC bubbleRoom
  dsimp only
  rw [ht1, R.bind_ok, ht2, R.bind_ok]
  refine Meets.step (roomNums_safe hc) (.inl (Same.refl n)) fun r _ => ?_
  obtain ⟨ov, old, new, lp⟩ := r
  refine Meets.step (insertKeyAndChild_safe hcl hm) (.inl (Same.refl n)) fun r hr => ?_
  obtain ⟨n1, _, w1⟩ := r
  dsimp only at hr ⊢
  ixstep hc, (Grown.then hr (Same.refl n1))
  refine Meets.step (setKeyPos_safe (by omega)) (.inr hr) fun n2 h' => ?_
  exact Meets.step (emitKey_safe (by rw [h'.1]; omega)) (.then hr h') fun _ _ => Meets.pure

theorem bubbleInsertHalfC_meets [HasPtr C] {cb : Cb} {sz : C → I} {n : Node I S C} {c : Nat} {b : Bubble I S C} {shift : Option (Shift I)}
    {path : List Nat} {w : World} {tot : I} (hcl : c ≤ n.keys.length) (hm : n.keys.length < 2 * E.M) (ht : bubbleTotal E.ix sz b = .ok tot) :
    Meets E.ix.debug (bubbleInsertHalfC E cb sz n c b tot shift path w) (bubbleInsertHalf E cb sz n c b shift path w) (Grown c b.rhs n) := by
  unfold bubbleTotal at ht
  obtain ⟨t1, ht1, ht2⟩ := R.bind_eq_ok.1 ht
  unfold bubbleInsertHalfC bubbleInsertHalf
  dsimp only
  rw [ht1, R.bind_ok, ht2, R.bind_ok]
  have h0 : Grown c b.rhs n n := .inl (Same.refl n)
  refine Meets.step (halfNums_safe hc) h0 fun r _ => ?_
  obtain ⟨lp, sp, old, new⟩ := r
  dsimp only
  ixstep hc, h0
  ixstep hc, h0
  ixstep hc, h0
  refine Meets.step (insertKeyAndChild_safe hcl hm) h0 fun r hr => ?_
  obtain ⟨n1, _, w1⟩ := r
  dsimp only at hr ⊢
  refine Meets.step (setKeyPos_safe (by omega)) (.inr hr) fun n2 h' => ?_
  refine Meets.bind ((shiftKeysC_meets hc (by rw [h'.1]; omega)).mono fun n3 h3 => .then hr (h'.trans h3)) (shiftKeys_safe hc (by rw [h'.1]; omega)) fun n3 h'' => ?_
  exact Meets.step (emitKey_safe (by rw [h''.1, h'.1]; omega)) (.then hr (h'.trans h'')) fun _ _ => Meets.pure

/-- What a node must have after a panic. -/
def Kept (M : Nat) (P : C → Prop) (n : Node I S C) : Prop := 1 ≤ n.keys.length ∧ n.keys.length ≤ 2 * M ∧ n.Arity ∧ ∀ y ∈ n.kids, P y

omit hc in
theorem Grown.kept {M c : Nat} {P : C → Prop} {x : C} {n n' : Node I S C} (hg : Grown c x n n') (h1 : 1 ≤ n.keys.length) (h2 : n.keys.length < 2 * M)
    (ha : n.Arity) (hP : ∀ y ∈ n.kids, P y) (hx : P x) (hcl : c ≤ n.keys.length) : Kept M P n' := by
  rcases hg with hs | ⟨g1, g2⟩
  · exact ⟨by rw [hs.1]; exact h1, by rw [hs.1]; omega, by show _ = _; rw [hs.1, hs.2]; exact ha, by rw [hs.2]; exact hP⟩
  · obtain ⟨k1, k2⟩ := kids_insert (k := n.keys.length) (c := c) (x := x) ha hcl hP hx
    exact ⟨by omega, by omega, by show _ = _; rw [g2, k1, g1], by rw [g2]; exact k2⟩

theorem bubbleSplitC_meets [HasPtr C] (hM : 2 ≤ E.M) {cb : Cb} {sz : C → I} {n : Node I S C} {c : Nat} {b : Bubble I S C} {path : List Nat} {w : World}
    {P : C → Prop} {tot : I} (hn : n.keys.length = 2 * E.M) (ha : n.kids.length = 2 * E.M + 1) (hcl : c ≤ 2 * E.M) (hP : ∀ y ∈ n.kids, P y) (hr : P b.rhs)
    (ht : bubbleTotal E.ix sz b = .ok tot) :
    Meets E.ix.debug (bubbleSplitC E cb sz n c b tot path w) (bubbleSplit E cb sz n c b path w) (Kept E.M P) := by
  have hk0 : Kept E.M P n := ⟨by omega, by omega, by show _ = _; omega, hP⟩
  unfold bubbleSplitC bubbleSplit
  have hmid : Safe E.ix.debug (bubbleMid E.M c) fun mid => mid = (if c > E.M then E.M else E.M - 1) := by
    unfold bubbleMid
    split
    · exact rfl
    · exact Safe.usub (by omega)
  refine Meets.step hmid hk0 fun mid hmid => ?_
  have hlt : mid < n.keys.length := by rw [hn, hmid]; split <;> omega
  have hge : E.M - 1 ≤ mid := by rw [hmid]; split <;> omega
  have hle : mid ≤ E.M := by rw [hmid]; split <;> omega
  refine Meets.step (split_safe hlt) hk0 fun r hs => ?_
  obtain ⟨L, key, R, w1⟩ := r
  obtain ⟨h1, h2, h3, h4, -⟩ := hs
  dsimp only at h1 h2 h3 h4 ⊢
  have hL : L.kids.length = mid + 1 := by rw [h2]; simp; omega
  have hR : R.kids.length = R.keys.length + 1 := by rw [h4, h3]; simp; omega
  have hPL : ∀ y ∈ L.kids, P y := fun y hy => hP y (List.mem_of_mem_take (h2 ▸ hy))
  have hPR : ∀ y ∈ R.kids, P y := fun y hy => hP y (List.mem_of_mem_drop (h4 ▸ hy))
  have hk1 : Kept E.M P { L with size := key.pos } := ⟨by dsimp only; omega, by dsimp only; omega, by show L.kids.length = L.keys.length + 1; omega, hPL⟩
  have hfp : Safe E.ix.debug (firstPos E.M R) fun _ => True := by
    unfold firstPos
    split
    · exact trivial
    · rename_i hnone
      simp only [Node.tryKeyPos, Option.map_eq_none_iff, List.getElem?_eq_none_iff] at hnone
      split
      · exfalso
        rw [h3, hn, hmid] at hnone
        split at hnone <;> omega
      · exact trivial
  refine Meets.step hfp hk1 fun _ _ => ?_
  have hfs : Safe E.ix.debug (firstSize sz E.M c b.oldSize R) fun _ => True := by
    unfold firstSize
    split
    · exact trivial
    · exact childSize_safe (by omega)
  refine Meets.step hfs hk1 fun _ _ => ?_
  ixstep hc, hk1
  rename_i rhsStart _
  ixstep hc, hk1
  split
  · rename_i hcM
    refine Meets.step (shiftKeys_safe hc (Nat.zero_le _)) hk1 fun R1 hsame => ?_
    obtain ⟨hs1, hs2⟩ := hsame
    split
    · rename_i hlt'
      have hmid' : mid = E.M - 1 := by rw [hmid, if_neg (by omega)]
      refine Meets.bind ((bubbleInsertHalfC_meets hc (n := { L with size := key.pos }) (by dsimp only; omega) (by dsimp only; omega) ht).mono fun n' hg => ?_)
        (bubbleInsertHalf_safe hc (n := { L with size := key.pos }) (by dsimp only; omega) (by dsimp only; omega)) fun r _ => Meets.pure
      exact hg.kept (by dsimp only; omega) (by dsimp only; omega) (by show L.kids.length = L.keys.length + 1; omega) hPL hr (by dsimp only; omega)
    · have hmid' : mid = E.M := by rw [hmid, if_pos (by omega)]
      refine Meets.step (Safe.usub (by omega)) hk1 fun c' hc' => ?_
      have hrs : ∀ sh, Safe E.ix.debug (relShift E.ix sh rhsStart) fun _ => True := by
        intro sh
        unfold relShift
        split
        · ixop hc
          exact trivial
        · exact trivial
      refine Meets.step (hrs _) hk1 fun sh _ => ?_
      exact Meets.bind ((bubbleInsertHalfC_meets hc (n := R1) (c := c') (by omega) (by omega) ht).within fun n' hg => hk1)
        (bubbleInsertHalf_safe hc (n := R1) (c := c') (by omega) (by omega)) fun r _ => Meets.pure
  · have hcM : c = E.M := by omega
    have hmid' : mid = E.M - 1 := by rw [hmid, if_neg (by omega)]
    refine Meets.step (replaceFirstChild_safe (by omega)) hk1 fun r hf => ?_
    obtain ⟨R1, c0, w2⟩ := r
    obtain ⟨f1, f2, f3⟩ := hf
    dsimp only at f1 f2 f3 ⊢
    ixstep hc, hk1
    ixstep hc, hk1
    refine Meets.step (pushKeyAndChild_safe (n := { L with size := key.pos }) (by dsimp only; omega)) hk1 fun r hpp => ?_
    obtain ⟨L1, w3⟩ := r
    obtain ⟨p1, p2, -⟩ := hpp
    dsimp only at p1 p2 ⊢
    have hk2 : Kept E.M P L1 := by
      refine ⟨by omega, by omega, ?_, ?_⟩
      · show L1.kids.length = L1.keys.length + 1
        rw [p2]; simp; omega
      · rw [p2]; intro y hy
        simp only [List.mem_append, List.mem_singleton] at hy
        rcases hy with hy | rfl
        · exact hPL y hy
        · exact hPR y f3
    refine Meets.step (keyPos_safe (by omega)) hk2 fun _ _ => ?_
    exact Meets.step (shiftKeysAuto_safe hc (Nat.zero_le _)) hk2 fun R2 _ => Meets.pure

omit hc in
theorem Kept.fill {M h : Nat} {n : Node I S (Tree I S h)} (hk : Kept M (FillT 1 M 1) n) : FillT 1 M 1 (h := h + 1) n :=
  fillT_succ.2 hk

omit hc in
theorem low_one {H h : Nat} (ctx : Ctx I S H h) : ctx.low 1 = 1 := by cases ctx <;> rfl

omit hc in
theorem close_fill1 {M : Nat} {H h : Nat} {ctx : Ctx I S H h} {t : Tree I S h} (hx : ctx.Shape 1 M) (ht : FillT 1 M 1 t) : FillT 1 M 1 (ctx.close t) :=
  close_fill ctx t hx (by rw [low_one]; exact ht)

theorem bubbleTotal_safe {sz : C → I} {b : Bubble I S C} : Safe E.ix.debug (bubbleTotal E.ix sz b) fun _ => True :=
  (hc.sAddR _ _).op fun _ => hc.sAddR _ _

theorem bubbleFinishC_meets (hM : 2 ≤ E.M) {cb : Cb} {m : Maps I} {H : Nat} : ∀ {h : Nat} (ctx : Ctx I S H h) (b : Bubble I S (Tree I S h)) (handled : Bool)
    (path : List Nat) (w : World), ctx.Shape 1 E.M → b.shift = none → FillT 1 E.M 1 b.lhs → FillT 1 E.M 1 b.rhs →
    (m.sizes = true → handled = true ∨ h ≤ m.lhsHeight) → (m.sizes = true → m.lhsHeight < H) →
    Meets E.ix.debug (bubbleFinishC E cb m ctx b handled path w) (bubbleFinish E cb m ctx b handled path w) (FillT 1 E.M 1) := by
  intro h ctx
  induction ctx with
  | top =>
    intro b handled path w _ hsh hl hr hm hH
    unfold bubbleFinishC bubbleFinish
    have : Safe E.ix.debug (mapShift m H handled b.shift) fun r => r.2 = none := by
      unfold mapShift
      rw [hsh]
      split
      · rename_i hsz
        refine (Safe.checkT rfl).op fun _ => ?_
        rw [if_neg (by have := hH hsz; simp; omega)]
        exact rfl
      · exact rfl
    refine Meets.step this hl fun r hr' => ?_
    obtain ⟨_, sh⟩ := r
    refine Meets.extra (bubbleTotal_safe hc) hl fun _ _ => ?_
    exact Meets.step (Safe.checkT (by rw [show sh = none from hr']; rfl)) hl fun _ _ => Meets.pure
  | @frame h p z keys kl kr up ih =>
    intro b handled path w hx hsh hl hr hm hH
    unfold bubbleFinishC bubbleFinish
    have : Safe E.ix.debug (mapShift m h handled b.shift) fun r => m.sizes = true → (r.1 = true ∨ h + 1 ≤ m.lhsHeight) := by
      unfold mapShift
      rw [hsh]
      split
      · rename_i hsz
        refine (Safe.checkT rfl).op fun _ => ?_
        split
        · intro _; exact .inl rfl
        · rename_i hne
          intro _
          simp only [beq_iff_eq] at hne
          rcases hm hsz with h | h
          · exact .inl h
          · exact .inr (by omega)
      · rename_i hsz
        intro h; exact absurd h hsz
    have hp := plug_shape (p := p) (z := z) hx hl
    have hx' := hx
    obtain ⟨x1, x2, x3, x4, x5, x6⟩ := hx
    have hkl : kl.length ≤ keys.length := by omega
    have hcl0 := close_fill up _ x6 hp
    obtain ⟨q1, q2, q3, q4⟩ := fillT_succ.1 hp
    have q1 : up.low 1 ≤ keys.length := q1
    have q1' : 1 ≤ keys.length := by rw [low_one] at q1; exact q1
    have q3 : (kl ++ b.lhs :: kr).length = keys.length + 1 := q3
    dsimp only
    refine Meets.step this hcl0 fun r hr' => ?_
    obtain ⟨handled', sh⟩ := r
    dsimp only at hr' ⊢
    refine Meets.extra (bubbleTotal_safe hc) hcl0 fun tot htot => ?_
    split
    · rename_i hroom
      have hroom : keys.length < 2 * E.M := hroom
      have htot' : bubbleTotal E.ix (szT E.ix) (Bubble.mk b.lhs b.key b.keySize b.rhs b.oldSize sh (mapSide m h (ptrT b.lhs) w.fst b.side) b.inserted) = .ok tot := htot
      refine Meets.bind ((bubbleRoomC_meets hc (n := plugNode p z keys kl b.lhs kr) hkl hroom htot').within fun n' hg => ?_)
        (bubbleRoom_safe hc (n := plugNode p z keys kl b.lhs kr) hkl hroom) fun r hb => ?_
      · exact close_fill1 x6 (hg.kept (M := E.M) (P := FillT 1 E.M 1) q1' hroom q3 q4 hr hkl).fill
      obtain ⟨n, ov, old, new, path1, w1⟩ := r
      obtain ⟨b1, b2⟩ := hb
      dsimp only at b1 b2 ⊢
      have b1 : n.keys.length = keys.length + 1 := b1
      obtain ⟨k1, k2⟩ := kids_insert (k := keys.length) (c := kl.length) (x := b.rhs) (P := FillT 1 E.M 1) q3 hkl q4 hr
      have hn : FillT 1 E.M (up.low 1) (h := h + 1) n :=
        shape_mk b1 b2 (by omega) (by omega) (by simpa [plugNode] using k1) k2
      have hs' : m.sizes = true → h = m.lhsHeight → handled' = true := by
        intro hsz he
        rcases hr' hsz with h | h
        · exact h
        · omega
      exact Meets.bind (opKeyC_meets hc (n := n) x6 hn (by show _ < n.keys.length; omega) hs')
        (opKey_safe hc (n := n) x6 hn (by show _ < n.keys.length; omega) hs') fun r _ => Meets.pure
    · rename_i hroom
      have hfull : keys.length = 2 * E.M := by
        have : ¬ keys.length < 2 * E.M := hroom
        omega
      have hb2 : FillT 1 E.M 1 (Bubble.mk b.lhs b.key b.keySize b.rhs b.oldSize sh (mapSide m h (ptrT b.lhs) w.fst b.side) b.inserted).rhs := hr
      refine Meets.bind ((bubbleSplitC_meets hc hM (n := plugNode p z keys kl b.lhs kr) (c := kl.length) (P := FillT 1 E.M 1) hfull
          (by show (kl ++ b.lhs :: kr).length = _; omega) (by omega) q4 hb2 htot).within fun n' hk => close_fill1 x6 hk.fill)
        (bubbleSplit_safe hc (by omega) (n := plugNode p z keys kl b.lhs kr) (c := kl.length) (P := FillT 1 E.M 1) hfull
          (by show (kl ++ b.lhs :: kr).length = _; omega) (by omega) q4 hb2) fun r hb => ?_
      obtain ⟨b', path1, w1⟩ := r
      obtain ⟨s1, ⟨s2, s3, s4, s5⟩, t2, t3, t4, t5⟩ := hb
      exact ih b' handled' path1 w1 x6 s1 (shape_mk rfl rfl (Nat.le_trans (by omega) s2) s3 s4 s5) (shape_mk rfl rfl (Nat.le_trans (by omega) t2) t3 t4 t5) hr' hH

/-! ## Leaves -/

omit hc in
theorem Lf.left {M k : Nat} {n : Tree I S 1} (h : Lf k n) (h1 : 1 ≤ k) (h2 : k ≤ 2 * M) : FillT 1 M 1 n := h.shape h1 h2

theorem leafInsertHalfC_meets {cb : Cb} {n : Tree I S 1} {k idx : Nat} {ov : Option I} {fst : Sized I S} {snd : Option (Sized I S)} {w : World}
    (h : Lf k n) (h1k : 1 ≤ k) (hi : idx ≤ k) (hov : ov.isSome = true → idx ≠ 0) (hm : k + 1 + snd.isSome.toNat ≤ 2 * E.M) :
    Meets E.ix.debug (leafInsertHalfC E cb n idx ov fst snd w) (leafInsertHalf E cb n idx ov fst snd w) (FillT 1 E.M 1) := by
  have hL : ∀ {j : Nat} {n' : Tree I S 1}, Lf j n' → 1 ≤ j → j ≤ 2 * E.M → FillT 1 E.M 1 n' := fun h a b => h.left a b
  have hb : snd.isSome.toNat ≤ 1 := by cases snd <;> simp
  have hend : ∀ (n3 : Tree I S 1) (start : Nat) (w3 : World) (pos old new : I), Lf (k + 1 + snd.isSome.toNat) n3 → start ≤ k + 1 + snd.isSome.toNat →
      Meets E.ix.debug (do
        let n ← shiftKeysC E.ix n3 true start pos old new
        let _ ← leave n (Node.handle n idx)
        let w ← leave n (emit cb (.insertion n.ptr idx) w3)
        pure (n, w)) (do
        let n ← Node.shiftKeys E.ix n3 true start pos old new
        let _ ← Node.handle n idx
        let w ← emit cb (.insertion n.ptr idx) w3
        pure (n, w)) (FillT 1 E.M 1 (h := 1)) := by
    intro n3 start w3 pos old new g1 g2
    refine Meets.bind ((shiftKeysC_meets hc (by have := g1.1; omega)).mono fun n' hs => hL (g1.same hs) (by omega) (by omega))
      (shiftKeys_safe hc (by have := g1.1; omega)) fun n4 hs4 => ?_
    have h4 := g1.same hs4
    have f4 := hL h4 (by omega) (by omega)
    refine Meets.step (handle_safe (by have := h4.1; omega)).triv f4 fun _ _ => ?_
    exact Meets.step (emit_safe (.inr (by intros; simp))) f4 fun _ _ => Meets.pure
  unfold leafInsertHalfC leafInsertHalf
  dsimp only
  have hf := hL h h1k (by omega)
  have hmid : ∀ pos old new, Meets E.ix.debug (do
      let (n, _, w) ← leave n (leafInsert E n idx fst.slice w)
      let fstPos ← leave n (E.ix.addR pos new)
      let n ← leave n (Node.setKeyPos n idx fstPos)
      let new ← leave n (E.ix.addR new fst.size)
      let (n, new, start, w) ← match snd with
        | none => pure (n, new, idx + 1, w)
        | some s => do
          let (n, _, w) ← leave n (leafInsert E n (idx + 1) s.slice w)
          let new ← leave n (E.ix.addR new s.size)
          let sndPos ← leave n (E.ix.addR fstPos fst.size)
          let n ← leave n (Node.setKeyPos n (idx + 1) sndPos)
          pure (n, new, idx + 2, w)
      let n ← shiftKeysC E.ix n true start pos old new
      let _ ← leave n (Node.handle n idx)
      let w ← leave n (emit cb (.insertion n.ptr idx) w)
      pure (n, w)) (do
      let (n, _, w) ← leafInsert E n idx fst.slice w
      let fstPos ← E.ix.addR pos new
      let n ← Node.setKeyPos n idx fstPos
      let new ← E.ix.addR new fst.size
      let (n, new, start, w) ← match snd with
        | none => pure (n, new, idx + 1, w)
        | some s => do
          let (n, _, w) ← leafInsert E n (idx + 1) s.slice w
          let new ← E.ix.addR new s.size
          let sndPos ← E.ix.addR fstPos fst.size
          let n ← Node.setKeyPos n (idx + 1) sndPos
          pure (n, new, idx + 2, w)
      let n ← Node.shiftKeys E.ix n true start pos old new
      let _ ← Node.handle n idx
      let w ← emit cb (.insertion n.ptr idx) w
      pure (n, w)) (FillT 1 E.M 1 (h := 1)) := by
    intro pos old new
    refine Meets.step (leafInsert_safe h hi (by omega)) hf fun r h1 => ?_
    obtain ⟨n1, _, w1⟩ := r
    dsimp only at h1 ⊢
    have f1 := hL h1 (by omega) (by omega)
    ixstep hc, f1
    refine Meets.step (setKeyPos_safe (by have := h1.1; omega)) f1 fun n2 hs => ?_
    have h2 : Lf (k + 1) n2 := h1.same hs
    have f2 := hL h2 (by omega) (by omega)
    ixstep hc, f2
    cases snd with
    | none => exact hend n2 _ _ _ _ _ h2 (by simp; omega)
    | some s =>
      simp only [Option.isSome_some, Bool.toNat_true] at hm
      refine Meets.step (leafInsert_safe h2 (by omega) (by omega)) f2 fun r h3 => ?_
      obtain ⟨n3, _, w3⟩ := r
      dsimp only at h3 ⊢
      have f3 := hL h3 (by omega) (by omega)
      ixstep hc, f3
      ixstep hc, f3
      refine Meets.step (setKeyPos_safe (by have := h3.1; omega)) f3 fun n4 hs4 => ?_
      exact hend n4 _ _ _ _ _ (h3.same hs4) (by simp; omega)
  cases ov with
  | none => exact hmid _ _ _
  | some z =>
    have := hov rfl
    refine Meets.stepIn (Safe.usub (by omega)) hf fun j hj => ?_
    have hk : j < (Node.keys n).length := by rw [h.1]; omega
    refine Meets.stepIn (keyPos_safe hk).triv hf fun _ _ => ?_
    exact Meets.stepIn (sliceSize_safe hc hk h.arity).triv hf fun _ _ => hmid _ _ _

theorem splitPlaceC_meets {cb : Cb} {at_ : Side ⊕ Side} {n rhs : Tree I S 1} {key : Key I S} {keySize rhsStart oldSize : I} {idx mid len : Nat}
    {ov : Option I} {fst : Sized I S} {snd : Option (Sized I S)} {w : World} (hM : 3 ≤ E.M) (hl : len ≤ 2 * E.M) (hl' : 2 * E.M ≤ len + snd.isSome.toNat)
    (hp : PlanOk E.M len idx snd.isSome (mid, at_)) (hn : Lf mid n) (hr : Lf (len - (mid + 1)) rhs) (hi : idx ≤ len)
    (hov : ov.isSome = true → idx ≠ 0 ∧ (at_ = .inl .right → idx ≠ mid + 1)) :
    Meets E.ix.debug (splitPlaceC E cb at_ n key keySize rhs rhsStart oldSize idx mid ov fst snd w)
      (splitPlace E cb at_ n key keySize rhs rhsStart oldSize idx mid ov fst snd w) (FillT 1 E.M 1) := by
  have hb : snd.isSome.toNat ≤ 1 := by cases snd <;> simp
  have hL : ∀ {j : Nat} {n' : Tree I S 1}, Lf j n' → 1 ≤ j → j ≤ 2 * E.M → FillT 1 E.M 1 n' := fun h a b => h.left a b
  unfold splitPlaceC splitPlace
  match at_, hp with
  | .inr .right, hp =>
    obtain ⟨p1, p2, p3⟩ := hp
    dsimp only at p1 p2 p3 ⊢
    have f0 := hL hn (by omega) (by omega)
    ixstep hc, f0
    refine Meets.step (leafPush_safe (E := E) hn (by omega)) f0 fun r h1 => ?_
    obtain ⟨n1, w1⟩ := r
    obtain ⟨h1, -⟩ := h1
    dsimp only at h1 ⊢
    have f1 := hL h1 (by omega) (by omega)
    refine Meets.step (Safe.usub (by have := h1.1; show 1 ≤ (Node.keys n1).length; omega)) f1 fun _ _ => ?_
    refine Meets.step (emit_safe (.inr (by intros; simp))) f1 fun _ _ => ?_
    exact Meets.step (prependSnd_safe hc hr (by omega)) f1 fun r h2 => Meets.pure
  | .inr .left, hp =>
    obtain ⟨p1, p2, p3, p4, p5⟩ := hp
    dsimp only at p1 p2 p4 p5 ⊢
    cases snd with
    | none => cases p3
    | some s =>
      dsimp only
      have f0 := hL hn (by omega) (by omega)
      ixstep hc, f0
      ixstep hc, f0
      refine Meets.step (leafPush_safe (E := E) hn (by omega)) f0 fun r h1 => ?_
      obtain ⟨n1, w1⟩ := r
      obtain ⟨h1, -⟩ := h1
      dsimp only at h1 ⊢
      have f1 := hL h1 (by omega) (by omega)
      refine Meets.step (leafPush_safe (E := E) h1 (by omega)) f1 fun r h2 => ?_
      obtain ⟨n2, w2⟩ := r
      obtain ⟨h2, -⟩ := h2
      dsimp only at h2 ⊢
      have f2 := hL h2 (by omega) (by omega)
      have e : Node.len (C := Tree I S 0) n = mid := hn.1
      rw [e]
      refine Meets.step (handle_safe (by have := h2.1; omega)).triv f2 fun _ _ => ?_
      refine Meets.step (handle_safe (by have := h2.1; omega)).triv f2 fun _ _ => ?_
      refine Meets.step (emit_safe (.inr (by intros; simp))) f2 fun _ _ => ?_
      exact Meets.step (emit_safe (.inr (by intros; simp))) f2 fun _ _ => Meets.pure
  | .inl .left, hp =>
    obtain ⟨p1, p2, p3, p4, p5⟩ := hp
    dsimp only at p1 p2 p3 p4 p5 ⊢
    exact Meets.bind (leafInsertHalfC_meets hc hn (by omega) p1 (fun h => (hov h).1) (by omega))
      (leafInsertHalf_safe hc hn p1 (fun h => (hov h).1) (by omega)) fun r h1 => Meets.pure
  | .inl .right, hp =>
    obtain ⟨p1, p2⟩ := hp
    dsimp only at p1 p2 ⊢
    have f0 := hL hn (by omega) (by omega)
    refine Meets.step (Safe.usub (by omega)) f0 fun idx' hi' => ?_
    exact Meets.bind ((leafInsertHalfC_meets hc (idx := idx') hr (by omega) (by omega) (fun h => by have := (hov h).2 rfl; omega) (by omega)).within fun _ _ => f0)
      (leafInsertHalf_safe hc (idx := idx') hr (by omega) (fun h => by have := (hov h).2 rfl; omega) (by omega)) fun r h1 => Meets.pure

theorem leafSplitC_meets {cb : Cb} {n : Tree I S 1} {len idx : Nat} {ov : Option I} {fst : Sized I S} {snd : Option (Sized I S)} {w : World} (hM : 3 ≤ E.M)
    (h : Lf len n) (hl : len ≤ 2 * E.M) (hl' : 2 * E.M ≤ len + snd.isSome.toNat) (hi : idx ≤ len) (hov : ov.isSome = true → idx ≠ 0)
    (hw : w.fst = none) : Meets E.ix.debug (leafSplitC E cb n idx ov fst snd w) (leafSplit E cb n idx ov fst snd w) (FillT 1 E.M 1) := by
  unfold leafSplitC leafSplit
  have hlen : Node.len n = len := h.1
  have hb : snd.isSome.toNat ≤ 1 := by cases snd <;> simp
  have f0 : FillT 1 E.M 1 n := h.left (by omega) hl
  split
  · rename_i hsm
    omega
  · rename_i hsm
    rw [hlen] at hsm ⊢
    refine Meets.step (splitPlan_safe (by omega) hl hl' hsm) f0 fun r hp => ?_
    obtain ⟨mid, at_⟩ := r
    have hmid : mid < len ∧ 1 ≤ mid ∧ mid ≤ E.M := by
      match at_, hp with
      | .inl .left, hp => obtain ⟨p1, p2, p3, p4, p5⟩ := hp; dsimp only at *; omega
      | .inl .right, hp => obtain ⟨p1, p2⟩ := hp; dsimp only at *; omega
      | .inr .left, hp => obtain ⟨p1, p2, p3, p4, p5⟩ := hp; dsimp only at *; omega
      | .inr .right, hp => obtain ⟨p1, p2, p3⟩ := hp; dsimp only at *; omega
    dsimp only
    refine Meets.step (leaf_split_safe h hmid.1) f0 fun r hs => ?_
    obtain ⟨L, key, R, w1⟩ := r
    obtain ⟨s1, s2, s3⟩ := hs
    dsimp only at s1 s2 s3 ⊢
    have f1 : FillT 1 E.M 1 (h := 1) L := s1.left hmid.2.1 (by omega)
    refine Meets.step (emit_keeps (s3.trans hw) (by intros; simp)) f1 fun w2 hw2 => ?_
    refine Meets.step (emit_safe (.inl hw2)) f1 fun w3 _ => ?_
    refine Meets.step (midResize_safe hc) f1 fun r hmr => ?_
    obtain ⟨ks, ov'⟩ := r
    dsimp only at hmr ⊢
    have s1' : Lf mid { L with size := key.pos } := s1
    refine Meets.step (shiftKeys_safe hc (Nat.zero_le _)) (s1'.left hmid.2.1 (by omega)) fun R1 hsame => ?_
    exact splitPlaceC_meets hc hM hl hl' hp (n := { L with size := key.pos }) s1 (s2.same hsame) hi (fun h => ⟨hov (hmr h).1, (hmr h).2⟩)

theorem leafRoomC_meets {cb : Cb} {n : Tree I S 1} {k idx : Nat} {ov : Option I} {fst : Sized I S} {snd : Option (Sized I S)} {added : I} {w : World}
    (h : Lf k n) (h1k : 1 ≤ k) (hi : idx ≤ k) (hov : ov.isSome = true → idx ≠ 0) (hm : k + 1 + snd.isSome.toNat ≤ 2 * E.M) :
    Meets E.ix.debug (leafRoomC E cb n idx ov fst snd added w) (leafRoom E cb n idx ov fst snd added w) (FillT 1 E.M 1) := by
  have hL : ∀ {j : Nat} {n' : Tree I S 1}, Lf j n' → 1 ≤ j → j ≤ 2 * E.M → FillT 1 E.M 1 n' := fun h a b => h.left a b
  have hb : snd.isSome.toNat ≤ 1 := by cases snd <;> simp
  have hend : ∀ (n3 : Tree I S 1) (w3 : World) (p : Option I) (old new : I), Lf (k + 1 + snd.isSome.toNat) n3 →
      Meets E.ix.debug (do
        let _ ← leave n3 (Node.handle n3 idx)
        let w ← leave n3 (emit cb (.insertion n3.ptr idx) w3)
        pure (n3, p, old, new, w)) (do
        let _ ← Node.handle n3 idx
        let w ← emit cb (.insertion n3.ptr idx) w3
        pure (n3, p, old, new, w)) (FillT 1 E.M 1 (h := 1)) := by
    intro n3 w3 p old new hr
    have f3 := hL hr (by omega) (by omega)
    refine Meets.step (handle_safe (by have := hr.1; omega)).triv f3 fun _ _ => ?_
    exact Meets.step (emit_safe (.inr (by intros; simp))) f3 fun _ _ => Meets.pure
  unfold leafRoomC leafRoom
  dsimp only
  have f0 := hL h h1k (by omega)
  cases ov with
  | some z =>
    have := hov rfl
    refine Meets.step (Safe.usub (by omega)) f0 fun j hj => ?_
    have hk : j < (Node.keys n).length := by rw [h.1]; omega
    refine Meets.step (keyPos_safe hk).triv f0 fun _ _ => Meets.step (sliceSize_safe hc hk h.arity).triv f0 fun _ _ => ?_
    ixstep hc, f0
    refine Meets.step (leafInsert_safe h hi (by omega)) f0 fun r h1 => ?_
    obtain ⟨n1, _, w1⟩ := r
    dsimp only at h1 ⊢
    have f1 := hL h1 (by omega) (by omega)
    refine Meets.step (setKeyPos_safe (by have := h1.1; omega)) f1 fun n2 hs => ?_
    have h2 : Lf (k + 1) n2 := h1.same hs
    have f2 := hL h2 (by omega) (by omega)
    cases snd with
    | none =>
      refine Meets.step (hc.sAddR _ _) f2 fun _ _ => ?_
      exact hend _ _ _ _ _ h2
    | some s =>
      simp only [Option.isSome_some, Bool.toNat_true] at hm
      refine Meets.step (leafInsert_safe h2 (by omega) (by omega)) f2 fun r h3 => ?_
      obtain ⟨n3, _, w3⟩ := r
      dsimp only at h3 ⊢
      have f3 := hL h3 (by omega) (by omega)
      ixstep hc, f3
      refine Meets.step (setKeyPos_safe (by have := h3.1; omega)) f3 fun n4 hs4 => ?_
      have h4 := h3.same hs4
      refine Meets.step (hc.sAddR _ _) (hL h4 (by omega) (by omega)) fun _ _ => ?_
      exact hend _ _ _ _ _ h4
  | none =>
    refine Meets.step (leafInsert_safe h hi (by omega)) f0 fun r h1 => ?_
    obtain ⟨n1, _, w1⟩ := r
    dsimp only at h1 ⊢
    have f1 := hL h1 (by omega) (by omega)
    cases snd with
    | none => exact hend _ _ _ _ _ h1
    | some s =>
      simp only [Option.isSome_some, Bool.toNat_true] at hm
      refine Meets.step (leafInsert_safe h1 (by omega) (by omega)) f1 fun r h3 => ?_
      obtain ⟨n3, _, w3⟩ := r
      dsimp only at h3 ⊢
      have f3 := hL h3 (by omega) (by omega)
      ixstep hc, f3
      refine Meets.step (setKeyPos_safe (by have := h3.1; omega)) f3 fun n4 hs4 => ?_
      exact hend _ _ _ _ _ (h3.same hs4)

theorem noJoinC_meets {cb : Cb} {m : Maps I} {H : Nat} {n : Tree I S 1} {ctx : Ctx I S H 1} {idx : Nat} {ov : Option I} {fst : Sized I S}
    {snd : Option (Sized I S)} {w : World} (hM : 3 ≤ E.M) (hx : ctx.Shape 1 E.M) (hn : FillT 1 E.M (ctx.low 1) n) (hi : idx ≤ (Node.keys n).length)
    (hov : ov.isSome = true → idx ≠ 0) (hw : w.fst = none) (hm : m.sizes = true → 0 < m.lhsHeight ∧ m.lhsHeight < H) :
    Meets E.ix.debug (noJoinC E cb m n ctx idx ov fst snd w) (noJoin E cb m n ctx idx ov fst snd w) (FillT 1 E.M 1) := by
  have f0 := close_fill ctx n hx hn
  have hn1 := hn
  rw [low_one] at hn1
  obtain ⟨q1, q2, q3, -⟩ := fillT_succ.1 hn1
  unfold noJoinC noJoin
  refine Meets.step (Safe.weak (decide_eq_true hi)) f0 fun _ _ => ?_
  refine Meets.step (Safe.weak ?_) f0 fun _ _ => ?_
  · cases ov with
    | none => rfl
    | some x => have := hov rfl; simp [this]
  have hb : snd.isSome.toNat ≤ 1 := by cases snd <;> simp
  have hend : ∀ one added, one = snd.isSome.toNat → Meets E.ix.debug (do
      let lim ← leave (ctx.close n) (usub (2 * E.M) one)
      if Node.len n ≥ lim then do
        let (b, w) ← within ctx.close (leafSplitC E cb n idx ov fst snd w)
        bubbleFinishC E cb m ctx b false [] w
      else do
        let (n, ovPos, old, new, w) ← within ctx.close (leafRoomC E cb n idx ov fst snd added w)
        let (t, path) ← opKeyC E.ix m false ctx n (idx + one) ovPos old new []
        pure (.done t, path, ctx.readUp (ptrT n) w)) (do
      let lim ← usub (2 * E.M) one
      if Node.len n ≥ lim then do
        let (b, w) ← leafSplit E cb n idx ov fst snd w
        bubbleFinish E cb m ctx b false [] w
      else do
        let (n, ovPos, old, new, w) ← leafRoom E cb n idx ov fst snd added w
        let (t, path) ← opKey E.ix m false ctx n (idx + one) ovPos old new []
        pure (.done t, path, ctx.readUp (ptrT n) w)) (FillT 1 E.M 1) := by
    intro one added hr
    subst hr
    refine Meets.step (Safe.usub (by omega)) f0 fun lim hlim => ?_
    split
    · rename_i hge
      have hge : lim ≤ (Node.keys n).length := hge
      refine Meets.bind ((leafSplitC_meets hc hM hn.lf q2 (by omega) hi hov hw).within fun t ht => close_fill1 hx ht)
        (leafSplit_safe hc (μ := 1) (by omega) (by omega) hn.lf q2 (by omega) hi hov hw) fun r hb => ?_
      obtain ⟨b, w1⟩ := r
      obtain ⟨b1, b2, b3⟩ := hb
      exact bubbleFinishC_meets hc (by omega) ctx b false [] w1 hx b1 b2 b3 (fun h => .inr (by have := hm h; omega)) (fun h => (hm h).2)
    · rename_i hge
      have hge : ¬ lim ≤ (Node.keys n).length := hge
      refine Meets.bind ((leafRoomC_meets hc hn.lf q1 hi hov (by omega)).within fun t ht => close_fill1 hx ht)
        (leafRoom_safe hc hn.lf hi hov (by omega)) fun r h1 => ?_
      obtain ⟨n1, ovp, old, new, w1⟩ := r
      dsimp only at h1 ⊢
      have hs : m.sizes = true → 0 = m.lhsHeight → false = true := by
        intro h e
        have := hm h
        omega
      have hsh : FillT 1 E.M (ctx.low 1) n1 := h1.shape (by rw [low_one]; omega) (by omega)
      exact Meets.bind (opKeyC_meets hc (n := n1) hx hsh (by have := h1.1; omega) hs)
        (opKey_safe hc (n := n1) hx hsh (by have := h1.1; omega) hs) fun r hr => Meets.pure
  dsimp only
  cases snd with
  | none => exact hend _ _ rfl
  | some s =>
    exact Meets.stepIn (hc.sAddR _ _) f0 fun _ _ => hend _ _ rfl

theorem insertRhsC_meets {nop skip : Bool} {H h : Nat} {n : Tree I S (h + 1)} {ctx : Ctx I S H (h + 1)} {k : Nat} {newLhs : I} {lhsMode : Bool}
    {fst : Sized I S} {snd : Option (Sized I S)} {w : World} (hM : 3 ≤ E.M) (hx : ctx.Shape 1 E.M) (hn : FillT 1 E.M (ctx.low 1) n)
    (hk : k < (Node.keys n).length) (hw : w.fst = none) :
    Meets E.ix.debug (insertRhsC E nop skip n ctx k newLhs lhsMode fst snd w) (insertRhs E nop skip n ctx k newLhs lhsMode fst snd w) (FillT 1 E.M 1) := by
  have f0 := close_fill ctx n hx hn
  unfold insertRhsC insertRhs
  refine Meets.step (keyPos_safe hk).triv f0 fun _ _ => Meets.step (sliceSize_safe hc hk hn.arity).triv f0 fun _ _ => ?_
  refine Meets.step (rhsLeaf_safe hx hn hk) f0 fun r hr => ?_
  obtain ⟨leaf, ctx', i⟩ := r
  obtain ⟨h1, h2, h3⟩ := hr
  refine noJoinC_meets hc hM h1.1 h1.2 h2 ?_ hw ?_
  · intro h
    split at h
    · rename_i h0; exact h3 h0
    · cases h
  · intro hne
    exact ⟨Nat.pos_of_ne_zero (of_decide_eq_true hne), ctx.levels⟩

end
end Sherman
