import Verif.Insert
/-!
# Arithmetic with a smaller bound only fails more often

`Le a b`: `a` is an overflow, or the same as `b`.  All modelled functions are monotone in the index
operations; with `natIdx MAX` and a larger bound this settles what happens when a size does not fit.
-/
set_option linter.unusedSimpArgs false

namespace Sherman
variable {I S C : Type}

def Le {α : Type} (a b : R α) : Prop := a = .error .overflow ∨ a = b

theorem Le.refl {α : Type} (a : R α) : Le a a := .inr rfl

theorem Le.ok {α : Type} {a b : R α} (h : Le a b) {y : α} (hy : a = .ok y) : b = .ok y := by
  rcases h with h | h
  · rw [h] at hy; cases hy
  · rw [← h]; exact hy

theorem Le.bind {α β : Type} {a b : R α} {f g : α → R β} (h1 : Le a b) (h2 : ∀ x, Le (f x) (g x)) :
    Le (a >>= f) (b >>= g) := by
  rcases h1 with rfl | rfl
  · exact .inl rfl
  · cases a with
    | error e => exact .inr rfl
    | ok x => exact h2 x

/-- Same zero and comparisons, and every operation of the first that returns also returns in the second. -/
structure IxLe (a b : IdxOps I) : Prop where
  zero : b.zero = a.zero
  cmp : b.cmp = a.cmp
  debug : b.debug = a.debug
  addR : ∀ x y, Le (a.addR x y) (b.addR x y)
  addL : ∀ x y, Le (a.addL x y) (b.addL x y)
  subR : ∀ x y, Le (a.subR x y) (b.subR x y)
  subL : ∀ x y, Le (a.subL x y) (b.subL x y)

theorem IxLe.le {a b : IdxOps I} (h : IxLe a b) : b.le = a.le := by funext x y; simp [IdxOps.le, h.cmp]
theorem IxLe.lt {a b : IdxOps I} (h : IxLe a b) : b.lt = a.lt := by funext x y; simp [IdxOps.lt, h.cmp]
theorem IxLe.eq {a b : IdxOps I} (h : IxLe a b) : b.eq = a.eq := by funext x y; simp [IdxOps.eq, h.cmp]

theorem IxLe.szT {a b : IdxOps I} (h : IxLe a b) {n : Nat} :
    (Sherman.szT b : Tree I S n → I) = Sherman.szT a := by
  cases n
  · funext x; exact h.zero
  · rfl

theorem IxLe.ident {a b : IdxOps I} (h : IxLe a b) : Maps.identity b = Maps.identity a := by
  simp [Maps.identity, h.zero]

theorem IxLe.newRoot {a b : IdxOps I} (h : IxLe a b) (p : Nat) (s : S) (z : I) :
    Sherman.newRoot b p s z = Sherman.newRoot a p s z := by
  simp [Sherman.newRoot, h.zero]; rfl

syntax "mono1" : tactic
macro_rules | `(tactic| mono1) => `(tactic| with_reducible exact Le.refl _)
macro_rules | `(tactic| mono1) => `(tactic| (with_reducible refine Le.bind ?_ (fun _ => ?_)))
macro_rules | `(tactic| mono1) => `(tactic| (apply IxLe.addR; assumption))
macro_rules | `(tactic| mono1) => `(tactic| (apply IxLe.addL; assumption))
macro_rules | `(tactic| mono1) => `(tactic| (apply IxLe.subR; assumption))
macro_rules | `(tactic| mono1) => `(tactic| (apply IxLe.subL; assumption))

/-- Two environments that differ only in the index operations. -/
structure EnvLe (a b : Env I S) : Prop where
  ix : IxLe a.ix b.ix
  sl : b.sl = a.sl
  M : b.M = a.M

section
variable {a b : IdxOps I} (h : IxLe a b)
include h

theorem bsearch_le (xs : List I) (t : I) (l r : Nat) : Le (bsearch a xs t l r) (bsearch b xs t l r) := by
  have : bsearch b xs t l r = bsearch a xs t l r := by
    induction hn : r - l using Nat.strongRecOn generalizing l r with
    | _ n ih =>
      unfold bsearch
      by_cases hlt : l < r
      · simp only [hlt, dite_true, h.cmp]
        cases xs[l + (r - l) / 2]? with
        | none => rfl
        | some x =>
          simp only
          cases a.cmp x t
          · exact ih _ (by omega) _ _ rfl
          · rfl
          · exact ih _ (by omega) _ _ rfl
      · simp [hlt]
  rw [this]; exact Le.refl _
macro_rules | `(tactic| mono1) => `(tactic| (apply bsearch_le; assumption))

theorem sliceSize_le (sz : C → I) (n : Node I S C) (k : Nat) : Le (Node.sliceSize a sz n k) (Node.sliceSize b sz n k) := by
  unfold Node.sliceSize
  try simp only [h.zero, h.cmp, h.le, h.lt, h.eq, h.szT, h.ident, h.newRoot]
  repeat' (first | mono1 | split)
macro_rules | `(tactic| mono1) => `(tactic| (apply sliceSize_le; assumption))

omit h in
theorem mapPos_le {f g : I → R I} (hf : ∀ x, Le (f x) (g x)) (ks : List (Key I S)) :
    Le (Node.mapPos f ks) (Node.mapPos g ks) := by
  induction ks with
  | nil => exact Le.refl _
  | cons k ks ih =>
    unfold Node.mapPos
    exact Le.bind (hf _) (fun _ => Le.bind ih (fun _ => Le.refl _))
omit h in
theorem setKeyPossWith_le {f g : I → R I} (hf : ∀ x, Le (f x) (g x)) (n : Node I S C) (i : Nat) :
    Le (n.setKeyPossWith f i) (n.setKeyPossWith g i) := by
  unfold Node.setKeyPossWith
  exact Le.bind (Le.refl _) (fun _ => Le.bind (mapPos_le hf _) (fun _ => Le.bind (hf _) (fun _ => Le.refl _)))
macro_rules | `(tactic| mono1) => `(tactic| (apply setKeyPossWith_le; intro _))

theorem shiftKeys_le (n : Node I S C) (incr : Bool) (s : Nat) (p o w : I) : Le (Node.shiftKeys a n incr s p o w) (Node.shiftKeys b n incr s p o w) := by
  unfold Node.shiftKeys
  try simp only [h.zero, h.cmp, h.le, h.lt, h.eq, h.szT, h.ident, h.newRoot]
  repeat' (first | mono1 | split)
macro_rules | `(tactic| mono1) => `(tactic| (apply shiftKeys_le; assumption))

theorem shiftKeysAuto_le (n : Node I S C) (s : Nat) (p o w : I) : Le (Node.shiftKeysAuto a n s p o w) (Node.shiftKeysAuto b n s p o w) := by
  unfold Node.shiftKeysAuto
  try simp only [h.zero, h.cmp, h.le, h.lt, h.eq, h.szT, h.ident, h.newRoot]
  repeat' (first | mono1 | split)
macro_rules | `(tactic| mono1) => `(tactic| (apply shiftKeysAuto_le; assumption))

theorem makeNewParent_le {g : Nat} (l : Tree I S (g + 1)) (k : Key I S) (ks : I) (r : Tree I S (g + 1)) (w : World) : Le (makeNewParent a l k ks r w) (makeNewParent b l k ks r w) := by
  unfold makeNewParent
  try simp only [h.zero, h.cmp, h.le, h.lt, h.eq, h.szT, h.ident, h.newRoot]
  repeat' (first | mono1 | split)
macro_rules | `(tactic| mono1) => `(tactic| (apply makeNewParent_le; assumption))

theorem opPos_le (n : Node I S C) (cok : COK) (ov : Option I) (o : I) : Le (opPos a n cok ov o) (opPos b n cok ov o) := by
  unfold opPos
  try simp only [h.zero, h.cmp, h.le, h.lt, h.eq, h.szT, h.ident, h.newRoot]
  repeat' (first | mono1 | split)
macro_rules | `(tactic| mono1) => `(tactic| (apply opPos_le; assumption))

theorem hintStep_le {g : Nat} (n : Tree I S (g + 1)) (hint : Option Nat) (t : I) : Le (hintStep a n hint t) (hintStep b n hint t) := by
  unfold hintStep
  try simp only [h.zero, h.cmp, h.le, h.lt, h.eq, h.szT, h.ident, h.newRoot]
  repeat' (first | mono1 | split)
macro_rules | `(tactic| mono1) => `(tactic| (apply hintStep_le; assumption))

theorem fullStep_le {g : Nat} (n : Tree I S (g + 1)) (t : I) : Le (fullStep a n t) (fullStep b n t) := by
  unfold fullStep
  try simp only [h.zero, h.cmp, h.debug, h.le, h.lt, h.eq, h.szT, h.ident, h.newRoot]
  repeat' (first | mono1 | split)
macro_rules | `(tactic| mono1) => `(tactic| (apply fullStep_le; assumption))

theorem searchStep_le {g : Nat} (n : Tree I S (g + 1)) (hint : Option Nat) (t : I) : Le (searchStep a n hint t) (searchStep b n hint t) := by
  unfold searchStep
  try simp only [h.zero, h.cmp, h.debug, h.le, h.lt, h.eq, h.szT, h.ident, h.newRoot]
  repeat' (first | mono1 | split)
macro_rules | `(tactic| mono1) => `(tactic| (apply searchStep_le; assumption))

theorem mapSizes_le (m : Maps I) (hd : Bool) (ht : Nat) (n : Node I S C) (cok : COK) (ov : Option I) (o w : I) : Le (mapSizes a m hd ht n cok ov o w) (mapSizes b m hd ht n cok ov o w) := by
  unfold mapSizes
  try simp only [h.zero, h.cmp, h.le, h.lt, h.eq, h.szT, h.ident, h.newRoot]
  repeat' (first | mono1 | split)
macro_rules | `(tactic| mono1) => `(tactic| (apply mapSizes_le; assumption))

theorem opStep_le (m : Maps I) (hd : Bool) (ht : Nat) (n : Node I S C) (cok : COK) (ov : Option I) (o w : I) : Le (opStep a m hd ht n cok ov o w) (opStep b m hd ht n cok ov o w) := by
  unfold opStep
  try simp only [h.zero, h.cmp, h.le, h.lt, h.eq, h.szT, h.ident, h.newRoot]
  repeat' (first | mono1 | split)
macro_rules | `(tactic| mono1) => `(tactic| (apply opStep_le; assumption))

theorem opUp_le {H : Nat} (m : Maps I) (hd : Bool) {n : Nat} (ctx : Ctx I S H n) (t : Tree I S n) (o w : I) (path : List Nat) : Le (opUp a m hd ctx t o w path) (opUp b m hd ctx t o w path) := by
  induction ctx generalizing o w path with
  | top => exact Le.refl _
  | frame ptr size keys kl kr up ih =>
    unfold opUp
    repeat' (first | mono1 | split)
    exact ih _ _ _ _
macro_rules | `(tactic| mono1) => `(tactic| (apply opUp_le; assumption))

theorem opKey_le {H n : Nat} (m : Maps I) (hd : Bool) (ctx : Ctx I S H (n + 1)) (t : Tree I S (n + 1)) (k : Nat) (ov : Option I) (o w : I) (path : List Nat) : Le (opKey a m hd ctx t k ov o w path) (opKey b m hd ctx t k ov o w path) := by
  unfold opKey
  try simp only [h.zero, h.cmp, h.le, h.lt, h.eq, h.szT, h.ident, h.newRoot]
  repeat' (first | mono1 | split)
macro_rules | `(tactic| mono1) => `(tactic| (apply opKey_le; assumption))

theorem roomNums_le (s : Option (Shift I)) (n o t : I) : Le (roomNums a s n o t) (roomNums b s n o t) := by
  unfold roomNums
  try simp only [h.zero, h.cmp, h.le, h.lt, h.eq, h.szT, h.ident, h.newRoot]
  repeat' (first | mono1 | split)
macro_rules | `(tactic| mono1) => `(tactic| (apply roomNums_le; assumption))

theorem halfNums_le (s : Option (Shift I)) (n o : I) : Le (halfNums a s n o) (halfNums b s n o) := by
  unfold halfNums
  try simp only [h.zero, h.cmp, h.le, h.lt, h.eq, h.szT, h.ident, h.newRoot]
  repeat' (first | mono1 | split)
macro_rules | `(tactic| mono1) => `(tactic| (apply halfNums_le; assumption))

theorem relShift_le (s : Option (Shift I)) (r : I) : Le (relShift a s r) (relShift b s r) := by
  unfold relShift
  try simp only [h.zero, h.cmp, h.le, h.lt, h.eq, h.szT, h.ident, h.newRoot]
  repeat' (first | mono1 | split)
macro_rules | `(tactic| mono1) => `(tactic| (apply relShift_le; assumption))

theorem midResize_le (ov : Option I) (at_ : Side ⊕ Side) (i m : Nat) (r k : I) : Le (midResize a ov at_ i m r k) (midResize b ov at_ i m r k) := by
  unfold midResize
  try simp only [h.zero, h.cmp, h.le, h.lt, h.eq, h.szT, h.ident, h.newRoot]
  repeat' (first | mono1 | split)
macro_rules | `(tactic| mono1) => `(tactic| (apply midResize_le; assumption))

theorem findStep_le {g : Nat} (n : Tree I S (g + 1)) (hint : Option Nat) (t : I) : Le (findStep a n hint t) (findStep b n hint t) := by
  unfold findStep
  try simp only [h.zero, h.cmp, h.le, h.lt, h.eq, h.szT, h.ident, h.newRoot]
  repeat' (first | mono1 | split)
macro_rules | `(tactic| mono1) => `(tactic| (apply findStep_le; assumption))

theorem handleAt_le {H : Nat} (leaf : Tree I S 1) (ctx : Ctx I S H 1) (hd : Nat × Nat) : Le (handleAt a leaf ctx hd) (handleAt b leaf ctx hd) := by
  unfold handleAt
  try simp only [h.zero, h.cmp, h.le, h.lt, h.eq, h.szT, h.ident, h.newRoot]
  repeat' (first | mono1 | split)
macro_rules | `(tactic| mono1) => `(tactic| (apply handleAt_le; assumption))

theorem getKey_le (idx : I) {g : Nat} (n : Tree I S (g + 1)) (t : I) (k : Nat) (p : I) : Le (getKey a idx n t k p) (getKey b idx n t k p) := by
  unfold getKey
  try simp only [h.zero, h.cmp, h.le, h.lt, h.eq, h.szT, h.ident, h.newRoot]
  repeat' (first | mono1 | split)
macro_rules | `(tactic| mono1) => `(tactic| (apply getKey_le; assumption))

end

section
variable {a b : Env I S} (hE : EnvLe a b)
include hE

theorem leafInsert_le (n : Tree I S 1) (i : Nat) (s : S) (w : World) : Le (leafInsert a n i s w) (leafInsert b n i s w) := by
  unfold leafInsert
  rw [hE.M]
  exact Le.refl _
macro_rules | `(tactic| mono1) => `(tactic| (apply leafInsert_le; assumption))

theorem leafPush_le (n : Tree I S 1) (s : S) (r : Option Nat) (z : I) (w : World) : Le (leafPush a n s r z w) (leafPush b n s r z w) := by
  unfold leafPush
  rw [hE.M]
  exact Le.refl _
macro_rules | `(tactic| mono1) => `(tactic| (apply leafPush_le; assumption))

theorem bubbleRoom_le [HasPtr C] (cb : Cb) (sz : C → I) (p : Node I S C) (c : Nat) (x : Bubble I S C) (path : List Nat) (w : World) : Le (bubbleRoom a cb sz p c x path w) (bubbleRoom b cb sz p c x path w) := by
  have h := hE.ix
  unfold bubbleRoom
  try simp only [hE.sl, hE.M, h.zero, h.cmp, h.le, h.lt, h.eq, h.szT, h.ident, h.newRoot]
  repeat' (first | mono1 | split)
macro_rules | `(tactic| mono1) => `(tactic| (apply bubbleRoom_le; assumption))

theorem bubbleInsertHalf_le [HasPtr C] (cb : Cb) (sz : C → I) (p : Node I S C) (c : Nat) (x : Bubble I S C) (s : Option (Shift I)) (path : List Nat) (w : World) : Le (bubbleInsertHalf a cb sz p c x s path w) (bubbleInsertHalf b cb sz p c x s path w) := by
  have h := hE.ix
  unfold bubbleInsertHalf
  try simp only [hE.sl, hE.M, h.zero, h.cmp, h.le, h.lt, h.eq, h.szT, h.ident, h.newRoot]
  repeat' (first | mono1 | split)
macro_rules | `(tactic| mono1) => `(tactic| (apply bubbleInsertHalf_le; assumption))

theorem bubbleSplit_le [HasPtr C] (cb : Cb) (sz : C → I) (p : Node I S C) (c : Nat) (x : Bubble I S C) (path : List Nat) (w : World) : Le (bubbleSplit a cb sz p c x path w) (bubbleSplit b cb sz p c x path w) := by
  have h := hE.ix
  unfold bubbleSplit
  try simp only [hE.sl, hE.M, h.zero, h.cmp, h.le, h.lt, h.eq, h.szT, h.ident, h.newRoot]
  repeat' (first | mono1 | split)
macro_rules | `(tactic| mono1) => `(tactic| (apply bubbleSplit_le; assumption))

theorem bubbleFinish_le {H : Nat} (cb : Cb) (m : Maps I) {n : Nat} (ctx : Ctx I S H n) (x : Bubble I S (Tree I S n)) (hd : Bool) (path : List Nat) (w : World) : Le (bubbleFinish a cb m ctx x hd path w) (bubbleFinish b cb m ctx x hd path w) := by
  have h := hE.ix
  induction ctx generalizing hd path w with
  | top => unfold bubbleFinish; exact Le.refl _
  | frame ptr size keys kl kr up ih =>
    unfold bubbleFinish
    simp only [hE.M, h.szT]
    repeat' (first | mono1 | split)
    exact ih _ _ _ _
macro_rules | `(tactic| mono1) => `(tactic| (apply bubbleFinish_le; assumption))

theorem leafSplitSmall_le (cb : Cb) (n : Tree I S 1) (i : Nat) (ov : Option I) (f s : Sized I S) (w : World) : Le (leafSplitSmall a cb n i ov f s w) (leafSplitSmall b cb n i ov f s w) := by
  have h := hE.ix
  unfold leafSplitSmall
  try simp only [hE.sl, hE.M, h.zero, h.cmp, h.le, h.lt, h.eq, h.szT, h.ident, h.newRoot]
  repeat' (first | mono1 | split)
macro_rules | `(tactic| mono1) => `(tactic| (apply leafSplitSmall_le; assumption))

theorem leafInsertHalf_le (cb : Cb) (n : Tree I S 1) (i : Nat) (ov : Option I) (f : Sized I S) (s : Option (Sized I S)) (w : World) : Le (leafInsertHalf a cb n i ov f s w) (leafInsertHalf b cb n i ov f s w) := by
  have h := hE.ix
  unfold leafInsertHalf
  try simp only [hE.sl, hE.M, h.zero, h.cmp, h.le, h.lt, h.eq, h.szT, h.ident, h.newRoot]
  repeat' (first | mono1 | split)
macro_rules | `(tactic| mono1) => `(tactic| (apply leafInsertHalf_le; assumption))

theorem prependSnd_le (n : Tree I S 1) (s : Option (Sized I S)) (w : World) : Le (prependSnd a n s w) (prependSnd b n s w) := by
  have h := hE.ix
  unfold prependSnd
  try simp only [hE.sl, hE.M, h.zero, h.cmp, h.le, h.lt, h.eq, h.szT, h.ident, h.newRoot]
  repeat' (first | mono1 | split)
macro_rules | `(tactic| mono1) => `(tactic| (apply prependSnd_le; assumption))

theorem splitPlace_le (cb : Cb) (at_ : Side ⊕ Side) (n : Tree I S 1) (k : Key I S) (ks : I) (r : Tree I S 1) (rs o : I) (i m : Nat) (ov : Option I) (f : Sized I S) (s : Option (Sized I S)) (w : World) : Le (splitPlace a cb at_ n k ks r rs o i m ov f s w) (splitPlace b cb at_ n k ks r rs o i m ov f s w) := by
  have h := hE.ix
  unfold splitPlace
  try simp only [hE.sl, hE.M, h.zero, h.cmp, h.le, h.lt, h.eq, h.szT, h.ident, h.newRoot]
  repeat' (first | mono1 | split)
macro_rules | `(tactic| mono1) => `(tactic| (apply splitPlace_le; assumption))

theorem leafSplit_le (cb : Cb) (n : Tree I S 1) (i : Nat) (ov : Option I) (f : Sized I S) (s : Option (Sized I S)) (w : World) : Le (leafSplit a cb n i ov f s w) (leafSplit b cb n i ov f s w) := by
  have h := hE.ix
  unfold leafSplit
  try simp only [hE.sl, hE.M, h.zero, h.cmp, h.le, h.lt, h.eq, h.szT, h.ident, h.newRoot]
  repeat' (first | mono1 | split)
macro_rules | `(tactic| mono1) => `(tactic| (apply leafSplit_le; assumption))

theorem leafRoom_le (cb : Cb) (n : Tree I S 1) (i : Nat) (ov : Option I) (f : Sized I S) (s : Option (Sized I S)) (ad : I) (w : World) : Le (leafRoom a cb n i ov f s ad w) (leafRoom b cb n i ov f s ad w) := by
  have h := hE.ix
  unfold leafRoom
  try simp only [hE.sl, hE.M, h.zero, h.cmp, h.le, h.lt, h.eq, h.szT, h.ident, h.newRoot]
  repeat' (first | mono1 | split)
macro_rules | `(tactic| mono1) => `(tactic| (apply leafRoom_le; assumption))

theorem noJoin_le {H : Nat} (cb : Cb) (m : Maps I) (n : Tree I S 1) (ctx : Ctx I S H 1) (i : Nat) (ov : Option I) (f : Sized I S) (s : Option (Sized I S)) (w : World) : Le (noJoin a cb m n ctx i ov f s w) (noJoin b cb m n ctx i ov f s w) := by
  have h := hE.ix
  unfold noJoin
  try simp only [hE.sl, hE.M, h.zero, h.cmp, h.le, h.lt, h.eq, h.szT, h.ident, h.newRoot]
  repeat' (first | mono1 | split)
macro_rules | `(tactic| mono1) => `(tactic| (apply noJoin_le; assumption))

theorem findPoint_le {H n : Nat} (t : Tree I S (n + 1)) (ctx : Ctx I S H (n + 1)) (hints : Option (List Nat)) (target : I) (l r : Option (Nat × Nat)) : Le (findPoint a t ctx hints target l r) (findPoint b t ctx hints target l r) := by
  have h := hE.ix
  induction n generalizing hints target l r with
  | zero =>
    unfold findPoint
    simp only [adjacent, hE.sl]
    repeat' (first | mono1 | split)
  | succ n ih =>
    unfold findPoint
    simp only [adjacent, hE.sl]
    repeat' (first | mono1 | split)
    all_goals exact ih _ _ _ _ _ _
macro_rules | `(tactic| mono1) => `(tactic| (apply findPoint_le; assumption))

theorem finishJoin_le {H : Nat} (leaf : Tree I S 1) (ctx : Ctx I S H 1) (hd : Nat × Nat) (o n : I) (w : World) : Le (finishJoin a leaf ctx hd o n w) (finishJoin b leaf ctx hd o n w) := by
  have h := hE.ix
  unfold finishJoin
  try simp only [hE.sl, hE.M, h.zero, h.cmp, h.le, h.lt, h.eq, h.szT, h.ident, h.newRoot]
  repeat' (first | mono1 | split)
macro_rules | `(tactic| mono1) => `(tactic| (apply finishJoin_le; assumption))

theorem tryJoinEdge_le {H : Nat} (leaf : Tree I S 1) (ctx : Ctx I S H 1) (l r : Option (Nat × Nat)) (s : S) (z : I) (w : World) : Le (tryJoinEdge a leaf ctx l r s z w) (tryJoinEdge b leaf ctx l r s z w) := by
  have h := hE.ix
  unfold tryJoinEdge
  try simp only [hE.sl, hE.M, h.zero, h.cmp, h.le, h.lt, h.eq, h.szT, h.ident, h.newRoot]
  repeat' (first | mono1 | split)
macro_rules | `(tactic| mono1) => `(tactic| (apply tryJoinEdge_le; assumption))

theorem insertEdge_le {H : Nat} (leaf : Tree I S 1) (ctx : Ctx I S H 1) (i : Nat) (l r : Option (Nat × Nat)) (s : S) (z : I) (w : World) : Le (insertEdge a leaf ctx i l r s z w) (insertEdge b leaf ctx i l r s z w) := by
  have h := hE.ix
  unfold insertEdge
  try simp only [hE.sl, hE.M, h.zero, h.cmp, h.le, h.lt, h.eq, h.szT, h.ident, h.newRoot]
  repeat' (first | mono1 | split)
macro_rules | `(tactic| mono1) => `(tactic| (apply insertEdge_le; assumption))

theorem insertRhs_le {H n : Nat} (nop skip : Bool) (t : Tree I S (n + 1)) (ctx : Ctx I S H (n + 1)) (k : Nat) (nl : I) (lm : Bool) (f : Sized I S) (s : Option (Sized I S)) (w : World) : Le (insertRhs a nop skip t ctx k nl lm f s w) (insertRhs b nop skip t ctx k nl lm f s w) := by
  have h := hE.ix
  unfold insertRhs
  try simp only [hE.sl, hE.M, h.zero, h.cmp, h.le, h.lt, h.eq, h.szT, h.ident, h.newRoot]
  repeat' (first | mono1 | split)
macro_rules | `(tactic| mono1) => `(tactic| (apply insertRhs_le; assumption))

theorem insertSplit_le {H n : Nat} (nop : Bool) (t : Tree I S (n + 1)) (ctx : Ctx I S H (n + 1)) (k : Nat) (p : I) (s : S) (z : I) (w : World) : Le (insertSplit a nop t ctx k p s z w) (insertSplit b nop t ctx k p s z w) := by
  have h := hE.ix
  unfold insertSplit
  try simp only [hE.sl, hE.M, h.zero, h.cmp, h.le, h.lt, h.eq, h.szT, h.ident, h.newRoot]
  repeat' (first | mono1 | split)
macro_rules | `(tactic| mono1) => `(tactic| (apply insertSplit_le; assumption))

theorem insertAt_le {H : Nat} (nop : Bool) (pt : Point I S H) (s : S) (z : I) (w : World) : Le (insertAt a nop pt s z w) (insertAt b nop pt s z w) := by
  have h := hE.ix
  unfold insertAt
  try simp only [hE.sl, hE.M, h.zero, h.cmp, h.le, h.lt, h.eq, h.szT, h.ident, h.newRoot]
  repeat' (first | mono1 | split)
macro_rules | `(tactic| mono1) => `(tactic| (apply insertAt_le; assumption))

theorem installRoot_le (hR : b.refs = a.refs) {H : Nat} (len : Nat) (post : Post I S (H + 1)) (path : List Nat) (hd : Option (Nat × Nat)) (w : World) : Le (installRoot a len post path hd w) (installRoot b len post path hd w) := by
  have h := hE.ix
  unfold installRoot
  try simp only [hE.sl, hE.M, hR, h.zero, h.cmp, h.le, h.lt, h.eq, h.szT, h.ident, h.newRoot]
  repeat' (first | mono1 | split)
macro_rules | `(tactic| mono1) => `(tactic| (apply installRoot_le <;> assumption))

theorem rleNew_le (s : S) (z : I) (w : World) : Le (RleTree.new a s z w) (RleTree.new b s z w) := by
  have h := hE.ix
  unfold RleTree.new
  try simp only [hE.sl, hE.M, h.zero, h.cmp, h.le, h.lt, h.eq, h.szT, h.ident, h.newRoot]
  repeat' (first | mono1 | split)
macro_rules | `(tactic| mono1) => `(tactic| (apply rleNew_le; assumption))

theorem rleInsert_le (hR : b.refs = a.refs) (t : RleTree I S) (nop : Bool) (hints : List Nat) (idx : I) (s : S) (z : I) (w : World) : Le (RleTree.insert a t nop hints idx s z w) (RleTree.insert b t nop hints idx s z w) := by
  have h := hE.ix
  have hs : RleTree.size b t = RleTree.size a t := by unfold RleTree.size; split <;> simp [h.zero]
  unfold RleTree.insert
  try simp only [hE.sl, hE.M, hR, h.zero, h.cmp, h.le, h.lt, h.eq, h.szT, h.ident, h.newRoot, hs]
  repeat' (first | mono1 | split)
macro_rules | `(tactic| mono1) => `(tactic| (apply rleInsert_le <;> assumption))

end

end Sherman
