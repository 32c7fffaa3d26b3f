import Verif.Insert
import Mathlib.Order.Filter.Basic
import Mathlib.Order.Filter.Tendsto
/-!
# Running with more and more of the index operations

A family of index operations `a i`, each of which agrees, from some `i` on, with `b` on any given arguments.  Every
computation of the model uses finitely many operations, so from some `i` on it has the same outcome with `a i` as with `b`.
-/
set_option linter.unusedSimpArgs false

namespace Sherman
variable {I S C ι : Type} {fl : Filter ι}

/-- From some point on, `x i` is `y`. -/
def Evt {α : Type} (fl : Filter ι) (x : ι → R α) (y : R α) : Prop := ∀ᶠ i in fl, x i = y

theorem Evt.const {α : Type} (y : R α) : Evt fl (fun _ => y) y := Filter.Eventually.of_forall fun _ => rfl

theorem Evt.bind {α β : Type} {x : ι → R α} {y : R α} {f : ι → α → R β} {g : α → R β} (h1 : Evt fl x y)
    (h2 : ∀ v, Evt fl (fun i => f i v) (g v)) : Evt fl (fun i => x i >>= f i) (y >>= g) := by
  cases y with
  | error e => exact h1.mono fun i hi => by simp only [hi]; rfl
  | ok v => exact (h1.and (h2 v)).mono fun i hi => by simp only [hi.1]; exact hi.2

/-- Same zero and comparisons; every operation agrees with that of `b` from some point on. -/
structure IxEv (fl : Filter ι) (a : ι → IdxOps I) (b : IdxOps I) : Prop where
  zero : ∀ i, (a i).zero = b.zero
  cmp : ∀ i, (a i).cmp = b.cmp
  debug : ∀ i, (a i).debug = b.debug
  addR : ∀ x y, Evt fl (fun i => (a i).addR x y) (b.addR x y)
  addL : ∀ x y, Evt fl (fun i => (a i).addL x y) (b.addL x y)
  subR : ∀ x y, Evt fl (fun i => (a i).subR x y) (b.subR x y)
  subL : ∀ x y, Evt fl (fun i => (a i).subL x y) (b.subL x y)

theorem IxEv.le {a : ι → IdxOps I} {b : IdxOps I} (h : IxEv fl a b) (i : ι) : (a i).le = b.le := by
  funext x y; simp [IdxOps.le, h.cmp]
theorem IxEv.lt {a : ι → IdxOps I} {b : IdxOps I} (h : IxEv fl a b) (i : ι) : (a i).lt = b.lt := by
  funext x y; simp [IdxOps.lt, h.cmp]
theorem IxEv.eq {a : ι → IdxOps I} {b : IdxOps I} (h : IxEv fl a b) (i : ι) : (a i).eq = b.eq := by
  funext x y; simp [IdxOps.eq, h.cmp]

theorem IxEv.szT {a : ι → IdxOps I} {b : IdxOps I} (h : IxEv fl a b) (i : ι) {n : Nat} :
    (Sherman.szT (a i) : Tree I S n → I) = Sherman.szT b := by
  cases n
  · funext x; exact h.zero i
  · rfl

theorem IxEv.ident {a : ι → IdxOps I} {b : IdxOps I} (h : IxEv fl a b) (i : ι) : Maps.identity (a i) = Maps.identity b := by
  simp [Maps.identity, h.zero]

theorem IxEv.newRoot {a : ι → IdxOps I} {b : IdxOps I} (h : IxEv fl a b) (i : ι) (p : Nat) (s : S) (z : I) :
    Sherman.newRoot (a i) p s z = Sherman.newRoot b p s z := by
  simp [Sherman.newRoot, h.zero]; rfl

theorem IxEv.bsearch {a : ι → IdxOps I} {b : IdxOps I} (hh : IxEv fl a b) (i : ι) :
    Sherman.bsearch (a i) = Sherman.bsearch b := by
  funext xs t l r
  induction hn : r - l using Nat.strongRecOn generalizing l r with
  | _ n ih =>
    unfold Sherman.bsearch
    by_cases hlt : l < r
    · simp only [hlt, dite_true, hh.cmp]
      cases xs[l + (r - l) / 2]? with
      | none => rfl
      | some x =>
        simp only
        cases b.cmp x t
        · exact ih _ (by omega) _ _ rfl
        · rfl
        · exact ih _ (by omega) _ _ rfl
    · simp [hlt]

open Lean Elab Tactic in
/-- Check that the goal is `Evt _ _ (f ..)`. -/
elab "evtAbout " f:ident : tactic => withMainContext do
  let t := (← instantiateMVars (← getMainTarget)).consumeMData
  let n ← realizeGlobalConstNoOverload f
  unless t.isAppOf ``Evt && t.appArg!.consumeMData.headBeta.getAppFn.isConstOf n do throwError "not about {n}"

syntax "ev1" : tactic
macro_rules | `(tactic| ev1) => `(tactic| with_reducible exact Evt.const _)
macro_rules | `(tactic| ev1) => `(tactic| (with_reducible refine Evt.bind ?_ (fun _ => ?_)))
macro_rules | `(tactic| ev1) => `(tactic| (with_reducible apply IxEv.addR; assumption))
macro_rules | `(tactic| ev1) => `(tactic| (with_reducible apply IxEv.addL; assumption))
macro_rules | `(tactic| ev1) => `(tactic| (with_reducible apply IxEv.subR; assumption))
macro_rules | `(tactic| ev1) => `(tactic| (with_reducible apply IxEv.subL; assumption))

/-- Environments that differ only in the index operations. -/
structure EnvEv (fl : Filter ι) (a : ι → Env I S) (b : Env I S) : Prop where
  ix : IxEv fl (fun i => (a i).ix) b.ix
  sl : ∀ i, (a i).sl = b.sl
  M : ∀ i, (a i).M = b.M
  refs : ∀ i, (a i).refs = b.refs

section
variable {a : ι → IdxOps I} {b : IdxOps I} (h : IxEv fl a b)
include h

theorem sliceSize_evt (sz : C → I) (n : Node I S C) (k : Nat) : Evt fl (fun i' => Node.sliceSize (a i') sz n k) (Node.sliceSize b sz n k) := by
  unfold Node.sliceSize
  try simp only [h.zero, h.cmp, h.le, h.lt, h.eq, h.bsearch, h.szT, h.ident, h.newRoot]
  repeat' (first | ev1 | split)
macro_rules | `(tactic| ev1) => `(tactic| (evtAbout Node.sliceSize; apply sliceSize_evt; assumption))

omit h in
theorem mapPos_evt {f : ι → I → R I} {g : I → R I} (hf : ∀ x, Evt fl (fun i => f i x) (g x)) (ks : List (Key I S)) :
    Evt fl (fun i => Node.mapPos (f i) ks) (Node.mapPos g ks) := by
  induction ks with
  | nil => exact Evt.const _
  | cons k ks ih =>
    unfold Node.mapPos
    exact Evt.bind (hf _) (fun _ => Evt.bind ih (fun _ => Evt.const _))
omit h in
theorem setKeyPossWith_evt {f : ι → I → R I} {g : I → R I} (hf : ∀ x, Evt fl (fun i => f i x) (g x)) (n : Node I S C) (k : Nat) :
    Evt fl (fun i => n.setKeyPossWith (f i) k) (n.setKeyPossWith g k) := by
  unfold Node.setKeyPossWith
  exact Evt.bind (Evt.const _) (fun _ => Evt.bind (mapPos_evt hf _) (fun _ => Evt.bind (hf _) (fun _ => Evt.const _)))
macro_rules | `(tactic| ev1) => `(tactic| (with_reducible apply setKeyPossWith_evt; intro _))

theorem shiftKeys_evt (n : Node I S C) (incr : Bool) (s : Nat) (p o w : I) : Evt fl (fun i' => Node.shiftKeys (a i') n incr s p o w) (Node.shiftKeys b n incr s p o w) := by
  unfold Node.shiftKeys
  try simp only [h.zero, h.cmp, h.le, h.lt, h.eq, h.bsearch, h.szT, h.ident, h.newRoot]
  repeat' (first | ev1 | split)
macro_rules | `(tactic| ev1) => `(tactic| (evtAbout Node.shiftKeys; apply shiftKeys_evt; assumption))

theorem shiftKeysAuto_evt (n : Node I S C) (s : Nat) (p o w : I) : Evt fl (fun i' => Node.shiftKeysAuto (a i') n s p o w) (Node.shiftKeysAuto b n s p o w) := by
  unfold Node.shiftKeysAuto
  try simp only [h.zero, h.cmp, h.le, h.lt, h.eq, h.bsearch, h.szT, h.ident, h.newRoot]
  repeat' (first | ev1 | split)
macro_rules | `(tactic| ev1) => `(tactic| (evtAbout Node.shiftKeysAuto; apply shiftKeysAuto_evt; assumption))

theorem makeNewParent_evt {g : Nat} (l : Tree I S (g + 1)) (k : Key I S) (ks : I) (r : Tree I S (g + 1)) (w : World) : Evt fl (fun i' => makeNewParent (a i') l k ks r w) (makeNewParent b l k ks r w) := by
  unfold makeNewParent
  try simp only [h.zero, h.cmp, h.le, h.lt, h.eq, h.bsearch, h.szT, h.ident, h.newRoot]
  repeat' (first | ev1 | split)
macro_rules | `(tactic| ev1) => `(tactic| (evtAbout makeNewParent; apply makeNewParent_evt; assumption))

theorem opPos_evt (n : Node I S C) (cok : COK) (ov : Option I) (o : I) : Evt fl (fun i' => opPos (a i') n cok ov o) (opPos b n cok ov o) := by
  unfold opPos
  try simp only [h.zero, h.cmp, h.le, h.lt, h.eq, h.bsearch, h.szT, h.ident, h.newRoot]
  repeat' (first | ev1 | split)
macro_rules | `(tactic| ev1) => `(tactic| (evtAbout opPos; apply opPos_evt; assumption))

theorem hintStep_evt {g : Nat} (n : Tree I S (g + 1)) (hint : Option Nat) (t : I) : Evt fl (fun i' => hintStep (a i') n hint t) (hintStep b n hint t) := by
  unfold hintStep
  try simp only [h.zero, h.cmp, h.le, h.lt, h.eq, h.bsearch, h.szT, h.ident, h.newRoot]
  repeat' (first | ev1 | split)
macro_rules | `(tactic| ev1) => `(tactic| (evtAbout hintStep; apply hintStep_evt; assumption))

theorem fullStep_evt {g : Nat} (n : Tree I S (g + 1)) (t : I) : Evt fl (fun i' => fullStep (a i') n t) (fullStep b n t) := by
  unfold fullStep
  try simp only [h.zero, h.cmp, h.debug, h.le, h.lt, h.eq, h.bsearch, h.szT, h.ident, h.newRoot]
  repeat' (first | ev1 | split)
macro_rules | `(tactic| ev1) => `(tactic| (evtAbout fullStep; apply fullStep_evt; assumption))

theorem searchStep_evt {g : Nat} (n : Tree I S (g + 1)) (hint : Option Nat) (t : I) : Evt fl (fun i' => searchStep (a i') n hint t) (searchStep b n hint t) := by
  unfold searchStep
  try simp only [h.zero, h.cmp, h.debug, h.le, h.lt, h.eq, h.bsearch, h.szT, h.ident, h.newRoot]
  repeat' (first | ev1 | split)
macro_rules | `(tactic| ev1) => `(tactic| (evtAbout searchStep; apply searchStep_evt; assumption))

theorem mapSizes_evt (m : Maps I) (hd : Bool) (ht : Nat) (n : Node I S C) (cok : COK) (ov : Option I) (o w : I) : Evt fl (fun i' => mapSizes (a i') m hd ht n cok ov o w) (mapSizes b m hd ht n cok ov o w) := by
  unfold mapSizes
  try simp only [h.zero, h.cmp, h.le, h.lt, h.eq, h.bsearch, h.szT, h.ident, h.newRoot]
  repeat' (first | ev1 | split)
macro_rules | `(tactic| ev1) => `(tactic| (evtAbout mapSizes; apply mapSizes_evt; assumption))

theorem opStep_evt (m : Maps I) (hd : Bool) (ht : Nat) (n : Node I S C) (cok : COK) (ov : Option I) (o w : I) : Evt fl (fun i' => opStep (a i') m hd ht n cok ov o w) (opStep b m hd ht n cok ov o w) := by
  unfold opStep
  try simp only [h.zero, h.cmp, h.le, h.lt, h.eq, h.bsearch, h.szT, h.ident, h.newRoot]
  repeat' (first | ev1 | split)
macro_rules | `(tactic| ev1) => `(tactic| (evtAbout opStep; apply opStep_evt; assumption))

theorem opUp_evt {H : Nat} (m : Maps I) (hd : Bool) {n : Nat} (ctx : Ctx I S H n) (t : Tree I S n) (o w : I) (path : List Nat) : Evt fl (fun i' => opUp (a i') m hd ctx t o w path) (opUp b m hd ctx t o w path) := by
  induction ctx generalizing o w path with
  | top => exact Evt.const _
  | frame ptr size keys kl kr up ih =>
    unfold opUp
    repeat' (first | ev1 | split)
    exact ih _ _ _ _
macro_rules | `(tactic| ev1) => `(tactic| (evtAbout opUp; apply opUp_evt; assumption))

theorem opKey_evt {H n : Nat} (m : Maps I) (hd : Bool) (ctx : Ctx I S H (n + 1)) (t : Tree I S (n + 1)) (k : Nat) (ov : Option I) (o w : I) (path : List Nat) : Evt fl (fun i' => opKey (a i') m hd ctx t k ov o w path) (opKey b m hd ctx t k ov o w path) := by
  unfold opKey
  try simp only [h.zero, h.cmp, h.le, h.lt, h.eq, h.bsearch, h.szT, h.ident, h.newRoot]
  repeat' (first | ev1 | split)
macro_rules | `(tactic| ev1) => `(tactic| (evtAbout opKey; apply opKey_evt; assumption))

theorem roomNums_evt (s : Option (Shift I)) (n o t : I) : Evt fl (fun i' => roomNums (a i') s n o t) (roomNums b s n o t) := by
  unfold roomNums
  try simp only [h.zero, h.cmp, h.le, h.lt, h.eq, h.bsearch, h.szT, h.ident, h.newRoot]
  repeat' (first | ev1 | split)
macro_rules | `(tactic| ev1) => `(tactic| (evtAbout roomNums; apply roomNums_evt; assumption))

theorem halfNums_evt (s : Option (Shift I)) (n o : I) : Evt fl (fun i' => halfNums (a i') s n o) (halfNums b s n o) := by
  unfold halfNums
  try simp only [h.zero, h.cmp, h.le, h.lt, h.eq, h.bsearch, h.szT, h.ident, h.newRoot]
  repeat' (first | ev1 | split)
macro_rules | `(tactic| ev1) => `(tactic| (evtAbout halfNums; apply halfNums_evt; assumption))

theorem relShift_evt (s : Option (Shift I)) (r : I) : Evt fl (fun i' => relShift (a i') s r) (relShift b s r) := by
  unfold relShift
  try simp only [h.zero, h.cmp, h.le, h.lt, h.eq, h.bsearch, h.szT, h.ident, h.newRoot]
  repeat' (first | ev1 | split)
macro_rules | `(tactic| ev1) => `(tactic| (evtAbout relShift; apply relShift_evt; assumption))

theorem midResize_evt (ov : Option I) (at_ : Side ⊕ Side) (i m : Nat) (r k : I) : Evt fl (fun i' => midResize (a i') ov at_ i m r k) (midResize b ov at_ i m r k) := by
  unfold midResize
  try simp only [h.zero, h.cmp, h.le, h.lt, h.eq, h.bsearch, h.szT, h.ident, h.newRoot]
  repeat' (first | ev1 | split)
macro_rules | `(tactic| ev1) => `(tactic| (evtAbout midResize; apply midResize_evt; assumption))

theorem findStep_evt {g : Nat} (n : Tree I S (g + 1)) (hint : Option Nat) (t : I) : Evt fl (fun i' => findStep (a i') n hint t) (findStep b n hint t) := by
  unfold findStep
  try simp only [h.zero, h.cmp, h.le, h.lt, h.eq, h.bsearch, h.szT, h.ident, h.newRoot]
  repeat' (first | ev1 | split)
macro_rules | `(tactic| ev1) => `(tactic| (evtAbout findStep; apply findStep_evt; assumption))

theorem handleAt_evt {H : Nat} (leaf : Tree I S 1) (ctx : Ctx I S H 1) (hd : Nat × Nat) : Evt fl (fun i' => handleAt (a i') leaf ctx hd) (handleAt b leaf ctx hd) := by
  unfold handleAt
  try simp only [h.zero, h.cmp, h.le, h.lt, h.eq, h.bsearch, h.szT, h.ident, h.newRoot]
  repeat' (first | ev1 | split)
macro_rules | `(tactic| ev1) => `(tactic| (evtAbout handleAt; apply handleAt_evt; assumption))

theorem getKey_evt (idx : I) {g : Nat} (n : Tree I S (g + 1)) (t : I) (k : Nat) (p : I) : Evt fl (fun i' => getKey (a i') idx n t k p) (getKey b idx n t k p) := by
  unfold getKey
  try simp only [h.zero, h.cmp, h.le, h.lt, h.eq, h.bsearch, h.szT, h.ident, h.newRoot]
  repeat' (first | ev1 | split)
macro_rules | `(tactic| ev1) => `(tactic| (evtAbout getKey; apply getKey_evt; assumption))

end

section
variable {a : ι → Env I S} {b : Env I S} (hE : EnvEv fl a b)
include hE

theorem leafInsert_evt (n : Tree I S 1) (i : Nat) (s : S) (w : World) : Evt fl (fun i' => leafInsert (a i') n i s w) (leafInsert b n i s w) := by
  unfold leafInsert
  simp only [hE.M]
  exact Evt.const _
macro_rules | `(tactic| ev1) => `(tactic| (evtAbout leafInsert; apply leafInsert_evt; assumption))

theorem leafPush_evt (n : Tree I S 1) (s : S) (r : Option Nat) (z : I) (w : World) : Evt fl (fun i' => leafPush (a i') n s r z w) (leafPush b n s r z w) := by
  unfold leafPush
  simp only [hE.M]
  exact Evt.const _
macro_rules | `(tactic| ev1) => `(tactic| (evtAbout leafPush; apply leafPush_evt; assumption))

theorem bubbleRoom_evt [HasPtr C] (cb : Cb) (sz : C → I) (p : Node I S C) (c : Nat) (x : Bubble I S C) (path : List Nat) (w : World) : Evt fl (fun i' => bubbleRoom (a i') cb sz p c x path w) (bubbleRoom b cb sz p c x path w) := by
  have h := hE.ix
  unfold bubbleRoom
  try simp only [hE.sl, hE.M, h.zero, h.cmp, h.le, h.lt, h.eq, h.bsearch, h.szT, h.ident, h.newRoot]
  repeat' (first | ev1 | split)
macro_rules | `(tactic| ev1) => `(tactic| (evtAbout bubbleRoom; apply bubbleRoom_evt; assumption))

theorem bubbleInsertHalf_evt [HasPtr C] (cb : Cb) (sz : C → I) (p : Node I S C) (c : Nat) (x : Bubble I S C) (s : Option (Shift I)) (path : List Nat) (w : World) : Evt fl (fun i' => bubbleInsertHalf (a i') cb sz p c x s path w) (bubbleInsertHalf b cb sz p c x s path w) := by
  have h := hE.ix
  unfold bubbleInsertHalf
  try simp only [hE.sl, hE.M, h.zero, h.cmp, h.le, h.lt, h.eq, h.bsearch, h.szT, h.ident, h.newRoot]
  repeat' (first | ev1 | split)
macro_rules | `(tactic| ev1) => `(tactic| (evtAbout bubbleInsertHalf; apply bubbleInsertHalf_evt; assumption))

theorem bubbleSplit_evt [HasPtr C] (cb : Cb) (sz : C → I) (p : Node I S C) (c : Nat) (x : Bubble I S C) (path : List Nat) (w : World) : Evt fl (fun i' => bubbleSplit (a i') cb sz p c x path w) (bubbleSplit b cb sz p c x path w) := by
  have h := hE.ix
  unfold bubbleSplit
  try simp only [hE.sl, hE.M, h.zero, h.cmp, h.le, h.lt, h.eq, h.bsearch, h.szT, h.ident, h.newRoot]
  repeat' (first | ev1 | split)
macro_rules | `(tactic| ev1) => `(tactic| (evtAbout bubbleSplit; apply bubbleSplit_evt; assumption))

theorem bubbleFinish_evt {H : Nat} (cb : Cb) (m : Maps I) {n : Nat} (ctx : Ctx I S H n) (x : Bubble I S (Tree I S n)) (hd : Bool) (path : List Nat) (w : World) : Evt fl (fun i' => bubbleFinish (a i') cb m ctx x hd path w) (bubbleFinish b cb m ctx x hd path w) := by
  have h := hE.ix
  induction ctx generalizing hd path w with
  | top => unfold bubbleFinish; exact Evt.const _
  | frame ptr size keys kl kr up ih =>
    unfold bubbleFinish
    simp only [hE.M, h.szT]
    repeat' (first | ev1 | split)
    exact ih _ _ _ _
macro_rules | `(tactic| ev1) => `(tactic| (evtAbout bubbleFinish; apply bubbleFinish_evt; assumption))

theorem leafSplitSmall_evt (cb : Cb) (n : Tree I S 1) (i : Nat) (ov : Option I) (f s : Sized I S) (w : World) : Evt fl (fun i' => leafSplitSmall (a i') cb n i ov f s w) (leafSplitSmall b cb n i ov f s w) := by
  have h := hE.ix
  unfold leafSplitSmall
  try simp only [hE.sl, hE.M, h.zero, h.cmp, h.le, h.lt, h.eq, h.bsearch, h.szT, h.ident, h.newRoot]
  repeat' (first | ev1 | split)
macro_rules | `(tactic| ev1) => `(tactic| (evtAbout leafSplitSmall; apply leafSplitSmall_evt; assumption))

theorem leafInsertHalf_evt (cb : Cb) (n : Tree I S 1) (i : Nat) (ov : Option I) (f : Sized I S) (s : Option (Sized I S)) (w : World) : Evt fl (fun i' => leafInsertHalf (a i') cb n i ov f s w) (leafInsertHalf b cb n i ov f s w) := by
  have h := hE.ix
  unfold leafInsertHalf
  try simp only [hE.sl, hE.M, h.zero, h.cmp, h.le, h.lt, h.eq, h.bsearch, h.szT, h.ident, h.newRoot]
  repeat' (first | ev1 | split)
macro_rules | `(tactic| ev1) => `(tactic| (evtAbout leafInsertHalf; apply leafInsertHalf_evt; assumption))

theorem prependSnd_evt (n : Tree I S 1) (s : Option (Sized I S)) (w : World) : Evt fl (fun i' => prependSnd (a i') n s w) (prependSnd b n s w) := by
  have h := hE.ix
  unfold prependSnd
  try simp only [hE.sl, hE.M, h.zero, h.cmp, h.le, h.lt, h.eq, h.bsearch, h.szT, h.ident, h.newRoot]
  repeat' (first | ev1 | split)
macro_rules | `(tactic| ev1) => `(tactic| (evtAbout prependSnd; apply prependSnd_evt; assumption))

theorem splitPlace_evt (cb : Cb) (at_ : Side ⊕ Side) (n : Tree I S 1) (k : Key I S) (ks : I) (r : Tree I S 1) (rs o : I) (i m : Nat) (ov : Option I) (f : Sized I S) (s : Option (Sized I S)) (w : World) : Evt fl (fun i' => splitPlace (a i') cb at_ n k ks r rs o i m ov f s w) (splitPlace b cb at_ n k ks r rs o i m ov f s w) := by
  have h := hE.ix
  unfold splitPlace
  try simp only [hE.sl, hE.M, h.zero, h.cmp, h.le, h.lt, h.eq, h.bsearch, h.szT, h.ident, h.newRoot]
  repeat' (first | ev1 | split)
macro_rules | `(tactic| ev1) => `(tactic| (evtAbout splitPlace; apply splitPlace_evt; assumption))

theorem leafSplit_evt (cb : Cb) (n : Tree I S 1) (i : Nat) (ov : Option I) (f : Sized I S) (s : Option (Sized I S)) (w : World) : Evt fl (fun i' => leafSplit (a i') cb n i ov f s w) (leafSplit b cb n i ov f s w) := by
  have h := hE.ix
  unfold leafSplit
  try simp only [hE.sl, hE.M, h.zero, h.cmp, h.le, h.lt, h.eq, h.bsearch, h.szT, h.ident, h.newRoot]
  repeat' (first | ev1 | split)
macro_rules | `(tactic| ev1) => `(tactic| (evtAbout leafSplit; apply leafSplit_evt; assumption))

theorem leafRoom_evt (cb : Cb) (n : Tree I S 1) (i : Nat) (ov : Option I) (f : Sized I S) (s : Option (Sized I S)) (ad : I) (w : World) : Evt fl (fun i' => leafRoom (a i') cb n i ov f s ad w) (leafRoom b cb n i ov f s ad w) := by
  have h := hE.ix
  unfold leafRoom
  try simp only [hE.sl, hE.M, h.zero, h.cmp, h.le, h.lt, h.eq, h.bsearch, h.szT, h.ident, h.newRoot]
  repeat' (first | ev1 | split)
macro_rules | `(tactic| ev1) => `(tactic| (evtAbout leafRoom; apply leafRoom_evt; assumption))

theorem noJoin_evt {H : Nat} (cb : Cb) (m : Maps I) (n : Tree I S 1) (ctx : Ctx I S H 1) (i : Nat) (ov : Option I) (f : Sized I S) (s : Option (Sized I S)) (w : World) : Evt fl (fun i' => noJoin (a i') cb m n ctx i ov f s w) (noJoin b cb m n ctx i ov f s w) := by
  have h := hE.ix
  unfold noJoin
  try simp only [hE.sl, hE.M, h.zero, h.cmp, h.le, h.lt, h.eq, h.bsearch, h.szT, h.ident, h.newRoot]
  repeat' (first | ev1 | split)
macro_rules | `(tactic| ev1) => `(tactic| (evtAbout noJoin; apply noJoin_evt; assumption))

theorem findPoint_evt {H n : Nat} (t : Tree I S (n + 1)) (ctx : Ctx I S H (n + 1)) (hints : Option (List Nat)) (target : I) (l r : Option (Nat × Nat)) : Evt fl (fun i' => findPoint (a i') t ctx hints target l r) (findPoint b t ctx hints target l r) := by
  have h := hE.ix
  induction n generalizing hints target l r with
  | zero =>
    unfold findPoint
    simp only [adjacent, hE.sl]
    repeat' (first | ev1 | split)
  | succ n ih =>
    unfold findPoint
    simp only [adjacent, hE.sl]
    repeat' (first | ev1 | split)
    all_goals exact ih _ _ _ _ _ _
macro_rules | `(tactic| ev1) => `(tactic| (evtAbout findPoint; apply findPoint_evt; assumption))

theorem finishJoin_evt {H : Nat} (leaf : Tree I S 1) (ctx : Ctx I S H 1) (hd : Nat × Nat) (o n : I) (w : World) : Evt fl (fun i' => finishJoin (a i') leaf ctx hd o n w) (finishJoin b leaf ctx hd o n w) := by
  have h := hE.ix
  unfold finishJoin
  try simp only [hE.sl, hE.M, h.zero, h.cmp, h.le, h.lt, h.eq, h.bsearch, h.szT, h.ident, h.newRoot]
  repeat' (first | ev1 | split)
macro_rules | `(tactic| ev1) => `(tactic| (evtAbout finishJoin; apply finishJoin_evt; assumption))

theorem tryJoinEdge_evt {H : Nat} (leaf : Tree I S 1) (ctx : Ctx I S H 1) (l r : Option (Nat × Nat)) (s : S) (z : I) (w : World) : Evt fl (fun i' => tryJoinEdge (a i') leaf ctx l r s z w) (tryJoinEdge b leaf ctx l r s z w) := by
  have h := hE.ix
  unfold tryJoinEdge
  try simp only [hE.sl, hE.M, h.zero, h.cmp, h.le, h.lt, h.eq, h.bsearch, h.szT, h.ident, h.newRoot]
  repeat' (first | ev1 | split)
macro_rules | `(tactic| ev1) => `(tactic| (evtAbout tryJoinEdge; apply tryJoinEdge_evt; assumption))

theorem insertEdge_evt {H : Nat} (leaf : Tree I S 1) (ctx : Ctx I S H 1) (i : Nat) (l r : Option (Nat × Nat)) (s : S) (z : I) (w : World) : Evt fl (fun i' => insertEdge (a i') leaf ctx i l r s z w) (insertEdge b leaf ctx i l r s z w) := by
  have h := hE.ix
  unfold insertEdge
  try simp only [hE.sl, hE.M, h.zero, h.cmp, h.le, h.lt, h.eq, h.bsearch, h.szT, h.ident, h.newRoot]
  repeat' (first | ev1 | split)
macro_rules | `(tactic| ev1) => `(tactic| (evtAbout insertEdge; apply insertEdge_evt; assumption))

theorem insertRhs_evt {H n : Nat} (nop skip : Bool) (t : Tree I S (n + 1)) (ctx : Ctx I S H (n + 1)) (k : Nat) (nl : I) (lm : Bool) (f : Sized I S) (s : Option (Sized I S)) (w : World) : Evt fl (fun i' => insertRhs (a i') nop skip t ctx k nl lm f s w) (insertRhs b nop skip t ctx k nl lm f s w) := by
  have h := hE.ix
  unfold insertRhs
  try simp only [hE.sl, hE.M, h.zero, h.cmp, h.le, h.lt, h.eq, h.bsearch, h.szT, h.ident, h.newRoot]
  repeat' (first | ev1 | split)
macro_rules | `(tactic| ev1) => `(tactic| (evtAbout insertRhs; apply insertRhs_evt; assumption))

theorem insertSplit_evt {H n : Nat} (nop : Bool) (t : Tree I S (n + 1)) (ctx : Ctx I S H (n + 1)) (k : Nat) (p : I) (s : S) (z : I) (w : World) : Evt fl (fun i' => insertSplit (a i') nop t ctx k p s z w) (insertSplit b nop t ctx k p s z w) := by
  have h := hE.ix
  unfold insertSplit
  try simp only [hE.sl, hE.M, h.zero, h.cmp, h.le, h.lt, h.eq, h.bsearch, h.szT, h.ident, h.newRoot]
  repeat' (first | ev1 | split)
macro_rules | `(tactic| ev1) => `(tactic| (evtAbout insertSplit; apply insertSplit_evt; assumption))

theorem insertAt_evt {H : Nat} (nop : Bool) (pt : Point I S H) (s : S) (z : I) (w : World) : Evt fl (fun i' => insertAt (a i') nop pt s z w) (insertAt b nop pt s z w) := by
  have h := hE.ix
  unfold insertAt
  try simp only [hE.sl, hE.M, h.zero, h.cmp, h.le, h.lt, h.eq, h.bsearch, h.szT, h.ident, h.newRoot]
  repeat' (first | ev1 | split)
macro_rules | `(tactic| ev1) => `(tactic| (evtAbout insertAt; apply insertAt_evt; assumption))

theorem installRoot_evt {H : Nat} (len : Nat) (post : Post I S (H + 1)) (path : List Nat) (hd : Option (Nat × Nat)) (w : World) : Evt fl (fun i' => installRoot (a i') len post path hd w) (installRoot b len post path hd w) := by
  have h := hE.ix
  unfold installRoot
  try simp only [hE.sl, hE.M, hE.refs, h.zero, h.cmp, h.le, h.lt, h.eq, h.bsearch, h.szT, h.ident, h.newRoot]
  repeat' (first | ev1 | split)
macro_rules | `(tactic| ev1) => `(tactic| (evtAbout installRoot; apply installRoot_evt <;> assumption))

theorem rleNew_evt (s : S) (z : I) (w : World) : Evt fl (fun i' => RleTree.new (a i') s z w) (RleTree.new b s z w) := by
  have h := hE.ix
  unfold RleTree.new
  try simp only [hE.sl, hE.M, h.zero, h.cmp, h.le, h.lt, h.eq, h.bsearch, h.szT, h.ident, h.newRoot]
  repeat' (first | ev1 | split)
macro_rules | `(tactic| ev1) => `(tactic| (evtAbout RleTree.new; apply rleNew_evt; assumption))

theorem rleInsert_evt (t : RleTree I S) (nop : Bool) (hints : List Nat) (idx : I) (s : S) (z : I) (w : World) : Evt fl (fun i' => RleTree.insert (a i') t nop hints idx s z w) (RleTree.insert b t nop hints idx s z w) := by
  have h := hE.ix
  have hs : ∀ i, RleTree.size (a i) t = RleTree.size b t := by intro i; unfold RleTree.size; split <;> simp [h.zero]
  unfold RleTree.insert
  try simp only [hE.sl, hE.M, hE.refs, h.zero, h.cmp, h.le, h.lt, h.eq, h.bsearch, h.szT, h.ident, h.newRoot, hs]
  repeat' (first | ev1 | split)
macro_rules | `(tactic| ev1) => `(tactic| (evtAbout RleTree.insert; apply rleInsert_evt <;> assumption))

theorem rleGet_evt (t : RleTree I S) (hints : List Nat) (idx : I) :
    Evt fl (fun i' => t.get (a i') hints idx) (t.get b hints idx) := by
  have h := hE.ix
  have hs : ∀ i, RleTree.size (a i) t = RleTree.size b t := by intro i; unfold RleTree.size; split <;> simp [h.zero]
  have loop : ∀ {n : Nat} (t : Tree I S (n + 1)) (hints : Option (List Nat)) (target : I),
      Evt fl (fun i' => getLoop (a i').ix idx t hints target) (getLoop b.ix idx t hints target) := by
    intro n
    induction n with
    | zero =>
      intro t hints target
      unfold getLoop
      repeat' (first | ev1 | split)
    | succ n ih =>
      intro t hints target
      unfold getLoop
      repeat' (first | ev1 | split)
      exact ih _ _ _
  unfold RleTree.get
  simp only [h.zero, h.lt, hs]
  repeat' (first | ev1 | split)
  exact loop _ _ _

theorem rleCursorTo_evt (t : RleTree I S) (idx : I) :
    Evt fl (fun i' => t.cursorTo (a i') idx) (t.cursorTo b idx) := by
  have h := hE.ix
  have hs : ∀ i, RleTree.size (a i) t = RleTree.size b t := by intro i; unfold RleTree.size; split <;> simp [h.zero]
  have loop : ∀ {n : Nat} (t : Tree I S (n + 1)) (target : I),
      Evt fl (fun i' => cursorLoop (a i').ix t target) (cursorLoop b.ix t target) := by
    intro n
    induction n with
    | zero => intro t target; exact Evt.const _
    | succ n ih =>
      intro t target
      unfold cursorLoop
      repeat' (first | ev1 | split)
      exact ih _ _
  unfold RleTree.cursorTo
  simp only [h.zero, h.lt, hs]
  repeat' (first | ev1 | split)
  exact loop _ _

end

end Sherman
