import Verif.FinUse
import Verif.IndexHomIter
/-!
# Iteration with more and more of the index operations
-/
set_option linter.unusedSimpArgs false

namespace Sherman
variable {I S ι : Type} {fl : Filter ι} {H : Nat}

section
variable {a : ι → IdxOps I} {b : IdxOps I} (h : IxEv fl a b)
include h

theorem headSize_evt (hd : Head I S H) : Evt fl (fun i' => hd.sliceSize (a i')) (hd.sliceSize b) := by
  unfold Head.sliceSize
  simp only [h.szT]
  exact sliceSize_evt h _ _ _
macro_rules | `(tactic| ev1) => `(tactic| (evtAbout Head.sliceSize; apply headSize_evt; assumption))

theorem childPos_evt {C : Type} (sz : C → I) (n : Node I S C) (i : Nat) :
    Evt fl (fun i' => Node.childPos (a i') sz n i) (Node.childPos b sz n i) := by
  unfold Node.childPos
  repeat' (first | ev1 | split)
macro_rules | `(tactic| ev1) => `(tactic| (evtAbout Node.childPos; apply childPos_evt; assumption))

theorem exclStep_evt (leaf : Bool) {g : Nat} (n : Tree I S (g + 1)) (ex : Bool) (t : I) (r : Step I) :
    Evt fl (fun i' => exclStep (a i') leaf n ex t r) (exclStep b leaf n ex t r) := by
  unfold exclStep
  simp only [h.zero, h.cmp, h.le, h.lt, h.eq, h.szT]
  repeat' (first | ev1 | split)
macro_rules | `(tactic| ev1) => `(tactic| (evtAbout exclStep; apply exclStep_evt; assumption))

theorem lastStep_evt (leaf : Bool) {g : Nat} (n : Tree I S (g + 1)) :
    Evt fl (fun i' => lastStep (a i') leaf n) (lastStep b leaf n) := by
  unfold lastStep
  simp only [h.zero, h.cmp, h.le, h.lt, h.eq, h.szT]
  repeat' (first | ev1 | split)
macro_rules | `(tactic| ev1) => `(tactic| (evtAbout lastStep; apply lastStep_evt; assumption))

theorem stackStep_evt (leaf : Bool) {g : Nat} (n : Tree I S (g + 1)) (hint : Option Nat) (ex : Bool) (t : I) :
    Evt fl (fun i' => stackStep (a i') leaf n hint ex t) (stackStep b leaf n hint ex t) := by
  unfold stackStep
  simp only [h.zero, h.cmp, h.le, h.lt, h.eq, h.szT]
  repeat' (first | ev1 | split)
macro_rules | `(tactic| ev1) => `(tactic| (evtAbout stackStep; apply stackStep_evt; assumption))

theorem stackKey_evt {g : Nat} (n : Tree I S (g + 1)) (ctx : Ctx I S H (g + 1)) (p : I) (k : Nat) (kp : I) :
    Evt fl (fun i' => stackKey (a i') n ctx p k kp) (stackKey b n ctx p k kp) := by
  unfold stackKey
  repeat' (first | ev1 | split)
macro_rules | `(tactic| ev1) => `(tactic| (evtAbout stackKey; apply stackKey_evt; assumption))

theorem stackLoop_evt (ex : Bool) {g : Nat} (n : Tree I S (g + 1)) (ctx : Ctx I S H (g + 1)) (hints : Option (List Nat)) (p t : I) :
    Evt fl (fun i' => stackLoop (a i') ex n ctx hints p t) (stackLoop b ex n ctx hints p t) := by
  induction g generalizing hints p t with
  | zero =>
    unfold stackLoop
    repeat' (first | ev1 | split)
  | succ g ih =>
    unfold stackLoop
    repeat' (first | ev1 | split)
    exact ih _ _ _ _ _

theorem makeStack_evt (root : Tree I S (H + 1)) (hints : Option (List Nat)) (t : IterBound I) :
    Evt fl (fun i' => makeStack (a i') root hints t) (makeStack b root hints t) := by
  unfold makeStack
  simp only [h.zero]
  split <;> exact stackLoop_evt h _ _ _ _ _ _
macro_rules | `(tactic| ev1) => `(tactic| (evtAbout makeStack; apply makeStack_evt; assumption))

theorem fwdStep_evt (s : IterStack I S H) : Evt fl (fun i' => s.fwdStep (a i')) (s.fwdStep b) := by
  unfold IterStack.fwdStep
  repeat' (first | ev1 | split)
macro_rules | `(tactic| ev1) => `(tactic| (evtAbout IterStack.fwdStep; apply fwdStep_evt; assumption))

theorem bkwdStep_evt (s : IterStack I S H) : Evt fl (fun i' => s.bkwdStep (a i')) (s.bkwdStep b) := by
  unfold IterStack.bkwdStep
  repeat' (first | ev1 | split)
macro_rules | `(tactic| ev1) => `(tactic| (evtAbout IterStack.bkwdStep; apply bkwdStep_evt; assumption))

theorem yieldBkwd_evt (it : Iter I S) (st : IterState I S) (bk : IterStack I S (st.H + 1)) :
    Evt fl (fun i' => Iter.yieldBkwd (a i') it st bk) (Iter.yieldBkwd b it st bk) := by
  unfold Iter.yieldBkwd
  repeat' (first | ev1 | split)
macro_rules | `(tactic| ev1) => `(tactic| (evtAbout Iter.yieldBkwd; apply yieldBkwd_evt; assumption))

theorem next_evt (it : Iter I S) : Evt fl (fun i' => it.next (a i')) (it.next b) := by
  have hp : ∀ i s p, Iter.pastEnd (a i) s p = Iter.pastEnd b s p := by
    intro i s p; cases s <;> simp only [Iter.pastEnd, h.lt, h.le]
  unfold Iter.next
  simp only [hp]
  repeat' (first | ev1 | split)

theorem nextBack_evt (it : Iter I S) : Evt fl (fun i' => it.nextBack (a i')) (it.nextBack b) := by
  unfold Iter.nextBack
  simp only [h.le]
  repeat' (first | ev1 | split)

theorem gRunIter_evt (it : Iter I S) (ops : List Bool) : Evt fl (fun i' => gRunIter (a i') it ops) (gRunIter b it ops) := by
  induction ops generalizing it with
  | nil => exact Evt.const _
  | cons x ops ih =>
    cases x with
    | false => exact Evt.bind (next_evt h it) fun v => Evt.bind (ih v.2) fun _ => Evt.const _
    | true => exact Evt.bind (nextBack_evt h it) fun v => Evt.bind (ih v.2) fun _ => Evt.const _

end

theorem rleIter_evt [LinearOrder I] {a : ι → Env I S} {b : Env I S} (hE : EnvEv fl a b) (t : RleTree I S) (cursor : List Nat)
    (r : Range.Rng I) : Evt fl (fun i' => t.iter (a i') cursor r) (t.iter b cursor r) := by
  have hs : ∀ i, RleTree.size (a i) t = RleTree.size b t := by intro i; unfold RleTree.size; split <;> simp [hE.ix.zero]
  unfold RleTree.iter Iter.new
  simp only [hs, hE.ix.zero, hE.ix.lt]
  exact Evt.const _

end Sherman
