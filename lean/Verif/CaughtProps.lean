import Verif.CaughtLemmas
import Verif.AnyIndexProps
/-!
# Programs that catch panics of index operations

Arithmetic in an index type can panic, for instance if the size of the tree would be too large for it.  The insertion is then abandoned in the middle; what it
had taken out of the tree is dropped ("Make sure it'll drop if the arithmetic operations below fail", src/tree/insert.rs:2260; src/tree/insert.rs:1523, 2060), the rest stays where it is.  A
program that catches the panic goes on with that tree.  For `M ≥ 3` no node is left without keys, and so nothing that it does later is undefined behaviour, even
if it catches any number of such panics.  For `M = 1` and `M = 2` a leaf without keys can be left, and iterating over it subtracts one from zero and reads out
of bounds.  For every `M` slices that were stored can be lost, and the number of slices that the tree reports is then wrong.

Slices must not join (for those that do see `Verif/CaughtJoin.lean`), and the tree must not have references (it then stays borrowed; see C27).  Not covered: trees that share
nodes; the parent links after a panic.
-/
namespace Sherman
variable {I S : Type}

theorem Post.left_fill {M H : Nat} {p : Post I S H} (h : p.Shape 1 M) : FillT 1 M 1 p.left := by
  cases p with
  | done t => exact h
  | newRoot l key z r => exact h.1

theorem insertAtC_meets {E : Env I S} (hc : Civil E.ix) (hM : 3 ≤ E.M) (hj : E.sl.mayJoin = false) {H : Nat} {nop : Bool} {pt : Point I S H} {s : S} {z : I}
    {w : World} (hp : pt.Ok 1 E.M) (hw : w.fst = none) :
    Meets E.ix.debug (insertAtC E nop pt s z w) (insertAt E nop pt s z w) fun l => FillT 1 E.M 1 l.1 := by
  cases pt with
  | edge leaf ctx i lhs rhs =>
    obtain ⟨⟨h1, h2⟩, h3, -, -⟩ := hp
    unfold insertAtC insertAt insertEdge
    refine Meets.step (Safe.weak (decide_eq_true h3)) (close_fill ctx leaf h1 h2) fun _ _ => ?_
    simp only [tryJoinEdge, hj, Bool.not_false, if_true, R.pure_eq, R.bind_ok]
    exact Meets.bind ((noJoinC_meets hc hM h1 h2 h3 (fun h => by cases h) hw (fun h => by cases h)).within fun t ht => ht)
      (noJoin_safe hc (μ := 1) (by omega) (by omega) h1 h2 h3 (fun h => by cases h) hw (fun h => by cases h)) fun r _ => Meets.pure
  | split h n ctx k p =>
    obtain ⟨h1, h2, h3⟩ := hp
    have f0 := close_fill ctx n h1 h2
    unfold insertAtC insertAt insertSplit
    refine Meets.step (sliceSize_safe hc h3 h2.arity).triv f0 fun _ _ => ?_
    refine Meets.step (handle_safe h3).triv f0 fun key _ => ?_
    generalize E.sl.splitAt key.slice p = sp
    obtain ⟨ls, rs⟩ := sp
    dsimp only
    refine Meets.step (setSlice_safe h3) f0 fun n1 hs => ?_
    have h2' : FillT 1 E.M (ctx.low 1) (h := h + 1) n1 := h2.same hs
    refine Meets.step (hc.sSubL _ _) (close_fill ctx (h := h + 1) n1 h1 h2') fun _ _ => ?_
    simp only [hj, Bool.not_false, if_true]
    exact Meets.bind ((insertRhsC_meets hc hM h1 h2' (by rw [hs.1]; exact h3) hw).within fun t ht => ht)
      (insertRhs_safe hc (μ := 1) (by omega) (by omega) h1 h2' (by rw [hs.1]; exact h3) hw) fun r _ => Meets.pure

theorem insertC_meets {E : Env I S} (hc : Civil E.ix) (hM : 3 ≤ E.M) (hj : E.sl.mayJoin = false) (hr : E.refs = false) {t : RleTree I S} (ht : t.Shape 1 E.M)
    (nop : Bool) (hints : List Nat) (idx : I) (s : S) (z : I) (w : World) :
    Meets E.ix.debug (t.insertC E nop hints idx s z w) (t.insert E nop hints idx s z w) (RleTree.Shape 1 E.M) := by
  have hμ : 1 ≤ E.M → 1 ≤ 1 ∧ 1 ≤ E.M := fun h => ⟨le_rfl, h⟩
  unfold RleTree.insertC
  cases hroot : t.root with
  | none => exact Meets.leave (rleInsert_safe hc hμ ht) ht
  | some root =>
    obtain ⟨-, hsh⟩ := ht root hroot
    have fin : ∀ (l : Tree I S (root.h + 1) × Nat), FillT 1 E.M 1 l.1 → RleTree.Shape 1 E.M (⟨some ⟨root.h, l.1, root.len + l.2⟩⟩ : RleTree I S) := by
      rintro l hl r ⟨⟩
      exact ⟨hμ (by omega), hl⟩
    unfold RleTree.insert
    simp only [hroot, hr]
    refine Meets.step (Safe.check (by simp [debugMsgs])) ht fun _ _ => ?_
    refine Meets.step (Safe.check (by simp [debugMsgs])) ht fun _ _ => ?_
    refine Meets.step (findPoint_safe hc root.tree .top (some hints) idx none none (by omega) trivial hsh (fun l h => by cases h) (fun l h => by cases h)) ht
      fun pt hpt => ?_
    have hia : Safe E.ix.debug (insertAt E nop pt s z { w with events := [], fst := none }) fun r => r.2.1.Shape 1 E.M := by
      cases pt with
      | edge leaf ctx i lhs rhs => exact insertEdge_safe hc (by omega) (by omega) hpt.1 hpt.2.1 hpt.2.2.1 hpt.2.2.2 rfl
      | split h n ctx k p => exact insertSplit_safe hc (by omega) (by omega) hpt.1 hpt.2.1 hpt.2.2 rfl
    refine Meets.bind ((insertAtC_meets hc hM hj hpt rfl).within fin) hia fun r hr' => ?_
    obtain ⟨dlen, post, path, w1⟩ := r
    exact Meets.leave (installRoot_safe hc (by omega) hr') (fin (_, dlen) (Post.left_fill hr'))

/-- The arguments of one insertion; `world` says which addresses the allocator gives.  src/tree/mod.rs:677-721 -/
structure Attempt (I S : Type) where
  nop : Bool
  hints : List Nat
  idx : I
  slice : S
  size : I
  world : World

/-- The insertion, with what is left of the tree if it panics.  src/tree/insert.rs:41-197 -/
def Attempt.run (E : Env I S) (t : RleTree I S) (a : Attempt I S) : Lv (RleTree I S) (RleTree I S × Inserted) :=
  t.insertC E a.nop a.hints a.idx a.slice a.size a.world

/-- The tree with which a program goes on that catches the panic, if there is one.  src/tree/insert.rs:41-197 -/
def RleTree.attempt (E : Env I S) (t : RleTree I S) (a : Attempt I S) : RleTree I S :=
  match a.run E t with
  | .ok r => r.1
  | .error e => e.2

theorem attempts_shape {E : Env I S} (hc : Civil E.ix) (hM : 3 ≤ E.M) (hj : E.sl.mayJoin = false) (hr : E.refs = false) (as : List (Attempt I S)) :
    ∀ {t : RleTree I S}, t.Shape 1 E.M → (as.foldl (RleTree.attempt E) t).Shape 1 E.M := by
  induction as with
  | nil => intro t ht; exact ht
  | cons a as ih =>
    intro t ht
    refine ih ?_
    have hm := insertC_meets hc hM hj hr ht a.nop a.hints a.idx a.slice a.size a.world
    unfold RleTree.attempt Attempt.run
    split
    · rename_i r hx
      exact (rleInsert_safe hc (fun h => ⟨le_rfl, h⟩) ht).out (hm.ok r hx)
    · rename_i e hx
      exact (hm.err e.1 e.2 hx).2

/-- Specification: the insertion returns what it returns in the model without catching, or it panics. -/
def Attempt.Fine (E : Env I S) (t : RleTree I S) (a : Attempt I S) : Prop :=
  (∀ r, a.run E t = .ok r → t.insert E a.nop a.hints a.idx a.slice a.size a.world = .ok r) ∧ ∀ f t', a.run E t = .error (f, t') → Harmless E.ix.debug f

/-- Specification: no node is without keys, none has more than `2M`, each has one more child than keys. -/
def KeyedT (M : Nat) : {h : Nat} → Tree I S h → Prop
  | 0, _ => True
  | _ + 1, n => Node.keys n ≠ [] ∧ (Node.keys n).length ≤ 2 * M ∧ (Node.kids n).length = (Node.keys n).length + 1 ∧ ∀ c ∈ Node.kids n, KeyedT M c

theorem FillT.keyed {M : Nat} : ∀ {h lo : Nat} {t : Tree I S h}, 1 ≤ lo → FillT 1 M lo t → KeyedT M t := by
  intro h
  induction h with
  | zero => intros; trivial
  | succ h ih =>
    intro lo t hl ht
    obtain ⟨h1, h2, h3, h4⟩ := fillT_succ.1 ht
    refine ⟨fun h => ?_, h2, h3, fun c hm => ih le_rfl (h4 c hm)⟩
    rw [h] at h1
    simp at h1
    omega

/-- **C55.** After any number of insertions of which some panicked, no node is without keys.  (Missing: `M` below 3, joining slices.) -/
theorem caught_keyed_partial {E : Env I S} (hc : Civil E.ix) (hM : 3 ≤ E.M) (hj : E.sl.mayJoin = false) (hr : E.refs = false) (as : List (Attempt I S)) :
    ∀ r, (as.foldl (RleTree.attempt E) ⟨none⟩).root = some r → KeyedT E.M r.tree :=
  fun r h => (attempts_shape hc hM hj hr as (t := ⟨none⟩) (by rintro r ⟨⟩) r h).2.keyed le_rfl

/-- **C55.** Then another insertion, `get`, `cursor_to`, and any calls of `next` and `next_back` on an iterator with any bounds return or panic; the iterator
yields entries of the tree.  (Missing: `M` below 3, joining slices.) -/
theorem caught_usable_partial {E : Env I S} (hc : Civil E.ix) (hM : 3 ≤ E.M) (hj : E.sl.mayJoin = false) (hr : E.refs = false) (as : List (Attempt I S)) :
    let t := as.foldl (RleTree.attempt E) ⟨none⟩
    (∀ a : Attempt I S, a.Fine E t) ∧
    (∀ hints idx, Defined E.ix.debug (t.get E hints idx)) ∧ (∀ idx, Defined E.ix.debug (t.cursorTo E idx)) ∧
    ∀ it : Iter I S, it.Fresh t → ∀ bs, Defined E.ix.debug (it.calls E.ix bs) ∧
      ∀ es it', it.calls E.ix bs = .ok (es, it') → ∀ e ∈ es, ∃ c ∈ t.places, (c.ptr, c.idx) = (e.ptr, e.idx) := by
  intro t
  have ht : t.Shape 1 E.M := attempts_shape hc hM hj hr as (t := ⟨none⟩) (by rintro r ⟨⟩)
  refine ⟨fun a => ?_, fun hints idx => (rleGet_safe hc ht).defined, fun idx => (rleCursorTo_safe hc ht).defined, fun it hi bs => ?_⟩
  · have hm := insertC_meets hc hM hj hr ht a.nop a.hints a.idx a.slice a.size a.world
    exact ⟨hm.ok, fun f t' h => (hm.err f t' h).1⟩
  · have h1 := fresh_safe hc ht hi bs
    exact ⟨h1.defined, fun es it' hx => h1.out hx⟩

/-! ## Instances and the cases that are excluded -/

/-- Letters that do not join.  The trait: src/public_traits.rs:48-90 -/
def letterSl : SliceOps Nat Char := ⟨false, fun c _ => (c, c), fun a b => .inr (a, b)⟩

/-- An index type whose operations panic if the result is not in 0..=255, in a build without debug assertions.  The trait: src/public_traits.rs:15-36, 244-296 -/
def byteEnv (M : Nat) : Env Nat Char := ⟨{ checkedIdx 255 with debug := false }, letterSl, M, false⟩

theorem byteEnv_civil (M : Nat) : Civil (byteEnv M).ix := by
  constructor <;> intro x y f h <;> simp only [byteEnv, checkedIdx, natIdx] at h <;> split at h <;> cases h
  · trivial
  · trivial
  · exact .inr (by simp [debugMsgs])
  · exact .inr (by simp [debugMsgs])

/-- Insert a slice of this size at this index; the addresses of the nodes start at `n`. -/
def put (n idx : Nat) (c : Char) (size : Nat) : Attempt Nat Char := ⟨true, [], idx, c, size, ⟨n, [], [], none, []⟩⟩

/-- The tree after these insertions. -/
def after (M : Nat) (as : List (Attempt Nat Char)) : RleTree Nat Char := as.foldl (RleTree.attempt (byteEnv M)) ⟨none⟩

/-- Size, number of slices as reported, and the slices that are stored. -/
def lookAt (M : Nat) (t : RleTree Nat Char) : Nat × Nat × List Char := (t.size (byteEnv M), t.numberOfSlices, t.places.map Cell.slice)

/-- Six letters of size 1. -/
def sixLetters : List (Attempt Nat Char) := [put 0 0 'a' 1, put 10 1 'b' 1, put 20 2 'c' 1, put 30 3 'd' 1, put 40 4 'e' 1, put 50 5 'f' 1]

/-- **C55.** An insertion that panics is not without effect: of six slices four are lost, the new one is there, and the tree says that it has seven. -/
theorem caught_loses : lookAt 3 (after 3 sixLetters) = (6, 6, ['a', 'b', 'c', 'd', 'e', 'f']) ∧
    ((put 100 1 'z' 250).run (byteEnv 3) (after 3 sixLetters)).toOption = none ∧
    lookAt 3 ((after 3 sixLetters).attempt (byteEnv 3) (put 100 1 'z' 250)) = (252, 7, ['a', 'z', 'b']) := by decide +kernel

/-- The theorems apply to that program: it can go on and insert 'y'. -/
example : lookAt 3 (after 3 (sixLetters ++ [put 100 1 'z' 250, put 110 1 'y' 1])) = (253, 8, ['a', 'y', 'z', 'b']) ∧
    ∀ a : Attempt Nat Char, a.Fine (byteEnv 3) (after 3 (sixLetters ++ [put 100 1 'z' 250, put 110 1 'y' 1])) :=
  ⟨by decide +kernel, (caught_usable_partial (byteEnv_civil 3) (by decide) rfl rfl _).1⟩

/-- The failure, if there is one, of the first `next` of an iterator over the whole tree. -/
def firstNext (M : Nat) (t : RleTree Nat Char) : Option Fault :=
  match (t.iter (byteEnv M) [] ⟨.unbounded, .unbounded⟩) with
  | .error f => some f
  | .ok it => match it.calls (byteEnv M).ix [false] with
    | .error f => some f
    | .ok _ => none

/-- **C55.** For `M = 1` and `M = 2`, after an insertion panicked, the first call of `next` subtracts one from the number of keys of a leaf without keys and
uses the result as an index; "SAFETY: `len` is guaranteed to be `>= 1`" (src/tree/iter.rs:315-326) is then wrong.  Without the insertion that panics it is fine. -/
theorem caught_small_not_usable :
    (let as := [put 0 0 'a' 3, put 10 3 'b' 3, put 20 6 'c' 3, put 30 0 'd' 3]
     firstNext 1 (after 1 as) = none ∧ firstNext 1 (after 1 (as ++ [put 40 2 'z' 254])) = some .underflow) ∧
    (let as := [put 0 0 'a' 3, put 10 3 'b' 1, put 20 4 'c' 1, put 30 5 'd' 1, put 40 6 'e' 1, put 50 0 'f' 5]
     firstNext 2 (after 2 as) = none ∧ firstNext 2 (after 2 (as ++ [put 60 3 'z' 253])) = some .underflow) ∧
    ∀ debug, ¬ Harmless debug .underflow := by
  refine ⟨by decide +kernel, by decide +kernel, fun d h => h⟩

end Sherman
