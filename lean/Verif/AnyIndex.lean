import Verif.Insert
import Verif.Iter
import Verif.Observe
import Verif.NodeLemmas
import Verif.LinkProps
/-!
# Arbitrary implementations of `Index`: rules for proofs, nodes, searching

Nothing is assumed here about the index operations except that they are safe code: they return some value of the type, or panic.  `Safe d x Q`: the
computation `x` returns a value with `Q`, or it fails in a way that is defined behaviour, also in a build without debug assertions if `d` is `false`.
-/
namespace Sherman
variable {I S C : Type}
variable {μ : Nat}

/-- The messages of the assertions that only exist in builds with debug assertions. -/
def debugMsgs : List String :=
  ["debug_assert: target <= next_key_pos", "debug_assert: target <= subtree_size", "debug_assert: shift.is_none()"]

/-- Failures that are defined behaviour: panics, `todo!()`, `unreachable!()`, and overflow, which is a panic of the index type.  Violated preconditions of
unsafe code are not, and neither is `underflow` of a key or child index, which would wrap in release builds.  Without debug
assertions (`d = false`) nothing may depend on a `debug_assert!`. -/
def Harmless (d : Bool) : Fault → Prop
  | .panic m => d = true ∨ m ∉ debugMsgs
  | .ub _ => False
  | .unreachable _ => True
  | .todo _ => True
  | .overflow => True
  | .underflow => False

/-- A safe implementation of `Index`: what its operations return is arbitrary, and they may panic. -/
structure Civil (ix : IdxOps I) : Prop where
  addL : ∀ x y f, ix.addL x y = .error f → Harmless ix.debug f
  addR : ∀ x y f, ix.addR x y = .error f → Harmless ix.debug f
  subL : ∀ x y f, ix.subL x y = .error f → Harmless ix.debug f
  subR : ∀ x y f, ix.subR x y = .error f → Harmless ix.debug f

/-- The computation returns a value with `Q`, or fails in a way that is defined behaviour. -/
def Safe {α : Type} (d : Bool) (x : R α) (Q : α → Prop) : Prop :=
  match x with
  | .ok a => Q a
  | .error f => Harmless d f

namespace Safe
variable {α β : Type} {d : Bool} {x : R α} {P Q : α → Prop}

theorem mono (h : Safe d x P) (hpq : ∀ a, P a → Q a) : Safe d x Q := by
  cases x with
  | ok a => exact hpq a h
  | error f => exact h

theorem bind {f : α → R β} {Q : β → Prop} (h : Safe d x P) (hf : ∀ a, P a → Safe d (f a) Q) : Safe d (x >>= f) Q := by
  cases x with
  | ok a => exact hf a h
  | error f => exact h

theorem op {f : α → R β} {Q : β → Prop} (h : Safe d x fun _ => True) (hf : ∀ a, Safe d (f a) Q) : Safe d (x >>= f) Q :=
  h.bind fun a _ => hf a

theorem op' {f : α → R β} {Q : β → Prop} (h : Safe d x P) (hf : ∀ a, Safe d (f a) Q) : Safe d (x >>= f) Q :=
  h.bind fun a _ => hf a

theorem pure {a : α} (h : Q a) : Safe d (Pure.pure a : R α) Q := h
theorem ok {a : α} (h : Q a) : Safe d (Except.ok a : R α) Q := h
theorem triv (h : Safe d x P) : Safe d x fun _ => True := h.mono fun _ _ => trivial

theorem check {c : Bool} {m : String} (hm : m ∉ debugMsgs) : Safe d (Sherman.check c m) fun _ => c = true := by
  cases c
  · exact .inr hm
  · exact rfl

theorem checkT {c : Bool} {m : String} (h : c = true) : Safe d (Sherman.check c m) fun _ => True := by
  subst h; exact trivial

theorem weak {c : Bool} {m : String} (h : c = true) : Safe d (Sherman.weakAssert c m) fun _ => True := by
  subst h; exact trivial

theorem usub {a b : Nat} (h : b ≤ a) : Safe d (Sherman.usub a b) fun c => c = a - b := by
  unfold Sherman.usub; rw [if_pos h]; exact rfl

theorem out {a : α} (h : Safe d x Q) (hx : x = .ok a) : Q a := by rw [hx] at h; exact h
theorem fault {f : Fault} (h : Safe d x Q) (hx : x = .error f) : Harmless d f := by rw [hx] at h; exact h
end Safe

namespace Civil
variable {ix : IdxOps I} (hc : Civil ix)
include hc
theorem sAddL (x y : I) : Safe ix.debug (ix.addL x y) fun _ => True := by
  cases h : ix.addL x y with
  | ok a => exact trivial
  | error f => exact hc.addL _ _ _ h
theorem sAddR (x y : I) : Safe ix.debug (ix.addR x y) fun _ => True := by
  cases h : ix.addR x y with
  | ok a => exact trivial
  | error f => exact hc.addR _ _ _ h
theorem sSubL (x y : I) : Safe ix.debug (ix.subL x y) fun _ => True := by
  cases h : ix.subL x y with
  | ok a => exact trivial
  | error f => exact hc.subL _ _ _ h
theorem sSubR (x y : I) : Safe ix.debug (ix.subR x y) fun _ => True := by
  cases h : ix.subR x y with
  | ok a => exact trivial
  | error f => exact hc.subR _ _ _ h
end Civil

/-- One operation of the index type, the result of which does not matter. -/
syntax "ixop" term : tactic
macro_rules
  | `(tactic| ixop $hc) => `(tactic| with_reducible refine Safe.op (by first
      | exact Civil.sAddL $hc _ _ | exact Civil.sAddR $hc _ _ | exact Civil.sSubL $hc _ _ | exact Civil.sSubR $hc _ _) (fun _ => ?_))

/-! ## Nodes -/

/-- One more child than keys. -/
abbrev Node.Arity (n : Node I S C) : Prop := n.kids.length = n.keys.length + 1

variable {ix : IdxOps I}

theorem bsearch_safe {d : Bool} (xs : List I) (t : I) (l r : Nat) (hlr : l ≤ r) (hr : r ≤ xs.length) :
    Safe d (bsearch ix xs t l r) fun x => match x with | .inl i => i < xs.length | .inr i => i ≤ xs.length := by
  fun_induction bsearch ix xs t l r with
  | case1 l r h mid hx => rw [List.getElem?_eq_none_iff] at hx; omega
  | case2 l r h mid x hx hcm ih => exact ih (by omega) hr
  | case3 l r h mid x hx hcm ih => exact ih (by omega) (by omega)
  | case4 l r h mid x hx hcm => exact (List.getElem?_eq_some_iff.1 hx).1
  | case5 l r h => exact (by show l ≤ xs.length; omega)

theorem keyPos_safe {d : Bool} {n : Node I S C} {k : Nat} (h : k < n.keys.length) : Safe d (n.keyPos k) fun _ => True := by
  unfold Node.keyPos; rw [List.getElem?_eq_getElem h]; exact trivial

theorem handle_safe {d : Bool} {n : Node I S C} {k : Nat} (h : k < n.keys.length) : Safe d (n.handle k) fun _ => True := by
  unfold Node.handle; rw [List.getElem?_eq_getElem h]; exact trivial

theorem child_safe {d : Bool} {n : Node I S C} {k : Nat} (h : k < n.kids.length) : Safe d (n.child k) fun c => c ∈ n.kids := by
  unfold Node.child; rw [List.getElem?_eq_getElem h]; exact List.getElem_mem h

theorem child_safe' {d : Bool} {n : Node I S C} {k : Nat} (h : k < n.kids.length) : Safe d (n.child k) fun c => n.kids[k]? = some c := by
  unfold Node.child; rw [List.getElem?_eq_getElem h]; exact rfl

theorem childSize_safe {d : Bool} {n : Node I S C} {sz : C → I} {k : Nat} (h : k < n.kids.length) : Safe d (n.childSize sz k) fun _ => True :=
  (child_safe h).bind fun _ _ => trivial

theorem sliceSize_safe (hc : Civil ix) {n : Node I S C} {sz : C → I} {k : Nat} (h : k < n.keys.length) (ha : n.Arity) :
    Safe ix.debug (n.sliceSize ix sz k) fun _ => True :=
  (keyPos_safe h).op fun _ => (childSize_safe (by omega)).op fun _ => (hc.sSubR _ _).op fun _ => hc.sSubL _ _

/-- The keys are as many as before, and the children are the same. -/
def Same (n n' : Node I S C) : Prop := n'.keys.length = n.keys.length ∧ n'.kids = n.kids

theorem Same.refl (n : Node I S C) : Same n n := ⟨rfl, rfl⟩
theorem Same.trans {a b c : Node I S C} (h : Same a b) (h' : Same b c) : Same a c := ⟨h'.1.trans h.1, h'.2.trans h.2⟩

theorem setKeyPos_safe {d : Bool} {n : Node I S C} {k : Nat} {p : I} (h : k < n.keys.length) : Safe d (n.setKeyPos k p) (Same n) := by
  unfold Node.setKeyPos; rw [List.getElem?_eq_getElem h]; exact ⟨by simp, rfl⟩

theorem setSlice_safe {d : Bool} {n : Node I S C} {k : Nat} {s : S} (h : k < n.keys.length) : Safe d (n.setSlice k s) (Same n) := by
  unfold Node.setSlice; rw [List.getElem?_eq_getElem h]; exact ⟨by simp, rfl⟩

theorem mapPos_safe {d : Bool} {f : I → R I} (hf : ∀ x, Safe d (f x) fun _ => True) (ks : List (Key I S)) :
    Safe d (Node.mapPos f ks) fun ks' => ks'.length = ks.length := by
  induction ks with
  | nil => exact rfl
  | cons k ks ih => exact (hf _).op fun _ => ih.bind fun _ h => by show _ = _; simp [h]

theorem setKeyPossWith_safe {d : Bool} {n : Node I S C} {f : I → R I} {start : Nat} (hf : ∀ x, Safe d (f x) fun _ => True)
    (hs : start ≤ n.keys.length) : Safe d (n.setKeyPossWith f start) (Same n) := by
  refine (Safe.weak (decide_eq_true hs)).op fun _ => (mapPos_safe hf _).bind fun ks h => (hf _).op fun _ => ?_
  exact ⟨by simp [h]; omega, rfl⟩

theorem shiftKeys_safe (hc : Civil ix) {n : Node I S C} {incr : Bool} {start : Nat} {pos o w : I} (hs : start ≤ n.keys.length) :
    Safe ix.debug (n.shiftKeys ix incr start pos o w) (Same n) := by
  unfold Node.shiftKeys
  refine (Safe.weak (decide_eq_true hs)).op fun _ => ?_
  ixop hc
  ixop hc
  split
  · ixop hc
    exact setKeyPossWith_safe (fun _ => hc.sAddL _ _) hs
  · ixop hc
    exact setKeyPossWith_safe (fun _ => hc.sSubL _ _) hs

theorem shiftKeysAuto_safe (hc : Civil ix) {n : Node I S C} {start : Nat} {pos o w : I} (hs : start ≤ n.keys.length) :
    Safe ix.debug (n.shiftKeysAuto ix start pos o w) (Same n) := shiftKeys_safe hc hs

section
variable [HasPtr C]

theorem split_safe {d : Bool} {n : Node I S C} {mid : Nat} {w : World} (h : mid < n.keys.length) :
    Safe d (n.split mid w) fun r =>
      r.1.keys.length = mid ∧ r.1.kids = n.kids.take (mid + 1) ∧
      r.2.2.1.keys.length = n.keys.length - (mid + 1) ∧ r.2.2.1.kids = n.kids.drop (mid + 1) ∧
      r.2.2.2.fst = w.fst := by
  unfold Node.split; rw [List.getElem?_eq_getElem h]
  refine ⟨?_, rfl, ?_, rfl, by simp [World.alloc]⟩
  · show (n.keys.take mid).length = mid
    simp; omega
  · show (n.keys.drop (mid + 1)).length = _
    simp

theorem insertKeyAndChild_safe {d : Bool} {max : Nat} {n : Node I S C} {idx : Nat} {s : S} {ref : Option Nat} {c : C} {w : World}
    (h : idx ≤ n.keys.length) (hm : n.keys.length < max) :
    Safe d (n.insertKeyAndChild max idx s ref c w) fun r =>
      r.1.keys.length = n.keys.length + 1 ∧ r.1.kids = n.kids.take (idx + 1) ++ c :: n.kids.drop (idx + 1) := by
  refine (Safe.weak (decide_eq_true h)).op fun _ => (Safe.weak (decide_eq_true hm)).op fun _ => ?_
  exact ⟨by simp; omega, rfl⟩

theorem pushKeyAndChild_safe {d : Bool} {max : Nat} {n : Node I S C} {s : S} {ref : Option Nat} {c : C} {z : I} {w : World}
    (hm : n.keys.length < max) : Safe d (n.pushKeyAndChild max s ref c z w) fun r =>
      r.1.keys.length = n.keys.length + 1 ∧ r.1.kids = n.kids ++ [c] ∧ r.2.fst = w.fst := by
  refine (Safe.weak (decide_eq_true hm)).op fun _ => ?_
  exact ⟨by simp, rfl, by simp⟩

theorem replaceFirstChild_safe {d : Bool} {n : Node I S C} {c : C} {w : World} (h : 0 < n.kids.length) :
    Safe d (n.replaceFirstChild c w) fun r =>
      r.1.keys.length = n.keys.length ∧ r.1.kids = c :: n.kids.tail ∧ r.2.1 ∈ n.kids := by
  unfold Node.replaceFirstChild
  match hk : n.kids with
  | [] => rw [hk] at h; simp at h
  | c0 :: cs => exact ⟨rfl, rfl, List.mem_cons_self⟩

end

/-! ## Shape -/

/-- B-tree shape: every node has one child more than keys; the root has between `lo` and `2*M` keys, every other node between `μ` and `2*M`.  `ShapeT M` is the case
`μ = M`. -/
def FillT (μ M : Nat) : Nat → {h : Nat} → Tree I S h → Prop
  | _, 0, _ => True
  | lo, _ + 1, n => lo ≤ n.keys.length ∧ n.keys.length ≤ 2 * M ∧ n.kids.length = n.keys.length + 1 ∧ ∀ c ∈ n.kids, FillT μ M μ c

theorem fillT_shape {M lo h : Nat} {t : Tree I S h} : FillT M M lo t ↔ ShapeT M lo t := by
  induction h generalizing lo with
  | zero => exact Iff.rfl
  | succ h ih => rw [FillT, ShapeT]; simp only [ih]

theorem fillT_zero {M lo : Nat} (t : Tree I S 0) : FillT μ M lo t := trivial

theorem fillT_succ {M lo h : Nat} {n : Tree I S (h + 1)} :
    FillT μ M lo n ↔ lo ≤ (Node.keys n).length ∧ (Node.keys n).length ≤ 2 * M ∧ (Node.kids n).length = (Node.keys n).length + 1 ∧
      ∀ c ∈ Node.kids n, FillT μ M μ c := by rw [FillT]

theorem FillT.weaken {M lo lo' h : Nat} {t : Tree I S h} (hs : FillT μ M lo t) (hl : lo' ≤ lo) : FillT μ M lo' t := by
  cases h with
  | zero => trivial
  | succ h =>
    rw [fillT_succ] at hs ⊢
    exact ⟨by omega, hs.2⟩

theorem FillT.same {M lo h : Nat} {n n' : Tree I S (h + 1)} (hs : FillT μ M lo n) (h : Same (C := Tree I S h) n n') : FillT μ M lo n' := by
  rw [fillT_succ] at hs ⊢
  obtain ⟨h1, h2⟩ := h
  rw [h1, h2]
  exact hs

theorem shape_mk {M lo h : Nat} {n : Tree I S (h + 1)} {k : Nat} {l : List (Tree I S h)} (hk : (Node.keys n).length = k)
    (hl : Node.kids n = l) (h1 : lo ≤ k) (h2 : k ≤ 2 * M) (h3 : l.length = k + 1) (h4 : ∀ c ∈ l, FillT μ M μ c) : FillT μ M lo n := by
  rw [fillT_succ, hk, hl]
  exact ⟨h1, h2, h3, h4⟩

/-- Least number of keys of the node at a place. -/
def Ctx.low (μ : Nat) {H : Nat} : {h : Nat} → Ctx I S H h → Nat
  | _, .top => 1
  | _, .frame .. => μ

/-- The ancestors, apart from the subtree at the place. -/
def Ctx.Shape (μ M : Nat) {H : Nat} : {h : Nat} → Ctx I S H h → Prop
  | _, .top => True
  | _, .frame _ _ keys kl kr up => up.low μ ≤ keys.length ∧ keys.length ≤ 2 * M ∧ keys.length = kl.length + kr.length ∧
      (∀ c ∈ kl, FillT μ M μ c) ∧ (∀ c ∈ kr, FillT μ M μ c) ∧ up.Shape μ M

theorem Ctx.low_le (hM : 1 ≤ μ) {H h : Nat} (ctx : Ctx I S H h) : ctx.low μ ≤ μ := by
  cases ctx <;> simp [Ctx.low, hM]

theorem Ctx.le_low (hM : 1 ≤ μ) {H h : Nat} (ctx : Ctx I S H h) : 1 ≤ ctx.low μ := by
  cases ctx <;> simp [Ctx.low, hM]

theorem plug_shape {M H h : Nat} {p : Nat} {z : I} {keys : List (Key I S)} {kl kr : List (Tree I S h)} {up : Ctx I S H (h + 1)}
    {t : Tree I S h} (hx : (Ctx.frame p z keys kl kr up).Shape μ M) (ht : FillT μ M μ t) :
    FillT μ M (up.low μ) (h := h + 1) (plugNode p z keys kl t kr) := by
  obtain ⟨h1, h2, h3, h4, h5, -⟩ := hx
  refine shape_mk (k := keys.length) (l := kl ++ t :: kr) rfl rfl h1 h2 ?_ ?_
  · simp only [List.length_append, List.length_cons]; omega
  · intro c hcm
    simp only [List.mem_append, List.mem_cons] at hcm
    rcases hcm with hcm | rfl | hcm
    · exact h4 c hcm
    · exact ht
    · exact h5 c hcm

theorem enter_shape {M H h : Nat} {n : Tree I S (h + 1)} {ctx : Ctx I S H (h + 1)} {c : Nat} (hn : FillT μ M (ctx.low μ) n) (hx : ctx.Shape μ M)
    (hcl : c ≤ (Node.keys n).length) :
    (Ctx.frame (Node.ptr n) (Node.size n) (Node.keys n) ((Node.kids n).take c) ((Node.kids n).drop (c + 1)) ctx).Shape μ M := by
  rw [fillT_succ] at hn
  obtain ⟨h1, h2, h3, h4⟩ := hn
  refine ⟨h1, h2, ?_, fun c hc => h4 c (List.mem_of_mem_take hc), fun c hc => h4 c (List.mem_of_mem_drop hc), hx⟩
  simp only [List.length_take, List.length_drop]; omega

/-! ## Places -/

/-- There is a key at this address and index. -/
def Place {h : Nat} (t : Tree I S h) (a : Nat × Nat) : Prop := ∃ c ∈ cells t, c.at = a

theorem weave_keyAt {p : Nat} : ∀ {ks : List (Key I S)} {cs : List (List (Cell S))} (i k : Nat), k < ks.length → ks.length ≤ cs.length →
    ∃ c ∈ weave p i cs ks, c.at = (p, i + k) := by
  intro ks
  induction ks with
  | nil => intro cs i k hk; exact absurd hk (Nat.not_lt_zero _)
  | cons key ks ih =>
    intro cs i k hk hl
    cases cs with
    | nil => simp at hl
    | cons c cs =>
      cases k with
      | zero => exact ⟨_, List.mem_append_right _ (List.mem_cons_self), rfl⟩
      | succ k =>
        obtain ⟨x, hx, e⟩ := ih (cs := cs) (i + 1) k (by simpa using hk) (by simpa using hl)
        exact ⟨x, List.mem_append_right _ (List.mem_cons_of_mem _ hx), by rw [e]; congr 1; omega⟩

theorem weave_kidAt {p : Nat} : ∀ {ks : List (Key I S)} {cs : List (List (Cell S))} (i : Nat) {l : List (Cell S)} {x : Cell S}, l ∈ cs → x ∈ l →
    cs.length ≤ ks.length + 1 → ∃ c ∈ weave p i cs ks, c.at = x.at := by
  intro ks cs
  induction cs generalizing ks with
  | nil => intro i l x hl; exact absurd hl (List.not_mem_nil)
  | cons c cs ih =>
    intro i l x hl hx hlen
    cases ks with
    | nil =>
      have : cs = [] := List.eq_nil_of_length_eq_zero (by simp only [List.length_cons, List.length_nil] at hlen; omega)
      subst this
      obtain rfl : l = c := by simpa using hl
      exact ⟨x.under i, List.mem_map_of_mem hx, rfl⟩
    | cons key ks =>
      rcases List.mem_cons.1 hl with rfl | hl
      · exact ⟨x.under i, List.mem_append_left _ (List.mem_map_of_mem hx), rfl⟩
      · obtain ⟨y, hy, e⟩ := ih (ks := ks) (i + 1) hl hx (by simp at hlen; omega)
        exact ⟨y, List.mem_append_right _ (List.mem_cons_of_mem _ hy), e⟩

theorem FillT.arity {M lo h : Nat} {n : Tree I S (h + 1)} (hs : FillT μ M lo n) : Node.Arity n := (fillT_succ.1 hs).2.2.1

theorem place_key {M lo h : Nat} {n : Tree I S (h + 1)} (hs : FillT μ M lo n) {k : Nat} (hk : k < (Node.keys n).length) : Place n (Node.ptr n, k) := by
  have ha : (Node.kids n).length = (Node.keys n).length + 1 := hs.arity
  obtain ⟨c, hc, e⟩ := weave_keyAt (p := Node.ptr n) (cs := (Node.kids n).map cells) 0 k hk (by simp [ha])
  exact ⟨c, hc, by rw [e, Nat.zero_add]⟩

theorem place_kid {M lo h : Nat} {n : Tree I S (h + 1)} (hs : FillT μ M lo n) {ch : Tree I S h} (hm : ch ∈ Node.kids n) {a : Nat × Nat} (hp : Place ch a) :
    Place n a := by
  have ha : (Node.kids n).length = (Node.keys n).length + 1 := hs.arity
  obtain ⟨x, hx, rfl⟩ := hp
  exact weave_kidAt (ks := Node.keys n) (cs := (Node.kids n).map cells) 0 (List.mem_map_of_mem hm) hx (by simp [ha])

theorem place_close {M H h : Nat} {ctx : Ctx I S H h} {t : Tree I S h} (hx : ctx.Shape μ M) (ht : FillT μ M (ctx.low μ) t) {a : Nat × Nat} (hp : Place t a) :
    Place (ctx.close t) a := by
  induction ctx with
  | top => exact hp
  | frame p z keys kl kr up ih =>
    have hs := plug_shape hx ht
    exact ih hx.2.2.2.2.2 hs (place_kid hs (List.mem_append_right _ (List.mem_cons_self)) hp)

theorem enter_close {H h : Nat} {n : Tree I S (h + 1)} {ctx : Ctx I S H (h + 1)} {c : Nat} {ch : Tree I S h} (hm : (Node.kids n)[c]? = some ch) :
    (Ctx.enter n c ctx).close ch = ctx.close n := by
  obtain ⟨hl, e⟩ := List.getElem?_eq_some_iff.1 hm
  show ctx.close (plugNode (Node.ptr n) (Node.size n) (Node.keys n) ((Node.kids n).take c) ch ((Node.kids n).drop (c + 1))) = _
  congr 1
  have : (Node.kids n).take c ++ ch :: (Node.kids n).drop (c + 1) = Node.kids n := by rw [← e]; simp
  exact (congrArg (Node.mk (Node.ptr n) (Node.size n) (Node.keys n)) this : _)

/-! ## Searching -/

/-- The step leads to a key or child of the node. -/
def Step.In (n : Node I S C) : Step I → Prop
  | .child c _ => c ≤ n.keys.length
  | .key k _ => k < n.keys.length

theorem hintStep_safe (hc : Civil ix) {h : Nat} {n : Tree I S (h + 1)} (ha : Node.Arity n) (hint : Option Nat) (t : I) :
    Safe ix.debug (hintStep ix n hint t) fun r => ∀ s, r = some s → s.In (C := Tree I S h) n := by
  cases h with
  | zero => intro s hs; cases hs
  | succ h =>
    cases hint with
    | none => intro s hs; cases hs
    | some c =>
      simp only [hintStep]
      split
      · intro s hs; cases hs
      · rename_i hcl
        simp only [Node.len] at hcl
        refine (childSize_safe (by simp only [Node.Arity] at ha; omega)).op fun _ => ?_
        ixop hc
        split
        · rintro s hs; cases hs; show c ≤ _; omega
        · intro s hs; cases hs

theorem fullStep_safe (hc : Civil ix) {h : Nat} {n : Tree I S (h + 1)} (ha : Node.Arity n) (t : I) :
    Safe ix.debug (fullStep ix n t) fun s => s.In (C := Tree I S h) n := by
  unfold fullStep
  refine (bsearch_safe _ _ _ _ (Nat.zero_le _) (by simp [Node.len])).bind fun r hr => ?_
  simp only [Node.Arity] at ha
  match r, hr with
  | .inr 0, _ => exact Nat.zero_le _
  | .inl i, hr =>
    simp only [List.length_map] at hr
    exact (keyPos_safe hr).op fun _ => hr
  | .inr (k + 1), hr =>
    simp only [List.length_map] at hr
    refine (childSize_safe (by omega)).op fun _ => ?_
    refine Safe.op (x := check _ _) ?_ (fun _ => ?_)
    · cases hd : ix.debug
      · exact trivial
      · cases hx : ix.le t _
        · exact .inl rfl
        · exact trivial
    · ixop hc
      split
      · exact (keyPos_safe (by omega)).op fun _ => show k < _ by omega
      · exact hr

theorem searchStep_safe (hc : Civil ix) {h : Nat} {n : Tree I S (h + 1)} (ha : Node.Arity n) (hint : Option Nat) (t : I) :
    Safe ix.debug (searchStep ix n hint t) fun s => s.In (C := Tree I S h) n := by
  unfold searchStep
  refine Safe.op (x := check _ _) ?_ (fun _ => ?_)
  · cases hd : ix.debug
    · exact trivial
    · cases hx : ix.le t _
      · exact .inl rfl
      · exact trivial
  · refine (hintStep_safe hc ha hint t).bind fun r hr => ?_
    cases r with
    | some s => exact hr s rfl
    | none => exact fullStep_safe hc ha t

theorem getKey_safe (hc : Civil ix) {h : Nat} {n : Tree I S (h + 1)} (ha : Node.Arity n) {k : Nat} (hk : k < (Node.keys n).length) (idx t p : I) :
    Safe ix.debug (getKey ix idx n t k p) fun e => (e.ptr, e.idx) = (Node.ptr n, k) := by
  unfold getKey
  refine (handle_safe hk).op fun _ => ?_
  ixop hc
  ixop hc
  refine (sliceSize_safe hc hk ha).op fun _ => ?_
  ixop hc
  exact rfl

theorem getLoop_safe (hc : Civil ix) (idx : I) {M : Nat} : ∀ {h lo : Nat} (n : Tree I S (h + 1)) (_ : FillT μ M lo n) (hints : Option (List Nat)) (t : I),
    Safe ix.debug (getLoop ix idx n hints t) fun e => Place n (e.ptr, e.idx) := by
  intro h
  induction h with
  | zero =>
    intro lo n hs hints t
    unfold getLoop
    refine (searchStep_safe hc hs.arity _ _).bind fun s h1 => ?_
    cases s with
    | key k p => exact (getKey_safe hc hs.arity h1 _ _ _).mono fun e he => he ▸ place_key hs h1
    | child c p =>
      dsimp only
      ixop hc
      exact trivial
  | succ h ih =>
    intro lo n hs hints t
    unfold getLoop
    refine (searchStep_safe hc hs.arity _ _).bind fun s h1 => ?_
    cases s with
    | key k p => exact (getKey_safe hc hs.arity h1 _ _ _).mono fun e he => he ▸ place_key hs h1
    | child c p =>
      dsimp only
      ixop hc
      have h1 : c ≤ _ := h1
      have := hs.arity
      refine (child_safe (by simp only [Node.Arity] at this; omega)).bind fun ch hm => ?_
      exact (ih ch ((fillT_succ.1 hs).2.2.2 ch hm) _ _).mono fun e he => place_kid hs hm he

theorem cursorLoop_safe (hc : Civil ix) {M : Nat} : ∀ {h lo : Nat} (n : Tree I S (h + 1)) (_ : FillT μ M lo n) (t : I),
    Safe ix.debug (cursorLoop ix n t) fun _ => True := by
  intro h
  induction h with
  | zero => intro lo n hs t; exact trivial
  | succ h ih =>
    intro lo n hs t
    unfold cursorLoop
    refine (searchStep_safe hc hs.arity _ _).bind fun s h1 => ?_
    cases s with
    | key k p => exact trivial
    | child c p =>
      dsimp only
      ixop hc
      have h1 : c ≤ _ := h1
      have := hs.arity
      refine (child_safe (by simp only [Node.Arity] at this; omega)).bind fun ch hm => ?_
      exact (ih ch ((fillT_succ.1 hs).2.2.2 ch hm) _).op fun _ => trivial

end Sherman
