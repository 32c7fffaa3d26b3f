import Verif.OwnInsert
import Verif.Cow
import Verif.Alike
/-!
# Which nodes an insertion touches

Count some nodes of a tree as open, the others (with everything below them) as sealed.  If the nodes on the way down are open then an
insertion keeps the sealed subtrees as they are, every one of them exactly once, and the open nodes of the result are the open nodes from
before and all newly allocated ones, each once.
-/
namespace Sherman
variable {I S C : Type} {Ht : Nat}

/-- An open node with its height, or a sealed subtree. -/
abbrev TokG (I S : Type) := (Nat × Nat) ⊕ ((h : Nat) × Tree I S h)

/-- A node that is open. -/
def nodeG (g : Nat) (mc : C → Multiset (TokG I S)) (n : Node I S C) : Multiset (TokG I S) := {Sum.inl (n.ptr, g)} + (n.kids.map mc).sum

section
variable (B : Nat → Prop) [DecidablePred B]

/-- The open nodes and the topmost sealed subtrees of a tree. -/
def treeG : {h : Nat} → Tree I S h → Multiset (TokG I S)
  | 0, _ => 0
  | h + 1, n => if B (Node.ptr n) then nodeG h (treeG (h := h)) n else {Sum.inr ⟨h + 1, n⟩}

/-- The same if the root is open. -/
def actG : {h : Nat} → Tree I S h → Multiset (TokG I S)
  | 0, _ => 0
  | h + 1, n => nodeG h (treeG B (h := h)) n

/-- Open nodes on the way up, and what is beside it. -/
def Ctx.G : {h : Nat} → Ctx I S Ht h → Multiset (TokG I S)
  | _, .top => 0
  | h, .frame ptr _ _ kl kr up => {Sum.inl (ptr, h)} + (kl.map (treeG B)).sum + (kr.map (treeG B)).sum + up.G

def Post.G : Post I S Ht → Multiset (TokG I S)
  | .done t => actG B t
  | .newRoot l _ _ r => actG B l + actG B r

end

/-- Since address `n0` was the next one, exactly the allocated nodes have been added. -/
structure KeepG (B : Nat → Prop) (n0 : Nat) (A0 : Multiset (TokG I S)) (w : World) (X : Multiset (TokG I S)) : Prop where
  le : n0 ≤ w.next
  eq : ∃ fr : List (Nat × Nat), fr.map Prod.fst = List.range' n0 (w.next - n0) ∧ X = A0 + ((fr.map Sum.inl : List (TokG I S)) : Multiset (TokG I S))
  old : ∀ p g, Sum.inl (p, g) ∈ A0 → B p
  new : ∀ p, n0 ≤ p → B p

section
variable {B : Nat → Prop} {n0 g : Nat} {A0 : Multiset (TokG I S)} {w w' : World} {X P : Multiset (TokG I S)}
  {mc : C → Multiset (TokG I S)}

theorem KeepG.congr {X' : Multiset (TokG I S)} (h : KeepG B n0 A0 w X) (e : X' = X) : KeepG B n0 A0 w X' := e ▸ h

theorem KeepG.world (h : KeepG B n0 A0 w X) (e : w'.next = w.next) : KeepG B n0 A0 w' X :=
  ⟨by rw [e]; exact h.le, by rw [e]; exact h.eq, h.old, h.new⟩

theorem KeepG.alloc (h : KeepG B n0 A0 w X) (e : w'.next = w.next + 1) (g : Nat) : KeepG B n0 A0 w' ({Sum.inl (w.next, g)} + X) := by
  refine ⟨by rw [e]; exact Nat.le_succ_of_le h.le, ?_, h.old, h.new⟩
  obtain ⟨fr, h1, h2⟩ := h.eq
  refine ⟨fr ++ [(w.next, g)], ?_, ?_⟩
  · rw [e, Nat.succ_sub h.le, List.range'_concat, List.map_append, h1]
    have hn : n0 + 1 * (w.next - n0) = w.next := by have := h.le; omega
    rw [hn]; rfl
  · rw [h2]
    simp only [List.map_append, List.map_cons, List.map_nil, ← Multiset.coe_add, Multiset.coe_singleton]
    ac_rfl

theorem KeepG.open (h : KeepG B n0 A0 w X) {p g : Nat} (hp : Sum.inl (p, g) ∈ X) : B p := by
  obtain ⟨fr, h1, h2⟩ := h.eq
  rw [h2, Multiset.mem_add] at hp
  rcases hp with hp | hp
  · exact h.old p g hp
  · simp only [Multiset.mem_coe, List.mem_map, Sum.inl.injEq, exists_eq_right] at hp
    have : p ∈ fr.map Prod.fst := List.mem_map.2 ⟨_, hp, rfl⟩
    rw [h1, List.mem_range'_1] at this
    exact h.new p this.1

theorem SameRefs.nodeG {a b : Node I S C} (h : SameRefs a b) : nodeG g mc a = nodeG g mc b := by
  unfold Sherman.nodeG
  rw [h.1, h.2.2]

theorem update_next (w : World) (r : Option Nat) (p i : Nat) : (w.update r p i).next = w.next := by cases r <;> rfl

theorem suspend_next (w : World) (r : Option Nat) : (w.suspend r).next = w.next := by cases r <;> rfl

theorem updateFrom_next (p i : Nat) (ks : List (Key I S)) (w : World) : (updateFrom p i ks w).next = w.next := by
  induction ks generalizing i w with
  | nil => rfl
  | cons k ks ih => simp only [updateFrom, ih, update_next]

theorem link_next (w : World) (c f) : (w.link c f).next = w.next := by cases c <;> rfl

theorem linkFrom_next [HasPtr C] (p i : Nat) (ks : List C) (w : World) : (linkFrom p i ks w).next = w.next := by
  induction ks generalizing i w with
  | nil => rfl
  | cons k ks ih => simp only [linkFrom, ih, link_next]

theorem readUp_next {Ht h : Nat} (ctx : Ctx I S Ht h) (a : Option Nat) (w : World) : (ctx.readUp a w).next = w.next := by
  induction ctx generalizing a w with
  | top => exact link_next ..
  | frame p z ks kl kr up ih => simp only [Ctx.readUp, ih, link_next]

theorem indexFrom_next [HasPtr C] (p i : Nat) (ks : List C) (w : World) : (indexFrom p i ks w).next = w.next := by
  induction ks generalizing i w with
  | nil => rfl
  | cons k ks ih => simp only [indexFrom, ih, link_next]

theorem KeepG.insertKC [HasPtr C] {n n' : Node I S C} {mx i : Nat} {s : S} {r : Option Nat} {c : C} {pos : I}
    (h : n.insertKeyAndChild mx i s r c w = .ok (n', pos, w')) (ho : KeepG B n0 A0 w (nodeG g mc n + mc c + P)) :
    KeepG B n0 A0 w' (nodeG g mc n' + P) := by
  have hw : w'.next = w.next := by
    simp only [Node.insertKeyAndChild, bind_ok_iff] at h
    obtain ⟨_, h1, _, _, h⟩ := h
    cases h
    rw [indexFrom_next, link_next, updateFrom_next]
  simp only [Node.insertKeyAndChild, bind_ok_iff] at h
  obtain ⟨_, h1, _, _, h⟩ := h
  cases h
  refine (ho.world hw).congr ?_
  have hsum := sum_take_drop mc n.kids (i + 1)
  simp only [nodeG, List.map_append, List.map_cons, List.sum_append, List.sum_cons, ← hsum]
  ac_rfl

theorem KeepG.pushKC [HasPtr C] {n n' : Node I S C} {mx : Nat} {s : S} {r : Option Nat} {c : C} {z : I}
    (h : n.pushKeyAndChild mx s r c z w = .ok (n', w')) (ho : KeepG B n0 A0 w (nodeG g mc n + mc c + P)) :
    KeepG B n0 A0 w' (nodeG g mc n' + P) := by
  simp only [Node.pushKeyAndChild, bind_ok_iff] at h
  obtain ⟨_, h1, h⟩ := h
  cases h
  refine (ho.world ((update_next _ _ _ _).trans (link_next _ _ _))).congr ?_
  simp only [nodeG, List.map_append, List.map_cons, List.sum_append, List.sum_cons, List.map_nil, List.sum_nil, add_zero]
  ac_rfl

theorem KeepG.split [HasPtr C] {n n' rhs : Node I S C} {mid : Nat} {key : Key I S}
    (h : n.split mid w = .ok (n', key, rhs, w')) (ho : KeepG B n0 A0 w (nodeG g mc n + P)) :
    KeepG B n0 A0 w' (nodeG g mc n' + nodeG g mc rhs + P) := by
  unfold Node.split at h
  split at h
  · cases h
  · rename_i k hk
    cases h
    have hsum := sum_take_drop mc n.kids (mid + 1)
    refine (ho.alloc (w' := _) ?_ g).congr ?_
    · rw [linkFrom_next, suspend_next, updateFrom_next]; rfl
    · simp only [nodeG, ← hsum]; ac_rfl

theorem KeepG.same {n n' : Node I S C} (h : SameRefs n' n) (ho : KeepG B n0 A0 w (nodeG g mc n + P)) :
    KeepG B n0 A0 w (nodeG g mc n' + P) := ho.congr (by rw [h.nodeG])

theorem KeepG.bubbleRoom [HasPtr C] {E : Env I S} {cb : Cb} {sz : C → I} {p : Node I S C} {c : Nat} {b : Bubble I S C} {path : List Nat}
    {r} (h : bubbleRoom E cb sz p c b path w = .ok r) (ho : KeepG B n0 A0 w (nodeG g mc p + mc b.rhs + P)) :
    KeepG B n0 A0 r.2.2.2.2.2 (nodeG g mc r.1 + P) := by
  simp only [Sherman.bubbleRoom, bind_ok_iff] at h
  obtain ⟨_, _, _, _, _, _, ⟨n1, _, w1⟩, h1, _, _, _, h2, _, h3, h⟩ := h
  cases h
  have e := emitKey_world h3
  exact ((ho.insertKC h1).same (setKeyPos_same h2)).world e.2

theorem KeepG.bubbleInsertHalf [HasPtr C] {E : Env I S} {cb : Cb} {sz : C → I} {p : Node I S C} {c : Nat} {b : Bubble I S C}
    {sh : Option (Shift I)} {path : List Nat} {r} (h : bubbleInsertHalf E cb sz p c b sh path w = .ok r)
    (ho : KeepG B n0 A0 w (nodeG g mc p + mc b.rhs + P)) : KeepG B n0 A0 r.2.2 (nodeG g mc r.1 + P) := by
  simp only [Sherman.bubbleInsertHalf, bind_ok_iff] at h
  obtain ⟨_, _, _, _, _, _, _, _, _, _, _, _, ⟨n1, _, w1⟩, h1, _, h2, _, h4, _, h3, h⟩ := h
  cases h
  have e := emitKey_world h3
  exact ((ho.insertKC h1).same ((shiftKeys_same h4).trans (setKeyPos_same h2))).world e.2

theorem KeepG.bubbleSplit [HasPtr C] {E : Env I S} {cb : Cb} {sz : C → I} {p : Node I S C} {c : Nat} {b : Bubble I S C} {path : List Nat}
    {r} (h : bubbleSplit E cb sz p c b path w = .ok r) (ho : KeepG B n0 A0 w (nodeG g mc p + mc b.rhs + P)) :
    KeepG B n0 A0 r.2.2 (nodeG g mc r.1.lhs + nodeG g mc r.1.rhs + P) := by
  simp only [Sherman.bubbleSplit, bind_ok_iff] at h
  obtain ⟨_, _, ⟨n1, key, rhs, w1⟩, h1, _, _, _, _, _, _, _, _, h⟩ := h
  have h2 := (ho.congr (X' := nodeG g mc p + (mc b.rhs + P)) (by ac_rfl)).split h1
  have hsz : ∀ z, SameRefs { n1 with size := z } n1 := fun z => ⟨rfl, rfl, rfl⟩
  split at h
  · simp only [bind_ok_iff] at h
    obtain ⟨rhs', h3, h⟩ := h
    have eP := (shiftKeys_same h3).nodeG (g := g) (mc := mc)
    split at h
    · simp only [bind_ok_iff] at h
      obtain ⟨r4, h4, h⟩ := h
      cases h
      refine (KeepG.bubbleInsertHalf (g := g) (mc := mc) (P := nodeG g mc rhs' + P) h4 (h2.congr ?_)).congr ?_ <;> (try simp only [eP]) <;> (try simp only [nodeG]) <;> ac_rfl
    · simp only [bind_ok_iff] at h
      obtain ⟨_, _, _, _, r4, h4, h⟩ := h
      cases h
      refine (KeepG.bubbleInsertHalf (g := g) (mc := mc) (P := nodeG g mc n1 + P) h4 (h2.congr ?_)).congr ?_ <;> (try simp only [eP]) <;> (try simp only [nodeG]) <;> ac_rfl
  · simp only [bind_ok_iff] at h
    obtain ⟨⟨rhs1, c0⟩, h3, _, _, _, _, ⟨n2, w2⟩, h4, _, _, rhs2, h5, h⟩ := h
    cases h
    have s5 := shiftKeys_same h5
    unfold Node.replaceFirstChild at h3
    split at h3
    · cases h3
    · rename_i k0 ks hks
      cases h3
      simp only [] at s5 ⊢
      refine (KeepG.pushKC (g := g) (mc := mc) (P := nodeG g mc { rhs with kids := b.rhs :: ks } + P) h4 ((h2.world (link_next _ _ _)).congr ?_)).congr ?_
      · rw [(hsz _).nodeG]
        simp only [nodeG, hks, List.map_cons, List.sum_cons]
        ac_rfl
      · rw [s5.nodeG]
        simp only [nodeG, List.map_cons, List.sum_cons]
        ac_rfl

end

/-- The way from the root of `t` along the child indices `path` is open. -/
def Opened (B : Nat → Prop) : {h : Nat} → Tree I S h → List Nat → Prop
  | 0, _, _ => True
  | _ + 1, n, [] => B (Node.ptr n)
  | h + 1, n, c :: path => B (Node.ptr n) ∧ ∀ k, (Node.kids n)[c]? = some k → Opened B (h := h) k path

theorem Opened.root {B : Nat → Prop} {h : Nat} {n : Tree I S (h + 1)} {path : List Nat} (ho : Opened B n path) :
    B (Node.ptr n) := by
  cases path with
  | nil => exact ho
  | cons c path => exact ho.1

theorem Opened.congr {B : Nat → Prop} {h : Nat} {n n' : Tree I S (h + 1)} {path : List Nat} (ho : Opened B n path)
    (e : SameRefs n' n) : Opened B n' path := by
  obtain ⟨e1, _, e3⟩ := e
  cases path with
  | nil => simpa only [Opened, e1] using ho
  | cons c path => simpa only [Opened, e1, e3] using ho

section
variable {B : Nat → Prop} [DecidablePred B] {n0 : Nat} {A0 : Multiset (TokG I S)} {w w' : World} {P : Multiset (TokG I S)}

theorem treeG_open {h : Nat} {t : Tree I S (h + 1)} (hb : B (Node.ptr t)) : treeG B t = actG B t := by
  simp only [treeG, actG, if_pos hb]

theorem KeepG.closed {h : Nat} {t : Tree I S h} (ho : KeepG B n0 A0 w (actG B t + P)) : treeG B t = actG B t := by
  cases h with
  | zero => rfl
  | succ h =>
    refine treeG_open (ho.open (g := h) ?_)
    simp [actG, nodeG]

theorem plugNode_G {h : Nat} {ptr : Nat} {size : I} {keys : List (Key I S)} {kl kr : List (Tree I S h)} {t : Tree I S h} :
    nodeG h (treeG B) (plugNode ptr size keys kl t kr) = treeG B t + ({Sum.inl (ptr, h)} + (kl.map (treeG B)).sum + (kr.map (treeG B)).sum) := by
  simp only [nodeG, plugNode, List.map_append, List.map_cons, List.sum_append, List.sum_cons]
  ac_rfl

theorem KeepG.opUp {ix : IdxOps I} {m : Maps I} {hd : Bool} {h : Nat} {ctx : Ctx I S Ht h} {t : Tree I S h} {o x : I}
    {path : List Nat} {r} (hr : opUp ix m hd ctx t o x path = .ok r) (ho : KeepG B n0 A0 w (actG B t + ctx.G B + P)) :
    KeepG B n0 A0 w (actG B r.1 + P) := by
  induction ctx generalizing o x path with
  | top => cases hr; exact ho.congr (by simp [Ctx.G])
  | frame ptr size keys kl kr up ih =>
    simp only [Sherman.opUp, bind_ok_iff] at hr
    obtain ⟨⟨n', oldN⟩, h1, h2⟩ := hr
    have e1 := opStep_same h1
    refine ih h2 (ho.congr ?_)
    have e := (ho.congr (X' := actG B t + _) (add_assoc _ _ _).symm).closed
    have ea : actG B (h := _ + 1) n' = nodeG _ (treeG B) n' := rfl
    simp only [Ctx.G]
    rw [ea, e1.nodeG, plugNode_G, e]
    ac_rfl

theorem KeepG.opKey {ix : IdxOps I} {m : Maps I} {hd : Bool} {h : Nat} {ctx : Ctx I S Ht (h + 1)} {n : Tree I S (h + 1)}
    {k : Nat} {ov : Option I} {o x : I} {path : List Nat} {r} (hr : opKey ix m hd ctx n k ov o x path = .ok r)
    (ho : KeepG B n0 A0 w (actG B n + ctx.G B + P)) : KeepG B n0 A0 w (actG B r.1 + P) := by
  simp only [Sherman.opKey, bind_ok_iff] at hr
  obtain ⟨⟨n', oldN⟩, h1, h2⟩ := hr
  have e1 := opStep_same h1
  refine KeepG.opUp h2 (ho.congr ?_)
  simp only [actG]
  rw [e1.nodeG]

theorem KeepG.bubbleFinish {E : Env I S} {cb : Cb} {m : Maps I} {h : Nat} {ctx : Ctx I S Ht h}
    {b : Bubble I S (Tree I S h)} {hd : Bool} {path : List Nat} {r} (hr : bubbleFinish E cb m ctx b hd path w = .ok r)
    (ho : KeepG B n0 A0 w (actG B b.lhs + actG B b.rhs + ctx.G B + P)) :
    KeepG B n0 A0 r.2.2 (r.1.G B + P) := by
  induction ctx generalizing hd path w with
  | top =>
    simp only [Sherman.bubbleFinish, bind_ok_iff] at hr
    obtain ⟨_, _, _, _, hr⟩ := hr
    cases hr
    exact (ho.world (link_next _ _ _)).congr (by simp [Ctx.G, Post.G])
  | @frame h ptr size keys kl kr up ih =>
    have el : treeG B b.lhs = actG B b.lhs :=
      (ho.congr (X' := actG B b.lhs + (actG B b.rhs + (Ctx.frame ptr size keys kl kr up).G B + P)) (by ac_rfl)).closed
    have er : treeG B b.rhs = actG B b.rhs :=
      (ho.congr (X' := actG B b.rhs + (actG B b.lhs + (Ctx.frame ptr size keys kl kr up).G B + P)) (by ac_rfl)).closed
    simp only [Sherman.bubbleFinish, bind_ok_iff] at hr
    obtain ⟨⟨hd', sh⟩, _, hr⟩ := hr
    split at hr
    · simp only [bind_ok_iff] at hr
      obtain ⟨⟨n, ov, old, new, path', w1⟩, h1, ⟨t, path2⟩, h2, hr⟩ := hr
      cases hr
      have k1 := KeepG.bubbleRoom (mc := treeG B) (P := up.G B + P) h1
        ((ho.world (link_next _ _ _)).congr (by rw [plugNode_G]; simp only [Ctx.G, el, er]; ac_rfl))
      exact (KeepG.opKey h2 (k1.congr (by simp only [actG]; ac_rfl))).world (readUp_next ..)
    · simp only [bind_ok_iff] at hr
      obtain ⟨⟨b', path', w1⟩, h1, hr⟩ := hr
      have h2 := KeepG.bubbleSplit (mc := treeG B) (P := up.G B + P) h1
        ((ho.world (link_next _ _ _)).congr (by rw [plugNode_G]; simp only [Ctx.G, el, er]; ac_rfl))
      refine ih hr (h2.congr ?_)
      simp only [actG]; ac_rfl


theorem KeepG.leafInsert {E : Env I S} {n n' : Tree I S 1} {i : Nat} {s : S} {pos : I}
    (h : leafInsert E n i s w = .ok (n', pos, w')) (ho : KeepG B n0 A0 w (actG B n + P)) :
    KeepG B n0 A0 w' (actG B n' + P) :=
  KeepG.insertKC (mc := treeG B) h (ho.congr (by simp [actG, treeG]))

theorem KeepG.leafPush {E : Env I S} {n n' : Tree I S 1} {s : S} {r : Option Nat} {z : I}
    (h : leafPush E n s r z w = .ok (n', w')) (ho : KeepG B n0 A0 w (actG B n + P)) :
    KeepG B n0 A0 w' (actG B n' + P) :=
  KeepG.pushKC (mc := treeG B) h (ho.congr (by simp [actG, treeG]))

theorem KeepG.leafSame {n n' : Tree I S 1} (h : SameRefs n' n) (ho : KeepG B n0 A0 w (actG B n + P)) :
    KeepG B n0 A0 w (actG B n' + P) := KeepG.same (mc := treeG B) h ho

/-- A state that bubbles up. -/
def Bubble.Kept (B : Nat → Prop) [DecidablePred B] (n0 : Nat) (A0 : Multiset (TokG I S)) (w : World) (P : Multiset (TokG I S)) {h : Nat}
    (b : Bubble I S (Tree I S h)) : Prop := KeepG B n0 A0 w (actG B b.lhs + actG B b.rhs + P)

theorem KeepG.leafSplitSmall {E : Env I S} {cb : Cb} {n : Tree I S 1} {i : Nat} {ov : Option I} {f s : Sized I S} {r}
    (h : leafSplitSmall E cb n i ov f s w = .ok r) (ho : KeepG B n0 A0 w (actG B n + P)) :
    r.1.Kept B n0 A0 r.2 P := by
  simp only [Sherman.leafSplitSmall, bind_ok_iff] at h
  obtain ⟨_, _, _, _, _, _, _, _, ⟨n1, mid, rhs, w1⟩, h1, h⟩ := h
  have h2 := KeepG.split (mc := treeG B) h1 ho
  split at h
  · simp only [bind_ok_iff] at h
    obtain ⟨⟨n3, w3⟩, h3, ⟨rhs4, w4⟩, h4, w5, h5, w6, h6, h⟩ := h
    cases h
    have g5 := emit_world h5
    have g6 := emit_world h6
    have k3 := KeepG.leafPush (P := actG B (h := 1) rhs + P) h3
      (h2.congr (by simp only [actG, nodeG]; ac_rfl))
    have k4 := KeepG.leafPush (P := actG B n3 + P) h4
      (k3.congr (by simp only [actG, nodeG]; ac_rfl))
    refine ((k4.world g5.2).world g6.2).congr ?_
    simp only []; ac_rfl
  · simp only [bind_ok_iff] at h
    obtain ⟨⟨n3, w3⟩, h3, ⟨rhs4, w4⟩, h4, h⟩ := h
    cases h
    have k3 := KeepG.leafPush (P := actG B (h := 1) rhs + P) h3
      (h2.congr (by simp only [actG, nodeG]; ac_rfl))
    have k4 := KeepG.leafPush (P := actG B n3 + P) h4
      (k3.congr (by simp only [actG, nodeG]; ac_rfl))
    refine k4.congr ?_
    simp only []; ac_rfl

theorem KeepG.leafInsertHalf {E : Env I S} {cb : Cb} {n : Tree I S 1} {i : Nat} {ov : Option I} {f : Sized I S}
    {s : Option (Sized I S)} {r} (h : leafInsertHalf E cb n i ov f s w = .ok r)
    (ho : KeepG B n0 A0 w (actG B n + P)) : KeepG B n0 A0 r.2 (actG B r.1 + P) := by
  cases ov with
  | none =>
    simp only [Sherman.leafInsertHalf, R.pure_eq, R.bind_ok, bind_ok_iff] at h
    obtain ⟨⟨n1, _, w1⟩, h1, _, _, n2, h2, _, _, h⟩ := h
    have k1 := (KeepG.leafInsert h1 ho).leafSame (setKeyPos_same h2)
    cases s with
    | none =>
      simp only [R.pure_eq, R.bind_ok, bind_ok_iff] at h
      obtain ⟨n3, h3, _, _, _, h4, h⟩ := h
      cases h
      have e := emit_world h4
      exact (k1.leafSame (shiftKeys_same h3)).world e.2
    | some s =>
      simp only [R.pure_eq, R.bind_ok, bind_ok_iff] at h
      obtain ⟨⟨n3, _, w3⟩, h3, _, _, _, _, n4, h4, n5, h5, _, _, _, h6, h⟩ := h
      cases h
      have e := emit_world h6
      exact (((KeepG.leafInsert h3 k1).leafSame (setKeyPos_same h4)).leafSame (shiftKeys_same h5)).world e.2
  | some z =>
    simp only [Sherman.leafInsertHalf, R.pure_eq, R.bind_ok, bind_ok_iff] at h
    obtain ⟨_, _, p, _, ss, _, ⟨n1, _, w1⟩, h1, _, _, n2, h2, _, _, h⟩ := h
    have k1 := (KeepG.leafInsert h1 ho).leafSame (setKeyPos_same h2)
    cases s with
    | none =>
      simp only [R.pure_eq, R.bind_ok, bind_ok_iff] at h
      obtain ⟨n3, h3, _, _, _, h4, h⟩ := h
      cases h
      have e := emit_world h4
      exact (k1.leafSame (shiftKeys_same h3)).world e.2
    | some s =>
      simp only [R.pure_eq, R.bind_ok, bind_ok_iff] at h
      obtain ⟨⟨n3, _, w3⟩, h3, _, _, _, _, n4, h4, n5, h5, _, _, _, h6, h⟩ := h
      cases h
      have e := emit_world h6
      exact (((KeepG.leafInsert h3 k1).leafSame (setKeyPos_same h4)).leafSame (shiftKeys_same h5)).world e.2

theorem KeepG.prependSnd {E : Env I S} {n : Tree I S 1} {s : Option (Sized I S)} {r} (h : prependSnd E n s w = .ok r)
    (ho : KeepG B n0 A0 w (actG B n + P)) : KeepG B n0 A0 r.2 (actG B r.1 + P) := by
  cases s with
  | none => cases h; exact ho
  | some s =>
    simp only [Sherman.prependSnd, bind_ok_iff] at h
    obtain ⟨⟨n1, _, w1⟩, h1, n2, h2, h⟩ := h
    cases h
    exact (KeepG.leafInsert h1 ho).leafSame (shiftKeys_same h2)

theorem KeepG.splitPlace {E : Env I S} {cb : Cb} {at_ : Side ⊕ Side} {n rhs : Tree I S 1} {key : Key I S}
    {kz rs on : I} {i mid : Nat} {ov : Option I} {f : Sized I S} {s : Option (Sized I S)} {r}
    (h : splitPlace E cb at_ n key kz rhs rs on i mid ov f s w = .ok r)
    (ho : KeepG B n0 A0 w (actG B n + actG B rhs + P)) : r.1.Kept B n0 A0 r.2 P := by
  unfold Sherman.splitPlace at h
  split at h
  · simp only [bind_ok_iff] at h
    obtain ⟨_, _, ⟨n1, w1⟩, h1, _, _, w2, h2, ⟨rhs3, w3⟩, h3, h⟩ := h
    cases h
    have e := emit_world h2
    have k1 := KeepG.leafPush (P := actG B rhs + P) h1 (ho.congr (by ac_rfl))
    have k3 := KeepG.prependSnd (P := actG B n1 + P) h3 ((k1.world e.2).congr (by ac_rfl))
    exact k3.congr (by simp only []; ac_rfl)
  · split at h
    · cases h
    · simp only [bind_ok_iff] at h
      obtain ⟨_, _, _, _, ⟨n1, w1⟩, h1, ⟨n2, w2⟩, h2, _, _, _, _, w3, h3, w4, h4, h⟩ := h
      cases h
      have e3 := emit_world h3
      have e4 := emit_world h4
      have k1 := KeepG.leafPush (P := actG B rhs + P) h1 (ho.congr (by ac_rfl))
      have k2 := KeepG.leafPush (P := actG B rhs + P) h2 k1
      exact ((k2.world e3.2).world e4.2).congr (by simp only []; ac_rfl)
  · simp only [bind_ok_iff] at h
    obtain ⟨⟨n1, w1⟩, h1, h⟩ := h
    cases h
    have k1 := KeepG.leafInsertHalf (P := actG B rhs + P) h1 (ho.congr (by ac_rfl))
    exact k1.congr (by simp only []; ac_rfl)
  · simp only [bind_ok_iff] at h
    obtain ⟨_, _, ⟨n1, w1⟩, h1, h⟩ := h
    cases h
    have k1 := KeepG.leafInsertHalf (P := actG B n + P) h1 (ho.congr (by ac_rfl))
    exact k1.congr (by simp only []; ac_rfl)

theorem KeepG.leafSplit {E : Env I S} {cb : Cb} {n : Tree I S 1} {i : Nat} {ov : Option I} {f : Sized I S}
    {s : Option (Sized I S)} {r} (h : leafSplit E cb n i ov f s w = .ok r)
    (ho : KeepG B n0 A0 w (actG B n + P)) : r.1.Kept B n0 A0 r.2 P := by
  unfold Sherman.leafSplit at h
  split at h
  · split at h
    · cases h
    · exact KeepG.leafSplitSmall h ho
  · simp only [bind_ok_iff] at h
    obtain ⟨⟨mid, at_⟩, _, ⟨n1, key, rhs, w1⟩, h1, w2, h2, w3, h3, ⟨kz, ov'⟩, _, rhs', h4, h⟩ := h
    have e2 := emit_world h2
    have e3 := emit_world h3
    have k1 := KeepG.split (mc := treeG B) h1 ho
    have s4 := shiftKeys_same h4
    have s5 : SameRefs { n1 with size := key.pos } n1 := ⟨rfl, rfl, rfl⟩
    refine KeepG.splitPlace h (((k1.world e2.2).world e3.2).congr ?_)
    simp only [actG]
    rw [s4.nodeG, s5.nodeG]

theorem KeepG.leafRoom {E : Env I S} {cb : Cb} {n : Tree I S 1} {i : Nat} {ov : Option I} {f : Sized I S}
    {s : Option (Sized I S)} {ad : I} {r} (h : leafRoom E cb n i ov f s ad w = .ok r)
    (ho : KeepG B n0 A0 w (actG B n + P)) : KeepG B n0 A0 r.2.2.2.2 (actG B r.1 + P) := by
  simp only [Sherman.leafRoom, bind_ok_iff] at h
  cases ov with
  | some nl =>
    simp only [bind_ok_iff] at h
    obtain ⟨_, _, _, _, _, _, _, _, ⟨n1, _, w1⟩, h1, n2, h2, h⟩ := h
    have k1 := (KeepG.leafInsert h1 ho).leafSame (setKeyPos_same h2)
    cases s with
    | none =>
      simp only [bind_ok_iff, R.pure_eq, R.bind_ok] at h
      obtain ⟨_, _, _, _, _, h5, h⟩ := h
      cases h
      have e := emit_world h5
      exact k1.world e.2
    | some s =>
      simp only [bind_ok_iff, R.pure_eq, R.bind_ok] at h
      obtain ⟨⟨n3, _, w3⟩, h3, _, _, n4, h4, _, _, _, _, _, h5, h⟩ := h
      cases h
      have e := emit_world h5
      exact ((KeepG.leafInsert h3 k1).leafSame (setKeyPos_same h4)).world e.2
  | none =>
    simp only [bind_ok_iff] at h
    obtain ⟨⟨n1, _, w1⟩, h1, h⟩ := h
    have k1 := KeepG.leafInsert h1 ho
    cases s with
    | none =>
      simp only [bind_ok_iff, R.pure_eq, R.bind_ok] at h
      obtain ⟨_, _, _, h5, h⟩ := h
      cases h
      have e := emit_world h5
      exact k1.world e.2
    | some s =>
      simp only [bind_ok_iff, R.pure_eq, R.bind_ok] at h
      obtain ⟨⟨n3, _, w3⟩, h3, _, _, n4, h4, _, _, _, h5, h⟩ := h
      cases h
      have e := emit_world h5
      exact ((KeepG.leafInsert h3 k1).leafSame (setKeyPos_same h4)).world e.2

theorem KeepG.noJoin {E : Env I S} {cb : Cb} {m : Maps I} {n : Tree I S 1} {ctx : Ctx I S Ht 1} {i : Nat}
    {ov : Option I} {f : Sized I S} {s : Option (Sized I S)} {r}
    (h : noJoin E cb m n ctx i ov f s w = .ok r)
    (ho : KeepG B n0 A0 w (actG B n + ctx.G B + P)) :
    KeepG B n0 A0 r.2.2 (r.1.G B + P) := by
  simp only [Sherman.noJoin, bind_ok_iff] at h
  obtain ⟨_, _, _, _, h⟩ := h
  have key : ∀ (one : Nat) (ad : I), ((usub (2 * E.M) one >>= fun lim => if Node.len n ≥ lim then do
      let (b, w) ← Sherman.leafSplit E cb n i ov f s w
      Sherman.bubbleFinish E cb m ctx b false [] w
    else do
      let (n, ovPos, old, new, w) ← Sherman.leafRoom E cb n i ov f s ad w
      let (t, path) ← Sherman.opKey E.ix m false ctx n (i + one) ovPos old new []
      pure (.done t, path, ctx.readUp (ptrT n) w)) = .ok r) → KeepG B n0 A0 r.2.2 (r.1.G B + P) := by
    intro one ad h
    simp only [bind_ok_iff] at h
    obtain ⟨_, _, h⟩ := h
    split at h
    · simp only [bind_ok_iff] at h
      obtain ⟨⟨b, w1⟩, h1, h⟩ := h
      have k1 := KeepG.leafSplit (P := ctx.G B + P) h1 (ho.congr (by ac_rfl))
      exact KeepG.bubbleFinish h (k1.congr (by simp only []; ac_rfl))
    · simp only [bind_ok_iff] at h
      obtain ⟨⟨n1, _, _, _, w1⟩, h1, ⟨t, path⟩, h2, h⟩ := h
      cases h
      have k1 := KeepG.leafRoom (P := ctx.G B + P) h1 (ho.congr (by ac_rfl))
      exact (KeepG.opKey h2 (k1.congr (by ac_rfl))).world (readUp_next ..)
  cases s with
  | none => exact key 0 f.size h
  | some s =>
    simp only [bind_ok_iff, R.pure_eq, R.bind_ok] at h
    obtain ⟨ad, _, h⟩ := h
    exact key 1 ad (by simpa only [bind_ok_iff, R.pure_eq, R.bind_ok] using h)

theorem KeepG.climb {h k : Nat} {t : Tree I S (h + 1)} {ctx : Ctx I S Ht (h + 1)} {r} (hr : climb k t ctx = .ok r)
    (ho : KeepG B n0 A0 w (actG B t + ctx.G B + P)) : KeepG B n0 A0 w (actG B r.2.1 + r.2.2.G B + P) := by
  induction k generalizing h with
  | zero => cases hr; exact ho
  | succ k ih =>
    cases ctx with
    | top => cases hr
    | frame ptr size keys kl kr up =>
      refine ih (h := h + 1) hr (ho.congr ?_)
      have e := (ho.congr (X' := actG B t + _) (add_assoc _ _ _).symm).closed
      have ea : actG B (h := h + 2) (plugNode ptr size keys kl t kr) = _ := plugNode_G
      rw [ea, e]
      simp only [Ctx.G]
      ac_rfl

theorem KeepG.finishJoin {E : Env I S} {leaf : Tree I S 1} {ctx : Ctx I S Ht 1} {hd : Nat × Nat} {o n : I} {r}
    (h : finishJoin E leaf ctx hd o n w = .ok r) (ho : KeepG B n0 A0 w (actG B leaf + ctx.G B + P)) :
    KeepG B n0 A0 r.2.2 (r.1.G B + P) := by
  simp only [Sherman.finishJoin, bind_ok_iff] at h
  obtain ⟨⟨g, n1, cx⟩, h1, w1, h3, ⟨t, path⟩, h2, h⟩ := h
  cases h
  have e3 := emit_world h3
  exact (KeepG.opKey h2 ((KeepG.climb h1 ho).world e3.2)).world (readUp_next ..)

theorem setSliceUp_G {n h : Nat} {ctx ctx' : Ctx I S Ht h} {k : Nat} {s : S}
    (hr : setSliceUp n ctx k s = .ok ctx') : ctx'.G B = ctx.G B := by
  induction n generalizing h with
  | zero =>
    cases ctx with
    | top => cases hr
    | frame ptr size keys kl kr up =>
      simp only [setSliceUp] at hr
      split at hr
      · cases hr
      · cases hr; rfl
  | succ n ih =>
    cases ctx with
    | top => cases hr
    | frame ptr size keys kl kr up =>
      simp only [setSliceUp, bind_ok_iff] at hr
      obtain ⟨up', h1, hr⟩ := hr
      cases hr
      have := ih h1
      simp only [Ctx.G, this]

theorem KeepG.setSliceAt {leaf : Tree I S 1} {ctx : Ctx I S Ht 1} {hd : Nat × Nat} {s : S} {r}
    (hr : Sherman.setSliceAt leaf ctx hd s = .ok r) (ho : KeepG B n0 A0 w (actG B leaf + ctx.G B + P)) :
    KeepG B n0 A0 w (actG B r.1 + r.2.G B + P) := by
  obtain ⟨n, k⟩ := hd
  cases n with
  | zero =>
    simp only [Sherman.setSliceAt, bind_ok_iff] at hr
    obtain ⟨n', h1, hr⟩ := hr
    cases hr
    have e := setSlice_same h1
    refine ho.congr ?_
    simp only [actG]
    rw [e.nodeG]
  | succ n =>
    simp only [Sherman.setSliceAt, bind_ok_iff] at hr
    obtain ⟨n', h1, hr⟩ := hr
    cases hr
    have e := setSliceUp_G (B := B) h1
    refine ho.congr ?_
    simp only []
    rw [e]

theorem KeepG.tryJoinEdge {E : Env I S} {leaf : Tree I S 1} {ctx : Ctx I S Ht 1} {l r : Option (Nat × Nat)} {s : S}
    {z : I} {x} (h : tryJoinEdge E leaf ctx l r s z w = .ok x)
    (ho : KeepG B n0 A0 w (actG B leaf + ctx.G B + P)) :
    match x with
    | .inl p => KeepG B n0 A0 p.2.2 (p.1.G B + P)
    | .inr (leaf, ctx, _) => KeepG B n0 A0 w (actG B leaf + ctx.G B + P) := by
  unfold Sherman.tryJoinEdge at h
  split at h
  · cases h; exact ho
  · split at h
    · cases h
    · simp only [bind_ok_iff] at h
      obtain ⟨_, _, h⟩ := h
      split at h
      · simp only [bind_ok_iff] at h
        obtain ⟨_, h1, _, _, _, h2, h⟩ := h
        cases h
        exact KeepG.finishJoin h2 (KeepG.setSliceAt h1 ho)
      · simp only [bind_ok_iff] at h
        obtain ⟨_, h1, h⟩ := h
        cases h
        exact KeepG.setSliceAt h1 ho
    · simp only [bind_ok_iff] at h
      obtain ⟨_, _, h⟩ := h
      split at h
      · simp only [bind_ok_iff] at h
        obtain ⟨_, h1, _, _, _, h2, h⟩ := h
        cases h
        exact KeepG.finishJoin h2 (KeepG.setSliceAt h1 ho)
      · simp only [bind_ok_iff] at h
        obtain ⟨_, h1, h⟩ := h
        cases h
        exact KeepG.setSliceAt h1 ho
    · simp only [bind_ok_iff] at h
      obtain ⟨_, _, _, _, h⟩ := h
      split at h
      · simp only [bind_ok_iff] at h
        obtain ⟨_, _, h⟩ := h
        split at h
        · cases h
        · simp only [bind_ok_iff] at h
          obtain ⟨_, h1, _, h3, _, h2, h⟩ := h
          cases h
          exact KeepG.finishJoin h2 (KeepG.setSliceAt h3 (KeepG.setSliceAt h1 ho))
      · simp only [bind_ok_iff] at h
        obtain ⟨_, h1, h⟩ := h
        split at h
        · simp only [bind_ok_iff] at h
          obtain ⟨_, h3, _, _, _, h2, h⟩ := h
          cases h
          exact KeepG.finishJoin h2 (KeepG.setSliceAt h3 (KeepG.setSliceAt h1 ho))
        · simp only [bind_ok_iff] at h
          obtain ⟨_, h3, h⟩ := h
          cases h
          exact KeepG.setSliceAt h3 (KeepG.setSliceAt h1 ho)

theorem KeepG.insertEdge {E : Env I S} {leaf : Tree I S 1} {ctx : Ctx I S Ht 1} {i : Nat} {l r : Option (Nat × Nat)} {s : S}
    {z : I} {x} (h : insertEdge E leaf ctx i l r s z w = .ok x)
    (ho : KeepG B n0 A0 w (actG B leaf + ctx.G B + P)) :
    KeepG B n0 A0 x.2.2.2 (x.2.1.G B + P) := by
  simp only [Sherman.insertEdge, bind_ok_iff] at h
  obtain ⟨_, _, y, h1, h⟩ := h
  have := KeepG.tryJoinEdge h1 ho
  split at h
  · cases h; exact this
  · simp only [bind_ok_iff] at h
    obtain ⟨_, h2, h⟩ := h
    cases h
    exact KeepG.noJoin h2 this

theorem child_G {h : Nat} {n : Tree I S (h + 2)} {ctx : Ctx I S Ht (h + 2)} {c : Nat} {ch : Tree I S (h + 1)}
    (hc : Node.child n c = .ok ch) (hb : B (Node.ptr ch)) :
    actG B ch + (Ctx.frame (Node.ptr n) (Node.size n) (Node.keys n) ((Node.kids n).take c) ((Node.kids n).drop (c + 1)) ctx).G B =
      actG B n + ctx.G B := by
  unfold Node.child at hc
  split at hc
  · rename_i c' hk
    cases hc
    obtain ⟨h1, h2⟩ := List.getElem?_eq_some_iff.mp hk
    have e : n.kids = n.kids.take c ++ ch :: n.kids.drop (c + 1) := by
      conv_lhs => rw [← List.take_append_drop c n.kids, List.drop_eq_getElem_cons h1, h2]
    have eM : actG B n = {Sum.inl (n.ptr, h + 1)} + ((n.kids.take c ++ ch :: n.kids.drop (c + 1)).map (treeG B)).sum := by
      rw [← e]; rfl
    rw [eM, ← treeG_open hb]
    simp only [Ctx.G, List.map_append, List.map_cons, List.sum_append, List.sum_cons]
    ac_rfl
  · cases hc

theorem Opened.child {h : Nat} {n : Tree I S (h + 2)} {c : Nat} {ch : Tree I S (h + 1)} {path : List Nat}
    (hc : Node.child n c = .ok ch) (ho : Opened B n (c :: path)) : Opened B ch path := by
  unfold Node.child at hc
  split at hc
  · rename_i c' hk
    cases hc
    exact ho.2 _ hk
  · cases hc

theorem descend_G {h : Nat} {n : Tree I S (h + 1)} {ctx : Ctx I S Ht (h + 1)} {r} (hr : descend n ctx = .ok r)
    (ho : Opened B n (List.replicate h 0)) : actG B r.1 + r.2.G B = actG B n + ctx.G B := by
  induction h with
  | zero => cases hr; rfl
  | succ h ih =>
    simp only [descend, bind_ok_iff] at hr
    obtain ⟨x, h1, hr⟩ := hr
    have hc : Opened B x (List.replicate h 0) := Opened.child (c := 0) h1 (by simpa [List.replicate_succ] using ho)
    rw [ih hr hc, child_G (ctx := ctx) h1 hc.root]

theorem rhsLeaf_G {h k : Nat} {n : Tree I S (h + 1)} {ctx : Ctx I S Ht (h + 1)} {r} (hr : rhsLeaf n ctx k = .ok r)
    (ho : Opened B n (rhsWay h k)) : actG B r.1 + r.2.1.G B = actG B n + ctx.G B := by
  cases h with
  | zero => cases hr; rfl
  | succ h =>
    simp only [rhsLeaf, bind_ok_iff] at hr
    obtain ⟨x, h1, _, h2, hr⟩ := hr
    cases hr
    have hc : Opened B x (List.replicate h 0) := Opened.child h1 ho
    rw [descend_G h2 hc, child_G (ctx := ctx) h1 hc.root]

theorem KeepG.insertRhs {E : Env I S} {h : Nat} {nop skip : Bool} {n : Tree I S (h + 1)} {ctx : Ctx I S Ht (h + 1)} {k : Nat}
    {newLhs : I} {lm : Bool} {f : Sized I S} {s : Option (Sized I S)} {r}
    (hr : insertRhs E nop skip n ctx k newLhs lm f s w = .ok r) (hop : Opened B n (rhsWay h k))
    (ho : KeepG B n0 A0 w (actG B n + ctx.G B + P)) :
    KeepG B n0 A0 r.2.2 (r.1.G B + P) := by
  simp only [Sherman.insertRhs, bind_ok_iff] at hr
  obtain ⟨_, _, _, _, ⟨leaf, cx, i⟩, h1, hr⟩ := hr
  have e := rhsLeaf_G h1 hop
  exact KeepG.noJoin hr (ho.congr (by rw [← e]))

theorem KeepG.setSliceN {h : Nat} {n n' : Tree I S (h + 1)} {ctx : Ctx I S Ht (h + 1)} {k : Nat} {s : S}
    (hs : Node.setSlice n k s = .ok n') (ho : KeepG B n0 A0 w (actG B n + ctx.G B + P)) :
    KeepG B n0 A0 w (actG B n' + ctx.G B + P) := by
  have e := setSlice_same hs
  refine ho.congr ?_
  simp only [actG]; rw [e.nodeG]

theorem KeepG.insertSplit {E : Env I S} {h : Nat} {nop : Bool} {n : Tree I S (h + 1)} {ctx : Ctx I S Ht (h + 1)} {k : Nat} {p : I}
    {s : S} {z : I} {r} (hr : insertSplit E nop n ctx k p s z w = .ok r)
    (hop : ∀ key, Node.handle n k = .ok key → callsRhs E key.slice p s = true → Opened B n (rhsWay h k))
    (ho : KeepG B n0 A0 w (actG B n + ctx.G B + P)) :
    KeepG B n0 A0 r.2.2.2 (r.2.1.G B + P) := by
  simp only [Sherman.insertSplit, bind_ok_iff] at hr
  obtain ⟨_, _, key, hkey, n', h1, _, _, hr⟩ := hr
  have e1 := KeepG.setSliceN h1 ho
  have s1 := setSlice_same h1
  have hop := hop key hkey
  split at hr
  · rename_i hm
    simp only [bind_ok_iff] at hr
    obtain ⟨_, h2, hr⟩ := hr
    cases hr
    exact KeepG.insertRhs h2 ((hop (by simp [callsRhs] at hm ⊢; simp [hm])).congr s1) e1
  · rename_i hm
    split at hr
    · rename_i mid hj1
      simp only [bind_ok_iff] at hr
      obtain ⟨_, _, hr⟩ := hr
      split at hr
      · simp only [bind_ok_iff] at hr
        obtain ⟨n2, h2, _, h4, _, _, _, _, ⟨t, path⟩, h3, hr⟩ := hr
        cases hr
        have e4 := emit_world h4
        exact (KeepG.opKey h3 ((KeepG.setSliceN h2 e1).world e4.2)).world (readUp_next ..)
      · rename_i hj2
        simp only [bind_ok_iff] at hr
        obtain ⟨n2, h2, _, h4, _, h3, hr⟩ := hr
        cases hr
        have e4 := emit_world h4
        exact KeepG.insertRhs h3 ((hop (by simp only [callsRhs, hj1, hj2]; simp at hm; simp [hm])).congr ((setSlice_same h2).trans s1))
          ((KeepG.setSliceN h2 e1).world e4.2)
    · rename_i hj1
      simp only [bind_ok_iff] at hr
      obtain ⟨n2, h2, hr⟩ := hr
      have e2 := KeepG.setSliceN h2 e1
      have hop := (hop (by simp only [callsRhs, hj1]; simp)).congr ((setSlice_same h2).trans s1)
      split at hr
      · simp only [bind_ok_iff] at hr
        obtain ⟨_, _, _, h3, hr⟩ := hr
        cases hr
        exact KeepG.insertRhs h3 hop e2
      · simp only [bind_ok_iff] at hr
        obtain ⟨_, h3, hr⟩ := hr
        cases hr
        exact KeepG.insertRhs h3 hop e2

def Point.path : Point I S Ht → List Nat
  | .edge _ ctx _ _ _ => ctx.way
  | .split _ _ ctx _ _ => ctx.way

def Point.G (B : Nat → Prop) [DecidablePred B] : Point I S Ht → Multiset (TokG I S)
  | .edge leaf ctx _ _ _ => actG B leaf + ctx.G B
  | .split _ n ctx _ _ => actG B n + ctx.G B

def Point.Opened (B : Nat → Prop) : Point I S Ht → List Nat → Prop
  | .edge leaf _ _ _ _, p => Sherman.Opened B leaf p
  | .split _ n _ _ _, p => Sherman.Opened B n p

theorem findPoint_G {E : Env I S} {h : Nat} {n : Tree I S (h + 1)} {ctx : Ctx I S Ht (h + 1)} {hints : Option (List Nat)}
    {t : I} {l r : Option (Nat × Nat)} {pt} (hr : findPoint E n ctx hints t l r = .ok pt) :
    ∃ q, pt.path = ctx.way ++ q ∧ ∀ q', Opened B n (q ++ q') → pt.G B = actG B n + ctx.G B ∧ pt.Opened B q' := by
  induction h generalizing hints t l r with
  | zero =>
    simp only [findPoint, bind_ok_iff] at hr
    obtain ⟨x, h1, hr⟩ := hr
    refine ⟨[], ?_⟩
    split at hr
    · simp only [bind_ok_iff] at hr
      obtain ⟨_, _, _, _, hr⟩ := hr
      cases hr; exact ⟨by simp [Point.path], fun q' ho => ⟨rfl, ho⟩⟩
    · cases hr; exact ⟨by simp [Point.path], fun q' ho => ⟨rfl, ho⟩⟩
  | succ h ih =>
    simp only [findPoint, bind_ok_iff] at hr
    obtain ⟨x, h1, hr⟩ := hr
    split at hr
    · simp only [bind_ok_iff] at hr
      obtain ⟨_, _, _, _, hr⟩ := hr
      cases hr; exact ⟨[], by simp [Point.path], fun q' ho => ⟨rfl, ho⟩⟩
    · rename_i _ c p
      simp only [bind_ok_iff] at hr
      obtain ⟨_, _, ch, h2, hr⟩ := hr
      obtain ⟨q, hq, hM⟩ := ih hr
      have hl : ((Node.kids n).take c).length = c := by
        unfold Node.child at h2
        split at h2
        · rename_i hk
          obtain ⟨hk, _⟩ := List.getElem?_eq_some_iff.mp hk
          simp; omega
        · cases h2
      refine ⟨c :: q, by rw [hq]; simp only [Ctx.way, hl]; simp, fun q' ho => ?_⟩
      have hc := Opened.child h2 ho
      obtain ⟨e, hq'⟩ := hM q' hc
      exact ⟨e.trans (child_G (ctx := ctx) h2 hc.root), hq'⟩

theorem KeepG.insertAt {E : Env I S} {nop : Bool} {pt : Point I S Ht} {s : S} {z : I} {x}
    (h : insertAt E nop pt s z w = .ok x)
    (hop : ∀ g n ctx k p, pt = .split g n ctx k p → ∀ key, Node.handle n k = .ok key → callsRhs E key.slice p s = true →
      Sherman.Opened B n (rhsWay g k))
    (ho : KeepG B n0 A0 w (pt.G B + P)) :
    KeepG B n0 A0 x.2.2.2 (x.2.1.G B + P) := by
  cases pt with
  | edge => exact KeepG.insertEdge h ho
  | split => exact KeepG.insertSplit h (hop _ _ _ _ _ rfl) ho

/-- The measure of a tree handle whose root is open. -/
def RleTree.G (B : Nat → Prop) [DecidablePred B] (t : RleTree I S) : Multiset (TokG I S) :=
  match t.root with
  | none => 0
  | some r => actG B r.tree

theorem KeepG.installRoot {E : Env I S} {H' len : Nat} {post : Post I S (H' + 1)} {path : List Nat} {handle : Option (Nat × Nat)}
    {r} (h : installRoot E len post path handle w = .ok r) (ho : KeepG B n0 A0 w (post.G B + P)) :
    KeepG B n0 A0 r.2.world (r.1.G B + P) := by
  cases post with
  | done t =>
    simp only [Sherman.installRoot, bind_ok_iff] at h
    obtain ⟨_, _, h⟩ := h
    cases h
    exact ho.congr rfl
  | newRoot l k kz rr =>
    simp only [Sherman.installRoot, bind_ok_iff] at h
    obtain ⟨⟨t', w2⟩, h3, _, _, h⟩ := h
    cases h
    simp only [makeNewParent, bind_ok_iff] at h3
    obtain ⟨_, _, _, h4, h3⟩ := h3
    cases h3
    have el : treeG B l = actG B l := (ho.congr (X' := actG B l + (actG B rr + P)) (by simp only [Post.G]; ac_rfl)).closed
    have er : treeG B rr = actG B rr := (ho.congr (X' := actG B rr + (actG B l + P)) (by simp only [Post.G]; ac_rfl)).closed
    refine (ho.alloc (w' := _) (update_next _ _ _ _) (H' + 1)).congr ?_
    have ea : ∀ n : Node I S (Tree I S (H' + 1)), actG B (h := H' + 2) n = nodeG _ (treeG B) n := fun _ => rfl
    simp only [Post.G, RleTree.G, ea, nodeG, List.map_cons, List.map_nil, List.sum_cons, List.sum_nil, add_zero, el, er]
    ac_rfl

/-- An insertion that returns leaves alone what is sealed. -/
theorem KeepG.insert {E : Env I S} {h len : Nat} {t : Tree I S (h + 1)} {nop : Bool} {hints : List Nat} {idx : I} {s : S} {z : I} {r}
    {path : List Nat} (hr : RleTree.insert E ⟨some ⟨h, t, len⟩⟩ nop hints idx s z w = .ok r)
    (hw : wayDown E t hints idx s = .ok path) (hop : Opened B t path) (ho : KeepG B n0 A0 w (actG B t + P)) :
    KeepG B n0 A0 r.2.world (r.1.G B + P) := by
  simp only [RleTree.insert, bind_ok_iff] at hr
  obtain ⟨_, _, _, _, pt, h1, ⟨dlen, post, path, w'⟩, h2, hr⟩ := hr
  simp only [wayDown, h1, R.bind_ok] at hw
  obtain ⟨q, hq, hM⟩ := findPoint_G (B := B) h1
  have hq : pt.path = q := hq
  have key : pt.G B = actG B t ∧ ∀ g n ctx k p, pt = .split g n ctx k p → ∀ key, Node.handle n k = .ok key →
      callsRhs E key.slice p s = true → Opened B n (rhsWay g k) := by
    cases pt with
    | edge leaf ctx i l r =>
      cases hw
      have := hM [] (by rw [← hq]; simpa [Point.path] using hop)
      exact ⟨by simpa [Ctx.G] using this.1, by intro _ _ _ _ _ e; cases e⟩
    | split g n ctx k p =>
      simp only [bind_ok_iff] at hw
      obtain ⟨key, hk, hw⟩ := hw
      split at hw
      · cases hw
        have := hM (rhsWay g k) (by rw [← hq]; exact hop)
        refine ⟨by simpa [Ctx.G] using this.1, ?_⟩
        intro _ _ _ _ _ e key' _ _
        cases e
        exact this.2
      · rename_i hc
        cases hw
        have := hM [] (by rw [← hq]; simpa [Point.path] using hop)
        refine ⟨by simpa [Ctx.G] using this.1, ?_⟩
        intro _ _ _ _ _ e key' hk' hc'
        cases e
        rw [hk] at hk'
        cases hk'
        exact absurd hc' hc
  have ho' := (ho.world (w' := { w with events := [], fst := none }) rfl).congr (X' := pt.G B + P) (by rw [key.1])
  have e2 := KeepG.insertAt h2 key.2 ho'
  split at hr
  · simp only [bind_ok_iff] at hr
    obtain ⟨_, _, hr⟩ := hr
    exact KeepG.installRoot hr e2
  · exact KeepG.installRoot hr e2

/-! ## Without heights -/

/-- An open node, or a sealed subtree. -/
abbrev Tok (I S : Type) := Nat ⊕ ((h : Nat) × Tree I S h)

/-- Newly allocated addresses. -/
def fresh (I S : Type) (a b : Nat) : Multiset (Tok I S) := ((List.range' a (b - a)).map Sum.inl : List (Tok I S))

/-- A node that is open. -/
def nodeM (mc : C → Multiset (Tok I S)) (n : Node I S C) : Multiset (Tok I S) := {Sum.inl n.ptr} + (n.kids.map mc).sum

section
variable (B : Nat → Prop) [DecidablePred B]

/-- The open nodes and the topmost sealed subtrees of a tree. -/
def treeM : {h : Nat} → Tree I S h → Multiset (Tok I S)
  | 0, _ => 0
  | h + 1, n => if B (Node.ptr n) then nodeM (treeM (h := h)) n else {Sum.inr ⟨h + 1, n⟩}

/-- The same if the root is open. -/
def actM : {h : Nat} → Tree I S h → Multiset (Tok I S)
  | 0, _ => 0
  | h + 1, n => nodeM (treeM B (h := h)) n

def RleTree.M (t : RleTree I S) : Multiset (Tok I S) :=
  match t.root with
  | none => 0
  | some r => actM B r.tree

end

def TokG.forget : TokG I S → Tok I S := Sum.map Prod.fst id

section
variable {B : Nat → Prop} [DecidablePred B]

theorem nodeG_forget {g : Nat} {mc : C → Multiset (TokG I S)} {mc' : C → Multiset (Tok I S)} (e : ∀ c, (mc c).map TokG.forget = mc' c)
    (n : Node I S C) : (nodeG g mc n).map TokG.forget = nodeM mc' n := by
  simp only [nodeG, nodeM, Multiset.map_add, Multiset.map_singleton]
  congr 1
  induction n.kids with
  | nil => rfl
  | cons c l ih => simp only [List.map_cons, List.sum_cons, Multiset.map_add, ih, e]

theorem treeG_forget : {h : Nat} → (t : Tree I S h) → (treeG B t).map TokG.forget = treeM B t
  | 0, _ => rfl
  | h + 1, t => by
    simp only [treeG, treeM]
    split
    · exact nodeG_forget (fun c => treeG_forget c) t
    · rfl

theorem actG_forget {h : Nat} (t : Tree I S h) : (actG B t).map TokG.forget = actM B t := by
  cases h with
  | zero => rfl
  | succ h => exact nodeG_forget (fun c => treeG_forget c) t

theorem treeM_open {h : Nat} {t : Tree I S (h + 1)} (hb : B (Node.ptr t)) : treeM B t = actM B t := by
  simp only [treeM, actM, if_pos hb]

/-- An insertion that returns: open nodes and sealed subtrees, without and with heights. -/
theorem insert_keeps {E : Env I S} {h len n0 : Nat} {t : Tree I S (h + 1)} {nop : Bool} {hints : List Nat} {idx : I} {s : S} {z : I} {r} {w : World}
    {path : List Nat} (hr : RleTree.insert E ⟨some ⟨h, t, len⟩⟩ nop hints idx s z w = .ok r) (hn : w.next = n0)
    (hw : wayDown E t hints idx s = .ok path) (hop : Opened B t path) (old : ∀ p, Sum.inl p ∈ actM B t → B p) (new : ∀ p, n0 ≤ p → B p) :
    n0 ≤ r.2.world.next ∧ r.1.M B = actM B t + fresh I S n0 r.2.world.next ∧
      ∀ p g, Sum.inl (p, g) ∈ r.1.G B → Sum.inl (p, g) ∈ actG B t ∨ n0 ≤ p := by
  subst hn
  have hk : KeepG B w.next (actG B t) w (actG B t + 0) := by
    refine ⟨Nat.le_refl _, ⟨[], by simp, by simp⟩, fun p g hp => old p ?_, new⟩
    rw [← actG_forget]
    exact Multiset.mem_map.2 ⟨_, hp, rfl⟩
  have hk' := KeepG.insert hr hw hop hk
  simp only [add_zero] at hk'
  obtain ⟨fr, h1, h2⟩ := hk'.eq
  refine ⟨hk'.le, ?_, fun p g hp => ?_⟩
  · have e1 : (r.1.G B).map TokG.forget = r.1.M B := by
      unfold RleTree.G RleTree.M
      cases r.1.root with
      | none => rfl
      | some r => exact actG_forget _
    rw [← e1, h2, Multiset.map_add, actG_forget]
    congr 1
    unfold fresh
    rw [← h1, Multiset.map_coe, List.map_map, List.map_map]
    rfl
  · rw [h2, Multiset.mem_add] at hp
    rcases hp with hp | hp
    · exact .inl hp
    · simp only [Multiset.mem_coe, List.mem_map, Sum.inl.injEq, exists_eq_right] at hp
      have : p ∈ fr.map Prod.fst := List.mem_map.2 ⟨_, hp, rfl⟩
      rw [h1, List.mem_range'_1] at this
      exact .inr this.1

end

/-! ## The way down does not depend on addresses -/

/-- The nodes that an insertion goes down to from the point found. -/
def Point.way (E : Env I S) (slice : S) : Point I S Ht → R (List Nat)
  | .edge _ ctx _ _ _ => pure ctx.way
  | .split g n ctx k d => do
    let key ← Node.handle n k
    if callsRhs E key.slice d slice then pure (ctx.way ++ rhsWay g k) else pure ctx.way

theorem findPoint_alike {E : Env I S} {slice : S} {h : Nat} {n n' : Tree I S (h + 1)} (e : Alike n n') {ctx ctx' : Ctx I S Ht (h + 1)}
    (ep : ctx.way = ctx'.way) (hints : Option (List Nat)) (t : I) (l r : Option (Nat × Nat)) :
    (findPoint E n ctx hints t l r >>= Point.way E slice) = (findPoint E n' ctx' hints t l r >>= Point.way E slice) := by
  induction h generalizing hints t l r with
  | zero =>
    obtain ⟨e1, e2, e3⟩ := alike_node.1 e
    simp only [findPoint, findStep_alike e]
    cases findStep E.ix n' (headHint hints) t with
    | error f => rfl
    | ok st =>
      simp only [R.bind_ok]
      cases st with
      | key k p =>
        have hh : Node.handle n k = Node.handle n' k := by simp only [Node.handle, e2]
        dsimp only
        rw [hh]
        cases hk : Node.handle n' k with
        | error f => rfl
        | ok key =>
          simp only [R.bind_ok]
          cases E.ix.subL t p with
          | error f => rfl
          | ok d => simp only [R.bind_ok, R.pure_eq, Point.way, hh, hk, ep]
      | child c p =>
        simp only [R.pure_eq, R.bind_ok, Point.way, ep]
  | succ h ih =>
    obtain ⟨e1, e2, e3⟩ := alike_node.1 e
    simp only [findPoint, findStep_alike e]
    cases findStep E.ix n' (headHint hints) t with
    | error f => rfl
    | ok st =>
      simp only [R.bind_ok]
      cases st with
      | key k p =>
        have hh : Node.handle n k = Node.handle n' k := by simp only [Node.handle, e2]
        dsimp only
        rw [hh]
        cases hk : Node.handle n' k with
        | error f => rfl
        | ok key =>
          simp only [R.bind_ok]
          cases E.ix.subL t p with
          | error f => rfl
          | ok d => simp only [R.bind_ok, R.pure_eq, Point.way, hh, hk, ep]
      | child c p =>
        have ha : adjacent E (h + 1) n c l r = adjacent E (h + 1) n' c l r := by simp only [adjacent, Node.len, e2]; rfl
        dsimp only
        rw [ha]
        cases E.ix.subL t p with
        | error f => rfl
        | ok d =>
          simp only [R.bind_ok]
          cases hi : (Node.kids n)[c]? with
          | some ch =>
            obtain ⟨ch', hi', he⟩ := alike_get e3 hi
            have h1 : Node.child n c = .ok ch := by simp only [Node.child, hi]
            have h2 : Node.child n' c = .ok ch' := by simp only [Node.child, hi']
            rw [h1, h2]
            simp only [R.bind_ok]
            refine ih he ?_ _ _ _ _
            have := alike_len e3
            simp only [Ctx.way, ep, List.length_take, this]
          | none =>
            have hi' : (Node.kids n')[c]? = none := by
              have := alike_len e3
              simp only [List.getElem?_eq_none_iff] at hi ⊢
              omega
            have h1 : Node.child n c = .error (.ub "child") := by simp only [Node.child, hi]
            have h2 : Node.child n' c = .error (.ub "child") := by simp only [Node.child, hi']
            rw [h1, h2]
            rfl

/-- The way down does not depend on addresses. -/
theorem wayDown_alike {E : Env I S} {slice : S} {h : Nat} {n n' : Tree I S (h + 1)} (e : Alike n n') (hints : List Nat) (t : I) :
    wayDown E n hints t slice = wayDown E n' hints t slice := by
  have key : ∀ n : Tree I S (h + 1), wayDown E n hints t slice =
      (findPoint E n (.top : Ctx I S (h + 1) (h + 1)) (some hints) t none none >>= Point.way E slice) := by
    intro n
    unfold wayDown
    cases findPoint E n (.top : Ctx I S (h + 1) (h + 1)) (some hints) t none none with
    | error f => rfl
    | ok pt => cases pt <;> rfl
  rw [key, key]
  exact findPoint_alike e rfl _ _ _ _

end
end Sherman
