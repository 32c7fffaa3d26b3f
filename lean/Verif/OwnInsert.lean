import Verif.Own
/-!
# Addresses and references during an insertion: the whole insertion
-/
namespace Sherman
variable {I S : Type} {Ht : Nat}

/-- Places of the references in a result. -/
def Post.H : Post I S Ht → Multiset (Nat × Nat × Nat)
  | .done t => treeH t
  | .newRoot l _ _ r => treeH l + treeH r

/-- Addresses in a result. -/
def Post.P : Post I S Ht → Multiset Nat
  | .done t => treeP t
  | .newRoot l _ _ r => treeP l + treeP r

/-- Suspended references of a result. -/
def Post.U : Post I S Ht → Multiset Nat
  | .done _ => 0
  | .newRoot _ k _ _ => refU k.ref

/-- References and addresses around and at the point found. -/
def Point.H {Ht : Nat} : Point I S Ht → Multiset (Nat × Nat × Nat)
  | .edge leaf ctx _ _ _ => treeH leaf + ctx.H
  | .split _ n ctx _ _ => treeH n + ctx.H

def Point.P {Ht : Nat} : Point I S Ht → Multiset Nat
  | .edge leaf ctx _ _ _ => treeP leaf + ctx.P
  | .split _ n ctx _ _ => treeP n + ctx.P

/-- References and addresses of a tree handle. -/
def RleTree.H (t : RleTree I S) : Multiset (Nat × Nat × Nat) :=
  match t.root with
  | none => 0
  | some r => treeH r.tree

def RleTree.P (t : RleTree I S) : Multiset Nat :=
  match t.root with
  | none => 0
  | some r => treeP r.tree

section
variable {σ0 : Store} {w w' : World} {P : Multiset Nat} {H : Multiset (Nat × Nat × Nat)} {U : Multiset Nat}

theorem mapSizes_same {C : Type} {ix : IdxOps I} {m : Maps I} {hd : Bool} {ht : Nat} {n : Node I S C} {cok : COK}
    {ov : Option I} {o w : I} {r} (h : mapSizes ix m hd ht n cok ov o w = .ok r) : SameRefs r.1 n := by
  unfold mapSizes at h
  split at h
  · cases h; exact .refl _
  · simp only [bind_ok_iff] at h
    obtain ⟨_, _, _, _, _, _, _, _, _, _, _, _, _, _, _, _, h⟩ := h
    cases cok with
    | child c => cases h; exact .refl _
    | key k =>
      simp only [bind_ok_iff] at h
      obtain ⟨_, _, _, _, _, _, _, h1, h⟩ := h
      cases h
      exact setKeyPos_same h1

theorem opStep_same {C : Type} {ix : IdxOps I} {m : Maps I} {hd : Bool} {ht : Nat} {n : Node I S C} {cok : COK}
    {ov : Option I} {o w : I} {r} (h : opStep ix m hd ht n cok ov o w = .ok r) : SameRefs r.1 n := by
  simp only [opStep, bind_ok_iff] at h
  obtain ⟨⟨n1, ov1, o1, w1⟩, h1, h⟩ := h
  have e1 := mapSizes_same h1
  simp only [bind_ok_iff] at h e1
  obtain ⟨_, _, n2, h2, h⟩ := h
  cases h
  exact (shiftKeys_same h2).trans e1

theorem plugNode_H {h : Nat} {ptr : Nat} {size : I} {keys : List (Key I S)} {kl kr : List (Tree I S h)} {t : Tree I S h} :
    nodeH treeH (plugNode ptr size keys kl t kr) = treeH t + (keyH ptr 0 keys + (kl.map treeH).sum + (kr.map treeH).sum) := by
  simp only [nodeH, plugNode, List.map_append, List.map_cons, List.sum_append, List.sum_cons]
  ac_rfl

theorem plugNode_P {h : Nat} {ptr : Nat} {size : I} {keys : List (Key I S)} {kl kr : List (Tree I S h)} {t : Tree I S h} :
    nodeP treeP (plugNode ptr size keys kl t kr) = treeP t + ({ptr} + (kl.map treeP).sum + (kr.map treeP).sum) := by
  simp only [nodeP, plugNode, List.map_append, List.map_cons, List.sum_append, List.sum_cons]
  ac_rfl

theorem opUp_own {ix : IdxOps I} {m : Maps I} {hd : Bool} {h : Nat} {ctx : Ctx I S Ht h} {t : Tree I S h} {o w : I}
    {path : List Nat} {r} (hr : opUp ix m hd ctx t o w path = .ok r) :
    treeH r.1 = treeH t + ctx.H ∧ treeP r.1 = treeP t + ctx.P := by
  induction ctx generalizing o w path with
  | top => cases hr; simp [Ctx.H, Ctx.P]
  | frame ptr size keys kl kr up ih =>
    simp only [opUp, bind_ok_iff] at hr
    obtain ⟨⟨n', oldN⟩, h1, h2⟩ := hr
    have e1 := opStep_same h1
    have e2 := ih h2
    simp only [Ctx.H, Ctx.P]
    rw [e2.1, e2.2]
    simp only [treeH, treeP] at e1 ⊢
    rw [e1.nodeH, e1.nodeP, plugNode_H, plugNode_P]
    constructor <;> ac_rfl

theorem opKey_own {ix : IdxOps I} {m : Maps I} {hd : Bool} {h : Nat} {ctx : Ctx I S Ht (h + 1)} {n : Tree I S (h + 1)}
    {k : Nat} {ov : Option I} {o w : I} {path : List Nat} {r} (hr : opKey ix m hd ctx n k ov o w path = .ok r) :
    treeH r.1 = treeH n + ctx.H ∧ treeP r.1 = treeP n + ctx.P := by
  simp only [opKey, bind_ok_iff] at hr
  obtain ⟨⟨n', oldN⟩, h1, h2⟩ := hr
  have e1 := opStep_same h1
  have e2 := opUp_own h2
  rw [e2.1, e2.2]
  simp only [treeH, treeP] at e1 ⊢
  rw [e1.nodeH, e1.nodeP]
  exact ⟨rfl, rfl⟩

theorem Own.bubbleFinish {E : Env I S} {cb : Cb} {m : Maps I} {h : Nat} {ctx : Ctx I S Ht h}
    {b : Bubble I S (Tree I S h)} {hd : Bool} {path : List Nat} {r} (hr : bubbleFinish E cb m ctx b hd path w = .ok r)
    (ho : Own σ0 w (treeP b.lhs + treeP b.rhs + ctx.P + P) (treeH b.lhs + treeH b.rhs + ctx.H + H) (refU b.key.ref + U)) :
    Own σ0 r.2.2 (r.1.P + P) (r.1.H + H) (r.1.U + U) := by
  induction ctx generalizing hd path w with
  | top =>
    simp only [Sherman.bubbleFinish, bind_ok_iff] at hr
    obtain ⟨_, _, _, _, hr⟩ := hr
    cases hr
    exact (ho.link _ _).congr (by simp [Ctx.P, Post.P]) (by simp [Ctx.H, Post.H]) (by simp [Post.U])
  | frame ptr size keys kl kr up ih =>
    simp only [Sherman.bubbleFinish, bind_ok_iff] at hr
    obtain ⟨⟨hd', sh⟩, _, hr⟩ := hr
    split at hr
    · simp only [bind_ok_iff] at hr
      obtain ⟨⟨n, ov, old, new, path', w1⟩, h1, ⟨t, path2⟩, h2, hr⟩ := hr
      cases hr
      have e2 := opKey_own h2
      refine ((Own.bubbleRoom (hc := treeH) (pc := treeP) (P := up.P + P) (H := up.H + H) (U := U) h1
        ((ho.link _ _).congr ?_ ?_ rfl)).readUp ..).congr ?_ ?_ ?_
      · rw [plugNode_P]; simp only [Ctx.P]; ac_rfl
      · rw [plugNode_H]; simp only [Ctx.H]; ac_rfl
      · simp only [Post.P]; rw [e2.2]; simp only [treeP]; ac_rfl
      · simp only [Post.H]; rw [e2.1]; simp only [treeH]; ac_rfl
      · simp [Post.U]
    · simp only [bind_ok_iff] at hr
      obtain ⟨⟨b', path', w1⟩, h1, hr⟩ := hr
      have h2 := Own.bubbleSplit (hc := treeH) (pc := treeP) (P := up.P + P) (H := up.H + H) (U := U) h1
        ((ho.link _ _).congr (by rw [plugNode_P]; simp only [Ctx.P]; ac_rfl) (by rw [plugNode_H]; simp only [Ctx.H]; ac_rfl) rfl)
      refine ih hr (h2.congr ?_ ?_ rfl)
      · simp only [treeP]; ac_rfl
      · simp only [treeH]; ac_rfl

theorem Own.leafInsert {E : Env I S} {n n' : Tree I S 1} {i : Nat} {s : S} {pos : I}
    (h : leafInsert E n i s w = .ok (n', pos, w')) (ho : Own σ0 w (treeP n + P) (treeH n + H) U) :
    Own σ0 w' (treeP n' + P) (treeH n' + H) U :=
  Own.insertKC (hc := treeH) (pc := treeP) h (ho.congr (by simp [treeP]) (by simp [treeH]) (by simp [refU]))

theorem Own.leafPush {E : Env I S} {n n' : Tree I S 1} {s : S} {r : Option Nat} {z : I}
    (h : leafPush E n s r z w = .ok (n', w')) (ho : Own σ0 w (treeP n + P) (treeH n + H) (refU r + U)) :
    Own σ0 w' (treeP n' + P) (treeH n' + H) U :=
  Own.pushKC (hc := treeH) (pc := treeP) h (ho.congr (by simp [treeP]) (by simp [treeH]) rfl)

theorem Own.leafSame {n n' : Tree I S 1} (h : SameRefs n' n) (ho : Own σ0 w (treeP n + P) (treeH n + H) U) :
    Own σ0 w (treeP n' + P) (treeH n' + H) U := Own.same (hc := treeH) (pc := treeP) h ho

/-- Addresses, references and suspended references of a state that bubbles up. -/
def Bubble.Owned (σ0 : Store) (w : World) (P : Multiset Nat) (H : Multiset (Nat × Nat × Nat)) (U : Multiset Nat) {h : Nat}
    (b : Bubble I S (Tree I S h)) : Prop :=
  Own σ0 w (treeP b.lhs + treeP b.rhs + P) (treeH b.lhs + treeH b.rhs + H) (refU b.key.ref + U)

theorem Own.leafSplitSmall {E : Env I S} {cb : Cb} {n : Tree I S 1} {i : Nat} {ov : Option I} {f s : Sized I S} {r}
    (h : leafSplitSmall E cb n i ov f s w = .ok r) (ho : Own σ0 w (treeP n + P) (treeH n + H) U) :
    r.1.Owned σ0 r.2 P H U := by
  simp only [Sherman.leafSplitSmall, bind_ok_iff] at h
  obtain ⟨_, _, _, _, _, _, _, _, ⟨n1, mid, rhs, w1⟩, h1, h⟩ := h
  have h2 := Own.split (hc := treeH) (pc := treeP) h1 ho
  have e1 : ∀ z, SameRefs { n1 with size := z } n1 := fun z => ⟨rfl, rfl, rfl⟩
  have e2 : ∀ z, SameRefs { rhs with size := z } rhs := fun z => ⟨rfl, rfl, rfl⟩
  split at h
  · simp only [bind_ok_iff] at h
    obtain ⟨⟨n3, w3⟩, h3, ⟨rhs4, w4⟩, h4, w5, h5, w6, h6, h⟩ := h
    cases h
    have g5 := emit_world h5
    have g6 := emit_world h6
    have k3 := Own.leafPush (P := treeP (h := 1) rhs + P) (H := treeH (h := 1) rhs + H) (U := refU mid.ref + U) h3
      (h2.congr (by simp only [treeP, nodeP]; ac_rfl) (by simp only [treeH, nodeH]; ac_rfl) (by simp [refU]))
    have k4 := Own.leafPush (P := treeP n3 + P) (H := treeH n3 + H) (U := U) h4
      (k3.congr (by simp only [treeP, nodeP]; ac_rfl) (by simp only [treeH, nodeH]; ac_rfl) (by simp [refU]))
    refine ((k4.world g5.1 g5.2).world g6.1 g6.2).congr ?_ ?_ ?_
    · simp only []; ac_rfl
    · simp only []; ac_rfl
    · simp [refU]
  · simp only [bind_ok_iff] at h
    obtain ⟨⟨n3, w3⟩, h3, ⟨rhs4, w4⟩, h4, h⟩ := h
    cases h
    have k3 := Own.leafPush (P := treeP (h := 1) rhs + P) (H := treeH (h := 1) rhs + H) (U := U) h3
      (h2.congr (by simp only [treeP, nodeP]; ac_rfl) (by simp only [treeH, nodeH]; ac_rfl) rfl)
    have k4 := Own.leafPush (P := treeP n3 + P) (H := treeH n3 + H) (U := U) h4
      (k3.congr (by simp only [treeP, nodeP]; ac_rfl) (by simp only [treeH, nodeH]; ac_rfl) (by simp [refU]))
    refine k4.congr ?_ ?_ ?_
    · simp only []; ac_rfl
    · simp only []; ac_rfl
    · simp [refU]

theorem Own.leafInsertHalf {E : Env I S} {cb : Cb} {n : Tree I S 1} {i : Nat} {ov : Option I} {f : Sized I S}
    {s : Option (Sized I S)} {r} (h : leafInsertHalf E cb n i ov f s w = .ok r)
    (ho : Own σ0 w (treeP n + P) (treeH n + H) U) : Own σ0 r.2 (treeP r.1 + P) (treeH r.1 + H) U := by
  cases ov with
  | none =>
    simp only [Sherman.leafInsertHalf, R.pure_eq, R.bind_ok, bind_ok_iff] at h
    obtain ⟨⟨n1, _, w1⟩, h1, _, _, n2, h2, _, _, h⟩ := h
    have k1 := (Own.leafInsert h1 ho).leafSame (setKeyPos_same h2)
    cases s with
    | none =>
      simp only [R.pure_eq, R.bind_ok, bind_ok_iff] at h
      obtain ⟨n3, h3, _, _, _, h4, h⟩ := h
      cases h
      have e := emit_world h4
      exact (k1.leafSame (shiftKeys_same h3)).world e.1 e.2
    | some s =>
      simp only [R.pure_eq, R.bind_ok, bind_ok_iff] at h
      obtain ⟨⟨n3, _, w3⟩, h3, _, _, _, _, n4, h4, n5, h5, _, _, _, h6, h⟩ := h
      cases h
      have e := emit_world h6
      exact (((Own.leafInsert h3 k1).leafSame (setKeyPos_same h4)).leafSame (shiftKeys_same h5)).world e.1 e.2
  | some z =>
    simp only [Sherman.leafInsertHalf, R.pure_eq, R.bind_ok, bind_ok_iff] at h
    obtain ⟨_, _, p, _, ss, _, ⟨n1, _, w1⟩, h1, _, _, n2, h2, _, _, h⟩ := h
    have k1 := (Own.leafInsert h1 ho).leafSame (setKeyPos_same h2)
    cases s with
    | none =>
      simp only [R.pure_eq, R.bind_ok, bind_ok_iff] at h
      obtain ⟨n3, h3, _, _, _, h4, h⟩ := h
      cases h
      have e := emit_world h4
      exact (k1.leafSame (shiftKeys_same h3)).world e.1 e.2
    | some s =>
      simp only [R.pure_eq, R.bind_ok, bind_ok_iff] at h
      obtain ⟨⟨n3, _, w3⟩, h3, _, _, _, _, n4, h4, n5, h5, _, _, _, h6, h⟩ := h
      cases h
      have e := emit_world h6
      exact (((Own.leafInsert h3 k1).leafSame (setKeyPos_same h4)).leafSame (shiftKeys_same h5)).world e.1 e.2

theorem Own.prependSnd {E : Env I S} {n : Tree I S 1} {s : Option (Sized I S)} {r} (h : prependSnd E n s w = .ok r)
    (ho : Own σ0 w (treeP n + P) (treeH n + H) U) : Own σ0 r.2 (treeP r.1 + P) (treeH r.1 + H) U := by
  cases s with
  | none => cases h; exact ho
  | some s =>
    simp only [Sherman.prependSnd, bind_ok_iff] at h
    obtain ⟨⟨n1, _, w1⟩, h1, n2, h2, h⟩ := h
    cases h
    exact (Own.leafInsert h1 ho).leafSame (shiftKeys_same h2)

theorem Own.splitPlace {E : Env I S} {cb : Cb} {at_ : Side ⊕ Side} {n rhs : Tree I S 1} {key : Key I S}
    {kz rs on : I} {i mid : Nat} {ov : Option I} {f : Sized I S} {s : Option (Sized I S)} {r}
    (h : splitPlace E cb at_ n key kz rhs rs on i mid ov f s w = .ok r)
    (ho : Own σ0 w (treeP n + treeP rhs + P) (treeH n + treeH rhs + H) (refU key.ref + U)) : r.1.Owned σ0 r.2 P H U := by
  unfold Sherman.splitPlace at h
  split at h
  · simp only [bind_ok_iff] at h
    obtain ⟨_, _, ⟨n1, w1⟩, h1, _, _, w2, h2, ⟨rhs3, w3⟩, h3, h⟩ := h
    cases h
    have e := emit_world h2
    have k1 := Own.leafPush (P := treeP rhs + P) (H := treeH rhs + H) (U := U) h1 (ho.congr (by ac_rfl) (by ac_rfl) rfl)
    have k3 := Own.prependSnd (P := treeP n1 + P) (H := treeH n1 + H) (U := U) h3
      ((k1.world e.1 e.2).congr (by ac_rfl) (by ac_rfl) rfl)
    exact k3.congr (by simp only []; ac_rfl) (by simp only []; ac_rfl) (by simp [refU])
  · split at h
    · cases h
    · simp only [bind_ok_iff] at h
      obtain ⟨_, _, _, _, ⟨n1, w1⟩, h1, ⟨n2, w2⟩, h2, _, _, _, _, w3, h3, w4, h4, h⟩ := h
      cases h
      have e3 := emit_world h3
      have e4 := emit_world h4
      have k1 := Own.leafPush (P := treeP rhs + P) (H := treeH rhs + H) (U := U) h1 (ho.congr (by ac_rfl) (by ac_rfl) rfl)
      have k2 := Own.leafPush (P := treeP rhs + P) (H := treeH rhs + H) (U := U) h2 (k1.congr rfl rfl (by simp [refU]))
      exact ((k2.world e3.1 e3.2).world e4.1 e4.2).congr (by simp only []; ac_rfl) (by simp only []; ac_rfl) (by simp [refU])
  · simp only [bind_ok_iff] at h
    obtain ⟨⟨n1, w1⟩, h1, h⟩ := h
    cases h
    have k1 := Own.leafInsertHalf (P := treeP rhs + P) (H := treeH rhs + H) h1 (ho.congr (by ac_rfl) (by ac_rfl) rfl)
    exact k1.congr (by simp only []; ac_rfl) (by simp only []; ac_rfl) rfl
  · simp only [bind_ok_iff] at h
    obtain ⟨_, _, ⟨n1, w1⟩, h1, h⟩ := h
    cases h
    have k1 := Own.leafInsertHalf (P := treeP n + P) (H := treeH n + H) h1 (ho.congr (by ac_rfl) (by ac_rfl) rfl)
    exact k1.congr (by simp only []; ac_rfl) (by simp only []; ac_rfl) rfl

theorem Own.leafSplit {E : Env I S} {cb : Cb} {n : Tree I S 1} {i : Nat} {ov : Option I} {f : Sized I S}
    {s : Option (Sized I S)} {r} (h : leafSplit E cb n i ov f s w = .ok r)
    (ho : Own σ0 w (treeP n + P) (treeH n + H) U) : r.1.Owned σ0 r.2 P H U := by
  unfold Sherman.leafSplit at h
  split at h
  · split at h
    · cases h
    · exact Own.leafSplitSmall h ho
  · simp only [bind_ok_iff] at h
    obtain ⟨⟨mid, at_⟩, _, ⟨n1, key, rhs, w1⟩, h1, w2, h2, w3, h3, ⟨kz, ov'⟩, _, rhs', h4, h⟩ := h
    have e2 := emit_world h2
    have e3 := emit_world h3
    have k1 := Own.split (hc := treeH) (pc := treeP) h1 ho
    have s4 := shiftKeys_same h4
    have s5 : SameRefs { n1 with size := key.pos } n1 := ⟨rfl, rfl, rfl⟩
    refine Own.splitPlace h (((k1.world e2.1 e2.2).world e3.1 e3.2).congr ?_ ?_ rfl)
    · simp only [treeP]
      rw [s4.nodeP, s5.nodeP]
    · simp only [treeH]
      rw [s4.nodeH, s5.nodeH]

theorem Own.leafRoom {E : Env I S} {cb : Cb} {n : Tree I S 1} {i : Nat} {ov : Option I} {f : Sized I S}
    {s : Option (Sized I S)} {ad : I} {r} (h : leafRoom E cb n i ov f s ad w = .ok r)
    (ho : Own σ0 w (treeP n + P) (treeH n + H) U) : Own σ0 r.2.2.2.2 (treeP r.1 + P) (treeH r.1 + H) U := by
  simp only [Sherman.leafRoom, bind_ok_iff] at h
  cases ov with
  | some nl =>
    simp only [bind_ok_iff] at h
    obtain ⟨_, _, _, _, _, _, _, _, ⟨n1, _, w1⟩, h1, n2, h2, h⟩ := h
    have k1 := (Own.leafInsert h1 ho).leafSame (setKeyPos_same h2)
    cases s with
    | none =>
      simp only [bind_ok_iff, R.pure_eq, R.bind_ok] at h
      obtain ⟨_, _, _, _, _, h5, h⟩ := h
      cases h
      have e := emit_world h5
      exact k1.world e.1 e.2
    | some s =>
      simp only [bind_ok_iff, R.pure_eq, R.bind_ok] at h
      obtain ⟨⟨n3, _, w3⟩, h3, _, _, n4, h4, _, _, _, _, _, h5, h⟩ := h
      cases h
      have e := emit_world h5
      exact ((Own.leafInsert h3 k1).leafSame (setKeyPos_same h4)).world e.1 e.2
  | none =>
    simp only [bind_ok_iff] at h
    obtain ⟨⟨n1, _, w1⟩, h1, h⟩ := h
    have k1 := Own.leafInsert h1 ho
    cases s with
    | none =>
      simp only [bind_ok_iff, R.pure_eq, R.bind_ok] at h
      obtain ⟨_, _, _, h5, h⟩ := h
      cases h
      have e := emit_world h5
      exact k1.world e.1 e.2
    | some s =>
      simp only [bind_ok_iff, R.pure_eq, R.bind_ok] at h
      obtain ⟨⟨n3, _, w3⟩, h3, _, _, n4, h4, _, _, _, h5, h⟩ := h
      cases h
      have e := emit_world h5
      exact ((Own.leafInsert h3 k1).leafSame (setKeyPos_same h4)).world e.1 e.2

theorem Own.noJoin {E : Env I S} {cb : Cb} {m : Maps I} {n : Tree I S 1} {ctx : Ctx I S Ht 1} {i : Nat}
    {ov : Option I} {f : Sized I S} {s : Option (Sized I S)} {r}
    (h : noJoin E cb m n ctx i ov f s w = .ok r)
    (ho : Own σ0 w (treeP n + ctx.P + P) (treeH n + ctx.H + H) U) :
    Own σ0 r.2.2 (r.1.P + P) (r.1.H + H) (r.1.U + U) := by
  simp only [Sherman.noJoin, bind_ok_iff] at h
  obtain ⟨_, _, _, _, h⟩ := h
  have key : ∀ (one : Nat) (ad : I), ((usub (2 * E.M) one >>= fun lim => if Node.len n ≥ lim then do
      let (b, w) ← Sherman.leafSplit E cb n i ov f s w
      Sherman.bubbleFinish E cb m ctx b false [] w
    else do
      let (n, ovPos, old, new, w) ← Sherman.leafRoom E cb n i ov f s ad w
      let (t, path) ← opKey E.ix m false ctx n (i + one) ovPos old new []
      pure (.done t, path, ctx.readUp (ptrT n) w)) = .ok r) → Own σ0 r.2.2 (r.1.P + P) (r.1.H + H) (r.1.U + U) := by
    intro one ad h
    simp only [bind_ok_iff] at h
    obtain ⟨_, _, h⟩ := h
    split at h
    · simp only [bind_ok_iff] at h
      obtain ⟨⟨b, w1⟩, h1, h⟩ := h
      have k1 := Own.leafSplit (P := ctx.P + P) (H := ctx.H + H) h1 (ho.congr (by ac_rfl) (by ac_rfl) rfl)
      exact Own.bubbleFinish h (k1.congr (by simp only []; ac_rfl) (by simp only []; ac_rfl) rfl)
    · simp only [bind_ok_iff] at h
      obtain ⟨⟨n1, _, _, _, w1⟩, h1, ⟨t, path⟩, h2, h⟩ := h
      cases h
      have k1 := Own.leafRoom (P := ctx.P + P) (H := ctx.H + H) h1 (ho.congr (by ac_rfl) (by ac_rfl) rfl)
      have e2 := opKey_own h2
      refine (k1.readUp ..).congr ?_ ?_ ?_
      · simp only [Post.P]; rw [e2.2]; ac_rfl
      · simp only [Post.H]; rw [e2.1]; ac_rfl
      · simp [Post.U]
  cases s with
  | none => exact key 0 f.size h
  | some s =>
    simp only [bind_ok_iff, R.pure_eq, R.bind_ok] at h
    obtain ⟨ad, _, h⟩ := h
    exact key 1 ad (by simpa only [bind_ok_iff, R.pure_eq, R.bind_ok] using h)

theorem climb_own {h k : Nat} {t : Tree I S (h + 1)} {ctx : Ctx I S Ht (h + 1)} {r} (hr : climb k t ctx = .ok r) :
    treeH r.2.1 + r.2.2.H = treeH t + ctx.H ∧ treeP r.2.1 + r.2.2.P = treeP t + ctx.P := by
  induction k generalizing h with
  | zero => cases hr; exact ⟨rfl, rfl⟩
  | succ k ih =>
    cases ctx with
    | top => cases hr
    | frame ptr size keys kl kr up =>
      have e := ih (h := h + 1) hr
      have eH : treeH (h := h + 2) (plugNode ptr size keys kl t kr) = _ := plugNode_H
      have eP : treeP (h := h + 2) (plugNode ptr size keys kl t kr) = _ := plugNode_P
      rw [e.1, e.2, eH, eP]
      simp only [Ctx.H, Ctx.P]
      constructor <;> ac_rfl

theorem Own.finishJoin {E : Env I S} {leaf : Tree I S 1} {ctx : Ctx I S Ht 1} {hd : Nat × Nat} {o n : I} {r}
    (h : finishJoin E leaf ctx hd o n w = .ok r) (ho : Own σ0 w (treeP leaf + ctx.P + P) (treeH leaf + ctx.H + H) U) :
    Own σ0 r.2.2 (r.1.P + P) (r.1.H + H) (r.1.U + U) := by
  simp only [Sherman.finishJoin, bind_ok_iff] at h
  obtain ⟨⟨g, n1, cx⟩, h1, w1, h3, ⟨t, path⟩, h2, h⟩ := h
  cases h
  have e1 := climb_own h1
  have e2 := opKey_own h2
  have e3 := emit_world h3
  refine ((ho.world e3.1 e3.2).readUp ..).congr ?_ ?_ ?_
  · simp only [Post.P]; rw [e2.2]; simp only [] at e1; rw [e1.2]
  · simp only [Post.H]; rw [e2.1]; simp only [] at e1; rw [e1.1]
  · simp [Post.U]

theorem setSliceUp_own {n h : Nat} {ctx ctx' : Ctx I S Ht h} {k : Nat} {s : S}
    (hr : setSliceUp n ctx k s = .ok ctx') : ctx'.H = ctx.H ∧ ctx'.P = ctx.P := by
  induction n generalizing h with
  | zero =>
    cases ctx with
    | top => cases hr
    | frame ptr size keys kl kr up =>
      simp only [setSliceUp] at hr
      split at hr
      · cases hr
      · rename_i key hk
        cases hr
        simp only [Ctx.H, Ctx.P]
        rw [keyH_congr (set_refs (key' := { key with slice := s }) hk rfl)]
        exact ⟨rfl, trivial⟩
  | succ n ih =>
    cases ctx with
    | top => cases hr
    | frame ptr size keys kl kr up =>
      simp only [setSliceUp, bind_ok_iff] at hr
      obtain ⟨up', h1, hr⟩ := hr
      cases hr
      have := ih h1
      simp only [Ctx.H, Ctx.P, this.1, this.2, and_self]

theorem setSliceAt_own {leaf : Tree I S 1} {ctx : Ctx I S Ht 1} {hd : Nat × Nat} {s : S} {r}
    (hr : setSliceAt leaf ctx hd s = .ok r) :
    treeH r.1 + r.2.H = treeH leaf + ctx.H ∧ treeP r.1 + r.2.P = treeP leaf + ctx.P := by
  obtain ⟨n, k⟩ := hd
  cases n with
  | zero =>
    simp only [setSliceAt, bind_ok_iff] at hr
    obtain ⟨n', h1, hr⟩ := hr
    cases hr
    have e := setSlice_same h1
    simp only [treeH, treeP]
    rw [e.nodeH, e.nodeP]
    exact ⟨rfl, rfl⟩
  | succ n =>
    simp only [setSliceAt, bind_ok_iff] at hr
    obtain ⟨n', h1, hr⟩ := hr
    cases hr
    have e := setSliceUp_own h1
    simp only []
    rw [e.1, e.2]
    exact ⟨rfl, rfl⟩

theorem Own.setSliceAt {leaf : Tree I S 1} {ctx : Ctx I S Ht 1} {hd : Nat × Nat} {s : S} {r}
    (hr : Sherman.setSliceAt leaf ctx hd s = .ok r) (ho : Own σ0 w (treeP leaf + ctx.P + P) (treeH leaf + ctx.H + H) U) :
    Own σ0 w (treeP r.1 + r.2.P + P) (treeH r.1 + r.2.H + H) U := by
  have e := setSliceAt_own hr
  exact ho.congr (by rw [e.2]) (by rw [e.1]) rfl

theorem Own.tryJoinEdge {E : Env I S} {leaf : Tree I S 1} {ctx : Ctx I S Ht 1} {l r : Option (Nat × Nat)} {s : S}
    {z : I} {x} (h : tryJoinEdge E leaf ctx l r s z w = .ok x)
    (ho : Own σ0 w (treeP leaf + ctx.P + P) (treeH leaf + ctx.H + H) U) :
    match x with
    | .inl p => Own σ0 p.2.2 (p.1.P + P) (p.1.H + H) (p.1.U + U)
    | .inr (leaf, ctx, _) => Own σ0 w (treeP leaf + ctx.P + P) (treeH leaf + ctx.H + H) U := by
  unfold Sherman.tryJoinEdge at h
  split at h
  · cases h; exact ho
  · split at h
    · cases h
    · simp only [bind_ok_iff] at h
      obtain ⟨_, _, h⟩ := h
      split at h
      · simp only [bind_ok_iff] at h
        obtain ⟨_, h1, _, _, _, h2, h⟩ := h
        cases h
        exact Own.finishJoin h2 (Own.setSliceAt h1 ho)
      · simp only [bind_ok_iff] at h
        obtain ⟨_, h1, h⟩ := h
        cases h
        exact Own.setSliceAt h1 ho
    · simp only [bind_ok_iff] at h
      obtain ⟨_, _, h⟩ := h
      split at h
      · simp only [bind_ok_iff] at h
        obtain ⟨_, h1, _, _, _, h2, h⟩ := h
        cases h
        exact Own.finishJoin h2 (Own.setSliceAt h1 ho)
      · simp only [bind_ok_iff] at h
        obtain ⟨_, h1, h⟩ := h
        cases h
        exact Own.setSliceAt h1 ho
    · simp only [bind_ok_iff] at h
      obtain ⟨_, _, _, _, h⟩ := h
      split at h
      · simp only [bind_ok_iff] at h
        obtain ⟨_, _, h⟩ := h
        split at h
        · cases h
        · simp only [bind_ok_iff] at h
          obtain ⟨_, h1, _, h3, _, h2, h⟩ := h
          cases h
          exact Own.finishJoin h2 (Own.setSliceAt h3 (Own.setSliceAt h1 ho))
      · simp only [bind_ok_iff] at h
        obtain ⟨_, h1, h⟩ := h
        split at h
        · simp only [bind_ok_iff] at h
          obtain ⟨_, h3, _, _, _, h2, h⟩ := h
          cases h
          exact Own.finishJoin h2 (Own.setSliceAt h3 (Own.setSliceAt h1 ho))
        · simp only [bind_ok_iff] at h
          obtain ⟨_, h3, h⟩ := h
          cases h
          exact Own.setSliceAt h3 (Own.setSliceAt h1 ho)

theorem Own.insertEdge {E : Env I S} {leaf : Tree I S 1} {ctx : Ctx I S Ht 1} {i : Nat} {l r : Option (Nat × Nat)} {s : S}
    {z : I} {x} (h : insertEdge E leaf ctx i l r s z w = .ok x)
    (ho : Own σ0 w (treeP leaf + ctx.P + P) (treeH leaf + ctx.H + H) U) :
    Own σ0 x.2.2.2 (x.2.1.P + P) (x.2.1.H + H) (x.2.1.U + U) := by
  simp only [Sherman.insertEdge, bind_ok_iff] at h
  obtain ⟨_, _, y, h1, h⟩ := h
  have := Own.tryJoinEdge h1 ho
  split at h
  · cases h; exact this
  · simp only [bind_ok_iff] at h
    obtain ⟨_, h2, h⟩ := h
    cases h
    exact Own.noJoin h2 this

theorem child_own {h : Nat} {n : Tree I S (h + 2)} {ctx : Ctx I S Ht (h + 2)} {c : Nat} {ch : Tree I S (h + 1)}
    (hc : Node.child n c = .ok ch) :
    treeH ch + (Ctx.frame (Node.ptr n) (Node.size n) (Node.keys n) ((Node.kids n).take c) ((Node.kids n).drop (c + 1)) ctx).H =
      treeH n + ctx.H ∧
    treeP ch + (Ctx.frame (Node.ptr n) (Node.size n) (Node.keys n) ((Node.kids n).take c) ((Node.kids n).drop (c + 1)) ctx).P =
      treeP n + ctx.P := by
  unfold Node.child at hc
  split at hc
  · rename_i c' hk
    cases hc
    obtain ⟨h1, h2⟩ := List.getElem?_eq_some_iff.mp hk
    have e : n.kids = n.kids.take c ++ ch :: n.kids.drop (c + 1) := by
      conv_lhs => rw [← List.take_append_drop c n.kids, List.drop_eq_getElem_cons h1, h2]
    have eH : treeH n = keyH n.ptr 0 n.keys + ((n.kids.take c ++ ch :: n.kids.drop (c + 1)).map treeH).sum := by
      rw [← e]; rfl
    have eP : treeP n = {n.ptr} + ((n.kids.take c ++ ch :: n.kids.drop (c + 1)).map treeP).sum := by
      rw [← e]; rfl
    rw [eH, eP]
    simp only [Ctx.H, Ctx.P, List.map_append, List.map_cons, List.sum_append, List.sum_cons]
    constructor <;> ac_rfl
  · cases hc

theorem descend_own {h : Nat} {n : Tree I S (h + 1)} {ctx : Ctx I S Ht (h + 1)} {r} (hr : descend n ctx = .ok r) :
    treeH r.1 + r.2.H = treeH n + ctx.H ∧ treeP r.1 + r.2.P = treeP n + ctx.P := by
  induction h with
  | zero => cases hr; exact ⟨rfl, rfl⟩
  | succ h ih =>
    simp only [descend, bind_ok_iff] at hr
    obtain ⟨x, h1, hr⟩ := hr
    have e := ih hr
    have e2 := child_own (ctx := ctx) h1
    exact ⟨e.1.trans e2.1, e.2.trans e2.2⟩

theorem rhsLeaf_own {h k : Nat} {n : Tree I S (h + 1)} {ctx : Ctx I S Ht (h + 1)} {r} (hr : rhsLeaf n ctx k = .ok r) :
    treeH r.1 + r.2.1.H = treeH n + ctx.H ∧ treeP r.1 + r.2.1.P = treeP n + ctx.P := by
  cases h with
  | zero => cases hr; exact ⟨rfl, rfl⟩
  | succ h =>
    simp only [rhsLeaf, bind_ok_iff] at hr
    obtain ⟨x, h1, _, h2, hr⟩ := hr
    cases hr
    have e := descend_own h2
    have e2 := child_own (ctx := ctx) h1
    exact ⟨e.1.trans e2.1, e.2.trans e2.2⟩

theorem Own.insertRhs {E : Env I S} {h : Nat} {nop skip : Bool} {n : Tree I S (h + 1)} {ctx : Ctx I S Ht (h + 1)} {k : Nat}
    {newLhs : I} {lm : Bool} {f : Sized I S} {s : Option (Sized I S)} {r}
    (hr : insertRhs E nop skip n ctx k newLhs lm f s w = .ok r)
    (ho : Own σ0 w (treeP n + ctx.P + P) (treeH n + ctx.H + H) U) :
    Own σ0 r.2.2 (r.1.P + P) (r.1.H + H) (r.1.U + U) := by
  simp only [Sherman.insertRhs, bind_ok_iff] at hr
  obtain ⟨_, _, _, _, ⟨leaf, cx, i⟩, h1, hr⟩ := hr
  have e := rhsLeaf_own h1
  exact Own.noJoin hr (ho.congr (by rw [← e.2]) (by rw [← e.1]) rfl)

theorem Own.setSliceN {h : Nat} {n n' : Tree I S (h + 1)} {ctx : Ctx I S Ht (h + 1)} {k : Nat} {s : S}
    (hs : Node.setSlice n k s = .ok n') (ho : Own σ0 w (treeP n + ctx.P + P) (treeH n + ctx.H + H) U) :
    Own σ0 w (treeP n' + ctx.P + P) (treeH n' + ctx.H + H) U := by
  have e := setSlice_same hs
  refine ho.congr ?_ ?_ rfl
  · simp only [treeP]; rw [e.nodeP]
  · simp only [treeH]; rw [e.nodeH]

theorem Own.insertSplit {E : Env I S} {h : Nat} {nop : Bool} {n : Tree I S (h + 1)} {ctx : Ctx I S Ht (h + 1)} {k : Nat} {p : I}
    {s : S} {z : I} {r} (hr : insertSplit E nop n ctx k p s z w = .ok r)
    (ho : Own σ0 w (treeP n + ctx.P + P) (treeH n + ctx.H + H) U) :
    Own σ0 r.2.2.2 (r.2.1.P + P) (r.2.1.H + H) (r.2.1.U + U) := by
  simp only [Sherman.insertSplit, bind_ok_iff] at hr
  obtain ⟨_, _, _, _, n', h1, _, _, hr⟩ := hr
  have e1 := Own.setSliceN h1 ho
  split at hr
  · simp only [bind_ok_iff] at hr
    obtain ⟨_, h2, hr⟩ := hr
    cases hr
    exact Own.insertRhs h2 e1
  · split at hr
    · simp only [bind_ok_iff] at hr
      obtain ⟨_, _, hr⟩ := hr
      split at hr
      · simp only [bind_ok_iff] at hr
        obtain ⟨n2, h2, _, h4, _, _, _, _, ⟨t, path⟩, h3, hr⟩ := hr
        cases hr
        have e4 := emit_world h4
        have e3 := opKey_own h3
        refine (((Own.setSliceN h2 e1).world e4.1 e4.2).readUp ..).congr ?_ ?_ ?_
        · simp only [Post.P]; rw [e3.2]
        · simp only [Post.H]; rw [e3.1]
        · simp [Post.U]
      · simp only [bind_ok_iff] at hr
        obtain ⟨n2, h2, _, h4, _, h3, hr⟩ := hr
        cases hr
        have e4 := emit_world h4
        exact Own.insertRhs h3 ((Own.setSliceN h2 e1).world e4.1 e4.2)
    · simp only [bind_ok_iff] at hr
      obtain ⟨n2, h2, hr⟩ := hr
      have e2 := Own.setSliceN h2 e1
      split at hr
      · simp only [bind_ok_iff] at hr
        obtain ⟨_, _, _, h3, hr⟩ := hr
        cases hr
        exact Own.insertRhs h3 e2
      · simp only [bind_ok_iff] at hr
        obtain ⟨_, h3, hr⟩ := hr
        cases hr
        exact Own.insertRhs h3 e2

theorem findPoint_own {E : Env I S} {h : Nat} {n : Tree I S (h + 1)} {ctx : Ctx I S Ht (h + 1)} {hints : Option (List Nat)}
    {t : I} {l r : Option (Nat × Nat)} {pt} (hr : findPoint E n ctx hints t l r = .ok pt) :
    pt.H = treeH n + ctx.H ∧ pt.P = treeP n + ctx.P := by
  induction h generalizing hints t l r with
  | zero =>
    simp only [findPoint, bind_ok_iff] at hr
    obtain ⟨x, h1, hr⟩ := hr
    split at hr
    · simp only [bind_ok_iff] at hr
      obtain ⟨_, _, _, _, hr⟩ := hr
      cases hr; exact ⟨rfl, rfl⟩
    · cases hr; exact ⟨rfl, rfl⟩
  | succ h ih =>
    simp only [findPoint, bind_ok_iff] at hr
    obtain ⟨x, h1, hr⟩ := hr
    split at hr
    · simp only [bind_ok_iff] at hr
      obtain ⟨_, _, _, _, hr⟩ := hr
      cases hr; exact ⟨rfl, rfl⟩
    · simp only [bind_ok_iff] at hr
      obtain ⟨_, _, ch, h2, hr⟩ := hr
      have e := ih hr
      have e2 := child_own (ctx := ctx) h2
      exact ⟨e.1.trans e2.1, e.2.trans e2.2⟩

theorem Own.insertAt {E : Env I S} {nop : Bool} {pt : Point I S Ht} {s : S} {z : I} {x}
    (h : insertAt E nop pt s z w = .ok x) (ho : Own σ0 w (pt.P + P) (pt.H + H) U) :
    Own σ0 x.2.2.2 (x.2.1.P + P) (x.2.1.H + H) (x.2.1.U + U) := by
  cases pt with
  | edge => exact Own.insertEdge h ho
  | split => exact Own.insertSplit h ho

theorem Own.installRoot {E : Env I S} {H' len : Nat} {post : Post I S (H' + 1)} {path : List Nat} {handle : Option (Nat × Nat)}
    {r} (h : installRoot E len post path handle w = .ok r) (ho : Own σ0 w (post.P + P) (post.H + H) (post.U + U)) :
    Own σ0 r.2.world (r.1.P + P) (r.1.H + H) U := by
  cases post with
  | done t =>
    simp only [Sherman.installRoot, bind_ok_iff] at h
    obtain ⟨_, _, h⟩ := h
    cases h
    exact ho.congr rfl rfl (by simp [Post.U])
  | newRoot l k kz rr =>
    simp only [Sherman.installRoot, bind_ok_iff] at h
    obtain ⟨⟨t', w2⟩, h3, _, _, h⟩ := h
    cases h
    simp only [makeNewParent, bind_ok_iff] at h3
    obtain ⟨_, _, _, h4, h3⟩ := h3
    cases h3
    refine (((((ho.link _ _).link _ _).alloc.link _ _).link _ _).resume w.next 0).congr ?_ ?_ rfl
    · simp only [Post.P, RleTree.P, treeP, nodeP, List.map_cons, List.map_nil, List.sum_cons, List.sum_nil, add_zero]
      ac_rfl
    · simp only [Post.H, RleTree.H, treeH, nodeH, keyH, List.map_cons, List.map_nil, List.sum_cons, List.sum_nil, add_zero]
      ac_rfl

theorem Own.new {E : Env I S} {s : S} {z : I} {r} (h : RleTree.new E s z w = .ok r) (ho : Own σ0 w P H U) :
    Own σ0 r.2 (r.1.P + P) (r.1.H + H) U := by
  simp only [RleTree.new, bind_ok_iff] at h
  obtain ⟨_, _, _, _, _, _, h⟩ := h
  cases h
  refine ho.alloc.congr ?_ ?_ rfl
  · simp [RleTree.P, treeP, newRoot, nodeP]
  · simp [RleTree.H, treeH, newRoot, nodeH, keyH, refH]

/-- An insertion that returns keeps the references pointing to their runs, never trips over the store, and gives new nodes
unused addresses. -/
theorem Own.insert {E : Env I S} {t : RleTree I S} {nop : Bool} {hints : List Nat} {idx : I} {s : S} {z : I} {r}
    (h : t.insert E nop hints idx s z w = .ok r) (ho : Own σ0 w (t.P + P) (t.H + H) U) :
    Own σ0 r.2.world (r.1.P + P) (r.1.H + H) U := by
  simp only [RleTree.insert, bind_ok_iff] at h
  obtain ⟨_, _, _, _, h⟩ := h
  split at h
  · rename_i hroot
    simp only [bind_ok_iff] at h
    obtain ⟨⟨t', w'⟩, h1, h⟩ := h
    have := Own.new h1 (ho.congr (P' := P) (H' := H) (by simp [RleTree.P, hroot]) (by simp [RleTree.H, hroot]) rfl)
    split at h
    · cases h
    · cases h; exact this
  · rename_i root hroot
    simp only [bind_ok_iff] at h
    obtain ⟨pt, h1, ⟨dlen, post, path, w'⟩, h2, h⟩ := h
    have e1 := findPoint_own h1
    have ho' := (ho.world (w' := { w with events := [], fst := none }) rfl rfl).congr (P' := pt.P + P) (H' := pt.H + H)
      (by rw [e1.2]; simp [RleTree.P, hroot, Ctx.P]) (by rw [e1.1]; simp [RleTree.H, hroot, Ctx.H]) rfl
    have e2 := Own.insertAt (σ0 := σ0) (P := P) (H := H) (U := U) h2 ho'
    split at h
    · simp only [bind_ok_iff] at h
      obtain ⟨_, _, h⟩ := h
      exact Own.installRoot h e2
    · exact Own.installRoot h e2

end
end Sherman
