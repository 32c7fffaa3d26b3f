import Verif.Links
import Verif.OwnInsert
import Verif.Cow
/-!
# Parent links during an insertion: the whole insertion
-/
namespace Sherman
variable {I S : Type} {Ht : Nat}

/-- The links of a result. -/
noncomputable def Post.F (tr : Nat → Prop) : Post I S Ht → Multiset Fact
  | .done t => treeF tr t + free (ptrT t)
  | .newRoot l _ _ r => treeF tr l + treeF tr r + free (ptrT l) + free (ptrT r)

/-- The links around and at the point found. -/
noncomputable def Point.F (tr : Nat → Prop) {Ht : Nat} : Point I S Ht → Multiset Fact
  | .edge leaf ctx _ _ _ => actF tr leaf + ctx.F tr (ptrT leaf)
  | .split _ n ctx _ _ => actF tr n + ctx.F tr (ptrT n)

/-- The links of a tree handle. -/
noncomputable def RleTree.F (tr : Nat → Prop) (t : RleTree I S) : Multiset Fact :=
  match t.root with
  | none => 0
  | some r => treeF tr r.tree + free (ptrT r.tree)

section
variable {md : Mode} {L0 : LinkMap} {w w' : World} {F : Multiset Fact} {G : Option Nat → Multiset Fact}

theorem plugNode_F {tr : Nat → Prop} {h : Nat} {ptr : Nat} {size : I} {keys : List (Key I S)} {kl kr : List (Tree I S h)} {t : Tree I S h}
    {up : Ctx I S Ht (h + 1)} :
    nodeF (treeF tr) (plugNode ptr size keys kl t kr) + up.F tr (some ptr) = treeF tr t + (Ctx.frame ptr size keys kl kr up).F tr (ptrT t) := by
  have e : (kl ++ t :: kr).length = kl.length + 1 + kr.length := by simp; omega
  have ea : HasPtr.addr t = ptrT t := rfl
  simp only [nodeF, plugNode, e, kidF_append, kidF, Ctx.F, List.map_append, List.map_cons, List.sum_append, List.sum_cons,
    Nat.zero_add, ea]
  ac_rfl

/-- All nodes from the one at `a` up to the root are tracked: their links are relied upon. -/
def Ctx.Tr (tr : Nat → Prop) : {h : Nat} → Ctx I S Ht h → Option Nat → Prop
  | _, .top, a => ∀ c, a = some c → tr c
  | _, .frame ptr _ _ _ _ up, a => (∀ c, a = some c → tr c) ∧ up.Tr tr (some ptr)

theorem Ctx.Tr.here {tr : Nat → Prop} {h : Nat} {ctx : Ctx I S Ht h} {a : Option Nat} (hT : ctx.Tr tr a) : ∀ c, a = some c → tr c := by
  cases ctx with
  | top => exact hT
  | frame => exact hT.1

theorem Ctx.Tr.move {tr : Nat → Prop} {h : Nat} {ctx : Ctx I S Ht h} {a b : Option Nat} (hT : ctx.Tr tr a)
    (hb : ∀ c, b = some c → tr c) : ctx.Tr tr b := by
  cases ctx with
  | top => exact hb
  | frame => exact ⟨hb, hT.2⟩

theorem opUp_F {tr : Nat → Prop} {ix : IdxOps I} {m : Maps I} {hd : Bool} {h : Nat} {ctx : Ctx I S Ht h} {t : Tree I S h} {o w : I}
    {path : List Nat} {r} (hr : opUp ix m hd ctx t o w path = .ok r) (hT : ctx.Tr tr (ptrT t)) :
    treeF tr r.1 + free (ptrT r.1) = treeF tr t + ctx.F tr (ptrT t) := by
  induction ctx generalizing o w path with
  | top => cases hr; rfl
  | frame ptr size keys kl kr up ih =>
    simp only [opUp, bind_ok_iff] at hr
    obtain ⟨⟨n', oldN⟩, h1, h2⟩ := hr
    have e1 := opStep_same h1
    have et : tr (Node.ptr n') := by rw [show Node.ptr n' = ptr from e1.1]; exact hT.2.here ptr rfl
    rw [ih h2 (hT.2.move fun c hc => by cases hc; exact et), ← plugNode_F (size := size), treeF_act et]
    simp only [actF] at e1 ⊢
    rw [e1.nodeF]
    congr 2
    exact congrArg some e1.1

theorem opKey_F {tr : Nat → Prop} {ix : IdxOps I} {m : Maps I} {hd : Bool} {h : Nat} {ctx : Ctx I S Ht (h + 1)} {n : Tree I S (h + 1)}
    {k : Nat} {ov : Option I} {o w : I} {path : List Nat} {r} (hr : opKey ix m hd ctx n k ov o w path = .ok r) (hT : ctx.Tr tr (ptrT n)) :
    treeF tr r.1 + free (ptrT r.1) = actF tr n + ctx.F tr (ptrT n) := by
  simp only [opKey, bind_ok_iff] at hr
  obtain ⟨⟨n', oldN⟩, h1, h2⟩ := hr
  have e1 := opStep_same h1
  have et : tr (Node.ptr n') := by rw [show Node.ptr n' = Node.ptr n from e1.1]; exact hT.here _ rfl
  rw [opUp_F h2 (hT.move fun c hc => by cases hc; exact et), treeF_act et]
  simp only [actF] at e1 ⊢
  rw [e1.nodeF]
  congr 2
  exact congrArg some e1.1

/-- A walk to the root along tracked nodes finds the parents. -/
theorem Lk.readUp {h : Nat} {ctx : Ctx I S Ht h} {a : Option Nat} (hT : ctx.Tr md.tr a) (ho : Lk md L0 w (ctx.F md.tr a + F)) :
    Lk md L0 (ctx.readUp a w) (ctx.F md.tr a + F) := by
  induction ctx generalizing a w F with
  | top => exact ho.top
  | frame ptr size keys kl kr up ih =>
    simp only [Ctx.F, Ctx.readUp] at ho ⊢
    have h0 := (ho.congr (G := hang a ptr kl.length + ({.arity keys.length (kl.length + 1 + kr.length)} + kidF ptr 0 kl +
      kidF ptr (kl.length + 1) kr + (kl.map (treeF md.tr)).sum + (kr.map (treeF md.tr)).sum + up.F md.tr (some ptr) + F)) (by ac_rfl)).up hT.1
    have h1 := ih hT.2 (h0.congr (G := up.F md.tr (some ptr) + (hang a ptr kl.length + ({.arity keys.length (kl.length + 1 + kr.length)} + kidF ptr 0 kl +
      kidF ptr (kl.length + 1) kr + (kl.map (treeF md.tr)).sum + (kr.map (treeF md.tr)).sum + F))) (by ac_rfl))
    exact h1.congr (by ac_rfl)

/-- The same, after which positions and sizes on the way have been changed. -/
theorem Lk.readKey {ix : IdxOps I} {m : Maps I} {hd : Bool} {h : Nat} {ctx : Ctx I S Ht (h + 1)} {n : Tree I S (h + 1)}
    {k : Nat} {ov : Option I} {o z : I} {path : List Nat} {r} (hr : opKey ix m hd ctx n k ov o z path = .ok r)
    (hT : ctx.Tr md.tr (ptrT n)) (ho : Lk md L0 w (actF md.tr n + ctx.F md.tr (ptrT n) + F)) :
    Lk md L0 (ctx.readUp (ptrT n) w) (treeF md.tr r.1 + free (ptrT r.1) + F) := by
  have h1 := Lk.readUp hT (ho.congr (G := ctx.F md.tr (ptrT n) + (actF md.tr n + F)) (by (try dsimp only); ac_rfl))
  refine h1.congr ?_
  rw [opKey_F hr hT]
  ac_rfl

theorem Lk.bubbleFinish {E : Env I S} {cb : Cb} {m : Maps I} {h : Nat} {ctx : Ctx I S Ht h}
    {b : Bubble I S (Tree I S h)} {hd : Bool} {path : List Nat} {r} (hr : bubbleFinish E cb m ctx b hd path w = .ok r)
    (hT : ctx.Tr md.tr (ptrT b.lhs)) (ho : Lk md L0 w (treeF md.tr b.lhs + treeF md.tr b.rhs + free (ptrT b.rhs) + ctx.F md.tr (ptrT b.lhs) + F)) :
    Lk md L0 r.2.2 (r.1.F md.tr + F) := by
  induction ctx generalizing hd path w with
  | top =>
    simp only [Sherman.bubbleFinish, bind_ok_iff] at hr
    obtain ⟨_, _, _, _, hr⟩ := hr
    cases hr
    simp only [Ctx.F] at ho
    exact (Lk.top (ho.congr (G := free (ptrT b.lhs) + (treeF md.tr b.lhs + treeF md.tr b.rhs + free (ptrT b.rhs) + F))
      (by (try dsimp only); ac_rfl))).congr (by simp only [Post.F]; ac_rfl)
  | frame ptr size keys kl kr up ih =>
    simp only [Sherman.bubbleFinish, bind_ok_iff] at hr
    obtain ⟨⟨hd', sh⟩, _, hr⟩ := hr
    have ho' : Lk md L0 (w.link (ptrT b.lhs) fun q => .up q ptr kl.length)
        (nodeF (treeF md.tr) (plugNode ptr size keys kl b.lhs kr) + treeF md.tr b.rhs + free (ptrT b.rhs) + (up.F md.tr (some ptr) + F)) := by
      have h0 : Lk md L0 w (hang (ptrT b.lhs) ptr kl.length + ({.arity keys.length (kl.length + 1 + kr.length)} + kidF ptr 0 kl +
          kidF ptr (kl.length + 1) kr + (kl.map (treeF md.tr)).sum + (kr.map (treeF md.tr)).sum + up.F md.tr (some ptr) +
          (treeF md.tr b.lhs + treeF md.tr b.rhs + free (ptrT b.rhs) + F))) := ho.congr (by simp only [Ctx.F]; ac_rfl)
      refine (h0.up hT.1).congr ?_
      rw [show nodeF (treeF md.tr) (plugNode ptr size keys kl b.lhs kr) + treeF md.tr b.rhs + free (ptrT b.rhs) + (up.F md.tr (some ptr) + F) =
        (nodeF (treeF md.tr) (plugNode ptr size keys kl b.lhs kr) + up.F md.tr (some ptr)) + (treeF md.tr b.rhs + free (ptrT b.rhs) + F) by ac_rfl,
        plugNode_F]
      simp only [Ctx.F]
      ac_rfl
    split at hr
    · simp only [bind_ok_iff] at hr
      obtain ⟨⟨n, ov, old, new, path', w1⟩, h1, ⟨t, path2⟩, h2, hr⟩ := hr
      cases hr
      have h3 := (Lk.bubbleRoom (fc := treeF md.tr) (G := fun a => up.F md.tr a + F + {.track a}) h1
        ((ho'.addTrack hT.2.here).congr (by ac_rfl))).congr (G := {.track (some n.ptr)} + (nodeF (treeF md.tr) n + (up.F md.tr (some n.ptr) + F)))
        (by (try dsimp only); ac_rfl)
      refine Lk.readKey h2 (hT.2.move h3.track) (h3.dropTrack.congr ?_)
      simp only [actF, ptrT]
      ac_rfl
    · simp only [bind_ok_iff] at hr
      obtain ⟨⟨b', path', w1⟩, h1, hr⟩ := hr
      have h2 := (Lk.bubbleSplit (fc := treeF md.tr) (G := fun a => up.F md.tr a + F + {.track a}) h1
        ((ho'.addTrack hT.2.here).congr (by ac_rfl))).congr (G := {.track (some b'.lhs.ptr)} + (nodeF (treeF md.tr) b'.lhs +
          nodeF (treeF md.tr) b'.rhs + free (some b'.rhs.ptr) + (up.F md.tr (some b'.lhs.ptr) + F))) (by (try dsimp only); ac_rfl)
      have t1 := h2.track _ rfl
      have t2 := Lk.orphan (h2.dropTrack.congr (G := free (some b'.rhs.ptr) + (nodeF (treeF md.tr) b'.lhs +
          nodeF (treeF md.tr) b'.rhs + (up.F md.tr (some b'.lhs.ptr) + F))) (by (try dsimp only); ac_rfl)) _ rfl
      refine ih hr (hT.2.move h2.track) (h2.dropTrack.congr ?_)
      rw [treeF_act (n := b'.lhs) t1, treeF_act (n := b'.rhs) t2]
      simp only [actF, ptrT]
      ac_rfl

theorem Lk.leafInsert {E : Env I S} {n n' : Tree I S 1} {i : Nat} {s : S} {pos : I}
    (h : leafInsert E n i s w = .ok (n', pos, w')) (ho : Lk md L0 w (actF md.tr n + G (ptrT n))) :
    Lk md L0 w' (actF md.tr n' + G (ptrT n')) :=
  Lk.insertKC (fc := treeF md.tr) h (.free _) (ho.congr (by simp only [treeF]; change _ = _ + 0 + 0 + _; rw [add_zero, add_zero]; rfl))

theorem Lk.leafPush {E : Env I S} {n n' : Tree I S 1} {s : S} {r : Option Nat} {z : I}
    (h : leafPush E n s r z w = .ok (n', w')) (ho : Lk md L0 w (actF md.tr n + G (ptrT n))) :
    Lk md L0 w' (actF md.tr n' + G (ptrT n')) :=
  Lk.pushKC (fc := treeF md.tr) h (.free _) (ho.congr (by simp only [treeF]; change _ = _ + 0 + 0 + _; rw [add_zero, add_zero]; rfl))

theorem Lk.leafSame {n n' : Tree I S 1} (h : SameRefs n' n) (ho : Lk md L0 w (actF md.tr n + G (ptrT n))) :
    Lk md L0 w (actF md.tr n' + G (ptrT n')) := Lk.same (fc := treeF md.tr) h ho

/-- The links of a state that bubbles up. -/
def Bubble.Linked (md : Mode) (L0 : LinkMap) (w : World) (G : Option Nat → Multiset Fact) {h : Nat} (b : Bubble I S (Tree I S (h + 1))) : Prop :=
  Lk md L0 w (actF md.tr b.lhs + actF md.tr b.rhs + free (ptrT b.rhs) + G (ptrT b.lhs))

theorem Lk.leafSplitSmall {E : Env I S} {cb : Cb} {n : Tree I S 1} {i : Nat} {ov : Option I} {f s : Sized I S} {r}
    (h : leafSplitSmall E cb n i ov f s w = .ok r) (ho : Lk md L0 w (actF md.tr n + G (ptrT n))) : r.1.Linked md L0 r.2 G := by
  simp only [Sherman.leafSplitSmall, bind_ok_iff] at h
  obtain ⟨_, _, _, _, _, _, _, _, ⟨n1, mid, rhs, w1⟩, h1, h⟩ := h
  have h2 := Lk.split (fc := treeF md.tr) h1 ho
  split at h
  · simp only [bind_ok_iff] at h
    obtain ⟨⟨n3, w3⟩, h3, ⟨rhs4, w4⟩, h4, w5, h5, w6, h6, h⟩ := h
    cases h
    have k3 := Lk.leafPush (G := fun a => actF md.tr (h := 0) rhs + free (some rhs.ptr) + G a) h3
      (h2.congr (by simp only [actF, nodeF, ptrT]; ac_rfl))
    have k4 := Lk.leafPush (G := fun a => actF md.tr n3 + free a + G (ptrT n3)) h4
      (k3.congr (by simp only [actF, nodeF, ptrT]; ac_rfl))
    refine ((k4.emit h5).emit h6).congr ?_
    ac_rfl
  · simp only [bind_ok_iff] at h
    obtain ⟨⟨n3, w3⟩, h3, ⟨rhs4, w4⟩, h4, h⟩ := h
    cases h
    have k3 := Lk.leafPush (G := fun a => actF md.tr (h := 0) rhs + free (some rhs.ptr) + G a) h3
      (h2.congr (by simp only [actF, nodeF, ptrT]; ac_rfl))
    have k4 := Lk.leafPush (G := fun a => actF md.tr n3 + free a + G (ptrT n3)) h4
      (k3.congr (by simp only [actF, nodeF, ptrT]; ac_rfl))
    refine k4.congr ?_
    ac_rfl

theorem Lk.leafInsertHalf {E : Env I S} {cb : Cb} {n : Tree I S 1} {i : Nat} {ov : Option I} {f : Sized I S}
    {s : Option (Sized I S)} {r} (h : leafInsertHalf E cb n i ov f s w = .ok r)
    (ho : Lk md L0 w (actF md.tr n + G (ptrT n))) : Lk md L0 r.2 (actF md.tr r.1 + G (ptrT r.1)) := by
  cases ov with
  | none =>
    simp only [Sherman.leafInsertHalf, R.pure_eq, R.bind_ok, bind_ok_iff] at h
    obtain ⟨⟨n1, _, w1⟩, h1, _, _, n2, h2, _, _, h⟩ := h
    have k1 := (Lk.leafInsert h1 ho).leafSame (setKeyPos_same h2)
    cases s with
    | none =>
      simp only [R.pure_eq, R.bind_ok, bind_ok_iff] at h
      obtain ⟨n3, h3, _, _, _, h4, h⟩ := h
      cases h
      exact (k1.leafSame (shiftKeys_same h3)).emit h4
    | some s =>
      simp only [R.pure_eq, R.bind_ok, bind_ok_iff] at h
      obtain ⟨⟨n3, _, w3⟩, h3, _, _, _, _, n4, h4, n5, h5, _, _, _, h6, h⟩ := h
      cases h
      exact (((Lk.leafInsert h3 k1).leafSame (setKeyPos_same h4)).leafSame (shiftKeys_same h5)).emit h6
  | some z =>
    simp only [Sherman.leafInsertHalf, R.pure_eq, R.bind_ok, bind_ok_iff] at h
    obtain ⟨_, _, p, _, ss, _, ⟨n1, _, w1⟩, h1, _, _, n2, h2, _, _, h⟩ := h
    have k1 := (Lk.leafInsert h1 ho).leafSame (setKeyPos_same h2)
    cases s with
    | none =>
      simp only [R.pure_eq, R.bind_ok, bind_ok_iff] at h
      obtain ⟨n3, h3, _, _, _, h4, h⟩ := h
      cases h
      exact (k1.leafSame (shiftKeys_same h3)).emit h4
    | some s =>
      simp only [R.pure_eq, R.bind_ok, bind_ok_iff] at h
      obtain ⟨⟨n3, _, w3⟩, h3, _, _, _, _, n4, h4, n5, h5, _, _, _, h6, h⟩ := h
      cases h
      exact (((Lk.leafInsert h3 k1).leafSame (setKeyPos_same h4)).leafSame (shiftKeys_same h5)).emit h6

theorem Lk.prependSnd {E : Env I S} {n : Tree I S 1} {s : Option (Sized I S)} {r} (h : prependSnd E n s w = .ok r)
    (ho : Lk md L0 w (actF md.tr n + G (ptrT n))) : Lk md L0 r.2 (actF md.tr r.1 + G (ptrT r.1)) := by
  cases s with
  | none => cases h; exact ho
  | some s =>
    simp only [Sherman.prependSnd, bind_ok_iff] at h
    obtain ⟨⟨n1, _, w1⟩, h1, n2, h2, h⟩ := h
    cases h
    exact (Lk.leafInsert h1 ho).leafSame (shiftKeys_same h2)

theorem Lk.splitPlace {E : Env I S} {cb : Cb} {at_ : Side ⊕ Side} {n rhs : Tree I S 1} {key : Key I S}
    {kz rs on : I} {i mid : Nat} {ov : Option I} {f : Sized I S} {s : Option (Sized I S)} {r}
    (h : splitPlace E cb at_ n key kz rhs rs on i mid ov f s w = .ok r)
    (ho : Lk md L0 w (actF md.tr n + actF md.tr rhs + free (ptrT rhs) + G (ptrT n))) : r.1.Linked md L0 r.2 G := by
  unfold Sherman.splitPlace at h
  split at h
  · simp only [bind_ok_iff] at h
    obtain ⟨_, _, ⟨n1, w1⟩, h1, _, _, w2, h2, ⟨rhs3, w3⟩, h3, h⟩ := h
    cases h
    have k1 := Lk.leafPush (G := fun a => actF md.tr rhs + free (ptrT rhs) + G a) h1 (ho.congr (by (try dsimp only); ac_rfl))
    have k3 := Lk.prependSnd (G := fun a => actF md.tr n1 + free a + G (ptrT n1)) h3 ((k1.emit h2).congr (by (try dsimp only); ac_rfl))
    exact k3.congr (by (try dsimp only); ac_rfl)
  · split at h
    · cases h
    · simp only [bind_ok_iff] at h
      obtain ⟨_, _, _, _, ⟨n1, w1⟩, h1, ⟨n2, w2⟩, h2, _, _, _, _, w3, h3, w4, h4, h⟩ := h
      cases h
      have k1 := Lk.leafPush (G := fun a => actF md.tr rhs + free (ptrT rhs) + G a) h1 (ho.congr (by (try dsimp only); ac_rfl))
      have k2 := Lk.leafPush (G := fun a => actF md.tr rhs + free (ptrT rhs) + G a) h2 k1
      exact ((k2.emit h3).emit h4).congr (by (try dsimp only); ac_rfl)
  · simp only [bind_ok_iff] at h
    obtain ⟨⟨n1, w1⟩, h1, h⟩ := h
    cases h
    have k1 := Lk.leafInsertHalf (G := fun a => actF md.tr rhs + free (ptrT rhs) + G a) h1 (ho.congr (by (try dsimp only); ac_rfl))
    exact k1.congr (by (try dsimp only); ac_rfl)
  · simp only [bind_ok_iff] at h
    obtain ⟨_, _, ⟨n1, w1⟩, h1, h⟩ := h
    cases h
    have k1 := Lk.leafInsertHalf (G := fun a => actF md.tr n + free a + G (ptrT n)) h1 (ho.congr (by (try dsimp only); ac_rfl))
    exact k1.congr (by (try dsimp only); ac_rfl)

theorem Lk.leafSplit {E : Env I S} {cb : Cb} {n : Tree I S 1} {i : Nat} {ov : Option I} {f : Sized I S}
    {s : Option (Sized I S)} {r} (h : leafSplit E cb n i ov f s w = .ok r)
    (ho : Lk md L0 w (actF md.tr n + G (ptrT n))) : r.1.Linked md L0 r.2 G := by
  unfold Sherman.leafSplit at h
  split at h
  · split at h
    · cases h
    · exact Lk.leafSplitSmall h ho
  · simp only [bind_ok_iff] at h
    obtain ⟨⟨mid, at_⟩, _, ⟨n1, key, rhs, w1⟩, h1, w2, h2, w3, h3, ⟨kz, ov'⟩, _, rhs', h4, h⟩ := h
    have k1 := Lk.split (fc := treeF md.tr) h1 ho
    have s4 := shiftKeys_same h4
    have s5 : SameRefs { n1 with size := key.pos } n1 := ⟨rfl, rfl, rfl⟩
    refine Lk.splitPlace h (((k1.emit h2).emit h3).congr ?_)
    simp only [actF, ptrT]
    rw [s4.nodeF, s5.nodeF, s4.1]

theorem Lk.leafRoom {E : Env I S} {cb : Cb} {n : Tree I S 1} {i : Nat} {ov : Option I} {f : Sized I S}
    {s : Option (Sized I S)} {ad : I} {r} (h : leafRoom E cb n i ov f s ad w = .ok r)
    (ho : Lk md L0 w (actF md.tr n + G (ptrT n))) : Lk md L0 r.2.2.2.2 (actF md.tr r.1 + G (ptrT r.1)) := by
  simp only [Sherman.leafRoom, bind_ok_iff] at h
  cases ov with
  | some nl =>
    simp only [bind_ok_iff] at h
    obtain ⟨_, _, _, _, _, _, _, _, ⟨n1, _, w1⟩, h1, n2, h2, h⟩ := h
    have k1 := (Lk.leafInsert h1 ho).leafSame (setKeyPos_same h2)
    cases s with
    | none =>
      simp only [bind_ok_iff, R.pure_eq, R.bind_ok] at h
      obtain ⟨_, _, _, _, _, h5, h⟩ := h
      cases h
      exact k1.emit h5
    | some s =>
      simp only [bind_ok_iff, R.pure_eq, R.bind_ok] at h
      obtain ⟨⟨n3, _, w3⟩, h3, _, _, n4, h4, _, _, _, _, _, h5, h⟩ := h
      cases h
      exact ((Lk.leafInsert h3 k1).leafSame (setKeyPos_same h4)).emit h5
  | none =>
    simp only [bind_ok_iff] at h
    obtain ⟨⟨n1, _, w1⟩, h1, h⟩ := h
    have k1 := Lk.leafInsert h1 ho
    cases s with
    | none =>
      simp only [bind_ok_iff, R.pure_eq, R.bind_ok] at h
      obtain ⟨_, _, _, h5, h⟩ := h
      cases h
      exact k1.emit h5
    | some s =>
      simp only [bind_ok_iff, R.pure_eq, R.bind_ok] at h
      obtain ⟨⟨n3, _, w3⟩, h3, _, _, n4, h4, _, _, _, h5, h⟩ := h
      cases h
      exact ((Lk.leafInsert h3 k1).leafSame (setKeyPos_same h4)).emit h5

theorem Lk.noJoin {E : Env I S} {cb : Cb} {m : Maps I} {n : Tree I S 1} {ctx : Ctx I S Ht 1} {i : Nat}
    {ov : Option I} {f : Sized I S} {s : Option (Sized I S)} {r}
    (h : noJoin E cb m n ctx i ov f s w = .ok r) (hT : ctx.Tr md.tr (ptrT n)) (ho : Lk md L0 w (actF md.tr n + ctx.F md.tr (ptrT n) + F)) :
    Lk md L0 r.2.2 (r.1.F md.tr + F) := by
  simp only [Sherman.noJoin, bind_ok_iff] at h
  obtain ⟨_, _, _, _, h⟩ := h
  have key : ∀ (one : Nat) (ad : I), ((usub (2 * E.M) one >>= fun lim => if Node.len n ≥ lim then do
      let (b, w) ← Sherman.leafSplit E cb n i ov f s w
      Sherman.bubbleFinish E cb m ctx b false [] w
    else do
      let (n, ovPos, old, new, w) ← Sherman.leafRoom E cb n i ov f s ad w
      let (t, path) ← opKey E.ix m false ctx n (i + one) ovPos old new []
      pure (.done t, path, ctx.readUp (ptrT n) w)) = .ok r) → Lk md L0 r.2.2 (r.1.F md.tr + F) := by
    intro one ad h
    simp only [bind_ok_iff] at h
    obtain ⟨_, _, h⟩ := h
    split at h
    · simp only [bind_ok_iff] at h
      obtain ⟨⟨b, w1⟩, h1, h⟩ := h
      have k1 := Lk.congr (G := {.track (ptrT b.lhs)} + (free (ptrT b.rhs) + (actF md.tr b.lhs + actF md.tr b.rhs + ctx.F md.tr (ptrT b.lhs) + F)))
        (Lk.leafSplit (G := fun a => ctx.F md.tr a + F + {.track a}) h1 ((ho.addTrack hT.here).congr (by (try dsimp only); ac_rfl)))
        (by (try dsimp only); ac_rfl)
      refine Lk.bubbleFinish h (hT.move k1.track) (k1.dropTrack.congr ?_)
      rw [treeF_act (k1.track _ rfl), treeF_act (k1.dropTrack.orphan _ rfl)]
      ac_rfl
    · simp only [bind_ok_iff] at h
      obtain ⟨⟨n1, _, _, _, w1⟩, h1, ⟨t, path⟩, h2, h⟩ := h
      cases h
      have k1 := Lk.congr (G := {.track (ptrT n1)} + (actF md.tr n1 + ctx.F md.tr (ptrT n1) + F))
        (Lk.leafRoom (G := fun a => ctx.F md.tr a + F + {.track a}) h1 ((ho.addTrack hT.here).congr (by (try dsimp only); ac_rfl)))
        (by (try dsimp only); ac_rfl)
      exact Lk.readKey h2 (hT.move k1.track) k1.dropTrack
  cases s with
  | none => exact key 0 f.size h
  | some s =>
    simp only [bind_ok_iff, R.pure_eq, R.bind_ok] at h
    obtain ⟨ad, _, h⟩ := h
    exact key 1 ad (by simpa only [bind_ok_iff, R.pure_eq, R.bind_ok] using h)

theorem climb_F {tr : Nat → Prop} {h k : Nat} {t : Tree I S (h + 1)} {ctx : Ctx I S Ht (h + 1)} {r} (hr : climb k t ctx = .ok r)
    (hT : ctx.Tr tr (ptrT t)) :
    actF tr r.2.1 + r.2.2.F tr (ptrT r.2.1) = actF tr t + ctx.F tr (ptrT t) := by
  induction k generalizing h with
  | zero => cases hr; rfl
  | succ k ih =>
    cases ctx with
    | top => cases hr
    | frame ptr size keys kl kr up =>
      rw [ih (h := h + 1) hr hT.2, ← treeF_act (hT.1 _ rfl)]
      exact plugNode_F

theorem climb_Tr {tr : Nat → Prop} {h k : Nat} {t : Tree I S (h + 1)} {ctx : Ctx I S Ht (h + 1)} {r} (hr : climb k t ctx = .ok r)
    (hT : ctx.Tr tr (ptrT t)) : r.2.2.Tr tr (ptrT r.2.1) := by
  induction k generalizing h with
  | zero => cases hr; exact hT
  | succ k ih =>
    cases ctx with
    | top => cases hr
    | frame ptr size keys kl kr up => exact ih (h := h + 1) hr hT.2

theorem Lk.finishJoin {E : Env I S} {leaf : Tree I S 1} {ctx : Ctx I S Ht 1} {hd : Nat × Nat} {o n : I} {r}
    (h : finishJoin E leaf ctx hd o n w = .ok r) (hT : ctx.Tr md.tr (ptrT leaf)) (ho : Lk md L0 w (actF md.tr leaf + ctx.F md.tr (ptrT leaf) + F)) :
    Lk md L0 r.2.2 (r.1.F md.tr + F) := by
  simp only [Sherman.finishJoin, bind_ok_iff] at h
  obtain ⟨⟨g, n1, cx⟩, h1, w1, h3, ⟨t, path⟩, h2, h⟩ := h
  cases h
  have e1 := climb_F h1 hT
  exact Lk.readKey h2 (climb_Tr h1 hT) ((ho.emit h3).congr (by rw [← e1]))

theorem setSliceUp_F {tr : Nat → Prop} {n h : Nat} {ctx ctx' : Ctx I S Ht h} {k : Nat} {s : S} {a : Option Nat}
    (hr : setSliceUp n ctx k s = .ok ctx') : ctx'.F tr a = ctx.F tr a := by
  induction n generalizing h a with
  | zero =>
    cases ctx with
    | top => cases hr
    | frame ptr size keys kl kr up =>
      simp only [setSliceUp] at hr
      split at hr
      · cases hr
      · cases hr
        simp only [Ctx.F, List.length_set]
  | succ n ih =>
    cases ctx with
    | top => cases hr
    | frame ptr size keys kl kr up =>
      simp only [setSliceUp, bind_ok_iff] at hr
      obtain ⟨up', h1, hr⟩ := hr
      cases hr
      simp only [Ctx.F, ih h1]

theorem setSliceUp_Tr {tr : Nat → Prop} {n h : Nat} {ctx ctx' : Ctx I S Ht h} {k : Nat} {s : S} {a : Option Nat}
    (hr : setSliceUp n ctx k s = .ok ctx') (hT : ctx.Tr tr a) : ctx'.Tr tr a := by
  induction n generalizing h a with
  | zero =>
    cases ctx with
    | top => cases hr
    | frame ptr size keys kl kr up =>
      simp only [setSliceUp] at hr
      split at hr
      · cases hr
      · cases hr; exact hT
  | succ n ih =>
    cases ctx with
    | top => cases hr
    | frame ptr size keys kl kr up =>
      simp only [setSliceUp, bind_ok_iff] at hr
      obtain ⟨up', h1, hr⟩ := hr
      cases hr
      exact ⟨hT.1, ih h1 hT.2⟩

theorem setSliceAt_Tr {tr : Nat → Prop} {leaf : Tree I S 1} {ctx : Ctx I S Ht 1} {hd : Nat × Nat} {s : S} {r}
    (hr : Sherman.setSliceAt leaf ctx hd s = .ok r) (hT : ctx.Tr tr (ptrT leaf)) : r.2.Tr tr (ptrT r.1) := by
  obtain ⟨n, k⟩ := hd
  cases n with
  | zero =>
    simp only [Sherman.setSliceAt, bind_ok_iff] at hr
    obtain ⟨n', h1, hr⟩ := hr
    cases hr
    have e := (setSlice_same h1).1
    exact hT.move fun c hc => hT.here c (by rw [← hc]; exact congrArg some e.symm)
  | succ n =>
    simp only [Sherman.setSliceAt, bind_ok_iff] at hr
    obtain ⟨n', h1, hr⟩ := hr
    cases hr
    exact setSliceUp_Tr h1 hT

theorem Lk.setSliceAt {leaf : Tree I S 1} {ctx : Ctx I S Ht 1} {hd : Nat × Nat} {s : S} {r}
    (hr : Sherman.setSliceAt leaf ctx hd s = .ok r) (ho : Lk md L0 w (actF md.tr leaf + ctx.F md.tr (ptrT leaf) + F)) :
    Lk md L0 w (actF md.tr r.1 + r.2.F md.tr (ptrT r.1) + F) := by
  obtain ⟨n, k⟩ := hd
  cases n with
  | zero =>
    simp only [Sherman.setSliceAt, bind_ok_iff] at hr
    obtain ⟨n', h1, hr⟩ := hr
    cases hr
    have e := setSlice_same h1
    exact (Lk.leafSame (G := fun a => ctx.F md.tr a + F) e (ho.congr (by (try dsimp only); ac_rfl))).congr (by (try dsimp only); ac_rfl)
  | succ n =>
    simp only [Sherman.setSliceAt, bind_ok_iff] at hr
    obtain ⟨n', h1, hr⟩ := hr
    cases hr
    exact ho.congr (by simp only []; rw [setSliceUp_F h1])

theorem Lk.tryJoinEdge {E : Env I S} {leaf : Tree I S 1} {ctx : Ctx I S Ht 1} {l r : Option (Nat × Nat)} {s : S}
    {z : I} {x} (h : tryJoinEdge E leaf ctx l r s z w = .ok x) (hT : ctx.Tr md.tr (ptrT leaf))
    (ho : Lk md L0 w (actF md.tr leaf + ctx.F md.tr (ptrT leaf) + F)) :
    match x with
    | .inl p => Lk md L0 p.2.2 (p.1.F md.tr + F)
    | .inr (leaf, ctx, _) => Lk md L0 w (actF md.tr leaf + ctx.F md.tr (ptrT leaf) + F) ∧ ctx.Tr md.tr (ptrT leaf) := by
  unfold Sherman.tryJoinEdge at h
  split at h
  · cases h; exact ⟨ho, hT⟩
  · split at h
    · cases h
    · simp only [bind_ok_iff] at h
      obtain ⟨_, _, h⟩ := h
      split at h
      · simp only [bind_ok_iff] at h
        obtain ⟨_, h1, _, _, _, h2, h⟩ := h
        cases h
        exact Lk.finishJoin h2 (setSliceAt_Tr h1 hT) (Lk.setSliceAt h1 ho)
      · simp only [bind_ok_iff] at h
        obtain ⟨_, h1, h⟩ := h
        cases h
        exact ⟨Lk.setSliceAt h1 ho, setSliceAt_Tr h1 hT⟩
    · simp only [bind_ok_iff] at h
      obtain ⟨_, _, h⟩ := h
      split at h
      · simp only [bind_ok_iff] at h
        obtain ⟨_, h1, _, _, _, h2, h⟩ := h
        cases h
        exact Lk.finishJoin h2 (setSliceAt_Tr h1 hT) (Lk.setSliceAt h1 ho)
      · simp only [bind_ok_iff] at h
        obtain ⟨_, h1, h⟩ := h
        cases h
        exact ⟨Lk.setSliceAt h1 ho, setSliceAt_Tr h1 hT⟩
    · simp only [bind_ok_iff] at h
      obtain ⟨_, _, _, _, h⟩ := h
      split at h
      · simp only [bind_ok_iff] at h
        obtain ⟨_, _, h⟩ := h
        split at h
        · cases h
        · simp only [bind_ok_iff] at h
          obtain ⟨_, h1, _, h3, _, h2, h⟩ := h
          cases h
          exact Lk.finishJoin h2 (setSliceAt_Tr h3 (setSliceAt_Tr h1 hT)) (Lk.setSliceAt h3 (Lk.setSliceAt h1 ho))
      · simp only [bind_ok_iff] at h
        obtain ⟨_, h1, h⟩ := h
        split at h
        · simp only [bind_ok_iff] at h
          obtain ⟨_, h3, _, _, _, h2, h⟩ := h
          cases h
          exact Lk.finishJoin h2 (setSliceAt_Tr h3 (setSliceAt_Tr h1 hT)) (Lk.setSliceAt h3 (Lk.setSliceAt h1 ho))
        · simp only [bind_ok_iff] at h
          obtain ⟨_, h3, h⟩ := h
          cases h
          exact ⟨Lk.setSliceAt h3 (Lk.setSliceAt h1 ho), setSliceAt_Tr h3 (setSliceAt_Tr h1 hT)⟩

theorem Lk.insertEdge {E : Env I S} {leaf : Tree I S 1} {ctx : Ctx I S Ht 1} {i : Nat} {l r : Option (Nat × Nat)} {s : S}
    {z : I} {x} (h : insertEdge E leaf ctx i l r s z w = .ok x) (hT : ctx.Tr md.tr (ptrT leaf))
    (ho : Lk md L0 w (actF md.tr leaf + ctx.F md.tr (ptrT leaf) + F)) :
    Lk md L0 x.2.2.2 (x.2.1.F md.tr + F) := by
  simp only [Sherman.insertEdge, bind_ok_iff] at h
  obtain ⟨_, _, y, h1, h⟩ := h
  have := Lk.tryJoinEdge h1 hT ho
  split at h
  · cases h; exact this
  · simp only [bind_ok_iff] at h
    obtain ⟨_, h2, h⟩ := h
    cases h
    exact Lk.noJoin h2 this.2 this.1

theorem child_F {tr : Nat → Prop} {h : Nat} {n : Tree I S (h + 2)} {ctx : Ctx I S Ht (h + 2)} {c : Nat} {ch : Tree I S (h + 1)}
    (hc : Node.child n c = .ok ch) (ht : tr (Node.ptr ch)) :
    actF tr ch + (Ctx.frame (Node.ptr n) (Node.size n) (Node.keys n) ((Node.kids n).take c) ((Node.kids n).drop (c + 1)) ctx).F
      tr (ptrT ch) = actF tr n + ctx.F tr (ptrT n) := by
  unfold Node.child at hc
  split at hc
  · rename_i c' hk
    cases hc
    obtain ⟨h1, h2⟩ := List.getElem?_eq_some_iff.mp hk
    have e : n.kids = n.kids.take c ++ ch :: n.kids.drop (c + 1) := by
      conv_lhs => rw [← List.take_append_drop c n.kids, List.drop_eq_getElem_cons h1, h2]
    rw [← treeF_act ht, ← plugNode_F]
    have : plugNode n.ptr n.size n.keys (n.kids.take c) ch (n.kids.drop (c + 1)) = n := by
      simp only [plugNode, ← e]
      rfl
    rw [this]
    rfl
  · cases hc

/-- All nodes on the way down from a node along these child indices are tracked. -/
def WayTr (tr : Nat → Prop) : {h : Nat} → List Nat → Tree I S h → Prop
  | 0, _, _ => True
  | _ + 1, [], n => tr n.ptr
  | _ + 1, c :: path, n => tr n.ptr ∧ ∀ ch, n.kids[c]? = some ch → WayTr tr path ch

theorem WayTr.here {tr : Nat → Prop} {h : Nat} {path : List Nat} {t : Tree I S h} (hW : WayTr tr path t) : ∀ c, ptrT t = some c → tr c := by
  cases h with
  | zero => intro c hc; cases hc
  | succ h =>
    intro c hc
    cases hc
    cases path with
    | nil => exact hW
    | cons => exact hW.1

theorem WayTr.same {tr : Nat → Prop} {h : Nat} {path : List Nat} {n n' : Tree I S (h + 1)} (e1 : Node.ptr n' = Node.ptr n)
    (e2 : Node.kids n' = Node.kids n) (hW : WayTr tr path n) : WayTr tr path n' := by
  cases path with
  | nil => simp only [WayTr, e1] at hW ⊢; exact hW
  | cons => simp only [WayTr, e1, e2] at hW ⊢; exact hW

theorem child_get {C : Type} {n : Node I S C} {c : Nat} {ch : C} (h : n.child c = .ok ch) : n.kids[c]? = some ch := by
  unfold Node.child at h
  split at h
  · rename_i hk; cases h; exact hk
  · cases h

theorem descend_F {tr : Nat → Prop} {h : Nat} {n : Tree I S (h + 1)} {ctx : Ctx I S Ht (h + 1)} {r} (hr : descend n ctx = .ok r)
    (hW : WayTr tr (List.replicate h 0) n) :
    actF tr r.1 + r.2.F tr (ptrT r.1) = actF tr n + ctx.F tr (ptrT n) := by
  induction h with
  | zero => cases hr; rfl
  | succ h ih =>
    simp only [descend, bind_ok_iff] at hr
    obtain ⟨x, h1, hr⟩ := hr
    have := hW.2 _ (child_get h1)
    exact (ih hr this).trans (child_F (ctx := ctx) h1 (this.here _ rfl))

theorem rhsLeaf_F {tr : Nat → Prop} {h k : Nat} {n : Tree I S (h + 1)} {ctx : Ctx I S Ht (h + 1)} {r} (hr : rhsLeaf n ctx k = .ok r)
    (hW : WayTr tr (rhsWay h k) n) :
    actF tr r.1 + r.2.1.F tr (ptrT r.1) = actF tr n + ctx.F tr (ptrT n) := by
  cases h with
  | zero => cases hr; rfl
  | succ h =>
    simp only [rhsLeaf, bind_ok_iff] at hr
    obtain ⟨x, h1, _, h2, hr⟩ := hr
    cases hr
    have := hW.2 _ (child_get h1)
    exact (descend_F h2 this).trans (child_F (ctx := ctx) h1 (this.here _ rfl))

theorem descend_Tr {tr : Nat → Prop} {h : Nat} {n : Tree I S (h + 1)} {ctx : Ctx I S Ht (h + 1)} {r} (hr : descend n ctx = .ok r)
    (hT : ctx.Tr tr (ptrT n)) (hW : WayTr tr (List.replicate h 0) n) : r.2.Tr tr (ptrT r.1) := by
  induction h with
  | zero => cases hr; exact hT
  | succ h ih =>
    simp only [descend, bind_ok_iff] at hr
    obtain ⟨x, h1, hr⟩ := hr
    have := hW.2 _ (child_get h1)
    exact ih hr ⟨this.here, hT⟩ this

theorem rhsLeaf_Tr {tr : Nat → Prop} {h k : Nat} {n : Tree I S (h + 1)} {ctx : Ctx I S Ht (h + 1)} {r} (hr : rhsLeaf n ctx k = .ok r)
    (hT : ctx.Tr tr (ptrT n)) (hW : WayTr tr (rhsWay h k) n) : r.2.1.Tr tr (ptrT r.1) := by
  cases h with
  | zero => cases hr; exact hT
  | succ h =>
    simp only [rhsLeaf, bind_ok_iff] at hr
    obtain ⟨x, h1, _, h2, hr⟩ := hr
    cases hr
    have := hW.2 _ (child_get h1)
    exact descend_Tr h2 ⟨this.here, hT⟩ this

theorem Lk.insertRhs {E : Env I S} {h : Nat} {nop skip : Bool} {n : Tree I S (h + 1)} {ctx : Ctx I S Ht (h + 1)} {k : Nat}
    {newLhs : I} {lm : Bool} {f : Sized I S} {s : Option (Sized I S)} {r}
    (hr : insertRhs E nop skip n ctx k newLhs lm f s w = .ok r)
    (hT : ctx.Tr md.tr (ptrT n)) (hW : WayTr md.tr (rhsWay h k) n) (ho : Lk md L0 w (actF md.tr n + ctx.F md.tr (ptrT n) + F)) :
    Lk md L0 r.2.2 (r.1.F md.tr + F) := by
  simp only [Sherman.insertRhs, bind_ok_iff] at hr
  obtain ⟨_, _, _, _, ⟨leaf, cx, i⟩, h1, hr⟩ := hr
  have e := rhsLeaf_F h1 hW
  exact Lk.noJoin hr (rhsLeaf_Tr h1 hT hW) (ho.congr (by rw [← e]))

theorem Lk.setSliceN {h : Nat} {n n' : Tree I S (h + 1)} {ctx : Ctx I S Ht (h + 1)} {k : Nat} {s : S}
    (hs : Node.setSlice n k s = .ok n') (ho : Lk md L0 w (actF md.tr n + ctx.F md.tr (ptrT n) + F)) :
    Lk md L0 w (actF md.tr n' + ctx.F md.tr (ptrT n') + F) := by
  have e := setSlice_same hs
  refine ho.congr ?_
  simp only [actF, ptrT]; rw [e.nodeF, e.1]

theorem setSlice_Tr {h : Nat} {n n' : Tree I S (h + 1)} {ctx : Ctx I S Ht (h + 1)} {k : Nat} {s : S} {tr : Nat → Prop}
    (hs : Node.setSlice n k s = .ok n') (hT : ctx.Tr tr (ptrT n)) : ctx.Tr tr (ptrT n') :=
  hT.move fun c hc => hT.here c (by rw [← hc]; exact congrArg some (setSlice_same hs).1.symm)

theorem setSlice_Way {h : Nat} {n n' : Tree I S (h + 1)} {k : Nat} {s : S} {tr : Nat → Prop} {path : List Nat}
    (hs : Node.setSlice n k s = .ok n') (hW : WayTr tr path n) : WayTr tr path n' :=
  hW.same (setSlice_same hs).1 (setSlice_same hs).2.2

theorem Lk.insertSplit {E : Env I S} {h : Nat} {nop : Bool} {n : Tree I S (h + 1)} {ctx : Ctx I S Ht (h + 1)} {k : Nat} {p : I}
    {s : S} {z : I} {r} (hr : insertSplit E nop n ctx k p s z w = .ok r)
    (hT : ctx.Tr md.tr (ptrT n))
    (hW : ∀ key, Node.handle n k = .ok key → callsRhs E key.slice p s = true → WayTr md.tr (rhsWay h k) n)
    (ho : Lk md L0 w (actF md.tr n + ctx.F md.tr (ptrT n) + F)) :
    Lk md L0 r.2.2.2 (r.2.1.F md.tr + F) := by
  simp only [Sherman.insertSplit, bind_ok_iff] at hr
  obtain ⟨_, _, key, hk, n', h1, _, _, hr⟩ := hr
  have hW := hW key hk
  have e1 := Lk.setSliceN h1 ho
  have t1 := setSlice_Tr h1 hT
  split at hr
  · rename_i hj
    simp only [bind_ok_iff] at hr
    obtain ⟨_, h2, hr⟩ := hr
    cases hr
    exact Lk.insertRhs h2 t1 (setSlice_Way h1 (hW (by simp [callsRhs] at hj ⊢; simp [hj]))) e1
  · rename_i hj
    split at hr
    · rename_i mid hm
      simp only [bind_ok_iff] at hr
      obtain ⟨_, _, hr⟩ := hr
      split at hr
      · simp only [bind_ok_iff] at hr
        obtain ⟨n2, h2, _, h4, _, _, _, _, ⟨t, path⟩, h3, hr⟩ := hr
        cases hr
        exact Lk.readKey h3 (setSlice_Tr h2 t1) ((Lk.setSliceN h2 e1).emit h4)
      · rename_i hm2
        simp only [bind_ok_iff] at hr
        obtain ⟨n2, h2, _, h4, _, h3, hr⟩ := hr
        cases hr
        exact Lk.insertRhs h3 (setSlice_Tr h2 t1) (setSlice_Way h2 (setSlice_Way h1 (hW (by
          simp only [callsRhs, hm, hm2, ite_self])))) ((Lk.setSliceN h2 e1).emit h4)
    · rename_i hm
      simp only [bind_ok_iff] at hr
      obtain ⟨n2, h2, hr⟩ := hr
      have e2 := Lk.setSliceN h2 e1
      have w2 := setSlice_Way h2 (setSlice_Way h1 (hW (by simp only [callsRhs, hm, ite_self])))
      split at hr
      · simp only [bind_ok_iff] at hr
        obtain ⟨_, _, _, h3, hr⟩ := hr
        cases hr
        exact Lk.insertRhs h3 (setSlice_Tr h2 t1) w2 e2
      · simp only [bind_ok_iff] at hr
        obtain ⟨_, h3, hr⟩ := hr
        cases hr
        exact Lk.insertRhs h3 (setSlice_Tr h2 t1) w2 e2

/-- All nodes on the way to the point found, and on to the leaf right of it where the insertion goes there, are tracked. -/
def Point.Tr (E : Env I S) (s : S) (tr : Nat → Prop) : Point I S Ht → Prop
  | .edge leaf ctx _ _ _ => ctx.Tr tr (ptrT leaf)
  | .split g n ctx k d => ctx.Tr tr (ptrT n) ∧
    ∀ key, Node.handle n k = .ok key → callsRhs E key.slice d s = true → WayTr tr (rhsWay g k) n

/-- Child indices on the way to a point, and on from there. -/
def Point.downWay (E : Env I S) (s : S) : Point I S Ht → R (List Nat)
  | .edge _ ctx _ _ _ => pure ctx.way
  | .split g n ctx k d => do
    let key ← Node.handle n k
    if callsRhs E key.slice d s then pure (ctx.way ++ rhsWay g k) else pure ctx.way

theorem findPoint_Tr {E : Env I S} {tr : Nat → Prop} {s : S} {h : Nat} {n : Tree I S (h + 1)} {ctx : Ctx I S Ht (h + 1)}
    {hints : Option (List Nat)} {t : I} {l r : Option (Nat × Nat)} {pt} (hr : findPoint E n ctx hints t l r = .ok pt) :
    ∀ path, pt.downWay E s = .ok path → ∃ rest, path = ctx.way ++ rest ∧ (ctx.Tr tr (ptrT n) → WayTr tr rest n → pt.Tr E s tr) := by
  have split_case : ∀ {h : Nat} (n : Tree I S (h + 1)) (ctx : Ctx I S Ht (h + 1)) (k : Nat) (d : I) (path : List Nat),
      (Point.split h n ctx k d).downWay E s = .ok path → ∃ rest, path = ctx.way ++ rest ∧
        (ctx.Tr tr (ptrT n) → WayTr tr rest n → (Point.split h n ctx k d).Tr E s tr) := by
    intro h n ctx k d path hp
    simp only [Point.downWay, bind_ok_iff] at hp
    obtain ⟨key, h1, hp⟩ := hp
    split at hp
    · cases hp
      exact ⟨_, rfl, fun hT hW => ⟨hT, fun _ _ _ => hW⟩⟩
    · rename_i hc
      cases hp
      refine ⟨[], by simp, fun hT _ => ⟨hT, fun key' h2 h3 => ?_⟩⟩
      rw [h1] at h2; cases h2
      exact absurd h3 hc
  induction h generalizing hints t l r with
  | zero =>
    simp only [findPoint, bind_ok_iff] at hr
    obtain ⟨x, h1, hr⟩ := hr
    split at hr
    · simp only [bind_ok_iff] at hr
      obtain ⟨_, _, _, _, hr⟩ := hr
      cases hr
      exact split_case n ctx _ _
    · cases hr
      intro path hp
      cases hp
      exact ⟨[], by simp, fun hT _ => hT⟩
  | succ h ih =>
    simp only [findPoint, bind_ok_iff] at hr
    obtain ⟨x, h1, hr⟩ := hr
    split at hr
    · simp only [bind_ok_iff] at hr
      obtain ⟨_, _, _, _, hr⟩ := hr
      cases hr
      exact split_case n ctx _ _
    · simp only [bind_ok_iff] at hr
      obtain ⟨_, _, ch, h2, hr⟩ := hr
      intro path hp
      obtain ⟨rest, rfl, h3⟩ := ih hr path hp
      have hg := child_get h2
      have hl := (List.getElem?_eq_some_iff.1 hg).1
      refine ⟨_ :: rest, by simp only [Ctx.way, List.length_take, Nat.min_eq_left (Nat.le_of_lt hl), List.append_assoc, List.cons_append, List.nil_append]; rfl, fun hT hW => ?_⟩
      have := hW.2 _ hg
      exact h3 ⟨this.here, hT⟩ this

theorem findPoint_down {E : Env I S} {s : S} {h : Nat} {n : Tree I S (h + 1)} {ctx : Ctx I S Ht (h + 1)}
    {hints : Option (List Nat)} {t : I} {l r : Option (Nat × Nat)} {pt} (hr : findPoint E n ctx hints t l r = .ok pt) :
    ∃ path, pt.downWay E s = .ok path := by
  have split_case : ∀ {h : Nat} (n : Tree I S (h + 1)) (ctx : Ctx I S Ht (h + 1)) (k : Nat) (d : I) (key : Key I S),
      Node.handle n k = .ok key → ∃ path, (Point.split h n ctx k d).downWay E s = .ok path := by
    intro h n ctx k d key hk
    simp only [Point.downWay, hk, R.bind_ok]
    split
    · exact ⟨_, rfl⟩
    · exact ⟨_, rfl⟩
  induction h generalizing hints t l r with
  | zero =>
    simp only [findPoint, bind_ok_iff] at hr
    obtain ⟨x, h1, hr⟩ := hr
    split at hr
    · simp only [bind_ok_iff] at hr
      obtain ⟨_, h2, _, _, hr⟩ := hr
      cases hr
      exact split_case n ctx _ _ _ h2
    · cases hr
      exact ⟨_, rfl⟩
  | succ h ih =>
    simp only [findPoint, bind_ok_iff] at hr
    obtain ⟨x, h1, hr⟩ := hr
    split at hr
    · simp only [bind_ok_iff] at hr
      obtain ⟨_, h2, _, _, hr⟩ := hr
      cases hr
      exact split_case n ctx _ _ _ h2
    · simp only [bind_ok_iff] at hr
      obtain ⟨_, _, ch, h2, hr⟩ := hr
      exact ih hr

theorem findPoint_back {tr : Nat → Prop} {E : Env I S} {s : S} {h : Nat} {n : Tree I S (h + 1)} {ctx : Ctx I S Ht (h + 1)}
    {hints : Option (List Nat)} {t : I} {l r : Option (Nat × Nat)} {pt} (hr : findPoint E n ctx hints t l r = .ok pt)
    (hT : pt.Tr E s tr) : ctx.Tr tr (ptrT n) := by
  induction h generalizing hints t l r with
  | zero =>
    simp only [findPoint, bind_ok_iff] at hr
    obtain ⟨x, h1, hr⟩ := hr
    split at hr
    · simp only [bind_ok_iff] at hr
      obtain ⟨_, _, _, _, hr⟩ := hr
      cases hr; exact hT.1
    · cases hr; exact hT
  | succ h ih =>
    simp only [findPoint, bind_ok_iff] at hr
    obtain ⟨x, h1, hr⟩ := hr
    split at hr
    · simp only [bind_ok_iff] at hr
      obtain ⟨_, _, _, _, hr⟩ := hr
      cases hr; exact hT.1
    · simp only [bind_ok_iff] at hr
      obtain ⟨_, _, ch, h2, hr⟩ := hr
      exact (ih hr).2

theorem findPoint_F {tr : Nat → Prop} {E : Env I S} {s : S} {h : Nat} {n : Tree I S (h + 1)} {ctx : Ctx I S Ht (h + 1)} {hints : Option (List Nat)}
    {t : I} {l r : Option (Nat × Nat)} {pt} (hr : findPoint E n ctx hints t l r = .ok pt) (hT : pt.Tr E s tr) :
    pt.F tr = actF tr n + ctx.F tr (ptrT n) := by
  induction h generalizing hints t l r with
  | zero =>
    simp only [findPoint, bind_ok_iff] at hr
    obtain ⟨x, h1, hr⟩ := hr
    split at hr
    · simp only [bind_ok_iff] at hr
      obtain ⟨_, _, _, _, hr⟩ := hr
      cases hr; rfl
    · cases hr; rfl
  | succ h ih =>
    simp only [findPoint, bind_ok_iff] at hr
    obtain ⟨x, h1, hr⟩ := hr
    split at hr
    · simp only [bind_ok_iff] at hr
      obtain ⟨_, _, _, _, hr⟩ := hr
      cases hr; rfl
    · simp only [bind_ok_iff] at hr
      obtain ⟨_, _, ch, h2, hr⟩ := hr
      exact (ih hr).trans (child_F (ctx := ctx) h2 ((findPoint_back hr hT).here _ rfl))

/-- The nodes on the way of the insertion are tracked, the root has no parent: so are those at the point found. -/
theorem wayDown_Tr {E : Env I S} {tr : Nat → Prop} {s : S} {h : Nat} {n : Tree I S (h + 1)} {hints : List Nat} {t : I} {pt}
    (hr : findPoint E n (.top : Ctx I S (h + 1) (h + 1)) (some hints) t none none = .ok pt)
    (hW : ∀ path, wayDown E n hints t s = .ok path → WayTr tr path n) : pt.Tr E s tr := by
  obtain ⟨path, hp⟩ := findPoint_down (s := s) hr
  obtain ⟨rest, h1, h2⟩ := findPoint_Tr (tr := tr) hr path hp
  simp only [Ctx.way, List.nil_append] at h1
  subst h1
  have hw : wayDown E n hints t s = .ok path := by
    simp only [wayDown, hr, R.bind_ok]
    rw [← hp]
    cases pt <;> rfl
  have := hW path hw
  exact h2 this.here this

theorem Lk.insertAt {E : Env I S} {nop : Bool} {pt : Point I S Ht} {s : S} {z : I} {x}
    (h : insertAt E nop pt s z w = .ok x) (hT : pt.Tr E s md.tr) (ho : Lk md L0 w (pt.F md.tr + F)) :
    Lk md L0 x.2.2.2 (x.2.1.F md.tr + F) := by
  cases pt with
  | edge => exact Lk.insertEdge h hT ho
  | split => exact Lk.insertSplit h hT.1 hT.2 ho

theorem Lk.installRoot {E : Env I S} {H' len : Nat} {post : Post I S (H' + 1)} {path : List Nat} {handle : Option (Nat × Nat)}
    {r} (h : installRoot E len post path handle w = .ok r) (ho : Lk md L0 w (post.F md.tr + F)) : Lk md L0 r.2.world (r.1.F md.tr + F) := by
  cases post with
  | done t =>
    simp only [Sherman.installRoot, bind_ok_iff] at h
    obtain ⟨_, _, h⟩ := h
    cases h
    exact ho
  | newRoot l k kz rr =>
    simp only [Sherman.installRoot, bind_ok_iff] at h
    obtain ⟨⟨t', w2⟩, h3, _, _, h⟩ := h
    cases h
    simp only [makeNewParent, bind_ok_iff] at h3
    obtain ⟨_, _, _, h4, h3⟩ := h3
    cases h3
    simp only [Post.F] at ho
    have g1 := (ho.congr (G := free (ptrT l) + (free (ptrT rr) + (treeF md.tr l + treeF md.tr rr + F))) (by (try dsimp only); ac_rfl)).top
    have g2 := (g1.congr (G := free (ptrT rr) + (free (ptrT l) + (treeF md.tr l + treeF md.tr rr + F))) (by (try dsimp only); ac_rfl)).top.alloc
    have g3 := (g2.congr (G := free (ptrT l) + (free (ptrT rr) + (free (some w.next) + (treeF md.tr l + treeF md.tr rr + F))))
      (by (try dsimp only); ac_rfl)).set w.next 0
    have g4 := (g3.congr (G := free (ptrT rr) + (hang (ptrT l) w.next 0 + (free (some w.next) + (treeF md.tr l + treeF md.tr rr + F))))
      (by (try dsimp only); ac_rfl)).set w.next 1
    refine ((g4.addArity (k := 1) (n := 2) rfl).update k.ref w.next 0).congr ?_
    have et : md.tr w.next := ho.fresh _ (Nat.le_refl _)
    have en := fun (z : I) => treeF_act (n := ((⟨w.next, z, [⟨szT E.ix l, k.slice, k.ref⟩], [l, rr]⟩ : Node I S (Tree I S (H' + 1))) : Tree I S (H' + 2))) et
    simp only [RleTree.F]
    refine Eq.trans ?_ (congrArg (fun x => x + free (some w.next) + F) (en _)).symm
    change _ = {Fact.arity 1 2} + (hang (ptrT l) w.next 0 + (hang (ptrT rr) w.next 1 + 0)) + (treeF md.tr l + (treeF md.tr rr + 0)) +
      free (some w.next) + F
    rw [add_zero, add_zero]
    ac_rfl

theorem Lk.new {E : Env I S} {s : S} {z : I} {r} (h : RleTree.new E s z w = .ok r) (ho : Lk md L0 w F) :
    Lk md L0 r.2 (r.1.F md.tr + F) := by
  simp only [RleTree.new, bind_ok_iff] at h
  obtain ⟨_, _, _, _, _, _, h⟩ := h
  cases h
  refine (ho.alloc.addArity (k := 1) (n := 2) rfl).congr ?_
  have et : md.tr w.next := ho.fresh _ (Nat.le_refl _)
  have en := treeF_act (n := newRoot E.ix w.next s z) et
  simp only [RleTree.F]
  refine Eq.trans ?_ (congrArg (fun x => x + free (some w.next) + F) en).symm
  change _ = {Fact.arity 1 2} + (0 + (0 + 0)) + (0 + (0 + 0)) + free (some w.next) + F
  simp only [add_zero]
  ac_rfl

/-- An insertion that returns has found every parent it looked for where the tree says it is, if the links of the nodes on its
way down were right.  Afterwards every node's link is that of its real place or, if the node is not tracked, what it was before. -/
theorem Lk.insert {E : Env I S} {t : RleTree I S} {nop : Bool} {hints : List Nat} {idx : I} {s : S} {z : I} {r}
    (h : t.insert E nop hints idx s z w = .ok r)
    (hW : ∀ root, t.root = some root → ∀ path, wayDown E root.tree hints idx s = .ok path → WayTr md.tr path root.tree)
    (ho : Lk md L0 w (t.F md.tr + F)) : Lk md L0 r.2.world (r.1.F md.tr + F) := by
  simp only [RleTree.insert, bind_ok_iff] at h
  obtain ⟨_, _, _, _, h⟩ := h
  split at h
  · rename_i hroot
    simp only [bind_ok_iff] at h
    obtain ⟨⟨t', w'⟩, h1, h⟩ := h
    have := Lk.new h1 (ho.congr (G := F) (by simp [RleTree.F, hroot]))
    split at h
    · cases h
    · cases h; exact this
  · rename_i root hroot
    simp only [bind_ok_iff] at h
    obtain ⟨pt, h1, ⟨dlen, post, path, w'⟩, h2, h⟩ := h
    have hT := wayDown_Tr h1 (hW root hroot)
    have ho' := (ho.world (w' := { w with events := [], fst := none }) rfl rfl).congr (G := pt.F md.tr + F)
      (by rw [findPoint_F h1 hT, ← treeF_act ((findPoint_back h1 hT) _ rfl)]; simp [RleTree.F, hroot, Ctx.F])
    have e2 := Lk.insertAt (L0 := L0) (F := F) h2 hT ho'
    split at h
    · simp only [bind_ok_iff] at h
      obtain ⟨_, _, h⟩ := h
      exact Lk.installRoot h e2
    · exact Lk.installRoot h e2

end
end Sherman
