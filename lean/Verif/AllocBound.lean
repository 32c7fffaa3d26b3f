import Verif.Conserve
/-!
# How many nodes an insertion allocates

At most one on every level and a new root.  Allocation is counted by the address that will be used next.
-/
namespace Sherman
variable {I S C : Type} {Ht : Nat}

/-- Everything is open. -/
abbrev AllO : Nat → Prop := fun _ => True

theorem KeepG.start (w : World) (X : Multiset (TokG I S)) : KeepG AllO w.next X w X :=
  ⟨Nat.le_refl _, ⟨[], by simp, by simp⟩, fun _ _ _ => trivial, fun _ _ => trivial⟩

theorem KeepG.card {w : World} {n0 : Nat} {A X : Multiset (TokG I S)} (h : KeepG AllO n0 A w X) :
    X.card + n0 = A.card + w.next := by
  obtain ⟨fr, h1, h2⟩ := h.eq
  have hl : fr.length = w.next - n0 := by
    have := congrArg List.length h1
    simpa using this
  have := h.le
  rw [h2, Multiset.card_add, Multiset.coe_card, List.length_map, hl]
  omega

theorem actG_leaf (t : Tree I S 1) : (actG AllO t).card = 1 := by
  have h0 : ∀ l : List (Tree I S 0), (l.map (treeG AllO)).sum = 0 := by
    intro l
    induction l with
    | nil => rfl
    | cons a l ih => simp [ih, treeG]
  simp [actG, nodeG, h0]

theorem nodeG_none {g : Nat} (n : Node I S C) : (nodeG g (fun _ => (0 : Multiset (TokG I S))) n).card = 1 := by
  have h0 : ∀ l : List C, (l.map (fun _ => (0 : Multiset (TokG I S)))).sum = 0 := by
    intro l
    induction l with
    | nil => rfl
    | cons a l ih => simp [ih]
  simp [nodeG, h0]

variable {w w' : World}

theorem Ctx.height_le {h : Nat} (ctx : Ctx I S Ht h) : h ≤ Ht := by
  induction ctx with
  | top => exact Nat.le_refl _
  | frame _ _ _ _ _ _ ih => omega

theorem bubbleRoom_next [HasPtr C] {E : Env I S} {cb : Cb} {sz : C → I} {p : Node I S C} {c : Nat} {b : Bubble I S C} {path : List Nat}
    {r} (h : bubbleRoom E cb sz p c b path w = .ok r) : r.2.2.2.2.2.next = w.next := by
  have := (KeepG.bubbleRoom (g := 0) (mc := fun _ => 0) (P := 0) h (KeepG.start w _)).card
  simp only [Multiset.card_add, nodeG_none, Multiset.card_zero] at this
  omega

theorem bubbleSplit_next [HasPtr C] {E : Env I S} {cb : Cb} {sz : C → I} {p : Node I S C} {c : Nat} {b : Bubble I S C} {path : List Nat}
    {r} (h : bubbleSplit E cb sz p c b path w = .ok r) : r.2.2.next = w.next + 1 := by
  have := (KeepG.bubbleSplit (g := 0) (mc := fun _ => 0) (P := 0) h (KeepG.start w _)).card
  simp only [Multiset.card_add, nodeG_none, Multiset.card_zero] at this
  omega

theorem leafSplit_next {E : Env I S} {cb : Cb} {n : Tree I S 1} {i : Nat} {ov : Option I} {f : Sized I S}
    {s : Option (Sized I S)} {r} (h : leafSplit E cb n i ov f s w = .ok r) : r.2.next = w.next + 1 := by
  have := (KeepG.leafSplit (P := 0) h (KeepG.start w _)).card
  simp only [Multiset.card_add, actG_leaf, Multiset.card_zero] at this
  omega

theorem leafRoom_next {E : Env I S} {cb : Cb} {n : Tree I S 1} {i : Nat} {ov : Option I} {f : Sized I S}
    {s : Option (Sized I S)} {ad : I} {r} (h : leafRoom E cb n i ov f s ad w = .ok r) : r.2.2.2.2.next = w.next := by
  have := (KeepG.leafRoom (P := 0) h (KeepG.start w _)).card
  simp only [Multiset.card_add, actG_leaf, Multiset.card_zero] at this
  omega

theorem bubbleFinish_next {E : Env I S} {cb : Cb} {m : Maps I} {h : Nat} {ctx : Ctx I S Ht h}
    {b : Bubble I S (Tree I S h)} {hd : Bool} {path : List Nat} {r} (hr : bubbleFinish E cb m ctx b hd path w = .ok r) :
    r.2.2.next + h ≤ w.next + Ht := by
  induction ctx generalizing hd path w with
  | top =>
    simp only [Sherman.bubbleFinish, bind_ok_iff] at hr
    obtain ⟨_, _, _, _, hr⟩ := hr
    cases hr
    simp only [link_next]; omega
  | @frame h ptr size keys kl kr up ih =>
    simp only [Sherman.bubbleFinish, bind_ok_iff] at hr
    obtain ⟨⟨hd', sh⟩, _, hr⟩ := hr
    split at hr
    · simp only [bind_ok_iff] at hr
      obtain ⟨⟨n, ov, old, new, path', w1⟩, h1, ⟨t, path2⟩, h2, hr⟩ := hr
      cases hr
      have e := bubbleRoom_next h1
      have := up.height_le
      simp only [link_next] at e
      simp only [readUp_next, e]; omega
    · simp only [bind_ok_iff] at hr
      obtain ⟨⟨b', path', w1⟩, h1, hr⟩ := hr
      have e := bubbleSplit_next h1
      simp only [link_next] at e
      have := ih hr
      dsimp only at this
      omega

theorem noJoin_next {E : Env I S} {cb : Cb} {m : Maps I} {n : Tree I S 1} {ctx : Ctx I S Ht 1} {i : Nat}
    {ov : Option I} {f : Sized I S} {s : Option (Sized I S)} {r}
    (h : noJoin E cb m n ctx i ov f s w = .ok r) : r.2.2.next ≤ w.next + Ht := by
  simp only [Sherman.noJoin, bind_ok_iff] at h
  obtain ⟨_, _, _, _, h⟩ := h
  have key : ∀ (one : Nat) (ad : I), ((usub (2 * E.M) one >>= fun lim => if Node.len n ≥ lim then do
      let (b, w) ← Sherman.leafSplit E cb n i ov f s w
      Sherman.bubbleFinish E cb m ctx b false [] w
    else do
      let (n, ovPos, old, new, w) ← Sherman.leafRoom E cb n i ov f s ad w
      let (t, path) ← Sherman.opKey E.ix m false ctx n (i + one) ovPos old new []
      pure (.done t, path, ctx.readUp (ptrT n) w)) = .ok r) → r.2.2.next ≤ w.next + Ht := by
    intro one ad h
    simp only [bind_ok_iff] at h
    obtain ⟨_, _, h⟩ := h
    split at h
    · simp only [bind_ok_iff] at h
      obtain ⟨⟨b, w1⟩, h1, h⟩ := h
      have e1 := leafSplit_next h1
      have e2 := bubbleFinish_next h
      dsimp only at e1 e2
      omega
    · simp only [bind_ok_iff] at h
      obtain ⟨⟨n1, _, _, _, w1⟩, h1, ⟨t, path⟩, h2, h⟩ := h
      cases h
      have e1 := leafRoom_next h1
      dsimp only at e1
      simp only [readUp_next, e1]; omega
  cases s with
  | none => exact key 0 f.size h
  | some s =>
    simp only [bind_ok_iff, R.pure_eq, R.bind_ok] at h
    obtain ⟨ad, _, h⟩ := h
    exact key 1 ad (by simpa only [bind_ok_iff, R.pure_eq, R.bind_ok] using h)

theorem finishJoin_next {E : Env I S} {leaf : Tree I S 1} {ctx : Ctx I S Ht 1} {hd : Nat × Nat} {o n : I} {r}
    (h : finishJoin E leaf ctx hd o n w = .ok r) : r.2.2.next = w.next := by
  simp only [Sherman.finishJoin, bind_ok_iff] at h
  obtain ⟨⟨g, n1, cx⟩, h1, w1, h3, ⟨t, path⟩, h2, h⟩ := h
  cases h
  rw [readUp_next, (emit_world h3).2]

theorem tryJoinEdge_next {E : Env I S} {leaf : Tree I S 1} {ctx : Ctx I S Ht 1} {l r : Option (Nat × Nat)} {s : S}
    {z : I} {p} (h : tryJoinEdge E leaf ctx l r s z w = .ok (.inl p)) : p.2.2.next = w.next := by
  unfold Sherman.tryJoinEdge at h
  split at h
  · cases h
  · split at h
    · cases h
    · simp only [bind_ok_iff] at h
      obtain ⟨_, _, h⟩ := h
      split at h
      · simp only [bind_ok_iff] at h
        obtain ⟨_, h1, _, _, _, h2, h⟩ := h
        cases h
        exact finishJoin_next h2
      · simp only [bind_ok_iff] at h
        obtain ⟨_, h1, h⟩ := h
        cases h
    · simp only [bind_ok_iff] at h
      obtain ⟨_, _, h⟩ := h
      split at h
      · simp only [bind_ok_iff] at h
        obtain ⟨_, h1, _, _, _, h2, h⟩ := h
        cases h
        exact finishJoin_next h2
      · simp only [bind_ok_iff] at h
        obtain ⟨_, h1, h⟩ := h
        cases h
    · simp only [bind_ok_iff] at h
      obtain ⟨_, _, _, _, h⟩ := h
      split at h
      · simp only [bind_ok_iff] at h
        obtain ⟨_, _, h⟩ := h
        split at h
        · cases h
        · simp only [bind_ok_iff] at h
          obtain ⟨_, h1, _, h3, _, h2, h⟩ := h
          cases h
          exact finishJoin_next h2
      · simp only [bind_ok_iff] at h
        obtain ⟨_, h1, h⟩ := h
        split at h
        · simp only [bind_ok_iff] at h
          obtain ⟨_, h3, _, _, _, h2, h⟩ := h
          cases h
          exact finishJoin_next h2
        · simp only [bind_ok_iff] at h
          obtain ⟨_, h3, h⟩ := h
          cases h

theorem insertEdge_next {E : Env I S} {leaf : Tree I S 1} {ctx : Ctx I S Ht 1} {i : Nat} {l r : Option (Nat × Nat)} {s : S}
    {z : I} {x} (h : insertEdge E leaf ctx i l r s z w = .ok x) : x.2.2.2.next ≤ w.next + Ht := by
  simp only [Sherman.insertEdge, bind_ok_iff] at h
  obtain ⟨_, _, y, h1, h⟩ := h
  split at h
  · cases h
    have := tryJoinEdge_next h1
    simp only at this ⊢
    omega
  · simp only [bind_ok_iff] at h
    obtain ⟨_, h2, h⟩ := h
    cases h
    exact noJoin_next h2

theorem insertRhs_next {E : Env I S} {h : Nat} {nop skip : Bool} {n : Tree I S (h + 1)} {ctx : Ctx I S Ht (h + 1)} {k : Nat}
    {newLhs : I} {lm : Bool} {f : Sized I S} {s : Option (Sized I S)} {r}
    (hr : insertRhs E nop skip n ctx k newLhs lm f s w = .ok r) : r.2.2.next ≤ w.next + Ht := by
  simp only [Sherman.insertRhs, bind_ok_iff] at hr
  obtain ⟨_, _, _, _, ⟨leaf, cx, i⟩, h1, hr⟩ := hr
  exact noJoin_next hr

theorem insertSplit_next {E : Env I S} {h : Nat} {nop : Bool} {n : Tree I S (h + 1)} {ctx : Ctx I S Ht (h + 1)} {k : Nat} {p : I}
    {s : S} {z : I} {r} (hr : insertSplit E nop n ctx k p s z w = .ok r) : r.2.2.2.next ≤ w.next + Ht := by
  simp only [Sherman.insertSplit, bind_ok_iff] at hr
  obtain ⟨_, _, key, hkey, n', h1, _, _, hr⟩ := hr
  split at hr
  · simp only [bind_ok_iff] at hr
    obtain ⟨_, h2, hr⟩ := hr
    cases hr
    exact insertRhs_next h2
  · split at hr
    · simp only [bind_ok_iff] at hr
      obtain ⟨_, _, hr⟩ := hr
      split at hr
      · simp only [bind_ok_iff] at hr
        obtain ⟨n2, h2, _, h4, _, _, _, _, ⟨t, path⟩, h3, hr⟩ := hr
        cases hr
        have e4 := emit_world h4
        simp only [readUp_next, e4.2]; omega
      · simp only [bind_ok_iff] at hr
        obtain ⟨n2, h2, _, h4, _, h3, hr⟩ := hr
        cases hr
        have e4 := emit_world h4
        have := insertRhs_next h3
        simp only [e4.2] at this
        exact this
    · simp only [bind_ok_iff] at hr
      obtain ⟨n2, h2, hr⟩ := hr
      split at hr
      · simp only [bind_ok_iff] at hr
        obtain ⟨_, _, _, h3, hr⟩ := hr
        cases hr
        exact insertRhs_next h3
      · simp only [bind_ok_iff] at hr
        obtain ⟨_, h3, hr⟩ := hr
        cases hr
        exact insertRhs_next h3

theorem insertAt_next {E : Env I S} {nop : Bool} {pt : Point I S Ht} {s : S} {z : I} {x}
    (h : insertAt E nop pt s z w = .ok x) : x.2.2.2.next ≤ w.next + Ht := by
  cases pt with
  | edge => exact insertEdge_next h
  | split => exact insertSplit_next h

theorem installRoot_next {E : Env I S} {H' len : Nat} {post : Post I S (H' + 1)} {path : List Nat} {handle : Option (Nat × Nat)}
    {r} (h : installRoot E len post path handle w = .ok r) : r.2.world.next ≤ w.next + 1 := by
  cases post with
  | done t =>
    simp only [Sherman.installRoot, bind_ok_iff] at h
    obtain ⟨_, _, h⟩ := h
    cases h
    simp
  | newRoot l k kz rr =>
    simp only [Sherman.installRoot, bind_ok_iff] at h
    obtain ⟨⟨t', w2⟩, h3, _, _, h⟩ := h
    cases h
    simp only [makeNewParent, bind_ok_iff] at h3
    obtain ⟨_, _, _, h4, h3⟩ := h3
    cases h3
    simp only [update_next, link_next, World.alloc]; omega

/-- An insertion into a tree with `h` levels below the root allocates at most `h + 2` nodes: one on every level, and a new root. -/
theorem insert_next {E : Env I S} {h len : Nat} {t : Tree I S (h + 1)} {nop : Bool} {hints : List Nat} {idx : I} {s : S} {z : I} {r}
    (hr : RleTree.insert E ⟨some ⟨h, t, len⟩⟩ nop hints idx s z w = .ok r) : r.2.world.next ≤ w.next + (h + 2) := by
  simp only [RleTree.insert, bind_ok_iff] at hr
  obtain ⟨_, _, _, _, pt, h1, ⟨dlen, post, path, w'⟩, h2, hr⟩ := hr
  have e2 := insertAt_next h2
  have e3 : r.2.world.next ≤ w'.next + 1 := by
    split at hr
    · simp only [bind_ok_iff] at hr
      obtain ⟨_, _, hr⟩ := hr
      exact installRoot_next hr
    · simp only [bind_ok_iff] at hr
      obtain ⟨_, _, hr⟩ := hr
      exact installRoot_next hr
  dsimp only at e2
  omega

end Sherman
