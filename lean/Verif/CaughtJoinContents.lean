import Verif.CaughtJoin
import Verif.CaughtContents
/-!
# What is stored after an insertion that panics, for slices that join

As in `Verif/CaughtContents.lean`: an insertion puts the slice between two others, joins it with one that is stored, or puts it into one, which is replaced by
its parts, joined with the new slice where they join.  If it panics, then what is left is part of that, in the same order, unless a slice is out of its
place (C57).  This holds for any index type and any `M`.
-/
namespace Sherman
variable {I S : Type}

/-- Specification: if slices do not join then they are handed back.  src/public_traits.rs:72-90 -/
def Honest (sl : SliceOps I S) : Prop := ∀ a b c d, sl.tryJoin a b = .inr (c, d) → c = a ∧ d = b

/-- Specification: two slices join. -/
def Joins (sl : SliceOps I S) (a b c : S) : Prop := sl.tryJoin a b = .inl c

/-- Specification: they do not. -/
def Apart (sl : SliceOps I S) (a b : S) : Prop := sl.mayJoin = true → ∀ c, ¬ Joins sl a b c

/-- Specification: `new` is put between two slices; or joined with one; or put into one, whose parts are joined with it if they join, the left one first.
src/public_traits.rs:48-90 -/
inductive Woven (sl : SliceOps I S) (new : S) : List S → List S → Prop
  | between (l r : List S) : Woven sl new (l ++ r) (l ++ new :: r)
  | left (l r : List S) (x y : S) : Joins sl x new y → Woven sl new (l ++ x :: r) (l ++ y :: r)
  | right (l r : List S) (x y : S) : Joins sl new x y → Woven sl new (l ++ x :: r) (l ++ y :: r)
  | inside (l r : List S) (x a b : S) (p : I) : sl.splitAt x p = (a, b) → Apart sl a new → Apart sl new b →
      Woven sl new (l ++ x :: r) (l ++ a :: new :: b :: r)
  | insideLeft (l r : List S) (x a b y : S) (p : I) : sl.splitAt x p = (a, b) → Joins sl a new y → Apart sl y b →
      Woven sl new (l ++ x :: r) (l ++ y :: b :: r)
  | insideRight (l r : List S) (x a b y : S) (p : I) : sl.splitAt x p = (a, b) → Apart sl a new → Joins sl new b y →
      Woven sl new (l ++ x :: r) (l ++ a :: y :: r)
  | insideBoth (l r : List S) (x a b y z : S) (p : I) : sl.splitAt x p = (a, b) → Joins sl a new y → Joins sl y b z →
      Woven sl new (l ++ x :: r) (l ++ z :: r)

/-! ## Slices behind handles -/

/-- The slice of a key of an ancestor. -/
def slotUp {H : Nat} : Nat → {h : Nat} → Ctx I S H h → Nat → Option S
  | _, _, .top, _ => none
  | 0, _, .frame _ _ keys _ _ _, k => keys[k]?.map Key.slice
  | a + 1, h, .frame _ _ _ _ _ up, k => slotUp a (h := h + 1) up k

/-- The slice behind a handle seen from a node. -/
def slotFrom {H h : Nat} (t : Tree I S (h + 1)) (ctx : Ctx I S H (h + 1)) : Nat × Nat → Option S
  | (0, k) => (Node.keys t)[k]?.map Key.slice
  | (a + 1, k) => slotUp a ctx k

theorem climb_ret {H : Nat} : ∀ (a : Nat) {h : Nat} (t : Tree I S (h + 1)) (ctx : Ctx I S H (h + 1)), ctx.Arity → ArityT t →
    Ret (climb a t ctx) fun r => r.2.2.Arity ∧ ArityT r.2.1 ∧ r.2.2.pre ++ slicesT r.2.1 ++ r.2.2.post = ctx.pre ++ slicesT t ++ ctx.post ∧
      ∀ k, (Node.keys r.2.1)[k]?.map Key.slice = slotFrom t ctx (a, k) := by
  intro a
  induction a with
  | zero => intro h t ctx hx ht; exact Ret.pure ⟨hx, ht, rfl, fun k => rfl⟩
  | succ a ih =>
    intro h t ctx hx ht
    cases ctx with
    | top => exact Ret.err
    | frame p z keys kl kr up =>
      obtain ⟨h0, h1, h2, h3⟩ := hx
      have hf := plug_fits (p := p) (z := z) h0 h1 h2 (fits_self ht)
      refine (ih (h := h + 1) (plugNode p z keys kl t kr) up h3 hf.1).mono fun r hr => ?_
      obtain ⟨r1, r2, r3, r4⟩ := hr
      refine ⟨r1, r2, r3.trans ?_, fun k => (r4 k).trans ?_⟩
      · rw [hf.2]; simp [Ctx.pre, Ctx.post]
      · cases a <;> rfl

theorem handleAt_ret {H : Nat} {ix : IdxOps I} {leaf : Tree I S 1} {ctx : Ctx I S H 1} {hd : Nat × Nat} (hx : ctx.Arity) (hn : ArityT leaf) :
    Ret (handleAt ix leaf ctx hd) fun r => slotFrom leaf ctx hd = some r.1 := by
  unfold handleAt
  refine (climb_ret hd.1 leaf ctx hx hn).bind fun r hr => ?_
  obtain ⟨h', n, c⟩ := r
  refine (handle_ret (C := Tree I S h')).bind fun key hk => Ret.skip fun z => Ret.pure ?_
  have := hr.2.2.2 hd.2
  dsimp only at this
  rw [hk] at this
  exact this.symm

theorem set_self {keys : List (Key I S)} {k : Nat} {key : Key I S} (h : keys[k]? = some key) : keys.set k { key with slice := key.slice } = keys := by
  obtain ⟨hl, rfl⟩ := List.getElem?_eq_some_iff.1 h
  exact List.set_getElem_self hl

theorem setSliceUp_same {H : Nat} : ∀ {a h : Nat} {ctx : Ctx I S H h} {k : Nat} {x : S}, slotUp a ctx k = some x → setSliceUp a ctx k x = .ok ctx := by
  intro a
  induction a with
  | zero =>
    intro h ctx k x hs
    cases ctx with
    | top => cases hs
    | frame p z keys kl kr up =>
      obtain ⟨key, hk, rfl⟩ := Option.map_eq_some_iff.1 hs
      unfold setSliceUp
      rw [hk]
      show Except.ok _ = _
      rw [set_self hk]
  | succ a ih =>
    intro h ctx k x hs
    cases ctx with
    | top => cases hs
    | frame p z keys kl kr up =>
      unfold setSliceUp
      rw [ih (ctx := up) hs]
      rfl

/-- Putting back what was there changes nothing. -/
theorem setSliceAt_same {H : Nat} {leaf : Tree I S 1} {ctx : Ctx I S H 1} {hd : Nat × Nat} {x : S} (hs : slotFrom leaf ctx hd = some x) :
    setSliceAt leaf ctx hd x = .ok (leaf, ctx) := by
  obtain ⟨a, k⟩ := hd
  cases a with
  | zero =>
    obtain ⟨key, hk, rfl⟩ := Option.map_eq_some_iff.1 hs
    have : Node.setSlice (C := Tree I S 0) leaf k key.slice = .ok leaf := by
      unfold Node.setSlice
      rw [hk]
      show Except.ok _ = _
      rw [set_self hk]
      rfl
    show (Node.setSlice (C := Tree I S 0) leaf k key.slice >>= fun l => Except.ok (l, ctx)) = _
    rw [this]
    rfl
  | succ a =>
    show (setSliceUp a ctx k x >>= fun c => Except.ok (leaf, c)) = _
    rw [setSliceUp_same hs]
    rfl

theorem mix_set {cs : List (List S)} {ks : List S} {k : Nat} {x : S} (s : S) (h : cs.length = ks.length + 1) (hk : ks[k]? = some x) :
    ∃ A B, mix cs ks = A ++ x :: B ∧ mix cs (ks.set k s) = A ++ s :: B := by
  obtain ⟨hl, -⟩ := List.getElem?_eq_some_iff.1 hk
  refine ⟨_, _, mix_split k cs ks x h hk, ?_⟩
  rw [mix_split k cs (ks.set k s) s (by simpa using h) (by simp [hl]), List.take_set_of_le (le_refl k), List.drop_set_of_lt (Nat.lt_succ_self k)]

theorem setSliceUp_ret {H : Nat} (s : S) : ∀ {a h : Nat} {ctx : Ctx I S H h} {k : Nat} {x : S}, slotUp a ctx k = some x → ctx.Arity →
    Ret (setSliceUp a ctx k s) fun c => c.Arity ∧ ∀ l, ∃ A B, ctx.pre ++ l ++ ctx.post = A ++ x :: B ∧ c.pre ++ l ++ c.post = A ++ s :: B := by
  intro a
  induction a with
  | zero =>
    intro h ctx k x hs hx
    cases ctx with
    | top => cases hs
    | frame p z keys kl kr up =>
      obtain ⟨key, hk, rfl⟩ := Option.map_eq_some_iff.1 hs
      obtain ⟨h0, h1, h2, h3⟩ := hx
      unfold setSliceUp
      rw [hk]
      refine Ret.pure ⟨⟨by simpa using h0, h1, h2, h3⟩, fun l => ?_⟩
      have hm : ∀ ks : List S, ks.length = kl.length + kr.length →
          mixL (kl.map slicesT) ks ++ l ++ mixR (ks.drop kl.length) (kr.map slicesT) = mix (kl.map slicesT ++ l :: kr.map slicesT) ks := by
        intro ks hk
        have := mix_mid (kl.map slicesT) ks l (kr.map slicesT) (by simp; omega)
        simpa using this.symm
      obtain ⟨A, B, e1, e2⟩ := mix_set (cs := kl.map slicesT ++ l :: kr.map slicesT) (ks := keys.map Key.slice) (k := k) s (by simp; omega)
        (by rw [List.getElem?_map, hk]; rfl)
      refine ⟨up.pre ++ A, B ++ up.post, ?_, ?_⟩
      · have := (hm (keys.map Key.slice) (by simpa using h0)).trans e1
        simp only [Ctx.pre, Ctx.post]
        calc _ = up.pre ++ (mixL (kl.map slicesT) (keys.map Key.slice) ++ l ++ mixR ((keys.map Key.slice).drop kl.length) (kr.map slicesT)) ++ up.post := by simp
          _ = _ := by rw [this]; simp
      · have hms : (keys.set k { key with slice := s }).map Key.slice = (keys.map Key.slice).set k s := by simp [List.map_set]
        have := (hm ((keys.map Key.slice).set k s) (by simpa using h0)).trans e2
        simp only [Ctx.pre, Ctx.post, hms]
        calc _ = up.pre ++ (mixL (kl.map slicesT) ((keys.map Key.slice).set k s) ++ l ++
              mixR (((keys.map Key.slice).set k s).drop kl.length) (kr.map slicesT)) ++ up.post := by simp
          _ = _ := by rw [this]; simp
  | succ a ih =>
    intro h ctx k x hs hx
    cases ctx with
    | top => cases hs
    | frame p z keys kl kr up =>
      obtain ⟨h0, h1, h2, h3⟩ := hx
      unfold setSliceUp
      refine (ih (ctx := up) hs h3).bind fun c hc => Ret.pure ⟨⟨h0, h1, h2, hc.1⟩, fun l => ?_⟩
      obtain ⟨A, B, e1, e2⟩ := hc.2 (mixL (kl.map slicesT) (keys.map Key.slice) ++ l ++ mixR ((keys.map Key.slice).drop kl.length) (kr.map slicesT))
      exact ⟨A, B, by simpa [Ctx.pre, Ctx.post] using e1, by simpa [Ctx.pre, Ctx.post] using e2⟩

theorem setSliceAt_ret {H : Nat} {leaf : Tree I S 1} {ctx : Ctx I S H 1} {hd : Nat × Nat} {x s : S} (hs : slotFrom leaf ctx hd = some x) (hx : ctx.Arity)
    (hn : ArityT leaf) : Ret (setSliceAt leaf ctx hd s) fun r => r.2.Arity ∧ ArityT r.1 ∧
      ∃ A B, ctx.pre ++ slicesT leaf ++ ctx.post = A ++ x :: B ∧ r.2.pre ++ slicesT r.1 ++ r.2.post = A ++ s :: B := by
  obtain ⟨a, k⟩ := hd
  cases a with
  | zero =>
    obtain ⟨key, hk, rfl⟩ := Option.map_eq_some_iff.1 hs
    refine (setSlice_ret (C := Tree I S 0) (n := leaf)).bind fun leaf' h' => Ret.pure ?_
    obtain ⟨e1, e2⟩ := h'
    have hl : leaf'.keys.length = (Node.keys leaf).length := by simpa using congrArg List.length e1
    obtain ⟨A, B, f1, f2⟩ := mix_set (cs := (Node.kids leaf).map slicesT) (ks := (Node.keys leaf).map Key.slice) (k := k) s (by simpa using hn.1)
      (by rw [List.getElem?_map, hk]; rfl)
    have g1 : slicesT (h := 1) leaf = A ++ key.slice :: B := f1
    have g2 : slicesT (h := 1) leaf' = A ++ s :: B := by
      show mix (leaf'.kids.map slicesT) (leaf'.keys.map Key.slice) = _
      rw [e1, e2]
      exact f2
    refine ⟨hx, ⟨by rw [e2, hl]; exact hn.1, fun _ _ => trivial⟩, ctx.pre ++ A, B ++ ctx.post, ?_, ?_⟩
    · rw [g1]; simp
    · dsimp only; rw [g2]; simp
  | succ a =>
    refine (setSliceUp_ret s (ctx := ctx) hs hx).bind fun c hc => Ret.pure ⟨hc.1, hn, hc.2 _⟩

/-! ## Joining at an edge -/

/-- What may be left. -/
def LeftJ {H : Nat} (sl : SliceOps I S) (new : S) (old : List S) (t : Tree I S H) (d : Nat) : Prop :=
  ArityT t ∧ (slicesT t).length ≤ old.length + d ∧
    (slicesT t = old ∨ ∃ full, (Woven sl new old full ∨ Spliced sl new old full) ∧ (slicesT t).Sublist full)

theorem LeftJ.of {H : Nat} {sl : SliceOps I S} {new : S} {old full : List S} {t : Tree I S H} {d : Nat} (hp : PartT t full) (hw : Woven sl new old full)
    (hl : full.length = old.length + d) : LeftJ sl new old t d := by
  obtain ⟨l, h1, h2⟩ := hp
  refine ⟨h1.1, ?_, .inr ⟨full, .inl hw, by rw [h1.2]; exact h2⟩⟩
  rw [h1.2, ← hl]
  exact h2.length_le

theorem finishJoinC_leaves {E : Env I S} {H : Nat} {leaf : Tree I S 1} {ctx : Ctx I S H 1} {hd : Nat × Nat} {o n : I} {w : World} {l : List S}
    (hx : ctx.Arity) (hn : ArityT leaf) (he : ctx.pre ++ slicesT leaf ++ ctx.post = l) :
    Leaves (finishJoinC E leaf ctx hd o n w) (fun r => r.1.Fits l) fun t => Fits t l := by
  have f0 := close_fits ctx leaf _ hx (fits_self hn)
  rw [he] at f0
  unfold finishJoinC
  refine Leaves.step (climb_ret hd.1 leaf ctx hx hn) f0 fun r hr => ?_
  obtain ⟨h', n', c⟩ := r
  obtain ⟨r1, r2, r3, -⟩ := hr
  refine Leaves.skip f0 fun w1 => ?_
  have := opKeyC_leaves (ix := E.ix) (m := Maps.identity E.ix) (handled := false) (k := hd.2) (ov := none) (old := o) (new := n) (path := []) r1 (fits_self r2)
  rw [r3, he] at this
  exact this.bind fun r hr => Leaves.pure hr

theorem tryJoinEdgeC_leaves {E : Env I S} (hh : Honest E.sl) {H : Nat} {leaf : Tree I S 1} {ctx : Ctx I S H 1} {lhs rhs : Option (Nat × Nat)} {s : S} {z : I}
    {w : World} {old : List S} (hx : ctx.Arity) (hn : ArityT leaf) (he : ctx.pre ++ slicesT leaf ++ ctx.post = old) :
    Leaves (tryJoinEdgeC E leaf ctx lhs rhs s z w)
      (fun r => match r with
        | .inl p => ∃ full, p.1.Fits full ∧ Woven E.sl s old full ∧ full.length = old.length
        | .inr p => p = (leaf, ctx, s))
      fun l => ∀ t, l = some t → LeftJ E.sl s old t 0 := by
  have f0 := close_fits ctx leaf _ hx (fits_self hn)
  rw [he] at f0
  have l0 : ∀ t, some (ctx.close leaf) = some t → LeftJ E.sl s old t 0 := by rintro _ ⟨⟩; exact ⟨f0.1, by rw [f0.2]; simp, .inl f0.2⟩
  have ln : ∀ t, (none : Option (Tree I S H)) = some t → LeftJ E.sl s old t 0 := by rintro _ ⟨⟩
  have fin : ∀ {leaf' : Tree I S 1} {ctx' : Ctx I S H 1} {hd : Nat × Nat} {o n : I} {w : World} {full : List S}, ctx'.Arity → ArityT leaf' →
      ctx'.pre ++ slicesT leaf' ++ ctx'.post = full → Woven E.sl s old full → full.length = old.length →
      Leaves (within some (finishJoinC E leaf' ctx' hd o n w) >>= fun r => (Pure.pure (.inl r) : Lv (Option (Tree I S H)) (JoinResult I S H)))
        (fun r => match r with
          | .inl p => ∃ full, p.1.Fits full ∧ Woven E.sl s old full ∧ full.length = old.length
          | .inr p => p = (leaf, ctx, s))
        fun l => ∀ t, l = some t → LeftJ E.sl s old t 0 := by
    intro leaf' ctx' hd o n w full h1 h2 h3 h4 h5
    refine Leaves.bind ((finishJoinC_leaves h1 h2 h3).within fun t ht => ?_) fun r hr => Leaves.pure ⟨full, hr, h4, h5⟩
    rintro _ ⟨⟩
    exact LeftJ.of (ht.part (List.Sublist.refl _)) h4 (by omega)
  have left' : ∀ {leaf' : Tree I S 1} {ctx' : Ctx I S H 1} {full : List S}, ctx'.Arity → ArityT leaf' →
      ctx'.pre ++ slicesT leaf' ++ ctx'.post = full → Woven E.sl s old full → full.length = old.length →
      ∀ t, some (ctx'.close leaf') = some t → LeftJ E.sl s old t 0 := by
    rintro leaf' ctx' full h1 h2 h3 h4 h5 _ ⟨⟩
    have := close_fits ctx' leaf' _ h1 (fits_self h2)
    rw [h3] at this
    exact LeftJ.of (this.part (List.Sublist.refl _)) h4 (by omega)
  unfold tryJoinEdgeC
  dsimp only
  split
  · exact Leaves.pure rfl
  · match lhs, rhs with
    | none, none => exact ⟨(fun a h => by cases h), (fun f t h => by cases h; exact l0)⟩
    | some l, none =>
      refine Leaves.step (handleAt_ret hx hn) l0 fun r hs => ?_
      obtain ⟨ls, lsize⟩ := r
      dsimp only at hs ⊢
      cases hj : E.sl.tryJoin ls s with
      | inl new =>
        refine Leaves.step (setSliceAt_ret hs hx hn) l0 fun r hr => ?_
        obtain ⟨leaf1, ctx1⟩ := r
        obtain ⟨r1, r2, A, B, r3, r4⟩ := hr
        have hw : Woven E.sl s old (A ++ new :: B) := by rw [← he, r3]; exact .left A B ls new hj
        have hl : (A ++ new :: B).length = old.length := by rw [← he, r3]; simp
        exact Leaves.skip (left' r1 r2 r4 hw hl) fun _ => fin r1 r2 r4 hw hl
      | inr p =>
        obtain ⟨a, b⟩ := p
        obtain ⟨rfl, rfl⟩ := hh _ _ _ _ hj
        dsimp only
        rw [setSliceAt_same hs]
        exact Leaves.pure rfl
    | none, some r =>
      refine Leaves.step (handleAt_ret hx hn) l0 fun r' hs => ?_
      obtain ⟨rs, rsize⟩ := r'
      dsimp only at hs ⊢
      cases hj : E.sl.tryJoin s rs with
      | inl new =>
        refine Leaves.step (setSliceAt_ret hs hx hn) l0 fun r hr => ?_
        obtain ⟨leaf1, ctx1⟩ := r
        obtain ⟨r1, r2, A, B, r3, r4⟩ := hr
        have hw : Woven E.sl s old (A ++ new :: B) := by rw [← he, r3]; exact .right A B rs new hj
        have hl : (A ++ new :: B).length = old.length := by rw [← he, r3]; simp
        exact Leaves.skip (left' r1 r2 r4 hw hl) fun _ => fin r1 r2 r4 hw hl
      | inr p =>
        obtain ⟨a, b⟩ := p
        obtain ⟨rfl, rfl⟩ := hh _ _ _ _ hj
        dsimp only
        rw [setSliceAt_same hs]
        exact Leaves.pure rfl
    | some l, some r =>
      refine Leaves.step (handleAt_ret hx hn) l0 fun r' hs => ?_
      obtain ⟨ls, lsize⟩ := r'
      refine Leaves.step (handleAt_ret hx hn) l0 fun r' hs' => ?_
      obtain ⟨rs, rsize⟩ := r'
      dsimp only at hs hs' ⊢
      cases hj : E.sl.tryJoin ls s with
      | inl mid =>
        refine Leaves.skip ln fun _ => ?_
        cases hj' : E.sl.tryJoin mid rs with
        | inl new => exact ⟨(fun a h => by cases h), (fun f t h => by cases h; exact ln)⟩
        | inr p =>
          obtain ⟨a, b⟩ := p
          obtain ⟨rfl, rfl⟩ := hh _ _ _ _ hj'
          dsimp only
          rw [setSliceAt_same hs']
          refine Leaves.step (Q := fun r => r = (leaf, ctx)) (Ret.pure rfl) ln fun r hr => ?_
          subst hr
          refine Leaves.step (setSliceAt_ret hs hx hn) ln fun r hr => ?_
          obtain ⟨leaf1, ctx1⟩ := r
          obtain ⟨r1, r2, A, B, r3, r4⟩ := hr
          have hw : Woven E.sl s old (A ++ a :: B) := by rw [← he, r3]; exact .left A B ls a hj
          exact fin r1 r2 r4 hw (by rw [← he, r3]; simp)
      | inr p =>
        obtain ⟨a, b⟩ := p
        obtain ⟨rfl, rfl⟩ := hh _ _ _ _ hj
        dsimp only
        rw [setSliceAt_same hs]
        show Leaves (match E.sl.tryJoin b rs with | .inl new => _ | .inr (s, rs) => _) _ _
        cases hj' : E.sl.tryJoin b rs with
        | inl new =>
          refine Leaves.step (setSliceAt_ret hs' hx hn) l0 fun r hr => ?_
          obtain ⟨leaf1, ctx1⟩ := r
          obtain ⟨r1, r2, A, B, r3, r4⟩ := hr
          have hw : Woven E.sl b old (A ++ new :: B) := by rw [← he, r3]; exact .right A B rs new hj'
          have hl : (A ++ new :: B).length = old.length := by rw [← he, r3]; simp
          exact Leaves.skip (left' r1 r2 r4 hw hl) fun _ => fin r1 r2 r4 hw hl
        | inr p =>
          obtain ⟨c, d⟩ := p
          obtain ⟨rfl, rfl⟩ := hh _ _ _ _ hj'
          dsimp only
          rw [setSliceAt_same hs']
          exact Leaves.pure rfl

/-! ## Joining with the parts of a slice -/

/-- The node has `x` as its key `k`; `A` and `B` are the slices of the whole tree before and after it. -/
def KeyIn {H h : Nat} (n : Tree I S (h + 1)) (ctx : Ctx I S H (h + 1)) (k : Nat) (A : List S) (x : S) (B : List S) : Prop :=
  ArityT n ∧ ∃ key, (Node.keys n)[k]? = some key ∧ key.slice = x ∧
    A = ctx.pre ++ mix (((Node.kids n).map slicesT).take (k + 1)) (((Node.keys n).map Key.slice).take k) ∧
    B = mix (((Node.kids n).map slicesT).drop (k + 1)) (((Node.keys n).map Key.slice).drop (k + 1)) ++ ctx.post

theorem KeyIn.close {H h : Nat} {n : Tree I S (h + 1)} {ctx : Ctx I S H (h + 1)} {k : Nat} {A B : List S} {x : S} (hk : KeyIn n ctx k A x B) (hx : ctx.Arity) :
    Fits (ctx.close n) (A ++ x :: B) := by
  obtain ⟨ha, key, h1, rfl, rfl, rfl⟩ := hk
  have := close_fits ctx n _ hx (fits_self ha)
  rw [around ha h1] at this
  simpa using this

theorem KeyIn.set {H h : Nat} {n : Tree I S (h + 1)} {ctx : Ctx I S H (h + 1)} {k : Nat} {A B : List S} {x : S} (y : S) (hk : KeyIn n ctx k A x B) :
    Ret (Node.setSlice n k y) fun n' => KeyIn (h := h) n' ctx k A y B := by
  obtain ⟨ha, key, h1, rfl, rfl, rfl⟩ := hk
  refine (setSlice_ret (C := Tree I S h)).mono fun n1 hs => ?_
  obtain ⟨s1, s2⟩ := hs
  have hkl : k < (Node.keys n).length := (List.getElem?_eq_some_iff.1 h1).1
  have hlen1 : n1.keys.length = (Node.keys n).length := by
    have := congrArg List.length s1
    simpa using this
  obtain ⟨key1, hk1, hks⟩ : ∃ key1, n1.keys[k]? = some key1 ∧ key1.slice = y := by
    have h1 : (n1.keys.map Key.slice)[k]? = some y := by rw [s1]; simp [hkl]
    rw [List.getElem?_map, Option.map_eq_some_iff] at h1
    exact h1
  refine ⟨⟨by rw [s2, hlen1]; exact ha.1, by rw [s2]; exact ha.2⟩, key1, hk1, hks, ?_, ?_⟩
  · rw [s1, s2, List.take_set_of_le (le_refl k)]
  · rw [s1, s2, List.drop_set_of_lt (Nat.lt_succ_self k)]

theorem KeyIn.rhs {E : Env I S} {H h : Nat} {n : Tree I S (h + 1)} {ctx : Ctx I S H (h + 1)} {k : Nat} {A B : List S} {x : S} (hk : KeyIn n ctx k A x B)
    (hx : ctx.Arity) {nop skip mode : Bool} {newLhs : I} {fst : Sized I S} {snd : Option (Sized I S)} {w : World} :
    Leaves (insertRhsC E nop skip n ctx k newLhs mode fst snd w) (fun r => r.1.Fits (A ++ x :: fst.slice :: ((snd.map Sized.slice).toList ++ B)))
      fun t => PartT t (A ++ x :: fst.slice :: ((snd.map Sized.slice).toList ++ B)) := by
  have p1 : PartT (ctx.close n) (A ++ x :: fst.slice :: ((snd.map Sized.slice).toList ++ B)) :=
    (hk.close hx).part ((List.Sublist.refl _).append (((List.sublist_append_right _ _).cons _).cons_cons _))
  obtain ⟨ha, key, h1, rfl, rfl, rfl⟩ := hk
  unfold insertRhsC
  refine Leaves.skip p1 fun _ => Leaves.skip p1 fun _ => ?_
  refine Leaves.step (rhsLeaf_ret hx ha h1) p1 fun r hr => ?_
  obtain ⟨leaf, ctx', i⟩ := r
  obtain ⟨q1, q2, q3, q4⟩ := hr
  dsimp only at q1 q2 q3 q4
  have e : ctx'.pre ++ insL (slicesT leaf) i fst snd ++ ctx'.post = (ctx'.pre ++ (slicesT leaf).take i) ++ fst.slice :: ((snd.map Sized.slice).toList ++
      ((slicesT leaf).drop i ++ ctx'.post)) := by simp [insL]
  rw [q3, q4] at e
  have e' : ctx'.pre ++ insL (slicesT leaf) i fst snd ++ ctx'.post =
      ctx.pre ++ mix (((Node.kids n).map slicesT).take (k + 1)) (((Node.keys n).map Key.slice).take k) ++ key.slice :: fst.slice ::
        ((snd.map Sized.slice).toList ++ (mix (((Node.kids n).map slicesT).drop (k + 1)) (((Node.keys n).map Key.slice).drop (k + 1)) ++ ctx.post)) := by
    rw [e]; simp
  rw [← e']
  exact noJoinC_leaves q1 (flat_fits.2 (fits_self q2))

theorem Joins.det {sl : SliceOps I S} {a b c d e : S} (h : sl.tryJoin a b = .inr (c, d)) : ¬ Joins sl a b e := by
  intro h'
  unfold Joins at h'
  rw [h] at h'
  cases h'

theorem insertSplitJ_leaves {E : Env I S} (hh : Honest E.sl) {H h : Nat} {nop : Bool} {n : Tree I S (h + 1)} {ctx : Ctx I S H (h + 1)} {k : Nat} {p : I} {s : S}
    {z : I} {w : World} {old : List S} (hx : ctx.Arity) (hn : ArityT n) (he : ctx.pre ++ slicesT n ++ ctx.post = old) :
    Leaves (insertSplitJ E nop n ctx k p s z w) (fun r => ∃ full, r.2.1.Fits full ∧ Woven E.sl s old full ∧ full.length = old.length + r.1)
      fun l => ∀ t, l = some t → LeftJ E.sl s old t.1 t.2 := by
  have f0 := close_fits ctx n _ hx (fits_self hn)
  rw [he] at f0
  have l0 : ∀ t, some (ctx.close n, 0) = some t → LeftJ E.sl s old t.1 t.2 := by rintro _ ⟨⟩; exact ⟨f0.1, by rw [f0.2]; simp, .inl f0.2⟩
  have ln : ∀ t, (none : Option (Tree I S H × Nat)) = some t → LeftJ E.sl s old t.1 t.2 := by rintro _ ⟨⟩
  unfold insertSplitJ
  refine Leaves.skip l0 fun kz => ?_
  refine Leaves.step (handle_ret (C := Tree I S h)) l0 fun key hk => ?_
  obtain ⟨A, B, k0⟩ : ∃ A B, KeyIn n ctx k A key.slice B := ⟨_, _, hn, key, hk, rfl, rfl, rfl⟩
  have ho : A ++ key.slice :: B = old := (k0.close hx).2.symm.trans f0.2
  cases hsp : E.sl.splitAt key.slice p with
  | mk ls rs =>
  dsimp only
  refine Leaves.step (k0.set ls) l0 fun n1 k1 => ?_
  have half : ∀ d, ∀ t, some (Ctx.close (h := h + 1) ctx n1, d) = some t → LeftJ E.sl s old t.1 t.2 := by
    rintro d _ ⟨⟩
    have f1 := KeyIn.close (n := n1) k1 hx
    have hsl := Spliced.inside (sl := E.sl) (new := s) A B key.slice p
    rw [hsp, ho] at hsl
    refine ⟨f1.1, by rw [f1.2, ← ho]; simp, .inr ⟨_, .inr hsl, ?_⟩⟩
    rw [f1.2]
    exact (List.Sublist.refl _).append ((((List.Sublist.refl _).cons _).cons _).cons_cons _)
  -- inserting to the right of the key
  have rhs : ∀ {n2 : Tree I S (h + 1)} {x : S} (d : Nat) {skip mode : Bool} {newLhs : I} {fst : Sized I S} {snd : Option (Sized I S)} {w : World},
      KeyIn n2 ctx k A x B → Woven E.sl s old (A ++ x :: fst.slice :: ((snd.map Sized.slice).toList ++ B)) →
      (A ++ x :: fst.slice :: ((snd.map Sized.slice).toList ++ B)).length = old.length + d →
      Leaves (within (fun t => some (t, d)) (insertRhsC E nop skip n2 ctx k newLhs mode fst snd w) >>= fun r => Pure.pure (d, r))
        (fun r => ∃ full, r.2.1.Fits full ∧ Woven E.sl s old full ∧ full.length = old.length + r.1) fun l => ∀ t, l = some t → LeftJ E.sl s old t.1 t.2 := by
    intro n2 x d skip mode newLhs fst snd w k2 hw hl
    refine Leaves.bind ((KeyIn.rhs k2 hx).within fun t ht => ?_) fun r hr => Leaves.pure ⟨_, hr, hw, hl⟩
    rintro _ ⟨⟩
    exact LeftJ.of ht hw hl
  refine Leaves.skip (half 0) fun rz => ?_
  split
  · rename_i hm
    have hm : E.sl.mayJoin = false := by simpa using hm
    refine rhs (n2 := n1) 2 k1 ?_ (by rw [← ho]; simp; omega)
    rw [← ho]
    exact .inside A B key.slice ls rs p hsp (fun h => by rw [hm] at h; cases h) (fun h => by rw [hm] at h; cases h)
  · cases hj : E.sl.tryJoin ls s with
    | inl mid =>
      refine Leaves.skip ln fun mz => ?_
      cases hj' : E.sl.tryJoin mid rs with
      | inl new =>
        have hw : Woven E.sl s old (A ++ new :: B) := by rw [← ho]; exact .insideBoth A B key.slice ls rs mid new p hsp hj hj'
        have hl : (A ++ new :: B).length = old.length + 0 := by rw [← ho]; simp
        refine Leaves.step (KeyIn.set (n := n1) new k1) ln fun n2 k2 => ?_
        have f2 := KeyIn.close (n := n2) k2 hx
        have l2 : ∀ t, some (Ctx.close (h := h + 1) ctx n2, 0) = some t → LeftJ E.sl s old t.1 t.2 := by
          rintro _ ⟨⟩
          exact LeftJ.of (f2.part (List.Sublist.refl _)) hw hl
        refine Leaves.skip l2 fun w1 => Leaves.skip l2 fun o => Leaves.skip l2 fun nz => ?_
        have hop := opKeyC_leaves (ix := E.ix) (m := Maps.identity E.ix) (handled := false) (k := k) (ov := none) (old := o) (new := nz) (path := []) hx
          (fits_self (h := h + 1) (t := n2) k2.1)
        have e2 : ctx.pre ++ slicesT (h := h + 1) n2 ++ ctx.post = A ++ new :: B :=
          (close_fits ctx (h := h + 1) n2 _ hx (fits_self k2.1)).2.symm.trans f2.2
        rw [e2] at hop
        refine Leaves.bind (hop.within fun t ht => ?_) fun r hr => Leaves.pure ⟨_, hr, hw, hl⟩
        rintro _ ⟨⟩
        exact LeftJ.of (ht.part (List.Sublist.refl _)) hw hl
      | inr q =>
        obtain ⟨a, b⟩ := q
        obtain ⟨rfl, rfl⟩ := hh _ _ _ _ hj'
        have hw : Woven E.sl s old (A ++ a :: b :: B) := by
          rw [← ho]; exact .insideLeft A B key.slice ls b a p hsp hj fun _ c => Joins.det hj'
        refine Leaves.step (KeyIn.set (n := n1) a k1) ln fun n2 k2 => ?_
        have f2 := KeyIn.close (n := n2) k2 hx
        refine Leaves.skip ?_ fun w1 => rhs (n2 := n2) 1 k2 hw (by rw [← ho]; simp; omega)
        rintro _ ⟨⟩
        exact LeftJ.of (f2.part ((List.Sublist.refl _).append (((List.Sublist.refl _).cons _).cons_cons _))) hw (by rw [← ho]; simp; omega)
    | inr q =>
      obtain ⟨a, b⟩ := q
      obtain ⟨rfl, rfl⟩ := hh _ _ _ _ hj
      refine Leaves.step (KeyIn.set (n := n1) a k1) ln fun n2 k2 => ?_
      have f2 := KeyIn.close (n := n2) k2 hx
      cases hj' : E.sl.tryJoin b rs with
      | inl new =>
        have hw : Woven E.sl b old (A ++ a :: new :: B) := by
          rw [← ho]; exact .insideRight A B key.slice a rs new p hsp (fun _ c => Joins.det hj) hj'
        refine Leaves.skip ?_ fun nz => rhs (n2 := n2) 1 k2 hw (by rw [← ho]; simp; omega)
        rintro _ ⟨⟩
        exact LeftJ.of (f2.part ((List.Sublist.refl _).append (((List.Sublist.refl _).cons _).cons_cons _))) hw (by rw [← ho]; simp; omega)
      | inr q =>
        obtain ⟨c, d⟩ := q
        obtain ⟨rfl, rfl⟩ := hh _ _ _ _ hj'
        refine rhs (n2 := n2) 2 k2 ?_ (by rw [← ho]; simp; omega)
        rw [← ho]
        exact .inside A B key.slice a d p hsp (fun _ e => Joins.det hj) (fun _ e => Joins.det hj')

/-! ## Trees and programs -/

theorem insertAtJ_leaves {E : Env I S} (hh : Honest E.sl) {H : Nat} {nop : Bool} {pt : Point I S H} {s : S} {z : I} {w : World} {old : List S} (hp : pt.Of old) :
    Leaves (insertAtJ E nop pt s z w) (fun r => ∃ full, r.2.1.Fits full ∧ Woven E.sl s old full ∧ full.length = old.length + r.1)
      fun l => ∀ t, l = some t → LeftJ E.sl s old t.1 t.2 := by
  cases pt with
  | edge leaf ctx i lhs rhs =>
    obtain ⟨hx, hn, he⟩ := hp
    have f0 := close_fits ctx leaf _ hx (fits_self hn)
    rw [he] at f0
    have hsp : Woven E.sl s old (ctx.pre ++ insL (slicesT leaf) i ⟨s, z⟩ none ++ ctx.post) := by
      have := Woven.between (sl := E.sl) (new := s) (ctx.pre ++ (slicesT leaf).take i) ((slicesT leaf).drop i ++ ctx.post)
      have e1 : ctx.pre ++ (slicesT leaf).take i ++ ((slicesT leaf).drop i ++ ctx.post) = old := by
        rw [← he, List.append_assoc ctx.pre, ← List.append_assoc ((slicesT leaf).take i), List.take_append_drop, List.append_assoc]
      rw [e1] at this
      simpa [insL] using this
    have hlen : (ctx.pre ++ insL (slicesT leaf) i (⟨s, z⟩ : Sized I S) none ++ ctx.post).length = old.length + 1 := by
      rw [← he]
      have := congrArg List.length (List.take_append_drop i (slicesT leaf))
      simp only [List.length_append] at this
      simp only [insL, List.length_append, List.length_cons, Option.map_none, Option.toList_none, List.length_nil]
      omega
    unfold insertAtJ insertEdgeJ
    refine Leaves.skip ?_ fun _ => ?_
    · rintro _ ⟨⟩
      exact ⟨f0.1, by rw [f0.2]; simp, .inl f0.2⟩
    · refine Leaves.bind (Leaves.within (tryJoinEdgeC_leaves hh hx hn he) ?_) fun r hr => ?_
      · intro l hl t h
        cases l with
        | none => cases h
        | some l => cases h; exact hl l rfl
      · match r, hr with
        | .inl p, hr =>
          obtain ⟨full, h1, h2, h3⟩ := hr
          exact Leaves.pure ⟨full, h1, h2, h3⟩
        | .inr p, hr =>
          subst hr
          refine Leaves.bind (Leaves.within (noJoinC_leaves hx (flat_fits.2 (fits_self hn))) fun t ht => ?_) fun r hr => Leaves.pure ⟨_, hr, hsp, hlen⟩
          rintro _ ⟨⟩
          exact LeftJ.of ht hsp hlen
  | split h n ctx k p =>
    obtain ⟨hx, hn, he⟩ := hp
    exact insertSplitJ_leaves hh hx hn he

/-- What may be left of a tree. -/
def RleTree.LeftJ (sl : SliceOps I S) (new : S) (t t' : RleTree I S) : Prop :=
  t'.slices = t.slices ∨ ∃ full, (Woven sl new t.slices full ∨ Spliced sl new t.slices full) ∧ t'.slices.Sublist full

theorem insertJ_leaves {E : Env I S} (hh : Honest E.sl) {t : RleTree I S} (ht : t.Counted) (nop : Bool) (hints : List Nat) (idx : I) (s : S) (z : I) (w : World) :
    Leaves (t.insertJ E nop hints idx s z w) (fun r => r.1.Counted ∧ Woven E.sl s t.slices r.1.slices)
      fun l => ∀ t', l = some t' → t'.Counted ∧ t.LeftJ E.sl s t' := by
  have l0 : ∀ t', some t = some t' → t'.Counted ∧ t.LeftJ E.sl s t' := by rintro _ ⟨⟩; exact ⟨ht, .inl rfl⟩
  unfold RleTree.insertJ
  cases hroot : t.root with
  | none =>
    have hm := insertC_leaves (E := E) ht nop hints idx s z w
    unfold RleTree.insertC at hm
    rw [hroot] at hm
    have hs : t.slices = [] := by simp [RleTree.slices, RleTree.places, hroot]
    refine Leaves.leave (fun a ha => ?_) l0
    have ha' : leave t (t.insert E nop hints idx s z w) = .ok a := by rw [ha]; rfl
    obtain ⟨h1, h2⟩ := hm.1 a ha'
    refine ⟨h1, ?_⟩
    rw [hs] at h2 ⊢
    generalize a.1.slices = full at h2
    generalize hnil : ([] : List S) = nil at h2
    cases h2 with
    | between l r => exact .between l r
    | inside l r x p => simp at hnil
  | some root =>
    obtain ⟨h, tr, len⟩ := root
    obtain ⟨ha, hlen⟩ := ht _ hroot
    dsimp only at ha hlen
    have hs : t.slices = slicesT tr := by
      have : t = ⟨some ⟨h, tr, len⟩⟩ := by cases t; simpa using hroot
      rw [this]; exact slices_some _ _ _
    refine Leaves.skip l0 fun _ => Leaves.skip l0 fun _ => ?_
    refine Leaves.step (findPoint_ret (old := slicesT tr) tr .top _ _ _ _ trivial ha (by simp [Ctx.pre, Ctx.post])) l0 fun pt hpt => ?_
    unfold RleTree.LeftJ
    rw [hs]
    refine Leaves.bind (Leaves.within (insertAtJ_leaves hh hpt) ?_) fun r hr => ?_
    · intro l hl t' h'
      cases l with
      | none => cases h'
      | some l =>
        cases h'
        obtain ⟨q1, q2, q3⟩ := hl l rfl
        refine ⟨?_, by rw [slices_some]; exact q3⟩
        rintro r ⟨⟩
        exact ⟨q1, by dsimp only; omega⟩
    · obtain ⟨dlen, post, path, w1⟩ := r
      obtain ⟨full, f1, f2, f3⟩ := hr
      dsimp only at f1 f3
      refine Leaves.leave ((installRoot_ret f1 (by dsimp only; omega)).mono fun r hr => ⟨hr.1, by rw [hr.2]; exact f2⟩) ?_
      obtain ⟨l', g1, g2⟩ := Post.left_fits f1
      rintro _ ⟨⟩
      refine ⟨?_, .inr ⟨full, .inl f2, ?_⟩⟩
      · rintro r ⟨⟩
        refine ⟨g1.1, ?_⟩
        have := g2.length_le
        have e := g1.2
        dsimp only
        rw [e]
        omega
      · rw [slices_some, g1.2]; exact g2

theorem attemptsJ_counted {E : Env I S} (hh : Honest E.sl) (as : List (Attempt I S)) :
    ∀ {t t' : RleTree I S}, t.Counted → t.attemptsJ E as = some t' → t'.Counted := by
  induction as with
  | nil => intro t t' ht h; cases h; exact ht
  | cons a as ih =>
    intro t t' ht h
    obtain ⟨t1, h1, h2⟩ := Option.bind_eq_some_iff.1 h
    refine ih ?_ h2
    have hm := insertJ_leaves hh ht a.nop a.hints a.idx a.slice a.size a.world
    unfold RleTree.attemptJ Attempt.runJ at h1
    split at h1
    · rename_i r hx
      cases h1
      exact (hm.1 r hx).1
    · rename_i e hx
      exact (hm.2 e.1 e.2 hx t1 h1).1

/-- **C56.** Whatever the index type and `M`, after any number of insertions of which some panicked without leaving a slice out of its place: a further insertion
that returns has put its slice between two others, joined it with one, or put it into one, whose parts are joined with it where they join; if it panics and
leaves no slice out of its place, what is stored is as before, or part of what would have been stored with or without joining, in the same order.  The tree
never stores more slices than it reports. -/
theorem caught_join_contents {E : Env I S} (hh : Honest E.sl) (_ : E.refs = false) (as : List (Attempt I S)) {t : RleTree I S}
    (h : RleTree.attemptsJ E ⟨none⟩ as = some t) (a : Attempt I S) :
    (∀ r, a.runJ E t = .ok r → Woven E.sl a.slice t.slices r.1.slices) ∧
    (∀ f t', a.runJ E t = .error (f, some t') → t'.slices = t.slices ∨
      ∃ full, (Woven E.sl a.slice t.slices full ∨ Spliced E.sl a.slice t.slices full) ∧ t'.slices.Sublist full) ∧
    t.slices.length ≤ t.numberOfSlices := by
  have ht : t.Counted := attemptsJ_counted hh as (by rintro r ⟨⟩) h
  have hm := insertJ_leaves hh ht a.nop a.hints a.idx a.slice a.size a.world
  refine ⟨fun r h => (hm.1 r h).2, fun f t' h => (hm.2 f _ h t' rfl).2, ?_⟩
  cases hroot : t.root with
  | none => simp [RleTree.slices, RleTree.places, hroot]
  | some r =>
    have h1 := (ht r hroot).2
    simpa [RleTree.slices, RleTree.places, RleTree.numberOfSlices, hroot, ← cells_slices] using h1

/-- `Constant` hands back what does not join. -/
theorem const_honest (T : Type) [BEq T] : Honest (constSl T) := by
  intro a b c d h
  unfold constSl at h
  dsimp only at h
  split at h <;> cases h
  exact ⟨rfl, rfl⟩

/-- Letters that join, with splits and joins before; 'z' is inserted in the middle of 'c', the tree would get too large, and four slices are left. -/
example : (RleTree.attemptsJ (joinEnv 3) ⟨none⟩ (sixLetters ++ [put 60 2 'b' 1, put 70 3 'c' 1])).map RleTree.slices = some ['a', 'b', 'c', 'd', 'e', 'f'] ∧
    (RleTree.attemptsJ (joinEnv 3) ⟨none⟩ (sixLetters ++ [put 60 2 'b' 1, put 70 3 'c' 1, put 80 4 'z' 250])).map RleTree.slices = some ['a', 'b', 'c', 'z'] ∧
    Woven (constSl Char) 'z' ['a', 'b', 'c', 'd', 'e', 'f'] ['a', 'b', 'c', 'z', 'c', 'd', 'e', 'f'] := by
  refine ⟨by decide +kernel, by decide +kernel, Woven.inside ['a', 'b'] ['d', 'e', 'f'] 'c' 'c' 'c' 1 rfl ?_ ?_⟩ <;> intro _ c h <;> cases h

example (t : RleTree Nat Char) (h : RleTree.attemptsJ (joinEnv 3) ⟨none⟩ (sixLetters ++ [put 60 2 'b' 1, put 80 4 'z' 250]) = some t) :
    t.slices.length ≤ t.numberOfSlices := (caught_join_contents (const_honest Char) rfl _ h (put 90 0 'y' 1)).2.2

end Sherman
