import Verif.Joins
/-!
# Insertion at an edge
-/
namespace Sherman
variable {S : Type}

/-! ## Replacing slices keeps the shape -/

/-- Same numbers of children on both sides at every level. -/
def SameShape {H : Nat} : {h : Nat} → Ctx Nat S H h → Ctx Nat S H h → Prop
  | _, .top, .top => True
  | _, .frame _ _ _ kl kr up, .frame _ _ _ kl' kr' up' => kl = kl' ∧ kr = kr' ∧ SameShape up up'
  | _, _, _ => False

theorem SameShape.refl {H h : Nat} (ctx : Ctx Nat S H h) : SameShape ctx ctx := by
  induction ctx with
  | top => exact trivial
  | frame _ _ _ _ _ _ ih => exact ⟨rfl, rfl, ih⟩

theorem SameShape.facts {H h : Nat} {ctx ctx' : Ctx Nat S H h} (hs : SameShape ctx ctx') :
    (LhsNone ctx → LhsNone ctx') ∧ (RhsNone ctx → RhsNone ctx') ∧
    (∀ n k, LhsAt n ctx k → LhsAt n ctx' k) ∧ (∀ n k, RhsAt n ctx k → RhsAt n ctx' k) := by
  induction ctx with
  | top =>
    cases ctx' with
    | top => exact ⟨id, id, fun _ _ => id, fun _ _ => id⟩
    | frame => exact hs.elim
  | frame ptr size keys kl kr up ih =>
    cases ctx' with
    | top => exact hs.elim
    | frame ptr' size' keys' kl' kr' up' =>
      obtain ⟨rfl, rfl, h3⟩ := hs
      obtain ⟨b1, b2, b3, b4⟩ := ih h3
      refine ⟨fun ⟨x, y⟩ => ⟨x, b1 y⟩, fun ⟨x, y⟩ => ⟨x, b2 y⟩, ?_, ?_⟩
      · intro n k h
        cases n with
        | zero => exact h
        | succ n => exact ⟨h.1, b3 n k h.2⟩
      · intro n k h
        cases n with
        | zero => exact h
        | succ n => exact ⟨h.1, b4 n k h.2⟩

theorem SameShape.lo {M H h : Nat} {ctx ctx' : Ctx Nat S H h} (hs : SameShape ctx ctx') :
    ctx'.lo M = ctx.lo M := by
  cases ctx with
  | top => cases ctx' with
    | top => rfl
    | frame => exact hs.elim
  | frame => cases ctx' with
    | top => exact hs.elim
    | frame => rfl

theorem set_at {α : Type} {A B : List α} {a b : α} {k : Nat} (h : A.length = k) :
    (A ++ a :: B).set k b = A ++ b :: B := by
  subst h; simp

theorem getElem?_at {α : Type} {A B : List α} {a : α} {k : Nat} (h : A.length = k) :
    (A ++ a :: B)[k]? = some a := by
  subst h; simp

/-- Replacing the slice left of a subtree. -/
theorem setSliceUp_lhs {M : Nat} {m : Maps Nat} (hm : m.sizes = false) {H : Nat} (s' : S) : ∀ {n h : Nat}
    {ctx : Ctx Nat S H h} {s : Nat} {X Rr : List (Ent S)} {e : Ent S} {k : Nat},
    CtxRep M m ctx s (X ++ [e]) Rr (X ++ [e]) → LhsAt n ctx k →
    ∃ ctx', setSliceUp n ctx k s' = .ok ctx' ∧ SameShape ctx ctx' ∧
      CtxRep M m ctx' s (X ++ [{ e with slice := s' }]) Rr (X ++ [{ e with slice := s' }]) := by
  intro n
  induction n with
  | zero =>
    intro h ctx s X Rr e k hc hl
    cases ctx with
    | top => exact hl.elim
    | frame ptr size keys kl kr up =>
      obtain ⟨psl, psl', psr, Lu, Ru, Lu', rfl, rfl, rfl, hs, a5, a6, a7, a8, a9, a10, rfl, a12, hu⟩ := hc
      rw [LhsChange.off hm] at a7
      subst a7
      have hLu : Lu = Lu' := by rw [a10] at a12; exact List.append_cancel_right a12
      subst hLu
      have hk : psl'.length = k + 1 := by simpa [LhsAt] using hl
      obtain ⟨q, it, rfl⟩ : ∃ q it, psl' = q ++ [it] :=
        ⟨psl'.dropLast, psl'.getLast (by intro h; simp [h] at hk), (List.dropLast_concat_getLast _).symm⟩
      have hq : q.length = k := by simpa using hk
      rw [RepItems.append, RepItems.cons] at a5
      have hX : X = Lu ++ entsL q ++ it.ents ∧ e = it.ent := by
        have h1 : X ++ [e] = (Lu ++ entsL q ++ it.ents) ++ [it.ent] := by simpa using a10
        obtain ⟨h2, h3⟩ := List.append_inj' h1 rfl
        exact ⟨h2, by simpa using h3⟩
      obtain ⟨rfl, rfl⟩ := hX
      have hkeys : keysL szN 0 (q ++ [it]) ++ keysR szN (tot szN (q ++ [it]) + s) psr =
          keysL szN 0 q ++ ⟨tot szN q + szN it.kid, it.slice, it.ref⟩ ::
            keysR szN (tot szN (q ++ [it]) + s) psr := by
        simp [keysL_append]
      refine ⟨.frame ptr size (keysL szN 0 q ++ ⟨tot szN q + szN it.kid, s', it.ref⟩ ::
            keysR szN (tot szN (q ++ [it]) + s) psr) (kidsOf (q ++ [it])) (kidsOf psr) up, ?_, ?_, ?_⟩
      · simp only [setSliceUp]
        rw [hkeys, getElem?_at (by simp [hq])]
        simp only [R.pure_eq]
        rw [set_at (by simp [hq])]
      · exact ⟨rfl, rfl, SameShape.refl up⟩
      · refine ⟨q ++ [{ it with slice := s' }], q ++ [{ it with slice := s' }], psr, Lu, Ru, Lu, ?_, by simp,
          rfl, by simpa using hs, ?_, a6, (LhsChange.off hm).mpr rfl, by simpa using a8, by simpa using a9, ?_, rfl, ?_, hu⟩
        · simp [keysL_append]
        · rw [RepItems.append, RepItems.cons]
          exact ⟨a5.1, a5.2.1, RepItems.nil⟩
        · simp [Item.ent]
        · simp [Item.ent]
  | succ n ih =>
    intro h ctx s X Rr e k hc hl
    cases ctx with
    | top => exact hl.elim
    | frame ptr size keys kl kr up =>
      obtain ⟨psl, psl', psr, Lu, Ru, Lu', rfl, rfl, rfl, hs, a5, a6, a7, a8, a9, a10, rfl, a12, hu⟩ := hc
      rw [LhsChange.off hm] at a7
      subst a7
      have hLu : Lu = Lu' := by rw [a10] at a12; exact List.append_cancel_right a12
      subst hLu
      obtain ⟨h1, h2⟩ := hl
      obtain rfl : psl' = [] := by
        cases psl' with
        | nil => rfl
        | cons _ _ => simp at h1
      obtain rfl : Lu = X ++ [e] := by simpa using a10.symm
      obtain ⟨up', b1, b2, b3⟩ := ih hu h2
      refine ⟨.frame ptr size (keysL szN 0 ([] : List (Item S (Tree Nat S h))) ++
          keysR szN (tot szN ([] : List (Item S (Tree Nat S h))) + s) psr)
          (kidsOf ([] : List (Item S (Tree Nat S h)))) (kidsOf psr) up', ?_, ⟨rfl, rfl, b2⟩, ?_⟩
      · simp only [setSliceUp, b1]
        rfl
      · exact ⟨[], [], psr, _, Ru, _, rfl, rfl, rfl, hs, a5, a6, (LhsChange.off hm).mpr rfl,
          by rw [b2.lo]; exact a8, a9, by simp, rfl, by simp, b3⟩

/-- Replacing the slice right of a subtree. -/
theorem setSliceUp_rhs {M : Nat} {m : Maps Nat} (hm : m.sizes = false) {H : Nat} (s' : S) : ∀ {n h : Nat}
    {ctx : Ctx Nat S H h} {s : Nat} {L Y : List (Ent S)} {e : Ent S} {k : Nat},
    CtxRep M m ctx s L (e :: Y) L → RhsAt n ctx k →
    ∃ ctx', setSliceUp n ctx k s' = .ok ctx' ∧ SameShape ctx ctx' ∧
      CtxRep M m ctx' s L ({ e with slice := s' } :: Y) L := by
  intro n
  induction n with
  | zero =>
    intro h ctx s L Y e k hc hl
    cases ctx with
    | top => exact hl.elim
    | frame ptr size keys kl kr up =>
      obtain ⟨psl, psl', psr, Lu, Ru, Lu', rfl, rfl, rfl, hs, a5, a6, a7, a8, a9, rfl, a11, a12, hu⟩ := hc
      rw [LhsChange.off hm] at a7
      subst a7
      have hLu : Lu = Lu' := List.append_cancel_right a12
      subst hLu
      obtain ⟨hk, hne⟩ := hl
      have hk : psl'.length = k := by simpa using hk
      cases psr with
      | nil => simp at hne
      | cons it psr =>
      rw [RepItems.cons] at a6
      obtain ⟨rfl, rfl⟩ : e = it.ent ∧ Y = it.ents ++ entsR psr ++ Ru := by simpa using a11
      refine ⟨.frame ptr size (keysL szN 0 psl' ++ ⟨tot szN psl' + s, s', it.ref⟩ ::
            keysR szN (tot szN psl' + s + it.size + szN it.kid) psr) (kidsOf psl') (kidsOf (it :: psr)) up, ?_, ?_, ?_⟩
      · simp only [setSliceUp, keysR_cons]
        rw [getElem?_at (by simp [hk])]
        simp only [R.pure_eq]
        rw [set_at (by simp [hk])]
      · exact ⟨rfl, rfl, SameShape.refl up⟩
      · exact ⟨psl', psl', { it with slice := s' } :: psr, Lu, Ru, Lu, by simp, rfl,
          by simp, by simpa using hs, a5, RepItems.cons.mpr ⟨a6.1, a6.2⟩, (LhsChange.off hm).mpr rfl, by simpa using a8,
          by simpa using a9, rfl, by simp [Item.ent], rfl, hu⟩
  | succ n ih =>
    intro h ctx s L Y e k hc hl
    cases ctx with
    | top => exact hl.elim
    | frame ptr size keys kl kr up =>
      obtain ⟨psl, psl', psr, Lu, Ru, Lu', rfl, rfl, rfl, hs, a5, a6, a7, a8, a9, rfl, a11, a12, hu⟩ := hc
      rw [LhsChange.off hm] at a7
      subst a7
      have hLu : Lu = Lu' := List.append_cancel_right a12
      subst hLu
      obtain ⟨h1, h2⟩ := hl
      obtain rfl : psr = [] := by
        cases psr with
        | nil => rfl
        | cons _ _ => simp at h1
      obtain rfl : Ru = e :: Y := by simpa using a11.symm
      obtain ⟨up', b1, b2, b3⟩ := ih hu h2
      refine ⟨.frame ptr size (keysL szN 0 psl' ++
          keysR szN (tot szN psl' + s) ([] : List (Item S (Tree Nat S h)))) (kidsOf psl')
          (kidsOf ([] : List (Item S (Tree Nat S h)))) up', ?_, ⟨rfl, rfl, b2⟩, ?_⟩
      · simp only [setSliceUp, b1]
        rfl
      · exact ⟨psl', psl', [], _, { e with slice := s' } :: Y, _, rfl, rfl, rfl, hs, a5, a6, (LhsChange.off hm).mpr rfl,
          by rw [b2.lo]; exact a8, a9, rfl, by simp, rfl, b3⟩

theorem leafOf_setSlice {p : Nat} {A B : List (Ent S)} {e : Ent S} {s : S} {k : Nat} (hk : A.length = k) :
    Node.setSlice (leafOf p (A ++ e :: B)) k s = .ok (leafOf p (A ++ { e with slice := s } :: B)) := by
  have h1 : leafOf p (A ++ e :: B) = lf p (total (A ++ e :: B)) (ks 0 A ++ ⟨0 + total A, e.slice, e.ref⟩ ::
      ks (0 + total A + e.size) B) := by
    rw [leafOf, ks_append, ks_cons]
  have h2 : leafOf p (A ++ { e with slice := s } :: B) =
      lf p (total (A ++ e :: B)) (ks 0 A ++ ⟨0 + total A, s, e.ref⟩ :: ks (0 + total A + e.size) B) := by
    rw [leafOf, ks_append, ks_cons]; simp; rfl
  rw [h1, h2]
  exact lf_setSlice (by simp [hk]) s

theorem EdgeOK.set_lhs {M : Nat} {m : Maps Nat} (hm : m.sizes = false) {H : Nat} {leaf : Tree Nat S 1}
    {ctx : Ctx Nat S H 1} {i : Nat} {l : Nat × Nat} {rhs : Option (Nat × Nat)} {X R : List (Ent S)} {e : Ent S}
    (h : EdgeOK M m leaf ctx i (some l) rhs (X ++ [e]) R) (s : S) :
    ∃ leaf' ctx', setSliceAt leaf ctx l s = .ok (leaf', ctx') ∧
      EdgeOK M m leaf' ctx' i (some l) rhs (X ++ [{ e with slice := s }]) R := by
  obtain ⟨p, A, B, L1, R1, rfl, rfl, h1, h2, hc, h3, rfl, hl, hr⟩ := h
  obtain ⟨n, k⟩ := l
  cases n with
  | zero =>
    have hk : A.length = k + 1 := hl
    obtain ⟨q, e1, rfl⟩ : ∃ q e, A = q ++ [e] :=
      ⟨A.dropLast, A.getLast (by intro h; simp [h] at hk), (List.dropLast_concat_getLast _).symm⟩
    have hq : q.length = k := by simpa using hk
    obtain ⟨rfl, rfl⟩ : X = L1 ++ q ∧ e = e1 := by
      have h4 : X ++ [e] = (L1 ++ q) ++ [e1] := by simpa using h3
      obtain ⟨h2, h3⟩ := List.append_inj' h4 rfl
      exact ⟨h2, by simpa using h3⟩
    refine ⟨leafOf p (q ++ { e with slice := s } :: B), ctx, ?_, ?_⟩
    · simp only [setSliceAt, List.append_assoc, List.cons_append, List.nil_append]
      rw [leafOf_setSlice hq]; rfl
    · refine ⟨p, q ++ [{ e with slice := s }], B, L1, R1, by simp, by simp, by simpa using h1, by simpa using h2,
        by simpa using hc, by simp, rfl, by simpa [LhsLeaf] using hq, by simpa using hr⟩
  | succ n =>
    obtain ⟨h4, h5⟩ := hl
    obtain rfl : A = [] := List.length_eq_zero_iff.mp h4
    obtain rfl : L1 = X ++ [e] := by simpa using h3.symm
    obtain ⟨ctx', b1, b2, b3⟩ := setSliceUp_lhs hm s hc h5
    obtain ⟨f1, f2, f3, f4⟩ := b2.facts
    refine ⟨_, ctx', ?_, p, [], B, _, R1, rfl, rfl, by rw [b2.lo]; exact h1, h2, b3, by simp, rfl,
      ⟨rfl, f3 _ _ h5⟩, ?_⟩
    · simp only [setSliceAt, b1]; rfl
    · cases rhs with
      | none => exact ⟨hr.1, f2 hr.2⟩
      | some r =>
        obtain ⟨a, b⟩ := r
        cases a with
        | zero => exact hr
        | succ a => exact ⟨hr.1, f4 _ _ hr.2⟩

theorem EdgeOK.set_rhs {M : Nat} {m : Maps Nat} (hm : m.sizes = false) {H : Nat} {leaf : Tree Nat S 1}
    {ctx : Ctx Nat S H 1} {i : Nat} {r : Nat × Nat} {lhs : Option (Nat × Nat)} {L Y : List (Ent S)} {e : Ent S}
    (h : EdgeOK M m leaf ctx i lhs (some r) L (e :: Y)) (s : S) :
    ∃ leaf' ctx', setSliceAt leaf ctx r s = .ok (leaf', ctx') ∧
      EdgeOK M m leaf' ctx' i lhs (some r) L ({ e with slice := s } :: Y) := by
  obtain ⟨p, A, B, L1, R1, rfl, rfl, h1, h2, hc, rfl, h3, hl, hr⟩ := h
  obtain ⟨n, k⟩ := r
  cases n with
  | zero =>
    obtain ⟨hk, hk2⟩ := hr
    cases B with
    | nil => simp at hk2
    | cons e1 B =>
    obtain ⟨rfl, rfl⟩ : e = e1 ∧ Y = B ++ R1 := by simpa using h3
    refine ⟨leafOf p (A ++ { e with slice := s } :: B), ctx, ?_, ?_⟩
    · simp only [setSliceAt]
      rw [leafOf_setSlice hk]; rfl
    · exact ⟨p, A, { e with slice := s } :: B, L1, R1, rfl, rfl, by simpa using h1, by simpa using h2,
        by simpa using hc, rfl, by simp, hl, hk, by simp⟩
  | succ n =>
    obtain ⟨h4, h5⟩ := hr
    obtain rfl : B = [] := List.length_eq_zero_iff.mp (by omega)
    obtain rfl : R1 = e :: Y := by simpa using h3.symm
    obtain ⟨ctx', b1, b2, b3⟩ := setSliceUp_rhs hm s hc h5
    obtain ⟨f1, f2, f3, f4⟩ := b2.facts
    refine ⟨_, ctx', ?_, p, A, [], L1, _, rfl, rfl, by rw [b2.lo]; exact h1, h2, b3, rfl, by simp,
      ?_, ⟨h4, f4 _ _ h5⟩⟩
    · simp only [setSliceAt, b1]; rfl
    · cases lhs with
      | none => exact ⟨hl.1, f1 hl.2⟩
      | some l =>
        obtain ⟨a, b⟩ := l
        cases a with
        | zero => exact hl
        | succ a => exact ⟨hl.1, f3 _ _ hl.2⟩

theorem finishJoin_spec {MAX : Nat} {E : Env Nat S} (hE : E.ix = natIdx MAX) {H : Nat} {leaf : Tree Nat S 1}
    {ctx : Ctx Nat S H 1} {hd : Nat × Nat} {cl} {X Y : List (Ent S)} {e : Ent S} {new : Nat} {w : World}
    (hcl : climb hd.1 leaf ctx = .ok cl) (hv : KeyView E.M (Maps.identity (natIdx MAX)) hd.2 X e Y cl)
    (hb1 : total X + e.size + total Y ≤ MAX) (hb2 : total X + new + total Y ≤ MAX) :
    ∃ post path w', finishJoin E leaf ctx hd e.size new w = .ok (post, path, w') ∧
      PostRep E.M post (X ++ { e with size := new } :: Y) := by
  obtain ⟨h, n, cx⟩ := cl
  obtain ⟨w', hw⟩ := emit_ok (cb := ⟨false, false⟩) (ev := .insertion (Node.ptr n) hd.2) w (by simp)
  obtain ⟨t, path, h1, h2⟩ := opKey_resize rfl hv (new := new) (path := []) hb1 hb2
  refine ⟨.done t, path, cx.readUp (ptrT n) w', ?_, h2⟩
  simp only [finishJoin, hcl, R.bind_ok, hw, hE, h1]
  rfl

end Sherman
