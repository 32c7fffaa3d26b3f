import Verif.Find
/-!
# Joining with adjacent slices: reaching and changing the keys next to an insertion point
-/
namespace Sherman
variable {S : Type}

/-- The key `k` of a node with its ancestors: `X` is stored before it, `Y` after it. -/
def KeyView (M : Nat) (m : Maps Nat) {H : Nat} (k : Nat) (X : List (Ent S)) (e : Ent S) (Y : List (Ent S)) :
    ((h : Nat) × Tree Nat S (h + 1) × Ctx Nat S H (h + 1)) → Prop
  | ⟨h, n, ctx⟩ => ∃ (p : Nat) (psl psr : List (Item S (Tree Nat S h))) (it : Item S (Tree Nat S h))
      (c : Tree Nat S h) (ec L R : List (Ent S)),
      n = mkG szN p psl c (szN c) (it :: psr) ∧ psl.length = k ∧ RepItems M psl ∧ Rep M M c ec ∧
      RepItems M (it :: psr) ∧ ctx.lo M ≤ psl.length + (psr.length + 1) ∧
      psl.length + (psr.length + 1) ≤ 2 * M ∧
      CtxRep M m ctx (tot szN psl + szN c + tot szN (it :: psr)) L R L ∧
      X = L ++ entsL psl ++ ec ∧ e = it.ent ∧ Y = it.ents ++ entsR psr ++ R

theorem LhsChange.off {C : Type} {sz : C → Nat} {m : Maps Nat} (hm : m.sizes = false) {h : Nat}
    {psl psl' : List (Item S C)} : LhsChange sz m h psl psl' ↔ psl' = psl := by
  unfold LhsChange; rw [if_neg (by simp [hm])]

/-- Inert maps at one level and above. -/
theorem LhsChange.inert {C : Type} {sz : C → Nat} {m : Maps Nat} {h : Nat}
    (hm : ¬ (m.sizes = true ∧ h = m.lhsHeight)) {psl psl' : List (Item S C)} :
    LhsChange sz m h psl psl' ↔ psl' = psl := by
  unfold LhsChange; rw [if_neg hm]

/-- Maps that do not concern the ancestors can be exchanged. -/
theorem CtxRep.remap {M : Nat} {m m' : Maps Nat} {H h : Nat} {ctx : Ctx Nat S H h} {s : Nat}
    {L Rr L' : List (Ent S)} (hc : CtxRep M m ctx s L Rr L') (hm : m.sizes = true → m.lhsHeight < h)
    (hm' : m'.sizes = true → m'.lhsHeight < h) : CtxRep M m' ctx s L Rr L := by
  induction ctx generalizing s L Rr L' with
  | top =>
    obtain ⟨rfl, rfl, rfl⟩ := hc
    exact ⟨rfl, rfl, rfl⟩
  | @frame h ptr size keys kl kr up ih =>
    obtain ⟨psl, psl', psr, Lu, Ru, Lu', a1, a2, a3, a4, a5, a6, a7, a8, a9, a10, a11, a12, hu⟩ := hc
    refine ⟨psl, psl, psr, Lu, Ru, Lu, a1, a2, a3, a4, a5, a6, ?_, a8, a9, a10, a11, a10, ?_⟩
    · rw [LhsChange.inert]
      rintro ⟨b1, b2⟩; have := hm' b1; omega
    · exact ih hu (fun a => by have := hm a; omega) (fun a => by have := hm' a; omega)

theorem Ctx.le {I H h : Nat} (ctx : Ctx Nat S H h) : h ≤ H := by
  induction ctx with
  | top => omega
  | frame _ _ _ _ _ _ ih => omega

theorem szN_mkG {h p : Nat} {psl psr : List (Item S (Tree Nat S h))} {c : Tree Nat S h} {s : Nat} :
    szN (h := h + 1) (mkG szN p psl c s psr) = tot szN psl + s + tot szN psr := rfl

/-- The key left of a subtree. -/
theorem climb_lhs {M : Nat} {m : Maps Nat} (hm : m.sizes = false) {H : Nat} : ∀ {n h : Nat}
    {ctx : Ctx Nat S H (h + 1)} {t : Tree Nat S (h + 1)} {es L Rr : List (Ent S)} {k : Nat},
    CtxRep M m ctx (szN t) L Rr L → Rep M (ctx.lo M) t es → LhsAt n ctx k →
    ∃ cl X e, climb (n + 1) t ctx = .ok cl ∧ L = X ++ [e] ∧ KeyView M m k X e (es ++ Rr) cl := by
  intro n
  induction n with
  | zero =>
    intro h ctx t es L Rr k hc hr hl
    cases ctx with
    | top => exact hl.elim
    | frame ptr size keys kl kr up =>
      obtain ⟨psl, psl', psr, Lu, Ru, Lu', rfl, rfl, rfl, hs, a5, a6, a7, a8, a9, rfl, rfl, a12, hu⟩ := hc
      rw [LhsChange.off hm] at a7
      subst a7
      have hLu : Lu = Lu' := by
        have := congrArg List.reverse a12
        exact List.append_cancel_right a12
      subst hLu
      have hk : psl'.length = k + 1 := by simpa [LhsAt] using hl
      obtain ⟨q, it, rfl⟩ : ∃ q it, psl' = q ++ [it] :=
        ⟨psl'.dropLast, psl'.getLast (by intro h; simp [h] at hk), (List.dropLast_concat_getLast _).symm⟩
      have hpl : plugNode ptr size (keysL szN 0 (q ++ [it]) ++ keysR szN (tot szN (q ++ [it]) + szN t) psr)
          (kidsOf (q ++ [it])) t (kidsOf psr) =
          mkG szN ptr q it.kid (szN it.kid) ({ it with kid := t, ents := es } :: psr) := by
        have := mkG_move szN ptr q it.kid { it with kid := t, ents := es } psr it.ents
        rw [this]
        simp [plugNode, mkG, hs]
      rw [RepItems.append, RepItems.cons] at a5
      refine ⟨⟨h + 1, mkG szN ptr q it.kid (szN it.kid) ({ it with kid := t, ents := es } :: psr), up⟩,
        Lu ++ entsL q ++ it.ents, it.ent, ?_, ?_, ?_⟩
      · simp only [climb]
        rw [hpl]; rfl
      · simp
      · refine ⟨ptr, q, psr, { it with kid := t, ents := es }, it.kid, it.ents, Lu, Ru, rfl, by simpa using hk,
          a5.1, a5.2.1, RepItems.cons.mpr ⟨hr, a6⟩, by simp at a8; omega, by simp at a9; omega, ?_, rfl, rfl,
          by simp⟩
        have e : tot szN q + szN it.kid + tot szN ({ it with kid := t, ents := es } :: psr) = size := by
          rw [hs]; simp; omega
        rw [e]; exact hu
  | succ n ih =>
    intro h ctx t es L Rr k hc hr hl
    cases ctx with
    | top => exact hl.elim
    | frame ptr size keys kl kr up =>
      obtain ⟨psl, psl', psr, Lu, Ru, Lu', rfl, rfl, rfl, hs, a5, a6, a7, a8, a9, rfl, rfl, a12, hu⟩ := hc
      rw [LhsChange.off hm] at a7
      subst a7
      obtain ⟨h1, h2⟩ := hl
      obtain rfl : psl' = [] := by
        cases psl' with
        | nil => rfl
        | cons _ _ => simp at h1
      have hLu : Lu = Lu' := by simpa using a12
      subst hLu
      have hpl : plugNode ptr size (keysL szN 0 ([] : List (Item S (Tree Nat S (h + 1)))) ++
            keysR szN (tot szN ([] : List (Item S (Tree Nat S (h + 1)))) + szN t) psr)
          (kidsOf ([] : List (Item S (Tree Nat S (h + 1))))) t (kidsOf psr) = mkG szN ptr [] t (szN t) psr := by
        simp [plugNode, mkG, hs]
      have hrep : Rep M (up.lo M) (h := h + 2) (mkG szN ptr [] t (szN t) psr) (es ++ entsR psr) :=
        Rep.ofFocus RepItems.nil hr a6 (by simp) a8 a9
      obtain ⟨cl, X, e, b1, b2, b3⟩ := ih (t := mkG szN ptr [] t (szN t) psr) (k := k)
        (by rw [szN_mkG, ← hs]; exact hu) hrep h2
      refine ⟨cl, X, e, ?_, by simp [b2], by simpa using b3⟩
      rw [climb, hpl]
      exact b1

/-- The key right of a subtree. -/
theorem climb_rhs {M : Nat} {m : Maps Nat} (hm : m.sizes = false) {H : Nat} : ∀ {n h : Nat}
    {ctx : Ctx Nat S H (h + 1)} {t : Tree Nat S (h + 1)} {es L Rr : List (Ent S)} {k : Nat},
    CtxRep M m ctx (szN t) L Rr L → Rep M (ctx.lo M) t es → RhsAt n ctx k →
    ∃ cl Y e, climb (n + 1) t ctx = .ok cl ∧ Rr = e :: Y ∧ KeyView M m k (L ++ es) e Y cl := by
  intro n
  induction n with
  | zero =>
    intro h ctx t es L Rr k hc hr hl
    cases ctx with
    | top => exact hl.elim
    | frame ptr size keys kl kr up =>
      obtain ⟨psl, psl', psr, Lu, Ru, Lu', rfl, rfl, rfl, hs, a5, a6, a7, a8, a9, rfl, rfl, a12, hu⟩ := hc
      rw [LhsChange.off hm] at a7
      subst a7
      have hLu : Lu = Lu' := List.append_cancel_right a12
      subst hLu
      obtain ⟨hk, hne⟩ := hl
      cases psr with
      | nil => simp at hne
      | cons it psr =>
      refine ⟨⟨h + 1, mkG szN ptr psl' t (szN t) (it :: psr), up⟩, it.ents ++ entsR psr ++ Ru, it.ent, ?_, ?_, ?_⟩
      · simp only [climb]
        have : plugNode ptr size (keysL szN 0 psl' ++ keysR szN (tot szN psl' + szN t) (it :: psr))
          (kidsOf psl') t (kidsOf (it :: psr)) = mkG szN ptr psl' t (szN t) (it :: psr) := by
          simp [plugNode, mkG, hs]
        rw [this]; rfl
      · simp
      · refine ⟨ptr, psl', psr, it, t, es, Lu, Ru, rfl, by simpa using hk,
          a5, hr, a6, by simpa using a8, by simpa using a9, ?_, rfl, rfl, rfl⟩
        rw [← hs]; exact hu
  | succ n ih =>
    intro h ctx t es L Rr k hc hr hl
    cases ctx with
    | top => exact hl.elim
    | frame ptr size keys kl kr up =>
      obtain ⟨psl, psl', psr, Lu, Ru, Lu', rfl, rfl, rfl, hs, a5, a6, a7, a8, a9, rfl, rfl, a12, hu⟩ := hc
      rw [LhsChange.off hm] at a7
      subst a7
      have hLu : Lu = Lu' := List.append_cancel_right a12
      subst hLu
      obtain ⟨h1, h2⟩ := hl
      obtain rfl : psr = [] := by
        cases psr with
        | nil => rfl
        | cons _ _ => simp at h1
      have hpl : plugNode ptr size (keysL szN 0 psl' ++
            keysR szN (tot szN psl' + szN t) ([] : List (Item S (Tree Nat S (h + 1)))))
          (kidsOf psl') t (kidsOf ([] : List (Item S (Tree Nat S (h + 1))))) = mkG szN ptr psl' t (szN t) [] := by
        simp [plugNode, mkG, hs]
      have hrep : Rep M (up.lo M) (h := h + 2) (mkG szN ptr psl' t (szN t) []) (entsL psl' ++ es) :=
        Rep.ofFocus a5 hr RepItems.nil (by simp) a8 a9
      obtain ⟨cl, X, e, b1, b2, b3⟩ := ih (t := mkG szN ptr psl' t (szN t) []) (k := k)
        (by rw [szN_mkG, ← hs]; exact hu) hrep h2
      refine ⟨cl, X, e, ?_, by simp [b2], by simpa using b3⟩
      rw [climb, hpl]
      exact b1

/-! ## What is known at an edge -/

/-- An edge of a leaf (index `i`), the entries left and right of it, and the handles to the adjacent
keys. -/
def EdgeOK (M : Nat) (m : Maps Nat) {H : Nat} (leaf : Tree Nat S 1) (ctx : Ctx Nat S H 1) (i : Nat)
    (lhs rhs : Option (Nat × Nat)) (L R : List (Ent S)) : Prop :=
  ∃ p A B L1 R1, leaf = leafOf p (A ++ B) ∧ i = A.length ∧ ctx.lo M ≤ A.length + B.length ∧
    A.length + B.length ≤ 2 * M ∧ CtxRep M m ctx (total A + total B) L1 R1 L1 ∧
    L = L1 ++ A ∧ R = B ++ R1 ∧ LhsLeaf ctx i lhs ∧ RhsLeaf ctx i (A.length + B.length) rhs

theorem Rep.leafAB {M : Nat} {H : Nat} {ctx : Ctx Nat S H 1} {p : Nat} {A B : List (Ent S)}
    (h1 : ctx.lo M ≤ A.length + B.length) (h2 : A.length + B.length ≤ 2 * M) :
    Rep M (ctx.lo M) (Sherman.leafOf p (A ++ B)) (A ++ B) :=
  Rep.leafOf (by simpa using h1) (by simpa using h2)

theorem szN_leafOf {p : Nat} {es : List (Ent S)} : szN (leafOf p es) = total es := rfl

/-- A leaf around one of its keys. -/
theorem leafOf_mkG {p : Nat} {A B : List (Ent S)} {e : Ent S} :
    leafOf p (A ++ e :: B) =
      (mkG szN p (toItems A) uu (szN (uu : Tree Nat S 0)) (toItem e :: toItems B) : Node Nat S (Tree Nat S 0)) := by
  have hkl : ∀ (o : Nat) (A : List (Ent S)), keysL szN o (toItems A) = ks o A := by
    intro o A
    induction A generalizing o with
    | nil => rfl
    | cons x A ih =>
      have : toItems (x :: A) = toItem x :: toItems A := rfl
      rw [this, keysL_cons, ih]
      rfl
  have h0 : szN (uu : Tree Nat S 0) = 0 := rfl
  have ht : toItem e :: toItems B = toItems (e :: B) := rfl
  simp only [leafOf, lf, mkG, hkl, h0, ht, tot_toItems, Nat.add_zero, ← ks_eq]
  congr 1
  · simp
  · rw [ks_append]; simp
  · exact kids0_ext (by simp [toItems]; omega)

theorem entsL_toItems (es : List (Ent S)) : entsL (toItems es) = es := by
  induction es with
  | nil => rfl
  | cons e es ih =>
    have : entsL (toItems (e :: es)) = [] ++ e :: entsL (toItems es) := by
      rw [toItems, List.map_cons, entsL_cons]; rfl
    rw [this, ih]; simp

theorem RepItems.toItems {M : Nat} (es : List (Ent S)) : RepItems M (toItems es) := by
  intro it hi
  simp only [Sherman.toItems, List.mem_map] at hi
  obtain ⟨e, _, rfl⟩ := hi
  rfl

/-- The view of a key in a leaf. -/
theorem KeyView.leaf {M : Nat} {m : Maps Nat} {H : Nat} {ctx : Ctx Nat S H 1} {p : Nat} {A B : List (Ent S)}
    {e : Ent S} {L R : List (Ent S)} (h1 : ctx.lo M ≤ A.length + (B.length + 1))
    (h2 : A.length + (B.length + 1) ≤ 2 * M) (hc : CtxRep M m ctx (total A + (e.size + total B)) L R L) :
    KeyView M m A.length (L ++ A) e (B ++ R) ⟨0, leafOf p (A ++ e :: B), ctx⟩ := by
  refine ⟨p, toItems A, toItems B, toItem e, uu, [], L, R, leafOf_mkG, by simp [toItems],
    RepItems.toItems A, rfl, ?_, by simpa [toItems] using h1, by simpa [toItems] using h2, ?_, ?_, rfl, ?_⟩
  · exact RepItems.toItems (e :: B)
  · have e1 : tot szN (toItems A) + szN (uu : Tree Nat S 0) + tot szN (toItem e :: toItems B) =
        total A + (e.size + total B) := by
      have : toItem e :: toItems B = toItems (e :: B) := rfl
      rw [this, tot_toItems, tot_toItems, szN_zero]; simp
    rw [e1]; exact hc
  · rw [entsL_toItems]; simp
  · rw [entsR_toItems]; simp [toItem]

theorem EdgeOK.lhs_none {M : Nat} {m : Maps Nat} (hm : m.sizes = false) {H : Nat} {leaf : Tree Nat S 1}
    {ctx : Ctx Nat S H 1} {i : Nat} {rhs : Option (Nat × Nat)} {L R : List (Ent S)}
    (h : EdgeOK M m leaf ctx i none rhs L R) : L = [] := by
  obtain ⟨p, A, B, L1, R1, rfl, rfl, h1, h2, hc, rfl, rfl, ⟨hl, hl2⟩, hr⟩ := h
  obtain rfl : A = [] := List.length_eq_zero_iff.mp hl
  have : ∀ {h : Nat} (ctx : Ctx Nat S H h) (s : Nat) (L R : List (Ent S)), CtxRep M m ctx s L R L →
      LhsNone ctx → L = [] := by
    intro h ctx
    induction ctx with
    | top => intro s L R hc _; exact hc.1
    | frame ptr size keys kl kr up ih =>
      intro s L R hc hn
      obtain ⟨psl, psl', psr, Lu, Ru, Lu', rfl, rfl, rfl, hs, a5, a6, a7, a8, a9, rfl, rfl, a12, hu⟩ := hc
      rw [LhsChange.off hm] at a7
      subst a7
      have hLu : Lu = Lu' := List.append_cancel_right a12
      subst hLu
      obtain ⟨h1, h2⟩ := hn
      obtain rfl : psl' = [] := by
        cases psl' with
        | nil => rfl
        | cons _ _ => simp at h1
      rw [ih _ _ _ hu h2]; rfl
  simp [this ctx _ _ _ hc hl2]

theorem EdgeOK.rhs_none {M : Nat} {m : Maps Nat} (hm : m.sizes = false) {H : Nat} {leaf : Tree Nat S 1}
    {ctx : Ctx Nat S H 1} {i : Nat} {lhs : Option (Nat × Nat)} {L R : List (Ent S)}
    (h : EdgeOK M m leaf ctx i lhs none L R) : R = [] := by
  obtain ⟨p, A, B, L1, R1, rfl, rfl, h1, h2, hc, rfl, rfl, hl, ⟨hr, hr2⟩⟩ := h
  obtain rfl : B = [] := List.length_eq_zero_iff.mp (by omega)
  have : ∀ {h : Nat} (ctx : Ctx Nat S H h) (s : Nat) (L R : List (Ent S)), CtxRep M m ctx s L R L →
      RhsNone ctx → R = [] := by
    intro h ctx
    induction ctx with
    | top => intro s L R hc _; exact hc.2.1
    | frame ptr size keys kl kr up ih =>
      intro s L R hc hn
      obtain ⟨psl, psl', psr, Lu, Ru, Lu', rfl, rfl, rfl, hs, a5, a6, a7, a8, a9, rfl, rfl, a12, hu⟩ := hc
      rw [LhsChange.off hm] at a7
      subst a7
      have hLu : Lu = Lu' := List.append_cancel_right a12
      subst hLu
      obtain ⟨h1, h2⟩ := hn
      obtain rfl : psr = [] := by
        cases psr with
        | nil => rfl
        | cons _ _ => simp at h1
      rw [ih _ _ _ hu h2]; rfl
  simp [this ctx _ _ _ hc hr2]

theorem EdgeOK.lhs_view {M : Nat} {m : Maps Nat} (hm : m.sizes = false) {H : Nat} {leaf : Tree Nat S 1}
    {ctx : Ctx Nat S H 1} {i : Nat} {l : Nat × Nat} {rhs : Option (Nat × Nat)} {L R : List (Ent S)}
    (h : EdgeOK M m leaf ctx i (some l) rhs L R) :
    ∃ X e cl, L = X ++ [e] ∧ climb l.1 leaf ctx = .ok cl ∧ KeyView M m l.2 X e R cl := by
  obtain ⟨p, A, B, L1, R1, rfl, rfl, h1, h2, hc, rfl, rfl, hl, hr⟩ := h
  obtain ⟨n, k⟩ := l
  cases n with
  | zero =>
    have hk : A.length = k + 1 := hl
    obtain ⟨q, e, rfl⟩ : ∃ q e, A = q ++ [e] :=
      ⟨A.dropLast, A.getLast (by intro h; simp [h] at hk), (List.dropLast_concat_getLast _).symm⟩
    have hq : q.length = k := by simpa using hk
    subst hq
    refine ⟨L1 ++ q, e, ⟨0, leafOf p (q ++ [e] ++ B), ctx⟩, by simp, rfl, ?_⟩
    rw [List.append_assoc]
    simp only [List.length_append, List.length_cons, List.length_nil] at h1 h2
    exact KeyView.leaf (by omega) (by omega) (by
      have e1 : total q + (e.size + total B) = total (q ++ [e]) + total B := by simp; omega
      rw [e1]; exact hc)
  | succ n =>
    obtain ⟨h3, h4⟩ := hl
    obtain rfl : A = [] := List.length_eq_zero_iff.mp h3
    obtain ⟨cl, X, e, b1, b2, b3⟩ := climb_lhs hm (t := leafOf p ([] ++ B)) (es := [] ++ B)
      (by rw [szN_leafOf, total_append]; exact hc) (Rep.leafAB h1 h2) h4
    exact ⟨X, e, cl, by simp [b2], b1, by simpa using b3⟩

theorem EdgeOK.rhs_view {M : Nat} {m : Maps Nat} (hm : m.sizes = false) {H : Nat} {leaf : Tree Nat S 1}
    {ctx : Ctx Nat S H 1} {i : Nat} {r : Nat × Nat} {lhs : Option (Nat × Nat)} {L R : List (Ent S)}
    (h : EdgeOK M m leaf ctx i lhs (some r) L R) :
    ∃ Y e cl, R = e :: Y ∧ climb r.1 leaf ctx = .ok cl ∧ KeyView M m r.2 L e Y cl := by
  obtain ⟨p, A, B, L1, R1, rfl, rfl, h1, h2, hc, rfl, rfl, hl, hr⟩ := h
  obtain ⟨n, k⟩ := r
  cases n with
  | zero =>
    obtain ⟨rfl, hk2⟩ := hr
    cases B with
    | nil => simp at hk2
    | cons e B =>
    exact ⟨B ++ R1, e, ⟨0, leafOf p (A ++ e :: B), ctx⟩, by simp, rfl,
      KeyView.leaf (by simpa using h1) (by simpa using h2) (by simpa using hc)⟩
  | succ n =>
    obtain ⟨h3, h4⟩ := hr
    obtain rfl : B = [] := List.length_eq_zero_iff.mp (by omega)
    obtain ⟨cl, Y, e, b1, b2, b3⟩ := climb_rhs hm (t := leafOf p (A ++ [])) (es := A ++ [])
      (by rw [szN_leafOf, total_append]; exact hc) (Rep.leafAB h1 h2) h4
    exact ⟨Y, e, cl, by simp [b2], b1, by simpa using b3⟩

/-! ## Reading and resizing -/

theorem KeyView.read {MAX M : Nat} {m : Maps Nat} {H k : Nat} {X Y : List (Ent S)} {e : Ent S}
    {h : Nat} {n : Tree Nat S (h + 1)} {ctx : Ctx Nat S H (h + 1)} (hv : KeyView M m k X e Y ⟨h, n, ctx⟩) :
    (∃ pos, Node.handle n k = .ok ⟨pos, e.slice, e.ref⟩) ∧
      Node.sliceSize (natIdx MAX) (szT (natIdx MAX)) n k = .ok e.size := by
  obtain ⟨p, psl, psr, it, c, ec, L, R, rfl, rfl, a1, a2, a3, a4, a5, a6, rfl, rfl, rfl⟩ := hv
  refine ⟨⟨tot szN psl + szN c, ?_⟩, ?_⟩
  · exact handle_at (A := keysL szN 0 psl) rfl (by simp)
  · rw [szT_natIdx]
    exact sliceSize_at (A := keysL szN 0 psl) (KA := kidsOf psl ++ [c]) (KB := kidsOf psr)
      (psr := psr) (X := tot szN psl + szN c + it.size + szN it.kid) rfl (by simp) (by simp [mkG])
      (by simp) (by simp [mkG]; omega) rfl

theorem handleAt_spec {MAX M : Nat} {m : Maps Nat} {H : Nat} {leaf : Tree Nat S 1} {ctx : Ctx Nat S H 1}
    {hd : Nat × Nat} {X Y : List (Ent S)} {e : Ent S} {cl} (hcl : climb hd.1 leaf ctx = .ok cl)
    (hv : KeyView M m hd.2 X e Y cl) :
    handleAt (natIdx MAX) leaf ctx hd = .ok (e.slice, e.size) := by
  obtain ⟨h, n, cx⟩ := cl
  obtain ⟨⟨pos, h1⟩, h2⟩ := hv.read (MAX := MAX)
  simp only [handleAt, hcl, Sherman.R.bind_ok, h1, h2]
  rfl

/-- Resizing a key and repairing everything above. -/
theorem opKey_resize {MAX M : Nat} {m : Maps Nat} (hm : m.sizes = false) {H k : Nat} {X Y : List (Ent S)}
    {e : Ent S} {h : Nat} {n : Tree Nat S (h + 1)} {ctx : Ctx Nat S H (h + 1)}
    (hv : KeyView M m k X e Y ⟨h, n, ctx⟩) {new : Nat} {path : List Nat}
    (hb1 : total X + e.size + total Y ≤ MAX) (hb2 : total X + new + total Y ≤ MAX) :
    ∃ t path', opKey (natIdx MAX) m false ctx n k none e.size new path = .ok (t, path') ∧
      Rep M 1 t (X ++ { e with size := new } :: Y) := by
  obtain ⟨p, psl, psr, it, c, ec, L, R, rfl, rfl, a1, a2, a3, a4, a5, a6, rfl, rfl, rfl⟩ := hv
  rw [RepItems.cons] at a3
  have e1 := RepItems.totL a1
  have e2 := RepItems.totR a3.2
  have e3 := a2.size
  have e4 := a3.1.size
  simp only [total_append, Item.ent] at hb1 hb2
  have hkp : Node.keyPos (mkG szN p psl c (szN c) (it :: psr)) psl.length = .ok (tot szN psl + szN c) :=
    keyPos_at (A := keysL szN 0 psl) (k := ⟨tot szN psl + szN c, it.slice, it.ref⟩)
      (B := keysR szN (tot szN psl + szN c + it.size + szN it.kid) psr) rfl (keysL_length _ _)
  have hsh2 : Node.shiftKeysAuto (natIdx MAX) (mkG szN p psl c (szN c) (it :: psr)) (psl.length + 1)
      (tot szN psl + szN c) it.size new =
      .ok (mkG szN p psl c (szN c) ({ it with size := new } :: psr)) := by
    by_cases hlt : it.size < new
    · have d1 : tot szN psl + szN c + it.size ≤ MAX := by omega
      have d2 : tot szN psl + szN c + new ≤ MAX := by omega
      have d3 : tot szN psl + szN c + it.size ≤ tot szN psl + szN c + new := by omega
      have hl : decide (psl.length + 1 ≤ Node.len (mkG szN p psl c (szN c) (it :: psr))) = true := by
        simp [Node.len]
      have hkd : (mkG szN p psl c (szN c) (it :: psr)).keys =
          (keysL szN 0 psl ++ [⟨tot szN psl + szN c, it.slice, it.ref⟩]) ++
            keysR szN (tot szN psl + szN c + it.size + szN it.kid) psr := by simp [mkG]
      have hdrop : (mkG szN p psl c (szN c) (it :: psr)).keys.drop (psl.length + 1) =
          keysR szN (tot szN psl + szN c + it.size + szN it.kid) psr := by
        rw [hkd]; exact List.drop_left' (by simp)
      have htake : (mkG szN p psl c (szN c) (it :: psr)).keys.take (psl.length + 1) =
          keysL szN 0 psl ++ [⟨tot szN psl + szN c, it.slice, it.ref⟩] := by
        rw [hkd]; exact List.take_left' (by simp)
      have hd : tot szN psl + szN c + new - (tot szN psl + szN c + it.size) = new - it.size := by omega
      have hmap := mapPos_add_keysR (sz := szN) (MAX := MAX) (d := new - it.size)
        (tot szN psl + szN c + it.size + szN it.kid) psr (by omega)
      have hs : (mkG szN p psl c (szN c) (it :: psr)).size =
        tot szN psl + szN c + (szN it.kid + it.size + tot szN psr) := rfl
      have hs2 : new - it.size + (tot szN psl + szN c + (szN it.kid + it.size + tot szN psr)) ≤ MAX := by omega
      simp only [Node.shiftKeysAuto, natIdx_lt, decide_eq_true hlt, Node.shiftKeys, hl, weakAssert_true,
        Sherman.R.bind_ok, addR_ok d1, addR_ok d2, subL_ok d3, if_true, Node.setKeyPossWith, hdrop, htake, hd, hmap, hs,
        addL_ok hs2]
      simp only [mkG, Sherman.R.pure_eq, tot_cons, keysR_cons, kidsOf_cons]
      congr 2
      · omega
      · simp; congr 1; omega
    · have d1 : tot szN psl + szN c + it.size ≤ MAX := by omega
      have d2 : tot szN psl + szN c + new ≤ MAX := by omega
      have d3 : tot szN psl + szN c + new ≤ tot szN psl + szN c + it.size := by omega
      have hl : decide (psl.length + 1 ≤ Node.len (mkG szN p psl c (szN c) (it :: psr))) = true := by
        simp [Node.len]
      have hkd : (mkG szN p psl c (szN c) (it :: psr)).keys =
          (keysL szN 0 psl ++ [⟨tot szN psl + szN c, it.slice, it.ref⟩]) ++
            keysR szN (tot szN psl + szN c + it.size + szN it.kid) psr := by simp [mkG]
      have hdrop : (mkG szN p psl c (szN c) (it :: psr)).keys.drop (psl.length + 1) =
          keysR szN (tot szN psl + szN c + it.size + szN it.kid) psr := by
        rw [hkd]; exact List.drop_left' (by simp)
      have htake : (mkG szN p psl c (szN c) (it :: psr)).keys.take (psl.length + 1) =
          keysL szN 0 psl ++ [⟨tot szN psl + szN c, it.slice, it.ref⟩] := by
        rw [hkd]; exact List.take_left' (by simp)
      have hd : tot szN psl + szN c + it.size - (tot szN psl + szN c + new) = it.size - new := by omega
      have hmap := mapPos_sub_keysR (sz := szN) (MAX := MAX) (d := it.size - new)
        (tot szN psl + szN c + it.size + szN it.kid) psr (by omega)
      have hs : (mkG szN p psl c (szN c) (it :: psr)).size =
        tot szN psl + szN c + (szN it.kid + it.size + tot szN psr) := rfl
      have hs2 : it.size - new ≤ tot szN psl + szN c + (szN it.kid + it.size + tot szN psr) := by omega
      simp only [Node.shiftKeysAuto, natIdx_lt, decide_eq_false hlt, Node.shiftKeys, hl, weakAssert_true,
        Sherman.R.bind_ok, addR_ok d1, addR_ok d2, subR_ok d3, Bool.false_eq_true, if_false, Node.setKeyPossWith, hdrop,
        htake, hd, hmap, hs, subL_ok hs2]
      simp only [mkG, Sherman.R.pure_eq, tot_cons, keysR_cons, kidsOf_cons]
      congr 2
      · omega
      · simp; congr 1; omega
  have hms := mapSizes_inert (ix := natIdx MAX) (m := m) (handled := false) (h := h)
    (n := mkG szN p psl c (szN c) (it :: psr)) (cok := .key psl.length) (ov := none) (old := it.size)
    (new := new) (.inr (by simp [hm]))
  have hrep : Rep M (ctx.lo M) (h := h + 1) (mkG szN p psl c (szN c) ({ it with size := new } :: psr))
      (entsL psl ++ ec ++ entsR ({ it with size := new } :: psr)) :=
    Rep.ofFocus a1 a2 (RepItems.cons.mpr ⟨a3.1, a3.2⟩) rfl (by simpa using a4) (by simpa using a5)
  obtain ⟨t', path', h1, h2⟩ := opUp_spec (MAX := MAX) (handled := false) (path := mapCursor m h path) ctx a6 hrep
    (by simp) (by simp; omega) (by simp [Item.ent]; omega)
  refine ⟨t', path', ?_, by simpa [Item.ent] using h2⟩
  have hst : opStep (natIdx MAX) m false h (mkG szN p psl c (szN c) (it :: psr)) (.key psl.length) none it.size new
      = .ok (mkG szN p psl c (szN c) ({ it with size := new } :: psr),
        tot szN psl + szN c + tot szN (it :: psr)) := by
    simp only [opStep, hms, Sherman.R.bind_ok, opPos, hkp, hsh2]
    rfl
  simp only [opKey, Item.ent]
  rw [hst]
  exact h1

end Sherman
