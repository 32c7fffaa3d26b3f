import Verif.NodeLemmas
/-!
# When a tree stores a list of entries, and repair of sizes on the way up
-/
namespace Sherman
variable {S C : Type}

/-- Subtree size over unsigned indices. -/
abbrev szN {h : Nat} : Tree Nat S h → Nat := szT (natIdx 0)

theorem szT_natIdx {MAX h : Nat} : (szT (natIdx MAX) : Tree Nat S h → Nat) = szN := by
  cases h <;> rfl

/-- `Rep M lo t es`: tree `t` stores the entries `es` in order; every stored position and size is
right; the root node has between `lo` and `2*M` keys, all others between `M` and `2*M`. -/
def Rep (M : Nat) : (lo : Nat) → {h : Nat} → Tree Nat S h → List (Ent S) → Prop
  | _, 0, _, es => es = []
  | lo, h + 1, n, es => ∃ (c : Tree Nat S h) (ec : List (Ent S)) (psr : List (Item S (Tree Nat S h))),
      n = mkG szN n.ptr [] c (szN c) psr ∧ Rep M M c ec ∧ (∀ it ∈ psr, Rep M M it.kid it.ents) ∧
      es = ec ++ entsR psr ∧ lo ≤ psr.length ∧ psr.length ≤ 2 * M

/-- All items' children store the items' entries. -/
def RepItems (M : Nat) {h : Nat} (l : List (Item S (Tree Nat S h))) : Prop :=
  ∀ it ∈ l, Rep M M it.kid it.ents

theorem RepItems.append {M h : Nat} {a b : List (Item S (Tree Nat S h))} :
    RepItems M (a ++ b) ↔ RepItems M a ∧ RepItems M b := by
  simp only [RepItems, List.mem_append]
  constructor
  · intro h; exact ⟨fun it hi => h it (.inl hi), fun it hi => h it (.inr hi)⟩
  · rintro ⟨h1, h2⟩ it (hi | hi)
    · exact h1 it hi
    · exact h2 it hi

theorem RepItems.cons {M h : Nat} {it : Item S (Tree Nat S h)} {b : List (Item S (Tree Nat S h))} :
    RepItems M (it :: b) ↔ Rep M M it.kid it.ents ∧ RepItems M b := by
  simp [RepItems]

theorem RepItems.nil {M h : Nat} : RepItems M ([] : List (Item S (Tree Nat S h))) := by
  simp [RepItems]

/-- The stored size is the sum of the entries' sizes. -/
theorem Rep.size {M lo : Nat} : {h : Nat} → {t : Tree Nat S h} → {es : List (Ent S)} → Rep M lo t es →
    szN t = total es
  | 0, _, _, h => by
    have h : _ = [] := h
    subst h; rfl
  | h + 1, n, es, hr => by
    obtain ⟨c, ec, psr, hn, hc, hi, he, _, _⟩ := hr
    have h1 := Rep.size hc
    have h2 : ∀ l : List (Item S (Tree Nat S h)), (∀ it ∈ l, Rep M M it.kid it.ents) →
        tot szN l = total (entsR l) := by
      intro l
      induction l with
      | nil => intro _; rfl
      | cons it l ih =>
        intro hl
        have h3 := Rep.size (hl it (by simp))
        have h4 := ih (fun x hx => hl x (by simp [hx]))
        simp only [tot_cons, entsR_cons, total_cons, total_append, h3, h4, Item.ent]
        omega
    have hs : szN (h := h + 1) n = (mkG szN n.ptr [] c (szN c) psr).size := by
      have := congrArg Node.size hn
      exact this
    rw [hs, he]
    simp [mkG, h1, h2 psr hi]

theorem RepItems.totL {M h : Nat} {l : List (Item S (Tree Nat S h))} (hl : RepItems M l) :
    tot szN l = total (entsL l) := by
  induction l with
  | nil => rfl
  | cons it l ih =>
    rw [RepItems.cons] at hl
    have h3 := Rep.size hl.1
    have h4 := ih hl.2
    simp only [tot_cons, entsL_cons, total_cons, total_append, h3, h4, Item.ent]
    omega

theorem RepItems.totR {M h : Nat} {l : List (Item S (Tree Nat S h))} (hl : RepItems M l) :
    tot szN l = total (entsR l) := by
  induction l with
  | nil => rfl
  | cons it l ih =>
    rw [RepItems.cons] at hl
    have h3 := Rep.size hl.1
    have h4 := ih hl.2
    simp only [tot_cons, entsR_cons, total_cons, total_append, h3, h4, Item.ent]
    omega

/-- Building a representation from any focus. -/
theorem Rep.ofFocus {M lo h p : Nat} {psl psr : List (Item S (Tree Nat S h))} {c : Tree Nat S h}
    {ec es : List (Ent S)} (hl : RepItems M psl) (hc : Rep M M c ec) (hr : RepItems M psr)
    (he : es = entsL psl ++ ec ++ entsR psr) (h1 : lo ≤ psl.length + psr.length)
    (h2 : psl.length + psr.length ≤ 2 * M) :
    Rep M lo (h := h + 1) (mkG szN p psl c (szN c) psr) es := by
  induction hn : psl.length generalizing psl c ec psr with
  | zero =>
    obtain rfl : psl = [] := List.length_eq_zero_iff.mp hn
    exact ⟨c, ec, psr, rfl, hc, hr, by simpa using he, by simpa using h1, by simpa using h2⟩
  | succ k ih =>
    obtain ⟨q, it, rfl⟩ : ∃ q it, psl = q ++ [it] :=
      ⟨psl.dropLast, psl.getLast (by intro h; simp [h] at hn), (List.dropLast_concat_getLast _).symm⟩
    rw [RepItems.append, RepItems.cons] at hl
    have hm := mkG_move szN p q it.kid { it with kid := c, ents := ec } psr it.ents
    simp only at hm
    rw [show mkG szN p (q ++ [it]) c (szN c) psr = _ from hm.symm]
    refine ih hl.1 hl.2.1 (RepItems.cons.mpr ⟨hc, hr⟩) ?_ ?_ ?_ ?_
    · simp [he, Item.ent]
    · simp at h1 ⊢; omega
    · simp at h2 ⊢; omega
    · simpa using hn

/-- Any child can be brought into focus. -/
theorem Rep.focus {M lo h : Nat} {n : Tree Nat S (h + 1)} {es : List (Ent S)} (hr : Rep M lo n es)
    {i : Nat} (hi : i ≤ Node.len n) :
    ∃ (psl psr : List (Item S (Tree Nat S h))) (c : Tree Nat S h) (ec : List (Ent S)),
      psl.length = i ∧ n = mkG szN (Node.ptr n) psl c (szN c) psr ∧ RepItems M psl ∧ Rep M M c ec ∧
      RepItems M psr ∧ es = entsL psl ++ ec ++ entsR psr ∧ lo ≤ psl.length + psr.length ∧
      psl.length + psr.length ≤ 2 * M := by
  induction i with
  | zero =>
    obtain ⟨c, ec, psr, hn, hc, hp, he, h1, h2⟩ := hr
    exact ⟨[], psr, c, ec, rfl, hn, RepItems.nil, hc, hp, by simp [he], by simpa using h1,
      by simpa using h2⟩
  | succ k ih =>
    obtain ⟨psl, psr, c, ec, hk, hn, hl, hc, hp, he, h1, h2⟩ := ih (by omega)
    cases psr with
    | nil =>
      have hn' : Node.len n = psl.length := by
        rw [hn]; simp [Node.len]
      omega
    | cons it psr =>
      rw [RepItems.cons] at hp
      refine ⟨psl ++ [{ it with kid := c, ents := ec }], psr, it.kid, it.ents, by simp [hk], ?_, ?_,
        hp.1, hp.2, ?_, ?_, ?_⟩
      · rw [← mkG_move]; exact hn
      · exact RepItems.append.mpr ⟨hl, RepItems.cons.mpr ⟨hc, RepItems.nil⟩⟩
      · simp [he, Item.ent]
      · simp at h1 ⊢; omega
      · simp at h2 ⊢; omega

/-! ## Contexts -/

/-- What happens to the items left of the hole at a level: usually nothing, but if the maps `m` of
`insert_rhs` resize a key at this level, then the last of them changes size. -/
def LhsChange (sz : C → Nat) (m : Maps Nat) (h : Nat) (psl psl' : List (Item S C)) : Prop :=
  if m.sizes = true ∧ h = m.lhsHeight then
    ∃ psl0 it, psl = psl0 ++ [it] ∧ psl' = psl0 ++ [{ it with size := m.newLhs }] ∧
      m.lhsPos = tot sz psl0 + sz it.kid ∧ m.oldLhs = it.size
  else psl' = psl

/-- Minimum number of keys of a node below the given ancestors. -/
def Ctx.lo {H h : Nat} (M : Nat) : Ctx Nat S H h → Nat
  | .top => 1
  | .frame .. => M

/-- `CtxRep M m ctx s L Rr L'`: the ancestors `ctx` of a subtree of (recorded) size `s` store the
entries `L` left of it and `Rr` right of it; `L'` is `L` after the resizing described by `m`. -/
def CtxRep (M : Nat) (m : Maps Nat) {H : Nat} : {h : Nat} → Ctx Nat S H h → Nat → List (Ent S) →
    List (Ent S) → List (Ent S) → Prop
  | _, .top, _, L, Rr, L' => L = [] ∧ Rr = [] ∧ L' = []
  | h, .frame _ size keys kl kr up, s, L, Rr, L' =>
    ∃ (psl psl' psr : List (Item S (Tree Nat S h))) (Lu Ru Lu' : List (Ent S)),
      keys = keysL szN 0 psl ++ keysR szN (tot szN psl + s) psr ∧
      kl = kidsOf psl ∧ kr = kidsOf psr ∧ size = tot szN psl + s + tot szN psr ∧
      RepItems M psl ∧ RepItems M psr ∧ LhsChange szN m h psl psl' ∧
      up.lo M ≤ psl.length + psr.length ∧ psl.length + psr.length ≤ 2 * M ∧
      L = Lu ++ entsL psl ∧ Rr = entsR psr ++ Ru ∧ L' = Lu' ++ entsL psl' ∧
      CtxRep M m up size Lu Ru Lu'

section LhsChangeLemmas
variable {sz : C → Nat} {m : Maps Nat} {h : Nat} {psl psl' : List (Item S C)}

theorem LhsChange.length (hc : LhsChange sz m h psl psl') : psl'.length = psl.length := by
  unfold LhsChange at hc
  split at hc
  · obtain ⟨q, it, rfl, rfl, _⟩ := hc; simp
  · rw [hc]

theorem LhsChange.keys (hc : LhsChange sz m h psl psl') (o : Nat) :
    keysL sz o psl' = keysL sz o psl := by
  unfold LhsChange at hc
  split at hc
  · obtain ⟨q, it, rfl, rfl, _⟩ := hc; simp [keysL_append]
  · rw [hc]

theorem LhsChange.kids (hc : LhsChange sz m h psl psl') : kidsOf psl' = kidsOf psl := by
  unfold LhsChange at hc
  split at hc
  · obtain ⟨q, it, rfl, rfl, _⟩ := hc; simp
  · rw [hc]
end LhsChangeLemmas

theorem LhsChange.rep {M : Nat} {m : Maps Nat} {h : Nat} {psl psl' : List (Item S (Tree Nat S h))}
    (hc : LhsChange szN m h psl psl') (hl : RepItems M psl) : RepItems M psl' := by
  unfold LhsChange at hc
  split at hc
  · obtain ⟨q, it, rfl, rfl, _⟩ := hc
    rw [RepItems.append, RepItems.cons] at hl ⊢
    exact ⟨hl.1, hl.2.1, RepItems.nil⟩
  · rw [hc]; exact hl

/-- One step of `OpUpdateState` at the parent of a resized child. -/
theorem opStep_child {MAX h p old new : Nat} {sz : C → Nat} {m : Maps Nat} {handled : Bool}
    {psl psl' psr : List (Item S C)} {c : C} (hc : LhsChange sz m h psl psl')
    (hh : handled = true → ¬ (m.sizes = true ∧ h = m.lhsHeight))
    (hb1 : tot sz psl + old + tot sz psr ≤ MAX) (hb2 : tot sz psl' + new + tot sz psr ≤ MAX) :
    opStep (natIdx MAX) m handled h (mkG sz p psl c old psr) (.child psl.length) none old new =
      .ok (mkG sz p psl' c new psr, tot sz psl + old + tot sz psr) := by
  set_option linter.unusedSimpArgs false in
  have hk : (mkG sz p psl c old psr).keys = keysL sz 0 psl ++ keysR sz (tot sz psl + old) psr := rfl
  have hl : (keysL sz 0 psl).length = psl.length := keysL_length _ _
  have hs : (mkG sz p psl c old psr).size = tot sz psl + old + tot sz psr := rfl
  have hn : (mkG sz p psl c old psr).nextPos psl.length = tot sz psl + old := nextPos_at hk hl hs
  have e1 : old ≤ tot sz psl + old := by omega
  have e2 : tot sz psl + old - old = tot sz psl := by omega
  have hpos : opPos (natIdx MAX) (mkG sz p psl c old psr) (.child psl.length) none old
      = .ok (tot sz psl) := by
    simp [opPos, hn, subL_ok e1]
  by_cases hm : m.sizes = true ∧ h = m.lhsHeight
  · have hnh : handled = false := by
      cases handled with
      | false => rfl
      | true => exact absurd hm (hh rfl)
    unfold LhsChange at hc
    rw [if_pos hm] at hc
    obtain ⟨q, it, rfl, rfl, hp, ho⟩ := hc
    simp only [tot_append, tot_cons, tot_nil] at hb1 hb2 hpos
    have a1 : m.lhsPos + m.oldLhs ≤ MAX := by omega
    have a2 : m.lhsPos + m.newLhs ≤ MAX := by omega
    have a3 : m.lhsPos + m.oldLhs ≤ tot sz q + (sz it.kid + it.size + 0) := by omega
    have a4 : tot sz q + (sz it.kid + it.size + 0) - (m.lhsPos + m.oldLhs) = 0 := by omega
    have a5 : (0 : Nat) + old ≤ MAX := by omega
    have a6 : m.oldLhs + (0 + old) ≤ MAX := by omega
    have a7 : (0 : Nat) + new ≤ MAX := by omega
    have a8 : m.newLhs + (0 + new) ≤ MAX := by omega
    have hms : mapSizes (natIdx MAX) m false h (mkG sz p (q ++ [it]) c old psr)
        (.child (q ++ [it]).length) none old new =
        .ok (mkG sz p (q ++ [it]) c old psr, some m.lhsPos, m.oldLhs + (0 + old),
          m.newLhs + (0 + new)) := by
      simp only [mapSizes, hm.1, hm.2]
      simp only [Bool.not_true, bne_self_eq_false, Bool.or_self, Bool.false_eq_true, if_false,
        addR_ok a1, addR_ok a2, R.bind_ok, hpos, subL_ok a3, a4, addL_ok a5, addL_ok a6, addL_ok a7,
        addL_ok a8, R.pure_eq]
    have hsh := shiftKeysAuto_at (MAX := MAX) (pos := m.lhsPos) (old := m.oldLhs + (0 + old))
      (new := m.newLhs + (0 + new)) (X' := tot sz q + (sz it.kid + m.newLhs) + new) hk hl hs
      (by simp; omega) (by omega) (by simp; omega) (by omega)
    subst hnh
    simp only [opStep, hms, R.bind_ok, opPos, R.pure_eq, hsh]
    simp only [mkG, tot_append, tot_cons, tot_nil, keysL_append, keysL_cons, keysL_nil, kidsOf_append,
      kidsOf_cons, kidsOf_nil, Nat.add_zero]
  · unfold LhsChange at hc
    rw [if_neg hm] at hc
    subst hc
    have hms : mapSizes (natIdx MAX) m handled h (mkG sz p psl' c old psr)
        (.child psl'.length) none old new = .ok (mkG sz p psl' c old psr, none, old, new) := by
      simp only [mapSizes]
      rw [if_pos]; rfl
      simp only [Bool.or_eq_true, Bool.not_eq_true', bne_iff_ne, ne_eq]
      by_cases h1 : m.sizes = true
      · left; right; intro h2; exact hm ⟨h1, h2⟩
      · left; left; simpa using h1
    have hsh := shiftKeysAuto_at (MAX := MAX) (pos := tot sz psl') (old := old) (new := new)
      (X' := tot sz psl' + new) hk hl hs rfl rfl (by omega) (by omega)
    simp only [opStep, hms, R.bind_ok, hpos, hsh, R.pure_eq, hs]
    rfl

/-- Repairing the sizes of all ancestors (`OpUpdateState::finish` from the parent on). -/
theorem opUp_spec {M MAX H : Nat} {m : Maps Nat} {handled : Bool} {h : Nat} (ctx : Ctx Nat S H h)
    {t : Tree Nat S h} {old : Nat} {L Rr L' es : List (Ent S)} {path : List Nat}
    (hctx : CtxRep M m ctx old L Rr L') (ht : Rep M (ctx.lo M) t es)
    (hh : handled = true → m.sizes = true → m.lhsHeight < h)
    (hb1 : total L + old + total Rr ≤ MAX) (hb2 : total L' + total es + total Rr ≤ MAX) :
    ∃ t' path', opUp (natIdx MAX) m handled ctx t old (szN t) path = .ok (t', path') ∧
      Rep M 1 t' (L' ++ es ++ Rr) := by
  induction ctx generalizing old L Rr L' es path with
  | top =>
    obtain ⟨rfl, rfl, rfl⟩ := hctx
    exact ⟨t, path, rfl, by simpa [Ctx.lo] using ht⟩
  | @frame h ptr size keys kl kr up ih =>
    obtain ⟨psl, psl', psr, Lu, Ru, Lu', rfl, rfl, rfl, hs, hl, hr, hc, hlo, hhi, rfl, rfl, rfl, hu⟩ :=
      hctx
    have hpl : plugNode ptr size (keysL szN 0 psl ++ keysR szN (tot szN psl + old) psr) (kidsOf psl) t
        (kidsOf psr) = mkG szN ptr psl t old psr := by
      simp [plugNode, mkG, hs]
    have hts := Rep.size ht
    have hl' := hc.rep hl
    have e1 := RepItems.totL hl
    have e2 := RepItems.totL hl'
    have e3 := RepItems.totR hr
    simp only [total_append] at hb1 hb2
    have hst := opStep_child (MAX := MAX) (p := ptr) (old := old) (new := szN t) (c := t)
      (handled := handled) (psr := psr) hc
      (by intro h1 h2; have := hh h1 h2.1; omega) (by omega) (by omega)
    have hsz : szN (h := h + 1) (mkG szN ptr psl' t (szN t) psr) =
        tot szN psl' + szN t + tot szN psr := rfl
    have hrep : Rep M (up.lo M) (h := h + 1) (mkG szN ptr psl' t (szN t) psr)
        (entsL psl' ++ es ++ entsR psr) :=
      Rep.ofFocus hl' ht hr rfl (by rw [hc.length]; exact hlo) (by rw [hc.length]; exact hhi)
    obtain ⟨t', path', h1, h2⟩ := ih (path := psl.length :: mapCursor m h path) hu hrep
      (by intro a b; have := hh a b; omega) (by omega) (by simp; omega)
    refine ⟨t', path', ?_, by simpa [List.append_assoc] using h2⟩
    simp only [opUp, hpl, kidsOf_length, hst, R.bind_ok]
    rw [hs] at h1
    exact h1

end Sherman
