import Verif.Erase
import Verif.Track
import Verif.RefProps
import Verif.TreeProps2
/-!
# Following the inserted slice with a mark: setup

Slices with a mark (a Boolean).  The parts of a split slice keep its mark; a joined slice is marked if one of the parts is.
Without the marks the program is the same (`Verif/Erase.lean`), so a mark tells where the inserted slice ended up.
-/
namespace Sherman
variable {I S : Type} {Ht : Nat}

/-- The slice type with marks. -/
def tagSl (sl : SliceOps I S) : SliceOps I (S × Bool) where
  mayJoin := sl.mayJoin
  splitAt s p := (((sl.splitAt s.1 p).1, s.2), ((sl.splitAt s.1 p).2, s.2))
  tryJoin a b := match sl.tryJoin a.1 b.1 with
    | .inl c => .inl (c, a.2 || b.2)
    | .inr (x, y) => .inr ((x, a.2), (y, b.2))

def tagE (E : Env I S) : Env I (S × Bool) := ⟨E.ix, tagSl E.sl, E.M, E.refs⟩

theorem tag_hom (E : Env I S) : Hom Prod.fst (tagE E) E := by
  refine ⟨rfl, rfl, rfl, rfl, fun _ _ => rfl, ?_⟩
  intro a b
  simp only [tagE, tagSl]
  cases E.sl.tryJoin a.1 b.1 <;> rfl

theorem tag_inl {sl : SliceOps I S} {a b c : S × Bool} (h : (tagSl sl).tryJoin a b = .inl c) : c.2 = (a.2 || b.2) := by
  simp only [tagSl] at h
  split at h
  · cases h; rfl
  · cases h

theorem tag_inr {sl : SliceOps I S} {a b c d : S × Bool} (h : (tagSl sl).tryJoin a b = .inr (c, d)) : c.2 = a.2 ∧ d.2 = b.2 := by
  simp only [tagSl] at h
  split at h
  · cases h
  · cases h; exact ⟨rfl, rfl⟩

/-- Marked. -/
def Tagged (s : S × Bool) : Prop := s.2 = true

theorem tag_sticky (E : Env I S) : Sticky (tagE E).sl (Tagged (S := S)) := by
  refine ⟨?_, ?_, ?_⟩
  · intro a b c h hq
    have := tag_inl h
    unfold Tagged at *
    rw [this]
    rcases hq with hq | hq <;> simp [hq]
  · intro a b a' b' h hq
    exact (tag_inr h).1.trans hq
  · intro a b a' b' h hq
    exact (tag_inr h).2.trans hq

/-! ## Changing the slices of a tree -/

variable {T : Type} {f : S → T}

def Ent.er (f : S → T) (e : Ent S) : Ent T := ⟨e.size, f e.slice, e.ref⟩

def Cell.er (f : S → T) (c : Cell S) : Cell T := ⟨c.path, c.ptr, c.idx, f c.slice, c.ref⟩

@[simp] theorem total_er (es : List (Ent S)) : total (es.map (Ent.er f)) = total es := by
  simp [total, Ent.er, Function.comp_def]

@[simp] theorem szN_er {h : Nat} (t : Tree Nat S h) : szN (erT f t) = szN t := by
  cases h <;> rfl

def Item.er (f : S → T) {h : Nat} (it : Item S (Tree Nat S h)) : Item T (Tree Nat T h) :=
  ⟨f it.slice, it.ref, it.size, erT f it.kid, it.ents.map (Ent.er f)⟩

theorem tot_er {h : Nat} (l : List (Item S (Tree Nat S h))) : tot szN (l.map (Item.er f)) = tot szN l := by
  induction l with
  | nil => rfl
  | cons it l ih => simp only [List.map_cons, tot_cons, ih]; simp [Item.er]

theorem keysR_er {h : Nat} (o : Nat) (l : List (Item S (Tree Nat S h))) :
    keysR szN o (l.map (Item.er f)) = (keysR szN o l).map (Key.er f) := by
  induction l generalizing o with
  | nil => rfl
  | cons it l ih => simp only [List.map_cons, keysR_cons, ih]; simp [Item.er, Key.er]

theorem kidsOf_er {h : Nat} (l : List (Item S (Tree Nat S h))) : kidsOf (l.map (Item.er f)) = (kidsOf l).map (erT f) := by
  simp [kidsOf, Item.er, Function.comp_def]

theorem entsR_er {h : Nat} (l : List (Item S (Tree Nat S h))) : entsR (l.map (Item.er f)) = (entsR l).map (Ent.er f) := by
  induction l with
  | nil => rfl
  | cons it l ih => simp only [List.map_cons, entsR_cons, ih, List.map_append]; simp [Item.er, Item.ent, Ent.er]

theorem Rep.er {M lo : Nat} : ∀ {h : Nat} {t : Tree Nat S h} {es : List (Ent S)}, Rep M lo t es →
    Rep M lo (erT f t) (es.map (Ent.er f)) := by
  intro h
  induction h generalizing lo with
  | zero =>
    intro t es hr
    have hr : es = [] := hr
    subst hr
    exact (rfl : ([] : List (Ent T)) = [])
  | succ h ih =>
    intro t es hr
    obtain ⟨c, ec, psr, hn, hc, hi, rfl, h1, h2⟩ := hr
    refine ⟨erT f c, ec.map (Ent.er f), psr.map (Item.er f), ?_, ih hc, ?_, ?_, ?_, ?_⟩
    · have : erT f t = Node.er f (erT f) (mkG szN (Node.ptr t) [] c (szN c) psr) := by rw [← hn]; rfl
      rw [this]
      simp [mkG, Node.er, tot_er, keysR_er, kidsOf_er]
      rfl
    · intro it hit
      obtain ⟨it, h3, rfl⟩ := List.mem_map.1 hit
      exact ih (hi it h3)
    · rw [List.map_append, entsR_er]
    · simpa using h1
    · simpa using h2

theorem Holds.er {E : Env Nat S} {F : Env Nat T} (hM : F.M = E.M) {t : RleTree Nat S} {es : List (Ent S)} (h : Holds E t es) :
    Holds F (t.er f) (es.map (Ent.er f)) := by
  obtain ⟨hp, h⟩ := h
  refine ⟨?_, ?_⟩
  · intro e he
    obtain ⟨e, h1, rfl⟩ := List.mem_map.1 he
    exact hp e h1
  · obtain ⟨root⟩ := t
    cases root with
    | none =>
      simp only at h
      subst h
      rfl
    | some r => exact ⟨by rw [hM]; exact h.1.er, by simpa [RleTree.er] using h.2⟩

theorem weave_er {p i : Nat} {cs : List (List (Cell S))} {ks : List (Key I S)} :
    weave p i (cs.map (List.map (Cell.er f))) (ks.map (Key.er f)) = (weave p i cs ks).map (Cell.er f) := by
  induction cs generalizing i ks with
  | nil => rfl
  | cons c cs ih =>
    cases ks with
    | nil => simp [weave, Cell.er, Cell.under, Function.comp_def]
    | cons k ks =>
      have := ih (i := i + 1) (ks := ks)
      simp only [List.map_cons, weave, this, List.map_append]
      simp [Cell.er, Cell.under, Function.comp_def, Key.er]

theorem cells_er : ∀ {h : Nat} (t : Tree I S h), cells (erT f t) = (cells t).map (Cell.er f)
  | 0, _ => rfl
  | h + 1, n => by
    have : (Node.kids (erT f n)).map cells = ((Node.kids n).map cells).map (List.map (Cell.er f)) := by
      change ((Node.kids n).map (erT f)).map cells = _
      rw [List.map_map, List.map_map]
      exact List.map_congr_left fun c _ => cells_er c
    simp only [cells]
    rw [this]
    exact weave_er

theorem places_er (t : RleTree I S) : (t.er f).places = t.places.map (Cell.er f) := by
  obtain ⟨root⟩ := t
  cases root with
  | none => rfl
  | some r => exact cells_er r.tree

theorem erT_id {g : T → S} (hg : ∀ s, g (f s) = s) : ∀ {h : Nat} (t : Tree I S h), erT g (erT f t) = t
  | 0, _ => rfl
  | h + 1, n => by
    change Node.er g (erT g) (Node.er f (erT f) n) = n
    obtain ⟨p, z, ks, cs⟩ := n
    simp only [Node.er, List.map_map]
    congr 1
    · conv => rhs; rw [← List.map_id ks]
      exact List.map_congr_left fun k _ => by simp [Key.er, hg]
    · conv => rhs; rw [← List.map_id cs]
      exact List.map_congr_left fun c _ => erT_id hg c

theorem RleTree.er_id {g : T → S} (hg : ∀ s, g (f s) = s) (t : RleTree I S) : (t.er f).er g = t := by
  obtain ⟨root⟩ := t
  cases root with
  | none => rfl
  | some r => simp [RleTree.er, erT_id hg]

/-! ## The place of a mark -/

theorem weave_kid {p i : Nat} {cs : List (List (Cell S))} {ks : List (Key I S)} (hl : cs.length ≤ ks.length + 1) {j : Nat} {l : List (Cell S)}
    (hj : cs[j]? = some l) {c : Cell S} (hc : c ∈ l) : c.under (i + j) ∈ weave p i cs ks := by
  induction cs generalizing i j ks with
  | nil => simp at hj
  | cons c0 cs ih =>
    cases ks with
    | nil =>
      have : cs = [] := by
        simp at hl
        exact hl
      subst this
      cases j with
      | zero =>
        simp at hj
        subst hj
        simp only [weave, Nat.add_zero]
        exact List.mem_map.2 ⟨c, hc, rfl⟩
      | succ j => simp at hj
    | cons k ks =>
      simp only [weave, List.mem_append, List.mem_cons]
      cases j with
      | zero =>
        simp at hj
        subst hj
        exact .inl (List.mem_map.2 ⟨c, hc, rfl⟩)
      | succ j =>
        simp at hj
        have := ih (i := i + 1) (ks := ks) (by simp at hl; omega) hj
        rw [show i + (j + 1) = i + 1 + j by omega]
        exact .inr (.inr this)

theorem weave_key {p i : Nat} {cs : List (List (Cell S))} {ks : List (Key I S)} (hl : ks.length < cs.length) {j : Nat} {k : Key I S}
    (hj : ks[j]? = some k) : ⟨[], p, i + j, k.slice, k.ref⟩ ∈ weave p i cs ks := by
  induction cs generalizing i j ks with
  | nil => simp at hl
  | cons c0 cs ih =>
    cases ks with
    | nil => simp at hj
    | cons k0 ks =>
      simp only [weave, List.mem_append, List.mem_cons]
      cases j with
      | zero =>
        simp at hj
        subst hj
        exact .inr (.inl rfl)
      | succ j =>
        simp at hj
        have := ih (i := i + 1) (ks := ks) (by simp at hl; omega) hj
        rw [show i + (j + 1) = i + 1 + j by omega]
        exact .inr (.inr this)

/-- The mark is at one of the places. -/
theorem TagAt.cell {q : S → Prop} {M lo : Nat} : ∀ {h : Nat} {t : Tree Nat S h} {es : List (Ent S)} {p : List Nat} {x : Nat × Nat},
    Rep M lo t es → TagAt q t p x → ∃ c ∈ cells t, c.path = p ∧ c.at = x ∧ q c.slice := by
  intro h
  induction h generalizing lo with
  | zero => intro t es p x _ ht; exact ht.elim
  | succ h ih =>
    intro n es p x hr ht
    have hl : (Node.kids n).length = (Node.keys n).length + 1 := by
      obtain ⟨c, ec, psr, hn, _⟩ := hr
      rw [hn]
      simp [mkG]
    cases p with
    | nil =>
      obtain ⟨h1, s, h2, h3⟩ := ht
      simp only [Node.sls, List.getElem?_map, Option.map_eq_some_iff] at h2
      obtain ⟨k, h2, rfl⟩ := h2
      have := weave_key (p := Node.ptr n) (i := 0) (cs := (Node.kids n).map cells) (by simp [hl]) h2
      refine ⟨_, this, rfl, ?_, h3⟩
      simp only [Cell.at, Nat.zero_add, h1]
    | cons c p =>
      obtain ⟨ch, h1, h2⟩ := ht
      have hrc : ∃ es, Rep M M ch es := by
        obtain ⟨psl, psr, c', ec, a1, hn, _, a3, _⟩ := hr.focus (i := c) (by
          have := (List.getElem?_eq_some_iff.mp h1).1
          simp only [Node.len]
          omega)
        refine ⟨ec, ?_⟩
        rw [hn] at h1
        simp only [mkG] at h1
        rw [List.getElem?_append_right (by simp [a1])] at h1
        simp [a1] at h1
        rw [← h1]
        exact a3
      obtain ⟨ec, hrc⟩ := hrc
      obtain ⟨c', d1, d2, d3, d4⟩ := ih hrc h2
      refine ⟨c'.under c, ?_, ?_, d3, d4⟩
      · have := weave_kid (p := Node.ptr n) (i := 0) (cs := (Node.kids n).map cells) (ks := Node.keys n) (by simp [hl]) (j := c) (l := cells ch)
          (by rw [List.getElem?_map, h1]; rfl) d1
        rw [Nat.zero_add] at this
        exact this
      · simp [Cell.under, d2]

/-! ## Specification: the mark is on one run, which covers the inserted positions -/

/-- One run is marked, and it covers the positions from `idx` on, `size` many. -/
def OneTag (es : List (Ent (S × Bool))) (idx size : Nat) : Prop :=
  ∃ A e B, es = A ++ e :: B ∧ e.slice.2 = true ∧ (∀ x ∈ A ++ B, x.slice.2 = false) ∧ total A ≤ idx ∧ idx + size ≤ total A + e.size

theorem OneTag.intro {es A B : List (Ent (S × Bool))} {e : Ent (S × Bool)} {idx size : Nat} (h : es = A ++ e :: B) (he : e.slice.2 = true)
    (hA : ∀ x ∈ A, x.slice.2 = false) (hB : ∀ x ∈ B, x.slice.2 = false) (h1 : total A ≤ idx) (h2 : idx + size ≤ total A + e.size) :
    OneTag es idx size :=
  ⟨A, e, B, h, he, fun x hx => (List.mem_append.1 hx).elim (hA x) (hB x), h1, h2⟩

theorem specSplit_tag {sl : SliceOps Nat S} {L R : List (Ent (S × Bool))} {e : Ent (S × Bool)} {o size : Nat} {s : S}
    (h : ∀ x ∈ L ++ e :: R, x.slice.2 = false) (ho : o < e.size) :
    OneTag (L ++ specSplit (tagSl sl) e o (s, true) size ++ R) (total L + o) size := by
  have hL : ∀ x ∈ L, x.slice.2 = false := fun x hx => h x (by simp [hx])
  have hR : ∀ x ∈ R, x.slice.2 = false := fun x hx => h x (by simp [hx])
  have he : e.slice.2 = false := h e (by simp)
  have hl : ((tagSl sl).splitAt e.slice o).1.2 = false := he
  have hr : ((tagSl sl).splitAt e.slice o).2.2 = false := he
  unfold specSplit
  generalize (tagSl sl).splitAt e.slice o = lr at hl hr
  obtain ⟨l, r⟩ := lr
  simp only at hl hr ⊢
  split
  · refine .intro (A := L ++ [⟨o, l, e.ref⟩]) (e := ⟨size, (s, true), none⟩) (B := ⟨e.size - o, r, none⟩ :: R) (by simp) rfl ?_ ?_ ?_ ?_
    · intro x hx; simp at hx; rcases hx with hx | rfl; exacts [hL x hx, hl]
    · intro x hx; simp at hx; rcases hx with rfl | hx; exacts [hr, hR x hx]
    · simp
    · simp
  · split
    · rename_i x hj
      have e1 := tag_inl hj
      simp only [Bool.or_true] at e1
      split
      · rename_i y hj2
        have e2 := tag_inl hj2
        rw [e1] at e2
        refine .intro (A := L) (e := ⟨o + size + (e.size - o), y, e.ref⟩) (B := R) (by simp) e2 hL hR ?_ ?_
        · omega
        · simp; omega
      · rename_i x' r' hj2
        have e2 := tag_inr hj2
        refine .intro (A := L) (e := ⟨o + size, x', e.ref⟩) (B := ⟨e.size - o, r', none⟩ :: R) (by simp) (e2.1.trans e1) hL ?_ ?_ ?_
        · intro x hx; simp at hx; rcases hx with rfl | hx; exacts [e2.2.trans hr, hR x hx]
        · omega
        · simp; omega
    · rename_i l' s' hj
      have e1 := tag_inr hj
      split
      · rename_i y hj2
        have e2 := tag_inl hj2
        refine .intro (A := L ++ [⟨o, l', e.ref⟩]) (e := ⟨size + (e.size - o), y, none⟩) (B := R) (by simp) (by rw [e2, e1.2]; rfl) ?_ hR ?_ ?_
        · intro x hx; simp at hx; rcases hx with hx | rfl; exacts [hL x hx, e1.1.trans hl]
        · simp
        · simp
      · rename_i s2 r' hj2
        have e2 := tag_inr hj2
        refine .intro (A := L ++ [⟨o, l', e.ref⟩]) (e := ⟨size, s2, none⟩) (B := ⟨e.size - o, r', none⟩ :: R) (by simp) (e2.1.trans e1.2) ?_ ?_ ?_ ?_
        · intro x hx; simp at hx; rcases hx with hx | rfl; exacts [hL x hx, e1.1.trans hl]
        · intro x hx; simp at hx; rcases hx with rfl | hx; exacts [e2.2.trans hr, hR x hx]
        · simp
        · simp

theorem specEdge_tag {sl : SliceOps Nat S} {L R : List (Ent (S × Bool))} {size : Nat} {s : S} {es'}
    (h : ∀ x ∈ L ++ R, x.slice.2 = false) (hs : specEdge (tagSl sl) L R (s, true) size = .ok es') : OneTag es' (total L) size := by
  have hL : ∀ x ∈ L, x.slice.2 = false := fun x hx => h x (by simp [hx])
  have hR : ∀ x ∈ R, x.slice.2 = false := fun x hx => h x (by simp [hx])
  unfold specEdge at hs
  split at hs
  · cases hs
    exact .intro (A := L) (e := ⟨size, (s, true), none⟩) (B := R) rfl rfl hL hR (by omega) (by simp)
  · rcases List.eq_nil_or_concat L with rfl | ⟨L', l, rfl⟩
    · cases R with
      | nil =>
        cases hs
        exact .intro (A := []) (e := ⟨size, (s, true), none⟩) (B := []) rfl rfl (by simp) (by simp) (by simp) (by simp)
      | cons r R =>
        have hr : r.slice.2 = false := hR r (by simp)
        have hR' : ∀ x ∈ R, x.slice.2 = false := fun x hx => hR x (by simp [hx])
        simp only [List.getLast?_nil] at hs
        split at hs
        · rename_i x hj
          cases hs
          have e1 := tag_inl hj
          exact .intro (A := []) (B := R) rfl (by rw [e1]; rfl) (by simp) hR' (by simp) (by simp)
        · rename_i a b hj
          cases hs
          have e1 := tag_inr hj
          refine .intro (A := []) rfl e1.1 (by simp) ?_ (by simp) (by simp)
          intro x hx; simp at hx; rcases hx with rfl | hx; exacts [e1.2.trans hr, hR' x hx]
    · have hl : l.slice.2 = false := hL l (by simp)
      have hL' : ∀ x ∈ L', x.slice.2 = false := fun x hx => hL x (by simp [hx])
      simp only [List.concat_eq_append, List.getLast?_append, List.getLast?_singleton, Option.some_or, List.dropLast_concat] at hs ⊢
      cases R with
      | nil =>
        simp only at hs
        split at hs
        · rename_i x hj
          cases hs
          have e1 := tag_inl hj
          refine .intro (A := L') (B := []) rfl (by rw [e1]; simp) hL' (by simp) ?_ ?_ <;> simp; omega
        · rename_i a b hj
          cases hs
          have e1 := tag_inr hj
          refine .intro (A := L' ++ [⟨l.size, a, l.ref⟩]) (B := []) (e := ⟨size, b, none⟩) (by simp) e1.2 ?_ (by simp) ?_ ?_
          · intro x hx; simp at hx; rcases hx with hx | rfl; exacts [hL' x hx, e1.1.trans hl]
          · simp
          · simp
      | cons r R =>
        have hr : r.slice.2 = false := hR r (by simp)
        have hR' : ∀ x ∈ R, x.slice.2 = false := fun x hx => hR x (by simp [hx])
        simp only at hs
        split at hs
        · rename_i x hj
          have e1 := tag_inl hj
          split at hs
          · cases hs
          · rename_i a b hj2
            cases hs
            have e2 := tag_inr hj2
            refine .intro (A := L') rfl (by rw [e2.1, e1]; simp) hL' ?_ ?_ ?_
            · intro x hx; simp at hx; rcases hx with rfl | hx; exacts [e2.2.trans hr, hR' x hx]
            · simp
            · simp; omega
        · rename_i a s' hj
          have e1 := tag_inr hj
          split at hs
          · rename_i x hj2
            cases hs
            have e2 := tag_inl hj2
            refine .intro (A := L' ++ [⟨l.size, a, l.ref⟩]) (e := ⟨size + r.size, x, r.ref⟩) (B := R) (by simp) (by rw [e2, e1.2]; rfl) ?_ hR' ?_ ?_
            · intro x hx; simp at hx; rcases hx with hx | rfl; exacts [hL' x hx, e1.1.trans hl]
            · simp
            · simp
          · rename_i s2 b hj2
            cases hs
            have e2 := tag_inr hj2
            refine .intro (A := L' ++ [⟨l.size, a, l.ref⟩]) (e := ⟨size, s2, none⟩) (B := ⟨r.size, b, r.ref⟩ :: R) (by simp)
              (e2.1.trans e1.2) ?_ ?_ ?_ ?_
            · intro x hx; simp at hx; rcases hx with hx | rfl; exacts [hL' x hx, e1.1.trans hl]
            · intro x hx; simp at hx; rcases hx with rfl | hx; exacts [e2.2.trans hr, hR' x hx]
            · simp
            · simp

theorem specInsert_tag {sl : SliceOps Nat S} {es es' : List (Ent (S × Bool))} {idx size : Nat} {s : S}
    (h : ∀ x ∈ es, x.slice.2 = false) (hidx : idx ≤ total es) (hs : specInsert (tagSl sl) es idx (s, true) size = .ok es') :
    OneTag es' idx size := by
  obtain ⟨L, R, o, h1, rfl, rfl, h2⟩ := cutAt_spec hidx
  unfold specInsert at hs
  rw [h1] at hs
  rcases h2 with ⟨rfl, rfl⟩ | ⟨e, R', rfl, h2⟩
  · exact specEdge_tag h hs
  · cases o with
    | zero => exact specEdge_tag h hs
    | succ o =>
      cases hs
      exact specSplit_tag h h2

/-! ## Which run is split -/

/-- When the insertion point is inside of a key, that is the key of the run around the position; its place is as deep as
its node. -/
theorem findPoint_cell {MAX : Nat} {E : Env Nat S} (hE : E.ix = natIdx MAX) : ∀ {h lo : Nat} {n : Tree Nat S (h + 1)}
    {ctx : Ctx Nat S Ht (h + 1)} {hints : Option (List Nat)} {t : Nat} {lhs rhs : Option (Nat × Nat)} {es : List (Ent S)}
    {h' : Nat} {n' : Tree Nat S (h' + 1)} {ctx' : Ctx Nat S Ht (h' + 1)} {k o : Nat},
    Rep E.M lo n es → Pos es → t ≤ total es → findPoint E n ctx hints t lhs rhs = .ok (.split h' n' ctx' k o) →
    ∃ a e b c, es = a ++ e :: b ∧ t = total a + o ∧ 0 < o ∧ o < e.size ∧ (cells n)[a.length]? = some c ∧
      c.path.length + h' = h ∧ (Node.sls n')[k]? = some e.slice ∧ c.ptr = Node.ptr n' := by
  intro h
  have done : ∀ {h lo : Nat} {n : Tree Nat S (h + 1)} {t : Nat} {es : List (Ent S)} {psl psr' : List (Item S (Tree Nat S h))}
      {it : Item S (Tree Nat S h)} {c : Tree Nat S h} {ec : List (Ent S)}, Rep E.M lo n es → Pos es →
      n = mkG szN (Node.ptr n) psl c (szN c) (it :: psr') → RepItems E.M psl → Rep E.M E.M c ec →
      es = entsL psl ++ ec ++ entsR (it :: psr') → tot szN psl + szN c < t → t < tot szN psl + szN c + it.size →
      ∃ a e b c', es = a ++ e :: b ∧ t = total a + (t - (tot szN psl + szN c)) ∧ 0 < t - (tot szN psl + szN c) ∧
        t - (tot szN psl + szN c) < e.size ∧ (cells n)[a.length]? = some c' ∧
      c'.path.length + h = h ∧ (Node.sls n)[psl.length]? = some e.slice ∧ c'.ptr = Node.ptr n := by
    intro h lo n t es psl psr' it c ec hr hp hn a1 a2 a4 h1 h2
    obtain ⟨_, b2, b3, _⟩ := search_key (MAX := total es) (base := 0) hr hp hn a1 a2 a4 (by omega) h2 (by omega)
    refine ⟨entsL psl ++ ec, it.ent, it.ents ++ entsR psr', _, by rw [a4]; simp, by omega, by omega, ?_, b3, by simp, ?_, rfl⟩
    · change _ < it.size
      omega
    · rw [hn]
      simp [Node.sls, mkG, Item.ent]
  induction h with
  | zero =>
    intro lo n ctx hints t lhs rhs es h' n' ctx' k o hr hp ht hf
    obtain ⟨psl, psr, c, ec, hn, a1, a2, a3, a4, a5, a6, a7⟩ := findStep_spec (MAX := MAX) hr hp ht
    rcases a7 with ⟨hs, h1, h2⟩ | ⟨it, psr', rfl, hs, h1, h2⟩
    · simp only [findPoint, hE, hs, R.bind_ok] at hf
      cases hf
    · have hh : Node.handle n psl.length = .ok ⟨tot szN psl + szN c, it.slice, it.ref⟩ := by
        rw [hn]
        exact handle_at (A := keysL szN 0 psl) rfl (by simp)
      simp only [findPoint, hE, hs, R.bind_ok, hh, subL_ok (Nat.le_of_lt h1)] at hf
      cases hf
      exact done hr hp hn a1 a2 a4 h1 h2
  | succ h ih =>
    intro lo n ctx hints t lhs rhs es h' n' ctx' k o hr hp ht hf
    obtain ⟨psl, psr, c, ec, hn, a1, a2, a3, a4, a5, a6, a7⟩ := findStep_spec (MAX := MAX) hr hp ht
    rcases a7 with ⟨hs, h1, h2⟩ | ⟨it, psr', rfl, hs, h1, h2⟩
    · have hch : Node.child n psl.length = .ok c := by
        rw [hn]; exact child_at (KA := kidsOf psl) rfl (by simp)
      simp only [findPoint, hE, hs, R.bind_ok, hch, subL_ok h1] at hf
      have hpc : Pos ec := by
        rw [a4, Pos.append, Pos.append] at hp
        exact hp.1.2
      have e1 := RepItems.totL a1
      have e2 := a2.size
      obtain ⟨a, e, b, c', g1, g2, g3, g4, g5, g6, g7, g8⟩ := ih a2 hpc (by omega) hf
      refine ⟨entsL psl ++ a, e, b ++ entsR psr, c'.under psl.length, by rw [a4, g1]; simp, by rw [total_append]; omega, g3, g4, ?_, ?_, g7, g8⟩
      · rw [hn, cells_mkG]
        have l1 := cellsL_length (p := Node.ptr n) (i := 0) a1
        have l2 := (List.getElem?_eq_some_iff.mp g5).1
        rw [List.append_assoc, List.getElem?_append_right (by simp [mkG, l1]), List.getElem?_append_left (by simp [mkG, l1]; omega)]
        simp [mkG, l1, g5]
      · simp only [Cell.under, List.length_cons]
        omega
    · have hh : Node.handle n psl.length = .ok ⟨tot szN psl + szN c, it.slice, it.ref⟩ := by
        rw [hn]
        exact handle_at (A := keysL szN 0 psl) rfl (by simp)
      simp only [findPoint, hE, hs, R.bind_ok, hh, subL_ok (Nat.le_of_lt h1)] at hf
      cases hf
      exact done hr hp hn a1 a2 a4 h1 h2

end Sherman
