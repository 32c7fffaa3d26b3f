import Verif.ConstProps
import Verif.CowProps
import Verif.SerdeProps
/-!
# C60: neighbouring runs cannot be joined

According to src/public_traits.rs:77-78, `try_join` is "*always* called whenever the slice on either side of this one changes".  So neighbours in a
tree would never be joinable.  That is true for all slice types for which the ends that touch decide whether two slices join (C12 is a special case), and
false in general: parts of a split run are not offered to the neighbours of the run.
-/
namespace Sherman
variable {S X Y : Type} {MAX : Nat} {E : Env Nat S}

/-- A slice type with ends: whether two slices join depends on the right end of the first and the left end of the second; joining, splitting
and failing to join keep the ends that stay outside.  Specification of implementors of src/public_traits.rs:48-90 -/
structure Ends (sl : SliceOps Nat S) (lft : S → X) (rgt : S → Y) (J : Y → X → Prop) : Prop where
  may : sl.mayJoin = true
  join : ∀ {a b c}, sl.tryJoin a b = .inl c → J (rgt a) (lft b) ∧ lft c = lft a ∧ rgt c = rgt b
  noJoin : ∀ {a b a' b'}, sl.tryJoin a b = .inr (a', b') → ¬ J (rgt a) (lft b) ∧ lft a' = lft a ∧ rgt a' = rgt a ∧ lft b' = lft b ∧ rgt b' = rgt b
  split : ∀ s o, lft (sl.splitAt s o).1 = lft s ∧ rgt (sl.splitAt s o).2 = rgt s

/-- No two neighbours can be joined.  Specification of src/public_traits.rs:77-78 -/
def Settled (sl : SliceOps Nat S) (es : List (Ent S)) : Prop :=
  ∀ A a b B, es = A ++ a :: b :: B → ∀ c, sl.tryJoin a.slice b.slice ≠ .inl c

/-- The ends that touch do not join.  Used in proofs (src/public_traits.rs:48-90). -/
abbrev EndsApart (lft : S → X) (rgt : S → Y) (J : Y → X → Prop) (a b : Ent S) : Prop := ¬ J (rgt a.slice) (lft b.slice)

theorem Ends.settled {sl : SliceOps Nat S} {lft : S → X} {rgt : S → Y} {J : Y → X → Prop} (he : Ends sl lft rgt J) {es : List (Ent S)} :
    Settled sl es ↔ es.IsChain (EndsApart lft rgt J) := by
  constructor
  · intro h
    induction es with
    | nil => exact .nil
    | cons e es ih =>
      cases es with
      | nil => exact .singleton _
      | cons b es =>
        refine .cons_cons (fun hj => ?_) (ih fun A a c B hab => h (e :: A) a c B (by rw [hab]; rfl))
        cases hc : sl.tryJoin e.slice b.slice with
        | inl c => exact h [] e b es rfl c hc
        | inr p => exact (he.noJoin (a' := p.1) (b' := p.2) hc).1 hj
  · intro h A a b B hab c hc
    rw [hab, List.isChain_append, List.isChain_cons_cons] at h
    exact h.2.1.1 (he.join hc).1

theorem specInsert_apart {sl : SliceOps Nat S} {lft : S → X} {rgt : S → Y} {J : Y → X → Prop} (he : Ends sl lft rgt J)
    {es es' : List (Ent S)} {idx : Nat} {s : S} {size : Nat} (hidx : idx ≤ total es) (h : es.IsChain (EndsApart lft rgt J))
    (hs : specInsert sl es idx s size = .ok es') : es'.IsChain (EndsApart lft rgt J) := by
  obtain ⟨L, R, o, h1, rfl, rfl, h4⟩ := cutAt_spec hidx
  have hm : ¬ (sl.mayJoin = false) := by rw [he.may]; simp
  simp only [specInsert, h1] at hs
  cases o with
  | succ o =>
    rcases h4 with ⟨_, h4⟩ | ⟨e, R, rfl, h4⟩
    · cases h4
    · simp only at hs
      cases hs
      obtain ⟨p1, p2⟩ := he.split e.slice (o + 1)
      rw [List.isChain_append, List.isChain_cons] at h
      obtain ⟨hL, ⟨hR1, hR2⟩, hLR⟩ := h
      unfold specSplit
      simp only [if_neg hm]
      split
      · rename_i x hx
        obtain ⟨-, j2, j3⟩ := he.join hx
        split
        · rename_i y hy
          obtain ⟨-, k2, k3⟩ := he.join hy
          simp only [List.append_assoc, List.isChain_append, List.isChain_cons, List.singleton_append, EndsApart] at *
          grind
        · rename_i x' r' hy
          obtain ⟨k1, k2, k3, k4, k5⟩ := he.noJoin hy
          simp only [List.append_assoc, List.isChain_append, List.isChain_cons, List.cons_append, List.nil_append, EndsApart] at *
          grind
      · rename_i l' s' hx
        obtain ⟨j1, j2, j3, j4, j5⟩ := he.noJoin hx
        split
        · rename_i y hy
          obtain ⟨-, k2, k3⟩ := he.join hy
          simp only [List.append_assoc, List.isChain_append, List.isChain_cons, List.cons_append, List.nil_append, EndsApart] at *
          grind
        · rename_i x' r' hy
          obtain ⟨k1, k2, k3, k4, k5⟩ := he.noJoin hy
          simp only [List.append_assoc, List.isChain_append, List.isChain_cons, List.cons_append, List.nil_append, EndsApart] at *
          grind
  | zero =>
    simp only at hs
    unfold specEdge at hs
    rw [if_neg hm] at hs
    rcases List.eq_nil_or_concat L with rfl | ⟨L, l, rfl⟩
    · cases R with
      | nil =>
        simp only [List.getLast?_nil] at hs
        cases hs
        exact .singleton _
      | cons r R =>
        simp only [List.nil_append, List.isChain_cons] at h
        simp only [List.getLast?_nil] at hs
        split at hs
        · rename_i x hx
          obtain ⟨-, j2, j3⟩ := he.join hx
          cases hs
          simp only [List.isChain_cons, EndsApart] at *
          grind
        · rename_i a b hx
          obtain ⟨j1, j2, j3, j4, j5⟩ := he.noJoin hx
          cases hs
          simp only [List.isChain_cons, EndsApart] at *
          grind
    · rw [List.concat_eq_append] at *
      cases R with
      | nil =>
        simp only [List.append_nil, List.isChain_append, List.isChain_cons] at h
        simp only [List.getLast?_concat, List.dropLast_concat] at hs
        split at hs
        · rename_i x hx
          obtain ⟨-, j2, j3⟩ := he.join hx
          cases hs
          simp only [List.isChain_append, List.isChain_cons, EndsApart] at *
          grind
        · rename_i a b hx
          obtain ⟨j1, j2, j3, j4, j5⟩ := he.noJoin hx
          cases hs
          simp only [List.isChain_append, List.isChain_cons, EndsApart] at *
          grind
      | cons r R =>
        simp only [List.append_assoc, List.singleton_append, List.isChain_append, List.isChain_cons] at h
        simp only [List.getLast?_concat, List.dropLast_concat] at hs
        split at hs
        · rename_i x hx
          obtain ⟨-, j2, j3⟩ := he.join hx
          split at hs
          · cases hs
          · rename_i a b hy
            obtain ⟨k1, k2, k3, k4, k5⟩ := he.noJoin hy
            cases hs
            simp only [List.isChain_append, List.isChain_cons, EndsApart] at *
            grind
        · rename_i a s' hx
          obtain ⟨j1, j2, j3, j4, j5⟩ := he.noJoin hx
          split at hs
          · rename_i x hy
            obtain ⟨-, k2, k3⟩ := he.join hy
            cases hs
            simp only [List.isChain_append, List.isChain_cons, EndsApart] at *
            grind
          · rename_i s2 b hy
            obtain ⟨k1, k2, k3, k4, k5⟩ := he.noJoin hy
            cases hs
            simp only [List.isChain_append, List.isChain_cons, EndsApart] at *
            grind

/-- **C60, partial.** Whatever was inserted, no two neighbouring runs could be joined.  Missing: slice types without ends in this sense, for
which it is false (`joinable_neighbours`). -/
theorem never_joinable_partial (hE : E.ix = natIdx MAX) {lft : S → X} {rgt : S → Y} {J : Y → X → Prop} (he : Ends E.sl lft rgt J) {t : RleTree Nat S}
    (ht : Reach MAX E t) : Settled E.sl t.runs := by
  rw [he.settled]
  induction ht with
  | empty h =>
    simp only [RleTree.newEmpty, bind_ok_iff] at h
    obtain ⟨_, _, _, _, h⟩ := h
    cases h
    exact .nil
  | single _ h =>
    simp only [RleTree.new, bind_ok_iff] at h
    obtain ⟨_, _, _, _, _, _, h⟩ := h
    cases h
    exact .singleton _
  | @insert t t' nop hints idx s size w out ht hs h ih =>
    have h1 := insert_ok_conditions hE ht hs h
    exact specInsert_apart he (by rw [← (size_eq_total hE ht).1]; exact h1.1) ih (insert_runs hE ht hs h)
  | @relabel t f ht ih =>
    have h1 := ((ht.holds hE).2.1.relabel f).2
    have h2 : (t.relabel f).runs.map (·.slice) = t.runs.map (·.slice) := by
      have := congrArg (List.map Prod.snd) h1
      simpa only [List.map_map, Function.comp_def] using this
    rw [← List.isChain_map (f := fun e : Ent S => e.slice) (R := fun a b : S => ¬ J (rgt a) (lft b))] at ih ⊢
    rw [h2]; exact ih
  | @alike t t' e ht ih =>
    rw [(e.holds (ht.holds hE).2.1).runs]; exact ih

/-- **C60, partial**, for trees that share nodes: after any program of insertions, clones and drops.  Missing: as for `never_joinable_partial`. -/
theorem never_joinable_cow_partial {imax : Nat} (hE : E.ix = natIdx MAX) (hM : 1 ≤ E.M) (hM' : E.M ≤ 127) {lft : S → X} {rgt : S → Y} {J : Y → X → Prop}
    (he : Ends E.sl lft rgt J) {cow : Bool} {ops : List (Cow.Op Nat S)} (hops : ∀ op ∈ ops, op.fits MAX) {st : Cow.St Nat S}
    (h : Cow.St.run E imax cow Cow.St.init ops = .ok st) {i : Nat} {es : List (Ent S)} (hi : Cow.runsOf st i = .ok es) : Settled E.sl es := by
  obtain ⟨ss, -, hr⟩ := Cow.run_sound hE hM hM' hops h
  simp only [Cow.runsOf, bind_ok_iff] at hi
  obtain ⟨t, h1, h2⟩ := hi
  cases h2
  by_cases hs : ∃ es, ss[i]? = some (some es)
  · obtain ⟨es, hes⟩ := hs
    obtain ⟨t', k1, k2, -⟩ := hr.view i es hes
    rw [h1] at k1
    cases k1
    exact never_joinable_partial hE he k2
  · have : st.tree i = .error _ := Cow.St.tree_error (hr.noTree fun es he => hs ⟨es, he⟩)
    simp only [Cow.St.view, this] at h1
    cases h1

/-! ## Slice types with ends -/

/-- `Constant`: both ends are the value. -/
theorem constSl_ends {T : Type} [BEq T] [LawfulBEq T] : Ends (constSl T) id id (fun a b => (a == b) = true) where
  may := rfl
  join := by
    intro a b c h
    simp only [constSl] at h
    split at h
    · rename_i hab; cases h; exact ⟨hab, rfl, by simpa using hab⟩
    · cases h
  noJoin := by
    intro a b a' b' h
    simp only [constSl] at h
    split at h
    · cases h
    · rename_i hab; cases h; exact ⟨hab, rfl, rfl, rfl, rfl⟩
  split := fun _ _ => ⟨rfl, rfl⟩

/-- Pieces of a buffer: the ends are where they start and stop. -/
theorem pieceSl_ends : Ends pieceSl Prod.fst Prod.snd Eq where
  may := rfl
  join := by
    intro a b c h
    simp only [pieceSl] at h
    split at h
    · rename_i hab; cases h; exact ⟨hab, rfl, rfl⟩
    · cases h
  noJoin := by
    intro a b a' b' h
    simp only [pieceSl] at h
    split at h
    · cases h
    · rename_i hab; cases h; exact ⟨hab, rfl, rfl, rfl, rfl⟩
  split := fun _ _ => ⟨rfl, rfl⟩

/-! ## All slice types -/

/-- What the documentation asks of `try_join` (src/public_traits.rs:72-83): it hands back what does not join, and if `x` and `y` join but `y` and `z`
do not, then neither do `x` joined with `y`, and `z`. -/
structure Documented (sl : SliceOps Nat S) : Prop where
  back : ∀ {a b a' b'}, sl.tryJoin a b = .inr (a', b') → a' = a ∧ b' = b
  trans : ∀ {x y z xy}, sl.tryJoin x y = .inl xy → (∀ c, sl.tryJoin y z ≠ .inl c) → ∀ c, sl.tryJoin xy z ≠ .inl c

/-- An inserted slice and its two neighbours, if it was not joined: neither pair joins.  Specification of src/public_traits.rs:77-78 -/
def Offered (sl : SliceOps Nat S) (es : List (Ent S)) (idx : Nat) (s : S) (size : Nat) : Prop :=
  ∃ A x B, es = A ++ x :: B ∧ total A ≤ idx ∧ idx + size ≤ total A + x.size ∧
    (x.size = size → x.slice = s ∧ (∀ l ∈ A.getLast?, ∀ c, sl.tryJoin l.slice s ≠ .inl c) ∧ ∀ r ∈ B.head?, ∀ c, sl.tryJoin s r.slice ≠ .inl c)

theorem specInsert_offered {sl : SliceOps Nat S} (hm : sl.mayJoin = true) (hb : ∀ {a b a' b'}, sl.tryJoin a b = .inr (a', b') → a' = a ∧ b' = b)
    {es es' : List (Ent S)} (hp : Pos es) {idx : Nat} {s : S} {size : Nat} (hidx : idx ≤ total es) (hs : specInsert sl es idx s size = .ok es') :
    Offered sl es' idx s size := by
  obtain ⟨L, R, o, h1, rfl, rfl, h4⟩ := cutAt_spec hidx
  have hm : ¬ (sl.mayJoin = false) := by rw [hm]; simp
  have no : ∀ {a b : S} {p}, sl.tryJoin a b = .inr p → ∀ c, sl.tryJoin a b ≠ .inl c := by
    intro a b p h c hc; rw [h] at hc; cases hc
  simp only [specInsert, h1] at hs
  cases o with
  | succ o =>
    rcases h4 with ⟨_, h4⟩ | ⟨e, R, rfl, h4⟩
    · cases h4
    · simp only at hs
      cases hs
      unfold specSplit
      simp only [if_neg hm]
      split
      · rename_i x hx
        split
        · rename_i y hy
          exact ⟨L, _, R, by simp; rfl, by omega, by simp only; omega, by intro h; simp only at h; omega⟩
        · rename_i x' r' hy
          exact ⟨L, _, _ :: R, by simp; exact ⟨rfl, rfl⟩, by omega, by simp only; omega, by intro h; simp only at h; omega⟩
      · rename_i l' s' hx
        obtain ⟨rfl, rfl⟩ := hb hx
        split
        · rename_i y hy
          exact ⟨L ++ [_], _, R, by simp; exact ⟨rfl, rfl⟩, by simp, by simp, by intro h; simp only at h; omega⟩
        · rename_i x' r' hy
          obtain ⟨rfl, rfl⟩ := hb hy
          refine ⟨L ++ [_], _, _ :: R, by simp; exact ⟨rfl, rfl, rfl⟩, by simp, by simp, fun _ => ⟨rfl, ?_, ?_⟩⟩
          · intro l hl; simp at hl; subst hl; exact no hx
          · intro r hr; simp at hr; subst hr; exact no hy
  | zero =>
    simp only at hs
    unfold specEdge at hs
    rw [if_neg hm] at hs
    rcases List.eq_nil_or_concat L with rfl | ⟨L, l, rfl⟩
    · cases R with
      | nil =>
        simp only [List.getLast?_nil] at hs
        cases hs
        exact ⟨[], _, [], rfl, by simp, by simp, fun _ => ⟨rfl, by simp, by simp⟩⟩
      | cons r R =>
        have hr : 0 < r.size := hp r (by simp)
        simp only [List.getLast?_nil] at hs
        split at hs
        · rename_i x hx
          cases hs
          exact ⟨[], _, R, rfl, by simp, by simp, by intro h; simp only at h; omega⟩
        · rename_i a b hx
          obtain ⟨rfl, rfl⟩ := hb hx
          cases hs
          refine ⟨[], _, _ :: R, rfl, by simp, by simp, fun _ => ⟨rfl, by simp, ?_⟩⟩
          intro r' hr'; simp at hr'; subst hr'; exact no hx
    · rw [List.concat_eq_append] at *
      have hl : 0 < l.size := hp l (by simp)
      cases R with
      | nil =>
        simp only [List.getLast?_concat, List.dropLast_concat] at hs
        split at hs
        · rename_i x hx
          cases hs
          exact ⟨L, _, [], rfl, by simp, by simp; omega, by intro h; simp only at h; omega⟩
        · rename_i a b hx
          obtain ⟨rfl, rfl⟩ := hb hx
          cases hs
          refine ⟨L ++ [_], _, [], by simp; exact ⟨rfl, rfl⟩, by simp, by simp, fun _ => ⟨rfl, ?_, by simp⟩⟩
          intro l' hl'; simp at hl'; subst hl'; exact no hx
      | cons r R =>
        have hr : 0 < r.size := hp r (by simp)
        simp only [List.getLast?_concat, List.dropLast_concat] at hs
        split at hs
        · rename_i x hx
          split at hs
          · cases hs
          · rename_i a b hy
            cases hs
            exact ⟨L, _, _ :: R, rfl, by simp, by simp; omega, by intro h; simp only at h; omega⟩
        · rename_i a s' hx
          obtain ⟨rfl, rfl⟩ := hb hx
          split at hs
          · rename_i x hy
            cases hs
            exact ⟨L ++ [_], _, R, by simp; exact ⟨rfl, rfl⟩, by simp, by simp, by intro h; simp only at h; omega⟩
          · rename_i s2 b hy
            obtain ⟨rfl, rfl⟩ := hb hy
            cases hs
            refine ⟨L ++ [_], _, _ :: R, by simp; exact ⟨rfl, rfl, rfl⟩, by simp, by simp, fun _ => ⟨rfl, ?_, ?_⟩⟩
            · intro l' hl'; simp at hl'; subst hl'; exact no hx
            · intro r' hr'; simp at hr'; subst hr'; exact no hy

/-- C60, the part that holds for all slice types: an inserted slice that was not joined does not join with the run on its left, nor with the
one on its right. -/
theorem inserted_offered (hE : E.ix = natIdx MAX) (hm : E.sl.mayJoin = true) (hb : ∀ {a b a' b'}, E.sl.tryJoin a b = .inr (a', b') → a' = a ∧ b' = b)
    {t t' : RleTree Nat S} (ht : Reach MAX E t) {nop : Bool} {hints : List Nat} {idx : Nat} {s : S} {size : Nat} {w : World} {out : Inserted}
    (hs : size ≤ MAX) (h : t.insert E nop hints idx s size w = .ok (t', out)) : Offered E.sl t'.runs idx s size :=
  specInsert_offered hm hb (ht.holds hE).2.1.1 (by rw [← (size_eq_total hE ht).1]; exact (insert_ok_conditions hE ht hs h).1) (insert_runs hE ht hs h)

/-- C35: for slice types with ends, serialisation and deserialisation give back exactly the same runs, whatever was inserted before. -/
theorem roundTrip_ends {rcMax : Nat} (hE : E.ix = natIdx MAX) {lft : S → X} {rgt : S → Y} {J : Y → X → Prop} (he : Ends E.sl lft rgt J)
    (hb : ∀ {a b a' b'}, E.sl.tryJoin a b = .inr (a', b') → a' = a ∧ b' = b) {st : RefTree Nat S} {ids : List Nat} (h : Live MAX rcMax E st ids)
    {fuel : Nat} (hf : st.tree.runs.length < fuel) (n : Nat) {t0 : RleTree Nat S} (h0 : RleTree.newEmpty E = .ok t0) :
    ∃ items st', st.tree.serialize E fuel = .ok items ∧ RefTree.deserialize E n items = .ok st' ∧ Live MAX rcMax E st' [] ∧
      st'.tree.runs = st.tree.runs.map fun e => ⟨e.size, e.slice, none⟩ := by
  refine roundTrip_runs hE h (fun _ => ?_) hf n h0
  have hc := he.settled.1 (never_joinable_partial hE he (h.inv hE).reach)
  refine hc.imp fun a b hab => ?_
  cases hj : E.sl.tryJoin a.slice b.slice with
  | inl c => exact absurd (he.join hj).1 hab
  | inr p =>
    obtain ⟨a', b'⟩ := p
    obtain ⟨rfl, rfl⟩ := hb hj
    rfl

/-- Slice types with ends that hand back what does not join are as documented. -/
theorem Ends.documented {sl : SliceOps Nat S} {lft : S → X} {rgt : S → Y} {J : Y → X → Prop} (he : Ends sl lft rgt J)
    (hb : ∀ {a b a' b'}, sl.tryJoin a b = .inr (a', b') → a' = a ∧ b' = b) : Documented sl where
  back := hb
  trans := by
    intro x y z xy h1 h2 c h3
    cases h : sl.tryJoin y z with
    | inl d => exact h2 d h
    | inr p =>
      refine (he.noJoin (a' := p.1) (b' := p.2) h).1 ?_
      rw [← (he.join h1).2.2]
      exact (he.join h3).1

/-- Repetitions of at most four characters: a slice type as documented that limits the size of what it joins.  The length is part of the slice.
An implementor of src/public_traits.rs:48-90 -/
def cappedSl : SliceOps Nat (Nat × Char) where
  mayJoin := true
  splitAt s o := ((o, s.2), (s.1 - o, s.2))
  tryJoin a b := if a.2 = b.2 ∧ a.1 + b.1 ≤ 4 then .inl (a.1 + b.1, a.2) else .inr (a, b)

theorem cappedSl_documented : Documented cappedSl where
  back := by
    intro a b a' b' h
    simp only [cappedSl] at h
    split at h <;> cases h
    exact ⟨rfl, rfl⟩
  trans := by
    intro x y z xy h1 h2 c h3
    simp only [cappedSl] at h1 h2 h3
    split at h1
    · cases h1
      split at h3
      · rename_i k1 k2
        simp only at k2
        refine h2 (y.1 + z.1, y.2) ?_
        rw [if_pos ⟨by rw [← k1.1]; exact k2.1, by omega⟩]
      · cases h3
    · cases h1

theorem cappedSl_denotes : Denotes cappedSl Char (fun n s => s.1 = n) (fun n s => List.replicate n s.2) where
  len := by simp
  split := by
    intro n o s hv h0 h1
    refine ⟨rfl, by simp only [cappedSl]; omega, ?_⟩
    simp only [cappedSl, List.replicate_append_replicate]
    congr 1; omega
  join := by
    intro n m a b c ha hb h
    simp only [cappedSl] at h
    split at h
    · rename_i hab
      cases h
      refine ⟨by simp only; omega, ?_⟩
      rw [← hab.1, List.replicate_append_replicate]
    · cases h
  noJoin := by
    intro n m a b a' b' ha hb h
    simp only [cappedSl] at h
    split at h
    · cases h
    · cases h; exact ⟨ha, hb, rfl, rfl⟩

/-- Trees of them; src/tree/mod.rs:86-104 -/
abbrev cappedEnv : Env Nat (Nat × Char) := ⟨natIdx 255, cappedSl, 3, false⟩

/-- **C60, negation.** `try_join` is not always called when a neighbour changes: after an insertion into the run `aaa`, its right part `aa` and the
run `aa` after it are neighbours that join, though the slice type is lawful and as documented. -/
theorem joinable_neighbours : Documented cappedSl ∧ Denotes cappedSl Char (fun n s => s.1 = n) (fun n s => List.replicate n s.2) ∧
    ∃ t, Reach 255 cappedEnv t ∧ t.runs = [⟨1, (1, 'a'), none⟩, ⟨1, (1, 'b'), none⟩, ⟨2, (2, 'a'), none⟩, ⟨2, (2, 'a'), none⟩] ∧
      ¬ Settled cappedSl t.runs := by
  refine ⟨cappedSl_documented, cappedSl_denotes, ?_⟩
  obtain ⟨t, _, h2, h3⟩ := insertAll_returns (E := cappedEnv) (MAX := 255) rfl (.empty (t := ⟨none⟩) rfl)
    (ops := [⟨0, (3, 'a'), 3, false, [], exWorld⟩, ⟨3, (2, 'a'), 2, false, [], exWorld⟩, ⟨1, (1, 'b'), 1, false, [], exWorld⟩])
    (by decide) (es' := [⟨1, (1, 'a'), none⟩, ⟨1, (1, 'b'), none⟩, ⟨2, (2, 'a'), none⟩, ⟨2, (2, 'a'), none⟩]) (by decide)
  refine ⟨t, h3, h2, fun h => ?_⟩
  exact h [⟨1, (1, 'a'), none⟩, ⟨1, (1, 'b'), none⟩] _ _ [] (by rw [h2]; rfl) (4, 'a') rfl

/-! ## Examples -/

/-- Pieces: an insertion that joins on one side and splits a run. -/
example : ∃ t, Reach 255 pieceEnv t ∧ t.runs = [⟨2, (0, 2), none⟩, ⟨4, (7, 11), none⟩, ⟨8, (2, 10), none⟩] ∧ Settled pieceSl t.runs := by
  obtain ⟨t, _, h2, h3⟩ := insertAll_returns (E := pieceEnv) (MAX := 255) rfl (.empty (t := ⟨none⟩) rfl)
    (ops := [⟨0, (0, 3), 3, false, [], exWorld⟩, ⟨3, (3, 10), 7, false, [], exWorld⟩, ⟨2, (7, 11), 4, false, [], exWorld⟩])
    (by decide) (es' := [⟨2, (0, 2), none⟩, ⟨4, (7, 11), none⟩, ⟨8, (2, 10), none⟩]) (by decide)
  exact ⟨t, h3, h2, never_joinable_partial (E := pieceEnv) (MAX := 255) rfl pieceSl_ends h3⟩

/-- Trees of characters that share nodes. -/
example : ∃ st es, Cow.St.run exEnv 1000 true Cow.St.init Cow.exProg = .ok st ∧ Cow.runsOf st 2 = .ok es ∧ es.length = 8 ∧
    Settled (constSl Char) es := by
  have h : ((Cow.St.run exEnv 1000 true Cow.St.init Cow.exProg >>= fun st => Cow.runsOf st 2).map (·.length)) = .ok 8 := by decide +kernel
  cases hr : Cow.St.run exEnv 1000 true Cow.St.init Cow.exProg with
  | error f => rw [hr] at h; cases h
  | ok st =>
    rw [hr] at h
    cases he : Cow.runsOf st 2 with
    | error f => rw [R.bind_ok, he] at h; cases h
    | ok es =>
      rw [R.bind_ok, he] at h
      refine ⟨st, es, rfl, he, by simpa [Except.map] using h, never_joinable_cow_partial (E := exEnv) (MAX := 255) rfl (by decide) (by decide)
        constSl_ends (by
          intro op h
          simp only [Cow.exProg, List.mem_cons, List.not_mem_nil, or_false] at h
          rcases h with rfl | rfl | rfl | rfl | rfl | rfl | rfl | rfl | rfl | rfl | rfl | rfl | rfl <;> simp [Cow.Op.fits]) hr he⟩

/-- An insertion of a limited slice that joins with neither side. -/
example : ∃ t t' out, Reach 255 cappedEnv t ∧ t.insert cappedEnv false [] 4 (3, 'a') 3 exWorld = .ok (t', out) ∧
    Offered cappedSl t'.runs 4 (3, 'a') 3 := by
  obtain ⟨-, -, t, h1, h2, -⟩ := joinable_neighbours
  obtain ⟨t', out, h3, -, -⟩ := insert_returns (E := cappedEnv) (MAX := 255) rfl h1 false [] (3, 'a') (idx := 4) (size := 3) exWorld (by rw [h2]; decide)
    (by omega) (by rw [h2]; decide) (es' := [⟨1, (1, 'a'), none⟩, ⟨1, (1, 'b'), none⟩, ⟨2, (2, 'a'), none⟩, ⟨3, (3, 'a'), none⟩, ⟨2, (2, 'a'), none⟩])
    (by rw [h2]; decide)
  exact ⟨t, t', out, h1, h3, inserted_offered (E := cappedEnv) (MAX := 255) rfl rfl cappedSl_documented.back h1 (by omega) h3⟩

/-- A tree with slice references, serialised and read again. -/
example : ∃ st items st', Live 255 1000 exRefEnv st [] ∧ st.tree.runs.length = 4 ∧ st.tree.serialize exRefEnv 10 = .ok items ∧
    RefTree.deserialize exRefEnv 0 items = .ok st' ∧ st'.tree.runs = st.tree.runs.map fun e => ⟨e.size, e.slice, none⟩ := by
  obtain ⟨st, _, hl, hr⟩ := exLive0
  obtain ⟨items, st', h1, h2, _, h3⟩ := roundTrip_ends (E := exRefEnv) (MAX := 255) rfl constSl_ends
    (by intro a b a' b' h; simp only [constSl] at h; split at h <;> cases h; exact ⟨rfl, rfl⟩) hl (fuel := 10) (by rw [hr]; decide) 0 rfl
  exact ⟨st, items, st', hl, by rw [hr]; rfl, h1, h2, h3⟩

end Sherman
