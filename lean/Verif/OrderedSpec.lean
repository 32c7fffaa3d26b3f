import Verif.TreeProps
import Mathlib.Order.Filter.AtTopBot.Basic
import Mathlib.Algebra.Order.Group.Defs
import Mathlib.Algebra.Order.Group.Int
import Mathlib.Data.Finset.Basic
import Mathlib.Data.Finset.Dedup
/-!
# Specification of a tree over an ordered group of sizes

The list specification of `Verif/Spec.lean` with sizes and positions in any type with `0`, `+`, `-` and `<`, and what happens to it
under a map to the integers that is additive and strictly increasing on a finite set.
-/
set_option linter.unusedSectionVars false
set_option linter.unusedSimpArgs false

namespace Sherman
variable {S G : Type}

/-- A run: its size and its slice. -/
structure GRun (G S : Type) where
  size : G
  slice : S
  deriving DecidableEq

section
variable [Zero G] [Add G] [Sub G] [LT G] [DecidableLT G] [DecidableEq G]

/-- The size of a list of runs. -/
def gTotal : List (GRun G S) → G
  | [] => 0
  | e :: es => e.size + gTotal es

/-- Where position `t` is in a list of runs: the runs before it, the runs from it on, and how far inside the first of the
latter it is. -/
def gCut : List (GRun G S) → G → List (GRun G S) × List (GRun G S) × G
  | [], t => ([], [], t)
  | e :: es, t =>
    if t < e.size then ([], e :: es, t)
    else (e :: (gCut es (t - e.size)).1, (gCut es (t - e.size)).2)

/-- Insertion of a run between `L` and `R`: first the run on the left is offered to join, then the one on the right.  Joining
both is not implemented. -/
def gEdge (sl : SliceOps G S) (L R : List (GRun G S)) (s : S) (size : G) : Except Fault (List (GRun G S)) :=
  if sl.mayJoin = false then .ok (L ++ ⟨size, s⟩ :: R)
  else
    match L.getLast?, R with
    | none, [] => .ok [⟨size, s⟩]
    | some l, [] =>
      match sl.tryJoin l.slice s with
      | .inl x => .ok (L.dropLast ++ [⟨l.size + size, x⟩])
      | .inr (a, b) => .ok (L.dropLast ++ [⟨l.size, a⟩, ⟨size, b⟩])
    | none, r :: R =>
      match sl.tryJoin s r.slice with
      | .inl x => .ok (⟨size + r.size, x⟩ :: R)
      | .inr (a, b) => .ok (⟨size, a⟩ :: ⟨r.size, b⟩ :: R)
    | some l, r :: R =>
      match sl.tryJoin l.slice s with
      | .inl x =>
        match sl.tryJoin x r.slice with
        | .inl _ => .error (.todo "handle_join_deletion")
        | .inr (a, b) => .ok (L.dropLast ++ ⟨l.size + size, a⟩ :: ⟨r.size, b⟩ :: R)
      | .inr (a, s) =>
        match sl.tryJoin s r.slice with
        | .inl x => .ok (L.dropLast ++ ⟨l.size, a⟩ :: ⟨size + r.size, x⟩ :: R)
        | .inr (s, b) => .ok (L.dropLast ++ ⟨l.size, a⟩ :: ⟨size, s⟩ :: ⟨r.size, b⟩ :: R)

/-- What replaces run `e` when a run is inserted `o` into it. -/
def gSplit (sl : SliceOps G S) (e : GRun G S) (o : G) (s : S) (size : G) : List (GRun G S) :=
  if sl.mayJoin = false then [⟨o, (sl.splitAt e.slice o).1⟩, ⟨size, s⟩, ⟨e.size - o, (sl.splitAt e.slice o).2⟩]
  else
    match sl.tryJoin (sl.splitAt e.slice o).1 s with
    | .inl x =>
      match sl.tryJoin x (sl.splitAt e.slice o).2 with
      | .inl y => [⟨o + size + (e.size - o), y⟩]
      | .inr (x, r) => [⟨o + size, x⟩, ⟨e.size - o, r⟩]
    | .inr (l, s) =>
      match sl.tryJoin s (sl.splitAt e.slice o).2 with
      | .inl x => [⟨o, l⟩, ⟨size + (e.size - o), x⟩]
      | .inr (s, r) => [⟨o, l⟩, ⟨size, s⟩, ⟨e.size - o, r⟩]

/-- Insertion of a run at position `idx`. -/
def gInsert (sl : SliceOps G S) (es : List (GRun G S)) (idx : G) (s : S) (size : G) : Except Fault (List (GRun G S)) :=
  if (gCut es idx).2.2 = 0 then gEdge sl (gCut es idx).1 (gCut es idx).2.1 s size
  else
    match (gCut es idx).2.1 with
    | [] => .error (.panic "index out of bounds")
    | e :: R => .ok ((gCut es idx).1 ++ gSplit sl e (gCut es idx).2.2 s size ++ R)

/-- A history of insertions `(index, slice, size)`. -/
def gAll (sl : SliceOps G S) : List (GRun G S) → List (G × S × G) → Except Fault (List (GRun G S))
  | es, [] => .ok es
  | es, o :: os =>
    match gInsert sl es o.1 o.2.1 o.2.2 with
    | .ok es => gAll sl es os
    | .error f => .error f

end

/-! ## Maps to the integers -/

section
variable [AddCommGroup G] [LinearOrder G] [IsOrderedAddMonoid G]

/-- All insertions of a history that starts with a list of size `n` are at positions up to the size of the list, of positive
size, and keep the size up to `MAX`. -/
def gBounds (MAX : G) : G → List (G × S × G) → Prop
  | n, [] => n ≤ MAX
  | n, o :: os => 0 ≤ o.1 ∧ o.1 ≤ n ∧ 0 < o.2.2 ∧ n + o.2.2 ≤ MAX ∧ gBounds MAX (n + o.2.2) os

/-- `φ` is additive and strictly increasing on `Y`. -/
structure GoodOn (Y : Finset G) (φ : G → ℤ) : Prop where
  zero : φ 0 = 0
  lt : ∀ {a b}, a ∈ Y → b ∈ Y → (φ a < φ b ↔ a < b)
  add : ∀ {a b}, a ∈ Y → b ∈ Y → φ (a + b) = φ a + φ b
  sub : ∀ {a b}, a ∈ Y → b ∈ Y → φ (a - b) = φ a - φ b

theorem GoodOn.mono {Y Z : Finset G} {φ : G → ℤ} (h : GoodOn Z φ) (hs : Y ⊆ Z) : GoodOn Y φ :=
  ⟨h.zero, fun ha hb => h.lt (hs ha) (hs hb), fun ha hb => h.add (hs ha) (hs hb), fun ha hb => h.sub (hs ha) (hs hb)⟩

theorem GoodOn.inj {Y : Finset G} {φ : G → ℤ} (h : GoodOn Y φ) {a b : G} (ha : a ∈ Y) (hb : b ∈ Y) (hab : φ a = φ b) : a = b := by
  rcases lt_trichotomy a b with h1 | h1 | h1
  · have := (h.lt ha hb).2 h1; omega
  · exact h1
  · have := (h.lt hb ha).2 h1; omega

/-- Slices split at the images of positions as at the positions. -/
structure SlOn (Y : Finset G) (φ : G → ℤ) (sl : SliceOps G S) (sl' : SliceOps ℤ S) : Prop where
  may : sl'.mayJoin = sl.mayJoin
  join : sl'.tryJoin = sl.tryJoin
  split : ∀ s, ∀ o ∈ Y, sl'.splitAt s (φ o) = sl.splitAt s o

def GRun.map {H : Type} (φ : G → H) (e : GRun G S) : GRun H S := ⟨φ e.size, e.slice⟩

/-- Every finite set of values is available from some point on. -/
theorem ev_mem (a : G) : ∀ᶠ Y : Finset G in Filter.atTop, a ∈ Y :=
  (Filter.eventually_ge_atTop ({a} : Finset G)).mono fun _ h => h (Finset.mem_singleton_self a)

theorem ev_mem_list (l : List G) : ∀ᶠ Y : Finset G in Filter.atTop, ∀ a ∈ l, a ∈ Y := by
  classical
  exact (Filter.eventually_ge_atTop l.toFinset).mono fun _ h a ha => h (List.mem_toFinset.2 ha)

theorem gCut_map (es : List (GRun G S)) (t : G) : ∀ᶠ Y : Finset G in Filter.atTop, ∀ φ, GoodOn Y φ →
    gCut (es.map (GRun.map φ)) (φ t) =
      ((gCut es t).1.map (GRun.map φ), (gCut es t).2.1.map (GRun.map φ), φ (gCut es t).2.2) := by
  induction es generalizing t with
  | nil => exact Filter.Eventually.of_forall fun Y φ _ => rfl
  | cons e es ih =>
    filter_upwards [ih (t - e.size), ev_mem t, ev_mem e.size] with Y h1 h2 h3 φ hφ
    simp only [List.map_cons, gCut]
    have e1 : (e.map φ).size = φ e.size := rfl
    rw [e1, if_congr (hφ.lt h2 h3) rfl rfl]
    by_cases h : t < e.size
    · simp [h]
    · have := h1 φ hφ
      rw [hφ.sub h2 h3] at this
      simp only [h, if_false]
      rw [this]
      rfl

theorem gEdge_map {Y : Finset G} {φ : G → ℤ} (hφ : GoodOn Y φ) {sl : SliceOps G S} {sl' : SliceOps ℤ S} (hs : SlOn Y φ sl sl')
    {L R : List (GRun G S)} {s : S} {z : G} (hL : ∀ e ∈ L, e.size ∈ Y) (hR : ∀ e ∈ R, e.size ∈ Y) (hz : z ∈ Y) :
    gEdge sl' (L.map (GRun.map φ)) (R.map (GRun.map φ)) s (φ z) =
      (gEdge sl L R s z).map (List.map (GRun.map φ)) := by
  unfold gEdge
  rw [hs.may, hs.join]
  by_cases hm : sl.mayJoin = false
  · simp [hm, Except.map, GRun.map]
  simp only [hm, if_false]
  rcases List.eq_nil_or_concat L with rfl | ⟨L, l, rfl⟩
  · cases R with
    | nil => rfl
    | cons r R =>
      have hr := hR r (by simp)
      simp only [List.map_nil, List.map_cons, List.getLast?_nil, GRun.map]
      cases sl.tryJoin s r.slice with
      | inl x => simp [Except.map, GRun.map, hφ.add hz hr]
      | inr x => simp [Except.map, GRun.map]
  · have hl := hL l (by simp)
    rw [List.concat_eq_append]
    cases R with
    | nil =>
      simp only [List.map_append, List.map_nil, List.map_cons, List.getLast?_concat, List.dropLast_concat, GRun.map]
      cases sl.tryJoin l.slice s with
      | inl x => simp [Except.map, GRun.map, hφ.add hl hz]
      | inr x => simp [Except.map, GRun.map]
    | cons r R =>
      have hr := hR r (by simp)
      simp only [List.map_append, List.map_nil, List.map_cons, List.getLast?_concat, List.dropLast_concat, GRun.map]
      cases sl.tryJoin l.slice s with
      | inl x =>
        dsimp only
        cases sl.tryJoin x r.slice with
        | inl _ => rfl
        | inr y => simp [Except.map, GRun.map, hφ.add hl hz]
      | inr x =>
        dsimp only
        cases sl.tryJoin x.2 r.slice with
        | inl _ => simp [Except.map, GRun.map, hφ.add hz hr]
        | inr y => simp [Except.map, GRun.map]

theorem gSplit_map {Y : Finset G} {φ : G → ℤ} (hφ : GoodOn Y φ) {sl : SliceOps G S} {sl' : SliceOps ℤ S} (hs : SlOn Y φ sl sl')
    {e : GRun G S} {o : G} {s : S} {z : G} (he : e.size ∈ Y) (ho : o ∈ Y) (hz : z ∈ Y) (h1 : o + z ∈ Y) (h2 : e.size - o ∈ Y) :
    gSplit sl' (e.map φ) (φ o) s (φ z) = (gSplit sl e o s z).map (GRun.map φ) := by
  unfold gSplit
  have e1 : (e.map φ).slice = e.slice := rfl
  have e2 : (e.map φ).size - φ o = φ (e.size - o) := (hφ.sub he ho).symm
  rw [hs.may, hs.join, e1, e2, hs.split _ _ ho]
  by_cases hm : sl.mayJoin = false
  · simp [hm, Except.map, GRun.map]
  simp only [hm, if_false]
  cases sl.tryJoin (sl.splitAt e.slice o).1 s with
  | inl x =>
    dsimp only
    cases sl.tryJoin x (sl.splitAt e.slice o).2 with
    | inl y => simp [Except.map, GRun.map, hφ.add h1 h2, hφ.add ho hz]
    | inr y => simp [Except.map, GRun.map, hφ.add ho hz]
  | inr x =>
    dsimp only
    cases sl.tryJoin x.2 (sl.splitAt e.slice o).2 with
    | inl y => simp [Except.map, GRun.map, hφ.add hz h2]
    | inr y => simp [Except.map, GRun.map]

theorem gCut_append (es : List (GRun G S)) (t : G) : (gCut es t).1 ++ (gCut es t).2.1 = es := by
  induction es generalizing t with
  | nil => rfl
  | cons e es ih =>
    unfold gCut
    split
    · rfl
    · simp [ih]

theorem gInsert_map (sl : SliceOps G S) (es : List (GRun G S)) (idx : G) (s : S) (z : G) :
    ∀ᶠ Y : Finset G in Filter.atTop, ∀ φ, GoodOn Y φ → ∀ sl' : SliceOps ℤ S, SlOn Y φ sl sl' →
      gInsert sl' (es.map (GRun.map φ)) (φ idx) s (φ z) = (gInsert sl es idx s z).map (List.map (GRun.map φ)) := by
  filter_upwards [gCut_map es idx, ev_mem 0, ev_mem z, ev_mem_list (es.map (·.size)), ev_mem (gCut es idx).2.2,
    ev_mem ((gCut es idx).2.2 + z), ev_mem_list (es.map (·.size - (gCut es idx).2.2))] with Y h1 h0 h2 h3 h4 h5 h6 φ hφ sl' hsl
  have hes : ∀ e ∈ es, e.size ∈ Y := fun e he => h3 _ (List.mem_map_of_mem he)
  have hap := gCut_append es idx
  have hL : ∀ e ∈ (gCut es idx).1, e.size ∈ Y := fun e he => hes e (by rw [← hap]; exact List.mem_append_left _ he)
  have hR : ∀ e ∈ (gCut es idx).2.1, e.size ∈ Y := fun e he => hes e (by rw [← hap]; exact List.mem_append_right _ he)
  unfold gInsert
  rw [h1 φ hφ]
  simp only
  have hc : φ (gCut es idx).2.2 = 0 ↔ (gCut es idx).2.2 = 0 := by
    constructor
    · intro h
      exact hφ.inj h4 h0 (by rw [h, hφ.zero])
    · intro h
      rw [h, hφ.zero]
  by_cases h : (gCut es idx).2.2 = 0
  · rw [if_pos (hc.2 h), if_pos h]
    exact gEdge_map hφ hsl hL hR h2
  · rw [if_neg (fun x => h (hc.1 x)), if_neg h]
    cases hr : (gCut es idx).2.1 with
    | nil => rfl
    | cons e R =>
      have he : e ∈ es := by rw [← hap, hr]; simp
      simp only [List.map_cons, Except.map, List.map_append]
      rw [gSplit_map hφ hsl (hes e he) h4 h2 h5 (h6 _ (List.mem_map_of_mem he))]

theorem gAll_map (sl : SliceOps G S) (es : List (GRun G S)) (ops : List (G × S × G)) :
    ∀ᶠ Y : Finset G in Filter.atTop, ∀ φ, GoodOn Y φ → ∀ sl' : SliceOps ℤ S, SlOn Y φ sl sl' →
      gAll sl' (es.map (GRun.map φ)) (ops.map fun o => (φ o.1, o.2.1, φ o.2.2)) =
        (gAll sl es ops).map (List.map (GRun.map φ)) := by
  induction ops generalizing es with
  | nil => exact Filter.Eventually.of_forall fun Y φ _ sl' _ => rfl
  | cons o os ih =>
    cases hi : gInsert sl es o.1 o.2.1 o.2.2 with
    | error f =>
      filter_upwards [gInsert_map sl es o.1 o.2.1 o.2.2] with Y h1 φ hφ sl' hsl
      simp only [List.map_cons, gAll, h1 φ hφ sl' hsl, hi]
      rfl
    | ok es1 =>
      filter_upwards [gInsert_map sl es o.1 o.2.1 o.2.2, ih es1] with Y h1 h2 φ hφ sl' hsl
      simp only [List.map_cons, gAll, h1 φ hφ sl' hsl, hi]
      exact h2 φ hφ sl' hsl

theorem gTotal_map (es : List (GRun G S)) : ∀ᶠ Y : Finset G in Filter.atTop, ∀ φ, GoodOn Y φ →
    gTotal (es.map (GRun.map φ)) = φ (gTotal es) := by
  induction es with
  | nil => exact Filter.Eventually.of_forall fun Y φ h => h.zero.symm
  | cons e es ih =>
    filter_upwards [ih, ev_mem e.size, ev_mem (gTotal es)] with Y h1 h2 h3 φ hφ
    simp only [List.map_cons, gTotal, hφ.add h2 h3, h1 φ hφ]
    rfl

theorem gBounds_map {MAX n : G} {ops : List (G × S × G)} (hn : 0 ≤ n) (h : gBounds MAX n ops) :
    ∀ᶠ Y : Finset G in Filter.atTop, ∀ φ, GoodOn Y φ →
      0 ≤ φ n ∧ gBounds (φ MAX) (φ n) (ops.map fun o => (φ o.1, o.2.1, φ o.2.2)) := by
  have key : ∀ {a b : G} {Y : Finset G} {φ : G → ℤ}, GoodOn Y φ → a ∈ Y → b ∈ Y → a ≤ b → φ a ≤ φ b := by
    intro a b Y φ hφ ha hb hab
    rcases hab.lt_or_eq with h | rfl
    · exact ((hφ.lt ha hb).2 h).le
    · exact le_refl _
  induction ops generalizing n with
  | nil =>
    filter_upwards [ev_mem 0, ev_mem n, ev_mem MAX] with Y h0 h1 h2 φ hφ
    have := key hφ h0 h1 hn
    rw [hφ.zero] at this
    exact ⟨this, key hφ h1 h2 h⟩
  | cons o os ih =>
    obtain ⟨b1, b2, b3, b4, b5⟩ := h
    filter_upwards [ih (add_nonneg hn b3.le) b5, ev_mem 0, ev_mem n, ev_mem MAX, ev_mem o.1, ev_mem o.2.2, ev_mem (n + o.2.2)]
      with Y h1 h0 h2 h3 h4 h5 h6 φ hφ
    have e0 := key hφ h0 h2 hn
    have e1 := key hφ h0 h4 b1
    have e2 := (hφ.lt h0 h5).2 b3
    rw [hφ.zero] at e0 e1 e2
    have := (h1 φ hφ).2
    rw [hφ.add h2 h5] at this
    refine ⟨e0, e1, key hφ h4 h2 b2, e2, ?_, this⟩
    show φ n + φ o.2.2 ≤ φ MAX
    rw [← hφ.add h2 h5]
    exact key hφ h6 h3 b4

end

/-! ## Natural numbers -/

/-- A run with a natural number as size, as a run with an integer. -/
def Ent.gz (e : Ent S) : GRun ℤ S := ⟨e.size, e.slice⟩

/-- Slices split in the same way. -/
structure SlNat (sl : SliceOps Nat S) (sl' : SliceOps ℤ S) : Prop where
  may : sl'.mayJoin = sl.mayJoin
  join : sl'.tryJoin = sl.tryJoin
  split : ∀ s (o : Nat), sl'.splitAt s o = sl.splitAt s o

theorem gTotal_gz (es : List (Ent S)) : gTotal (es.map Ent.gz) = (total es : ℤ) := by
  induction es with
  | nil => rfl
  | cons e es ih => simp [gTotal, ih, Ent.gz]

theorem gCut_gz (es : List (Ent S)) (t : Nat) : gCut (es.map Ent.gz) (t : ℤ) =
    ((cutAt es t).1.map Ent.gz, (cutAt es t).2.1.map Ent.gz, ((cutAt es t).2.2 : ℤ)) ∧
    ∀ e R, (cutAt es t).2.1 = e :: R → (cutAt es t).2.2 < e.size := by
  induction es generalizing t with
  | nil => exact ⟨rfl, fun e R h => by cases h⟩
  | cons e es ih =>
    simp only [List.map_cons, gCut, cutAt]
    by_cases h : t < e.size
    · have h' : ((t : ℤ) < (Ent.gz e).size) := by simpa [Ent.gz] using h
      rw [if_pos h', if_pos h]
      exact ⟨rfl, fun x R hx => by cases hx; exact h⟩
    · have h' : ¬ ((t : ℤ) < (Ent.gz e).size) := by simpa [Ent.gz] using h
      have e1 : (t : ℤ) - (Ent.gz e).size = ((t - e.size : Nat) : ℤ) := by simp only [Ent.gz]; omega
      rw [if_neg h', if_neg h, e1, (ih (t - e.size)).1]
      exact ⟨rfl, (ih (t - e.size)).2⟩

theorem gEdge_gz {sl : SliceOps Nat S} {sl' : SliceOps ℤ S} (hs : SlNat sl sl') (L R : List (Ent S)) (s : S) (z : Nat) :
    gEdge sl' (L.map Ent.gz) (R.map Ent.gz) s (z : ℤ) = (specEdge sl L R s z).map (List.map Ent.gz) := by
  unfold gEdge specEdge
  rw [hs.may, hs.join]
  by_cases hm : sl.mayJoin = false
  · simp [hm, Except.map, Ent.gz]
  simp only [hm, if_false]
  rcases List.eq_nil_or_concat L with rfl | ⟨L, l, rfl⟩
  · cases R with
    | nil => rfl
    | cons r R =>
      simp only [List.map_nil, List.map_cons, List.getLast?_nil, Ent.gz]
      cases sl.tryJoin s r.slice <;> simp [Except.map, Ent.gz]
  · rw [List.concat_eq_append]
    cases R with
    | nil =>
      simp only [List.map_append, List.map_nil, List.map_cons, List.getLast?_concat, List.dropLast_concat, Ent.gz]
      cases sl.tryJoin l.slice s <;> simp [Except.map, Ent.gz]
    | cons r R =>
      simp only [List.map_append, List.map_nil, List.map_cons, List.getLast?_concat, List.dropLast_concat, Ent.gz]
      cases sl.tryJoin l.slice s with
      | inl x =>
        dsimp only
        cases sl.tryJoin x r.slice with
        | inl _ => rfl
        | inr y => simp [Except.map, Ent.gz]
      | inr x =>
        dsimp only
        cases sl.tryJoin x.2 r.slice with
        | inl _ => simp [Except.map, Ent.gz]
        | inr y => simp [Except.map, Ent.gz]

theorem gSplit_gz {sl : SliceOps Nat S} {sl' : SliceOps ℤ S} (hs : SlNat sl sl') {e : Ent S} {o : Nat} (h : o < e.size) (s : S) (z : Nat) :
    gSplit sl' e.gz (o : ℤ) s (z : ℤ) = (specSplit sl e o s z).map Ent.gz := by
  unfold gSplit specSplit
  have e1 : e.gz.slice = e.slice := rfl
  have e2 : e.gz.size - (o : ℤ) = ((e.size - o : Nat) : ℤ) := by simp only [Ent.gz]; omega
  rw [hs.may, hs.join, e1, e2, hs.split]
  simp only
  by_cases hm : sl.mayJoin = false
  · simp [hm, Except.map, Ent.gz]
  simp only [hm, if_false]
  cases sl.tryJoin (sl.splitAt e.slice o).1 s with
  | inl x =>
    dsimp only
    cases sl.tryJoin x (sl.splitAt e.slice o).2 with
    | inl y => simp [Except.map, Ent.gz]
    | inr y => simp [Except.map, Ent.gz]
  | inr x =>
    dsimp only
    cases sl.tryJoin x.2 (sl.splitAt e.slice o).2 with
    | inl y => simp [Except.map, Ent.gz]
    | inr y => simp [Except.map, Ent.gz]

theorem gInsert_gz {sl : SliceOps Nat S} {sl' : SliceOps ℤ S} (hs : SlNat sl sl') (es : List (Ent S)) (idx : Nat) (s : S) (z : Nat) :
    gInsert sl' (es.map Ent.gz) (idx : ℤ) s (z : ℤ) = (specInsert sl es idx s z).map (List.map Ent.gz) := by
  obtain ⟨h1, h2⟩ := gCut_gz es idx
  unfold gInsert specInsert
  rw [h1]
  clear h1
  generalize cutAt es idx = c at h2 ⊢
  obtain ⟨L, R, o⟩ := c
  simp only at h2 ⊢
  cases o with
  | zero => exact gEdge_gz hs L R s z
  | succ o =>
    have hne : ¬ (((o + 1 : Nat) : ℤ) = 0) := by omega
    rw [if_neg hne]
    cases R with
    | nil => rfl
    | cons e R =>
      simp only [List.map_cons, Except.map, List.map_append]
      rw [gSplit_gz hs (h2 e R rfl)]

/-- One operation on natural numbers, as an operation on integers. -/
def Op.gz (o : Op S) : ℤ × S × ℤ := (o.idx, o.slice, o.size)

theorem gAll_gz {sl : SliceOps Nat S} {sl' : SliceOps ℤ S} (hs : SlNat sl sl') (es : List (Ent S)) (ops : List (Op S)) :
    gAll sl' (es.map Ent.gz) (ops.map Op.gz) = (specAll sl es ops).map (List.map Ent.gz) := by
  induction ops generalizing es with
  | nil => rfl
  | cons o os ih =>
    simp only [List.map_cons, gAll, specAll]
    have := gInsert_gz hs es o.idx o.slice o.size
    simp only [Op.gz]
    rw [this]
    cases specInsert sl es o.idx o.slice o.size with
    | error f => rfl
    | ok es1 => exact ih es1

theorem gBounds_gz {MAX n : Nat} {ops : List (Op S)} (h : gBounds (MAX : ℤ) (n : ℤ) (ops.map Op.gz)) : InBounds MAX n ops := by
  induction ops generalizing n with
  | nil =>
    have : (n : ℤ) ≤ MAX := h
    exact_mod_cast this
  | cons o os ih =>
    obtain ⟨b1, b2, b3, b4, b5⟩ := h
    simp only [Op.gz] at b1 b2 b3 b4 b5
    exact ⟨by omega, by omega, by omega, ih (by exact_mod_cast b5)⟩

end Sherman
