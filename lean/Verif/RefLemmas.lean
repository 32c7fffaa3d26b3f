import Verif.RefTree
import Verif.RecycleProps
import Verif.Reach
import Verif.TreeProps2
/-!
# References: the store and the tree agree
-/
namespace Sherman
variable {I S : Type}

theorem filterMap_under {i : Nat} {l : List (Cell S)} : (l.map (Cell.under i)).filterMap Cell.refAt = l.filterMap Cell.refAt := by
  simp only [List.filterMap_map]; rfl

/-- The references of a tree are those of its places. -/
theorem treeH_cells {M lo h : Nat} {t : Tree Nat S h} {es : List (Ent S)} (hr : Rep M lo t es) :
    treeH t = ↑((cells t).filterMap Cell.refAt) := by
  induction h generalizing lo es with
  | zero => rfl
  | succ h ih =>
    obtain ⟨c, ec, psr, hn, hc, hi, rfl, _, _⟩ := hr
    have key : ∀ (l : List (Item S (Tree Nat S h))) (p i o : Nat), RepItems M l →
        (↑((cellsR p i l).filterMap Cell.refAt) : Multiset (Nat × Nat × Nat)) =
          keyH p i (keysR szN o l) + ((kidsOf l).map treeH).sum := by
      intro l
      induction l with
      | nil => intro p i o _; rfl
      | cons it l ihl =>
        intro p i o hl
        rw [RepItems.cons] at hl
        have h1 := ihl p (i + 1) (o + it.size + szN it.kid) hl.2
        have h2 := ih hl.1
        simp only [keysR_cons, keyH, kidsOf_cons, List.map_cons, List.sum_cons, h2]
        cases hrf : it.ref with
        | none =>
          simp only [cellsR, List.filterMap_cons, Cell.refAt, hrf, Option.map_none, List.filterMap_append]
          rw [← Multiset.coe_add]
          rw [filterMap_under, h1]
          simp only [refH]; rw [zero_add]; ac_rfl
        | some r =>
          simp only [cellsR, List.filterMap_cons, Cell.refAt, hrf, Option.map_some, List.filterMap_append]
          rw [← Multiset.cons_coe, ← Multiset.coe_add]
          rw [filterMap_under, h1, ← Multiset.singleton_add]
          simp only [refH]; ac_rfl
    have e : treeH t = keyH (Node.ptr t) 0 (keysR szN (szN c) psr) + (treeH c + ((kidsOf psr).map treeH).sum) := by
      have e1 := congrArg Node.keys hn
      have e2 : Node.kids t = c :: kidsOf psr := congrArg Node.kids hn
      simp only [mkG, keysL_nil, List.nil_append, tot_nil, Nat.zero_add] at e1
      simp only [treeH, nodeH, e1, e2, List.map_cons, List.sum_cons]
    rw [e, hn, cells_mkG]
    simp only [cellsL, List.nil_append, List.filterMap_append, filterMap_under, ← Multiset.coe_add, List.length_nil]
    rw [← ih hc, key psr (Node.ptr t) 0 (szN c) hi]
    ac_rfl

/-- The references of a tree are those of its places. -/
theorem Holds.H {E : Env Nat S} {t : RleTree Nat S} {es : List (Ent S)} (h : Holds E t es) :
    t.H = ↑(t.places.filterMap Cell.refAt) := by
  obtain ⟨root⟩ := t
  cases root with
  | none => rfl
  | some r => exact treeH_cells h.2.1

/-- Places and runs correspond. -/
theorem Holds.places {E : Env Nat S} {t : RleTree Nat S} {es : List (Ent S)} (h : Holds E t es) :
    t.places.map (fun c => (c.slice, c.ref)) = es.map (fun e => (e.slice, e.ref)) := by
  obtain ⟨root⟩ := t
  cases root with
  | none => have := h.2; simp only at this; subst this; rfl
  | some r => exact cells_map h.2.1

/-- Distinct addresses give distinct places. -/
theorem places_nodup {t : RleTree I S} (h : t.P.Nodup) : (t.places.map Cell.at).Nodup := by
  obtain ⟨root⟩ := t
  cases root with
  | none => simp [RleTree.places]
  | some r => exact cells_nodup h

theorem places_relabel {t : RleTree I S} {f : Nat → Nat → Option Nat → Option Nat} :
    (t.relabel f).places = t.places.map (Cell.relabel f) := by
  obtain ⟨root⟩ := t
  cases root with
  | none => rfl
  | some r => exact cells_relabel

theorem P_relabel {t : RleTree I S} {f : Nat → Nat → Option Nat → Option Nat} : (t.relabel f).P = t.P := by
  obtain ⟨root⟩ := t
  cases root with
  | none => rfl
  | some r => exact treeP_relabel

/-! ## The store -/

/-- The handles in a store. -/
def absS (rv : Recycle.RecycleVec Stored) : Store := fun r =>
  match rv.vals[r]? with
  | some (.value _ (.handle h)) => some h
  | _ => none

theorem absS_some {rv : Recycle.RecycleVec Stored} {r : Nat} {h : Option (Nat × Nat)} (hs : absS rv r = some h) :
    ∃ c, rv.vals[r]? = some (.value c (.handle h)) := by
  unfold absS at hs
  split at hs
  · rename_i c h' heq; cases hs; exact ⟨c, heq⟩
  · cases hs

theorem absS_set {rv : Recycle.RecycleVec Stored} {r c : Nat} {h : Option (Nat × Nat)} {hd : Option Nat}
    (hlt : r < rv.vals.length) :
    absS ⟨rv.vals.set r (.value c (.handle h)), hd⟩ = fun x => if x = r then some h else absS rv x := by
  funext x
  by_cases hx : x = r
  · subst hx
    simp [absS, hlt]
  · simp [absS, hx, List.getElem?_set_ne (Ne.symm hx)]

def RInv (rv : Recycle.RecycleVec Stored) : Prop := ∃ s, Recycle.Inv rv s

theorem RInv.set {rv : Recycle.RecycleVec Stored} {r c c' : Nat} {x x' : Stored} (h : RInv rv)
    (hv : rv.vals[r]? = some (.value c x)) (hc : 0 < c') : RInv { rv with vals := rv.vals.set r (.value c' x') } := by
  obtain ⟨s, hs⟩ := h
  exact ⟨_, Recycle.inv_setValue hs ((hs.vals r c x).1 hv) hc⟩

theorem RInv.pos {rv : Recycle.RecycleVec Stored} {r c : Nat} {x : Stored} (h : RInv rv)
    (hv : rv.vals[r]? = some (.value c x)) : 0 < c := by
  obtain ⟨s, hs⟩ := h
  exact hs.pos _ _ _ ((hs.vals r c x).1 hv)

theorem lt_of_get? {α : Type} {l : List α} {i : Nat} {x : α} (h : l[i]? = some x) : i < l.length := by
  obtain ⟨h1, _⟩ := List.getElem?_eq_some_iff.mp h
  exact h1

theorem storeCmd_runCmd {rv : Recycle.RecycleVec Stored} {cmd : StoreCmd} {σ : Store} (h : runCmd (absS rv) cmd = .ok σ)
    (hi : RInv rv) : ∃ rv', storeCmd rv cmd = .ok rv' ∧ absS rv' = σ ∧ RInv rv' := by
  cases cmd with
  | update r p i =>
    simp only [runCmd] at h
    split at h
    · cases h
    · rename_i old hold
      cases h
      obtain ⟨c, hc⟩ := absS_some hold
      refine ⟨{ rv with vals := rv.vals.set r (.value c (.handle (some (p, i)))) }, ?_, absS_set (lt_of_get? hc),
        hi.set hc (hi.pos hc)⟩
      simp only [storeCmd, Recycle.replace, hc, R.bind_ok]; rfl
  | suspend r =>
    simp only [runCmd] at h
    split at h
    · cases h
    · cases h
    · rename_i old hold
      cases h
      obtain ⟨c, hc⟩ := absS_some hold
      refine ⟨{ rv with vals := rv.vals.set r (.value c (.handle none)) }, ?_, absS_set (lt_of_get? hc),
        hi.set hc (hi.pos hc)⟩
      simp only [storeCmd, Recycle.replace, hc, R.bind_ok]; rfl

theorem storeLog_runLog {log : List StoreCmd} {rv : Recycle.RecycleVec Stored} {σ : Store}
    (h : runLog (absS rv) log = .ok σ) (hi : RInv rv) :
    ∃ rv', log.foldlM storeCmd rv = .ok rv' ∧ absS rv' = σ ∧ RInv rv' := by
  induction log generalizing rv with
  | nil => cases h; exact ⟨rv, rfl, rfl, hi⟩
  | cons cmd log ih =>
    simp only [runLog, List.foldlM_cons, bind_ok_iff] at h
    obtain ⟨σ1, h1, h2⟩ := h
    obtain ⟨rv1, g1, rfl, g3⟩ := storeCmd_runCmd h1 hi
    obtain ⟨rv2, k1, k2, k3⟩ := ih h2 g3
    exact ⟨rv2, by simp only [List.foldlM_cons, g1, R.bind_ok, k1], k2, k3⟩

theorem clone_abs {rcMax : Nat} {rv rv' : Recycle.RecycleVec Stored} {id id' : Nat} (hi : RInv rv)
    (h : Recycle.clone rcMax rv id = .ok (id', rv')) : id' = id ∧ absS rv' = absS rv ∧ RInv rv' := by
  unfold Recycle.clone at h
  split at h
  · cases h
  · cases h
  · rename_i rc inner hv
    split at h
    · cases h
      refine ⟨rfl, ?_, hi.set hv (by omega)⟩
      funext x
      by_cases hx : x = id
      · subst hx
        have hlt := lt_of_get? hv
        have h1 : (rv.vals.set x (.value (rc + 1) inner))[x]? = some (.value (rc + 1) inner) := by simp [hlt]
        simp only [absS, hv, h1]
        cases inner <;> rfl
      · simp [absS, List.getElem?_set_ne (Ne.symm hx)]
    · cases h

theorem push_abs {rv rv' : Recycle.RecycleVec Stored} {id : Nat} {h : Option (Nat × Nat)} (hi : RInv rv)
    (hp : Recycle.push rv (.handle h) = .ok (id, rv')) :
    absS rv id = none ∧ (absS rv' = fun x => if x = id then some h else absS rv x) ∧ RInv rv' := by
  obtain ⟨s, hs⟩ := hi
  obtain ⟨i, rv1, h1, h2, h3, _⟩ := Recycle.push_step hs (.handle h)
  rw [hp] at h1
  cases h1
  have e : ∀ x, absS rv x = (match s x with | some (_, .handle h) => some h | _ => none) := by
    intro x
    cases hx : s x with
    | none =>
      unfold absS
      split
      · rename_i c h' heq
        rw [(hs.vals _ _ _).1 heq] at hx; cases hx
      · rfl
    | some p =>
      obtain ⟨c, v⟩ := p
      have := (hs.vals x c v).2 hx
      simp only [absS, this]
      cases v <;> rfl
  have e' : ∀ x, absS rv' x = (match (s.set id (some (1, .handle h))) x with | some (_, .handle h) => some h | _ => none) := by
    intro x
    cases hx : (s.set id (some (1, .handle h))) x with
    | none =>
      unfold absS
      split
      · rename_i c h' heq
        rw [(h3.vals _ _ _).1 heq] at hx; cases hx
      · rfl
    | some p =>
      obtain ⟨c, v⟩ := p
      have := (h3.vals x c v).2 hx
      simp only [absS, this]
      cases v <;> rfl
  refine ⟨by rw [e, h2], ?_, _, h3⟩
  funext x
  rw [e']
  by_cases hx : x = id
  · subst hx; simp [Recycle.Spec.set]
  · simp only [Recycle.Spec.set, if_neg hx, e]

/-! ## The runs keep their references -/

def refsOf (es : List (Ent S)) : List Nat := es.filterMap (·.ref)

@[simp] theorem refsOf_append (a b : List (Ent S)) : refsOf (a ++ b) = refsOf a ++ refsOf b := by simp [refsOf]
@[simp] theorem refsOf_nil : refsOf ([] : List (Ent S)) = [] := rfl
@[simp] theorem refsOf_cons_none (z : Nat) (s : S) (es) : refsOf (⟨z, s, none⟩ :: es) = refsOf es := rfl
theorem refsOf_cons (e : Ent S) (es) : refsOf (e :: es) = e.ref.toList ++ refsOf es := by
  obtain ⟨z, s, r⟩ := e
  cases r <;> rfl

theorem specInsert_refs {sl : SliceOps Nat S} {es es' : List (Ent S)} {idx : Nat} {s : S} {size : Nat}
    (hidx : idx ≤ total es) (h : specInsert sl es idx s size = .ok es') : refsOf es' = refsOf es := by
  obtain ⟨L, R, o, h1, rfl, rfl, h4⟩ := cutAt_spec hidx
  simp only [specInsert, h1] at h
  cases o with
  | succ o =>
    rcases h4 with ⟨_, h4⟩ | ⟨e, R, rfl, h4⟩
    · cases h4
    · cases h
      simp only [refsOf_append, refsOf_cons, specSplit]
      repeat' split
      all_goals simp [refsOf_cons]
  | zero =>
    simp only [specEdge] at h
    split at h
    · cases h; simp
    · rcases List.eq_nil_or_concat L with rfl | ⟨L, l, rfl⟩
      · cases R with
        | nil => simp at h; subst h; simp
        | cons r R =>
          simp only [List.getLast?_nil] at h
          split at h <;> · cases h; simp [refsOf_cons]
      · rw [List.concat_eq_append] at *
        simp only [List.getLast?_concat, List.dropLast_concat] at h
        cases R with
        | nil =>
          simp only at h
          split at h <;> · cases h; simp [refsOf_cons]
        | cons r R =>
          simp only at h
          repeat' split at h
          all_goals first
            | (cases h; done)
            | (cases h; simp [refsOf_cons])

end Sherman
