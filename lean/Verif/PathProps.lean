import Verif.PathSpec
import Verif.RefMoves
import Verif.ConstProps
import Verif.LiveProps
/-!
# C16, C20: the cursor and the reference returned by an insertion name the run with the inserted slice

The full statements do not hold: see `insert_path_wrong` and `insert_handle_wrong`.  They hold for every insertion except
one kind: inside of a run stored in an internal node, whose left part joins the new slice while the result does not join the
right part again (`SplitFollows`).
-/
namespace Sherman
variable {S : Type} {MAX rcMax : Nat} {E : Env Nat S}

/-- Number of levels below the root. -/
def RleTree.height {I S : Type} (t : RleTree I S) : Nat :=
  match t.root with
  | none => 0
  | some r => r.h

/-- What the theorems assume of an insertion of `s` at `idx`: if that is inside of a run (`o` from its start), then the run
is stored in a leaf, or its parts rejoin around `s` in case the left one joins `s`. -/
def SplitFollows (E : Env Nat S) (t : RleTree Nat S) (idx : Nat) (s : S) : Prop :=
  ∀ a e b o c, t.runs = a ++ e :: b → idx = total a + o → 0 < o → o < e.size → t.places[a.length]? = some c →
    c.path.length = t.height ∨ Rejoins E.sl e.slice o s

theorem tag_rejoins {sl : SliceOps Nat S} {key : S} {o : Nat} {s : S} {x y : Bool} (h : Rejoins sl key o s) :
    Rejoins (tagSl sl) (key, x) o (s, y) := by
  intro hm mid hj
  simp only [tagSl] at hj hm
  split at hj
  · rename_i m hj1
    cases hj
    obtain ⟨new, hn⟩ := h hm m hj1
    simp only [tagSl, hn]
    exact ⟨_, rfl⟩
  · cases hj

theorem er_mem_P {I : Type} {t : RleTree I S} {c : Cell S} (h : c ∈ t.places) : c.ptr ∈ t.P := by
  obtain ⟨root⟩ := t
  cases root with
  | none => simp [RleTree.places] at h
  | some r => exact cells_ptr h

theorem run_sizes : ∀ {A P : List (Ent S)} {e w : Ent S} {B Q : List (Ent S)} {s : Nat},
    (A ++ e :: B).map (fun e => e.size) = (P ++ w :: Q).map (fun e => e.size) → total A ≤ s ∧ s < total A + e.size →
    total P ≤ s ∧ s < total P + w.size → total A = total P ∧ total A + e.size = total P + w.size
  | [], [], e, w, B, Q, s, h, _, _ => by
    simp at h
    simp [h.1]
  | [], p :: P, e, w, B, Q, s, h, h1, h2 => by
    simp at h h1 h2
    omega
  | a :: A, [], e, w, B, Q, s, h, h1, h2 => by
    simp at h h1 h2
    omega
  | a :: A, p :: P, e, w, B, Q, s, h, h1, h2 => by
    simp only [List.cons_append, List.map_cons, List.cons.injEq] at h
    simp only [total_cons] at h1 h2 ⊢
    have := run_sizes (s := s - a.size) h.2 (by omega) (by omega)
    omega

/-- The run with the inserted slice, its place, and what the insertion returns; `T'` is the result if the inserted slice is marked. -/
theorem insert_place_tag (hE : E.ix = natIdx MAX) {t t' : RleTree Nat S} (ht : Reach MAX E t) {nop : Bool} {hints : List Nat}
    {idx : Nat} {s : S} {size : Nat} {w : World} {out : Inserted} (hw : ∀ p ∈ t.P, p < w.next) (hs : size ≤ MAX)
    (h : t.insert E nop hints idx s size w = .ok (t', out)) (hok : SplitFollows E t idx s) :
    ∃ A e B c, t'.runs = A ++ e :: B ∧ total A ≤ idx ∧ idx + size ≤ total A + e.size ∧ t'.places[A.length]? = some c ∧
      (nop = false → out.path = c.path) ∧ (E.refs = true → out.handle = some c.at) ∧
      ∃ T' c0, (t.er fun s => (s, false)).insert (tagE E) nop hints idx (s, true) size w = .ok (T', out) ∧ T'.er Prod.fst = t' ∧
        T'.places[A.length]? = some c0 ∧ c0.er Prod.fst = c ∧ c0.slice.2 = true := by
  obtain ⟨⟨hM, hM'⟩, hh, hb⟩ := ht.holds hE
  have hT : Holds (tagE E) (t.er fun s => (s, false)) (t.runs.map (Ent.er fun s => (s, false))) := Holds.er (E := E) (F := tagE E) rfl hh
  have hback : (t.er fun s => (s, false)).er Prod.fst = t := RleTree.er_id (fun _ => rfl) t
  have h1 := RleTree.er_insert (tag_hom E) (t.er fun s => (s, false)) nop hints idx (s, true) size w
  rw [hback] at h1
  simp only at h1
  rw [h] at h1
  obtain ⟨⟨T', out'⟩, h2, h3⟩ := bind_ok_iff.1 h1.symm
  cases h3
  obtain ⟨c1, c2, c3, es', c4, c5, _⟩ := insert_returned (E := tagE E) hE hM hM' hT (by simpa using hb) hs h2
  obtain ⟨A, e, B, rfl, t1, t2, t3, t4⟩ := specInsert_tag (by
    intro x hx
    obtain ⟨y, _, rfl⟩ := List.mem_map.1 hx
    rfl) c1 c4
  have hmark : Marked Tagged (tagE E) nop T' out' := by
    refine insert_tag (tag_sticky E) h2 rfl ?_
    intro root pt hroot hpt
    obtain ⟨troot⟩ := t
    cases troot with
    | none => cases hroot
    | some r =>
      have hroot : (⟨r.h, erT (fun s => (s, false)) r.tree, r.len⟩ : Root Nat (S × Bool)) = root := Option.some.inj hroot
      subst hroot
      have key : ∀ h' n' ctx' k o, pt = .split h' n' ctx' k o → ∃ a e b c, RleTree.runs ⟨some r⟩ = a ++ e :: b ∧ idx = total a + o ∧ 0 < o ∧
          o < e.size ∧ (RleTree.places ⟨some r⟩)[a.length]? = some c ∧ c.path.length + h' = r.h ∧
          (Node.sls n')[k]? = some (e.slice, false) ∧ c.ptr = Node.ptr n' := by
        intro h' n' ctx' k o hp
        subst hp
        obtain ⟨a, e, b, c, g1, g2, g3, g4, g5, g6, g7, g8⟩ := findPoint_cell (E := tagE E) hE hT.2.1 hT.1 c1 hpt
        obtain ⟨a0, eb0, k1, k2, k3⟩ := List.map_eq_append_iff.1 g1
        obtain ⟨e0, b0, k4, k5, k6⟩ := List.map_eq_cons_iff.1 k3
        subst k2 k4 k5 k6
        change (cells (erT (fun s => (s, false)) r.tree))[_]? = _ at g5
        rw [cells_er, List.getElem?_map, Option.map_eq_some_iff] at g5
        obtain ⟨c0, m1, rfl⟩ := g5
        refine ⟨a0, e0, b0, c0, k1, by simpa using g2, g3, g4, ?_, g6, g7, g8⟩
        simpa [RleTree.places] using m1
      constructor
      · cases pt with
        | edge => trivial
        | split h' n' ctx' k o =>
          obtain ⟨a, e, b, c, k1, k2, k3, k4, k5, k6, k7, _⟩ := key _ _ _ _ _ rfl
          rcases hok a e b o c k1 k2 k3 k4 k5 with hl | hl
          · left
            have : RleTree.height (⟨some r⟩ : RleTree Nat S) = r.h := rfl
            omega
          · right
            intro s' hs'
            rw [k7] at hs'
            cases hs'
            exact tag_rejoins hl
      · intro h' n' ctx' k o hp
        obtain ⟨a, e, b, c, _, _, _, _, k5, _, _, k8⟩ := key _ _ _ _ _ hp
        have := hw _ (er_mem_P (List.mem_of_getElem? k5))
        omega
  obtain ⟨root, r1, gp, x, r2, r3, r4⟩ := hmark
  have hrep : Rep E.M 1 root.tree (A ++ e :: B) := by
    have := c5.2
    rw [r1] at this
    exact this.1
  obtain ⟨c, d1, d2, d3, d4⟩ := r2.cell hrep
  obtain ⟨i, hi⟩ := List.mem_iff_getElem?.1 d1
  have hmap := cells_map hrep
  have hi2 : ((A ++ e :: B).map (fun e => (e.slice, e.ref)))[i]? = some (c.slice, c.ref) := by
    rw [← hmap, List.getElem?_map, hi]
    rfl
  have hiA : i = A.length := by
    rw [List.getElem?_map, Option.map_eq_some_iff] at hi2
    obtain ⟨e', f1, f2⟩ := hi2
    have f3 : e'.slice.2 = true := by
      have : e'.slice = c.slice := congrArg Prod.fst f2
      rw [this]
      exact d4
    rcases Nat.lt_trichotomy i A.length with hlt | heq | hgt
    · rw [List.getElem?_append_left hlt] at f1
      have := t2 e' (List.mem_append_left _ (List.mem_of_getElem? f1))
      rw [this] at f3
      cases f3
    · exact heq
    · rw [List.getElem?_append_right (by omega)] at f1
      obtain ⟨j, hj⟩ : ∃ j, i - A.length = j + 1 := ⟨i - A.length - 1, by omega⟩
      rw [hj, List.getElem?_cons_succ] at f1
      have := t2 e' (List.mem_append_right _ (List.mem_of_getElem? f1))
      rw [this] at f3
      cases f3
  subst hiA
  have hruns : (T'.er Prod.fst).runs = A.map (Ent.er Prod.fst) ++ e.er Prod.fst :: B.map (Ent.er Prod.fst) := by
    have : Holds E (T'.er Prod.fst) ((A ++ e :: B).map (Ent.er Prod.fst)) := Holds.er (E := tagE E) (F := E) rfl c5
    rw [this.runs]
    simp
  refine ⟨_, _, _, c.er Prod.fst, hruns, by simpa using t3, ?_, ?_, ?_, ?_, T', c, h2, rfl, ?_, rfl, d4⟩
  · rw [total_er]
    exact t4
  · have : T'.places = cells root.tree := by
      unfold RleTree.places
      rw [r1]
    rw [places_er, this, List.length_map, List.getElem?_map, hi]
    rfl
  · intro hn
    rw [r3 hn]
    exact d2.symm
  · intro hr
    rw [r4 hr]
    exact congrArg some d3.symm
  · have : T'.places = cells root.tree := by
      unfold RleTree.places
      rw [r1]
    rw [this, List.length_map]
    exact hi

/-- The same without marks. -/
theorem insert_place (hE : E.ix = natIdx MAX) {t t' : RleTree Nat S} (ht : Reach MAX E t) {nop : Bool} {hints : List Nat}
    {idx : Nat} {s : S} {size : Nat} {w : World} {out : Inserted} (hw : ∀ p ∈ t.P, p < w.next) (hs : size ≤ MAX)
    (h : t.insert E nop hints idx s size w = .ok (t', out)) (hok : SplitFollows E t idx s) :
    ∃ A e B c, t'.runs = A ++ e :: B ∧ total A ≤ idx ∧ idx + size ≤ total A + e.size ∧ t'.places[A.length]? = some c ∧
      (nop = false → out.path = c.path) ∧ (E.refs = true → out.handle = some c.at) := by
  obtain ⟨A, e, B, c, h1, h2, h3, h4, h5, h6, _⟩ := insert_place_tag hE ht hw hs h hok
  exact ⟨A, e, B, c, h1, h2, h3, h4, h5, h6⟩

/-- C16: the path in the cursor returned by an insertion is the path that `cursor_to` finds for the inserted positions, the
child indices from the root to the node with the run that holds the inserted slice.  Missing: the insertions that
`SplitFollows` excludes, for which the statement is false. -/
theorem insert_path_partial (hE : E.ix = natIdx MAX) {st st' : RefTree Nat S} {ids : List Nat} (hl : Live MAX rcMax E st ids)
    {hints : List Nat} {idx : Nat} {s : S} {size : Nat} {path : List Nat} {hd : Option (Nat × Nat)} (hs : size ≤ MAX)
    (h : st.insert E false hints idx s size = .ok (st', path, hd)) (hok : SplitFollows E st.tree idx s) :
    (∀ j, idx ≤ j → j < idx + size → st'.tree.cursorTo E j = .ok path) ∧
    ∃ A e B c, st'.tree.runs = A ++ e :: B ∧ total A ≤ idx ∧ idx + size ≤ total A + e.size ∧
      st'.tree.places[A.length]? = some c ∧ path = c.path := by
  have hi := hl.inv hE
  obtain ⟨t, out, h1, h2, rfl, rfl⟩ := RefTree.insert_ok h
  obtain ⟨A, e, B, c, g1, g2, g3, g4, g5, _⟩ := insert_place hE hi.reach hi.own.used hs h1 hok
  have g5 := g5 rfl
  subst h2
  refine ⟨?_, A, e, B, c, g1, g2, g3, g4, g5⟩
  intro j hj1 hj2
  have hr := hi.reach.insert hs h1
  obtain ⟨_, hh, _⟩ := hr.holds hE
  obtain ⟨a, e1, b, p, ptr, k, k1, k2, k3, k4, _, k6⟩ := get_cursorTo_spec hE hr (idx := j) (by
    rw [hh.size hE, g1]
    simp
    omega)
  rw [g1] at k1
  obtain ⟨rfl, rfl, rfl⟩ := run_unique (s := j) k1 ⟨by omega, by omega⟩ ⟨k2, k3⟩
  rw [k6, g5]
  unfold RleTree.places at g4
  cases hroot : st'.tree.root with
  | none => rw [hroot] at g4; simp at g4
  | some r =>
    rw [hroot] at g4
    have := k4 r hroot
    simp only at g4
    rw [g4] at this
    cases this
    rfl

/-- C20 under `SplitFollows`: in addition, existing references follow their runs (as in C19), and the returned reference is identical to every existing
one whose run is now part of the run of the returned one, as the documentation says of entries that `slice` joins with. -/
theorem insertRef_joined_partial (hE : E.ix = natIdx MAX) (hrefs : E.refs = true) {st : RefTree Nat S} {ids : List Nat}
    (hl : Live MAX rcMax E st ids) (hc : ids.length + 1 < rcMax) (nop : Bool) (hints : List Nat) {idx : Nat} (s : S) {size : Nat}
    (hidx : idx ≤ total st.tree.runs) (hs : 0 < size) (hb : total st.tree.runs + size ≤ MAX) {es' : List (Ent S)}
    (hspec : specInsert E.sl st.tree.runs idx s size = .ok es') (hok : SplitFollows E st.tree idx s) :
    ∃ st' path id x y, st.insertRef rcMax E nop hints idx s size = .ok (st', path, id) ∧ Live MAX rcMax E st' (id :: ids) ∧
      st'.range E id = .ok (x, y) ∧ x ≤ idx ∧ idx + size ≤ y ∧
      st'.tree.runs.map (fun e => (e.size, e.slice)) = es'.map (fun e => (e.size, e.slice)) ∧
      ∀ r ∈ ids, ∃ x0 y0 x1 y1, st.range E r = .ok (x0, y0) ∧ st'.range E r = .ok (x1, y1) ∧ RangeMoves idx size x0 y0 x1 y1 ∧
        ∀ q, x0 ≤ q → q < y0 → (q < idx ∨ idx ≤ x0) → x ≤ movedTo idx size q → movedTo idx size q < y → (x1, y1) = (x, y) ∧ r = id := by
  obtain ⟨st1, ⟨path, hd⟩, h1, hl1, hr1⟩ := live_insert_returns hE hl nop hints s hidx hs hb hspec
  have hi := hl.inv hE
  have hi1 := hl1.inv hE
  obtain ⟨t, out, h2, h3, h4, h5⟩ := RefTree.insert_ok h1
  obtain ⟨A, e, B, c, g1, g2, g3, g4, _, g6⟩ := insert_place hE hi.reach hi.own.used (by omega) h2 hok
  subst h3
  have hh := (hi1.reach.holds hE).2.1
  have hsz : idx < st1.tree.size E := by
    rw [hh.size hE, g1]
    simp
    omega
  obtain ⟨id, st', x, y, f1, f2, f3, f4, f5, f6, f7, f8⟩ := refAt_spec hE hl1 hc hsz
  obtain ⟨a, e1, b, p, ptr, k, k1, k2, k3, k4, k5, _⟩ := get_cursorTo_spec hE hi1.reach hsz
  rw [g1] at k1
  obtain ⟨rfl, rfl, rfl⟩ := run_unique (s := idx) k1 ⟨by omega, by omega⟩ ⟨k2, k3⟩
  have hcell : c.at = (ptr, k) := by
    unfold RleTree.places at g4
    cases hroot : st1.tree.root with
    | none => rw [hroot] at g4; simp at g4
    | some r =>
      rw [hroot] at g4
      have := k4 r hroot
      simp only at g4
      rw [g4] at this
      cases this
      rfl
  have hmk : st1.makeRef rcMax (ptr, k) = .ok (id, st') := by
    simp only [RefTree.refAt, k5 [], R.bind_ok] at f1
    exact f1
  have hrange : x = total A ∧ y = total A + e.size := by
    obtain ⟨A2, e2, B2, c2, q1, _, _, _, q3, _⟩ := ref_resolves hE f2 (r := id) (by simp)
    rw [f3] at q3
    cases q3
    have hlen := congrArg (List.map Prod.fst) f6
    simp only [List.map_map] at hlen
    have e3 : Prod.fst ∘ (fun e : Ent S => (e.size, e.slice)) = fun e => e.size := rfl
    rw [e3, q1, g1] at hlen
    have hp2 := ((f2.inv hE).reach.holds hE).2.1.1
    have hp1 := hh.1
    exact run_sizes hlen ⟨f4, f5⟩ ⟨k2, k3⟩
  refine ⟨st', path, id, x, y, ?_, f2, f3, f4, by omega, by rw [f6, hr1], fun r hr => ?_⟩
  · simp only [RefTree.insertRef, h1, R.bind_ok]
    have : hd = some (ptr, k) := by rw [h5, g6 hrefs, hcell]
    rw [this]
    simp only [hmk, R.bind_ok, R.pure_eq]
  · obtain ⟨x0, y0, x1, y1, m1, m2, m3⟩ := insert_moves_range hE hl (by omega) h1 hr
    refine ⟨x0, y0, x1, y1, m1, by rw [f7 r hr, m2], m3, fun q q1 q2 q3 q4 q5 => ?_⟩
    obtain ⟨q6, q7⟩ := m3.1 q q1 q2 q3
    obtain ⟨A1, e1, B1, t1, t2, t3, t4⟩ := mem_spans.1 ((range_iff hE f2 (r := r) (by simp [hr])).1 (by rw [f7 r hr, m2]))
    obtain ⟨A2, e2, B2, u1, u2, u3, u4⟩ := mem_spans.1 ((range_iff hE f2 (r := id) (by simp)).1 f3)
    obtain ⟨rfl, rfl, -⟩ := run_unique (s := movedTo idx size q) (t1.symm.trans u1) ⟨by omega, by omega⟩ ⟨by omega, by omega⟩
    exact ⟨by rw [t3, t4, u3, u4], Option.some.inj (t2.symm.trans u2)⟩

/-- C20: the reference returned by `insert_ref` names the run that holds the inserted slice, and `insert_ref` returns whenever
`insert` does.  Missing: the insertions that `SplitFollows` excludes, for which the statement is false. -/
theorem insertRef_partial (hE : E.ix = natIdx MAX) (hrefs : E.refs = true) {st : RefTree Nat S} {ids : List Nat}
    (hl : Live MAX rcMax E st ids) (hc : ids.length + 1 < rcMax) (nop : Bool) (hints : List Nat) {idx : Nat} (s : S) {size : Nat}
    (hidx : idx ≤ total st.tree.runs) (hs : 0 < size) (hb : total st.tree.runs + size ≤ MAX) {es' : List (Ent S)}
    (hspec : specInsert E.sl st.tree.runs idx s size = .ok es') (hok : SplitFollows E st.tree idx s) :
    ∃ st' path id x y, st.insertRef rcMax E nop hints idx s size = .ok (st', path, id) ∧ Live MAX rcMax E st' (id :: ids) ∧
      st'.range E id = .ok (x, y) ∧ x ≤ idx ∧ idx + size ≤ y ∧
      st'.tree.runs.map (fun e => (e.size, e.slice)) = es'.map (fun e => (e.size, e.slice)) := by
  obtain ⟨st', path, id, x, y, h1, h2, h3, h4, h5, h6, -⟩ := insertRef_joined_partial hE hrefs hl hc nop hints s hidx hs hb hspec hok
  exact ⟨st', path, id, x, y, h1, h2, h3, h4, h5, h6⟩

/-! ### Where the assumption holds -/

/-- Slices that never join. -/
theorem splitFollows_of_noJoin (h : E.sl.mayJoin = false) (t : RleTree Nat S) (idx : Nat) (s : S) : SplitFollows E t idx s := by
  intro a e b o c _ _ _ _ _
  right
  intro h'
  rw [h] at h'
  cases h'

/-- Insertion between runs. -/
theorem splitFollows_of_edge {t : RleTree Nat S} {A B : List (Ent S)} (h : t.runs = A ++ B) (s : S) :
    SplitFollows E t (total A) s := by
  intro a e b o c h1 h2 h3 h4 _
  exfalso
  rw [h] at h1
  have hA := congrArg total h1
  rcases List.append_eq_append_iff.mp h1 with ⟨a', ha, hb⟩ | ⟨a', ha, hb⟩
  · subst ha
    simp at h2
    omega
  · subst ha
    cases a' with
    | nil => simp at h2; omega
    | cons x a' =>
      simp at hb h2
      obtain ⟨rfl, _⟩ := hb
      omega

theorem weave_leaf {I : Type} {p : Nat} : ∀ {cs : List (List (Cell S))} {ks : List (Key I S)} {i : Nat}, (∀ c ∈ cs, c = []) →
    ∀ c ∈ weave p i cs ks, c.path = []
  | [], _, _, _, c, hc => by simp [weave] at hc
  | x :: cs, [], _, h, c, hc => by simp [weave, h x (by simp)] at hc
  | x :: cs, k :: ks, i, h, c, hc => by
    simp only [weave, h x (by simp), List.map_nil, List.nil_append, List.mem_cons] at hc
    rcases hc with rfl | hc
    · rfl
    · exact weave_leaf (fun c hc => h c (by simp [hc])) c hc

/-- Trees that are a single leaf. -/
theorem splitFollows_of_leaf {t : RleTree Nat S} (h : t.height = 0) (idx : Nat) (s : S) : SplitFollows E t idx s := by
  intro a e b o c _ _ _ _ hc
  left
  have hc := List.mem_of_getElem? hc
  obtain ⟨root⟩ := t
  cases root with
  | none => simp [RleTree.places] at hc
  | some r =>
    obtain ⟨rh, tree, len⟩ := r
    have : rh = 0 := h
    subst this
    rw [h]
    refine List.length_eq_zero_iff.2 (weave_leaf ?_ c hc)
    intro x hx
    obtain ⟨y, _, rfl⟩ := List.mem_map.1 hx
    rfl

/-- `Constant` slices: equal values join, and the parts of a run are equal. -/
theorem splitFollows_const {T : Type} [BEq T] [LawfulBEq T] {M : Nat} {refs : Bool} (t : RleTree Nat T) (idx : Nat) (s : T) :
    SplitFollows ⟨natIdx MAX, constSl T, M, refs⟩ t idx s := by
  intro a e b o c _ _ _ _ _
  right
  intro _ mid hj
  simp only [constSl] at hj ⊢
  split at hj
  · rename_i h
    cases hj
    exact ⟨e.slice, by simp⟩
  · cases hj

/-- C16 for `Constant` slices, without restriction. -/
theorem const_insert_path {T : Type} [BEq T] [LawfulBEq T] {M : Nat} {refs : Bool} {st st' : RefTree Nat T} {ids : List Nat}
    (hl : Live MAX rcMax ⟨natIdx MAX, constSl T, M, refs⟩ st ids) {hints : List Nat} {idx : Nat} {s : T} {size : Nat}
    {path : List Nat} {hd : Option (Nat × Nat)} (hs : size ≤ MAX)
    (h : st.insert ⟨natIdx MAX, constSl T, M, refs⟩ false hints idx s size = .ok (st', path, hd)) :
    ∀ j, idx ≤ j → j < idx + size → st'.tree.cursorTo ⟨natIdx MAX, constSl T, M, refs⟩ j = .ok path :=
  (insert_path_partial rfl hl hs h (splitFollows_const _ _ _)).1

/-- C20 for `Constant` slices, without restriction. -/
theorem const_insertRef {T : Type} [BEq T] [LawfulBEq T] {M : Nat} {st : RefTree Nat T} {ids : List Nat}
    (hl : Live MAX rcMax ⟨natIdx MAX, constSl T, M, true⟩ st ids) (hc : ids.length + 1 < rcMax) (nop : Bool) (hints : List Nat)
    {idx : Nat} (s : T) {size : Nat} (hidx : idx ≤ total st.tree.runs) (hs : 0 < size) (hb : total st.tree.runs + size ≤ MAX)
    {es' : List (Ent T)} (hspec : specInsert (constSl T) st.tree.runs idx s size = .ok es') :
    ∃ st' path id x y, st.insertRef rcMax ⟨natIdx MAX, constSl T, M, true⟩ nop hints idx s size = .ok (st', path, id) ∧
      Live MAX rcMax ⟨natIdx MAX, constSl T, M, true⟩ st' (id :: ids) ∧
      st'.range ⟨natIdx MAX, constSl T, M, true⟩ id = .ok (x, y) ∧ x ≤ idx ∧ idx + size ≤ y ∧
      st'.tree.runs.map (fun e => (e.size, e.slice)) = es'.map (fun e => (e.size, e.slice)) :=
  insertRef_partial rfl rfl hl hc nop hints s hidx hs hb hspec (splitFollows_const _ _ _)

/-- Several levels, inserting inside of the second run of `a` and extending the run of `c`. -/
example : ∃ st ids st' id x y path, Live 255 1000 exRefEnv st ids ∧ 4 ≤ st.tree.runs.length ∧
    st.insertRef 1000 exRefEnv false [] 10 'z' 4 = .ok (st', path, id) ∧ st'.range exRefEnv id = .ok (x, y) ∧ x ≤ 10 ∧
    14 ≤ y := by
  obtain ⟨st, _, h, e⟩ := exLive0
  obtain ⟨st', path, id, x, y, h1, _, h3, h4, h5, _⟩ := const_insertRef h (by decide) false [] 'z' (idx := 10) (size := 4)
    (by rw [e]; decide) (by decide) (by rw [e]; decide)
    (es' := [⟨5, 'a', none⟩, ⟨3, 'c', none⟩, ⟨2, 'a', none⟩, ⟨4, 'z', none⟩, ⟨3, 'a', none⟩, ⟨10, 'b', none⟩]) (by rw [e]; rfl)
  exact ⟨st, [], st', id, x, y, path, h, by rw [e]; decide, h1, h3, h4, h5⟩

/-- A reference to the run of `c` at 5 to 8, to which two more are appended with `insert_ref`: it returns the same reference. -/
example : ∃ st0 r st st' path id, Live 255 1000 exRefEnv st0 [] ∧ st0.refAt 1000 exRefEnv 6 = .ok (r, st) ∧ Live 255 1000 exRefEnv st [r] ∧
    st.insertRef 1000 exRefEnv false [] 8 'c' 2 = .ok (st', path, id) ∧ st.range exRefEnv r = .ok (5, 8) ∧ st'.range exRefEnv r = .ok (5, 10) ∧ r = id := by
  obtain ⟨st0, h0, h, e⟩ := exLive0
  have key : (do
      let st0 ← insertLive exRefEnv exStart (exOps.take 3)
      let (r, st) ← st0.refAt 1000 exRefEnv 6
      let (st', _, id) ← st.insertRef 1000 exRefEnv false [] 8 'c' 2
      let a ← st.range exRefEnv r
      let b ← st'.range exRefEnv r
      pure (a, b, decide (r = id))) = (.ok ((5, 8), (5, 10), true) : R ((Nat × Nat) × (Nat × Nat) × Bool)) := by decide +kernel
  obtain ⟨id, st', x, y, f1, f2, -⟩ := refAt_spec (E := exRefEnv) (MAX := 255) (rcMax := 1000) rfl h (by decide) (idx := 6) (by
    rw [((h.inv rfl).reach.holds rfl).2.1.size rfl, e]; decide)
  rw [h0, R.bind_ok, f1, R.bind_ok] at key
  obtain ⟨⟨s2, p2, i2⟩, k1, key⟩ := bind_ok_iff.1 key
  obtain ⟨a, k2, key⟩ := bind_ok_iff.1 key
  obtain ⟨b, k3, key⟩ := bind_ok_iff.1 key
  have key := Except.ok.inj key
  simp only [Prod.mk.injEq, decide_eq_true_eq] at key
  obtain ⟨rfl, rfl, k4⟩ := key
  exact ⟨st0, id, st', s2, p2, i2, h, f1, f2, k1, k2, k3, k4⟩

/-! ### Where the statements fail -/

/-- Joining pieces is transitive as src/public_traits.rs:77-84 asks. -/
theorem pieceSl_lawful {a b c ab : Nat × Nat} (h : pieceSl.tryJoin a b = .inl ab) :
    (∃ x, pieceSl.tryJoin b c = .inl x) ↔ ∃ x, pieceSl.tryJoin ab c = .inl x := by
  simp only [pieceSl] at h ⊢
  split at h
  · rename_i h1
    cases h
    constructor
    · rintro ⟨x, hx⟩
      split at hx
      · exact ⟨_, if_pos (by omega)⟩
      · cases hx
    · rintro ⟨x, hx⟩
      split at hx
      · exact ⟨_, if_pos (by omega)⟩
      · cases hx
  · cases h

/-- Trees of pieces with slice references, `M = 1`, over `u8`. -/
abbrev pieceRefEnv : Env Nat (Nat × Nat) := ⟨natIdx 255, pieceSl, 1, true⟩

/-- Appends pieces of length ten, starting at `100 * i` in the buffer. -/
def pieceOps (n : Nat) : List (Op (Nat × Nat)) :=
  (List.range n).map fun i => ⟨10 * i, (100 * i, 100 * i + 10), 10, false, [], ⟨0, [], [], none, []⟩⟩

def pieceStart : RefTree Nat (Nat × Nat) := ⟨⟨none⟩, Recycle.empty, 100⟩

theorem piece_live {st : RefTree Nat (Nat × Nat)} {ops : List (Op (Nat × Nat))} (hops : ∀ o ∈ ops, o.size ≤ 255) :
    ∀ {st0}, Live 255 1000 pieceRefEnv st0 [] → insertLive pieceRefEnv st0 ops = .ok st → Live 255 1000 pieceRefEnv st [] := by
  induction ops with
  | nil => intro st0 h0 h; cases h; exact h0
  | cons o os ih =>
    intro st0 h0 h
    simp only [insertLive, bind_ok_iff] at h
    obtain ⟨⟨st1, out⟩, h1, h2⟩ := h
    exact ih (fun o ho => hops o (by simp [ho])) (h0.insert (hops o (by simp)) h1) h2

/-- C16 does not hold in general: after appending three pieces, the middle one in the root, insertion of a piece inside of
the latter, which continues its left part, returns a path to a node that is not the one with the inserted piece. -/
theorem insert_path_wrong : ∃ st st' path hd, Live 255 1000 pieceRefEnv st [] ∧
    st.insert pieceRefEnv false [] 15 (105, 108) 3 = .ok (st', path, hd) ∧ path = [1] ∧ st'.tree.cursorTo pieceRefEnv 15 = .ok [] := by
  have h : (do
      let st ← insertLive pieceRefEnv pieceStart (pieceOps 3)
      let (st', path, _) ← st.insert pieceRefEnv false [] 15 (105, 108) 3
      let p ← st'.tree.cursorTo pieceRefEnv 15
      pure (path, p)) = (.ok ([1], []) : R (List Nat × List Nat)) := by decide +kernel
  obtain ⟨st, h1, h⟩ := bind_ok_iff.1 h
  obtain ⟨⟨st', path, hd⟩, h2, h⟩ := bind_ok_iff.1 h
  obtain ⟨p, h3, h⟩ := bind_ok_iff.1 h
  cases h
  exact ⟨st, st', [1], hd, piece_live (by decide) (.empty rfl) h1, h2, rfl, h3⟩

/-- C20 does not hold in general: after appending six pieces, insertion of a piece that continues the left part of one in an
internal node splits that node, and the reference is made from a key that is no longer there. -/
theorem insertRef_wrong : ∃ st st' path ptr k, Live 255 1000 pieceRefEnv st [] ∧
    st.insert pieceRefEnv false [] 35 (305, 308) 3 = .ok (st', path, some (ptr, k)) ∧
    (∃ x, st'.tree.get pieceRefEnv [] 35 = .ok x ∧ (x.ptr, x.idx) ≠ (ptr, k)) ∧
    ∃ f, st.insertRef 1000 pieceRefEnv false [] 35 (305, 308) 3 = .error f := by
  have h : (do
      let st ← insertLive pieceRefEnv pieceStart (pieceOps 6)
      let (st', _, hd) ← st.insert pieceRefEnv false [] 35 (305, 308) 3
      let x ← st'.tree.get pieceRefEnv [] 35
      pure (hd, x.ptr, x.idx, (st.insertRef 1000 pieceRefEnv false [] 35 (305, 308) 3).toOption.isNone)) =
        (.ok (some (102, 1), 106, 0, true) : R (Option (Nat × Nat) × Nat × Nat × Bool)) := by decide +kernel
  obtain ⟨st, h1, h⟩ := bind_ok_iff.1 h
  obtain ⟨⟨st', path, hd⟩, h2, h⟩ := bind_ok_iff.1 h
  obtain ⟨x, h3, h⟩ := bind_ok_iff.1 h
  have h := Except.ok.inj h
  simp only [Prod.mk.injEq] at h
  obtain ⟨rfl, h5, h6, h7⟩ := h
  refine ⟨st, st', path, 102, 1, piece_live (by decide) (.empty rfl) h1, h2, ⟨x, h3, by simp [h5]⟩, ?_⟩
  cases hr : st.insertRef 1000 pieceRefEnv false [] 35 (305, 308) 3 with
  | error f => exact ⟨f, rfl⟩
  | ok y => rw [hr] at h7; cases h7

end Sherman
