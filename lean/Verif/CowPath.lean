import Verif.CowCursor
import Verif.PathProps
/-!
# `cursor_to` right after an insertion, with copy-on-write

`cursor_to` may go wrong on trees that share nodes (C41).  Right after an insertion it gives the right path to the run with the inserted slice:
all nodes on that path belong to this tree alone, and have the right links.
-/
namespace Sherman.Cow
variable {I S T : Type}

/-! ## Model -/

/-- `insert_with_cursor`: `LSt.insert` with the path of the cursor that it returns.  src/tree/insert.rs:41-197, src/tree/mod.rs:560-580 -/
def LSt.insertC (E : Env I S) (imax : Nat) (s : LSt I S) (i : Nat) (hints : List Nat) (idx : I) (slice : S) (size : I) : R (List Nat × LSt I S) := do
  match ← s.st.tree i with
  | none => do
    let (t, out) ← RleTree.insert E ⟨none⟩ false hints idx slice size ⟨s.st.heap.next, [], [], none, []⟩
    let L ← runLinks ⟨true, shared s.st.heap⟩ s.links out.world.links
    pure (out.path, ⟨s.st.store i s.st.heap t out.world.next, L⟩)
  | some r => do
    let t ← readT s.st.heap (r.h + 1) r.p
    check (!E.ix.lt (Node.size t) idx) "cannot insert new slice, index out of bounds"
    check (!E.ix.le size E.ix.zero) "cannot insert new slice, size is not greater than zero"
    let path ← wayDown E t hints idx slice
    let (H, L, p) ← unshareL imax path s.st.heap s.links r.h r.p
    let t ← readT H (r.h + 1) p
    let (t, out) ← RleTree.insert E ⟨some ⟨r.h, t, r.len⟩⟩ false hints idx slice size ⟨H.next, [], [], none, []⟩
    let L ← runLinks ⟨true, shared H⟩ L out.world.links
    pure (out.path, ⟨s.st.store i H t out.world.next, L⟩)

/-! ## Proofs -/

theorem insertC_map (E : Env I S) (imax : Nat) (s : LSt I S) (i : Nat) (hints : List Nat) (idx : I) (slice : S) (size : I) :
    (s.insertC E imax i hints idx slice size).map Prod.snd = s.insert E imax i false hints idx slice size := by
  simp only [LSt.insertC, LSt.insert]
  cases s.st.tree i with
  | error f => rfl
  | ok o =>
    cases o with
    | none =>
      simp only [R.bind_ok]
      cases RleTree.insert E ⟨none⟩ false hints idx slice size ⟨s.st.heap.next, [], [], none, []⟩ with
      | error f => rfl
      | ok x =>
        obtain ⟨t, out⟩ := x
        simp only [R.bind_ok]
        cases runLinks ⟨true, shared s.st.heap⟩ s.links out.world.links <;> rfl
    | some r =>
      simp only [R.bind_ok]
      cases readT s.st.heap (r.h + 1) r.p with
      | error f => rfl
      | ok t =>
      simp only [R.bind_ok]
      cases check (!E.ix.lt (Node.size t) idx) "cannot insert new slice, index out of bounds" with
      | error f => rfl
      | ok u1 =>
      cases check (!E.ix.le size E.ix.zero) "cannot insert new slice, size is not greater than zero" with
      | error f => rfl
      | ok u2 =>
      simp only [R.bind_ok]
      cases wayDown E t hints idx slice with
      | error f => rfl
      | ok path =>
      simp only [R.bind_ok]
      cases unshareL imax path s.st.heap s.links r.h r.p with
      | error f => rfl
      | ok x =>
      obtain ⟨H, L, p⟩ := x
      simp only [R.bind_ok]
      cases readT H (r.h + 1) p with
      | error f => rfl
      | ok t1 =>
      simp only [R.bind_ok]
      cases RleTree.insert E ⟨some ⟨r.h, t1, r.len⟩⟩ false hints idx slice size ⟨H.next, [], [], none, []⟩ with
      | error f => rfl
      | ok x =>
        obtain ⟨t, out⟩ := x
        simp only [R.bind_ok]
        cases runLinks ⟨true, shared H⟩ L out.world.links <;> rfl

theorem insertC_ok {E : Env I S} {imax : Nat} {s s' : LSt I S} {i : Nat} {hints : List Nat} {idx : I} {slice : S} {size : I} {path : List Nat}
    (h : s.insertC E imax i hints idx slice size = .ok (path, s')) : s.insert E imax i false hints idx slice size = .ok s' := by
  rw [← insertC_map, h]; rfl

/-! ## Maps of slices and the way down -/

theorem way_er {f : S → T} {Ht h : Nat} (ctx : Ctx I S Ht h) : (ctx.er f).way = ctx.way := by
  induction ctx with
  | top => rfl
  | frame p z ks kl kr up ih => simp [Ctx.er, Ctx.way, ih]

theorem callsRhs_er {f : S → T} {E : Env I S} {F : Env I T} (hh : Hom f E F) (key : S) (d : I) (s : S) :
    callsRhs F (f key) d (f s) = callsRhs E key d s := by
  simp only [callsRhs, hh.may, hh.split, hh.join]
  split
  · cases E.sl.tryJoin (E.sl.splitAt key d).1 s with
    | inl mid =>
      simp only [Sum.map_inl, hh.join]
      cases E.sl.tryJoin mid (E.sl.splitAt key d).2 <;> rfl
    | inr x => rfl
  · rfl

theorem wayDown_er {f : S → T} {E : Env I S} {F : Env I T} (hh : Hom f E F) {h : Nat} (t : Tree I S (h + 1)) (hints : List Nat) (idx : I) (s : S) :
    wayDown F (erT f t) hints idx (f s) = wayDown E t hints idx s := by
  simp only [wayDown]
  have := er_findPoint hh t (.top : Ctx I S (h + 1) (h + 1)) (some hints) idx none none
  have e0 : (Ctx.top : Ctx I S (h + 1) (h + 1)).er f = .top := rfl
  rw [e0] at this
  rw [this]
  cases findPoint E t (.top : Ctx I S (h + 1) (h + 1)) (some hints) idx none none with
  | error e => rfl
  | ok p =>
    simp only [R.bind_ok]
    cases p with
    | edge l c i a b => simp only [Point.er, way_er]
    | split g n c k d =>
      simp only [Point.er, way_er]
      have hk := Node.er_handle (f := f) (g := erT f) n k
      have hk : Node.handle (erT f n) k = Node.handle n k >>= fun x => .ok (x.er f) := hk
      rw [hk]
      cases Node.handle n k with
      | error e => rfl
      | ok key => simp only [R.bind_ok, Key.er, callsRhs_er hh]

theorem opened_er {f : S → T} {B : Nat → Prop} {h : Nat} {t : Tree I S h} {path : List Nat} (ho : Opened B t path) : Opened B (erT f t) path := by
  induction h generalizing path with
  | zero => trivial
  | succ h ih =>
    cases path with
    | nil => exact ho
    | cons c path =>
      refine ⟨ho.1, fun k hk => ?_⟩
      have e0 : Node.kids (erT f t) = (Node.kids t).map (erT f) := rfl
      rw [e0, List.getElem?_map, Option.map_eq_some_iff] at hk
      obtain ⟨k0, h1, rfl⟩ := hk
      exact ih (ho.2 k0 h1)

theorem wayTr_er {f : S → T} {B : Nat → Prop} {h : Nat} {t : Tree I S h} {path : List Nat} (ho : WayTr B path t) : WayTr B path (erT f t) := by
  induction h generalizing path with
  | zero => trivial
  | succ h ih =>
    cases path with
    | nil => exact ho
    | cons c path =>
      refine ⟨ho.1, fun k hk => ?_⟩
      have e0 : Node.kids (erT f t) = (Node.kids t).map (erT f) := rfl
      rw [e0, List.getElem?_map, Option.map_eq_some_iff] at hk
      obtain ⟨k0, h1, rfl⟩ := hk
      exact ih (ho.2 k0 h1)

/-! ## The marked slice is not in a part that was left alone -/

section
variable {B : Nat → Prop} [DecidablePred B]

theorem treeM_inl {h : Nat} {t : Tree I S h} {p : Nat} (hp : Sum.inl p ∈ treeM B t) : B p := by
  induction h with
  | zero => simp [treeM] at hp
  | succ h ih =>
    simp only [treeM] at hp
    split at hp
    · rename_i hb
      simp only [nodeM, Multiset.mem_add, Multiset.mem_singleton, Sum.inl.injEq] at hp
      rcases hp with rfl | hp
      · exact hb
      · obtain ⟨k, -, hk⟩ := (mem_kids_sum _ _ _).1 hp
        exact ih hk
    · simp at hp

theorem kid_cells {h : Nat} {t : Tree I S (h + 1)} (har : (Node.kids t).length ≤ (Node.keys t).length + 1) {k : Tree I S h} (hk : k ∈ Node.kids t) {c : Cell S} (hc : c ∈ cells k) :
    ∃ j, c.under j ∈ cells t := by
  obtain ⟨j, hj⟩ := List.mem_iff_getElem?.1 hk
  refine ⟨0 + j, ?_⟩
  simp only [cells]
  exact weave_kid (by simpa using har) (by rw [List.getElem?_map]; exact (by rw [hj]; rfl)) hc

theorem cell_cases {h p i : Nat} {kids : List (Tree I S h)} {ks : List (Key I S)} {c : Cell S} (hc : c ∈ weave p i (kids.map cells) ks) :
    c.path = [] ∨ ∃ j k c', kids[j]? = some k ∧ c' ∈ cells k ∧ c = c'.under (i + j) := by
  induction kids generalizing i ks with
  | nil => simp [weave] at hc
  | cons k kids ih =>
    cases ks with
    | nil =>
      simp only [List.map_cons, weave, List.mem_map] at hc
      obtain ⟨c', h1, rfl⟩ := hc
      exact .inr ⟨0, k, c', rfl, h1, rfl⟩
    | cons key ks =>
      simp only [List.map_cons, weave, List.mem_append, List.mem_map, List.mem_cons] at hc
      rcases hc with ⟨c', h1, rfl⟩ | rfl | hc
      · exact .inr ⟨0, k, c', rfl, h1, rfl⟩
      · exact .inl rfl
      · rcases ih hc with h1 | ⟨j, k', c', h1, h2, h3⟩
        · exact .inl h1
        · exact .inr ⟨j + 1, k', c', by simpa using h1, h2, by rw [h3]; congr 1; omega⟩

/-- A place that is not in a sealed subtree is on open nodes only. -/
theorem open_cell {Q : Cell S → Prop} (hQ : ∀ c j, Q (c.under j) → Q c) {h : Nat} {t : Tree I S h} {c : Cell S} (hc : c ∈ cells t) (hq : Q c)
    (hs : ∀ g u, Sum.inr ⟨g, u⟩ ∈ treeM B t → ∀ c ∈ cells u, ¬ Q c) : WayTr B c.path t := by
  induction h generalizing c with
  | zero => trivial
  | succ h ih =>
    by_cases hb : B (Node.ptr t)
    · rcases cell_cases hc with h1 | ⟨j, k, c', h1, h2, rfl⟩
      · rw [h1]; exact hb
      · simp only [Nat.zero_add, Cell.under]
        refine ⟨hb, fun ch hch => ?_⟩
        have hch : (Node.kids t)[j]? = some ch := hch
        have h1 : (Node.kids t)[j]? = some k := h1
        rw [h1] at hch; cases hch
        refine ih h2 (hQ c' _ hq) (fun g u hu => hs g u ?_)
        simp only [treeM, hb, if_true, nodeM, Multiset.mem_add]
        exact .inr ((mem_kids_sum _ _ _).2 ⟨k, List.mem_of_getElem? h1, hu⟩)
    · exact absurd hq (hs (h + 1) t (by simp [treeM, hb]) c hc)

theorem seals_er {f : S → T} {h : Nat} {t : Tree I S h} {g : Nat} {u : Tree I T g} (hu : Sum.inr ⟨g, u⟩ ∈ treeM B (erT f t)) : ∃ u0 : Tree I S g, u = erT f u0 := by
  induction h with
  | zero => simp [treeM] at hu
  | succ h ih =>
    by_cases hb : B (Node.ptr t)
    · have hb' : B (Node.ptr (erT f t)) := hb
      simp only [treeM, hb', if_true, nodeM, Multiset.mem_add, Multiset.mem_singleton, reduceCtorEq, false_or] at hu
      obtain ⟨k, hk, hm⟩ := (mem_kids_sum _ _ _).1 hu
      have e0 : Node.kids (erT f t) = (Node.kids t).map (erT f) := rfl
      rw [e0, List.mem_map] at hk
      obtain ⟨k0, -, rfl⟩ := hk
      exact ih hm
    · have hb' : ¬ B (Node.ptr (erT f t)) := hb
      simp only [treeM, hb', if_false, Multiset.mem_singleton, Sum.inr.injEq, Sigma.mk.injEq] at hu
      obtain ⟨rfl, hu⟩ := hu
      exact ⟨t, eq_of_heq hu⟩
end

/-! ## Links on open nodes -/

theorem mem_kidF {h p i j : Nat} {kids : List (Tree I S (h + 1))} {k : Tree I S (h + 1)} (hk : kids[j]? = some k) :
    Fact.child (ptrOf k) p (i + j) ∈ kidF p i kids := by
  induction kids generalizing i j with
  | nil => simp at hk
  | cons a kids ih =>
    cases j with
    | zero =>
      obtain rfl : a = k := by simpa using hk
      have : HasPtr.addr a = some (ptrOf a) := rfl
      simp [kidF, this, hang]
    | succ j =>
      have := ih (i := i + 1) (j := j) (by simpa using hk)
      simp only [kidF, Multiset.mem_add]
      exact .inr (by rwa [show i + (j + 1) = i + 1 + j by omega])

/-- On open nodes the links are right. -/
theorem rightAlong_open {md : Mode} {L0 L : LinkMap} {h : Nat} {t : Tree I S (h + 1)} {c : Cell S} (hc : c ∈ cells t) (hw : WayTr md.tr c.path t)
    (hF : ∀ f ∈ treeF md.tr t, f.Holds md L0 L) : RightAlong L t c.path := by
  induction h generalizing c with
  | zero =>
    rcases cell_cases hc with h1 | ⟨j, k, c', h1, h2, rfl⟩
    · rw [h1]; trivial
    · simp [cells] at h2
  | succ h ih =>
    rcases cell_cases hc with h1 | ⟨j, k, c', h1, h2, rfl⟩
    · rw [h1]; trivial
    · simp only [Nat.zero_add, Cell.under] at hw ⊢
      have hroot : md.tr (Node.ptr t) := hw.1
      have hk := hw.2 k h1
      rw [treeF_act hroot] at hF
      refine ⟨k, h1, ?_, ih h2 hk (fun f hf => hF f ?_)⟩
      · have := hF (.child (ptrOf k) (Node.ptr t) (0 + j)) (by
          simp only [actF, nodeF, Multiset.mem_add]
          exact .inl (.inr (mem_kidF h1)))
        rw [Nat.zero_add] at this
        rcases this with ⟨-, h⟩ | ⟨h, -⟩
        · exact h
        · exact absurd (hk.here _ rfl) h
      · simp only [actF, nodeF, Multiset.mem_add]
        exact .inr ((mem_kids_sum _ _ _).2 ⟨k, List.mem_of_getElem? h1, hf⟩)

/-! ## Insertion -/

theorem alike_paths {h : Nat} {t t' : Tree I S h} (e : Alike t t') : (cells t).map Cell.path = (cells t').map Cell.path := by
  induction h with
  | zero => rfl
  | succ h ih =>
    obtain ⟨-, e2, e3⟩ := alike_node.1 e
    have key : ∀ (ks : List (Key I S)) (l l' : List (Tree I S h)) (p p' i : Nat), l.map strip = l'.map strip →
        (weave p i (l.map cells) ks).map Cell.path = (weave p' i (l'.map cells) ks).map Cell.path := by
      intro ks
      have under : ∀ (i : Nat) (k k' : Tree I S h), strip k = strip k' → ((cells k).map (Cell.under i)).map Cell.path = ((cells k').map (Cell.under i)).map Cell.path := by
        intro i k k' hk
        have := congrArg (List.map (fun p => i :: p)) (ih (t := k) (t' := k') hk)
        simpa [List.map_map, Function.comp_def, Cell.under] using this
      induction ks with
      | nil =>
        intro l l' p p' i hl
        cases l with
        | nil => cases l' with
          | nil => rfl
          | cons => simp at hl
        | cons k l => cases l' with
          | nil => simp at hl
          | cons k' l' =>
            simp only [List.map_cons, List.cons.injEq] at hl
            exact under i k k' hl.1
      | cons key ks ihk =>
        intro l l' p p' i hl
        cases l with
        | nil => cases l' with
          | nil => rfl
          | cons => simp at hl
        | cons k l => cases l' with
          | nil => simp at hl
          | cons k' l' =>
            simp only [List.map_cons, List.cons.injEq] at hl
            simp only [List.map_cons, weave, List.map_append, under i k k' hl.1, ihk l l' p p' (i + 1) hl.2]
    simp only [cells]
    rw [e2]
    exact key _ _ _ _ _ _ e3

theorem splitFollows_alike {MAX : Nat} {E : Env Nat S} (hE : E.ix = natIdx MAX) {h len : Nat} {t t' : Tree Nat S (h + 1)} (e : Alike t t')
    (hr : Reach MAX E ⟨some ⟨h, t, len⟩⟩) {idx : Nat} {s : S} (hs : SplitFollows E ⟨some ⟨h, t, len⟩⟩ idx s) :
    SplitFollows E ⟨some ⟨h, t', len⟩⟩ idx s := by
  have al : RleTree.Alike (⟨some ⟨h, t, len⟩⟩ : RleTree Nat S) ⟨some ⟨h, t', len⟩⟩ := ⟨rfl, rfl, e⟩
  have hruns := (al.holds (hr.holds hE).2.1).runs
  intro a x b o c h1 h2 h3 h4 h5
  have h5 : (cells t')[a.length]? = some c := h5
  have h6 : ((cells t').map Cell.path)[a.length]? = some c.path := by rw [List.getElem?_map, h5]; rfl
  rw [← alike_paths e, List.getElem?_map, Option.map_eq_some_iff] at h6
  obtain ⟨c1, h7, h8⟩ := h6
  rw [← h8]
  exact hs a x b o c1 (by rw [← hruns]; exact h1) h2 h3 h4 h7

theorem insertC_right {MAX imax : Nat} {E : Env Nat S} (hE : E.ix = natIdx MAX) (hM : 1 ≤ E.M) (hM' : E.M ≤ 127) {s s' : LSt Nat S} {ss : Lists S}
    (hrel : Rel MAX E s.st ss) (hsim : Simple s.st.heap) {i : Nat} {t : RleTree Nat S} (hv : s.st.view i = .ok t) (hreach : Reach MAX E t)
    {hints : List Nat} {idx : Nat} {slice : S} {size : Nat} {path : List Nat} (hsz : size ≤ MAX) (hok : SplitFollows E t idx slice)
    (hc : s.insertC E imax i hints idx slice size = .ok (path, s')) :
    ∃ A e B r c, s'.st.view i = .ok ⟨some r⟩ ∧ RleTree.runs ⟨some r⟩ = A ++ e :: B ∧ total A ≤ idx ∧ idx + size ≤ total A + e.size ∧
      (cells r.tree)[A.length]? = some c ∧ path = c.path ∧ RightAlong s'.links r.tree path := by
  have ok := hrel.ok
  obtain ⟨st, L⟩ := s
  have hlt : i < st.trees.length := by
    obtain ⟨o, ho⟩ := view_tree hv
    exact (List.getElem?_eq_some_iff.1 ho).1
  rcases St.view_cases hv with ⟨hi, rfl⟩ | ⟨r, t0, hi, ht0, rfl⟩
  · have hi : st.trees[i]? = some (some none) := hi
    simp only [LSt.insertC, St.tree_ok.2 hi, R.bind_ok, bind_ok_iff] at hc
    obtain ⟨⟨t2, o⟩, hr, L', l1, hc⟩ := hc
    cases hc
    obtain ⟨t', e1, e2, e3⟩ := insert_first hr
    obtain ⟨A, e, B, c, g1, g2, g3, g4, g5, -⟩ := insert_place_tag hE hreach (by simp [RleTree.P]) hsz hr hok
    subst e1
    obtain ⟨-, k2, -, k4⟩ := new_write (out' := held (st.trees.set i (some (some ⟨0, st.heap.next, 1⟩)))) ok.inv e2 (fun x => by
      have := held_set hi (some (some ⟨0, st.heap.next, 1⟩)) x
      simp only [rootW] at this
      omega)
    have hst : st.store i st.heap ⟨some ⟨0, t', 1⟩⟩ o.world.next =
        ⟨writeT st.heap t' (st.heap.next + 1), st.trees.set i (some (some ⟨0, st.heap.next, 1⟩))⟩ := by
      have e4 : ptrOf t' = st.heap.next := e2
      simp only [St.store, St.setTree, e4, e3]
    refine ⟨A, e, B, ⟨0, t', 1⟩, c, ?_, g1, g2, g3, g4, g5 rfl, ?_⟩
    · dsimp only
      rw [hst, St.view_some (List.getElem?_set_self hlt) k2]
    · rw [g5 rfl]
      have hcm : c ∈ cells t' := List.mem_of_getElem? g4
      rcases cell_cases hcm with h1 | ⟨j, k, c', h1, h2, rfl⟩
      · rw [h1]; trivial
      · simp [cells] at h2
  · have hi : st.trees[i]? = some (some (some r)) := hi
    have ht0 : readT st.heap (r.h + 1) r.p = .ok t0 := ht0
    obtain ⟨nd, hm, hht⟩ := ok.root i r hi
    simp only [LSt.insertC, St.tree_ok.2 hi, R.bind_ok, ht0, bind_ok_iff] at hc
    obtain ⟨u1, hc1, u2, hc2, wpath, hw, ⟨H', L1, p'⟩, eL, t', ht', ⟨t2, o⟩, hr, L', l1, hc⟩ := hc
    cases hc
    have hh := (hreach.holds hE).2.1
    have hrep : Rep E.M 1 t0 _ := hh.2.1
    have hf : Fits t0 wpath := by
      rcases wayDown_fits (E := E) hrep (hints := hints) (idx := idx) (s := slice) with ⟨path', hw2, hf⟩ | ⟨f, h1, h2⟩
      · rw [hw] at hw2; cases hw2; exact hf
      · rw [hw] at h2; cases h2
    have hpos : 0 < held st.trees r.p := by
      have := held_one hi r.p
      simp only [rootW, if_true] at this
      omega
    rcases unshare_spec (imax := imax) ok.inv hm hht ht0 hf hpos with ⟨H2, p2, -, e, hinv, -, -, stay, ⟨nd', hm', hht'⟩, t3, ht3, alt⟩ | e
    swap
    · have := unshareL_map imax wpath st.heap L r.h r.p
      rw [e] at this
      rw [show unshareL imax wpath st.heap L r.h r.p = .ok (H', L1, p') from eL] at this
      cases this
    obtain ⟨L1', X, eL', way, hsim', lway, hroot, hfr, hsame⟩ := unshareL_spec (L := L) ok.inv hsim hm hht ht0 hf hpos e
    have eL : unshareL imax wpath st.heap L r.h r.p = .ok (H', L1, p') := eL
    rw [eL] at eL'
    cases eL'
    rw [ht'] at ht3; cases ht3
    have alr : RleTree.Alike (⟨some ⟨r.h, t0, r.len⟩⟩ : RleTree Nat S) ⟨some ⟨r.h, t', r.len⟩⟩ := ⟨rfl, rfl, alt⟩
    have hreach' : Reach MAX E ⟨some ⟨r.h, t', r.len⟩⟩ := .alike alr hreach
    let ts1 := st.trees.set i (some (some ⟨r.h, p', r.len⟩))
    have hi1 : Inv H' (held ts1) := hinv _ (fun x => held_set hi (some (some ⟨r.h, p', r.len⟩)) x)
    have hts1 : ts1[i]? = some (some (some ⟨r.h, p', r.len⟩)) := List.getElem?_set_self hlt
    have hpos1 : 0 < held ts1 p' := by
      have := held_one hts1 p'
      simp only [rootW, if_true] at this
      omega
    have hw' : wayDown E t' hints idx slice = .ok wpath := by rw [← wayDown_alike alt]; exact hw
    obtain ⟨r', e1, k1, k2, k3, k4, k5⟩ := insert_write hi1 way hm' hht' hpos1 ht' hr hw'
    subst e1
    have hrep' : Rep E.M 1 t' _ := (alr.holds hh).2.1
    obtain ⟨f1, f2, f3, f4⟩ := way_facts hi1 hsim' (X := X) (md := cowMode H' X way.one hi1.lt) rfl way hm' hht' (fun x hx => hx) (fun x hx => .inl hx)
      ht' lway hrep'
    have hp' : Node.ptr t' = p' := by
      obtain ⟨_, _, _, _, e⟩ := readT_succ.1 ht'
      rw [e]
    have hpt : ptrT t' = some p' := congrArg some hp'
    have hlk : Lk (cowMode H' X way.one hi1.lt) L1 ⟨H'.next, [], [], none, []⟩ ((⟨some ⟨r.h, t', r.len⟩⟩ : RleTree Nat S).F (Ow H' X) + 0) := by
      refine ⟨⟨L1, rfl, fun f hf => ?_, fun _ _ => rfl⟩, ?_, fun x hx => ?_, fun p hp => .inr hp⟩
      · simp only [RleTree.F, hpt, free, add_zero, Multiset.mem_add, Multiset.mem_singleton] at hf
        rcases hf with hf | rfl
        · exact f2 f hf
        · exact ⟨hroot, .inl way.head.1⟩
      · simp only [RleTree.F, hpt, free, add_zero, owners_add, owners_orphan]
        rw [add_comm, Multiset.singleton_add, Multiset.nodup_cons]
        refine ⟨fun hx => ?_, f3⟩
        obtain ⟨nc, a1, a2⟩ := f4 p' hx
        rw [hm'] at a1; cases a1
        omega
      · simp only [RleTree.F, hpt, free, add_zero, owners_add, owners_orphan, Multiset.mem_add, Multiset.mem_singleton] at hx
        rcases hx with hx | rfl
        · obtain ⟨nc, a1, -⟩ := f4 x hx
          exact hi1.lt _ _ a1
        · exact hi1.lt _ _ hm'
    have hlk' := Lk.insert hr (fun root h path' hpath' => by
      cases h
      rw [hw'] at hpath'; cases hpath'
      exact f1) hlk
    obtain ⟨L2, l1', l2, l3⟩ := hlk'.run
    have l1' : runLinks ⟨true, shared H'⟩ L1 o.world.links = .ok L2 := l1'
    have l1 : runLinks ⟨true, shared H'⟩ L1 o.world.links = .ok L' := l1
    rw [l1] at l1'; cases l1'
    have hrootO : Ow H' X (ptrOf r'.tree) := (l2 (.orphan (ptrOf r'.tree)) (by
      have hpr : ptrT r'.tree = some (ptrOf r'.tree) := rfl
      simp [RleTree.F, hpr, free])).2
    -- the marked slice
    obtain ⟨A, ee, B, c, g1, g2, g3, g4, g5, -, T', c0, m1, m2, m3, m4, m5⟩ := insert_place_tag hE hreach' (by
      intro p hp
      simp only [RleTree.P, treeP_addrs, Multiset.mem_coe] at hp
      exact addrs_live hi1 hm' hht' ht' p hp) hsz hr (splitFollows_alike hE alt hreach hok)
    have g5 := g5 rfl
    obtain ⟨Tr⟩ := T'
    cases Tr with
    | none => cases m2
    | some Rt =>
    have m2 : (⟨Rt.h, erT Prod.fst Rt.tree, Rt.len⟩ : Root Nat S) = r' := Option.some.inj (congrArg RleTree.root m2)
    subst m2
    have m1 : RleTree.insert (tagE E) ⟨some ⟨r.h, erT (fun s => (s, false)) t', r.len⟩⟩ false hints idx (slice, true) size ⟨H'.next, [], [], none, []⟩ =
      .ok (⟨some Rt⟩, o) := m1
    have hwt : wayDown (tagE E) (erT (fun s => (s, false)) t') hints idx (slice, true) = .ok wpath := by
      have := wayDown_er (tag_hom E) (erT (fun s => (s, false)) t') hints idx (slice, true)
      rw [erT_id (fun _ => rfl)] at this
      rw [← this]; exact hw'
    have hop := (way_tokens hi1 way hm' hht' (fun x hx => hx) (fun x hx => .inl hx) ht').1
    have hop' : Opened (Ow H' X) (erT (fun s => (s, false)) t') wpath := opened_er hop
    have hold : ∀ q, Sum.inl q ∈ actM (Ow H' X) (erT (fun s => (s, false)) t') → Ow H' X q := fun q hq => by
      rw [← treeM_open hop'.root] at hq
      exact treeM_inl hq
    obtain ⟨-, keq, -⟩ := insert_keeps m1 rfl hwt hop' hold (fun p hp => .inr hp)
    have keq : actM (Ow H' X) Rt.tree = actM (Ow H' X) (erT (fun s => (s, false)) t') + fresh Nat (S × Bool) H'.next o.world.next := keq
    have hrt : Ow H' X (Node.ptr Rt.tree) := hrootO
    rw [← treeM_open hrt, ← treeM_open hop'.root] at keq
    have m3 : (cells Rt.tree)[A.length]? = some c0 := m3
    have hopen := open_cell (Q := fun c : Cell (S × Bool) => c.slice.2 = true) (fun _ _ h => h) (List.mem_of_getElem? m3) m5 (fun g u hu c hc hq => by
      rw [keq, Multiset.mem_add] at hu
      rcases hu with hu | hu
      · obtain ⟨u0, rfl⟩ := seals_er hu
        rw [cells_er, List.mem_map] at hc
        obtain ⟨c1, -, rfl⟩ := hc
        simp [Cell.er] at hq
      · simp [fresh] at hu)
    have hcp : c0.path = c.path := by rw [← m4]; rfl
    rw [hcp] at hopen
    have hopen2 : WayTr (Ow H' X) c.path (erT Prod.fst Rt.tree) := wayTr_er hopen
    refine ⟨A, ee, B, ⟨Rt.h, erT Prod.fst Rt.tree, Rt.len⟩, c, ?_, g1, g2, g3, g4, g5, ?_⟩
    · have hst : st.store i H' ⟨some ⟨Rt.h, erT Prod.fst Rt.tree, Rt.len⟩⟩ o.world.next =
          ⟨writeT H' (erT Prod.fst Rt.tree) o.world.next, st.trees.set i (some (some ⟨Rt.h, ptrOf (erT Prod.fst Rt.tree), Rt.len⟩))⟩ := rfl
      dsimp only
      rw [hst, St.view_some (List.getElem?_set_self hlt) k1]
    · rw [g5]
      refine rightAlong_open (md := cowMode H' X way.one hi1.lt) (L0 := L1) (List.mem_of_getElem? g4) hopen2 (fun f hf => l2 f ?_)
      simp only [RleTree.F, add_zero, Multiset.mem_add]
      exact .inl hf

theorem run_snoc {E : Env I S} {imax : Nat} {s0 s s' : LSt I S} {ops : List (Op I S)} {op : Op I S} (h : LSt.run E imax s0 ops = .ok s)
    (hs : LSt.step E imax s op = .ok s') : LSt.run E imax s0 (ops ++ [op]) = .ok s' := by
  simp only [LSt.run, List.foldlM_append, List.foldlM_cons, List.foldlM_nil] at h ⊢
  rw [h, R.bind_ok, hs]
  rfl

/-! ## C41 -/

/-- C41: right after an insertion into a tree that may share nodes with others, `cursor_to` of each of the positions inserted returns the path in the
cursor that the insertion returned, which leads to the run with the inserted slice; it does not call itself.  Missing: the insertions that
`SplitFollows` excludes, for which the cursor returned is not the right one even without sharing (C16). -/
theorem insert_cursorTo_partial {S : Type} {MAX imax : Nat} {E : Env Nat S} (hE : E.ix = natIdx MAX) (hM : 1 ≤ E.M) (hM' : E.M ≤ 127)
    {ops : List (Op Nat S)} (hops : ∀ op ∈ ops, op.fits MAX) {s s' : LSt Nat S} (h : LSt.run E imax LSt.init ops = .ok s)
    {i : Nat} {t : RleTree Nat S} (hv : s.st.view i = .ok t) {hints : List Nat} {idx : Nat} {slice : S} {size : Nat} (hsz : size ≤ MAX)
    (hok : SplitFollows E t idx slice) {path : List Nat} (hc : s.insertC E imax i hints idx slice size = .ok (path, s')) (fuel : Nat) :
    (∀ j, idx ≤ j → j < idx + size → s'.cursorTo E.ix (fuel + 1) i j = some (.ok path)) ∧
    ∃ t' A e B c, s'.st.view i = .ok t' ∧ t'.runs = A ++ e :: B ∧ total A ≤ idx ∧ idx + size ≤ total A + e.size ∧
      t'.places[A.length]? = some c ∧ path = c.path := by
  have hrun' : LSt.run E imax LSt.init (ops ++ [.insert i false hints idx slice size]) = .ok s' := run_snoc h (insertC_ok hc)
  have hops' : ∀ op ∈ ops ++ [.insert i false hints idx slice size], op.fits MAX := by
    intro op hop
    rcases List.mem_append.1 hop with hop | hop
    · exact hops op hop
    · rw [List.mem_singleton] at hop
      subst hop
      exact hsz
  rcases runL hE hM hM' hops with ⟨st, L, ss, -, e2, hrel, hsim⟩ | ⟨f, -, e2⟩
  swap
  · rw [h] at e2; cases e2
  rw [h] at e2; cases e2
  obtain ⟨o, ho⟩ := view_tree hv
  have : ∃ es, ss[i]? = some (some es) := by
    by_contra hn
    exact hrel.noTree (fun es he => hn ⟨es, he⟩) o ho
  obtain ⟨es, hes⟩ := this
  obtain ⟨t1, hv1, hreach, -⟩ := hrel.view i es hes
  rw [hv] at hv1; cases hv1
  obtain ⟨A, e, B, r, c, g1, g2, g3, g4, g5, g6, g7⟩ := insertC_right hE hM hM' hrel hsim hv hreach hsz hok hc
  refine ⟨fun j hj1 hj2 => ?_, _, A, e, B, c, g1, g2, g3, g4, g5, g6⟩
  have hm := cursorTo_shared_partial hE hM hM' hops' hrun' g1 j fuel
  have hlt : j < RleTree.size E ⟨some r⟩ := by
    obtain ⟨⟨ss', hrel'⟩, -⟩ := run_lok hE hM hM' hops' hrun'
    obtain ⟨o', ho'⟩ := view_tree g1
    have : ∃ es, ss'[i]? = some (some es) := by
      by_contra hn
      exact hrel'.noTree (fun es he => hn ⟨es, he⟩) o' ho'
    obtain ⟨es', hes'⟩ := this
    obtain ⟨t2, hv2, hreach2, -⟩ := hrel'.view i es' hes'
    rw [g1] at hv2; cases hv2
    rw [(hreach2.holds hE).2.1.size hE, g2]
    simp only [total_append, total_cons]
    omega
  obtain ⟨a, x, b, r2, c2, k1, k2, k3, k4, k5, k6, k7⟩ := hm.1 hlt
  cases k4
  rw [g2] at k1
  obtain ⟨rfl, rfl, rfl⟩ := run_unique (s := j) k1 ⟨by omega, by omega⟩ ⟨k2, k3⟩
  rw [g5] at k5; cases k5
  rw [g6] at g7 ⊢
  exact k7 g7

/-- C41: for slices that are constants, no insertion is excluded. -/
theorem insert_cursorTo_const {T : Type} [BEq T] [LawfulBEq T] {MAX imax M : Nat} {refs : Bool} (hM : 1 ≤ M) (hM' : M ≤ 127)
    {ops : List (Op Nat T)} (hops : ∀ op ∈ ops, op.fits MAX) {s s' : LSt Nat T}
    (h : LSt.run ⟨natIdx MAX, constSl T, M, refs⟩ imax LSt.init ops = .ok s) {i : Nat} {hints : List Nat} {idx : Nat} {slice : T} {size : Nat}
    (hsz : size ≤ MAX) {path : List Nat} (hc : s.insertC ⟨natIdx MAX, constSl T, M, refs⟩ imax i hints idx slice size = .ok (path, s')) (fuel : Nat)
    {j : Nat} (h1 : idx ≤ j) (h2 : j < idx + size) : s'.cursorTo (natIdx MAX) (fuel + 1) i j = some (.ok path) := by
  obtain ⟨⟨ss, hrel⟩, -⟩ := run_lok (E := ⟨natIdx MAX, constSl T, M, refs⟩) rfl hM hM' hops h
  have : ∃ t, s.st.view i = .ok t := by
    by_cases hi : ∃ es, ss[i]? = some (some es)
    · obtain ⟨es, hes⟩ := hi
      obtain ⟨t, hv, -⟩ := hrel.view i es hes
      exact ⟨t, hv⟩
    · simp only [LSt.insertC, St.tree_error (hrel.noTree (fun es he => hi ⟨es, he⟩))] at hc
      cases hc
  obtain ⟨t, hv⟩ := this
  exact (insert_cursorTo_partial (E := ⟨natIdx MAX, constSl T, M, refs⟩) rfl hM hM' hops h hv hsz (splitFollows_const t idx slice) hc fuel).1 j h1 h2

/-- The cursor that an insertion after a program returns, and what `cursor_to` then says about two positions.  src/tree/mod.rs:460-529 -/
def exInsert (ops : List (Op Nat Char)) (i idx : Nat) (slice : Char) (size j k : Nat) : R (List Nat × Option (R (List Nat)) × Option (R (List Nat))) := do
  let s ← LSt.run exEnv 1000 LSt.init ops
  let (path, s) ← s.insertC exEnv 1000 i [] idx slice size
  pure (path, s.cursorTo exEnv.ix 1 i j, s.cursorTo exEnv.ix 9 i k)

/-- Insertion at the start of a clone that shares nodes with two other trees: `cursor_to` of a position inserted is right, but the path to another
position is not. -/
example : exInsert (cloneProg ++ [.clone 1]) 2 0 'x' 2 1 7 = .ok ([0], some (.ok [0]), some (.ok [2, 0])) := by decide +kernel

end Sherman.Cow
