import Verif.SplitInsert
import Verif.Handles
/-!
# `RleTree.insert` refines `specInsert`
-/
namespace Sherman
variable {S : Type}

/-- `Holds E t es`: the tree `t` is well formed and stores the runs `es`, all of positive size. -/
def Holds (E : Env Nat S) (t : RleTree Nat S) (es : List (Ent S)) : Prop :=
  Pos es ∧ match t.root with
  | none => es = []
  | some r => Rep E.M 1 r.tree es ∧ r.len = es.length

theorem Holds.rep {E : Env Nat S} {t : RleTree Nat S} {es : List (Ent S)} (h : Holds E t es) : ∀ r, t.root = some r → Rep E.M 1 r.tree es := by
  intro r hr
  have := h.2
  rw [hr] at this
  exact this.1

theorem makeNewParent_spec {MAX M : Nat} {h : Nat} {lhs rhs : Tree Nat S (h + 1)} {key : Key Nat S} {ks : Nat}
    {w : World} {esl esr : List (Ent S)} (hM : 1 ≤ M) (hl : Rep M M lhs esl) (hr : Rep M M rhs esr)
    (hb : total esl + ks + total esr ≤ MAX) :
    ∃ t w', makeNewParent (natIdx MAX) lhs key ks rhs w = .ok (t, w') ∧
      Rep M 1 t (esl ++ ⟨ks, key.slice, key.ref⟩ :: esr) := by
  have e1 := hl.size
  have e2 := hr.size
  have a1 : szN lhs + ks ≤ MAX := by omega
  have a2 : szN lhs + ks + szN rhs ≤ MAX := by omega
  let n : Node Nat S (Tree Nat S (h + 1)) :=
    { ptr := w.next, size := szN lhs + ks + szN rhs, keys := [{ key with pos := szN lhs }], kids := [lhs, rhs] }
  refine ⟨n, World.update (((((w.link (ptrT lhs) .top).link (ptrT rhs) .top).alloc.link (ptrT lhs) fun q => .set q n.ptr 0)).link
    (ptrT rhs) fun q => .set q n.ptr 1) key.ref n.ptr 0, ?_, ?_⟩
  · simp only [makeNewParent, szT_natIdx, addR_ok a1, addR_ok a2, R.bind_ok]
    rfl
  · refine ⟨lhs, esl, [{ size := ks, slice := key.slice, ref := key.ref, kid := rhs, ents := esr }], ?_, hl, ?_, by simp [Item.ent], by simp, by simp; omega⟩
    · simp [n, mkG, Nat.add_assoc, Nat.add_comm, Nat.add_left_comm]; rfl
    · intro it hit
      simp only [List.mem_singleton] at hit
      subst hit; exact hr

/-- The search and the insertion into the node found. -/
theorem insert_stage {MAX : Nat} {E : Env Nat S} (hE : E.ix = natIdx MAX) (hM : 1 ≤ E.M) {H : Nat}
    {tr : Tree Nat S (H + 1)} {es : List (Ent S)} (hr : Rep E.M 1 tr es) (hp : Pos es) {idx : Nat}
    (hidx : idx ≤ total es) {nop : Bool} {hints : List Nat} {s : S} {size : Nat} {w : World} (hw : w.fst = none)
    (hb : total es + size ≤ MAX) :
    ∃ pt, findPoint E tr .top (some hints) idx none none = .ok pt ∧
      Agrees E.M es.length (insertAt E nop pt s size w) (specInsert E.sl es idx s size) := by
  obtain ⟨pt, h1, h2⟩ := findPoint_spec (MAX := MAX) (m := Maps.identity (natIdx MAX)) (ctx := .top)
    (hints := some hints) (lhs := none) (rhs := none) (L := []) (R := []) hE rfl hr hp hidx
    ⟨rfl, rfl, rfl⟩ (fun _ => ⟨trivial, trivial⟩)
  refine ⟨pt, h1, ?_⟩
  have hne : es ≠ [] := by
    obtain ⟨c, ec, psr, _, _, _, h4, h5, _⟩ := hr
    intro h
    subst h
    cases psr with
    | nil => simp at h5
    | cons it psr => simp at h4
  cases pt with
  | edge leaf ctx i lhs rhs =>
    obtain ⟨p, A, B, L, R, rfl, rfl, a1, a2, a3, a4, a5, a6⟩ := h2
    have hall : es = (L ++ A) ++ (B ++ R) := by simpa using a4
    have hpos : idx = total (L ++ A) := by simpa using a5
    subst hall
    subst hpos
    have hcut := cutAt_edge (L := L ++ A) (R := B ++ R) hp
    simp only [specInsert, hcut]
    rw [List.length_append]
    rw [total_append] at hb
    cases hj : E.sl.mayJoin with
    | false => exact insertEdge_nojoin hE hM hw hj rfl a1 a2 a3 hb
    | true =>
      exact insertEdge_join hE hM hw hj hne ⟨p, A, B, L, R, rfl, rfl, a1, a2, a3, rfl, rfl, a6 hj⟩ hb
  | split h n ctx k o =>
    obtain ⟨p, psl, psr, it, c, ec, L, R, rfl, rfl, a1, a2, a3, a4, a5, a6, a7, a8, a9, a10⟩ := h2
    have hall : es = (L ++ entsL psl ++ ec) ++ it.ent :: (it.ents ++ entsR psr ++ R) := by simpa using a7
    have e1 := RepItems.totL a1
    have e2 := a2.size
    have hpos : idx = total (L ++ entsL psl ++ ec) + o := by
      simp only [total_append]
      simp at a8; omega
    subst hall
    subst hpos
    have hv : KeyView E.M (Maps.identity (natIdx MAX)) psl.length (L ++ entsL psl ++ ec) it.ent
        (it.ents ++ entsR psr ++ R)
        (⟨h, (mkG szN p psl c (szN c) (it :: psr) : Node Nat S (Tree Nat S h)), ctx⟩ :
          (h : Nat) × Tree Nat S (h + 1) × Ctx Nat S (H + 1) (h + 1)) := by
      refine ⟨p, psl, psr, it, c, ec, L, R, rfl, rfl, a1, a2, a3, a4, a5, ?_, rfl, rfl, rfl⟩
      rw [szN_mkG] at a6; exact a6
    have hcut := cutAt_inside (L := L ++ entsL psl ++ ec) (R := it.ents ++ entsR psr ++ R) (e := it.ent)
      (o := o) a10
    obtain ⟨o, rfl⟩ : ∃ o', o = o' + 1 := ⟨o - 1, by omega⟩
    simp only [specInsert, hcut]
    have := insertSplit_spec (s := s) (size := size) (nop := nop) (o := o + 1) hE hM hv hw (Nat.le_of_lt a10) (by
      simp only [total_append, total_cons] at hb ⊢; omega)
    have hl : (L ++ entsL psl ++ ec ++ it.ent :: (it.ents ++ entsR psr ++ R)).length =
        (L ++ entsL psl ++ ec).length + (it.ents ++ entsR psr ++ R).length + 1 := by
      simp; omega
    rw [hl]
    exact this

theorem specEdge_facts {sl : SliceOps Nat S} {L R es' : List (Ent S)} {s : S} {size : Nat}
    (hp : Pos (L ++ R)) (hs : 0 < size) (h : specEdge sl L R s size = .ok es') :
    Pos es' ∧ total es' = total (L ++ R) + size := by
  rw [Pos.append] at hp
  unfold specEdge at h
  split at h
  · cases h
    simp [Pos.append, Pos.cons, hp.1, hp.2, hs]; omega
  · rcases List.eq_nil_or_concat L with rfl | ⟨L, l, rfl⟩
    · simp only [List.getLast?_nil] at h
      cases R with
      | nil => cases h; simp [Pos.cons, Pos.nil, hs]
      | cons r R =>
        simp only at h
        rw [Pos.cons] at hp
        split at h <;> cases h <;> simp [Pos.cons, hp.2.2, hs, hp.2.1] <;> omega
    · rw [List.concat_eq_append] at h hp ⊢
      rw [Pos.append, Pos.cons] at hp
      simp only [List.getLast?_append, List.getLast?_singleton, Option.some_or,
        List.dropLast_concat] at h
      cases R with
      | nil =>
        simp only at h
        split at h <;> cases h <;>
          simp [Pos.append, Pos.cons, Pos.nil, hs, hp.1.1, hp.1.2.1] <;> omega
      | cons r R =>
        rw [Pos.cons] at hp
        simp only at h
        split at h <;> split at h <;> cases h <;>
          simp [Pos.append, Pos.cons, hs, hp.1.1, hp.1.2.1, hp.2.1, hp.2.2] <;> omega

theorem specSplit_facts {sl : SliceOps Nat S} {e : Ent S} {o : Nat} {s : S} {size : Nat}
    (ho : 0 < o) (ho' : o < e.size) (hs : 0 < size) :
    Pos (specSplit sl e o s size) ∧ total (specSplit sl e o s size) = e.size + size := by
  unfold specSplit
  cases sl.splitAt e.slice o with
  | mk l r =>
    dsimp only
    split
    · simp [Pos.cons, Pos.nil]; omega
    · split <;> split <;> simp [Pos.cons, Pos.nil] <;> omega

/-- Insertion keeps all runs of positive size and adds `size` to the total. -/
theorem specInsert_facts {sl : SliceOps Nat S} {es es' : List (Ent S)} {idx : Nat} {s : S} {size : Nat}
    (hp : Pos es) (hidx : idx ≤ total es) (hs : 0 < size) (h : specInsert sl es idx s size = .ok es') :
    Pos es' ∧ total es' = total es + size := by
  obtain ⟨L, R, o, h1, rfl, rfl, h4⟩ := cutAt_spec hidx
  simp only [specInsert, h1] at h
  cases o with
  | zero => exact specEdge_facts hp hs h
  | succ o =>
    rcases h4 with ⟨_, h4⟩ | ⟨e, R', rfl, h4⟩
    · cases h4
    · simp only at h
      cases h
      obtain ⟨b1, b2⟩ := specSplit_facts (sl := sl) (s := s) (o := o + 1) (by omega) h4 hs
      rw [Pos.append, Pos.cons] at hp
      simp [Pos.append, hp.1, hp.2.2, b1, b2]
      omega

theorem Agrees.ok_iff {M n : Nat} {H : Nat} {r : R (Nat × Post Nat S H × List Nat × World)}
    {es : List (Ent S)} (h : Agrees M n r (.ok es)) : ∃ d post path w, r = .ok (d, post, path, w) ∧
      PostRep M post es ∧ es.length = n + d := h

/-- Insertion into a tree, with or without slice references, refines insertion into a list of runs. -/
theorem insert_refines {MAX : Nat} {E : Env Nat S} (hE : E.ix = natIdx MAX) (hM : 1 ≤ E.M) (hM' : E.M ≤ 127)
    {t : RleTree Nat S} {es : List (Ent S)} (ht : Holds E t es) {idx : Nat}
    (hidx : idx ≤ total es) {nop : Bool} {hints : List Nat} {s : S} {size : Nat} (hs : 0 < size) {w : World}
    (hb : total es + size ≤ MAX) :
    match specInsert E.sl es idx s size with
    | .ok es' => ∃ t' out, RleTree.insert E t nop hints idx s size w = .ok (t', out) ∧ Holds E t' es'
    | .error f => RleTree.insert E t nop hints idx s size w = .error f := by
  obtain ⟨root⟩ := t
  obtain ⟨hp, ht⟩ := ht
  cases root with
  | none =>
    simp only at ht
    subst ht
    obtain rfl : idx = 0 := by simpa using hidx
    have hspec : specInsert E.sl ([] : List (Ent S)) 0 s size = .ok [⟨size, s, none⟩] := by
      simp only [specInsert, cutAt, specEdge]
      split <;> rfl
    rw [hspec]
    refine ⟨⟨some ⟨0, newRoot (natIdx MAX) w.next s size, 1⟩⟩,
      ⟨[], if E.refs then some (w.next, 0) else none, w.alloc⟩, ?_, ?_⟩
    · simp [RleTree.insert, RleTree.size, RleTree.new, hE, hs, hM, hM', check, R.pure_eq, Nat.not_le.mpr hs, newRoot]
    · refine ⟨by simp [Pos.cons, Pos.nil, hs], ?_, rfl⟩
      exact Rep.leafOf (p := w.next) (es := [⟨size, s, none⟩]) (by simp) (by simp; omega)
  | some root =>
    obtain ⟨H, tr, len⟩ := root
    obtain ⟨hr, hlen⟩ := ht
    simp only at hr hlen
    have hsz : Node.size tr = total es := hr.size
    obtain ⟨pt, hpt, hag⟩ := insert_stage (s := s) (size := size) (nop := nop) (hints := hints)
      (w := { w with events := [], fst := none }) hE hM hr hp hidx rfl hb
    have hc1 : (!E.ix.lt (RleTree.size E ⟨some ⟨H, tr, len⟩⟩) idx) = true := by
      rw [hE]; simp [RleTree.size, hsz, hidx]
    have hc2 : (!E.ix.le size E.ix.zero) = true := by
      rw [hE]; simp; omega
    cases hspec : specInsert E.sl es idx s size with
    | error f =>
      rw [hspec] at hag
      have hag : _ = Except.error f := hag
      simp only [RleTree.insert, hc1, hc2, check_true, R.bind_ok, hpt]
      rw [hag]
      rfl
    | ok es' =>
      rw [hspec] at hag
      obtain ⟨d, post, path, w', a1, a2, a3⟩ := hag
      obtain ⟨f1, f2⟩ := specInsert_facts hp hidx hs hspec
      obtain ⟨o, e1, e2⟩ := insertAt_ev a1 rfl
      cases post with
      | done t' =>
        refine ⟨⟨some ⟨H, t', len + d⟩⟩, ⟨path, if E.refs then o else none, w'⟩, ?_, f1, a2, ?_⟩
        · have e5 := e2 t' rfl
          simp only [RleTree.insert, hc1, hc2, check_true, R.bind_ok, hpt, a1, installRoot]
          cases E.refs <;> simp [e1, e5, R.pure_eq, R.bind_ok, check]
        · simp only; omega
      | newRoot lhs key ks rhs =>
        obtain ⟨esl, esr, b1, b2, rfl⟩ := a2
        obtain ⟨t', w'', c1, c2⟩ := makeNewParent_spec (MAX := MAX) (key := key) (ks := ks) (w := w') hM b1 b2
          (by simp at f2; omega)
        refine ⟨⟨some ⟨H + 1, t', len + d⟩⟩, ⟨path, if E.refs && (if E.refs then o else none).isNone then some (Node.ptr t', 0)
          else if E.refs then o else none, w''⟩, ?_, f1, c2, ?_⟩
        · rw [← hE] at c1
          simp only [RleTree.insert, hc1, hc2, check_true, R.bind_ok, hpt, a1, installRoot, c1]
          cases E.refs <;> cases o <;> simp [e1, R.pure_eq, R.bind_ok, check]
        · simp only; omega

end Sherman
