import Verif.Bubble
/-!
# Insertion into leaves
-/
namespace Sherman
variable {S : Type}

theorem kids0_ext {a b : List (Tree Nat S 0)} (h : a.length = b.length) : a = b := by
  induction a generalizing b with
  | nil => cases b <;> simp at h ⊢
  | cons x a ih =>
    cases b with
    | nil => simp at h
    | cons y b =>
      obtain rfl : x = y := by cases x; cases y; rfl
      rw [ih (b := b) (by simpa using h)]

/-- The dummy child of leaves. -/
def uu : Tree Nat S 0 := ()

/-- A leaf given by its keys. -/
def lf (p size : Nat) (ks : List (Key Nat S)) : Node Nat S (Tree Nat S 0) :=
  Node.mk p size ks (List.replicate (ks.length + 1) uu)

/-- The keys of a leaf that stores `es` from position `o`. -/
def ks (o : Nat) : List (Ent S) → List (Key Nat S)
  | [] => []
  | e :: r => ⟨o, e.slice, e.ref⟩ :: ks (o + e.size) r

/-- The leaf that stores `es`. -/
def leafOf (p : Nat) (es : List (Ent S)) : Tree Nat S 1 := lf p (total es) (ks 0 es)

/-- Entries of a leaf as items. -/
def toItem (e : Ent S) : Item S (Tree Nat S 0) := ⟨e.slice, e.ref, e.size, uu, []⟩
def toItems (es : List (Ent S)) : List (Item S (Tree Nat S 0)) := es.map toItem

@[simp] theorem szN_zero (t : Tree Nat S 0) : szN t = 0 := rfl

theorem ks_eq (o : Nat) (es : List (Ent S)) : ks o es = keysR szN o (toItems es) := by
  induction es generalizing o with
  | nil => rfl
  | cons e es ih =>
    simp only [ks, toItems, toItem, List.map_cons, keysR_cons, ih]
    rfl

@[simp] theorem tot_toItems (es : List (Ent S)) : tot szN (toItems es) = total es := by
  induction es with
  | nil => rfl
  | cons e es ih =>
    have : tot szN (toItems (e :: es)) = 0 + e.size + tot szN (toItems es) := rfl
    rw [this, ih]; simp

@[simp] theorem entsR_toItems (es : List (Ent S)) : entsR (toItems es) = es := by
  induction es with
  | nil => rfl
  | cons e es ih =>
    have : entsR (toItems (e :: es)) = e :: ([] ++ entsR (toItems es)) := by
      rw [toItems, List.map_cons, entsR_cons]; rfl
    rw [this, ih]; simp

@[simp] theorem ks_nil (o) : ks o ([] : List (Ent S)) = [] := rfl
@[simp] theorem ks_cons (o) (e : Ent S) (r) : ks o (e :: r) = ⟨o, e.slice, e.ref⟩ :: ks (o + e.size) r := rfl
@[simp] theorem ks_length (o) (es : List (Ent S)) : (ks o es).length = es.length := by
  induction es generalizing o with
  | nil => rfl
  | cons e es ih => simp [ih]
theorem ks_append (o) (a b : List (Ent S)) : ks o (a ++ b) = ks o a ++ ks (o + total a) b := by
  induction a generalizing o with
  | nil => simp
  | cons x a ih => simp [ih]; congr 1; omega

theorem lf_leafOf {p size : Nat} {K : List (Key Nat S)} {es : List (Ent S)} (hs : size = total es)
    (hk : K = ks 0 es) : lf p size K = leafOf p es := by subst hs hk; rfl

/-- What leaves with the right occupancy store. -/
theorem Rep.leafOf {M lo p : Nat} {es : List (Ent S)} (h1 : lo ≤ es.length) (h2 : es.length ≤ 2 * M) :
    Rep M lo (leafOf p es) es := by
  refine ⟨uu, [], toItems es, ?_, rfl, ?_, by simp, by simpa [toItems] using h1,
    by simpa [toItems] using h2⟩
  · simp only [Sherman.leafOf, lf, mkG, ks_eq]
    simp only [tot_nil, tot_toItems, keysL_nil, List.nil_append, kidsOf_nil]
    congr 1
    · rw [szN_zero]; simp
    · exact kids0_ext (by simp [toItems])
  · intro it hi
    simp only [toItems, List.mem_map] at hi
    obtain ⟨e, _, rfl⟩ := hi
    rfl

theorem Rep.eq_leafOf {M lo : Nat} {t : Tree Nat S 1} {es : List (Ent S)} (h : Rep M lo t es) :
    t = Sherman.leafOf (Node.ptr t) es ∧ lo ≤ es.length ∧ es.length ≤ 2 * M := by
  obtain ⟨c, ec, psr, hn, hc, hi, he, h1, h2⟩ := h
  have hec : ec = [] := hc
  subst hec
  have hps : ∀ l : List (Item S (Tree Nat S 0)), (∀ it ∈ l, Rep M M it.kid it.ents) →
      l = toItems (entsR l) := by
    intro l
    induction l with
    | nil => intro _; rfl
    | cons it l ih =>
      intro hl
      have a1 : it.ents = [] := hl it (by simp)
      have a2 := ih (fun x hx => hl x (by simp [hx]))
      have a3 : it = toItem it.ent := by
        cases it with
        | mk a b c d e => simp only at a1; subst a1; rfl
      rw [entsR_cons, a1]
      simp only [toItems, List.nil_append, List.map_cons] at a2 ⊢
      rw [← a2, ← a3]
  have h3 := hps psr hi
  simp only [List.nil_append] at he
  rw [← he] at h3
  subst h3
  refine ⟨?_, by simpa [toItems] using h1, by simpa [toItems] using h2⟩
  rw [hn]
  simp only [Sherman.leafOf, lf, mkG, ks_eq]
  simp only [tot_nil, tot_toItems, keysL_nil, List.nil_append, kidsOf_nil]
  congr 1
  · rw [szN_zero]; simp
  · exact kids0_ext (by simp [toItems])

/-! ## Operations -/
section ops
variable {E : Env Nat S} {p size i MAX : Nat} {A B : List (Key Nat S)} {k : Key Nat S}

@[simp] theorem lf_ptr (ks : List (Key Nat S)) : Node.ptr (lf p size ks) = p := rfl
@[simp] theorem lf_size (ks : List (Key Nat S)) : Node.size (lf p size ks) = size := rfl
@[simp] theorem lf_len (ks : List (Key Nat S)) : Node.len (lf p size ks) = ks.length := rfl
@[simp] theorem lf_keys (ks : List (Key Nat S)) : Node.keys (lf p size ks) = ks := rfl

theorem lf_handle (hi : A.length = i) : Node.handle (lf p size (A ++ k :: B)) i = .ok k :=
  handle_at rfl hi

theorem lf_keyPos (hi : A.length = i) : Node.keyPos (lf p size (A ++ k :: B)) i = .ok k.pos :=
  keyPos_at rfl hi

theorem lf_setKeyPos (hi : A.length = i) (q : Nat) :
    Node.setKeyPos (lf p size (A ++ k :: B)) i q = .ok (lf p size (A ++ { k with pos := q } :: B)) := by
  rw [setKeyPos_at (A := A) (k := k) (B := B) rfl hi]
  simp [lf]

theorem lf_setSlice (hi : A.length = i) (s : S) :
    Node.setSlice (lf p size (A ++ k :: B)) i s = .ok (lf p size (A ++ { k with slice := s } :: B)) := by
  rw [setSlice_at (A := A) (k := k) (B := B) rfl hi]
  simp [lf]

theorem lf_insert (hi : A.length = i) (hlen : A.length + B.length < 2 * E.M) (s : S) (w : World) :
    ∃ w', leafInsert E (lf p size (A ++ B)) i s w =
      .ok (lf p size (A ++ ⟨Node.nextPos (lf p size (A ++ B)) i, s, none⟩ :: B),
        Node.nextPos (lf p size (A ++ B)) i, w') ∧ w'.fst = w.fst := by
  have hk : (lf p size (A ++ B) : Node Nat S (Tree Nat S 0)).kids =
      List.replicate (i + 1) uu ++ List.replicate B.length uu := by
    refine kids0_ext ?_
    simp [lf]; omega
  obtain ⟨w', h1, h2⟩ := insertKC_at (n := lf p size (A ++ B)) (maxLen := 2 * E.M) rfl hi hk (by simp)
    hlen s none uu w
  refine ⟨w', ?_, h2⟩
  change Node.insertKeyAndChild (2 * E.M) (lf p size (A ++ B)) i s none uu w = _
  rw [h1]
  congr 2
  simp only [lf]
  congr 1
  refine kids0_ext ?_
  simp; omega

theorem lf_push {ks : List (Key Nat S)} (hlen : ks.length < 2 * E.M) (s : S) (r : Option Nat) (sz : Nat)
    (w : World) :
    ∃ w', leafPush E (lf p size ks) s r sz w = .ok (lf p sz (ks ++ [⟨size, s, r⟩]), w') ∧
      w'.fst = w.fst := by
  obtain ⟨w', h1, h2⟩ := pushKC_at (n := lf p size ks) (maxLen := 2 * E.M) hlen s r uu sz w
  refine ⟨w', ?_, h2⟩
  change Node.pushKeyAndChild (2 * E.M) (lf p size ks) s r uu sz w = _
  rw [h1]
  congr 2
  simp only [lf]
  congr 1
  refine kids0_ext ?_
  simp

theorem lf_split (hi : A.length = i) (w : World) :
    ∃ w', Node.split (lf p size (A ++ k :: B)) i w =
      .ok (lf p size A, k, lf w.next size B, w') ∧ w'.fst = w.fst := by
  have hk : (lf p size (A ++ k :: B) : Node Nat S (Tree Nat S 0)).kids =
      List.replicate (i + 1) uu ++ List.replicate (B.length + 1) uu := by
    refine kids0_ext ?_
    simp [lf]; omega
  obtain ⟨w', h1, h2⟩ := split_at (n := lf p size (A ++ k :: B)) rfl hi hk (by simp) w
  refine ⟨w', ?_, h2⟩
  rw [h1]
  subst hi
  rfl

theorem lf_nextPos {X : Nat} {es : List (Ent S)} (hi : A.length = i) (hs : size = X + total es) :
    Node.nextPos (lf p size (A ++ ks X es)) i = X :=
  nextPos_at (sz := szN) (psr := toItems es) (by simp [ks_eq]) hi (by simp [hs])

theorem lf_sliceSize {X q : Nat} {e : Ent S} {es : List (Ent S)} (hi : A.length = i)
    (hs : size = X + total es) (hX : X = q + e.size) :
    Node.sliceSize (natIdx MAX) szN (lf p size (A ++ ⟨q, e.slice, e.ref⟩ :: ks X es)) i = .ok e.size := by
  have hk : (lf p size (A ++ ⟨q, e.slice, e.ref⟩ :: ks X es) : Node Nat S (Tree Nat S 0)).kids =
      List.replicate (i + 1) uu ++ uu :: List.replicate es.length uu := by
    refine kids0_ext ?_
    simp [lf]; omega
  exact sliceSize_at (it := toItem e) (psr := toItems es) (X := X) (p := q)
    (by simp [ks_eq, toItem]) hi hk (by simp) (by simp [hs]) (by simp [toItem, hX])

theorem lf_shift {X X' pos old new : Nat} {es : List (Ent S)} {incr : Bool} (hi : A.length = i)
    (hs : size = X + total es) (h1 : pos + old = X) (h2 : pos + new = X') (hm1 : X ≤ MAX)
    (hm2 : X' + total es ≤ MAX) (hinc : incr = true → old ≤ new) (hdec : incr = false → new ≤ old) :
    Node.shiftKeys (natIdx MAX) (lf p size (A ++ ks X es)) incr i pos old new =
      .ok (lf p (X' + total es) (A ++ ks X' es)) := by
  rw [shiftKeys_at (sz := szN) (psr := toItems es) (X := X) (X' := X') (A := A)
    (by simp [ks_eq]) hi (by simp [hs]) h1 h2 hm1 (by simpa using hm2) hinc hdec]
  rw [tot_toItems]
  simp [lf, ks_eq]

theorem lf_shiftAuto {X X' pos old new : Nat} {es : List (Ent S)} (hi : A.length = i)
    (hs : size = X + total es) (h1 : pos + old = X) (h2 : pos + new = X') (hm1 : X ≤ MAX)
    (hm2 : X' + total es ≤ MAX) :
    Node.shiftKeysAuto (natIdx MAX) (lf p size (A ++ ks X es)) i pos old new =
      .ok (lf p (X' + total es) (A ++ ks X' es)) := by
  rw [Node.shiftKeysAuto, lf_shift hi hs h1 h2 hm1 hm2] <;> simp <;> omega

end ops

/-- What an overridden left-hand size does to the entries before the insertion. -/
def OvRel : Option Nat → List (Ent S) → List (Ent S) → Prop
  | none, A, A' => A' = A
  | some s, A, A' => ∃ q e, A = q ++ [e] ∧ A' = q ++ [{ e with size := s }]

theorem OvRel.length {ov} {A A' : List (Ent S)} (h : OvRel ov A A') : A'.length = A.length := by
  cases ov with
  | none => rw [show A' = A from h]
  | some s => obtain ⟨q, e, rfl, rfl⟩ := h; simp

/-- The entries made of the slices to insert. -/
def newEnt (x : Sized Nat S) : Ent S := ⟨x.size, x.slice, none⟩
def newEnts (fst : Sized Nat S) (snd : Option (Sized Nat S)) : List (Ent S) :=
  newEnt fst :: (snd.map newEnt).toList

theorem emit_ins {cb : Cb} {a b : Nat} (w : World) : ∃ w', emit cb (.insertion a b) w = .ok w' :=
  emit_ok w (by simp)

theorem emit_put {cb : Cb} {a b : Nat} (w : World) : ∃ w', emit cb (.putBack a b) w = .ok w' :=
  emit_ok w (by simp)

/-- A leaf with room takes the new slices. -/
theorem leafRoom_spec {MAX p : Nat} {E : Env Nat S} (hE : E.ix = natIdx MAX) {cb : Cb} {m : Maps Nat}
    {A A' B : List (Ent S)} {ov : Option Nat} {fst : Sized Nat S} {snd : Option (Sized Nat S)} (w : World)
    (ho : OvRel ov A A') (hlen : (newEnts fst snd).length + A.length + B.length ≤ 2 * E.M)
    (hm : m.sizes = true → m.lhsHeight ≠ 0)
    (hb1 : total A + total B ≤ MAX) (hb2 : total A' + total (newEnts fst snd) + total B ≤ MAX) :
    ∃ n ovPos old new w',
      leafRoom E cb (leafOf p (A ++ B)) A.length ov fst snd (total (newEnts fst snd)) w =
        .ok (n, ovPos, old, new, w') ∧
      opStep E.ix m false 0 n (.key (A.length + if snd.isSome then 1 else 0)) ovPos old new =
        .ok (leafOf p (A' ++ newEnts fst snd ++ B), total A + total B) := by
  have hi : false = true ∨ ¬ (m.sizes = true ∧ 0 = m.lhsHeight) := by
    right; rintro ⟨a, b⟩; exact hm a b.symm
  have hsz : total (A ++ B) = total A + total B := by simp
  have hleaf : leafOf p (A ++ B) = lf p (total A + total B) (ks 0 A ++ ks (total A) B) := by
    exact (lf_leafOf (by simp) (by simp [ks_append])).symm
  cases snd with
  | none =>
    simp only [newEnts, Option.map_none, Option.toList_none, List.length_cons, List.length_nil,
      total_cons, total_nil, newEnt, Nat.add_zero] at hlen hb2 ⊢
    obtain ⟨w1, hins, _⟩ := lf_insert (E := E) (p := p) (size := total A + total B) (A := ks 0 A)
      (B := ks (total A) B) (i := A.length) (by simp) (by simp; omega) fst.slice w
    rw [lf_nextPos (by simp) rfl] at hins
    cases ov with
    | none =>
      obtain rfl : A' = A := ho
      obtain ⟨w2, hem⟩ := emit_ins (cb := cb) (a := p) (b := A'.length) w1
      refine ⟨lf p (total A' + total B) (ks 0 A' ++ ⟨total A', fst.slice, none⟩ :: ks (total A') B), none,
        0, fst.size, w2, ?_, ?_⟩
      · simp only [leafRoom, hleaf, hins, R.bind_ok, hE, natIdx_zero, R.pure_eq, lf_ptr, hem,
          lf_handle (ks_length 0 A')]
      · simp only [opStep, mapSizes_inert hi, R.bind_ok, opPos, hE, Option.isSome_none,
          Bool.false_eq_true, if_false, Nat.add_zero]
        rw [lf_keyPos (ks_length 0 A')]
        simp only [R.bind_ok]
        rw [show (ks 0 A' ++ ⟨total A', fst.slice, none⟩ :: ks (total A') B) =
          (ks 0 A' ++ [⟨total A', fst.slice, none⟩]) ++ ks (total A') B by simp]
        rw [lf_shiftAuto (X := total A') (X' := total A' + fst.size) (by simp) rfl (by omega) rfl
          (by omega) (by omega)]
        simp only [R.bind_ok, R.pure_eq, lf_size]
        exact congrArg (fun x => Except.ok (x, _)) (lf_leafOf (by simp; try omega) (by simp [ks_append, Nat.add_assoc]))
    | some s =>
      obtain ⟨q, e, rfl, rfl⟩ := ho
      simp only [total_append, total_cons, total_nil, List.length_append, List.length_cons,
        List.length_nil, Nat.add_zero] at hb1 hb2 hins hleaf hlen ⊢
      have hus : usub (q.length + 1) 1 = .ok q.length := by simp [usub]
      have hks : ks 0 (q ++ [e]) = ks 0 q ++ [⟨total q, e.slice, e.ref⟩] := by simp [ks_append]
      have hkp : Node.keyPos (lf p (total q + e.size + total B)
          (ks 0 (q ++ [e]) ++ ks (total q + e.size) B)) q.length = .ok (total q) := by
        rw [hks, List.append_assoc]
        exact lf_keyPos (ks_length 0 q)
      have hss : Node.sliceSize (natIdx MAX) szN (lf p (total q + e.size + total B)
          (ks 0 (q ++ [e]) ++ ks (total q + e.size) B)) q.length = .ok e.size := by
        rw [hks, List.append_assoc]
        exact lf_sliceSize (ks_length 0 q) (by omega) rfl
      have a1 : total q + s ≤ MAX := by omega
      have a2 : s + fst.size ≤ MAX := by omega
      obtain ⟨w2, hem⟩ := emit_ins (cb := cb) (a := p) (b := q.length + 1) w1
      refine ⟨lf p (total q + e.size + total B) (ks 0 (q ++ [e]) ++ ⟨total q + s, fst.slice, none⟩ ::
        ks (total q + e.size) B), some (total q), e.size, s + fst.size, w2, ?_, ?_⟩
      · simp only [leafRoom, hleaf, hE, szT_natIdx, hus, R.bind_ok, hkp, hss, addR_ok a1, hins,
          lf_setKeyPos (show (ks 0 (q ++ [e])).length = q.length + 1 by simp), R.pure_eq, addR_ok a2,
          lf_handle (show (ks 0 (q ++ [e])).length = q.length + 1 by simp), lf_ptr, hem]
      · simp only [opStep, mapSizes_inert hi, R.bind_ok, opPos, hE, Option.isSome_none,
          Bool.false_eq_true, if_false, Nat.add_zero, R.pure_eq]
        rw [show (ks 0 (q ++ [e]) ++ ⟨total q + s, fst.slice, none⟩ :: ks (total q + e.size) B) =
          (ks 0 (q ++ [e]) ++ [⟨total q + s, fst.slice, none⟩]) ++ ks (total q + e.size) B by simp]
        rw [lf_shiftAuto (X := total q + e.size) (X' := total q + (s + fst.size)) (by simp) rfl rfl rfl
          (by omega) (by omega)]
        simp only [R.bind_ok, lf_size]
        exact congrArg (fun x => Except.ok (x, _)) (lf_leafOf (by simp; try omega) (by simp [ks_append, Nat.add_assoc]))
  | some sn =>
    simp only [newEnts, Option.map_some, Option.toList_some, List.length_cons, List.length_nil,
      total_cons, total_nil, newEnt, Nat.add_zero, Option.isSome_some, if_true] at hlen hb2 ⊢
    obtain ⟨w1, hins, _⟩ := lf_insert (E := E) (p := p) (size := total A + total B) (A := ks 0 A)
      (B := ks (total A) B) (i := A.length) (by simp) (by simp; omega) fst.slice w
    rw [lf_nextPos (by simp) rfl] at hins
    cases ov with
    | none =>
      obtain rfl : A' = A := ho
      obtain ⟨w2, hins2, _⟩ := lf_insert (E := E) (p := p) (size := total A' + total B)
        (A := ks 0 A' ++ [⟨total A', fst.slice, none⟩]) (B := ks (total A') B) (i := A'.length + 1)
        (by simp) (by simp; omega) sn.slice w1
      rw [lf_nextPos (by simp) rfl, List.append_assoc, List.append_assoc] at hins2
      simp only [List.cons_append, List.nil_append] at hins2
      have hset := lf_setKeyPos (p := p) (size := total A' + total B) (i := A'.length + 1)
        (A := ks 0 A' ++ [⟨total A', fst.slice, none⟩]) (k := ⟨total A', sn.slice, none⟩)
        (B := ks (total A') B) (by simp) (total A' + fst.size)
      rw [List.append_assoc, List.append_assoc] at hset
      simp only [List.cons_append, List.nil_append] at hset
      obtain ⟨w3, hem⟩ := emit_ins (cb := cb) (a := p) (b := A'.length) w2
      have a1 : total A' + fst.size ≤ MAX := by omega
      refine ⟨lf p (total A' + total B) (ks 0 A' ++ ⟨total A', fst.slice, none⟩ ::
        ⟨total A' + fst.size, sn.slice, none⟩ :: ks (total A') B), some (total A'), 0,
        fst.size + sn.size, w3, ?_, ?_⟩
      · simp only [leafRoom, hleaf, hins, hins2, hset, R.bind_ok, hE, natIdx_zero, R.pure_eq, lf_ptr, hem,
          lf_handle (ks_length 0 A'), addR_ok a1]
      · simp only [opStep, mapSizes_inert hi, R.bind_ok, opPos, hE, R.pure_eq]
        rw [show (ks 0 A' ++ ⟨total A', fst.slice, none⟩ :: ⟨total A' + fst.size, sn.slice, none⟩ ::
            ks (total A') B) = (ks 0 A' ++ [⟨total A', fst.slice, none⟩,
            ⟨total A' + fst.size, sn.slice, none⟩]) ++ ks (total A') B by simp]
        rw [lf_shiftAuto (X := total A') (X' := total A' + (fst.size + sn.size)) (by simp) rfl (by omega)
          rfl (by omega) (by omega)]
        simp only [R.bind_ok, lf_size]
        exact congrArg (fun x => Except.ok (x, _)) (lf_leafOf (by simp; try omega) (by simp [ks_append, Nat.add_assoc]))
    | some s =>
      obtain ⟨q, e, rfl, rfl⟩ := ho
      simp only [total_append, total_cons, total_nil, List.length_append, List.length_cons,
        List.length_nil, Nat.add_zero] at hb1 hb2 hins hleaf hlen ⊢
      have hus : usub (q.length + 1) 1 = .ok q.length := by simp [usub]
      have hks : ks 0 (q ++ [e]) = ks 0 q ++ [⟨total q, e.slice, e.ref⟩] := by simp [ks_append]
      have hkp : Node.keyPos (lf p (total q + e.size + total B)
          (ks 0 (q ++ [e]) ++ ks (total q + e.size) B)) q.length = .ok (total q) := by
        rw [hks, List.append_assoc]
        exact lf_keyPos (ks_length 0 q)
      have hss : Node.sliceSize (natIdx MAX) szN (lf p (total q + e.size + total B)
          (ks 0 (q ++ [e]) ++ ks (total q + e.size) B)) q.length = .ok e.size := by
        rw [hks, List.append_assoc]
        exact lf_sliceSize (ks_length 0 q) (by omega) rfl
      have a1 : total q + s ≤ MAX := by omega
      have a2 : s + (fst.size + sn.size) ≤ MAX := by omega
      have a3 : total q + s + fst.size ≤ MAX := by omega
      obtain ⟨w2, hins2, _⟩ := lf_insert (E := E) (p := p) (size := total q + e.size + total B)
        (A := ks 0 (q ++ [e]) ++ [⟨total q + s, fst.slice, none⟩]) (B := ks (total q + e.size) B)
        (i := q.length + 1 + 1)
        (by simp) (by simp; omega) sn.slice w1
      rw [lf_nextPos (by simp) rfl, List.append_assoc, List.append_assoc] at hins2
      simp only [List.cons_append, List.nil_append] at hins2
      have hset := lf_setKeyPos (p := p) (size := total q + e.size + total B) (i := q.length + 1 + 1)
        (A := ks 0 (q ++ [e]) ++ [⟨total q + s, fst.slice, none⟩])
        (k := ⟨total q + e.size, sn.slice, none⟩)
        (B := ks (total q + e.size) B) (by simp) (total q + s + fst.size)
      rw [List.append_assoc, List.append_assoc] at hset
      simp only [List.cons_append, List.nil_append] at hset
      obtain ⟨w3, hem⟩ := emit_ins (cb := cb) (a := p) (b := q.length + 1) w2
      refine ⟨lf p (total q + e.size + total B) (ks 0 (q ++ [e]) ++ ⟨total q + s, fst.slice, none⟩ ::
        ⟨total q + s + fst.size, sn.slice, none⟩ :: ks (total q + e.size) B), some (total q), e.size,
        s + (fst.size + sn.size), w3, ?_, ?_⟩
      · simp only [leafRoom, hleaf, hE, szT_natIdx, hus, R.bind_ok, hkp, hss, addR_ok a1, hins,
          lf_setKeyPos (show (ks 0 (q ++ [e])).length = q.length + 1 by simp), R.pure_eq, addR_ok a2,
          lf_handle (show (ks 0 (q ++ [e])).length = q.length + 1 by simp), lf_ptr, hem, hins2, hset,
          addR_ok a3]
      · simp only [opStep, mapSizes_inert hi, R.bind_ok, opPos, hE, R.pure_eq]
        rw [show (ks 0 (q ++ [e]) ++ ⟨total q + s, fst.slice, none⟩ ::
            ⟨total q + s + fst.size, sn.slice, none⟩ :: ks (total q + e.size) B) =
          (ks 0 (q ++ [e]) ++ [⟨total q + s, fst.slice, none⟩,
            ⟨total q + s + fst.size, sn.slice, none⟩]) ++ ks (total q + e.size) B by simp]
        rw [lf_shiftAuto (X := total q + e.size) (X' := total q + (s + (fst.size + sn.size)))
          (by simp) rfl rfl rfl (by omega) (by omega)]
        simp only [R.bind_ok, lf_size]
        exact congrArg (fun x => Except.ok (x, _)) (lf_leafOf (by simp; try omega) (by simp [ks_append, Nat.add_assoc]))

end Sherman
