import Verif.EdgeInsert
/-!
# `insert_rhs` and `do_insert_full_split_key` refine `specSplit`
-/
namespace Sherman
variable {S : Type}

/-- Going down to the first leaf. -/
theorem descend_spec {M : Nat} {m : Maps Nat} {H : Nat} : ∀ {h : Nat} {n : Tree Nat S (h + 1)}
    {ctx : Ctx Nat S H (h + 1)} {es L Rr L' : List (Ent S)},
    Rep M (ctx.lo M) n es → CtxRep M m ctx (szN n) L Rr L' → (m.sizes = true → h < m.lhsHeight) →
    ∃ p es1 ctx' R', descend n ctx = .ok (leafOf p es1, ctx') ∧ CtxRep M m ctx' (total es1) L R' L' ∧
      es1 ++ R' = es ++ Rr ∧ ctx'.lo M ≤ es1.length ∧ es1.length ≤ 2 * M := by
  intro h
  induction h with
  | zero =>
    intro n ctx es L Rr L' hr hc hm
    obtain ⟨h1, h2, h3⟩ := hr.eq_leafOf
    refine ⟨Node.ptr n, es, ctx, Rr, ?_, ?_, rfl, h2, h3⟩
    · rw [← h1]; rfl
    · rw [← hr.size]; exact hc
  | succ h ih =>
    intro n ctx es L Rr L' hr hc hm
    obtain ⟨c, ec, psr, hn, hcr, hi, rfl, h1, h2⟩ := hr
    have hch : Node.child n 0 = .ok c := by
      rw [hn]; exact child_at (KA := []) (KB := kidsOf psr) (by simp [mkG]) rfl
    have hk : n.kids.take 0 = kidsOf ([] : List (Item S (Tree Nat S (h + 1)))) ∧ n.kids.drop 1 = kidsOf psr := by
      rw [hn]; simp [mkG]
    have hctx' : CtxRep M m (.frame n.ptr n.size n.keys (n.kids.take 0) (n.kids.drop 1) ctx) (szN c) L
        (entsR psr ++ Rr) L' := by
      refine ⟨[], [], psr, L, Rr, L', ?_, hk.1, hk.2, ?_, RepItems.nil, hi, ?_, by simpa using h1, by simpa using h2,
        by simp, rfl, by simp, hc⟩
      · rw [hn]; rfl
      · rw [hn]; rfl
      · rw [LhsChange.inert]
        rintro ⟨b1, b2⟩; have := hm b1; omega
    obtain ⟨p, es1, ctx', R', a1, a2, a3, a4, a5⟩ := ih (n := c) (es := ec) (ctx := .frame n.ptr n.size n.keys (n.kids.take 0) (n.kids.drop 1) ctx) hcr hctx' (fun a => by have := hm a; omega)
    refine ⟨p, es1, ctx', R', ?_, a2, by rw [a3]; simp, a4, a5⟩
    simp only [descend, hch, R.bind_ok]
    exact a1

/-- Insertion right of a key that is being resized. -/
theorem insertRhs_spec {MAX : Nat} {E : Env Nat S} (hE : E.ix = natIdx MAX) (hM : 1 ≤ E.M) {H k : Nat}
    {X Y : List (Ent S)} {e : Ent S} {h : Nat} {n : Tree Nat S (h + 1)} {ctx : Ctx Nat S H (h + 1)}
    (hv : KeyView E.M (Maps.identity (natIdx MAX)) k X e Y ⟨h, n, ctx⟩) {nop skip lhsMode : Bool} {newLhs : Nat}
    {fst : Sized Nat S} {snd : Option (Sized Nat S)} {w : World} (hw : w.fst = none)
    (hb1 : total X + e.size + total Y ≤ MAX)
    (hb2 : total X + (newLhs + total (newEnts fst snd)) + total Y ≤ MAX)
    (hmono : e.size ≤ newLhs + total (newEnts fst snd)) :
    ∃ post path w', insertRhs E nop skip n ctx k newLhs lhsMode fst snd w = .ok (post, path, w') ∧
      PostRep E.M post (X ++ { e with size := newLhs } :: (newEnts fst snd ++ Y)) := by
  obtain ⟨_, hss⟩ := hv.read (MAX := MAX)
  obtain ⟨p, psl, psr, it, c, ec, L, R, rfl, rfl, a1, a2, a3, a4, a5, a6, rfl, rfl, rfl⟩ := hv
  have hkp : Node.keyPos (mkG szN p psl c (szN c) (it :: psr)) psl.length = .ok (tot szN psl + szN c) :=
    keyPos_at (A := keysL szN 0 psl) (k := ⟨tot szN psl + szN c, it.slice, it.ref⟩)
      (B := keysR szN (tot szN psl + szN c + it.size + szN it.kid) psr) rfl (keysL_length _ _)
  rw [RepItems.cons] at a3
  have e1 := RepItems.totL a1
  have e2 := RepItems.totR a3.2
  have e3 := a2.size
  have e4 := a3.1.size
  simp only [total_append, Item.ent] at hb1 hb2 hmono hss
  cases h with
  | zero =>
    -- the key is in a leaf
    have hpsl : psl = toItems (entsL psl) := by
      have : ∀ l : List (Item S (Tree Nat S 0)), RepItems E.M l → l = toItems (entsL l) := by
        intro l
        induction l with
        | nil => intro _; rfl
        | cons it l ih =>
          intro hl
          rw [RepItems.cons] at hl
          have b1 : it.ents = [] := hl.1
          have b2 := ih hl.2
          have b3 : it = toItem it.ent := by
            cases it with
            | mk a b c d e => simp only at b1; subst b1; rfl
          rw [entsL_cons, b1]
          simp only [toItems, List.nil_append, List.map_cons] at b2 ⊢
          rw [← b2, ← b3]
      exact this psl a1
    have hec : ec = [] := a2
    have hie : it.ents = [] := a3.1
    subst hec
    have hrep : Rep E.M (ctx.lo E.M) (h := 0 + 1) (mkG szN p psl c (szN c) (it :: psr))
        ((entsL psl ++ [it.ent]) ++ entsR psr) :=
      Rep.ofFocus a1 a2 (RepItems.cons.mpr a3) (by simp [hie]) (by simpa using a4) (by simpa using a5)
    obtain ⟨hleaf, c1, c2⟩ := hrep.eq_leafOf
    have hlen : (entsL psl).length = psl.length := by
      have := congrArg List.length hpsl
      simpa [toItems] using this.symm
    have hsz := hrep.size
    rw [szN_mkG] at hsz
    rw [hsz, total_append] at a6
    rw [List.length_append] at c1 c2
    obtain ⟨post, path, w', b1, b2⟩ := noJoin_spec (p := p) (cb := ⟨skip, lhsMode && !nop⟩)
      (m := ⟨false, lhsMode && !nop, 0, psl.length, tot szN psl + szN c, it.size, newLhs⟩)
      (fst := fst) (snd := snd) (ov := some newLhs) (A := entsL psl ++ [it.ent])
      (A' := entsL psl ++ [{ it.ent with size := newLhs }]) (B := entsR psr) hE hM ctx hw
      (a6.remap (m' := ⟨false, lhsMode && !nop, 0, psl.length, tot szN psl + szN c, it.size, newLhs⟩)
        (by simp [Maps.identity]) (by simp))
      ⟨entsL psl, it.ent, rfl, rfl⟩ c1 c2 (by simp) (by simp [Item.ent, hie] at hb1 ⊢; omega)
      (by simp [Item.ent, hie] at hb2 ⊢; omega) (by simp [Item.ent]; omega) (by simp [Item.ent]; omega)
    refine ⟨post, path, w', ?_, ?_⟩
    · have hlA : (entsL psl ++ [it.ent]).length = psl.length + 1 := by simp [hlen]
      rw [hlA] at b1
      have hp : Node.ptr (mkG szN p psl c (szN c) (it :: psr)) = p := rfl
      rw [hp] at hleaf
      simp only [insertRhs, hE, hkp, hss, Sherman.R.bind_ok, rhsLeaf]
      rw [← hleaf] at b1
      exact b1
    · simpa [hie, Item.ent] using b2
  | succ h =>
    -- the key is in an internal node
    have hch : Node.child (mkG szN p psl c (szN c) (it :: psr)) (psl.length + 1) = .ok it.kid :=
      child_at (KA := kidsOf psl ++ [c]) (KB := kidsOf psr) (by simp [mkG]) (by simp)
    have hk : (mkG szN p psl c (szN c) (it :: psr)).kids.take (psl.length + 1) =
          kidsOf (psl ++ [{ it with kid := c, ents := ec }]) ∧
        (mkG szN p psl c (szN c) (it :: psr)).kids.drop (psl.length + 2) = kidsOf psr := by
      have := take_drop_kids (KA := kidsOf psl ++ [c]) (c := it.kid) (KB := kidsOf psr) (i := psl.length + 1)
        (by simp)
      simpa [mkG] using this
    have hmove := mkG_move szN p psl c it psr ec
    let m : Maps Nat := ⟨true, lhsMode && !nop, h + 1, psl.length, tot szN psl + szN c, it.size, newLhs⟩
    have hctx' : CtxRep E.M m (.frame p (mkG szN p psl c (szN c) (it :: psr)).size
          (mkG szN p psl c (szN c) (it :: psr)).keys
          ((mkG szN p psl c (szN c) (it :: psr)).kids.take (psl.length + 1))
          ((mkG szN p psl c (szN c) (it :: psr)).kids.drop (psl.length + 2)) ctx) (szN it.kid)
        (L ++ entsL psl ++ ec ++ [it.ent]) (entsR psr ++ R)
        (L ++ entsL psl ++ ec ++ [{ it.ent with size := newLhs }]) := by
      refine ⟨psl ++ [{ it with kid := c, ents := ec }], psl ++ [{ it with kid := c, ents := ec, size := newLhs }],
        psr, L, R, L, ?_, hk.1, hk.2, ?_, RepItems.append.mpr ⟨a1, RepItems.cons.mpr ⟨a2, RepItems.nil⟩⟩, a3.2, ?_,
        by simpa [Nat.add_assoc, Nat.add_comm 1] using a4, by simpa [Nat.add_assoc, Nat.add_comm 1] using a5,
        by simp [Item.ent], rfl, by simp [Item.ent], ?_⟩
      · rw [hmove]; rfl
      · rw [hmove]; rfl
      · unfold LhsChange
        rw [if_pos ⟨rfl, rfl⟩]
        exact ⟨psl, { it with kid := c, ents := ec }, rfl, rfl, rfl, rfl⟩
      · exact a6.remap (by simp [Maps.identity]) (by simp [m])
    obtain ⟨p1, es1, ctx1, R1, b1, b2, b3, b4, b5⟩ := descend_spec (n := it.kid) (es := it.ents)
      (ctx := .frame p (mkG szN p psl c (szN c) (it :: psr)).size
          (mkG szN p psl c (szN c) (it :: psr)).keys
          ((mkG szN p psl c (szN c) (it :: psr)).kids.take (psl.length + 1))
          ((mkG szN p psl c (szN c) (it :: psr)).kids.drop (psl.length + 2)) ctx) a3.1 hctx'
      (by intro _; simp [m])
    have hH := Ctx.le (I := 0) ctx
    have ht := congrArg total b3
    simp only [total_append] at ht
    obtain ⟨post, path, w', d1, d2⟩ := noJoin_spec (p := p1) (cb := ⟨skip, lhsMode && !nop⟩) (m := m)
      (fst := fst) (snd := snd) (ov := none) (A := []) (A' := []) (B := es1) hE hM ctx1 hw
      (by simpa using b2) rfl (by simpa using b4) (by simpa using b5)
      (by intro _; simp [m]; omega) (by simp [Item.ent]; omega) (by simp [Item.ent]; omega) (by simp)
      (by simp [Item.ent]; omega)
    refine ⟨post, path, w', ?_, ?_⟩
    · have hp : (mkG szN p psl c (szN c) (it :: psr)).ptr = p := rfl
      simp only [insertRhs, hE, hkp, hss, Sherman.R.bind_ok, rhsLeaf, hch, hp]
      rw [b1]
      simp only [Sherman.R.bind_ok]
      exact d1
    · simpa [b3] using d2

/-- Replacing the slice of a key. -/
theorem KeyView.setSlice {M : Nat} {m : Maps Nat} {H k : Nat} {X Y : List (Ent S)} {e : Ent S}
    {h : Nat} {n : Tree Nat S (h + 1)} {ctx : Ctx Nat S H (h + 1)} (hv : KeyView M m k X e Y ⟨h, n, ctx⟩) (s : S) :
    ∃ n', Node.setSlice n k s = .ok n' ∧ Node.ptr n' = Node.ptr n ∧
      KeyView M m k X { e with slice := s } Y ⟨h, n', ctx⟩ := by
  obtain ⟨p, psl, psr, it, c, ec, L, R, rfl, rfl, a1, a2, a3, a4, a5, a6, rfl, rfl, rfl⟩ := hv
  rw [RepItems.cons] at a3
  refine ⟨mkG szN p psl c (szN c) ({ it with slice := s } :: psr), ?_, rfl, ?_⟩
  · exact setSlice_at (A := keysL szN 0 psl) (k := ⟨tot szN psl + szN c, it.slice, it.ref⟩)
      (B := keysR szN (tot szN psl + szN c + it.size + szN it.kid) psr) rfl (keysL_length _ _) s
  · exact ⟨p, psl, psr, { it with slice := s }, c, ec, L, R, rfl, rfl, a1, a2, RepItems.cons.mpr a3, a4, a5,
      by simpa using a6, rfl, rfl, rfl⟩

/-- `do_insert_full_split_key`. -/
theorem insertSplit_spec {MAX : Nat} {E : Env Nat S} (hE : E.ix = natIdx MAX) (hM : 1 ≤ E.M) {H k : Nat}
    {X Y : List (Ent S)} {e : Ent S} {h : Nat} {n : Tree Nat S (h + 1)} {ctx : Ctx Nat S H (h + 1)}
    (hv : KeyView E.M (Maps.identity (natIdx MAX)) k X e Y ⟨h, n, ctx⟩) {nop : Bool} {o : Nat}
    {s : S} {size : Nat} {w : World} (hw : w.fst = none) (ho : o ≤ e.size)
    (hb : total X + e.size + total Y + size ≤ MAX) :
    Agrees E.M (X.length + Y.length + 1) (insertSplit E nop n ctx k o s size w)
      (.ok (X ++ specSplit E.sl e o s size ++ Y)) := by
  obtain ⟨⟨pos, hh⟩, hss⟩ := hv.read (MAX := MAX)
  cases hsp : E.sl.splitAt e.slice o with
  | mk ls rs =>
  obtain ⟨n1, hn1, hp1, hv1⟩ := hv.setSlice ls
  cases hj : E.sl.mayJoin with
  | false =>
    obtain ⟨post, path, w', b1, b2⟩ := insertRhs_spec (nop := nop) (skip := false) (lhsMode := false)
      (newLhs := o) (fst := ⟨s, size⟩) (snd := some ⟨rs, e.size - o⟩) hE hM hv1 hw (by simp; omega)
      (by simp [newEnts, newEnt]; omega) (by simp [newEnts, newEnt]; omega)
    refine ⟨2, post, path, w', ?_, ?_, ?_⟩
    · simp only [insertSplit, hE, hss, hh, R.bind_ok, hsp, hn1, subL_ok ho, hj]
      simp only [Bool.not_false, if_true, b1, R.bind_ok]
      rfl
    · simpa [specSplit, hsp, hj, newEnts, newEnt] using b2
    · simp [specSplit, hsp, hj]; omega
  | true =>
    cases htj : E.sl.tryJoin ls s with
    | inl x =>
      have ha : o + size ≤ MAX := by omega
      cases htj2 : E.sl.tryJoin x rs with
      | inl y =>
        obtain ⟨n2, hn2, hp2, hv2⟩ := hv1.setSlice y
        obtain ⟨w1, hem⟩ := emit_ok (cb := ⟨false, false⟩) (ev := .insertion (Node.ptr n2) k) w (by simp)
        obtain ⟨t, path, c1, c2⟩ := opKey_resize (MAX := MAX) (m := Maps.identity (natIdx MAX)) rfl hv2 (new := o + size + (e.size - o)) (path := [])
          (by simp; omega) (by omega)
        have a1 : o + (e.size - o) ≤ MAX := by omega
        have a2 : o + size + (e.size - o) ≤ MAX := by omega
        have a3 : o + (e.size - o) = e.size := by omega
        refine ⟨0, .done t, path, ctx.readUp (some (Node.ptr n2)) w1, ?_, ?_, ?_⟩
        · simp only [insertSplit, hE, hss, hh, R.bind_ok, hsp, hn1, subL_ok ho, hj]
          simp only [Bool.not_true, Bool.false_eq_true, if_false, htj, addR_ok ha, R.bind_ok, htj2, hn2, hem,
            addR_ok a1, addR_ok a2, a3]
          simp only [c1, R.bind_ok]
          rfl
        · simpa [PostRep, specSplit, hsp, hj, htj, htj2] using c2
        · simp [specSplit, hsp, hj, htj, htj2]; omega
      | inr lr =>
        obtain ⟨l, r⟩ := lr
        obtain ⟨n2, hn2, hp2, hv2⟩ := hv1.setSlice l
        obtain ⟨w1, hem, hw1⟩ : ∃ w1, emit ⟨false, false⟩ (.insertion (Node.ptr n2) k) w = .ok w1 ∧ w1.fst = none :=
          ⟨{ w with events := w.events ++ [.insertion (Node.ptr n2) k] }, rfl, hw⟩
        obtain ⟨post, path, w', b1, b2⟩ := insertRhs_spec (nop := nop) (skip := true) (lhsMode := true)
          (newLhs := o + size) (fst := ⟨r, e.size - o⟩) (snd := none) hE hM hv2 hw1 (by simp; omega)
          (by simp [newEnts, newEnt]; omega) (by simp [newEnts, newEnt]; omega)
        refine ⟨1, post, path, w', ?_, ?_, ?_⟩
        · simp only [insertSplit, hE, hss, hh, R.bind_ok, hsp, hn1, subL_ok ho, hj]
          simp only [Bool.not_true, Bool.false_eq_true, if_false, htj, addR_ok ha, R.bind_ok, htj2, hn2, hem, b1]
          rfl
        · simpa [specSplit, hsp, hj, htj, htj2, newEnts, newEnt] using b2
        · simp [specSplit, hsp, hj, htj, htj2]; omega
    | inr ls' =>
      obtain ⟨l, s1⟩ := ls'
      obtain ⟨n2, hn2, hp2, hv2⟩ := hv1.setSlice l
      cases htj2 : E.sl.tryJoin s1 rs with
      | inl y =>
        have ha : size + (e.size - o) ≤ MAX := by omega
        obtain ⟨post, path, w', b1, b2⟩ := insertRhs_spec (nop := nop) (skip := false) (lhsMode := false)
          (newLhs := o) (fst := ⟨y, size + (e.size - o)⟩) (snd := none) hE hM hv2 hw (by simp; omega)
          (by simp [newEnts, newEnt]; omega) (by simp [newEnts, newEnt]; omega)
        refine ⟨1, post, path, w', ?_, ?_, ?_⟩
        · simp only [insertSplit, hE, hss, hh, R.bind_ok, hsp, hn1, subL_ok ho, hj]
          simp only [Bool.not_true, Bool.false_eq_true, if_false, htj, addR_ok ha, R.bind_ok, htj2, hn2, b1]
          rfl
        · simpa [specSplit, hsp, hj, htj, htj2, newEnts, newEnt] using b2
        · simp [specSplit, hsp, hj, htj, htj2]; omega
      | inr sr =>
        obtain ⟨s2, r⟩ := sr
        obtain ⟨post, path, w', b1, b2⟩ := insertRhs_spec (nop := nop) (skip := false) (lhsMode := false)
          (newLhs := o) (fst := ⟨s2, size⟩) (snd := some ⟨r, e.size - o⟩) hE hM hv2 hw (by simp; omega)
          (by simp [newEnts, newEnt]; omega) (by simp [newEnts, newEnt]; omega)
        refine ⟨2, post, path, w', ?_, ?_, ?_⟩
        · simp only [insertSplit, hE, hss, hh, R.bind_ok, hsp, hn1, subL_ok ho, hj]
          simp only [Bool.not_true, Bool.false_eq_true, if_false, htj, R.bind_ok, htj2, hn2, b1]
          rfl
        · simpa [specSplit, hsp, hj, htj, htj2, newEnts, newEnt] using b2
        · simp [specSplit, hsp, hj, htj, htj2]; omega

end Sherman
