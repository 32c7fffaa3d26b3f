import Verif.Rep
/-!
# A split node bubbling up: one level, then all levels
-/
namespace Sherman
variable {S C : Type}

/-- `emit` of anything but a move succeeds. -/
theorem emit_ok {cb : Cb} {ev : Ev} (w : World)
    (h : (∀ a b c d e, ev ≠ .move a b c d e) ∨ w.fst = none) : ∃ w', emit cb ev w = .ok w' := by
  unfold emit emitFst emitRec
  cases cb with
  | mk sk rm =>
    cases ev with
    | move a b c d e =>
      have hf : w.fst = none := by
        rcases h with h | h
        · exact absurd rfl (h a b c d e)
        · exact h
      cases rm <;> cases sk <;> simp [hf]
    | _ => cases rm <;> cases sk <;> cases hf : w.fst <;> simp [hf]

theorem emit_move_fst {cb : Cb} {a b c d e : Nat} (w : World) (h : w.fst = none) :
    ∃ w', emit cb (.move a b c d e) w = .ok w' ∧ w'.fst = none := by
  unfold emit emitFst emitRec
  cases cb with
  | mk sk rm => cases rm <;> cases sk <;> simp [h]

theorem emit_remove_fst {cb : Cb} {a b : Nat} (w : World) (h : w.fst = none) :
    ∃ w', emit cb (.remove a b) w = .ok w' ∧ w'.fst = none := by
  unfold emit emitFst emitRec
  cases cb with
  | mk sk rm => cases rm <;> cases sk <;> simp [h]

theorem emitKey_ok {I : Type} {cb : Cb} {ins : Bool} {n : Node I S C} {k : Nat} {A B} {key : Key I S}
    (h : n.keys = A ++ key :: B) (hi : A.length = k) (w : World) :
    ∃ w', emitKey cb ins n k w = .ok w' := by
  unfold emitKey
  rw [handle_at h hi]
  cases ins
  · simpa using emit_ok w (by simp)
  · simpa using emit_ok w (by simp)

/-- What a `BubbleLhs` says about the items left of the hole. -/
def ShiftRel (sz : C → Nat) : Option (Shift Nat) → List (Item S C) → List (Item S C) → Prop
  | none, psl, psl' => psl' = psl
  | some s, psl, psl' => ∃ q it, psl = q ++ [it] ∧ psl' = q ++ [{ it with size := s.newSize }] ∧
      s.pos = tot sz q + sz it.kid ∧ s.oldSize = it.size

theorem ShiftRel.length {sz : C → Nat} {s} {psl psl' : List (Item S C)} (h : ShiftRel sz s psl psl') :
    psl'.length = psl.length := by
  cases s with
  | none => rw [show psl' = psl from h]
  | some s => obtain ⟨q, it, rfl, rfl, _⟩ := h; simp

theorem ShiftRel.keys {sz : C → Nat} {s} {psl psl' : List (Item S C)} (h : ShiftRel sz s psl psl') (o) :
    keysL sz o psl' = keysL sz o psl := by
  cases s with
  | none => rw [show psl' = psl from h]
  | some s => obtain ⟨q, it, rfl, rfl, _⟩ := h; simp [keysL_append]

theorem ShiftRel.kids {sz : C → Nat} {s} {psl psl' : List (Item S C)} (h : ShiftRel sz s psl psl') :
    kidsOf psl' = kidsOf psl := by
  cases s with
  | none => rw [show psl' = psl from h]
  | some s => obtain ⟨q, it, rfl, rfl, _⟩ := h; simp

theorem ShiftRel.rep {M h : Nat} {s} {psl psl' : List (Item S (Tree Nat S h))}
    (hc : ShiftRel szN s psl psl') (hl : RepItems M psl) : RepItems M psl' := by
  cases s with
  | none => rw [show psl' = psl from hc]; exact hl
  | some s =>
    obtain ⟨q, it, rfl, rfl, _⟩ := hc
    rw [RepItems.append, RepItems.cons] at hl ⊢
    exact ⟨hl.1, hl.2.1, RepItems.nil⟩

/-- The item made of a bubbled key and its right child. -/
def Bubble.item (b : Bubble Nat S C) (esr : List (Ent S)) : Item S C :=
  ⟨b.key.slice, b.key.ref, b.keySize, b.rhs, esr⟩

/-- An inert `map_sizes`. -/
theorem mapSizes_inert {I : Type} {ix : IdxOps I} {m : Maps I} {handled : Bool} {h : Nat} {n : Node I S C}
    {cok ov old new} (hi : handled = true ∨ ¬ (m.sizes = true ∧ h = m.lhsHeight)) :
    mapSizes ix m handled h n cok ov old new = .ok (n, ov, old, new) := by
  simp only [mapSizes]
  rw [if_pos]; rfl
  simp only [Bool.or_eq_true, Bool.not_eq_true', bne_iff_ne, ne_eq]
  rcases hi with h1 | h1
  · right; exact h1
  · left
    by_cases h2 : m.sizes = true
    · right; intro h3; exact h1 ⟨h2, h3⟩
    · left; simpa using h2

/-- A parent with room takes the bubbled key and child; then the keys right of it are shifted. -/
theorem bubbleRoom_spec [HasPtr C] {MAX h p : Nat} {E : Env Nat S} (hE : E.ix = natIdx MAX) {cb : Cb} {sz : C → Nat}
    {m : Maps Nat} {handled : Bool} {psl psl' psr : List (Item S C)} {b : Bubble Nat S C}
    {path : List Nat} (esr : List (Ent S)) (w : World)
    (hs : ShiftRel sz b.shift psl psl') (hlen : psl.length + psr.length < 2 * E.M)
    (hi : handled = true ∨ ¬ (m.sizes = true ∧ h = m.lhsHeight))
    (hb1 : tot sz psl + b.oldSize + tot sz psr ≤ MAX)
    (hb2 : tot sz psl' + (sz b.lhs + b.keySize + sz b.rhs) + tot sz psr ≤ MAX) :
    ∃ n ov old new path' w',
      bubbleRoom E cb sz (mkG sz p psl b.lhs b.oldSize psr) psl.length b path w =
        .ok (n, ov, old, new, path', w') ∧
      opStep E.ix m handled h n (.key psl.length) (some ov) old new =
        .ok (mkG sz p psl' b.lhs (sz b.lhs) (b.item esr :: psr),
          tot sz psl + b.oldSize + tot sz psr) := by
  have hk : (mkG sz p psl b.lhs b.oldSize psr).keys =
      keysL sz 0 psl ++ keysR sz (tot sz psl + b.oldSize) psr := rfl
  have hl : (keysL sz 0 psl).length = psl.length := keysL_length _ _
  have hsz : (mkG sz p psl b.lhs b.oldSize psr).size = tot sz psl + b.oldSize + tot sz psr := rfl
  have hn : (mkG sz p psl b.lhs b.oldSize psr).nextPos psl.length = tot sz psl + b.oldSize :=
    nextPos_at hk hl hsz
  have hkids : (mkG sz p psl b.lhs b.oldSize psr).kids = (kidsOf psl ++ [b.lhs]) ++ kidsOf psr := by
    simp [mkG]
  obtain ⟨w1, hins, _⟩ := insertKC_at (maxLen := 2 * E.M) hk hl hkids (by simp) (by simpa using hlen)
    b.key.slice b.key.ref b.rhs w
  -- the numbers
  have key : ∃ ov old new, ov + old = tot sz psl + b.oldSize ∧
      ov + new = tot sz psl' + (sz b.lhs + b.keySize + sz b.rhs) ∧
      roomNums (natIdx MAX) b.shift ((mkG sz p psl b.lhs b.oldSize psr).nextPos psl.length) b.oldSize
        (sz b.lhs + b.keySize + sz b.rhs) =
        .ok (ov, old, new, tot sz psl') := by
    cases hsh : b.shift with
    | none =>
      rw [hsh] at hs
      obtain rfl : psl' = psl := hs
      refine ⟨tot sz psl', b.oldSize, _, rfl, rfl, ?_⟩
      have e1 : b.oldSize ≤ tot sz psl' + b.oldSize := by omega
      simp [roomNums, hn, subR_ok e1]
    | some k =>
      rw [hsh] at hs
      obtain ⟨q, it, rfl, rfl, h1, h2⟩ := hs
      simp only [tot_append, tot_cons, tot_nil] at hb1 hb2 ⊢
      have e1 : k.oldSize + b.oldSize ≤ MAX := by omega
      have e2 : k.newSize + (sz b.lhs + b.keySize + sz b.rhs) ≤ MAX := by omega
      have e3 : k.pos + k.newSize ≤ MAX := by omega
      refine ⟨k.pos, k.oldSize + b.oldSize, k.newSize + (sz b.lhs + b.keySize + sz b.rhs), by omega,
        by omega, ?_⟩
      simp only [roomNums, addL_ok e1, addL_ok e2, addR_ok e3, R.bind_ok, R.pure_eq]
      congr 4; omega
  obtain ⟨ov, old, new, ho, hnw, hmatch⟩ := key
  have a1 : sz b.lhs + b.keySize ≤ MAX := by omega
  have a2 : sz b.lhs + b.keySize + sz b.rhs ≤ MAX := by omega
  have a3 : tot sz psl' + sz b.lhs ≤ MAX := by omega
  let n1 : Node Nat S C :=
    { (mkG sz p psl b.lhs b.oldSize psr) with
      keys := keysL sz 0 psl ++
        ⟨(mkG sz p psl b.lhs b.oldSize psr).nextPos psl.length, b.key.slice, b.key.ref⟩ ::
          keysR sz (tot sz psl + b.oldSize) psr,
      kids := kidsOf psl ++ [b.lhs] ++ b.rhs :: kidsOf psr }
  have hset := setKeyPos_at (n := n1) rfl hl (tot sz psl' + sz b.lhs)
  let n2 : Node Nat S C :=
    { n1 with keys := keysL sz 0 psl ++ ⟨tot sz psl' + sz b.lhs, b.key.slice, b.key.ref⟩ ::
          keysR sz (tot sz psl + b.oldSize) psr }
  obtain ⟨w2, hemit⟩ := emitKey_ok (cb := cb) (ins := b.inserted) (n := n2) rfl hl w1
  refine ⟨n2, ov, old, new, prependSide psl.length b.side path, w2, ?_, ?_⟩
  · unfold bubbleRoom
    simp only [hE, addR_ok a1, addR_ok a2, R.bind_ok, hmatch, hins, addR_ok a3]
    have hset' : Node.setKeyPos n1 psl.length (tot sz psl' + sz b.lhs) = .ok n2 := hset
    change (Node.setKeyPos n1 psl.length (tot sz psl' + sz b.lhs)).bind _ = _
    rw [hset']
    change (emitKey cb b.inserted n2 psl.length w1).bind _ = _
    rw [hemit]
    rfl
  · have hn2 : n2.keys = (keysL sz 0 psl ++ [⟨tot sz psl' + sz b.lhs, b.key.slice, b.key.ref⟩]) ++
        keysR sz (tot sz psl + b.oldSize) psr := by simp [n2]
    have hsh := shiftKeysAuto_at (MAX := MAX) (i := psl.length + 1) (pos := ov) (old := old) (new := new)
      hn2 (by simp) (show n2.size = _ from hsz) ho hnw (by omega) (by omega)
    simp only [opStep, mapSizes_inert hi, R.bind_ok, opPos, hE, R.pure_eq, hsh]
    simp only [mkG, hs.keys, hs.kids, n2, n1, Bubble.item, keysR_cons, kidsOf_cons, tot_cons]
    congr 1
    congr 1
    congr 1
    · omega
    · simp; congr 1; omega
    · simp

/-- One half of a split parent takes the bubbled key and child. -/
theorem bubbleInsertHalf_spec [HasPtr C] {MAX p : Nat} {E : Env Nat S} (hE : E.ix = natIdx MAX) {cb : Cb}
    {sz : C → Nat} {psl psl' psr : List (Item S C)} {b : Bubble Nat S C} {shift : Option (Shift Nat)}
    {path : List Nat} (esr : List (Ent S)) (w : World)
    (hs : ShiftRel sz shift psl psl') (hlen : psl.length + psr.length < 2 * E.M)
    (hb1 : tot sz psl + b.oldSize + tot sz psr ≤ MAX)
    (hb2 : tot sz psl' + (sz b.lhs + b.keySize + sz b.rhs) + tot sz psr ≤ MAX)
    (hmono : tot sz psl + b.oldSize ≤ tot sz psl' + (sz b.lhs + b.keySize + sz b.rhs)) :
    ∃ path' w',
      bubbleInsertHalf E cb sz (mkG sz p psl b.lhs b.oldSize psr) psl.length b shift path w =
        .ok (mkG sz p psl' b.lhs (sz b.lhs) (b.item esr :: psr), path', w') := by
  have hk : (mkG sz p psl b.lhs b.oldSize psr).keys =
      keysL sz 0 psl ++ keysR sz (tot sz psl + b.oldSize) psr := rfl
  have hl : (keysL sz 0 psl).length = psl.length := keysL_length _ _
  have hsz : (mkG sz p psl b.lhs b.oldSize psr).size = tot sz psl + b.oldSize + tot sz psr := rfl
  have hn : (mkG sz p psl b.lhs b.oldSize psr).nextPos psl.length = tot sz psl + b.oldSize :=
    nextPos_at hk hl hsz
  have hkids : (mkG sz p psl b.lhs b.oldSize psr).kids = (kidsOf psl ++ [b.lhs]) ++ kidsOf psr := by
    simp [mkG]
  obtain ⟨w1, hins, _⟩ := insertKC_at (maxLen := 2 * E.M) hk hl hkids (by simp) (by simpa using hlen)
    b.key.slice b.key.ref b.rhs w
  have key : ∃ sp oS nS, sp + oS = tot sz psl ∧ sp + nS = tot sz psl' ∧
      halfNums (natIdx MAX) shift ((mkG sz p psl b.lhs b.oldSize psr).nextPos psl.length) b.oldSize =
        .ok (tot sz psl', sp, oS, nS) := by
    cases shift with
    | none =>
      obtain rfl : psl' = psl := hs
      refine ⟨tot sz psl', 0, 0, rfl, rfl, ?_⟩
      have e1 : b.oldSize ≤ tot sz psl' + b.oldSize := by omega
      simp [halfNums, hn, subR_ok e1]
    | some k =>
      obtain ⟨q, it, rfl, rfl, h1, h2⟩ := hs
      simp only [tot_append, tot_cons, tot_nil] at hb1 hb2 ⊢
      have e3 : k.pos + k.newSize ≤ MAX := by omega
      refine ⟨k.pos, k.oldSize, k.newSize, by omega, by omega, ?_⟩
      simp only [halfNums, addR_ok e3, R.bind_ok, R.pure_eq]
      congr 2; omega
  obtain ⟨sp, oS, nS, ho, hnw, hmatch⟩ := key
  have a1 : sz b.lhs + b.keySize ≤ MAX := by omega
  have a2 : sz b.lhs + b.keySize + sz b.rhs ≤ MAX := by omega
  have a3 : tot sz psl' + sz b.lhs ≤ MAX := by omega
  have a4 : oS + b.oldSize ≤ MAX := by omega
  have a5 : nS + (sz b.lhs + b.keySize + sz b.rhs) ≤ MAX := by omega
  let n1 : Node Nat S C :=
    { (mkG sz p psl b.lhs b.oldSize psr) with
      keys := keysL sz 0 psl ++
        ⟨(mkG sz p psl b.lhs b.oldSize psr).nextPos psl.length, b.key.slice, b.key.ref⟩ ::
          keysR sz (tot sz psl + b.oldSize) psr,
      kids := kidsOf psl ++ [b.lhs] ++ b.rhs :: kidsOf psr }
  let n2 : Node Nat S C :=
    { n1 with keys := keysL sz 0 psl ++ ⟨tot sz psl' + sz b.lhs, b.key.slice, b.key.ref⟩ ::
          keysR sz (tot sz psl + b.oldSize) psr }
  have hset : Node.setKeyPos n1 psl.length (tot sz psl' + sz b.lhs) = .ok n2 :=
    setKeyPos_at (n := n1) rfl hl (tot sz psl' + sz b.lhs)
  have hn2 : n2.keys = (keysL sz 0 psl ++ [⟨tot sz psl' + sz b.lhs, b.key.slice, b.key.ref⟩]) ++
      keysR sz (tot sz psl + b.oldSize) psr := by simp [n2]
  have hsh := shiftKeys_at (MAX := MAX) (i := psl.length + 1) (pos := sp) (old := oS + b.oldSize)
    (new := nS + (sz b.lhs + b.keySize + sz b.rhs)) (incr := true)
    (X' := tot sz psl' + (sz b.lhs + b.keySize + sz b.rhs))
    hn2 (by simp) (show n2.size = _ from hsz) (by omega) (by omega) (by omega) (by omega)
    (by intro _; omega) (by simp)
  have heq : { n2 with
      keys := (keysL sz 0 psl ++ [⟨tot sz psl' + sz b.lhs, b.key.slice, b.key.ref⟩]) ++
        keysR sz (tot sz psl' + (sz b.lhs + b.keySize + sz b.rhs)) psr,
      size := tot sz psl' + (sz b.lhs + b.keySize + sz b.rhs) + tot sz psr } =
      mkG sz p psl' b.lhs (sz b.lhs) (b.item esr :: psr) := by
    simp only [mkG, hs.keys, hs.kids, n2, n1, Bubble.item, keysR_cons, kidsOf_cons, tot_cons]
    congr 1
    · omega
    · simp; congr 1; omega
    · simp
  rw [heq] at hsh
  obtain ⟨w2, hemit⟩ := emitKey_ok (cb := cb) (ins := b.inserted)
    (n := mkG sz p psl' b.lhs (sz b.lhs) (b.item esr :: psr)) (k := psl.length)
    (A := keysL sz 0 psl') (by rfl) (by simp [hs.length]) w1
  refine ⟨prependSide psl.length b.side path, w2, ?_⟩
  unfold bubbleInsertHalf
  simp only [hE, addR_ok a1, addR_ok a2, R.bind_ok, hmatch, hins, addR_ok a3, addR_ok a4, addR_ok a5]
  change (Node.setKeyPos n1 psl.length (tot sz psl' + sz b.lhs)).bind _ = _
  rw [hset]
  change (Node.shiftKeys (natIdx MAX) n2 true (psl.length + 1) sp (oS + b.oldSize)
    (nS + (sz b.lhs + b.keySize + sz b.rhs))).bind _ = _
  rw [hsh]
  change (emitKey cb b.inserted _ psl.length w1).bind _ = _
  rw [hemit]
  rfl

/-- Position of the first key of a node. -/
def headPos (sz : C → Nat) (o X : Nat) : List (Item S C) → Nat
  | [] => X
  | it :: _ => o + sz it.kid

theorem firstPos_at {M X : Nat} {sz : C → Nat} {n : Node Nat S C} {psl psr : List (Item S C)} {o : Nat}
    (h : n.keys = keysL sz o psl ++ keysR sz X psr) (hs : n.size = X + tot sz psr)
    (hM : M = 1 ∨ psl ≠ [] ∨ psr ≠ []) :
    firstPos M n = .ok (headPos sz o X psl) := by
  unfold firstPos Node.tryKeyPos headPos
  cases psl with
  | cons it q => simp [h]
  | nil =>
    cases psr with
    | cons it q => simp [h]
    | nil =>
      simp at hM
      simp [h, hM, hs]

/-- Splitting a full parent. -/
theorem bubbleSplit_spec {MAX h p : Nat} {E : Env Nat S} (hE : E.ix = natIdx MAX) (hM : 1 ≤ E.M)
    {cb : Cb} {psl psl' psr : List (Item S (Tree Nat S h))} {b : Bubble Nat S (Tree Nat S h)}
    {path : List Nat} {esl esr : List (Ent S)} (w : World)
    (hs : ShiftRel szN b.shift psl psl') (hlen : psl.length + psr.length = 2 * E.M)
    (hpl : RepItems E.M psl) (hpr : RepItems E.M psr)
    (hlhs : Rep E.M E.M b.lhs esl) (hrhs : Rep E.M E.M b.rhs esr)
    (hb1 : tot szN psl + b.oldSize + tot szN psr ≤ MAX)
    (hb2 : tot szN psl' + (szN b.lhs + b.keySize + szN b.rhs) + tot szN psr ≤ MAX)
    (hmono : tot szN psl + b.oldSize ≤ tot szN psl' + (szN b.lhs + b.keySize + szN b.rhs))
    (hmono2 : b.oldSize ≤ szN b.lhs + b.keySize + szN b.rhs) :
    ∃ b' path' w' es1 es2,
      bubbleSplit E cb szN (mkG szN p psl b.lhs b.oldSize psr) psl.length b path w =
        .ok (b', path', w') ∧
      Rep E.M E.M (h := h + 1) b'.lhs es1 ∧ Rep E.M E.M (h := h + 1) b'.rhs es2 ∧
      b'.shift = none ∧ b'.oldSize = tot szN psl + b.oldSize + tot szN psr ∧
      es1 ++ ⟨b'.keySize, b'.key.slice, b'.key.ref⟩ :: es2 =
        entsL psl' ++ esl ++ (b.item esr).ent :: (esr ++ entsR psr) := by
  have hpl' := hs.rep hpl
  have hitem : RepItems E.M [b.item esr] := RepItems.cons.mpr ⟨hrhs, RepItems.nil⟩
  rcases Nat.lt_trichotomy psl.length E.M with hc | hc | hc
  · -- the key goes into the left half
    obtain ⟨q1, itm, q2, rfl, hq1⟩ : ∃ q1 itm q2, psr = q1 ++ itm :: q2 ∧
        q1.length = E.M - 1 - psl.length := by
      refine ⟨psr.take (E.M - 1 - psl.length), psr[E.M - 1 - psl.length]'(by omega),
        psr.drop (E.M - 1 - psl.length + 1), ?_, ?_⟩
      · rw [← List.drop_eq_getElem_cons, List.take_append_drop]
      · rw [List.length_take]; omega
    simp only [List.length_append, List.length_cons] at hlen
    simp only [tot_append, tot_cons] at hb1 hb2
    rw [RepItems.append, RepItems.cons] at hpr
    have hkeys : (mkG szN p psl b.lhs b.oldSize (q1 ++ itm :: q2)).keys =
        (keysL szN 0 psl ++ keysR szN (tot szN psl + b.oldSize) q1) ++
          ⟨tot szN psl + b.oldSize + tot szN q1, itm.slice, itm.ref⟩ ::
          keysR szN (tot szN psl + b.oldSize + tot szN q1 + itm.size + szN itm.kid) q2 := by
      simp [mkG, keysR_append]
    have hkids : (mkG szN p psl b.lhs b.oldSize (q1 ++ itm :: q2)).kids =
        (kidsOf psl ++ b.lhs :: kidsOf q1) ++ (itm.kid :: kidsOf q2) := by simp [mkG]
    have hmid : bubbleMid E.M psl.length = .ok (E.M - 1) := by
      have : ¬ psl.length > E.M := by omega
      simp [bubbleMid, this, usub_ok hM]
    obtain ⟨w1, hsp, _⟩ := split_at (i := E.M - 1) hkeys (by simp; omega) hkids (by simp; omega) w
    have hleft : (Node.mk p (tot szN psl + b.oldSize + tot szN q1)
          (keysL szN 0 psl ++ keysR szN (tot szN psl + b.oldSize) q1)
          (kidsOf psl ++ b.lhs :: kidsOf q1) : Node Nat S (Tree Nat S h)) =
        mkG szN p psl b.lhs b.oldSize q1 := rfl
    have hfp := firstPos_at (M := E.M) (sz := szN) (psl := []) (o := 0) (psr := q2)
      (n := { ptr := w.next, size := (mkG szN p psl b.lhs b.oldSize (q1 ++ itm :: q2)).size,
              keys := keysR szN (tot szN psl + b.oldSize + tot szN q1 + itm.size + szN itm.kid) q2,
              kids := itm.kid :: kidsOf q2 })
      (X := tot szN psl + b.oldSize + tot szN q1 + itm.size + szN itm.kid) (by simp)
      (by simp [mkG]; omega)
      (by right; right; intro h; rw [h] at hlen; simp at hlen; omega)
    have hfs : firstSize (szN (h := h)) E.M psl.length b.oldSize
        { ptr := w.next, size := (mkG szN p psl b.lhs b.oldSize (q1 ++ itm :: q2)).size,
          keys := keysR szN (tot szN psl + b.oldSize + tot szN q1 + itm.size + szN itm.kid) q2,
          kids := itm.kid :: kidsOf q2 } = .ok (szN itm.kid) := by
      have : ¬ (psl.length = E.M ∨ psl.length = E.M + 1) := by omega
      rw [firstSize, if_neg this]
      exact childSize_at (KA := []) rfl rfl
    have s1 : szN itm.kid ≤ tot szN psl + b.oldSize + tot szN q1 + itm.size + szN itm.kid := by omega
    have s2 : tot szN psl + b.oldSize + tot szN q1 ≤
        tot szN psl + b.oldSize + tot szN q1 + itm.size + szN itm.kid - szN itm.kid := by omega
    have hback := shiftBack_at (sz := szN) (MAX := MAX) (psl := []) (psr := q2)
      (n := { ptr := w.next, size := (mkG szN p psl b.lhs b.oldSize (q1 ++ itm :: q2)).size,
              keys := keysR szN (tot szN psl + b.oldSize + tot szN q1 + itm.size + szN itm.kid) q2,
              kids := itm.kid :: kidsOf q2 })
      (X := tot szN psl + b.oldSize + tot szN q1 + itm.size + szN itm.kid)
      (o := tot szN psl + b.oldSize + tot szN q1 + itm.size + szN itm.kid - szN itm.kid) (by simp)
      (by simp [mkG]; omega) (by omega) (by omega)
    obtain ⟨path', w2, hhalf⟩ := bubbleInsertHalf_spec (p := p) (psr := q1) (path := path) hE (cb := cb)
      esr w1 hs (by omega) (by omega) (by omega) hmono
    have hks : ∀ x, keepShift E.M psl.length b.shift x = (x, b.shift) := by
      intro x
      have : ¬ psl.length = E.M + 1 := by omega
      unfold keepShift
      cases b.shift <;> simp [this]
    have e1 : tot szN psl + b.oldSize + tot szN q1 + itm.size + szN itm.kid - szN itm.kid -
        (tot szN psl + b.oldSize + tot szN q1) = itm.size := by omega
    have e : tot szN psl + b.oldSize + tot szN q1 + itm.size + szN itm.kid -
          (tot szN psl + b.oldSize + tot szN q1 + itm.size + szN itm.kid - szN itm.kid) =
            szN itm.kid := by omega
    have hmk : (Node.mk w.next (szN itm.kid + tot szN q2) (keysL szN 0 ([] : List (Item S (Tree Nat S h))) ++ keysR szN (szN itm.kid) q2)
        (itm.kid :: kidsOf q2) : Node Nat S (Tree Nat S h)) =
          mkG szN w.next [] itm.kid (szN itm.kid) q2 := by simp [mkG]
    rw [e, hmk] at hback
    refine ⟨{ lhs := mkG szN p psl' b.lhs (szN b.lhs) (b.item esr :: q1),
              key := ⟨tot szN psl + b.oldSize + tot szN q1, itm.slice, itm.ref⟩,
              keySize := itm.size, rhs := mkG szN w.next [] itm.kid (szN itm.kid) q2,
              oldSize := tot szN psl + b.oldSize + tot szN (q1 ++ itm :: q2),
              shift := none, side := some .left, inserted := true },
      path', w2, entsL psl' ++ esl ++ entsR (b.item esr :: q1), itm.ents ++ entsR q2, ?_, ?_⟩
    · unfold bubbleSplit
      simp only [hE, hmid, R.bind_ok, hsp, hfp, hfs, headPos, subR_ok s1, subL_ok s2, natIdx_zero]
      have hne : psl.length ≠ E.M := by omega
      rw [if_pos hne]
      simp only [hback, R.bind_ok, hks, if_pos hc, e1]
      change (bubbleInsertHalf E cb szN (mkG szN p psl b.lhs b.oldSize q1) psl.length b b.shift path
        w1).bind _ = _
      rw [hhalf]
      rfl
    · refine ⟨?_, ?_, rfl, rfl, ?_⟩
      · refine Rep.ofFocus hpl' hlhs (RepItems.cons.mpr ⟨hrhs, hpr.1⟩) rfl ?_ ?_ <;>
        · simp [hs.length]; omega
      · exact Rep.ofFocus RepItems.nil hpr.2.1 hpr.2.2 (by simp) (by simp; omega) (by simp; omega)
      · simp [Item.ent, Bubble.item]
  · -- the key is the midpoint
    obtain ⟨q1, itm, rfl⟩ : ∃ q it, psl = q ++ [it] :=
      ⟨psl.dropLast, psl.getLast (by intro h; simp [h] at hc; omega),
        (List.dropLast_concat_getLast _).symm⟩
    simp only [List.length_append, List.length_cons, List.length_nil] at hlen hc
    have hsh : ∃ ns, midSize b.shift itm.size = ns ∧ psl' = q1 ++ [{ itm with size := ns }] := by
      cases hbs : b.shift with
      | none =>
        rw [hbs] at hs
        exact ⟨itm.size, rfl, hs⟩
      | some s =>
        rw [hbs] at hs
        obtain ⟨q, it, h1, rfl, _, _⟩ := hs
        obtain ⟨rfl, h2⟩ := List.append_inj' h1 rfl
        simp at h2; subst h2
        exact ⟨s.newSize, rfl, rfl⟩
    obtain ⟨ns, hns, rfl⟩ := hsh
    simp only [tot_append, tot_cons, tot_nil, Nat.add_zero] at hb1 hb2 hmono
    rw [RepItems.append, RepItems.cons] at hpl
    cases psr with
    | nil => simp at hlen; omega
    | cons it0 psr0 =>
    have hkeys : (mkG szN p (q1 ++ [itm]) b.lhs b.oldSize (it0 :: psr0)).keys =
        keysL szN 0 q1 ++ ⟨tot szN q1 + szN itm.kid, itm.slice, itm.ref⟩ ::
          keysR szN (tot szN q1 + (szN itm.kid + itm.size) + b.oldSize) (it0 :: psr0) := by
      simp [mkG, keysL_append]
    have hkids : (mkG szN p (q1 ++ [itm]) b.lhs b.oldSize (it0 :: psr0)).kids =
        (kidsOf q1 ++ [itm.kid]) ++ (b.lhs :: kidsOf (it0 :: psr0)) := by simp [mkG]
    have hlen1 : (q1 ++ [itm]).length = E.M := by simpa using hc
    have hmid : bubbleMid E.M E.M = .ok (E.M - 1) := by
      simp [bubbleMid, usub_ok hM]
    obtain ⟨w1, hsp, _⟩ := split_at (i := E.M - 1) hkeys (by simp; omega) hkids (by simp; omega) w
    have hfp := firstPos_at (M := E.M) (sz := szN) (psl := []) (o := 0) (psr := it0 :: psr0)
      (n := { ptr := w.next, size := (mkG szN p (q1 ++ [itm]) b.lhs b.oldSize (it0 :: psr0)).size,
              keys := keysR szN (tot szN q1 + (szN itm.kid + itm.size) + b.oldSize) (it0 :: psr0),
              kids := b.lhs :: kidsOf (it0 :: psr0) })
      (X := tot szN q1 + (szN itm.kid + itm.size) + b.oldSize) (by simp)
      (by simp [mkG]) (by right; right; simp)
    have hfs : ∀ n : Node Nat S (Tree Nat S h), firstSize szN E.M E.M b.oldSize n = .ok b.oldSize := by
      intro n; simp [firstSize]
    have s1 : b.oldSize ≤ tot szN q1 + (szN itm.kid + itm.size) + b.oldSize := by omega
    have s2 : tot szN q1 + szN itm.kid ≤
        tot szN q1 + (szN itm.kid + itm.size) + b.oldSize - b.oldSize := by omega
    have e2 : tot szN q1 + (szN itm.kid + itm.size) + b.oldSize - b.oldSize -
        (tot szN q1 + szN itm.kid) = itm.size := by omega
    have a1 : tot szN q1 + szN itm.kid + ns ≤ MAX := by omega
    have a2 : tot szN q1 + szN itm.kid + ns + szN b.lhs ≤ MAX := by omega
    obtain ⟨w2, hpush, _⟩ := pushKC_at (maxLen := 2 * E.M)
      (n := { (mkG szN p (q1 ++ [itm]) b.lhs b.oldSize (it0 :: psr0)) with
          size := tot szN q1 + szN itm.kid, keys := keysL szN 0 q1, kids := kidsOf q1 ++ [itm.kid] })
      (by simp; omega) itm.slice itm.ref b.lhs (tot szN q1 + szN itm.kid + ns + szN b.lhs)
      (w1.link (HasPtr.addr b.rhs) fun q => .set q w.next 0)
    have hkp := keyPos_at (A := ([] : List (Key Nat S))) (i := 0)
      (k := ⟨tot szN q1 + (szN itm.kid + itm.size) + b.oldSize, it0.slice, it0.ref⟩)
      (n := { ptr := w.next, size := (mkG szN p (q1 ++ [itm]) b.lhs b.oldSize (it0 :: psr0)).size,
              keys := keysR szN (tot szN q1 + (szN itm.kid + itm.size) + b.oldSize) (it0 :: psr0),
              kids := b.rhs :: kidsOf (it0 :: psr0) })
      (by rfl) rfl
    have hshift := shiftKeysAuto_at (MAX := MAX) (sz := szN) (A := []) (i := 0)
      (n := { ptr := w.next, size := (mkG szN p (q1 ++ [itm]) b.lhs b.oldSize (it0 :: psr0)).size,
              keys := keysR szN (tot szN q1 + (szN itm.kid + itm.size) + b.oldSize) (it0 :: psr0),
              kids := b.rhs :: kidsOf (it0 :: psr0) })
      (pos := 0) (old := tot szN q1 + (szN itm.kid + itm.size) + b.oldSize) (new := szN b.rhs)
      (X := tot szN q1 + (szN itm.kid + itm.size) + b.oldSize) (X' := szN b.rhs) (psr := it0 :: psr0)
      (by simp) rfl (by simp [mkG]) (by simp) (by simp) (by omega) (by omega)
    have e3 : mkG szN p (q1 ++ [{ itm with size := ns }]) b.lhs (szN b.lhs) [] =
        Node.mk p (tot szN q1 + szN itm.kid + ns + szN b.lhs)
          (keysL szN 0 q1 ++ [⟨tot szN q1 + szN itm.kid, itm.slice, itm.ref⟩])
          (kidsOf q1 ++ [itm.kid] ++ [b.lhs]) := by
      simp [mkG, keysL_append]; omega
    have e4 : (Node.mk w.next (szN b.rhs + tot szN (it0 :: psr0))
        ([] ++ keysR szN (szN b.rhs) (it0 :: psr0)) (b.rhs :: kidsOf (it0 :: psr0)) :
          Node Nat S (Tree Nat S h)) = mkG szN w.next [] b.rhs (szN b.rhs) (it0 :: psr0) := by
      simp [mkG]
    rw [e4] at hshift
    refine ⟨{ lhs := mkG szN p (q1 ++ [{ itm with size := ns }]) b.lhs (szN b.lhs) [],
              key := b.key, keySize := b.keySize,
              rhs := mkG szN w.next [] b.rhs (szN b.rhs) (it0 :: psr0),
              oldSize := (mkG szN p (q1 ++ [itm]) b.lhs b.oldSize (it0 :: psr0)).size,
              shift := none, side := b.side, inserted := b.inserted },
      midPath E.M b.side path, w2, entsL (q1 ++ [{ itm with size := ns }]) ++ esl,
      esr ++ entsR (it0 :: psr0), ?_, ?_⟩
    · unfold bubbleSplit
      simp only [hE, hlen1, hmid, R.bind_ok, hsp, hfp, hfs, headPos, subR_ok s1, subL_ok s2, natIdx_zero, e2, e3]
      simp only [ne_eq, not_true_eq_false, if_false, hns, Node.replaceFirstChild, R.pure_eq, R.bind_ok,
        addR_ok a1, addR_ok a2]
      change ((Node.pushKeyAndChild (2 * E.M) _ _ _ _ _ _).bind _) = _
      rw [hpush]
      simp only [Except.bind, hkp, R.bind_ok, hshift]
      rfl
    · refine ⟨?_, ?_, rfl, ?_, ?_⟩
      · exact Rep.ofFocus hpl' hlhs RepItems.nil (by simp) (by simp; omega) (by simp; omega)
      · exact Rep.ofFocus RepItems.nil hrhs hpr (by simp) (by simp at hlen ⊢; omega)
            (by simp at hlen ⊢; omega)
      · simp [mkG]
      · simp [Item.ent, Bubble.item]
  · -- the key goes into the right half
    obtain ⟨q1, itm, q2, rfl, hq1⟩ : ∃ q1 itm q2, psl = q1 ++ itm :: q2 ∧ q1.length = E.M := by
      refine ⟨psl.take E.M, psl[E.M]'(by omega), psl.drop (E.M + 1), ?_, ?_⟩
      · rw [← List.drop_eq_getElem_cons, List.take_append_drop]
      · rw [List.length_take]; omega
    simp only [List.length_append, List.length_cons] at hlen hc
    rw [RepItems.append, RepItems.cons] at hpl
    -- the change of the items
    obtain ⟨ks, q2', sh, sh', hkeep, hrel, hsr, hpsl'⟩ : ∃ ks q2' sh sh',
        keepShift E.M (q1 ++ itm :: q2).length b.shift itm.size = (ks, sh) ∧
        relShift (natIdx MAX) sh (tot szN q1 + szN itm.kid + itm.size) = .ok sh' ∧
        ShiftRel szN sh' q2 q2' ∧ psl' = q1 ++ { itm with size := ks } :: q2' := by
      have hl : (q1 ++ itm :: q2).length = E.M + 1 + q2.length := by simp; omega
      cases hbs : b.shift with
      | none =>
        rw [hbs] at hs
        exact ⟨itm.size, q2, none, none, rfl, rfl, rfl, hs⟩
      | some s =>
        rw [hbs] at hs
        obtain ⟨q, it, h1, rfl, h2, h3⟩ := hs
        cases q2 with
        | nil =>
          obtain ⟨rfl, h4⟩ := List.append_inj' h1 rfl
          simp at h4; subst h4
          refine ⟨s.newSize, [], none, none, ?_, rfl, rfl, rfl⟩
          simp at hl
          simp [keepShift, hl]
        | cons x q2 =>
          obtain ⟨y, z, hyz⟩ : ∃ y z, x :: q2 = y ++ [z] :=
            ⟨(x :: q2).dropLast, (x :: q2).getLast (by simp), (List.dropLast_concat_getLast _).symm⟩
          rw [hyz] at h1 hl ⊢
          have h1' : (q1 ++ itm :: y) ++ [z] = q ++ [it] := by simpa using h1
          obtain ⟨rfl, h4⟩ := List.append_inj' h1' rfl
          simp at h4; subst h4
          simp only [tot_append, tot_cons] at h2
          have hle : tot szN q1 + szN itm.kid + itm.size ≤ s.pos := by omega
          refine ⟨itm.size, y ++ [{ z with size := s.newSize }], some s,
            some { s with pos := s.pos - (tot szN q1 + szN itm.kid + itm.size) }, ?_, ?_, ?_, ?_⟩
          · have : ¬ (q1 ++ itm :: (y ++ [z])).length = E.M + 1 := by
              rw [hl]; simp
            simp only [keepShift, if_neg this]
          · simp [relShift, subL_ok hle]
          · exact ⟨y, z, rfl, rfl, by simp; omega, h3⟩
          · simp
    subst hpsl'
    simp only [tot_append, tot_cons] at hb1 hb2 hmono
    have hq2' := hsr.length
    have hkeys : (mkG szN p (q1 ++ itm :: q2) b.lhs b.oldSize psr).keys =
        keysL szN 0 q1 ++ ⟨tot szN q1 + szN itm.kid, itm.slice, itm.ref⟩ ::
          (keysL szN (tot szN q1 + szN itm.kid + itm.size) q2 ++
            keysR szN (tot szN q1 + (szN itm.kid + itm.size + tot szN q2) + b.oldSize) psr) := by
      simp [mkG, keysL_append]
    have hkids : (mkG szN p (q1 ++ itm :: q2) b.lhs b.oldSize psr).kids =
        (kidsOf q1 ++ [itm.kid]) ++ (kidsOf q2 ++ b.lhs :: kidsOf psr) := by simp [mkG]
    have hmid : bubbleMid E.M (q1 ++ itm :: q2).length = .ok E.M := by
      have : (q1 ++ itm :: q2).length > E.M := by simp; omega
      simp only [bubbleMid, if_pos this]; rfl
    obtain ⟨w1, hsp, _⟩ := split_at (i := E.M) hkeys (by simp; omega) hkids (by simp; omega) w
    have hfirst : ∃ fp fs, fs ≤ fp ∧ fp - fs = tot szN q1 + szN itm.kid + itm.size ∧
        firstPos E.M
          (Node.mk w.next (mkG szN p (q1 ++ itm :: q2) b.lhs b.oldSize psr).size
            (keysL szN (tot szN q1 + szN itm.kid + itm.size) q2 ++
                keysR szN (tot szN q1 + (szN itm.kid + itm.size + tot szN q2) + b.oldSize) psr)
            (kidsOf q2 ++ b.lhs :: kidsOf psr) : Node Nat S (Tree Nat S h)) = .ok fp ∧
        firstSize (szN (h := h)) E.M (q1 ++ itm :: q2).length b.oldSize
          (Node.mk w.next (mkG szN p (q1 ++ itm :: q2) b.lhs b.oldSize psr).size
            (keysL szN (tot szN q1 + szN itm.kid + itm.size) q2 ++
                keysR szN (tot szN q1 + (szN itm.kid + itm.size + tot szN q2) + b.oldSize) psr)
            (kidsOf q2 ++ b.lhs :: kidsOf psr) : Node Nat S (Tree Nat S h)) = .ok fs := by
      have hfp := firstPos_at (M := E.M) (sz := szN)
        (psl := q2) (o := tot szN q1 + szN itm.kid + itm.size) (psr := psr)
        (n := Node.mk w.next (mkG szN p (q1 ++ itm :: q2) b.lhs b.oldSize psr).size
            (keysL szN (tot szN q1 + szN itm.kid + itm.size) q2 ++
                keysR szN (tot szN q1 + (szN itm.kid + itm.size + tot szN q2) + b.oldSize) psr)
            (kidsOf q2 ++ b.lhs :: kidsOf psr))
        (X := tot szN q1 + (szN itm.kid + itm.size + tot szN q2) + b.oldSize) rfl
        (by simp [mkG])
        (by
          by_cases h1 : E.M = 1
          · exact .inl h1
          · right
            cases q2 with
            | cons _ _ => left; simp
            | nil =>
              cases psr with
              | cons _ _ => right; simp
              | nil => simp at hlen; omega)
      cases q2 with
      | nil =>
        refine ⟨_, b.oldSize, ?_, ?_, hfp, ?_⟩
        · simp [headPos]
        · simp [headPos]
          omega
        · have : (q1 ++ [itm]).length = E.M + 1 := by simp; omega
          simp [firstSize]
          omega
      | cons x q2 =>
        refine ⟨_, szN x.kid, ?_, ?_, hfp, ?_⟩
        · simp [headPos]
        · simp [headPos]
        · have : ¬ ((q1 ++ itm :: x :: q2).length = E.M ∨ (q1 ++ itm :: x :: q2).length = E.M + 1) := by
            simp; omega
          rw [firstSize, if_neg this]
          exact childSize_at (KA := []) rfl rfl
    obtain ⟨fp, fs, hle, hsub, hfp, hfs⟩ := hfirst
    have s2 : tot szN q1 + szN itm.kid ≤ tot szN q1 + szN itm.kid + itm.size := by omega
    have e2 : tot szN q1 + szN itm.kid + itm.size - (tot szN q1 + szN itm.kid) = itm.size := by omega
    have hback := shiftBack_at (sz := szN) (MAX := MAX) (psl := q2) (psr := psr)
      (n := Node.mk w.next (mkG szN p (q1 ++ itm :: q2) b.lhs b.oldSize psr).size
            (keysL szN (tot szN q1 + szN itm.kid + itm.size) q2 ++
                keysR szN (tot szN q1 + (szN itm.kid + itm.size + tot szN q2) + b.oldSize) psr)
            (kidsOf q2 ++ b.lhs :: kidsOf psr))
      (X := tot szN q1 + (szN itm.kid + itm.size + tot szN q2) + b.oldSize)
      (o := tot szN q1 + szN itm.kid + itm.size) rfl
      (by simp [mkG]) (by omega) (by omega)
    have hmk : (Node.mk w.next
          (tot szN q1 + (szN itm.kid + itm.size + tot szN q2) + b.oldSize -
            (tot szN q1 + szN itm.kid + itm.size) + tot szN psr)
          (keysL szN 0 q2 ++
            keysR szN (tot szN q1 + (szN itm.kid + itm.size + tot szN q2) + b.oldSize -
              (tot szN q1 + szN itm.kid + itm.size)) psr)
          (kidsOf q2 ++ b.lhs :: kidsOf psr) : Node Nat S (Tree Nat S h)) =
        mkG szN w.next q2 b.lhs b.oldSize psr := by
      have e : tot szN q1 + (szN itm.kid + itm.size + tot szN q2) + b.oldSize -
              (tot szN q1 + szN itm.kid + itm.size) = tot szN q2 + b.oldSize := by omega
      simp [mkG, e]
    rw [hmk] at hback
    have hmono' : tot szN q2 + b.oldSize ≤ tot szN q2' + (szN b.lhs + b.keySize + szN b.rhs) := by
      cases hsh' : sh' with
      | none =>
        rw [hsh'] at hsr
        rw [show q2' = q2 from hsr]
        omega
      | some s' =>
        have : ks = itm.size := by
          have hsh : sh ≠ none := by
            intro h0
            rw [h0, relShift] at hrel
            simp [hsh'] at hrel
          unfold keepShift at hkeep
          cases hbs : b.shift with
          | none => rw [hbs] at hkeep; simp at hkeep; exact absurd hkeep.2.symm hsh
          | some s =>
            rw [hbs] at hkeep
            simp only at hkeep
            split at hkeep
            · simp at hkeep; exact absurd hkeep.2.symm hsh
            · simp at hkeep; exact hkeep.1.symm
        omega
    obtain ⟨path', w2, hhalf⟩ := bubbleInsertHalf_spec (p := w.next) (psr := psr) (path := path) hE
      (cb := cb) esr w1 hsr (by omega) (by omega) (by omega) hmono'
    have hus : usub (q1 ++ itm :: q2).length (E.M + 1) = .ok q2.length := by
      have : E.M + 1 ≤ (q1 ++ itm :: q2).length := by simp; omega
      rw [usub_ok this]
      simp; omega
    refine ⟨{ lhs := mkG szN p q1 itm.kid (szN itm.kid) [],
              key := ⟨tot szN q1 + szN itm.kid, itm.slice, itm.ref⟩, keySize := ks,
              rhs := mkG szN w.next q2' b.lhs (szN b.lhs) (b.item esr :: psr),
              oldSize := (mkG szN p (q1 ++ itm :: q2) b.lhs b.oldSize psr).size,
              shift := none, side := some .right, inserted := true },
      path', w2, entsL q1 ++ itm.ents, entsL q2' ++ esl ++ entsR (b.item esr :: psr), ?_, ?_⟩
    · unfold bubbleSplit
      simp only [hE, hmid, R.bind_ok, hsp, hfp, hfs, subR_ok hle, hsub, subL_ok s2, natIdx_zero, e2]
      have hne : (q1 ++ itm :: q2).length ≠ E.M := by simp; omega
      have hnl : ¬ (q1 ++ itm :: q2).length < E.M := by simp; omega
      rw [if_pos hne]
      simp only [hback, R.bind_ok, hkeep, if_neg hnl, hus, hrel]
      rw [hhalf]
      simp [mkG]
    · refine ⟨?_, ?_, rfl, ?_, ?_⟩
      · exact Rep.ofFocus hpl.1 hpl.2.1 RepItems.nil (by simp) (by simp; omega) (by simp; omega)
      · refine Rep.ofFocus (hsr.rep hpl.2.2) hlhs (RepItems.cons.mpr ⟨hrhs, hpr⟩) rfl ?_ ?_ <;>
        · simp [hq2']; omega
      · simp [mkG]
      · simp [Item.ent, Bubble.item]

/-- Above the resized key nothing changes. -/
theorem CtxRep.same {M : Nat} {m : Maps Nat} {H h : Nat} {ctx : Ctx Nat S H h} {s : Nat}
    {L Rr L' : List (Ent S)} (hc : CtxRep M m ctx s L Rr L')
    (hh : m.sizes = true → m.lhsHeight < h) : L' = L := by
  induction ctx generalizing s L Rr L' with
  | top => obtain ⟨rfl, _, rfl⟩ := hc; rfl
  | @frame h ptr size keys kl kr up ih =>
    obtain ⟨psl, psl', psr, Lu, Ru, Lu', _, _, _, _, _, _, hc, _, _, rfl, _, rfl, hu⟩ := hc
    have h1 := ih hu (fun a => by have := hh a; omega)
    unfold LhsChange at hc
    rw [if_neg (by rintro ⟨a, b⟩; have := hh a; omega)] at hc
    rw [h1, hc]

/-- What the result of an insertion traversal stores. -/
def PostRep (M : Nat) {H : Nat} : Post Nat S H → List (Ent S) → Prop
  | .done t, es => Rep M 1 t es
  | .newRoot lhs key ks rhs, es => ∃ esl esr, Rep M M lhs esl ∧ Rep M M rhs esr ∧
      es = esl ++ ⟨ks, key.slice, key.ref⟩ :: esr

theorem Rep.weaken {M lo lo' : Nat} {h : Nat} {t : Tree Nat S h} {es : List (Ent S)} (hr : Rep M lo t es)
    (hle : lo' ≤ lo) : Rep M lo' t es := by
  cases h with
  | zero => exact hr
  | succ h =>
    obtain ⟨c, ec, psr, h1, h2, h3, h4, h5, h6⟩ := hr
    exact ⟨c, ec, psr, h1, h2, h3, h4, by omega, h6⟩

theorem Ctx.lo_le {M H h : Nat} (hM : 1 ≤ M) (ctx : Ctx Nat S H h) : ctx.lo M ≤ M := by
  cases ctx <;> simp [Ctx.lo]; omega

/-- `BubbledInsertState::finish`. -/
theorem bubbleFinish_spec {MAX : Nat} {E : Env Nat S} (hE : E.ix = natIdx MAX) (hM : 1 ≤ E.M) {cb : Cb}
    {m : Maps Nat} {H h : Nat} (ctx : Ctx Nat S H h) {b : Bubble Nat S (Tree Nat S h)} {handled : Bool}
    {path : List Nat} {w : World} {L Rr L' esl esr : List (Ent S)}
    (hctx : CtxRep E.M m ctx b.oldSize L Rr L')
    (hl : Rep E.M E.M b.lhs esl) (hr : Rep E.M E.M b.rhs esr) (hsh : b.shift = none)
    (hh : handled = true → m.sizes = true → m.lhsHeight < h)
    (hH : m.sizes = true → m.lhsHeight < H)
    (hb1 : total L + b.oldSize + total Rr ≤ MAX)
    (hb2 : total L' + (total esl + b.keySize + total esr) + total Rr ≤ MAX)
    (hm1 : b.oldSize ≤ total esl + b.keySize + total esr)
    (hm2 : total L + b.oldSize ≤ total L' + (total esl + b.keySize + total esr)) :
    ∃ post path' w', bubbleFinish E cb m ctx b handled path w = .ok (post, path', w') ∧
      PostRep E.M post (L' ++ (esl ++ ⟨b.keySize, b.key.slice, b.key.ref⟩ :: esr) ++ Rr) := by
  induction ctx generalizing L Rr L' esl esr handled path w with
  | top =>
    obtain ⟨rfl, rfl, rfl⟩ := hctx
    have hms : ∃ hd, mapShift m H handled none = .ok (hd, none) := by
      unfold mapShift
      by_cases h1 : m.sizes = true
      · have h2 : (H == m.lhsHeight) = false := by
          have := hH h1
          simp; omega
        simp [h1, h2]
      · simp [h1]
    obtain ⟨hd, hms⟩ := hms
    refine ⟨.newRoot b.lhs b.key b.keySize b.rhs,
      prependSide 0 (mapSide m H (ptrT b.lhs) w.fst b.side)
        (if (m.cursor && H == m.lhsHeight + 1) = true then [] else path), w.link (ptrT b.lhs) .top, ?_, ?_⟩
    · simp only [bubbleFinish, hsh, hms, R.bind_ok]
      simp
    · exact ⟨esl, esr, hl, hr, by simp⟩
  | @frame h ptr size keys kl kr up ih =>
    obtain ⟨psl, psl', psr, Lu, Ru, Lu', rfl, rfl, rfl, hs, hpl, hpr, hc, hlo, hhi, rfl, rfl, rfl, hu⟩ :=
      hctx
    have e1 := RepItems.totL hpl
    have e2 := RepItems.totL (hc.rep hpl)
    have e3 := RepItems.totR hpr
    have e4 := Rep.size hl
    have e5 := Rep.size hr
    simp only [total_append] at hb1 hb2 hm2
    -- `map_shift_lhs`
    obtain ⟨handled', shift, hms, hsr, hh', hinert⟩ : ∃ handled' shift,
        mapShift m h handled none = .ok (handled', shift) ∧ ShiftRel szN shift psl psl' ∧
        (handled' = true → m.sizes = true → m.lhsHeight < h + 1) ∧
        (handled' = true ∨ ¬ (m.sizes = true ∧ h = m.lhsHeight)) := by
      unfold mapShift
      unfold LhsChange at hc
      by_cases h1 : m.sizes = true
      · by_cases h2 : h = m.lhsHeight
        · rw [if_pos ⟨h1, h2⟩] at hc
          obtain ⟨q, it, h3, h4, h5, h6⟩ := hc
          refine ⟨true, some ⟨m.lhsPos, m.oldLhs, m.newLhs⟩, ?_, ⟨q, it, h3, h4, h5, h6⟩, ?_, .inl rfl⟩
          · simp [h1, h2]
          · intro _ _; omega
        · rw [if_neg (fun a => h2 a.2)] at hc
          refine ⟨handled, none, ?_, hc, ?_, .inr (fun a => h2 a.2)⟩
          · have : (h == m.lhsHeight) = false := by simp [h2]
            simp [h1, this]
          · intro a b; have := hh a b; omega
      · rw [if_neg (fun a => h1 a.1)] at hc
        refine ⟨handled, none, ?_, hc, ?_, .inr (fun a => h1 a.1)⟩
        · simp [h1]
        · intro a b; exact absurd b h1
    have hmono : tot szN psl + b.oldSize ≤
        tot szN psl' + (szN b.lhs + b.keySize + szN b.rhs) := by
      cases shift with
      | none =>
        rw [show psl' = psl from hsr]; omega
      | some s =>
        have hsame : Lu' = Lu := by
          refine hu.same (fun a => ?_)
          by_cases h2 : h = m.lhsHeight
          · omega
          · exfalso
            unfold mapShift at hms
            have : (h == m.lhsHeight) = false := by simp [h2]
            simp [a, this] at hms
        rw [hsame] at hm2
        omega
    have hplug : plugNode ptr size (keysL szN 0 psl ++ keysR szN (tot szN psl + b.oldSize) psr)
        (kidsOf psl) b.lhs (kidsOf psr) = mkG szN ptr psl b.lhs b.oldSize psr := by
      simp [plugNode, mkG, hs]
    have hlen : (mkG szN ptr psl b.lhs b.oldSize psr).len = psl.length + psr.length := by
      simp [Node.len]
    -- the state after `map`
    let b1 : Bubble Nat S (Tree Nat S h) :=
      { b with side := mapSide m h (ptrT b.lhs) w.fst b.side, shift := shift }
    simp only [bubbleFinish, hsh, hms, R.bind_ok, hE, szT_natIdx, hplug, kidsOf_length, hlen]
    by_cases hroom : psl.length + psr.length < 2 * E.M
    · rw [if_pos hroom]
      obtain ⟨n, ov, old, new, path', w', hbr, hop⟩ := bubbleRoom_spec (p := ptr) (m := m)
        (handled := handled') (h := h) (b := b1) (cb := cb)
        (path := if (m.cursor && h == m.lhsHeight + 1) = true then [] else path) hE esr
        (w.link (ptrT b.lhs) fun q => .up q ptr psl.length) (hsr : ShiftRel szN b1.shift psl psl') hroom hinert
        (by simp only [b1]; omega) (by simp only [b1]; omega)
      have hrep : Rep E.M (up.lo E.M) (h := h + 1)
          (mkG szN ptr psl' b1.lhs (szN b1.lhs) (b1.item esr :: psr))
          (entsL psl' ++ esl ++ entsR (b1.item esr :: psr)) :=
        Rep.ofFocus (hc.rep hpl) hl (RepItems.cons.mpr ⟨hr, hpr⟩) rfl
          (by simp [hc.length]; omega) (by simp [hc.length]; omega)
      obtain ⟨t', path'', hup, hfin⟩ := opUp_spec (MAX := MAX) (handled := handled')
        (path := mapCursor m h path') up (t := mkG szN ptr psl' b1.lhs (szN b1.lhs)
          (b1.item esr :: psr)) hu hrep hh' (by omega)
        (by simp [b1, Bubble.item, Item.ent]; omega)
      refine ⟨.done t', path'', up.readUp (some n.ptr) w', ?_, ?_⟩
      · simp only [b1] at hbr
        simp only [hbr, R.bind_ok, opKey]
        rw [hE] at hop
        rw [hop]
        rw [hs] at hup
        have hsz : szN (h := h + 1) (mkG szN ptr psl' b1.lhs (szN b1.lhs) (b1.item esr :: psr)) =
          Node.size (mkG szN ptr psl' b1.lhs (szN b1.lhs) (b1.item esr :: psr)) := rfl
        rw [hsz] at hup
        simp only [R.bind_ok]
        rw [hup]
        rfl
      · simpa [PostRep, b1, Bubble.item, Item.ent, List.append_assoc] using hfin
    · rw [if_neg hroom]
      obtain ⟨b', path', w', es1, es2, hbs, hr1, hr2, hsh', hold, hes⟩ := bubbleSplit_spec (p := ptr)
        (b := b1) (cb := cb)
        (path := if (m.cursor && h == m.lhsHeight + 1) = true then [] else path) hE hM
        (w.link (ptrT b.lhs) fun q => .up q ptr psl.length)
        (hsr : ShiftRel szN b1.shift psl psl') (by omega) hpl hpr hl hr
        (by simp only [b1]; omega) (by simp only [b1]; omega) (by simp only [b1]; omega)
        (by simp only [b1]; omega)
      have htot := congrArg total hes
      simp only [total_append, total_cons, b1, Bubble.item, Item.ent] at htot
      simp only [b1] at hold hbs
      have hu' : CtxRep E.M m up b'.oldSize Lu Ru Lu' := by
        rw [hold, ← hs]; exact hu
      obtain ⟨post, path'', w'', hbf, hpost⟩ := ih (b := b') (handled := handled') (path := path')
        (w := w') hu' hr1 hr2 hsh' hh' (by omega) (by omega) (by omega)
        (by
          have : total Lu + tot szN psl + b.oldSize ≤
            total Lu' + tot szN psl' + (szN b.lhs + b.keySize + szN b.rhs) := by omega
          omega)
      refine ⟨post, path'', w'', ?_, ?_⟩
      · rw [hbs]
        exact hbf
      · rw [hes] at hpost
        simpa [PostRep, b1, Bubble.item, Item.ent, List.append_assoc] using hpost

end Sherman
