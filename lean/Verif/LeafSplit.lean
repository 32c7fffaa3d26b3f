import Verif.LeafLemmas
/-!
# Splitting a full leaf
-/
namespace Sherman
variable {S : Type}

/-- Insertion into one half of a split leaf. -/
theorem leafInsertHalf_spec {MAX p : Nat} {E : Env Nat S} (hE : E.ix = natIdx MAX) {cb : Cb}
    {A A' B : List (Ent S)} {ov : Option Nat} {fst : Sized Nat S} {snd : Option (Sized Nat S)} (w : World)
    (ho : OvRel ov A A') (hlen : (newEnts fst snd).length + A.length + B.length ≤ 2 * E.M)
    (hb1 : total A + total B ≤ MAX) (hb2 : total A' + total (newEnts fst snd) + total B ≤ MAX)
    (hmono : total A ≤ total A' + total (newEnts fst snd)) :
    ∃ w', leafInsertHalf E cb (leafOf p (A ++ B)) A.length ov fst snd w =
      .ok (leafOf p (A' ++ newEnts fst snd ++ B), w') := by
  have hleaf : leafOf p (A ++ B) = lf p (total A + total B) (ks 0 A ++ ks (total A) B) := by
    exact (lf_leafOf (by simp) (by simp [ks_append])).symm
  cases snd with
  | none =>
    simp only [newEnts, Option.map_none, Option.toList_none, List.length_cons, List.length_nil,
      total_cons, total_nil, newEnt, Nat.add_zero] at hlen hb2 hmono ⊢
    obtain ⟨w1, hins, _⟩ := lf_insert (E := E) (p := p) (size := total A + total B) (A := ks 0 A)
      (B := ks (total A) B) (i := A.length) (by simp) (by simp; omega) fst.slice w
    rw [lf_nextPos (by simp) rfl] at hins
    obtain ⟨w2, hem⟩ := emit_ins (cb := cb) (a := p) (b := A.length) w1
    refine ⟨w2, ?_⟩
    cases ov with
    | none =>
      obtain rfl : A' = A := ho
      have a1 : total A' + 0 ≤ MAX := by omega
      have a2 : 0 + fst.size ≤ MAX := by omega
      simp only [leafInsertHalf, hleaf, hins, R.bind_ok, hE, natIdx_zero, R.pure_eq, addR_ok a1, addR_ok a2,
        lf_nextPos (show (ks 0 A').length = A'.length by simp) rfl,
        lf_setKeyPos (show (ks 0 A').length = A'.length by simp)]
      rw [show (ks 0 A' ++ ⟨total A' + 0, fst.slice, none⟩ :: ks (total A') B) =
          (ks 0 A' ++ [⟨total A' + 0, fst.slice, none⟩]) ++ ks (total A') B by simp]
      rw [lf_shift (X := total A') (X' := total A' + fst.size) (by simp) rfl (by omega) (by omega)
          (by omega) (by omega) (by simp) (by simp)]
      rw [List.append_assoc, List.singleton_append]
      simp only [R.bind_ok, lf_handle (show (ks 0 A').length = A'.length by simp), lf_ptr, hem]
      exact congrArg (fun x => Except.ok (x, _)) (lf_leafOf (by simp; try omega)
        (by simp [ks_append]))
    | some s =>
      obtain ⟨q, e, rfl, rfl⟩ := ho
      simp only [total_append, total_cons, total_nil, List.length_append, List.length_cons,
        List.length_nil, Nat.add_zero] at hb1 hb2 hins hleaf hlen hem hmono ⊢
      have hus : usub (q.length + 1) 1 = .ok q.length := by simp [usub]
      have hks : ks 0 (q ++ [e]) = ks 0 q ++ [⟨total q, e.slice, e.ref⟩] := by simp [ks_append]
      have hkp : Node.keyPos (lf p (total q + e.size + total B)
          (ks 0 (q ++ [e]) ++ ks (total q + e.size) B)) q.length = .ok (total q) := by
        rw [hks, List.append_assoc]
        exact lf_keyPos (ks_length 0 q)
      have hss : Node.sliceSize (natIdx MAX) szN (lf p (total q + e.size + total B)
          (ks 0 (q ++ [e]) ++ ks (total q + e.size) B)) q.length = .ok e.size := by
        rw [hks, List.append_assoc]
        exact lf_sliceSize (ks_length 0 q) (by omega) rfl
      have a1 : total q + s ≤ MAX := by omega
      have a2 : s + fst.size ≤ MAX := by omega
      have hl1 : (ks 0 (q ++ [e])).length = q.length + 1 := by simp
      simp only [leafInsertHalf, hleaf, hE, szT_natIdx, hus, R.bind_ok, hkp, hss, addR_ok a1, hins,
          lf_setKeyPos hl1, R.pure_eq, addR_ok a2]
      rw [show (ks 0 (q ++ [e]) ++ ⟨total q + s, fst.slice, none⟩ :: ks (total q + e.size) B) =
          (ks 0 (q ++ [e]) ++ [⟨total q + s, fst.slice, none⟩]) ++ ks (total q + e.size) B by simp]
      rw [lf_shift (X := total q + e.size) (X' := total q + (s + fst.size)) (by simp) rfl rfl rfl
          (by omega) (by omega) (by omega) (by simp)]
      rw [List.append_assoc, List.singleton_append]
      simp only [R.bind_ok, lf_handle hl1, lf_ptr, hem]
      exact congrArg (fun x => Except.ok (x, _)) (lf_leafOf (by simp; try omega)
        (by simp [ks_append, Nat.add_assoc]))
  | some sn =>
    simp only [newEnts, Option.map_some, Option.toList_some, List.length_cons, List.length_nil,
      total_cons, total_nil, newEnt, Nat.add_zero] at hlen hb2 hmono ⊢
    obtain ⟨w1, hins, _⟩ := lf_insert (E := E) (p := p) (size := total A + total B) (A := ks 0 A)
      (B := ks (total A) B) (i := A.length) (by simp) (by simp; omega) fst.slice w
    rw [lf_nextPos (by simp) rfl] at hins
    cases ov with
    | none =>
      obtain rfl : A' = A := ho
      have a1 : total A' + 0 ≤ MAX := by omega
      have a2 : 0 + fst.size ≤ MAX := by omega
      have a3 : 0 + fst.size + sn.size ≤ MAX := by omega
      have a4 : total A' + 0 + fst.size ≤ MAX := by omega
      obtain ⟨w2, hins2, _⟩ := lf_insert (E := E) (p := p) (size := total A' + total B)
        (A := ks 0 A' ++ [⟨total A' + 0, fst.slice, none⟩]) (B := ks (total A') B) (i := A'.length + 1)
        (by simp) (by simp; omega) sn.slice w1
      rw [lf_nextPos (by simp) rfl, List.append_assoc, List.append_assoc] at hins2
      simp only [List.cons_append, List.nil_append] at hins2
      have hset := lf_setKeyPos (p := p) (size := total A' + total B) (i := A'.length + 1)
        (A := ks 0 A' ++ [⟨total A' + 0, fst.slice, none⟩]) (k := ⟨total A', sn.slice, none⟩)
        (B := ks (total A') B) (by simp) (total A' + 0 + fst.size)
      rw [List.append_assoc, List.append_assoc] at hset
      simp only [List.cons_append, List.nil_append] at hset
      obtain ⟨w3, hem⟩ := emit_ins (cb := cb) (a := p) (b := A'.length) w2
      refine ⟨w3, ?_⟩
      simp only [leafInsertHalf, hleaf, hins, R.bind_ok, hE, natIdx_zero, R.pure_eq, addR_ok a1, addR_ok a2,
        lf_nextPos (show (ks 0 A').length = A'.length by simp) rfl,
        lf_setKeyPos (show (ks 0 A').length = A'.length by simp), hins2, addR_ok a3, addR_ok a4, hset]
      rw [show (ks 0 A' ++ ⟨total A' + 0, fst.slice, none⟩ :: ⟨total A' + 0 + fst.size, sn.slice, none⟩ ::
            ks (total A') B) = (ks 0 A' ++ [⟨total A' + 0, fst.slice, none⟩,
            ⟨total A' + 0 + fst.size, sn.slice, none⟩]) ++ ks (total A') B by simp]
      rw [lf_shift (X := total A') (X' := total A' + (fst.size + sn.size)) (by simp) rfl (by omega)
        (by omega) (by omega) (by omega) (by simp) (by simp)]
      rw [List.append_assoc]
      simp only [List.cons_append, List.nil_append]
      simp only [R.bind_ok, lf_handle (show (ks 0 A').length = A'.length by simp), lf_ptr, hem]
      exact congrArg (fun x => Except.ok (x, _)) (lf_leafOf (by simp; try omega)
        (by simp [ks_append, Nat.add_assoc]))
    | some s =>
      obtain ⟨q, e, rfl, rfl⟩ := ho
      simp only [total_append, total_cons, total_nil, List.length_append, List.length_cons,
        List.length_nil, Nat.add_zero] at hb1 hb2 hins hleaf hlen hmono ⊢
      have hus : usub (q.length + 1) 1 = .ok q.length := by simp [usub]
      have hks : ks 0 (q ++ [e]) = ks 0 q ++ [⟨total q, e.slice, e.ref⟩] := by simp [ks_append]
      have hkp : Node.keyPos (lf p (total q + e.size + total B)
          (ks 0 (q ++ [e]) ++ ks (total q + e.size) B)) q.length = .ok (total q) := by
        rw [hks, List.append_assoc]
        exact lf_keyPos (ks_length 0 q)
      have hss : Node.sliceSize (natIdx MAX) szN (lf p (total q + e.size + total B)
          (ks 0 (q ++ [e]) ++ ks (total q + e.size) B)) q.length = .ok e.size := by
        rw [hks, List.append_assoc]
        exact lf_sliceSize (ks_length 0 q) (by omega) rfl
      have a1 : total q + s ≤ MAX := by omega
      have a2 : s + fst.size ≤ MAX := by omega
      have a3 : s + fst.size + sn.size ≤ MAX := by omega
      have a4 : total q + s + fst.size ≤ MAX := by omega
      have hl1 : (ks 0 (q ++ [e])).length = q.length + 1 := by simp
      obtain ⟨w2, hins2, _⟩ := lf_insert (E := E) (p := p) (size := total q + e.size + total B)
        (A := ks 0 (q ++ [e]) ++ [⟨total q + s, fst.slice, none⟩]) (B := ks (total q + e.size) B)
        (i := q.length + 1 + 1)
        (by simp) (by simp; omega) sn.slice w1
      rw [lf_nextPos (by simp) rfl, List.append_assoc, List.append_assoc] at hins2
      simp only [List.cons_append, List.nil_append] at hins2
      have hset := lf_setKeyPos (p := p) (size := total q + e.size + total B) (i := q.length + 1 + 1)
        (A := ks 0 (q ++ [e]) ++ [⟨total q + s, fst.slice, none⟩])
        (k := ⟨total q + e.size, sn.slice, none⟩)
        (B := ks (total q + e.size) B) (by simp) (total q + s + fst.size)
      rw [List.append_assoc, List.append_assoc] at hset
      simp only [List.cons_append, List.nil_append] at hset
      obtain ⟨w3, hem⟩ := emit_ins (cb := cb) (a := p) (b := q.length + 1) w2
      refine ⟨w3, ?_⟩
      simp only [leafInsertHalf, hleaf, hE, szT_natIdx, hus, R.bind_ok, hkp, hss, addR_ok a1, hins,
          lf_setKeyPos hl1, R.pure_eq, addR_ok a2, hins2, addR_ok a3, addR_ok a4, hset]
      rw [show (ks 0 (q ++ [e]) ++ ⟨total q + s, fst.slice, none⟩ ::
            ⟨total q + s + fst.size, sn.slice, none⟩ :: ks (total q + e.size) B) =
          (ks 0 (q ++ [e]) ++ [⟨total q + s, fst.slice, none⟩,
            ⟨total q + s + fst.size, sn.slice, none⟩]) ++ ks (total q + e.size) B by simp]
      rw [lf_shift (X := total q + e.size) (X' := total q + (s + (fst.size + sn.size)))
          (by simp) rfl rfl (by omega) (by omega) (by omega) (by omega) (by simp)]
      rw [List.append_assoc]
      simp only [List.cons_append, List.nil_append]
      simp only [R.bind_ok, lf_handle hl1, lf_ptr, hem]
      exact congrArg (fun x => Except.ok (x, _)) (lf_leafOf (by simp; try omega)
        (by simp [ks_append, Nat.add_assoc]))

/-- What `splitPlan` guarantees: the plan fits, and both halves get between `M` and `2*M` keys. -/
theorem splitPlan_spec {M len idx : Nat} {hasSnd : Bool} (hM : 1 ≤ M) (hidx : idx ≤ len)
    (hlen : len = 2 * M ∨ (hasSnd = true ∧ len + 1 = 2 * M)) (hsmall : ¬ (M = 1 ∧ len = 1)) :
    ∃ mid at_, splitPlan M len idx hasSnd = .ok (mid, at_) ∧ mid < len ∧
      match at_ with
      | .inl .left => idx ≤ mid ∧ M ≤ mid + (if hasSnd then 2 else 1) ∧
          mid + (if hasSnd then 2 else 1) ≤ 2 * M ∧ mid + 1 + M ≤ len
      | .inl .right => mid < idx ∧ M ≤ mid ∧ mid ≤ 2 * M ∧
          mid + 1 + M ≤ len + (if hasSnd then 2 else 1) ∧
          len + (if hasSnd then 2 else 1) ≤ mid + 1 + 2 * M
      | .inr .right => idx = mid + 1 ∧ M ≤ mid + 1 ∧
          mid + 1 + M ≤ len + (if hasSnd then 1 else 0) ∧ len + 1 ≤ mid + 1 + 2 * M ∧ mid + 1 ≤ 2 * M
      | .inr .left => idx = mid + 1 ∧ hasSnd = true ∧ M ≤ mid + 2 ∧ mid + 2 ≤ 2 * M ∧
          mid + 1 + M ≤ len := by
  have u1 : usub M 1 = .ok (M - 1) := usub_ok hM
  unfold splitPlan
  by_cases h1 : idx < M
  · rw [if_pos h1]
    by_cases h2 : (hasSnd && decide (len < 2 * M)) = true
    · rw [if_pos h2]
      simp only [Bool.and_eq_true, decide_eq_true_eq] at h2
      have u2 : usub M 2 = .ok (M - 2) := usub_ok (by omega)
      simp only [u1, u2, R.bind_ok]
      by_cases h3 : idx < M - 1
      · rw [if_pos h3]
        refine ⟨M - 2, .inl .left, rfl, by omega, ?_⟩
        simp only [h2.1, if_true]; omega
      · rw [if_neg h3]
        refine ⟨M - 2, .inr .left, rfl, by omega, ?_⟩
        simp only [h2.1, true_and]; omega
    · rw [if_neg h2]
      simp only [Bool.and_eq_true, decide_eq_true_eq] at h2
      have hl : len = 2 * M := by
        rcases hlen with h | h
        · exact h
        · exact absurd ⟨h.1, by omega⟩ h2
      simp only [u1, R.bind_ok]
      refine ⟨M - 1, .inl .left, rfl, by omega, ?_⟩
      simp only
      cases hasSnd <;> simp <;> omega
  · rw [if_neg h1]
    by_cases h2 : idx = M
    · rw [if_pos h2]
      simp only [u1, R.bind_ok]
      by_cases h3 : (hasSnd && len == 2 * M) = true
      · rw [if_pos h3]
        simp only [Bool.and_eq_true, beq_iff_eq] at h3
        refine ⟨M - 1, .inr .left, rfl, by omega, ?_⟩
        simp only [h3.1, true_and]; omega
      · rw [if_neg h3]
        simp only [Bool.and_eq_true, beq_iff_eq] at h3
        refine ⟨M - 1, .inr .right, rfl, by omega, ?_⟩
        simp only
        cases hasSnd <;> simp at h3 hlen ⊢ <;> omega
    · rw [if_neg h2]
      refine ⟨M, .inl .right, rfl, by omega, ?_⟩
      simp only
      cases hasSnd <;> simp at hlen ⊢ <;> omega

theorem list_split_at {α : Type} (l : List α) {i : Nat} (h : i < l.length) :
    ∃ a x b, l = a ++ x :: b ∧ a.length = i := by
  refine ⟨l.take i, l[i], l.drop (i + 1), ?_, by simp; omega⟩
  rw [List.getElem_cons_drop, List.take_append_drop]

@[simp] theorem leafOf_ptr (p : Nat) (es : List (Ent S)) : Node.ptr (leafOf p es) = p := rfl
@[simp] theorem leafOf_len (p : Nat) (es : List (Ent S)) : Node.len (leafOf p es) = es.length := by
  change (lf p (total es) (ks 0 es)).len = _
  simp
@[simp] theorem leafOf_size (p : Nat) (es : List (Ent S)) : Node.size (leafOf p es) = total es := rfl

/-- Adding a key at the end of a leaf. -/
theorem leafOf_push {E : Env Nat S} {p sz : Nat} {es : List (Ent S)} {e : Ent S}
    (hlen : es.length < 2 * E.M) (w : World) (hs : sz = total es + e.size) :
    ∃ w', leafPush E (leafOf p es) e.slice e.ref sz w = .ok (leafOf p (es ++ [e]), w') ∧
      w'.fst = w.fst := by
  obtain ⟨w', h, h'⟩ := lf_push (E := E) (p := p) (size := total es) (ks := ks 0 es) (by simpa using hlen)
    e.slice e.ref sz w
  exact ⟨w', h.trans (congrArg (fun x => Except.ok (x, w')) (lf_leafOf (by simp [hs])
    (by simp [ks_append]))), h'⟩

/-- Taking a leaf apart: the new node still has absolute positions. -/
theorem leafOf_split {p : Nat} {X Y : List (Ent S)} {k : Ent S} (w : World) :
    ∃ w', Node.split (leafOf p (X ++ k :: Y)) X.length w =
      .ok (lf p (total (X ++ k :: Y)) (ks 0 X), ⟨total X, k.slice, k.ref⟩,
        lf w.next (total (X ++ k :: Y)) (ks (total X + k.size) Y), w') ∧ w'.fst = w.fst := by
  have e : leafOf p (X ++ k :: Y) = lf p (total (X ++ k :: Y))
      (ks 0 X ++ ⟨total X, k.slice, k.ref⟩ :: ks (total X + k.size) Y) :=
    (lf_leafOf rfl (by simp [ks_append])).symm
  rw [e]
  exact lf_split (by simp) w

/-- The common beginning: split, report, shift the new node back to zero. -/
theorem leafSplit_start {MAX p : Nat} {E : Env Nat S} (hE : E.ix = natIdx MAX) {cb : Cb} {i : Nat}
    {X Y : List (Ent S)} {k : Ent S} {ov : Option Nat} {fst : Sized Nat S}
    {snd : Option (Sized Nat S)} (w : World) (hw : w.fst = none) {at_ : Side ⊕ Side}
    (hplan : splitPlan E.M (X ++ k :: Y).length i snd.isSome = .ok (X.length, at_))
    (hsmall : ¬ (E.M = 1 ∧ (X ++ k :: Y).length = 1)) (hb : total (X ++ k :: Y) ≤ MAX)
    {keySize : Nat} {ov' : Option Nat} (hmid : midResize (natIdx MAX) ov at_ i X.length (total X + k.size)
      (total X) = .ok (keySize, ov')) :
    ∃ q w2, leafSplit E cb (leafOf p (X ++ k :: Y)) i ov fst snd w =
      splitPlace E cb at_ (leafOf p X) ⟨total X, k.slice, k.ref⟩ keySize (leafOf q Y) (total X + k.size)
        (total (X ++ k :: Y)) i X.length ov' fst snd w2 := by
  obtain ⟨w1, hsp, hf1⟩ := leafOf_split (p := p) (X := X) (Y := Y) (k := k) w
  rw [hw] at hf1
  obtain ⟨w2, hem2, hf2⟩ := emit_move_fst (cb := cb) (a := p) (b := X.length + 1)
    (c := X.length + 1 + Y.length) (d := w.next) (e := 0) w1 hf1
  obtain ⟨w3, hem3, hf3⟩ := emit_remove_fst (cb := cb) (a := p) (b := X.length) w2 hf2
  refine ⟨w.next, w3, ?_⟩
  have hnp : ((lf w.next (total (X ++ k :: Y)) (ks (total X + k.size) Y)).tryKeyPos 0).getD
      (total (X ++ k :: Y)) = total X + k.size :=
    lf_nextPos (A := []) (by simp) (by simp; omega)
  have hshift : Node.shiftKeys (natIdx MAX) (lf w.next (total (X ++ k :: Y)) (ks (total X + k.size) Y))
      false 0 0 (total X + k.size) 0 = .ok (leafOf w.next Y) := by
    have := lf_shift (MAX := MAX) (p := w.next) (size := total (X ++ k :: Y)) (A := []) (i := 0)
      (X := total X + k.size) (X' := 0) (pos := 0) (old := total X + k.size) (new := 0) (es := Y)
      (incr := false) rfl (by simp; omega) (by omega) rfl (by simp at hb; omega)
      (by simp at hb ⊢; omega) (by simp) (by simp)
    simp only [List.nil_append] at this
    rw [this]
    exact congrArg Except.ok (lf_leafOf (by simp) rfl)
  have hlen : Node.len (leafOf p (X ++ k :: Y)) = (X ++ k :: Y).length := leafOf_len _ _
  unfold leafSplit
  rw [hlen, if_neg hsmall]
  simp only [hplan, R.bind_ok, hsp, lf_ptr, lf_len, ks_length, hem2, hem3, lf_size, hnp, hE, hmid,
    natIdx_zero, hshift]
  rfl

/-- Splitting a full leaf. -/
theorem leafSplit_spec {MAX p : Nat} {E : Env Nat S} (hE : E.ix = natIdx MAX) (hM : 1 ≤ E.M) {cb : Cb}
    {A A' B : List (Ent S)} {ov : Option Nat} {fst : Sized Nat S} {snd : Option (Sized Nat S)} (w : World)
    (hw : w.fst = none) (ho : OvRel ov A A')
    (hlen : A.length + B.length = 2 * E.M ∨ (snd.isSome = true ∧ A.length + B.length + 1 = 2 * E.M))
    (hb1 : total A + total B ≤ MAX) (hb2 : total A' + total (newEnts fst snd) + total B ≤ MAX)
    (hmono : total A ≤ total A' + total (newEnts fst snd)) :
    ∃ b w' X Y, leafSplit E cb (leafOf p (A ++ B)) A.length ov fst snd w = .ok (b, w') ∧
      Rep E.M E.M b.lhs X ∧ Rep E.M E.M b.rhs Y ∧ b.shift = none ∧ b.oldSize = total A + total B ∧
      X ++ ⟨b.keySize, b.key.slice, b.key.ref⟩ :: Y = A' ++ newEnts fst snd ++ B := by
  have hF : (newEnts fst snd).length = if snd.isSome then 2 else 1 := by
    cases snd <;> simp [newEnts]
  by_cases hsmall : E.M = 1 ∧ A.length + B.length = 1
  · obtain ⟨hM1, hl1⟩ := hsmall
    have hsn : snd.isSome = true := by
      rcases hlen with h | h
      · omega
      · exact h.1
    obtain ⟨sn, rfl⟩ := Option.isSome_iff_exists.mp hsn
    have hlen1 : Node.len (leafOf p (A ++ B)) = 1 := by rw [leafOf_len]; simpa using hl1
    unfold leafSplit
    rw [hlen1, if_pos ⟨hM1, rfl⟩]
    have hempty : ∀ q sz, ({ lf q sz ([] : List (Key Nat S)) with size := 0 } : Node Nat S (Tree Nat S 0))
        = leafOf q [] := fun q sz => rfl
    cases A with
    | nil =>
      obtain ⟨e, rfl⟩ : ∃ e, B = [e] := by
        match B, hl1 with
        | [e], _ => exact ⟨e, rfl⟩
      obtain ⟨rfl, rfl⟩ : ov = none ∧ A' = [] := by
        cases ov with
        | none => exact ⟨rfl, ho⟩
        | some s => obtain ⟨q, e', h, _⟩ := ho; simp at h
      obtain ⟨w1, hsp, hf1⟩ := leafOf_split (p := p) (X := []) (Y := []) (k := e) w
      simp only [List.nil_append, total_cons, total_nil, ks_nil, List.length_nil, Nat.add_zero] at hsp
      obtain ⟨w2, hp1, hf2⟩ := leafOf_push (E := E) (p := p) (es := []) (e := newEnt fst)
        (sz := fst.size) (by simp; omega) w1 (by simp [newEnt])
      obtain ⟨w3, hp2, hf3⟩ := leafOf_push (E := E) (p := w.next) (es := []) (e := e)
        (sz := e.size) (by simp; omega) w2 (by simp)
      obtain ⟨w4, hem, _⟩ := emit_move_fst (cb := cb) (a := p) (b := 0) (c := 1) (d := w.next) (e := 0) w3
        (by rw [hf3, hf2, hf1, hw])
      obtain ⟨w5, hem2⟩ := emit_ins (cb := cb) (a := p) (b := 0) w4
      refine ⟨Bubble.mk (leafOf p [newEnt fst]) ⟨0, sn.slice, none⟩ sn.size (leafOf w.next [e]) e.size none
        (some .left) true, w5, [newEnt fst], [e], ?_, Rep.leafOf (by simp [hM1]) (by simp; omega),
        Rep.leafOf (by simp [hM1]) (by simp; omega), rfl, by simp, by simp [newEnts, newEnt]⟩
      simp only [leafSplitSmall, hM1, hlen1, List.nil_append, List.length_nil] at hlen1 ⊢
      rw [hsp]
      simp only [hE, natIdx_zero, hempty, R.bind_ok, Option.isSome_none, Bool.false_and, Bool.not_false,
        weakAssert_true, beq_self_eq_true, Nat.zero_le, decide_true, leafOf_size, total_cons, total_nil,
        Nat.add_zero, Option.getD_none, if_true]
      simp only [newEnt, List.nil_append] at hp1 hp2
      rw [hp1]
      simp only [R.bind_ok]
      rw [hp2]
      simp only [R.bind_ok, leafOf_ptr, hem, hem2]
      rfl
    | cons e A1 =>
      obtain ⟨rfl, rfl⟩ : A1 = [] ∧ B = [] := by
        simp only [List.length_cons] at hl1
        exact ⟨List.length_eq_zero_iff.mp (by omega), List.length_eq_zero_iff.mp (by omega)⟩
      obtain ⟨sz, hsz, rfl⟩ : ∃ sz, ov.getD e.size = sz ∧ A' = [{ e with size := sz }] := by
        cases ov with
        | none => exact ⟨e.size, rfl, ho⟩
        | some s =>
          obtain ⟨q, e', h, h2⟩ := ho
          rcases q with _ | ⟨x, q⟩
          · simp at h; subst h; exact ⟨s, rfl, h2⟩
          · simp at h
      obtain ⟨w1, hsp, hf1⟩ := leafOf_split (p := p) (X := []) (Y := []) (k := e) w
      simp only [List.nil_append, total_cons, total_nil, ks_nil, List.length_nil, Nat.add_zero] at hsp
      obtain ⟨w2, hp1, hf2⟩ := leafOf_push (E := E) (p := p) (es := []) (e := { e with size := sz })
        (sz := sz) (by simp; omega) w1 (by simp)
      obtain ⟨w3, hp2, hf3⟩ := leafOf_push (E := E) (p := w.next) (es := []) (e := newEnt sn)
        (sz := sn.size) (by simp; omega) w2 (by simp [newEnt])
      refine ⟨Bubble.mk (leafOf p [{ e with size := sz }]) ⟨0, fst.slice, none⟩ fst.size
        (leafOf w.next [newEnt sn]) e.size none
        none false, w3, [{ e with size := sz }], [newEnt sn], ?_, Rep.leafOf (by simp [hM1]) (by simp; omega),
        Rep.leafOf (by simp [hM1]) (by simp; omega), rfl, by simp, by simp [newEnts, newEnt]⟩
      simp only [leafSplitSmall, hM1, List.append_nil, List.length_cons, List.length_nil] at hlen1 ⊢
      rw [hlen1, hsp]
      simp only [hE, natIdx_zero, hempty, R.bind_ok, Bool.and_false, Bool.not_false,
        weakAssert_true, beq_self_eq_true, decide_true, leafOf_size, total_cons, total_nil,
        Nat.add_zero, hsz, Nat.zero_add, Nat.le_refl, Nat.one_ne_zero, if_false,
        show ((1 : Nat) == 0) = false from rfl]
      simp only [newEnt, List.nil_append] at hp1 hp2
      rw [hp1]
      simp only [R.bind_ok]
      rw [hp2]
      rfl
  · obtain ⟨mid, at_, hplan, hml, hspec⟩ := splitPlan_spec (M := E.M) (len := A.length + B.length)
      (idx := A.length) (hasSnd := snd.isSome) hM (by omega) hlen hsmall
    cases at_ with
    | inl side =>
      cases side with
      | left =>
        simp only at hspec
        obtain ⟨B0, k, Y, rfl, hB0⟩ := list_split_at B (i := mid - A.length) (by omega)
        have hX : (A ++ B0).length = mid := by simp; omega
        simp only [total_append, total_cons, List.length_append, List.length_cons] at *
        have s1 : total A + total B0 ≤ total A + total B0 + k.size := by omega
        obtain ⟨q, w2, hst⟩ := leafSplit_start (p := p) (E := E) (cb := cb) (i := A.length) (X := A ++ B0)
          (k := k) (Y := Y) (ov := ov) (fst := fst) (snd := snd) (at_ := .inl .left) (keySize := k.size)
          (ov' := ov) hE w hw (by simpa [hX, Nat.add_assoc] using hplan)
          (by simpa [Nat.add_assoc] using hsmall) (by simp; omega)
          (by
            cases ov <;> simp [midResize, subL_ok s1])
        obtain ⟨w3, hih⟩ := leafInsertHalf_spec (p := p) (E := E) (cb := cb) (A := A) (A' := A') (B := B0)
          (ov := ov) (fst := fst) (snd := snd) hE w2 ho (by rw [hF]; omega) (by omega) (by omega) hmono
        refine ⟨Bubble.mk (leafOf p (A' ++ newEnts fst snd ++ B0))
          ⟨total (A ++ B0), k.slice, k.ref⟩ k.size (leafOf q Y) (total (A ++ B0 ++ k :: Y)) none
          (some .left) true, w3, A' ++ newEnts fst snd ++ B0, Y, ?_, ?_, ?_, rfl, ?_, ?_⟩
        · rw [← List.append_assoc, hst]
          simp only [splitPlace, hih, R.bind_ok]
          rfl
        · refine Rep.leafOf ?_ ?_ <;> simp [hF, ho.length] <;> omega
        · refine Rep.leafOf ?_ ?_ <;> omega
        · simp [Nat.add_assoc]
        · simp
      | right =>
        simp only at hspec
        obtain ⟨X, k, A0, rfl, hX⟩ := list_split_at A (i := mid) (by omega)
        simp only [total_append, total_cons, List.length_append, List.length_cons] at *
        obtain ⟨keySize, ov', A0', hmid, rfl, ho', hmono'⟩ : ∃ keySize ov' A0',
            midResize (natIdx MAX) ov (.inl .right) (X.length + (A0.length + 1)) X.length
              (total X + k.size) (total X) = .ok (keySize, ov') ∧
            A' = X ++ { k with size := keySize } :: A0' ∧ OvRel ov' A0 A0' ∧
            total A0 ≤ total A0' + total (newEnts fst snd) := by
          have s1 : total X ≤ total X + k.size := by omega
          have s2 : total X + k.size - total X = k.size := by omega
          cases ov with
          | none =>
            refine ⟨k.size, none, A0, ?_, ho, rfl, by omega⟩
            simp only [midResize, subL_ok s1, s2, R.bind_ok, R.pure_eq]
          | some s =>
            obtain ⟨q, e, hq, hA'⟩ := ho
            rcases List.eq_nil_or_concat A0 with rfl | ⟨q0, e0, rfl⟩
            · obtain ⟨rfl, h2⟩ := List.append_inj' hq rfl
              simp only [List.cons.injEq, and_true] at h2
              subst h2
              refine ⟨s, none, [], ?_, hA', rfl, by simp⟩
              simp [midResize]
            · rw [List.concat_eq_append, show X ++ k :: (q0 ++ [e0]) = (X ++ k :: q0) ++ [e0] by simp] at hq
              obtain ⟨rfl, h2⟩ := List.append_inj' hq rfl
              simp only [List.cons.injEq, and_true] at h2
              subst h2
              refine ⟨k.size, some s, q0 ++ [{ e0 with size := s }], ?_, by simp [hA'],
                ⟨q0, e0, by simp, rfl⟩, ?_⟩
              · simp [midResize, subL_ok s1]
              · subst hA'
                simp only [List.concat_eq_append, total_append, total_cons] at hmono ⊢
                omega
        obtain ⟨q, w2, hst⟩ := leafSplit_start (p := p) (E := E) (cb := cb)
          (i := X.length + (A0.length + 1)) (X := X)
          (k := k) (Y := A0 ++ B) (ov := ov) (fst := fst) (snd := snd) (at_ := .inl .right)
          (keySize := keySize) (ov' := ov') hE w hw
          (by subst hX; simpa [Nat.add_assoc, Nat.add_comm, Nat.add_left_comm] using hplan)
          (by simpa [Nat.add_assoc, Nat.add_comm, Nat.add_left_comm] using hsmall) (by simp; omega) hmid
        simp only [total_append, total_cons] at hb2 hb1
        obtain ⟨w3, hih⟩ := leafInsertHalf_spec (p := q) (E := E) (cb := cb) (A := A0) (A' := A0') (B := B)
          (ov := ov') (fst := fst) (snd := snd) hE w2 ho' (by rw [hF]; omega) (by omega) (by omega) hmono'
        have hus : usub (X.length + (A0.length + 1)) (X.length + 1) = .ok A0.length := by
          rw [usub_ok (by omega)]; congr 1; omega
        refine ⟨Bubble.mk (leafOf p X)
          ⟨total X, k.slice, k.ref⟩ keySize (leafOf q (A0' ++ newEnts fst snd ++ B))
          (total (X ++ k :: (A0 ++ B))) none
          (some .right) true, w3, X, A0' ++ newEnts fst snd ++ B, ?_, ?_, ?_, rfl, ?_, ?_⟩
        · rw [show X ++ k :: A0 ++ B = X ++ k :: (A0 ++ B) by simp, hst]
          simp only [splitPlace, hus, hih, R.bind_ok]
          rfl
        · refine Rep.leafOf ?_ ?_ <;> omega
        · have := ho'.length
          refine Rep.leafOf ?_ ?_ <;> simp [hF, this] <;> omega
        · simp; omega
        · simp
    | inr side =>
      have hA : A.length = mid + 1 := by cases side <;> exact hspec.1
      obtain ⟨X, k, rfl⟩ : ∃ X k, A = X ++ [k] := by
        rcases List.eq_nil_or_concat A with rfl | ⟨X, k, rfl⟩
        · simp at hA
        · exact ⟨X, k, by simp⟩
      simp only [total_append, total_cons, total_nil, List.length_append, List.length_cons,
        List.length_nil] at *
      have hX : X.length = mid := by omega
      obtain ⟨keySize, hmid, rfl⟩ : ∃ keySize,
          midResize (natIdx MAX) ov (.inr side) (X.length + 1) X.length
            (total X + k.size) (total X) = .ok (keySize, none) ∧
          A' = X ++ [{ k with size := keySize }] := by
        have s1 : total X ≤ total X + k.size := by omega
        have s2 : total X + k.size - total X = k.size := by omega
        cases ov with
        | none =>
          refine ⟨k.size, ?_, ho⟩
          simp only [midResize, subL_ok s1, s2, R.bind_ok, R.pure_eq]
        | some s =>
          obtain ⟨q, e, hq, hA'⟩ := ho
          obtain ⟨rfl, h2⟩ := List.append_inj' hq rfl
          simp only [List.cons.injEq, and_true] at h2
          subst h2
          exact ⟨s, by simp [midResize], hA'⟩
      obtain ⟨q, w2, hst⟩ := leafSplit_start (p := p) (E := E) (cb := cb) (i := X.length + 1) (X := X)
        (k := k) (Y := B) (ov := ov) (fst := fst) (snd := snd) (at_ := .inr side)
        (keySize := keySize) (ov' := none) hE w hw
        (by subst hX; simpa [Nat.add_assoc, Nat.add_comm, Nat.add_left_comm] using hplan)
        (by simpa [Nat.add_assoc, Nat.add_comm, Nat.add_left_comm] using hsmall) (by simp; omega) hmid
      simp only [total_append, total_cons, total_nil] at hb2 hb1
      have hXB : X ++ [k] ++ B = X ++ k :: B := by simp
      cases side with
      | left =>
        simp only at hspec
        cases snd with
        | none => simp at hspec
        | some sn =>
          simp only [newEnts, newEnt, Option.map_some, Option.toList_some, total_cons, total_nil] at *
          have a1 : total X + keySize ≤ MAX := by omega
          have a2 : total X + keySize + fst.size ≤ MAX := by omega
          obtain ⟨w3, hp1, _⟩ := leafOf_push (E := E) (p := p) (es := X) (e := { k with size := keySize })
            (sz := total X + keySize) (by omega) w2 rfl
          obtain ⟨w4, hp2, _⟩ := leafOf_push (E := E) (p := p) (es := X ++ [{ k with size := keySize }])
            (e := ⟨fst.size, fst.slice, none⟩)
            (sz := total X + keySize + fst.size) (by simp; omega) w3 (by simp)
          have hh1 : Node.handle (leafOf p (X ++ [{ k with size := keySize }] ++
              [⟨fst.size, fst.slice, none⟩])) X.length = .ok ⟨total X, k.slice, k.ref⟩ := by
            have : leafOf p (X ++ [{ k with size := keySize }] ++ [⟨fst.size, fst.slice, none⟩]) =
              lf p (total X + keySize + fst.size) (ks 0 X ++ ⟨total X, k.slice, k.ref⟩ ::
                [⟨total X + keySize, fst.slice, none⟩]) :=
              (lf_leafOf (by simp; omega) (by simp [ks_append])).symm
            rw [this]; exact lf_handle (by simp)
          have hh2 : Node.handle (leafOf p (X ++ [{ k with size := keySize }] ++
              [⟨fst.size, fst.slice, none⟩])) (X.length + 1) =
              .ok ⟨total X + keySize, fst.slice, none⟩ := by
            have : leafOf p (X ++ [{ k with size := keySize }] ++ [⟨fst.size, fst.slice, none⟩]) =
              lf p (total X + keySize + fst.size) ((ks 0 X ++ [⟨total X, k.slice, k.ref⟩]) ++
                ⟨total X + keySize, fst.slice, none⟩ :: []) :=
              (lf_leafOf (by simp; omega) (by simp [ks_append])).symm
            rw [this]; exact lf_handle (by simp)
          obtain ⟨w5, he1⟩ := emit_put (cb := cb) (a := p) (b := X.length) w4
          obtain ⟨w6, he2⟩ := emit_ins (cb := cb) (a := p) (b := X.length + 1) w5
          refine ⟨Bubble.mk (leafOf p (X ++ [{ k with size := keySize }] ++
              [⟨fst.size, fst.slice, none⟩]))
            ⟨total X + keySize + fst.size, sn.slice, none⟩ sn.size (leafOf q B)
            (total (X ++ k :: B)) none (some .left) true, w6,
            X ++ [{ k with size := keySize }] ++ [⟨fst.size, fst.slice, none⟩], B, ?_, ?_, ?_, rfl, ?_, ?_⟩
          · rw [hXB, show X.length + (0 + 1) = X.length + 1 from rfl, hst]
            simp only [splitPlace, leafOf_size, leafOf_len, hE, addR_ok a1, addR_ok a2, R.bind_ok]
            simp only at hp1 hp2
            rw [hp1]
            simp only [R.bind_ok]
            rw [hp2]
            simp only [R.bind_ok]
            rw [hh1, hh2]
            simp only [R.bind_ok, leafOf_ptr, he1, he2]
            rfl
          · refine Rep.leafOf ?_ ?_ <;> simp <;> omega
          · refine Rep.leafOf ?_ ?_ <;> omega
          · simp; omega
          · simp
      | right =>
        simp only at hspec
        have a1 : total X + keySize ≤ MAX := by omega
        obtain ⟨w3, hp1, _⟩ := leafOf_push (E := E) (p := p) (es := X) (e := { k with size := keySize })
          (sz := total X + keySize) (by omega) w2 rfl
        have hus : usub (X ++ [{ k with size := keySize }]).length 1 = .ok X.length := by
          rw [usub_ok (by simp)]; simp
        obtain ⟨w4, he1⟩ := emit_put (cb := cb) (a := p) (b := X.length) w3
        obtain ⟨w5, hps⟩ : ∃ w5, prependSnd E (leafOf q B) snd w4 =
            .ok (leafOf q ((snd.map newEnt).toList ++ B), w5) := by
          cases snd with
          | none => exact ⟨w4, rfl⟩
          | some sn =>
            simp only [newEnts, newEnt, Option.map_some, Option.toList_some, total_cons, total_nil,
              Option.isSome_some, if_true] at *
            obtain ⟨w5, hins, _⟩ := lf_insert (E := E) (p := q) (size := 0 + total B) (A := [])
              (B := ks 0 B) (i := 0) rfl (by simp; omega) sn.slice w4
            rw [lf_nextPos (A := []) (i := 0) (X := 0) (es := B) rfl rfl] at hins
            simp only [List.nil_append] at hins
            refine ⟨w5, ?_⟩
            have e : leafOf q B = lf q (0 + total B) (ks 0 B) := (lf_leafOf (by simp) rfl).symm
            simp only [prependSnd, e, hins, R.bind_ok, hE, natIdx_zero]
            have := lf_shift (MAX := MAX) (p := q) (size := 0 + total B) (A := [⟨0, sn.slice, none⟩])
              (i := 1) (X := 0) (X' := sn.size) (pos := 0) (old := 0) (new := sn.size) (es := B)
              (incr := true) rfl rfl rfl (by omega) (by omega) (by omega) (by simp) (by simp)
            simp only [List.singleton_append] at this
            rw [this]
            exact congrArg (fun x => Except.ok (x, w5)) (lf_leafOf (by simp) (by simp))
        refine ⟨Bubble.mk (leafOf p (X ++ [{ k with size := keySize }]))
          ⟨total X + k.size, fst.slice, none⟩ fst.size (leafOf q ((snd.map newEnt).toList ++ B))
          (total (X ++ k :: B)) none none false, w5,
          X ++ [{ k with size := keySize }], (snd.map newEnt).toList ++ B, ?_, ?_, ?_, rfl, ?_, ?_⟩
        · rw [hXB, show X.length + (0 + 1) = X.length + 1 from rfl, hst]
          simp only [splitPlace, leafOf_size, hE, addR_ok a1, R.bind_ok]
          simp only at hp1
          rw [hp1]
          simp only [R.bind_ok, leafOf_len, hus, leafOf_ptr, he1, hps]
          rfl
        · refine Rep.leafOf ?_ ?_ <;> simp <;> omega
        · refine Rep.leafOf ?_ ?_ <;> cases snd <;> simp at hspec ⊢ <;> omega
        · simp; omega
        · simp [newEnts, newEnt]

end Sherman
