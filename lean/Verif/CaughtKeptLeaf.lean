import Verif.CaughtKeptRun
/-!
# What is stored after an insertion that panics: leaves
-/
namespace Sherman
variable {I S : Type}

/-- A leaf with these slices. -/
def Flat (n : Tree I S 1) (l : List S) : Prop := (Node.kids n).length = (Node.keys n).length + 1 ∧ (Node.keys n).map Key.slice = l

theorem flat_fits {n : Tree I S 1} {l : List S} : Flat n l ↔ Fits n l := by
  have key : (Node.kids n).length = (Node.keys n).length + 1 → slicesT n = (Node.keys n).map Key.slice := by
    intro h
    exact mix_nils (Node.kids n) ((Node.keys n).map Key.slice) (by simpa using h)
  constructor
  · rintro ⟨h1, h2⟩
    exact ⟨⟨h1, fun _ _ => trivial⟩, (key h1).trans h2⟩
  · rintro ⟨⟨h1, -⟩, h2⟩
    exact ⟨h1, (key h1).symm.trans h2⟩

theorem Flat.len {n : Tree I S 1} {l : List S} (h : Flat n l) : (Node.keys n).length = l.length := by rw [← h.2]; simp

theorem Flat.eqv {n n' : Tree I S 1} {l : List S} (h : Flat n l) (e : Eqv (C := Tree I S 0) n n') : Flat n' l :=
  flat_fits.2 (fits_succ.2 ((fits_succ.1 (flat_fits.1 h)).eqv e))

theorem Flat.part {n : Tree I S 1} {l T : List S} (h : Flat n l) (hs : l.Sublist T) : PartT n T := (flat_fits.1 h).part hs

theorem len_ins {α : Type} {a b : List α} {i : Nat} {c : α} (h : a = b.take i ++ c :: b.drop i) : a.length = b.length + 1 := by
  rw [h]; simp; omega

theorem len_push {α : Type} {a b : List α} {c : α} (h : a = b ++ [c]) : a.length = b.length + 1 := by rw [h]; simp

theorem leafInsert_ret {E : Env I S} {n : Tree I S 1} {idx : Nat} {s : S} {w : World} {l : List S} (hn : Flat n l) :
    Ret (leafInsert E n idx s w) fun r => idx ≤ l.length ∧ Flat r.1 (l.take idx ++ s :: l.drop idx) := by
  refine Ret.mono (insertKeyAndChild_ret (C := Tree I S 0)) fun r hr => ?_
  obtain ⟨h1, h2, h3⟩ := hr
  rw [hn.2] at h2
  have hl := hn.len
  refine ⟨hl ▸ h1, ?_, h2⟩
  have := congrArg List.length h2
  simp only [List.length_map, List.length_append, List.length_take, List.length_cons, List.length_drop] at this
  have ha := hn.1
  have h4 := len_ins h3
  omega

theorem leafPush_ret {E : Env I S} {n : Tree I S 1} {s : S} {ref : Option Nat} {z : I} {w : World} {l : List S} (hn : Flat n l) :
    Ret (leafPush E n s ref z w) fun r => Flat r.1 (l ++ [s]) := by
  refine Ret.mono (pushKeyAndChild_ret (C := Tree I S 0)) fun r hr => ?_
  obtain ⟨h2, h3⟩ := hr
  rw [hn.2] at h2
  refine ⟨?_, h2⟩
  have := congrArg List.length h2
  have hl := hn.len
  have ha := hn.1
  simp only [List.length_map, List.length_append, List.length_cons, List.length_nil] at this
  have h4 := len_push h3
  omega

/-- The slices `fst` and, if there is one, `snd`, put at `idx`. -/
def insL (l : List S) (idx : Nat) (fst : Sized I S) (snd : Option (Sized I S)) : List S :=
  l.take idx ++ fst.slice :: ((snd.map Sized.slice).toList ++ l.drop idx)

theorem sub_insL (l : List S) (idx : Nat) (fst : Sized I S) (snd : Option (Sized I S)) : l.Sublist (insL l idx fst snd) := by
  conv => lhs; rw [← List.take_append_drop idx l]
  exact (List.Sublist.refl _).append ((List.sublist_append_right _ _).cons _)

theorem ins_sub_insL (l : List S) (idx : Nat) (fst : Sized I S) (snd : Option (Sized I S)) :
    (l.take idx ++ fst.slice :: l.drop idx).Sublist (insL l idx fst snd) :=
  (List.Sublist.refl _).append ((List.sublist_append_right _ _).cons_cons _)

theorem ins_ins {l : List S} {idx : Nat} (h : idx ≤ l.length) (fst s : Sized I S) :
    (l.take idx ++ fst.slice :: l.drop idx).take (idx + 1) ++ s.slice :: (l.take idx ++ fst.slice :: l.drop idx).drop (idx + 1) = insL l idx fst (some s) := by
  have e : (l.take idx).length = idx := by simp; omega
  have h1 : (l.take idx ++ fst.slice :: l.drop idx).take (idx + 1) = l.take idx ++ [fst.slice] := by
    rw [List.take_append, List.take_of_length_le (by omega), e]; simp
  have h2 : (l.take idx ++ fst.slice :: l.drop idx).drop (idx + 1) = l.drop idx := by
    rw [List.drop_append, List.drop_of_length_le (by omega), e]; simp
  rw [h1, h2]
  simp [insL]

theorem leafInsertHalfC_leaves {E : Env I S} {cb : Cb} {n : Tree I S 1} {idx : Nat} {ov : Option I} {fst : Sized I S} {snd : Option (Sized I S)} {w : World}
    {l : List S} (hn : Flat n l) :
    Leaves (leafInsertHalfC E cb n idx ov fst snd w) (fun r => Flat r.1 (insL l idx fst snd)) fun t => PartT t (insL l idx fst snd) := by
  have hp := hn.part (sub_insL l idx fst snd)
  unfold leafInsertHalfC
  refine Leaves.skip hp fun r => ?_
  obtain ⟨p, o, nw⟩ := r
  refine Leaves.step (leafInsert_ret hn) hp fun r hr => ?_
  obtain ⟨n1, q, w1⟩ := r
  obtain ⟨hi, h1⟩ := hr
  have hp1 := h1.part (ins_sub_insL l idx fst snd)
  refine Leaves.skip hp1 fun fp => ?_
  refine Leaves.step setKeyPos_ret hp1 fun n2 e2 => ?_
  have h2 := h1.eqv e2
  have hp2 := h2.part (ins_sub_insL l idx fst snd)
  refine Leaves.skip hp2 fun nw1 => ?_
  have fin : ∀ (n3 : Tree I S 1) (nw : I) (st : Nat) (w : World), Flat n3 (insL l idx fst snd) →
      Leaves (do
        let n ← shiftKeysC E.ix n3 true st p o nw
        let _ ← leave n (Node.handle n idx)
        let w ← leave n (emit cb (.insertion n.ptr idx) w)
        pure (n, w)) (fun r => Flat r.1 (insL l idx fst snd)) fun t => PartT (h := 1) t (insL l idx fst snd) := by
    intro n3 nw st w h3
    refine (shiftKeysC_leaves.mono (fun n e => h3.eqv e) (fun n e => (h3.eqv e).part (List.Sublist.refl _))).bind fun n4 h4 => ?_
    exact Leaves.skip (h4.part (List.Sublist.refl _)) fun _ => Leaves.skip (h4.part (List.Sublist.refl _)) fun _ => Leaves.pure h4
  cases snd with
  | none => exact fin _ _ _ _ (by simpa [insL] using h2)
  | some s =>
    refine Leaves.step (leafInsert_ret h2) hp2 fun r hr => ?_
    obtain ⟨n3, q, w2⟩ := r
    obtain ⟨-, h3⟩ := hr
    rw [ins_ins hi] at h3
    have hp3 := h3.part (List.Sublist.refl _)
    refine Leaves.skip hp3 fun _ => Leaves.skip hp3 fun _ => ?_
    refine Leaves.step setKeyPos_ret hp3 fun n4 e4 => ?_
    exact fin _ _ _ _ (h3.eqv e4)

theorem leafRoomC_leaves {E : Env I S} {cb : Cb} {n : Tree I S 1} {idx : Nat} {ov : Option I} {fst : Sized I S} {snd : Option (Sized I S)} {added : I} {w : World}
    {l : List S} (hn : Flat n l) :
    Leaves (leafRoomC E cb n idx ov fst snd added w) (fun r => Flat r.1 (insL l idx fst snd)) fun t => PartT t (insL l idx fst snd) := by
  have hp := hn.part (sub_insL l idx fst snd)
  have fin : ∀ (n : Tree I S 1) (a : Option I) (b c : I) (w : World), Flat n (insL l idx fst snd) →
      Leaves (do
        let _ ← leave n (Node.handle n idx)
        let w ← leave n (emit cb (.insertion n.ptr idx) w)
        pure (n, a, b, c, w)) (fun r => Flat r.1 (insL l idx fst snd)) fun t => PartT t (insL l idx fst snd) := by
    intro n a b c w h
    exact Leaves.skip (h.part (List.Sublist.refl _)) fun _ => Leaves.skip (h.part (List.Sublist.refl _)) fun _ => Leaves.pure h
  unfold leafRoomC
  cases ov with
  | some nl =>
    refine Leaves.skip hp fun _ => Leaves.skip hp fun _ => Leaves.skip hp fun _ => Leaves.skip hp fun _ => ?_
    refine Leaves.step (leafInsert_ret hn) hp fun r hr => ?_
    obtain ⟨n1, q, w1⟩ := r
    obtain ⟨hi, h1⟩ := hr
    have hp1 := h1.part (ins_sub_insL l idx fst snd)
    refine Leaves.step setKeyPos_ret hp1 fun n2 e2 => ?_
    have h2 := h1.eqv e2
    have hp2 := h2.part (ins_sub_insL l idx fst snd)
    cases snd with
    | none =>
      have h2' : Flat n2 (insL l idx fst none) := by simpa [insL] using h2
      exact Leaves.skip hp2 fun _ => fin _ _ _ _ _ h2'
    | some s =>
      refine Leaves.step (leafInsert_ret h2) hp2 fun r hr => ?_
      obtain ⟨n3, q, w2⟩ := r
      obtain ⟨-, h3⟩ := hr
      rw [ins_ins hi] at h3
      have hp3 := h3.part (List.Sublist.refl _)
      refine Leaves.skip hp3 fun _ => ?_
      refine Leaves.step setKeyPos_ret hp3 fun n4 e4 => ?_
      have h4 := h3.eqv e4
      exact Leaves.skip (h4.part (List.Sublist.refl _)) fun _ => fin _ _ _ _ _ h4
  | none =>
    refine Leaves.step (leafInsert_ret hn) hp fun r hr => ?_
    obtain ⟨n1, q, w1⟩ := r
    obtain ⟨hi, h1⟩ := hr
    have hp1 := h1.part (ins_sub_insL l idx fst snd)
    cases snd with
    | none =>
      have h2' : Flat n1 (insL l idx fst none) := by simpa [insL] using h1
      exact fin _ _ _ _ _ h2'
    | some s =>
      refine Leaves.step (leafInsert_ret h1) hp1 fun r hr => ?_
      obtain ⟨n3, q, w2⟩ := r
      obtain ⟨-, h3⟩ := hr
      rw [ins_ins hi] at h3
      have hp3 := h3.part (List.Sublist.refl _)
      refine Leaves.skip hp3 fun _ => ?_
      refine Leaves.step setKeyPos_ret hp3 fun n4 e4 => ?_
      exact fin _ _ _ _ _ (h3.eqv e4)

theorem splitPlan_ret {M len idx : Nat} {b : Bool} : Ret (splitPlan M len idx b) fun r =>
    (r.2 = .inl .left → idx ≤ r.1) ∧ (r.2 = .inl .right → r.1 < idx) ∧ (∀ s, r.2 = .inr s → idx = r.1 + 1) := by
  unfold splitPlan
  split
  · split
    · refine Ret.usub.bind fun m1 h1 => Ret.usub.bind fun m2 h2 => ?_
      split
      · exact Ret.pure ⟨fun _ => by dsimp only; omega, fun h => (by cases h), fun s h => by cases h⟩
      · exact Ret.pure ⟨fun h => (by cases h), fun h => (by cases h), fun s h => by dsimp only; omega⟩
    · refine Ret.usub.bind fun m1 h1 => Ret.pure ⟨fun _ => by dsimp only; omega, fun h => (by cases h), fun s h => by cases h⟩
  · split
    · refine Ret.usub.bind fun m1 h1 => ?_
      split
      · exact Ret.pure ⟨fun h => (by cases h), fun h => (by cases h), fun s h => by dsimp only; omega⟩
      · exact Ret.pure ⟨fun h => (by cases h), fun h => (by cases h), fun s h => by dsimp only; omega⟩
    · exact Ret.pure ⟨fun h => (by cases h), fun _ => by dsimp only; omega, fun s h => by cases h⟩

theorem prependSnd_ret {E : Env I S} {n : Tree I S 1} {snd : Option (Sized I S)} {w : World} {l : List S} (hn : Flat n l) :
    Ret (prependSnd E n snd w) fun r => Flat r.1 ((snd.map Sized.slice).toList ++ l) := by
  cases snd with
  | none => exact Ret.pure (by simpa using hn)
  | some s =>
    refine (leafInsert_ret hn).bind fun r hr => ?_
    obtain ⟨n1, p, w1⟩ := r
    refine shiftKeys_ret.bind fun n2 e => Ret.pure ?_
    simpa using hr.2.eqv e

theorem splitPlaceC_leaves {E : Env I S} {cb : Cb} {at_ : Side ⊕ Side} {n : Tree I S 1} {key : Key I S} {ks : I} {rhs : Tree I S 1} {rs oz : I} {idx mid : Nat}
    {ov : Option I} {fst : Sized I S} {snd : Option (Sized I S)} {w : World} {a d : List S} (hn : Flat n a) (hr : Flat rhs d) (ha : a.length = mid)
    (h1 : at_ = .inl .left → idx ≤ mid) (h2 : at_ = .inl .right → mid < idx) (h3 : ∀ s, at_ = .inr s → idx = mid + 1) :
    Leaves (splitPlaceC E cb at_ n key ks rhs rs oz idx mid ov fst snd w)
      (fun r => ∃ x y, Flat r.1.lhs x ∧ Flat r.1.rhs y ∧ x ++ r.1.key.slice :: y = insL (a ++ key.slice :: d) idx fst snd)
      fun t => PartT t (insL (a ++ key.slice :: d) idx fst snd) := by
  have hp : PartT n (insL (a ++ key.slice :: d) idx fst snd) := hn.part ((List.sublist_append_left _ _).trans (sub_insL _ _ _ _))
  have hI : ∀ s, at_ = .inr s → insL (a ++ key.slice :: d) idx fst snd = a ++ key.slice :: fst.slice :: ((snd.map Sized.slice).toList ++ d) := by
    intro s hs
    have := h3 s hs
    have e : idx = a.length + 1 := by omega
    subst e
    unfold insL
    rw [List.take_append, List.drop_append, List.take_of_length_le (by omega), List.drop_of_length_le (by omega)]
    simp [show a.length + 1 - a.length = 1 by omega]
  unfold splitPlaceC
  cases at_ with
  | inr s =>
    have hI := hI s rfl
    rw [hI] at hp ⊢
    have sub1 : (a ++ [key.slice]).Sublist (a ++ key.slice :: fst.slice :: ((snd.map Sized.slice).toList ++ d)) := by
      refine (List.Sublist.refl _).append ?_
      exact (List.nil_sublist _).cons_cons _
    cases s with
    | right =>
      refine Leaves.skip hp fun _ => ?_
      refine Leaves.step (leafPush_ret hn) hp fun r hr1 => ?_
      obtain ⟨n1, w1⟩ := r
      have hp1 := hr1.part sub1
      refine Leaves.skip hp1 fun _ => Leaves.skip hp1 fun _ => ?_
      refine Leaves.step (prependSnd_ret hr) hp1 fun r hr2 => ?_
      obtain ⟨d1, w2⟩ := r
      exact Leaves.pure ⟨_, _, hr1, hr2, by simp⟩
    | left =>
      cases snd with
      | none => exact ⟨fun a h => (by cases h), fun f t h => by cases h; exact hp⟩
      | some s =>
        refine Leaves.skip hp fun _ => Leaves.skip hp fun _ => ?_
        refine Leaves.step (leafPush_ret hn) hp fun r hr1 => ?_
        obtain ⟨n1, w1⟩ := r
        refine Leaves.step (leafPush_ret hr1) (hr1.part sub1) fun r hr2 => ?_
        obtain ⟨n2, w2⟩ := r
        have hp2 : PartT n2 (a ++ key.slice :: fst.slice :: (((some s).map Sized.slice).toList ++ d)) := by
          refine hr2.part ?_
          rw [List.append_assoc]
          exact (List.Sublist.refl _).append (((List.nil_sublist _).cons_cons _).cons_cons _)
        refine Leaves.skip hp2 fun _ => Leaves.skip hp2 fun _ => Leaves.skip hp2 fun _ => Leaves.skip hp2 fun _ => ?_
        exact Leaves.pure ⟨_, _, hr2, hr, by simp⟩
  | inl s =>
    cases s with
    | left =>
      have hle := h1 rfl
      have hI : insL (a ++ key.slice :: d) idx fst snd = insL a idx fst snd ++ key.slice :: d := by
        unfold insL
        rw [List.take_append_of_le_length (by omega), List.drop_append_of_le_length (by omega)]
        simp
      rw [hI]
      refine ((leafInsertHalfC_leaves hn).mono (fun _ h => h) fun t ht => ?_).bind fun r hr1 => ?_
      · obtain ⟨l', q1, q2⟩ := ht
        exact q1.part (q2.trans (List.sublist_append_left _ _))
      · obtain ⟨n1, w1⟩ := r
        exact Leaves.pure ⟨_, _, hr1, hr, rfl⟩
    | right =>
      have hgt := h2 rfl
      refine Leaves.step Ret.usub hp fun i' hi => ?_
      have hI : insL (a ++ key.slice :: d) idx fst snd = a ++ key.slice :: insL d i' fst snd := by
        have e : idx = a.length + (i' + 1) := by omega
        subst e
        unfold insL
        rw [List.take_append, List.drop_append, List.take_of_length_le (by omega), List.drop_of_length_le (by omega)]
        simp [show a.length + (i' + 1) - a.length = i' + 1 by omega]
      refine Leaves.bind (Leaves.within (leafInsertHalfC_leaves hr) (fun _ _ => hp)) fun r hr1 => ?_
      obtain ⟨d1, w1⟩ := r
      exact Leaves.pure ⟨_, _, hn, hr1, hI.symm⟩

theorem leafSplitSmall_ret {E : Env I S} {cb : Cb} {n : Tree I S 1} {idx : Nat} {ov : Option I} {fst s : Sized I S} {w : World} {l : List S} (hn : Flat n l) :
    Ret (leafSplitSmall E cb n idx ov fst s w) fun r => ∃ x y, Flat r.1.lhs x ∧ Flat r.1.rhs y ∧ x ++ r.1.key.slice :: y = insL l idx fst (some s) := by
  unfold leafSplitSmall
  refine Ret.skip fun _ => Ret.skip fun _ => Ret.weak.bind fun _ hl => Ret.weak.bind fun _ hi => ?_
  have hl : (Node.keys n).length = 1 := by simpa [Node.len] using hl
  have hi : idx ≤ 1 := of_decide_eq_true hi
  have hnl := hn.len
  refine (split_ret (C := Tree I S 0)).bind fun r hr => ?_
  obtain ⟨a, mid, d, w1⟩ := r
  obtain ⟨hk, e1, e2, e3, e4⟩ := hr
  dsimp only at hk e1 e2 e3 e4
  have hkl := hn.1
  obtain ⟨k0, hk0⟩ := List.length_eq_one_iff.1 hl
  have hl0 : l = [mid.slice] := by
    rw [← hn.2, hk0]
    rw [hk0] at hk
    simp at hk
    simp [hk]
  have fa : ∀ z, Flat ({ a with size := z } : Node I S (Tree I S 0)) [] := by
    intro z
    refine ⟨?_, ?_⟩
    · show a.kids.length = a.keys.length + 1
      rw [e1, e2]; simp only [List.length_take, hkl]; omega
    · show a.keys.map Key.slice = []
      rw [e1]; simp
  have fd : ∀ z, Flat ({ d with size := z } : Node I S (Tree I S 0)) [] := by
    intro z
    refine ⟨?_, ?_⟩
    · show d.kids.length = d.keys.length + 1
      rw [e3, e4]; simp only [List.length_drop, hkl]; omega
    · show d.keys.map Key.slice = []
      rw [e3, hk0]; simp
  dsimp only
  subst hl0
  split
  · rename_i h0
    refine (leafPush_ret (fa _)).bind fun r h1 => ?_
    obtain ⟨n1, w2⟩ := r
    refine (leafPush_ret (fd _)).bind fun r h2 => ?_
    obtain ⟨d1, w3⟩ := r
    refine Ret.skip fun _ => Ret.skip fun _ => Ret.pure ⟨_, _, h1, h2, ?_⟩
    simp [insL, h0]
  · rename_i h0
    have : idx = 1 := by omega
    refine (leafPush_ret (fa _)).bind fun r h1 => ?_
    obtain ⟨n1, w2⟩ := r
    refine (leafPush_ret (fd _)).bind fun r h2 => ?_
    obtain ⟨d1, w3⟩ := r
    refine Ret.pure ⟨_, _, h1, h2, ?_⟩
    simp [insL, this]

theorem leafSplitC_leaves {E : Env I S} {cb : Cb} {n : Tree I S 1} {idx : Nat} {ov : Option I} {fst : Sized I S} {snd : Option (Sized I S)} {w : World} {l : List S}
    (hn : Flat n l) :
    Leaves (leafSplitC E cb n idx ov fst snd w)
      (fun r => ∃ x y, Flat r.1.lhs x ∧ Flat r.1.rhs y ∧ x ++ r.1.key.slice :: y = insL l idx fst snd) fun t => PartT t (insL l idx fst snd) := by
  have hp := hn.part (sub_insL l idx fst snd)
  unfold leafSplitC
  dsimp only
  split
  · cases snd with
    | none => exact ⟨fun a h => (by cases h), fun f t h => by cases h; exact hp⟩
    | some s => exact Leaves.leave (leafSplitSmall_ret hn) hp
  · refine Leaves.step splitPlan_ret hp fun r hpl => ?_
    obtain ⟨mid, at_⟩ := r
    obtain ⟨p1, p2, p3⟩ := hpl
    refine Leaves.step (split_ret (C := Tree I S 0)) hp fun r hr => ?_
    obtain ⟨a, key, d, w1⟩ := r
    obtain ⟨hk, e1, e2, e3, e4⟩ := hr
    dsimp only at hk e1 e2 e3 e4 p1 p2 p3
    have hkl := hn.1
    have hm : mid < (Node.keys n).length := (List.getElem?_eq_some_iff.1 hk).1
    have hk' : l[mid]? = some key.slice := by rw [← hn.2]; simp [hk]
    have fa : ∀ z, Flat ({ a with size := z } : Node I S (Tree I S 0)) (l.take mid) := by
      intro z
      refine ⟨?_, ?_⟩
      · show a.kids.length = a.keys.length + 1
        rw [e1, e2]; simp only [List.length_take, hkl]; omega
      · show a.keys.map Key.slice = _
        rw [e1, ← hn.2, List.map_take]
    have fd : Flat d (l.drop (mid + 1)) := by
      refine ⟨?_, ?_⟩
      · rw [e3, e4]; simp only [List.length_drop, hkl]; omega
      · rw [e3, ← hn.2, List.map_drop]
    have hl : l = l.take mid ++ key.slice :: l.drop (mid + 1) := by
      have hml : mid < l.length := by rw [← hn.len]; exact hm
      rw [List.getElem?_eq_getElem hml] at hk'
      injection hk' with hk'
      rw [← hk']
      simp
    have hsub : (l.take mid).Sublist (insL l idx fst snd) := (List.take_sublist _ _).trans (sub_insL _ _ _ _)
    have hpa : ∀ z, PartT (h := 1) ({ a with size := z } : Node I S (Tree I S 0)) (insL l idx fst snd) := fun z => (fa z).part hsub
    have hpa' : PartT (h := 1) a (insL l idx fst snd) := hpa a.size
    refine Leaves.skip hpa' fun _ => Leaves.skip hpa' fun _ => Leaves.skip hpa' fun r => ?_
    obtain ⟨kz, ov'⟩ := r
    refine Leaves.step shiftKeys_ret (hpa _) fun d1 ed => ?_
    rw [show insL l idx fst snd = insL (l.take mid ++ key.slice :: l.drop (mid + 1)) idx fst snd by rw [← hl]]
    exact splitPlaceC_leaves (fa key.pos) (fd.eqv ed) (by have := hn.len; simp; omega) p1 p2 p3

end Sherman
