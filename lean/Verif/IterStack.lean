import Verif.IterWalk
import Verif.Observe
/-!
# `make_stack` finds the run at a bound
-/
namespace Sherman
variable {S : Type}

/-- A target in a subtree of size `T`: an included bound is an index, an excluded one the end of a non-empty range. -/
def TargetIn (excl : Bool) (t T : Nat) : Prop := if excl then 0 < t ∧ t ≤ T else t < T

/-- The run of size `s` at `p` is the one the bound `t` asks for. -/
def Hits (excl : Bool) (p s t : Nat) : Prop := if excl then p < t ∧ t ≤ p + s else p ≤ t ∧ t < p + s

theorem Rep.total_pos {M h : Nat} (hM : 1 ≤ M) {c : Tree Nat S (h + 1)} {ec : List (Ent S)} (hr : Rep M M c ec)
    (hp : Pos ec) : 0 < total ec := by
  have h1 := hr.count
  have h2 : 2 ^ 1 ≤ (M + 1) ^ (h + 1) := by
    calc 2 ^ 1 ≤ (M + 1) ^ 1 := Nat.pow_le_pow_left (by omega) 1
      _ ≤ (M + 1) ^ (h + 1) := Nat.pow_le_pow_right (by omega) (by omega)
  cases ec with
  | nil => simp at h1; omega
  | cons e r =>
    rw [Pos.cons] at hp
    simp; omega

/-- What one step of the search for a bound finds: a key with the run asked for, or a child to go on in. -/
theorem stackStep_spec {MAX M h : Nat} (hM : 1 ≤ M) {excl leaf : Bool} (hleaf : leaf = true ↔ h = 0)
    {n : Tree Nat S (h + 1)} {es : List (Ent S)} {t : Nat} (hr : Rep M 1 n es) (hp : Pos es)
    (ht : TargetIn excl t (total es)) (hint : Option Nat) :
    ∃ (psl psr : List (Item S (Tree Nat S h))) (c : Tree Nat S h) (ec : List (Ent S)),
      n = mkG szN (Node.ptr n) psl c (szN c) psr ∧ RepItems M psl ∧ Rep M M c ec ∧ RepItems M psr ∧
      es = entsL psl ++ ec ++ entsR psr ∧
      ((∃ it psr', psr = it :: psr' ∧ Hits excl (tot szN psl + szN c) it.size t ∧
          stackStep (natIdx MAX) leaf n hint excl t = .ok (.key psl.length (tot szN psl + szN c))) ∨
        (leaf = false ∧ tot szN psl ≤ t ∧ TargetIn excl (t - tot szN psl) (total ec) ∧
          stackStep (natIdx MAX) leaf n hint excl t = .ok (.child psl.length (tot szN psl)))) := by
  have hsz : Node.size n = total es := hr.size
  have htle : t ≤ total es := by
    cases excl <;> simp [TargetIn] at ht <;> omega
  -- the key left of the focus
  have back : ∀ (psl psr : List (Item S (Tree Nat S h))) (c : Tree Nat S h) (ec : List (Ent S)),
      n = mkG szN (Node.ptr n) psl c (szN c) psr → RepItems M psl → Rep M M c ec → RepItems M psr →
      es = entsL psl ++ ec ++ entsR psr → 0 < psl.length → 
      ∃ (q psr' : List (Item S (Tree Nat S h))) (it : Item S (Tree Nat S h)) (c' : Tree Nat S h) (ec' : List (Ent S)),
        n = mkG szN (Node.ptr n) q c' (szN c') (it :: psr') ∧ RepItems M q ∧ Rep M M c' ec' ∧ RepItems M (it :: psr') ∧
        es = entsL q ++ ec' ++ entsR (it :: psr') ∧ q.length = psl.length - 1 ∧
        tot szN q + szN c' + it.size = tot szN psl ∧ 0 < it.size ∧
        Node.keyPos n (psl.length - 1) = .ok (tot szN q + szN c') := by
    intro psl psr c ec hn h1 h2 h3 h4 hl
    rcases List.eq_nil_or_concat psl with rfl | ⟨q, it, rfl⟩
    · simp at hl
    · rw [List.concat_eq_append] at *
      have hm := mkG_move szN (Node.ptr n) q it.kid { it with kid := c, ents := ec } psr it.ents
      simp only at hm
      have hit : 0 < it.size := by
        have hp' := hp
        rw [h4, Pos.append, Pos.append] at hp'
        exact hp'.1.1.items it (by simp)
      rw [RepItems.append, RepItems.cons] at h1
      have hn' := hn.trans hm.symm
      refine ⟨q, psr, { it with kid := c, ents := ec }, it.kid, it.ents, hn', h1.1, h1.2.1, RepItems.cons.mpr ⟨h2, h3⟩,
        by simp [h4, Item.ent], by simp, by simp; omega, hit, ?_⟩
      have hk : n.keys = keysL szN 0 q ++ ⟨tot szN q + szN it.kid, it.slice, it.ref⟩ ::
          keysR szN (tot szN q + szN it.kid + it.size + szN c) psr := by rw [hn']; rfl
      exact keyPos_at hk (by simp)
  by_cases hend : t = total es
  · -- the end of the subtree
    have hexcl : excl = true := by
      cases excl with
      | true => rfl
      | false => simp [TargetIn] at ht; omega
    subst hexcl
    have hst : stackStep (natIdx MAX) leaf n hint true t = lastStep (natIdx MAX) leaf n := by
      have : (natIdx MAX).eq t (Node.size n) = true := by rw [hsz]; simp [hend]
      unfold stackStep
      rw [this]; rfl
    obtain ⟨psl, psr, c, ec, hl, hn, h1, h2, h3, h4, h5, _⟩ := hr.focus (i := Node.len n) (Nat.le_refl _)
    have hlen : Node.len n = psl.length + psr.length := by rw [hn]; simp [Node.len]
    obtain rfl : psr = [] := List.length_eq_zero_iff.mp (by omega)
    have e1 := RepItems.totL h1
    have e2 := h2.size
    have htot : total es = tot szN psl + szN c := by rw [h4]; simp; omega
    cases hlf : leaf with
    | true =>
      have hh : h = 0 := hleaf.mp hlf
      subst hh
      have hc0 : szN c = 0 := rfl
      obtain ⟨q, psr', it, c', ec', hn', b1, b2, b3, b4, b5, b6, b7, b8⟩ := back psl [] c ec hn h1 h2 h3 h4
        (by simp at h5; omega)
      refine ⟨q, it :: psr', c', ec', hn', b1, b2, b3, b4, .inl ⟨it, psr', rfl, ?_, ?_⟩⟩
      · simp only [Hits, if_true]; omega
      · rw [hlf] at hst
        rw [hst]
        have hu : usub (Node.len n) 1 = .ok (psl.length - 1) := by
          rw [usub_ok (by simp at h5; omega), hlen]; simp
        simp only [lastStep, hu, R.bind_ok, b8, b5, if_true]
        rfl
    | false =>
      refine ⟨psl, [], c, ec, hn, h1, h2, h3, h4, .inr ⟨rfl, by omega, ?_, ?_⟩⟩
      · cases h with
        | zero => simp [hlf] at hleaf
        | succ h =>
          have hp' := hp
          rw [h4, Pos.append, Pos.append] at hp'
          have := h2.total_pos hM hp'.1.2
          simp only [TargetIn, if_true]; omega
      · rw [hlf] at hst
        rw [hst]
        have hcs : Node.childSize (szT (natIdx MAX)) n psl.length = .ok (szN c) := by
          rw [szT_natIdx, hn]
          exact childSize_at (KA := kidsOf psl) (KB := kidsOf []) rfl (by simp)
        have hnp : Node.nextPos n psl.length = tot szN psl + szN c := by
          rw [hn]
          exact nextPos_at (sz := szN) (psr := []) rfl (by simp) rfl
        have h6 : szN c ≤ tot szN psl + szN c := by omega
        have h7 : tot szN psl + szN c - szN c = tot szN psl := by omega
        have h8 : Node.len n = psl.length := by simpa using hlen
        simp only [lastStep, Node.childPos, h8, Nat.le_refl, decide_true, weakAssert, if_true, R.bind_ok, hcs, hnp,
          subR_ok h6, h7]
        rfl
  · -- before the end of the subtree
    have hne : (natIdx MAX).eq t (Node.size n) = false := by rw [hsz]; simp [hend]
    have hst : stackStep (natIdx MAX) leaf n hint excl t =
        (fullStep (natIdx MAX) n t).bind (exclStep (natIdx MAX) leaf n excl t) := by
      unfold stackStep
      rw [hne, searchStep_hint hr hp htle hint]; rfl
    obtain ⟨psl, psr, c, ec, hn, h1, h2, h3, h4, h5, h6, h7, h8⟩ := hr.locate htle
    have e1 := RepItems.totL h1
    have e2 := h2.size
    have e3 := RepItems.totR h3
    have htot : total es = tot szN psl + szN c + tot szN psr := by rw [h4]; simp; omega
    have hp' := hp
    rw [h4, Pos.append, Pos.append] at hp'
    have h8' : t < tot szN psl + szN c ∨
        ∃ it psr', psr = it :: psr' ∧ tot szN psl + szN c ≤ t ∧ t < tot szN psl + szN c + it.size := by
      rcases h8 with h8 | ⟨rfl, h8⟩ | h8
      · exact .inl h8
      · left; rw [tot_nil] at htot; omega
      · exact .inr h8
    rcases h8' with h8 | ⟨it, psr', rfl, h8, h9⟩
    · -- inside a child
      have hf := fullStep_child (MAX := MAX) (p := Node.ptr n) (psr := psr) hp'.1.1.items h7 (.inl h8)
      rw [← hn] at hf
      have hnl : leaf = false := by
        cases hlf : leaf with
        | false => rfl
        | true =>
          have hh : h = 0 := hleaf.mp hlf
          subst hh
          have hc0 : szN c = 0 := rfl
          omega
      by_cases hx : excl = true ∧ tot szN psl = t
      · obtain ⟨hx1, hx2⟩ := hx
        subst hx1
        have hl : 0 < psl.length := by
          simp [TargetIn] at ht
          cases psl with
          | nil => simp at hx2; omega
          | cons => simp
        obtain ⟨q, psr', it, c', ec', hn', b1, b2, b3, b4, b5, b6, b7, b8⟩ := back psl psr c ec hn h1 h2 h3 h4 hl
        refine ⟨q, it :: psr', c', ec', hn', b1, b2, b3, b4, .inl ⟨it, psr', rfl, ?_, ?_⟩⟩
        · simp only [Hits, if_true]; omega
        · rw [hst, hf]
          have hl' : psl.length ≠ 0 := by omega
          simp only [Except.bind, exclStep, natIdx_eq, hx2, decide_true, Bool.and_self, if_true, hl', if_false, b8, b5,
            R.bind_ok]
          rfl
      · refine ⟨psl, psr, c, ec, hn, h1, h2, h3, h4, .inr ⟨hnl, h7, ?_, ?_⟩⟩
        · cases excl with
          | false => simp only [TargetIn, Bool.false_eq_true, if_false]; omega
          | true => simp at hx; simp only [TargetIn, if_true]; omega
        · rw [hst, hf]
          have hx' : (excl && (natIdx MAX).eq (tot szN psl) t) = false := by
            cases excl with
            | false => rfl
            | true => simp at hx; simp [hx]
          simp only [Except.bind, exclStep, hx', Bool.false_eq_true, if_false]
          rfl
    · -- inside a key
      have hf := fullStep_key (MAX := MAX) (p := Node.ptr n) (psr := psr') (it := it) hp'.1.1.items h8 h9
      rw [← hn] at hf
      by_cases hx : excl = true ∧ tot szN psl + szN c = t
      · obtain ⟨hx1, hx2⟩ := hx
        subst hx1
        simp [TargetIn] at ht
        cases hlf : leaf with
        | true =>
          have hh : h = 0 := hleaf.mp hlf
          subst hh
          have hc0 : szN c = 0 := rfl
          have hl : 0 < psl.length := by
            cases psl with
            | nil => simp at hx2; omega
            | cons => simp
          obtain ⟨q, psr'', it', c', ec', hn', b1, b2, b3, b4, b5, b6, b7, b8⟩ :=
            back psl (it :: psr') c ec hn h1 h2 h3 h4 hl
          refine ⟨q, it' :: psr'', c', ec', hn', b1, b2, b3, b4, .inl ⟨it', psr'', rfl, ?_, ?_⟩⟩
          · simp only [Hits, if_true]; omega
          · rw [hlf] at hst
            rw [hst, hf]
            have hl' : psl.length ≠ 0 := by omega
            simp only [Except.bind, exclStep, natIdx_eq, hx2, decide_true, Bool.and_self, if_true, hl', if_false, b8, b5,
              R.bind_ok]
            rfl
        | false =>
          refine ⟨psl, it :: psr', c, ec, hn, h1, h2, h3, h4, .inr ⟨rfl, by omega, ?_, ?_⟩⟩
          · cases h with
            | zero => simp [hlf] at hleaf
            | succ h =>
              have := h2.total_pos hM hp'.1.2
              simp only [TargetIn, if_true]; omega
          · rw [hlf] at hst
            rw [hst, hf]
            have hcs : Node.childSize (szT (natIdx MAX)) n psl.length = .ok (szN c) := by
              rw [szT_natIdx, hn]
              exact childSize_at (KA := kidsOf psl) (KB := kidsOf (it :: psr')) rfl (by simp)
            have h10 : szN c ≤ tot szN psl + szN c := by omega
            have h11 : tot szN psl + szN c - szN c = tot szN psl := by omega
            have h12 : (natIdx MAX).eq (tot szN psl + szN c) t = true := by simp [hx2]
            simp only [Except.bind, exclStep, h12, Bool.and_self, if_true, Bool.false_eq_true, if_false, hcs,
              R.bind_ok, subR_ok h10, h11]
            rfl
      · refine ⟨psl, it :: psr', c, ec, hn, h1, h2, h3, h4, .inl ⟨it, psr', rfl, ?_, ?_⟩⟩
        · cases excl with
          | false => simp only [Hits, Bool.false_eq_true, if_false]; omega
          | true => simp at hx; simp only [Hits, if_true]; omega
        · rw [hst, hf]
          have hx' : (excl && (natIdx MAX).eq (tot szN psl + szN c) t) = false := by
            cases excl with
            | false => rfl
            | true => simp at hx; simp [hx]
          simp only [Except.bind, exclStep, hx', Bool.false_eq_true, if_false]
          rfl

theorem stackKey_spec {MAX M H h : Nat} {root : Tree Nat S H} {ctx : Ctx Nat S H (h + 1)} {n : Tree Nat S (h + 1)}
    {A B : List (Ent S)} {e : Ent S} {k base kpos : Nat} (hh : HeadAt M root ⟨h, n, ctx, k⟩ A e B)
    (h1 : base + kpos = total A) (h2 : total A + e.size ≤ MAX) :
    stackKey (natIdx MAX) n ctx base k kpos = .ok ⟨⟨h, n, ctx, k⟩, total A + e.size⟩ := by
  obtain ⟨p, hp⟩ := hh.handle
  simp only at hp
  have hs := hh.sliceSize (MAX := MAX)
  have h3 : base + kpos ≤ MAX := by omega
  simp only [stackKey, hp, R.bind_ok, addR_ok h3, h1, hs, addR_ok h2]
  rfl

/-- The loop of `make_stack` ends at the run asked for. -/
theorem stackLoop_spec {MAX M H : Nat} (hM : 1 ≤ M) {excl : Bool} {root : Tree Nat S H} :
    ∀ {h : Nat} {ctx : Ctx Nat S H (h + 1)} {n : Tree Nat S (h + 1)} {L es Rr : List (Ent S)} {t : Nat},
    Within M root ctx n L es Rr → Pos es → TargetIn excl t (total es) → total (L ++ es ++ Rr) ≤ MAX → ∀ hints,
    ∃ hd A e B, stackLoop (natIdx MAX) excl n ctx hints (total L) t = .ok ⟨hd, total A + e.size⟩ ∧
      HeadAt M root hd A e B ∧ L ++ es ++ Rr = A ++ e :: B ∧ Hits excl (total A) e.size (total L + t) := by
  intro h
  induction h with
  | zero =>
    intro ctx n L es Rr t hw hp ht hb hints
    obtain ⟨psl, psr, c, ec, hn, h1, h2, h3, h4, h5⟩ :=
      stackStep_spec (MAX := MAX) (leaf := true) hM (by simp) (hw.rep hM) hp ht (headHint hints)
    have e1 := RepItems.totL h1
    have e2 := h2.size
    rcases h5 with ⟨it, psr', rfl, h6, h7⟩ | ⟨h6, _⟩
    · have hh : HeadAt M root ⟨0, n, ctx, psl.length⟩ (L ++ entsL psl ++ ec) it.ent (it.ents ++ entsR psr' ++ Rr) :=
        ⟨L, es, Rr, ec, psl, psr', it, c, hw, hn, h1, h2, h3, h4, rfl, rfl, rfl, rfl⟩
      refine ⟨_, _, _, _, ?_, hh, ?_, ?_⟩
      · simp only [stackLoop, h7, R.bind_ok]
        refine stackKey_spec hh ?_ ?_
        · simp only [total_append]; omega
        · rw [h4] at hb; simp only [total_append, entsR_cons, total_cons] at hb ⊢; omega
      · simp [h4]
      · cases excl <;> simp only [Hits, Item.ent, total_append, if_true, Bool.false_eq_true, if_false] at h6 ⊢ <;> omega
    · simp at h6
  | succ h ih =>
    intro ctx n L es Rr t hw hp ht hb hints
    obtain ⟨psl, psr, c, ec, hn, h1, h2, h3, h4, h5⟩ :=
      stackStep_spec (MAX := MAX) (leaf := false) hM (by simp) (hw.rep hM) hp ht (headHint hints)
    have e1 := RepItems.totL h1
    have e2 := h2.size
    rcases h5 with ⟨it, psr', rfl, h6, h7⟩ | ⟨h6, h7, h8, h9⟩
    · have hh : HeadAt M root ⟨h + 1, n, ctx, psl.length⟩ (L ++ entsL psl ++ ec) it.ent (it.ents ++ entsR psr' ++ Rr) :=
        ⟨L, es, Rr, ec, psl, psr', it, c, hw, hn, h1, h2, h3, h4, rfl, rfl, rfl, rfl⟩
      refine ⟨_, _, _, _, ?_, hh, ?_, ?_⟩
      · simp only [stackLoop, h7, R.bind_ok]
        refine stackKey_spec hh ?_ ?_
        · simp only [total_append]; omega
        · rw [h4] at hb; simp only [total_append, entsR_cons, total_cons] at hb ⊢; omega
      · simp [h4]
      · cases excl <;> simp only [Hits, Item.ent, total_append, if_true, Bool.false_eq_true, if_false] at h6 ⊢ <;> omega
    · have hw' := hw.enter hn h1 h2 h3 h4
      have hp' := hp
      rw [h4, Pos.append, Pos.append] at hp'
      have hall : L ++ es ++ Rr = L ++ entsL psl ++ ec ++ (entsR psr ++ Rr) := by simp [h4]
      obtain ⟨hd, A, e, B, q1, q2, q3, q4⟩ := ih hw' hp'.1.2 h8 (by rw [← hall]; exact hb) (hints.map List.tail)
      refine ⟨hd, A, e, B, ?_, q2, by rw [hall]; exact q3, ?_⟩
      · have hch : Node.child n psl.length = .ok c := by
          rw [hn]; exact child_at (KA := kidsOf psl) (KB := kidsOf psr) rfl (by simp)
        have hb' : total L + tot szN psl ≤ MAX := by rw [h4] at hb; simp at hb; omega
        have hL : total L + tot szN psl = total (L ++ entsL psl) := by simp; omega
        simp only [stackLoop, h9, R.bind_ok, hch, subL_ok h7, addR_ok hb', hL]
        exact q1
      · have : total (L ++ entsL psl) + (t - tot szN psl) = total L + t := by simp; omega
        rw [this] at q4
        exact q4

/-- `make_stack` ends at the run asked for. -/
theorem makeStack_spec {MAX M H : Nat} (hM : 1 ≤ M) {root : Tree Nat S (H + 1)} {es : List (Ent S)}
    (hr : Rep M 1 root es) (hp : Pos es) (hb : total es ≤ MAX) (hints : Option (List Nat)) (excl : Bool) {t : Nat}
    (ht : TargetIn excl t (total es)) :
    ∃ hd A e B, makeStack (natIdx MAX) root hints (if excl then .excluded t else .included t) =
        .ok ⟨hd, total A + e.size⟩ ∧ HeadAt M root hd A e B ∧ es = A ++ e :: B ∧ Hits excl (total A) e.size t := by
  have hw : Within M root .top root [] es [] := ⟨rfl, rfl, rfl, hr⟩
  obtain ⟨hd, A, e, B, q1, q2, q3, q4⟩ := stackLoop_spec hM hw hp ht (by simpa using hb) hints
  refine ⟨hd, A, e, B, ?_, q2, by simpa using q3, by simpa using q4⟩
  rw [← q1]
  cases excl <;> rfl

end Sherman
