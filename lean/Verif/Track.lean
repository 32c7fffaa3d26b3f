import Verif.Handles
import Verif.OwnInsert
/-!
# Following a slice through an insertion

`q` marks slices.  These lemmas say that the path and the handle that an insertion reports lead to a marked slice, if the slice
that the insertion starts from is marked.
-/
namespace Sherman
variable {I S C : Type} {Ht : Nat}

/-- The slices of a node. -/
def Node.sls (n : Node I S C) : List S := n.keys.map (·.slice)

/-- The path and the handle lead to a marked slice in the node `n`; `ta` says so for children. -/
def TagN (q : S → Prop) (ta : C → List Nat → Nat × Nat → Prop) (n : Node I S C) : List Nat → Nat × Nat → Prop
  | [], x => n.ptr = x.1 ∧ ∃ s, n.sls[x.2]? = some s ∧ q s
  | c :: p, x => ∃ ch, n.kids[c]? = some ch ∧ ta ch p x

/-- The path leads to a node, the handle is of a key of that node, and its slice is marked. -/
def TagAt (q : S → Prop) : {h : Nat} → Tree I S h → List Nat → Nat × Nat → Prop
  | 0, _, _, _ => False
  | h + 1, n, p, x => TagN q (TagAt q (h := h)) n p x

/-! ## Operations that only change positions -/

def SameSls (a b : Node I S C) : Prop := a.ptr = b.ptr ∧ a.sls = b.sls ∧ a.kids = b.kids

theorem SameSls.refl (a : Node I S C) : SameSls a a := ⟨rfl, rfl, rfl⟩

theorem SameSls.trans {a b c : Node I S C} (h1 : SameSls a b) (h2 : SameSls b c) : SameSls a c :=
  ⟨h1.1.trans h2.1, h1.2.1.trans h2.2.1, h1.2.2.trans h2.2.2⟩

theorem SameSls.tag {q : S → Prop} {ta : C → List Nat → Nat × Nat → Prop} {a b : Node I S C} (h : SameSls a b) {p : List Nat}
    {x : Nat × Nat} (ht : TagN q ta b p x) : TagN q ta a p x := by
  cases p with
  | nil => simpa only [TagN, h.1, h.2.1] using ht
  | cons c p => simpa only [TagN, h.2.2] using ht

theorem mapPos_sls {f : I → R I} {a b : List (Key I S)} (h : Node.mapPos f a = .ok b) :
    b.map (·.slice) = a.map (·.slice) := by
  induction a generalizing b with
  | nil => cases h; rfl
  | cons k a ih =>
    simp only [Node.mapPos, bind_ok_iff] at h
    obtain ⟨_, _, ks, h1, h⟩ := h
    cases h
    simp [ih h1]

theorem setKeyPossWith_sls {n n' : Node I S C} {f : I → R I} {i : Nat} (h : n.setKeyPossWith f i = .ok n') :
    SameSls n' n := by
  simp only [Node.setKeyPossWith, bind_ok_iff] at h
  obtain ⟨_, _, ks, h1, s, h2, h3⟩ := h
  cases h3
  refine ⟨rfl, ?_, rfl⟩
  simp only [Node.sls, List.map_append, mapPos_sls h1]
  rw [← List.map_append, List.take_append_drop]

theorem shiftKeys_sls {ix : IdxOps I} {n n' : Node I S C} {incr : Bool} {i : Nat} {p o w : I}
    (h : n.shiftKeys ix incr i p o w = .ok n') : SameSls n' n := by
  simp only [Node.shiftKeys, bind_ok_iff] at h
  obtain ⟨_, _, _, _, _, _, h⟩ := h
  split at h
  · simp only [bind_ok_iff] at h
    obtain ⟨d, _, h⟩ := h
    exact setKeyPossWith_sls h
  · simp only [bind_ok_iff] at h
    obtain ⟨d, _, h⟩ := h
    exact setKeyPossWith_sls h

theorem setKeyPos_sls {n n' : Node I S C} {k : Nat} {p : I} (h : n.setKeyPos k p = .ok n') : SameSls n' n := by
  unfold Node.setKeyPos at h
  split at h
  · cases h
  · rename_i key hk
    cases h
    refine ⟨rfl, ?_, rfl⟩
    obtain ⟨h1, h2⟩ := List.getElem?_eq_some_iff.mp hk
    simp only [Node.sls, List.map_set]
    apply List.ext_getElem
    · simp
    · intro j hj1 hj2
      rw [List.getElem_set]
      split
      · rename_i e; subst e; simp [h2]
      · rfl

theorem setSlice_sls {n n' : Node I S C} {k : Nat} {s : S} (h : n.setSlice k s = .ok n') :
    n'.ptr = n.ptr ∧ n'.sls = n.sls.set k s ∧ n'.kids = n.kids ∧ k < n.sls.length := by
  unfold Node.setSlice at h
  split at h
  · cases h
  · rename_i key hk
    cases h
    obtain ⟨h1, _⟩ := List.getElem?_eq_some_iff.mp hk
    exact ⟨rfl, by simp [Node.sls, List.map_set], rfl, by simpa [Node.sls] using h1⟩

theorem mapSizes_sls {ix : IdxOps I} {m : Maps I} {hd : Bool} {ht : Nat} {n : Node I S C} {cok : COK}
    {ov : Option I} {o w : I} {r} (h : mapSizes ix m hd ht n cok ov o w = .ok r) : SameSls r.1 n := by
  unfold mapSizes at h
  split at h
  · cases h; exact .refl _
  · simp only [bind_ok_iff] at h
    obtain ⟨_, _, _, _, _, _, _, _, _, _, _, _, _, _, _, _, h⟩ := h
    cases cok with
    | child c => cases h; exact .refl _
    | key k =>
      simp only [bind_ok_iff] at h
      obtain ⟨_, _, _, _, _, _, _, h1, h⟩ := h
      cases h
      exact setKeyPos_sls h1

theorem opStep_sls {ix : IdxOps I} {m : Maps I} {hd : Bool} {ht : Nat} {n : Node I S C} {cok : COK}
    {ov : Option I} {o w : I} {r} (h : opStep ix m hd ht n cok ov o w = .ok r) : SameSls r.1 n := by
  simp only [opStep, bind_ok_iff] at h
  obtain ⟨⟨n1, ov1, o1, w1⟩, h1, h⟩ := h
  have e1 := mapSizes_sls h1
  simp only [bind_ok_iff] at h e1
  obtain ⟨_, _, n2, h2, h⟩ := h
  cases h
  exact (shiftKeys_sls h2).trans e1

theorem insertKC_sls [HasPtr C] {n n' : Node I S C} {mx i : Nat} {s : S} {r : Option Nat} {c : C} {pos : I} {w w' : World}
    (h : Node.insertKeyAndChild mx n i s r c w = .ok (n', pos, w')) :
    n'.ptr = n.ptr ∧ n'.sls = n.sls.take i ++ s :: n.sls.drop i ∧ n'.kids = n.kids.take (i + 1) ++ c :: n.kids.drop (i + 1) ∧
      i ≤ n.sls.length := by
  simp only [Node.insertKeyAndChild, bind_ok_iff] at h
  obtain ⟨_, h1, _, _, h⟩ := h
  cases h
  refine ⟨rfl, by simp [Node.sls, List.map_take, List.map_drop], rfl, ?_⟩
  unfold weakAssert at h1
  split at h1
  · rename_i hc
    have hc := of_decide_eq_true hc
    simpa [Node.sls, Node.len] using hc
  · cases h1

theorem pushKC_sls [HasPtr C] {n n' : Node I S C} {mx : Nat} {s : S} {r : Option Nat} {c : C} {z : I} {w w' : World}
    (h : Node.pushKeyAndChild mx n s r c z w = .ok (n', w')) :
    n'.ptr = n.ptr ∧ n'.sls = n.sls ++ [s] ∧ n'.kids = n.kids ++ [c] := by
  simp only [Node.pushKeyAndChild, bind_ok_iff] at h
  obtain ⟨_, _, h⟩ := h
  cases h
  exact ⟨rfl, by simp [Node.sls], rfl⟩

theorem split_sls [HasPtr C] {n n' rhs : Node I S C} {mid : Nat} {key : Key I S} {w w' : World}
    (h : n.split mid w = .ok (n', key, rhs, w')) :
    n'.ptr = n.ptr ∧ n'.sls = n.sls.take mid ∧ n'.kids = n.kids.take (mid + 1) ∧ rhs.ptr = w.next ∧
      rhs.sls = n.sls.drop (mid + 1) ∧ rhs.kids = n.kids.drop (mid + 1) ∧ n.sls[mid]? = some key.slice := by
  unfold Node.split at h
  split at h
  · cases h
  · rename_i k hk
    cases h
    exact ⟨rfl, by simp [Node.sls, List.map_take], rfl, rfl, by simp [Node.sls, List.map_drop], rfl, by simp [Node.sls, hk]⟩

/-! ## Going up -/

theorem opUp_tag {q : S → Prop} {ix : IdxOps I} {m : Maps I} {hd : Bool} {h : Nat} {ctx : Ctx I S Ht h} {t : Tree I S h} {o z : I}
    {path gp : List Nat} {x : Nat × Nat} {trk : Prop} {r} (hm : m.cursor = true → m.lhsHeight < h)
    (hr : opUp ix m hd ctx t o z path = .ok r) (ht : TagAt q t gp x) (hp : trk → path = gp) :
    ∃ gp', TagAt q r.1 gp' x ∧ (trk → r.2 = gp') := by
  induction ctx generalizing o z path gp with
  | top => cases hr; exact ⟨gp, ht, hp⟩
  | @frame h' ptr size keys kl kr up ih =>
    simp only [opUp, bind_ok_iff] at hr
    obtain ⟨⟨n', oldN⟩, h1, h2⟩ := hr
    have e1 := opStep_sls h1
    refine ih (fun hc => Nat.lt_succ_of_lt (hm hc)) h2 (gp := kl.length :: gp) (e1.tag ?_) ?_
    · exact ⟨t, by simp [plugNode], ht⟩
    · intro hk
      have : mapCursor m h' path = path := by
        unfold mapCursor
        split
        · rename_i hc
          simp only [Bool.and_eq_true, beq_iff_eq] at hc
          have := hm hc.1
          omega
        · rfl
      rw [this, hp hk]

theorem opKey_tag {q : S → Prop} {ix : IdxOps I} {m : Maps I} {hd : Bool} {h : Nat} {ctx : Ctx I S Ht (h + 1)}
    {n : Tree I S (h + 1)} {k : Nat} {ov : Option I} {o z : I}
    {path gp : List Nat} {x : Nat × Nat} {trk : Prop} {r} (hm : m.cursor = true → m.lhsHeight ≤ h)
    (hr : opKey ix m hd ctx n k ov o z path = .ok r) (ht : TagAt q n gp x) (hp : trk → mapCursor m h path = gp) :
    ∃ gp', TagAt q r.1 gp' x ∧ (trk → r.2 = gp') := by
  simp only [opKey, bind_ok_iff] at hr
  obtain ⟨⟨n', oldN⟩, h1, h2⟩ := hr
  exact opUp_tag (fun hc => Nat.lt_succ_of_le (hm hc)) h2 (SameSls.tag (opStep_sls h1) ht) hp

theorem mapCursor_above {m : Maps I} {h : Nat} {path : List Nat} (hm : m.cursor = true → m.lhsHeight < h) :
    mapCursor m h path = path := by
  unfold mapCursor
  split
  · rename_i hc
    simp only [Bool.and_eq_true, beq_iff_eq] at hc
    have := hm hc.1
    omega
  · rfl

/-! ## Bubbling -/

/-- The half on the given side. -/
def Side.pick {α : Type} (l r : α) : Side → α
  | .left => l
  | .right => r

/-- The marked slice is the key of the bubble, or in one of its halves; `trk` says whether the path is kept. -/
def BTag (q : S → Prop) (ta : C → List Nat → Nat × Nat → Prop) (skip : Bool) (trk : Prop) (b : Bubble I S C) (side : Option Side)
    (path : List Nat) (w : World) : Prop :=
  ((trk → side = none ∧ path = []) ∧ q b.key.slice ∧
      ((skip = false ∧ b.inserted = false ∧ evState w = .ok (none, false)) ∨
        (b.inserted = true ∧ evState w = .ok (none, true)))) ∨
    ∃ s gp x, (trk → side = some s ∧ path = gp) ∧ ta (s.pick b.lhs b.rhs) gp x ∧ evState w = .ok (some x, true) ∧
      (skip = false → b.inserted = true)

theorem evState_of {w w' : World} (h : w'.events = w.events) : evState w' = evState w := by
  unfold evState
  rw [h]

theorem BTag.of {q : S → Prop} {ta : C → List Nat → Nat × Nat → Prop} {skip : Bool} {trk : Prop} {b : Bubble I S C}
    {side : Option Side} {path : List Nat} {w w' : World} (h : BTag q ta skip trk b side path w) (he : w'.events = w.events) :
    BTag q ta skip trk b side path w' := by
  unfold BTag at *
  rwa [evState_of he]

theorem emitKey_tag {q : S → Prop} {ta : C → List Nat → Nat × Nat → Prop} {cb : Cb} {trk : Prop} {b : Bubble I S C}
    {path : List Nat} {w w' : World} {n : Node I S C} {c : Nat} (h : emitKey cb b.inserted n c w = .ok w')
    (hb : BTag q ta cb.skip trk b b.side path w) (hk : n.sls[c]? = some b.key.slice) (hl : n.kids[c]? = some b.lhs)
    (hr : n.kids[c + 1]? = some b.rhs) :
    ∃ gp x, evState w' = .ok (some x, true) ∧ TagN q ta n gp x ∧ (trk → prependSide c b.side path = gp) := by
  simp only [emitKey, bind_ok_iff] at h
  obtain ⟨_, _, h⟩ := h
  rcases hb with ⟨h1, h2, h3⟩ | ⟨s, gp, x, h1, h2, h3, h4⟩
  · refine ⟨[], (n.ptr, c), ?_, ⟨rfl, _, hk, h2⟩, fun ht => ?_⟩
    · rcases h3 with ⟨a1, a2, a3⟩ | ⟨a2, a3⟩
      · rw [a2] at h
        exact (EvOk.insertion h a3).2 a1 rfl
      · rw [a2] at h
        have := EvOk.putBack h a3
        simpa using this
    · obtain ⟨e1, e2⟩ := h1 ht
      rw [e1, e2]
      rfl
  · refine ⟨(c + s.toNat) :: gp, x, ?_, ?_, fun ht => ?_⟩
    · cases hi : b.inserted with
      | true =>
        rw [hi] at h
        have := EvOk.putBack h h3
        simpa using this
      | false =>
        rw [hi] at h
        have hs : cb.skip = true := by
          cases hs : cb.skip with
          | true => rfl
          | false => rw [h4 hs] at hi; cases hi
        exact (EvOk.insertion h h3).1 hs
    · cases s with
      | left => exact ⟨_, hl, h2⟩
      | right => exact ⟨_, hr, h2⟩
    · obtain ⟨e1, e2⟩ := h1 ht
      rw [e1, e2]
      rfl

theorem insertKC_places [HasPtr C] {n n' : Node I S C} {mx i : Nat} {s : S} {r : Option Nat} {c lhs : C} {pos : I} {w w' : World}
    (h : Node.insertKeyAndChild mx n i s r c w = .ok (n', pos, w')) (hl : n.kids[i]? = some lhs) :
    n'.sls[i]? = some s ∧ n'.kids[i]? = some lhs ∧ n'.kids[i + 1]? = some c := by
  obtain ⟨_, e2, e3, e4⟩ := insertKC_sls h
  obtain ⟨h1, h2⟩ := List.getElem?_eq_some_iff.mp hl
  have l1 : (n.sls.take i).length = i := by rw [List.length_take]; omega
  have l2 : (n.kids.take (i + 1)).length = i + 1 := by rw [List.length_take]; omega
  refine ⟨?_, ?_, ?_⟩
  · rw [e2, List.getElem?_append_right (by omega), l1]; simp
  · rw [e3, List.getElem?_append_left (by omega), List.getElem?_take_of_lt (by omega), hl]
  · rw [e3, List.getElem?_append_right (by omega), l2]; simp

theorem bubbleRoom_tag [HasPtr C] {q : S → Prop} {ta : C → List Nat → Nat × Nat → Prop} {E : Env I S} {cb : Cb} {sz : C → I} {parent : Node I S C}
    {c : Nat} {b : Bubble I S C} {path : List Nat} {w : World} {trk : Prop} {r}
    (h : bubbleRoom E cb sz parent c b path w = .ok r) (hb : BTag q ta cb.skip trk b b.side path w)
    (hl : parent.kids[c]? = some b.lhs) :
    ∃ gp x, evState r.2.2.2.2.2 = .ok (some x, true) ∧ TagN q ta r.1 gp x ∧ (trk → r.2.2.2.2.1 = gp) := by
  simp only [bubbleRoom, bind_ok_iff] at h
  obtain ⟨_, _, _, _, ⟨_, _, _, _⟩, _, ⟨p1, _, w1⟩, h1, _, _, p2, h3, w2, h2, h⟩ := h
  cases h
  obtain ⟨a1, a2, a3⟩ := insertKC_places h1 hl
  have e := setKeyPos_sls h3
  exact emitKey_tag h2 (hb.of (insertKC_events h1)) (by rw [e.2.1]; exact a1) (by rw [e.2.2]; exact a2) (by rw [e.2.2]; exact a3)

theorem bubbleInsertHalf_tag [HasPtr C] {q : S → Prop} {ta : C → List Nat → Nat × Nat → Prop} {E : Env I S} {cb : Cb} {sz : C → I}
    {half : Node I S C} {c : Nat} {b : Bubble I S C} {sh : Option (Shift I)} {path : List Nat} {w : World} {trk : Prop} {r}
    (h : bubbleInsertHalf E cb sz half c b sh path w = .ok r) (hb : BTag q ta cb.skip trk b b.side path w)
    (hl : half.kids[c]? = some b.lhs) :
    ∃ gp x, evState r.2.2 = .ok (some x, true) ∧ TagN q ta r.1 gp x ∧ (trk → r.2.1 = gp) := by
  simp only [bubbleInsertHalf, bind_ok_iff] at h
  obtain ⟨_, _, _, _, ⟨_, _, _, _⟩, _, _, _, _, _, _, _, ⟨p1, _, w1⟩, h1, p2, h3, p3, h4, w2, h2, h⟩ := h
  cases h
  obtain ⟨a1, a2, a3⟩ := insertKC_places h1 hl
  have e := (shiftKeys_sls h4).trans (setKeyPos_sls h3)
  exact emitKey_tag h2 (hb.of (insertKC_events h1)) (by rw [e.2.1]; exact a1) (by rw [e.2.2]; exact a2) (by rw [e.2.2]; exact a3)

theorem bubbleSplit_tag [HasPtr C] {q : S → Prop} {ta : C → List Nat → Nat × Nat → Prop} {E : Env I S} {cb : Cb} {sz : C → I} {parent : Node I S C}
    {c : Nat} {b : Bubble I S C} {path : List Nat} {w : World} {trk : Prop} {r}
    (h : bubbleSplit E cb sz parent c b path w = .ok r) (hb : BTag q ta cb.skip trk b b.side path w)
    (hl : parent.kids[c]? = some b.lhs) :
    BTag q (TagN q ta) cb.skip trk r.1 r.1.side r.2.1 r.2.2 := by
  obtain ⟨hlt, hle⟩ := List.getElem?_eq_some_iff.mp hl
  simp only [bubbleSplit, bind_ok_iff] at h
  obtain ⟨mid, hmid, ⟨n1, key, rhs, w1⟩, h1, _, _, _, _, _, _, _, _, h⟩ := h
  have k1 := hb.of (split_events h1)
  obtain ⟨s1, s2, s3, s4, s5, s6, s7⟩ := split_sls h1
  have hm : (c > E.M → mid = E.M) ∧ (c ≤ E.M → mid + 1 = E.M) := by
    unfold bubbleMid at hmid
    split at hmid
    · cases hmid; exact ⟨fun _ => rfl, fun h => by omega⟩
    · unfold usub at hmid
      split at hmid
      · cases hmid; exact ⟨fun h => by omega, fun h => by omega⟩
      · cases hmid
  split at h
  · rename_i hc
    simp only [bind_ok_iff] at h
    obtain ⟨rhs', hr', h⟩ := h
    split at h
    · rename_i hcM
      simp only [bind_ok_iff] at h
      obtain ⟨⟨p2, path2, w2⟩, h2, h⟩ := h
      cases h
      have hmm := hm.2 (by omega)
      obtain ⟨gp, x, b1, b2, b3⟩ := bubbleInsertHalf_tag h2 k1 (by simp only; rw [s3, List.getElem?_take_of_lt (by omega), hl])
      exact .inr ⟨.left, gp, x, fun ht => ⟨rfl, b3 ht⟩, b2, b1, fun _ => rfl⟩
    · rename_i hcM
      simp only [bind_ok_iff] at h
      obtain ⟨c', hc', _, _, ⟨p2, path2, w2⟩, h2, h⟩ := h
      cases h
      have hmm := hm.1 (by omega)
      have hcc : c = mid + 1 + c' := by
        unfold usub at hc'
        split at hc'
        · cases hc'; omega
        · cases hc'
      have er := shiftKeys_sls hr'
      obtain ⟨gp, x, b1, b2, b3⟩ := bubbleInsertHalf_tag h2 k1
        (by rw [er.2.2, s6, List.getElem?_drop, ← hcc, hl])
      exact .inr ⟨.right, gp, x, fun ht => ⟨rfl, b3 ht⟩, b2, b1, fun _ => rfl⟩
  · rename_i hc
    have hc : c = E.M := by omega
    have hmm := hm.2 (by omega)
    simp only [bind_ok_iff] at h
    obtain ⟨⟨rhs2, oldFirst, w3⟩, hrf, _, _, _, _, ⟨p2, w2⟩, h2, _, _, rhs3, h5, h⟩ := h
    cases h
    have hw3 : w3.events = w1.events := by
      unfold Node.replaceFirstChild at hrf
      split at hrf
      · cases hrf
      · cases hrf; exact link_events ..
    have k2 := k1.of ((pushKC_events h2).trans hw3)
    obtain ⟨d1, d2, d3⟩ := pushKC_sls h2
    have er := shiftKeys_sls h5
    have hfirst : oldFirst = b.lhs ∧ rhs2.kids[0]? = some b.rhs := by
      unfold Node.replaceFirstChild at hrf
      rw [s6] at hrf
      have hd : n1.kids = n1.kids := rfl
      have : parent.kids.drop (mid + 1) = b.lhs :: parent.kids.drop (mid + 2) := by
        rw [List.drop_eq_getElem_cons (by omega)]
        congr 1
        rw [← hle]
        congr 1
        omega
      rw [this] at hrf
      cases hrf
      exact ⟨rfl, rfl⟩
    have hl2 : p2.kids[E.M]? = some b.lhs := by
      rw [d3]
      have : (parent.kids.take (mid + 1)).length = E.M := by rw [List.length_take]; omega
      simp only [s3]
      rw [List.getElem?_append_right (by omega), this, hfirst.1]
      simp
    have hr2 : rhs3.kids[0]? = some b.rhs := by rw [er.2.2]; exact hfirst.2
    rcases k2 with ⟨a1, a2, a3⟩ | ⟨s, gp, x, a1, a2, a3, a4⟩
    · refine .inl ⟨fun ht => ⟨(a1 ht).1, ?_⟩, a2, a3⟩
      simp only [midPath, (a1 ht).1, (a1 ht).2]
    · refine .inr ⟨s, (match s with | .left => E.M | .right => 0) :: gp, x, fun ht => ⟨(a1 ht).1, ?_⟩, ?_, a3, a4⟩
      · simp only [midPath, (a1 ht).1, (a1 ht).2]
        cases s <;> rfl
      · cases s with
        | left => exact ⟨_, hl2, a2⟩
        | right => exact ⟨_, hr2, a2⟩

/-- What is known of the result of an insertion before the root is put in place. -/
def PostTag (q : S → Prop) (trk : Prop) (p : Post I S Ht) (path : List Nat) (w : World) : Prop :=
  match p with
  | .done t => ∃ gp x, TagAt q t gp x ∧ evState w = .ok (some x, true) ∧ (trk → path = gp)
  | .newRoot l k _ r => (q k.slice ∧ (∃ a, evState w = .ok (none, a)) ∧ (trk → path = [])) ∨
      ∃ s gp x, TagAt q (Side.pick l r s) gp x ∧ evState w = .ok (some x, true) ∧ (trk → path = s.toNat :: gp)

theorem evState_readUp {H' h' : Nat} (ctx : Ctx I S H' h') (a : Option Nat) (w : World) : evState (ctx.readUp a w) = evState w := by
  unfold evState; rw [readUp_events]

theorem PostTag.readUp {q : S → Prop} {trk : Prop} {p : Post I S Ht} {path : List Nat} {w : World} (h : PostTag q trk p path w)
    {H' h' : Nat} (ctx : Ctx I S H' h') (a : Option Nat) : PostTag q trk p path (ctx.readUp a w) := by
  cases p <;> simpa only [PostTag, evState_readUp] using h

theorem mapSide_above {m : Maps I} {h : Nat} {p : Option Nat} {f : Option (Nat × Nat)} {s : Option Side}
    (hm : m.cursor = true → m.lhsHeight + 1 < h) : mapSide m h p f s = s := by
  unfold mapSide
  split
  · rename_i hc
    simp only [Bool.and_eq_true, beq_iff_eq] at hc
    have := hm hc.1
    omega
  · rfl

theorem mapPath_above {m : Maps I} {h : Nat} {p : List Nat}
    (hm : m.cursor = true → m.lhsHeight + 1 < h) : (if m.cursor && h == m.lhsHeight + 1 then [] else p) = p := by
  split
  · rename_i hc
    simp only [Bool.and_eq_true, beq_iff_eq] at hc
    have := hm hc.1
    omega
  · rfl

theorem bubbleFinish_tag {q : S → Prop} {E : Env I S} {cb : Cb} {m : Maps I} {h : Nat} {ctx : Ctx I S Ht h}
    {b : Bubble I S (Tree I S h)} {hd : Bool} {path : List Nat} {w : World} {trk : Prop} {r}
    (hm : m.cursor = true → m.lhsHeight < h)
    (hr : bubbleFinish E cb m ctx b hd path w = .ok r)
    (hb : BTag q (TagAt q) cb.skip trk b (mapSide m h (ptrT b.lhs) w.fst b.side)
      (if m.cursor && h == m.lhsHeight + 1 then [] else path) w) : PostTag q trk r.1 r.2.1 r.2.2 := by
  induction ctx generalizing hd path w with
  | top =>
    simp only [bubbleFinish, bind_ok_iff] at hr
    obtain ⟨_, _, _, _, hr⟩ := hr
    cases hr
    rcases hb.of (link_events _ (ptrT b.lhs) .top) with ⟨a1, a2, a3⟩ | ⟨s, gp, x, a1, a2, a3, a4⟩
    · refine .inl ⟨a2, ?_, fun ht => ?_⟩
      · rcases a3 with ⟨_, _, a3⟩ | ⟨_, a3⟩
        · exact ⟨_, a3⟩
        · exact ⟨_, a3⟩
      · simp only [(a1 ht).1, (a1 ht).2, prependSide]
    · refine .inr ⟨s, gp, x, a2, a3, fun ht => ?_⟩
      simp only [(a1 ht).1, (a1 ht).2, prependSide, Nat.zero_add]
  | @frame h' ptr size keys kl kr up ih =>
    simp only [bubbleFinish, bind_ok_iff] at hr
    obtain ⟨⟨hd', sh⟩, _, hr⟩ := hr
    have hkid : (plugNode ptr size keys kl b.lhs kr).kids[kl.length]? = some b.lhs := by simp [plugNode]
    split at hr
    · simp only [bind_ok_iff] at hr
      obtain ⟨⟨n, ov, old, new, path', w1⟩, h1, ⟨t, path2⟩, h2, hr⟩ := hr
      cases hr
      obtain ⟨gp, x, b1, b2, b3⟩ := bubbleRoom_tag h1 (q := q) (ta := TagAt q) (trk := trk) (hb.of (link_events ..)) hkid
      obtain ⟨gp', c1, c2⟩ := opKey_tag (q := q) (trk := trk) (gp := gp) (x := x) (fun hc => Nat.le_of_lt (hm hc)) h2 b2
        (fun ht => by rw [mapCursor_above hm]; exact b3 ht)
      exact ⟨gp', x, c1, (evState_readUp ..).trans b1, c2⟩
    · simp only [bind_ok_iff] at hr
      obtain ⟨⟨b', path', w1⟩, h1, hr⟩ := hr
      have hb' := bubbleSplit_tag h1 (q := q) (ta := TagAt q) (trk := trk) (hb.of (link_events ..)) hkid
      have hm' : m.cursor = true → m.lhsHeight + 1 < h' + 1 := fun hc => Nat.succ_lt_succ (hm hc)
      refine ih (fun hc => Nat.lt_succ_of_lt (hm hc)) hr ?_
      rw [mapSide_above hm', mapPath_above hm']
      exact hb'

/-! ## Leaves -/

theorem update_fst (r : Option Nat) (p i : Nat) (w : World) : (w.update r p i).fst = w.fst := by cases r <;> rfl

theorem suspend_fst (r : Option Nat) (w : World) : (w.suspend r).fst = w.fst := by cases r <;> rfl

/-- The parts of the world that an operation on nodes does not touch. -/
def SameEv (w w' : World) : Prop := w'.events = w.events ∧ w'.fst = w.fst

theorem SameEv.trans {a b c : World} (h1 : SameEv a b) (h2 : SameEv b c) : SameEv a c := ⟨h2.1.trans h1.1, h2.2.trans h1.2⟩

theorem insertKC_ev [HasPtr C] {n n' : Node I S C} {mx i : Nat} {s : S} {r : Option Nat} {c : C} {pos : I} {w w' : World}
    (h : Node.insertKeyAndChild mx n i s r c w = .ok (n', pos, w')) : SameEv w w' := by
  refine ⟨insertKC_events h, ?_⟩
  simp only [Node.insertKeyAndChild, bind_ok_iff] at h
  obtain ⟨_, h1, _, _, h⟩ := h
  cases h
  rw [indexFrom_fst, World.link_fst, updateFrom_fst]

theorem pushKC_ev [HasPtr C] {n n' : Node I S C} {mx : Nat} {s : S} {r : Option Nat} {c : C} {z : I} {w w' : World}
    (h : Node.pushKeyAndChild mx n s r c z w = .ok (n', w')) : SameEv w w' := by
  refine ⟨pushKC_events h, ?_⟩
  simp only [Node.pushKeyAndChild, bind_ok_iff] at h
  obtain ⟨_, _, h⟩ := h
  cases h
  rw [update_fst, World.link_fst]

theorem split_ev [HasPtr C] {n n' rhs : Node I S C} {mid : Nat} {key : Key I S} {w w' : World}
    (h : n.split mid w = .ok (n', key, rhs, w')) : SameEv w w' := by
  refine ⟨split_events h, ?_⟩
  unfold Node.split at h
  split at h
  · cases h
  · cases h
    rw [linkFrom_fst, suspend_fst, updateFrom_fst]; rfl

/-- The place of the first new slice, as `insert_rhs` follows it. -/
theorem emit_fst {cb : Cb} {ev : Ev} {w w' : World} (h : emit cb ev w = .ok w') (hr : cb.remap = true) (hf : w.fst = none) :
    (∀ p i, ev = .insertion p i → w'.fst = some (p, i)) ∧ ((∀ p i, ev ≠ .insertion p i) → w'.fst = none) := by
  simp only [emit, bind_ok_iff] at h
  obtain ⟨w1, h1, h⟩ := h
  cases h
  have e : (emitRec cb ev w1).fst = w1.fst := by
    unfold emitRec
    split <;> rfl
  rw [e]
  simp only [emitFst, hr, if_true, hf] at h1
  cases ev with
  | insertion p i =>
    cases h1
    exact ⟨fun _ _ h => by cases h; rfl, fun h => absurd rfl (h p i)⟩
  | _ =>
    cases h1
    exact ⟨fun _ _ h => (by cases h), fun _ => hf⟩

/-- The new slices in order. -/
def news (f : Sized I S) (s : Option (Sized I S)) : List S := f.slice :: (s.map (·.slice)).toList

theorem leafInsert_two {E : Env I S} {n n1 n2 n3 : Tree I S 1} {i : Nat} {a b : S} {p1 p2 : I} {w w1 w2 : World}
    (h1 : leafInsert E n i a w = .ok (n1, p1, w1)) (e : SameSls n2 n1) (h2 : leafInsert E n2 (i + 1) b w1 = .ok (n3, p2, w2)) :
    Node.ptr n3 = Node.ptr n ∧ Node.sls n3 = (Node.sls n).take i ++ [a, b] ++ (Node.sls n).drop i ∧ SameEv w w2 := by
  obtain ⟨a1, a2, _, a4⟩ := insertKC_sls h1
  obtain ⟨b1, b2, _, _⟩ := insertKC_sls h2
  refine ⟨b1.trans (e.1.trans a1), ?_, (insertKC_ev h1).trans (insertKC_ev h2)⟩
  have l1 : (List.take i (Node.sls n)).length = i := by rw [List.length_take]; omega
  rw [b2, e.2.1, a2]
  have : i + 1 = (List.take i (Node.sls n)).length + 1 := by omega
  rw [List.take_append, List.drop_append, l1]
  simp [List.take_take, List.drop_take]

theorem leafInsertHalf_sls {E : Env I S} {cb : Cb} {n : Tree I S 1} {i : Nat} {ov : Option I} {f : Sized I S}
    {s : Option (Sized I S)} {w : World} {r} (h : leafInsertHalf E cb n i ov f s w = .ok r) :
    Node.ptr r.1 = Node.ptr n ∧ Node.sls r.1 = (Node.sls n).take i ++ news f s ++ (Node.sls n).drop i ∧ i ≤ (Node.sls n).length ∧
      ∃ w0, SameEv w w0 ∧ emit cb (.insertion (Node.ptr n) i) w0 = .ok r.2 := by
  have key : ∀ (pos old new : I), ((do
        let (n, _, w) ← leafInsert E n i f.slice w
        let fstPos ← E.ix.addR pos new
        let n ← Node.setKeyPos n i fstPos
        let new ← E.ix.addR new f.size
        let (n, new, start, w) ← match s with
          | none => pure (n, new, i + 1, w)
          | some s => do
            let (n, _, w) ← leafInsert E n (i + 1) s.slice w
            let new ← E.ix.addR new s.size
            let sndPos ← E.ix.addR fstPos f.size
            let n ← Node.setKeyPos n (i + 1) sndPos
            pure (n, new, i + 2, w)
        let n ← Node.shiftKeys E.ix n true start pos old new
        let _ ← Node.handle n i
        let w ← emit cb (.insertion n.ptr i) w
        pure (n, w) : R (Tree I S 1 × World)) = .ok r) →
      Node.ptr r.1 = Node.ptr n ∧ Node.sls r.1 = (Node.sls n).take i ++ news f s ++ (Node.sls n).drop i ∧ i ≤ (Node.sls n).length ∧
        ∃ w0, SameEv w w0 ∧ emit cb (.insertion (Node.ptr n) i) w0 = .ok r.2 := by
    intro pos old new h
    simp only [bind_ok_iff] at h
    obtain ⟨⟨n1, p1, w1⟩, h1, _, _, n2, h2, _, _, h⟩ := h
    have e2 := setKeyPos_sls h2
    obtain ⟨a1, a2, _, a4⟩ := insertKC_sls h1
    cases s with
    | none =>
      simp only [R.pure_eq, R.bind_ok, bind_ok_iff] at h
      obtain ⟨n3, h3, _, _, w4, h4, h⟩ := h
      cases h
      have e := (shiftKeys_sls h3).trans e2
      refine ⟨e.1.trans a1, ?_, a4, w1, insertKC_ev h1, ?_⟩
      · simp only [e.2.1, a2]; simp [news]
      · rw [← a1, ← e.1]; exact h4
    | some s =>
      simp only [R.pure_eq, R.bind_ok, bind_ok_iff] at h
      obtain ⟨⟨n3, _, w3⟩, h3, _, _, _, _, n4, h4, n5, h5, _, _, w6, h6, h⟩ := h
      cases h
      obtain ⟨c1, c2, c3⟩ := leafInsert_two h1 e2 h3
      have e := (shiftKeys_sls h5).trans (setKeyPos_sls h4)
      refine ⟨e.1.trans c1, ?_, a4, w3, c3, ?_⟩
      · simp only [e.2.1, c2]; simp [news]
      · rw [← c1, ← e.1]; exact h6
  cases ov with
  | none => exact key (Node.nextPos n i) E.ix.zero E.ix.zero h
  | some z =>
    simp only [leafInsertHalf, bind_ok_iff, R.pure_eq, R.bind_ok] at h
    obtain ⟨_, _, p, _, ss, _, h⟩ := h
    exact key p ss z (by simp only [bind_ok_iff, R.pure_eq, R.bind_ok]; exact h)

theorem leafRoom_sls {E : Env I S} {cb : Cb} {n : Tree I S 1} {i : Nat} {ov : Option I} {f : Sized I S}
    {s : Option (Sized I S)} {ad : I} {w : World} {r} (h : leafRoom E cb n i ov f s ad w = .ok r) :
    Node.ptr r.1 = Node.ptr n ∧ Node.sls r.1 = (Node.sls n).take i ++ news f s ++ (Node.sls n).drop i ∧ i ≤ (Node.sls n).length ∧
      ∃ w0, SameEv w w0 ∧ emit cb (.insertion (Node.ptr n) i) w0 = .ok r.2.2.2.2 := by
  simp only [leafRoom, bind_ok_iff] at h
  cases ov with
  | some nl =>
    simp only [bind_ok_iff] at h
    obtain ⟨_, _, _, _, _, _, _, _, ⟨n1, _, w1⟩, h1, n2, h2, h⟩ := h
    have e2 := setKeyPos_sls h2
    obtain ⟨a1, a2, _, a4⟩ := insertKC_sls h1
    cases s with
    | none =>
      simp only [bind_ok_iff, R.pure_eq, R.bind_ok] at h
      obtain ⟨_, _, _, _, _, h5, h⟩ := h
      cases h
      refine ⟨e2.1.trans a1, ?_, a4, w1, insertKC_ev h1, ?_⟩
      · simp only [e2.2.1, a2]; simp [news]
      · rw [← a1, ← e2.1]; exact h5
    | some s =>
      simp only [bind_ok_iff, R.pure_eq, R.bind_ok] at h
      obtain ⟨⟨n3, _, w3⟩, h3, _, _, n4, h4, _, _, _, _, _, h5, h⟩ := h
      cases h
      obtain ⟨c1, c2, c3⟩ := leafInsert_two h1 e2 h3
      have e := setKeyPos_sls h4
      refine ⟨e.1.trans c1, ?_, a4, w3, c3, ?_⟩
      · simp only [e.2.1, c2]; simp [news]
      · rw [← c1, ← e.1]; exact h5
  | none =>
    simp only [bind_ok_iff] at h
    obtain ⟨⟨n1, _, w1⟩, h1, h⟩ := h
    obtain ⟨a1, a2, _, a4⟩ := insertKC_sls h1
    cases s with
    | none =>
      simp only [bind_ok_iff, R.pure_eq, R.bind_ok] at h
      obtain ⟨_, _, _, h5, h⟩ := h
      cases h
      refine ⟨a1, ?_, a4, w1, insertKC_ev h1, ?_⟩
      · simp only [a2]; simp [news]
      · rw [← a1]; exact h5
    | some s =>
      simp only [bind_ok_iff, R.pure_eq, R.bind_ok] at h
      obtain ⟨⟨n3, _, w3⟩, h3, _, _, n4, h4, _, _, _, h5, h⟩ := h
      cases h
      obtain ⟨c1, c2, c3⟩ := leafInsert_two h1 (.refl _) h3
      have e := setKeyPos_sls h4
      refine ⟨e.1.trans c1, ?_, a4, w3, c3, ?_⟩
      · simp only [e.2.1, c2]; simp [news]
      · rw [← c1, ← e.1]; exact h5

theorem prependSnd_ev {E : Env I S} {n : Tree I S 1} {s : Option (Sized I S)} {w : World} {r}
    (h : prependSnd E n s w = .ok r) : SameEv w r.2 := by
  cases s with
  | none => cases h; exact ⟨rfl, rfl⟩
  | some s =>
    simp only [prependSnd, bind_ok_iff] at h
    obtain ⟨⟨n1, _, w1⟩, h1, n2, h2, h⟩ := h
    cases h
    exact insertKC_ev h1

/-- An event that says that the new slice was not inserted yet does nothing before it is. -/
theorem emit_before {cb : Cb} {ev : Ev} {w w' : World} (h : emit cb ev w = .ok w') (hw : evState w = .ok (none, false))
    (he : ∀ p i, ev ≠ .insertion p i) : evState w' = .ok (none, false) := by
  have := emit_state h
  rw [hw] at this
  rw [this]
  cases ev with
  | insertion p i => exact absurd rfl (he p i)
  | _ => cases cb.skip <;> rfl

theorem new_at {f : Sized I S} {s : Option (Sized I S)} {l r : List S} (i : Nat) (hi : i = l.length) :
    (l ++ news f s ++ r)[i]? = some f.slice := by
  subst hi
  simp [news]

theorem leafSplitSmall_tag {q : S → Prop} {E : Env I S} {cb : Cb} {n : Tree I S 1} {i : Nat} {ov : Option I} {f s : Sized I S}
    {w : World} {trk : Prop} {r} (h : leafSplitSmall E cb n i ov f s w = .ok r) (hs : cb.skip = false) (hq : q f.slice)
    (hw : evState w = .ok (none, false)) : BTag q (TagAt q) cb.skip trk r.1 r.1.side [] r.2 := by
  simp only [leafSplitSmall, bind_ok_iff] at h
  obtain ⟨_, _, _, _, _, _, _, _, ⟨n1, mid, rhs, w1⟩, h1, h⟩ := h
  have k1 := evState_of (split_events h1)
  obtain ⟨s1, s2, _⟩ := split_sls h1
  split at h
  · simp only [bind_ok_iff] at h
    obtain ⟨⟨n3, w3⟩, h3, ⟨rhs4, w4⟩, h4, w5, h5, w6, h6, h⟩ := h
    cases h
    have k3 := evState_of (leafPush_events h3)
    have k4 := evState_of (leafPush_events h4)
    have k5 := emit_before h5 (by rw [k4, k3, k1, hw]) (by intro p i h; cases h)
    have k6 := (EvOk.insertion h6 k5).2 hs rfl
    obtain ⟨d1, d2, _⟩ := pushKC_sls h3
    refine .inr ⟨.left, [], (Node.ptr n3, 0), fun _ => ⟨rfl, rfl⟩, ⟨rfl, f.slice, ?_, hq⟩, k6, fun _ => rfl⟩
    change (Node.sls n3)[0]? = _
    rw [d2]
    have : Node.sls n1 = [] := by rw [s2]; rfl
    change (Node.sls n1 ++ [f.slice])[0]? = _
    rw [this]
    rfl
  · simp only [bind_ok_iff] at h
    obtain ⟨⟨n3, w3⟩, h3, ⟨rhs4, w4⟩, h4, h⟩ := h
    cases h
    have k3 := evState_of (leafPush_events h3)
    have k4 := evState_of (leafPush_events h4)
    exact .inl ⟨fun _ => ⟨rfl, rfl⟩, hq, .inl ⟨hs, rfl, by rw [k4, k3, k1, hw]⟩⟩

/-- Splitting a leaf when the first new slice is marked and not in the tree yet. -/
theorem leafSplit_tag {q : S → Prop} {E : Env I S} {cb : Cb} {n : Tree I S 1} {i : Nat} {ov : Option I} {f : Sized I S}
    {s : Option (Sized I S)} {w : World} {trk : Prop} {r} (h : leafSplit E cb n i ov f s w = .ok r) (hs : cb.skip = false)
    (hq : q f.slice) (hw : evState w = .ok (none, false)) : BTag q (TagAt q) cb.skip trk r.1 r.1.side [] r.2 := by
  unfold leafSplit at h
  split at h
  · split at h
    · cases h
    · exact leafSplitSmall_tag h hs hq hw
  · simp only [bind_ok_iff] at h
    obtain ⟨⟨mid, at_⟩, _, ⟨n1, key, rhs, w1⟩, h1, w2, h2, w3, h3, ⟨kz, ov'⟩, _, rhs', h4, h⟩ := h
    have k1 := evState_of (split_events h1)
    have k2 := emit_before h2 (by rw [k1, hw]) (by intro p i h; cases h)
    have k3 := emit_before h3 k2 (by intro p i h; cases h)
    simp only [splitPlace] at h
    rcases at_ with (_ | _) | (_ | _)
    · simp only [bind_ok_iff] at h
      obtain ⟨⟨n5, w5⟩, h5, h⟩ := h
      cases h
      obtain ⟨a1, a2, a4, w0, a5, a6⟩ := leafInsertHalf_sls h5
      have k6 := (EvOk.insertion a6 (by rw [evState_of a5.1, k3])).2 hs rfl
      refine .inr ⟨.left, [], (Node.ptr n1, i), fun _ => ⟨rfl, rfl⟩, ⟨a1, f.slice, ?_, hq⟩, k6, fun _ => rfl⟩
      change (Node.sls n5)[i]? = _
      rw [a2, new_at]
      rw [List.length_take]; omega
    · simp only [bind_ok_iff] at h
      obtain ⟨i', hi', ⟨n5, w5⟩, h5, h⟩ := h
      cases h
      obtain ⟨a1, a2, a4, w0, a5, a6⟩ := leafInsertHalf_sls h5
      have k6 := (EvOk.insertion a6 (by rw [evState_of a5.1, k3])).2 hs rfl
      refine .inr ⟨.right, [], (Node.ptr rhs', i'), fun _ => ⟨rfl, rfl⟩, ⟨a1, f.slice, ?_, hq⟩, k6, fun _ => rfl⟩
      change (Node.sls n5)[i']? = _
      rw [a2, new_at]
      rw [List.length_take]; omega
    · cases s with
      | none => cases h
      | some s =>
        simp only [bind_ok_iff] at h
        obtain ⟨_, _, _, _, ⟨n5, w5⟩, h5, ⟨n6, w6⟩, h6, _, _, _, _, w7, h7, w8, h8, h⟩ := h
        cases h
        have k6 : evState w6 = .ok (none, false) := by
          rw [evState_of (leafPush_events h6), evState_of (leafPush_events h5), k3]
        have k7 := emit_before h7 k6 (by intro p i h; cases h)
        have k8 := (EvOk.insertion h8 k7).2 hs rfl
        obtain ⟨_, d2, _⟩ := pushKC_sls h5
        obtain ⟨_, e2, _⟩ := pushKC_sls h6
        refine .inr ⟨.left, [], _, fun _ => ⟨rfl, rfl⟩, ⟨rfl, f.slice, ?_, hq⟩, k8, fun _ => rfl⟩
        change (Node.sls n6)[Node.len n1 + 1]? = _
        rw [e2]
        have hl : (Node.sls n5).length = Node.len n1 + 1 := by rw [d2]; simp [Node.sls, Node.len]
        change (Node.sls n5 ++ [f.slice])[Node.len n1 + 1]? = _
        rw [List.getElem?_append_right (by omega), hl]
        simp
    · simp only [bind_ok_iff] at h
      obtain ⟨_, _, ⟨n5, w5⟩, h5, _, _, w6, h6, ⟨rhs7, w7⟩, h7, h⟩ := h
      cases h
      have k5 := emit_before h6 (by rw [evState_of (leafPush_events h5), k3]) (by intro p i h; cases h)
      exact .inl ⟨fun _ => ⟨rfl, rfl⟩, hq, .inl ⟨hs, rfl, by rw [evState_of (prependSnd_ev h7).1, k5]⟩⟩

/-- Splitting a leaf when key `k`, left of the new slice, is marked and known. -/
theorem leafSplit_tagLhs {q : S → Prop} {E : Env I S} {cb : Cb} {m : Maps I} {n : Tree I S 1} {k : Nat} {ov : Option I} {f : Sized I S}
    {w : World} {sl : S} {r} (h : leafSplit E cb n (k + 1) ov f none w = .ok r) (hs : cb.skip = true)
    (hm : m.cursor = cb.remap) (hm0 : m.lhsHeight = 0) (hk : (Node.sls n)[k]? = some sl) (hq : q sl)
    (hw : evState w = .ok (some (Node.ptr n, k), true)) (hf : w.fst = none) (hn : Node.ptr n ≠ w.next) :
    BTag q (TagAt q) cb.skip (cb.remap = true) r.1 (mapSide m 1 (ptrT r.1.lhs) r.2.fst r.1.side) [] r.2 := by
  have hside0 : ∀ (p : Option Nat) (sd : Option Side), cb.remap = true → mapSide m 1 p none sd = some .left := by
    intro p sd hr
    simp [mapSide, hm, hr, hm0]
  have hside : ∀ (p : Option Nat) (p' i : Nat) (sd : Option Side), cb.remap = true →
      mapSide m 1 p (some (p', i)) sd = if i = 0 ∧ p ≠ some p' then none else sd := by
    intro p p' i sd hr
    simp [mapSide, hm, hr, hm0]
  obtain ⟨hk1, hk2⟩ := List.getElem?_eq_some_iff.mp hk
  unfold leafSplit at h
  split at h
  · cases h
  · simp only [bind_ok_iff] at h
    obtain ⟨⟨mid, at_⟩, hpl, ⟨n1, key, rhs, w1⟩, h1, w2, h2, w3, h3, ⟨kz, ov'⟩, _, rhs', h4, h⟩ := h
    obtain ⟨s1, s2, _, s4, s5, _, s7⟩ := split_sls h1
    have k1 : evState w1 = .ok (some (Node.ptr n, k), true) := by rw [evState_of (split_events h1), hw]
    have f1 : w1.fst = none := by rw [(split_ev h1).2, hf]
    have f2 : cb.remap = true → w2.fst = none := fun hr => (emit_fst h2 hr f1).2 (by intro p i h; cases h)
    have f3 : cb.remap = true → w3.fst = none := fun hr => (emit_fst h3 hr (f2 hr)).2 (by intro p i h; cases h)
    obtain ⟨hmid, _⟩ := List.getElem?_eq_some_iff.mp s7
    have hmlen : Node.len n1 = mid := by
      have : (Node.sls n1).length = mid := by rw [s2, List.length_take]; omega
      simpa [Node.sls, Node.len] using this
    have hrlen : mid + 1 + Node.len rhs = (Node.sls n).length := by
      have : (Node.sls rhs).length = (Node.sls n).length - (mid + 1) := by rw [s5, List.length_drop]
      simp only [Node.sls, List.length_map] at this hmid ⊢
      simp only [Node.len]
      omega
    have k2 : evState w2 = .ok (if mid < k then (some (w.next, k - (mid + 1)), true) else (some (Node.ptr n, k), true)) := by
      rw [emit_state h2, k1]
      simp only [s1, s4]
      have hx : (match cb.skip, Ev.move (Node.ptr n) (mid + 1) (mid + 1 + rhs.len) w.next 0 with
          | true, .insertion _ _ => evState w1
          | _, _ => (Except.ok (some (Node.ptr n, k), true) : R _).bind fun st => applyEv st (Ev.move (Node.ptr n) (mid + 1) (mid + 1 + rhs.len) w.next 0)) =
          applyEv (some (Node.ptr n, k), true) (Ev.move (Node.ptr n) (mid + 1) (mid + 1 + rhs.len) w.next 0) := by
        cases cb.skip <;> rfl
      have hx2 : applyEv (some (Node.ptr n, k), true) (Ev.move (Node.ptr n) (mid + 1) (mid + 1 + rhs.len) w.next 0) =
          .ok (if mid < k then (some (w.next, k - (mid + 1)), true) else (some (Node.ptr n, k), true)) := by
        simp only [applyEv]
        by_cases c : mid < k
        · have c1 : ¬ (Node.ptr n ≠ Node.ptr n ∨ ¬(mid + 1 ≤ k ∧ k < mid + 1 + rhs.len)) := by
            simp only [ne_eq, not_true, false_or, Classical.not_not]
            exact ⟨c, by omega⟩
          rw [if_neg c1, usub_ok (by omega), if_pos c]
          rfl
        · rw [if_pos (.inr (by omega)), if_neg c]
          rfl
      cases hsk : cb.skip <;> exact hx2
    have k3 : evState w3 = .ok (if mid < k then (some (w.next, k - (mid + 1)), true) else if mid = k then (none, true)
        else (some (Node.ptr n, k), true)) := by
      rw [emit_state h3, k2]
      simp only [s1, hmlen]
      have hx2 : applyEv (if mid < k then (some (w.next, k - (mid + 1)), true) else (some (Node.ptr n, k), true)) (.remove (Node.ptr n) mid) =
          .ok (if mid < k then (some (w.next, k - (mid + 1)), true) else if mid = k then (none, true)
        else (some (Node.ptr n, k), true)) := by
        by_cases c : mid < k
        · simp only [c, if_true, applyEv]
          rw [if_pos (.inl hn)]
          rfl
        · simp only [c, if_false, applyEv]
          by_cases c2 : mid = k
          · rw [if_neg (by simp [c2]), if_pos c2]
            rfl
          · rw [if_pos (.inr c2), if_neg c2]
            rfl
      cases hsk : cb.skip <;> exact hx2
    have hplan : (k + 1 < E.M ∧ mid + 1 = E.M ∧ at_ = .inl .left) ∨ (k + 1 = E.M ∧ mid = k ∧ at_ = .inr .right) ∨
        (E.M < k + 1 ∧ mid = E.M ∧ at_ = .inl .right) := by
      simp only [splitPlan, Option.isSome_none, Bool.false_and, Bool.false_eq_true, if_false] at hpl
      split at hpl
      · rename_i c
        simp only [bind_ok_iff] at hpl
        obtain ⟨m1, hm1, hpl⟩ := hpl
        cases hpl
        rw [usub_ok (by omega)] at hm1
        cases hm1
        exact .inl ⟨c, by omega, rfl⟩
      · split at hpl
        · rename_i c
          simp only [bind_ok_iff] at hpl
          obtain ⟨m1, hm1, hpl⟩ := hpl
          cases hpl
          rw [usub_ok (by omega)] at hm1
          cases hm1
          exact .inr (.inl ⟨c, by omega, rfl⟩)
        · cases hpl
          exact .inr (.inr ⟨by omega, rfl, rfl⟩)
    simp only [splitPlace] at h
    have er := shiftKeys_sls h4
    rcases hplan with ⟨c1, c2, rfl⟩ | ⟨c1, c2, rfl⟩ | ⟨c1, c2, rfl⟩
    · -- the key stays in the left half
      simp only [bind_ok_iff] at h
      obtain ⟨⟨n5, w5⟩, h5, h⟩ := h
      cases h
      obtain ⟨a1, a2, a4, w0, a5, a6⟩ := leafInsertHalf_sls h5
      have k4 : evState w5 = .ok (some (Node.ptr n, k), true) := by
        have := (EvOk.insertion a6 (by rw [evState_of a5.1, k3])).1 hs
        rw [this, if_neg (by omega), if_neg (by omega)]
      refine .inr ⟨.left, [], _, fun hr => ⟨?_, rfl⟩, ⟨?_, sl, ?_, hq⟩, k4, fun hs' => Bool.noConfusion (hs.symm.trans hs')⟩
      · have hfst := (emit_fst a6 hr (by rw [a5.2, f3 hr])).1 _ _ rfl
        change mapSide m 1 _ w5.fst _ = _
        rw [hfst, hside _ _ _ _ hr, if_neg (by omega)]
      · exact a1.trans s1
      · change (Node.sls n5)[k]? = _
        rw [a2]
        have : Node.sls { n1 with size := key.pos } = (Node.sls n).take mid := s2
        rw [this, List.append_assoc, List.getElem?_append_left (by simp only [List.length_take]; omega),
          List.getElem?_take_of_lt (by omega), List.getElem?_take_of_lt (by omega), hk]
    · -- the key is put back at the end of the left half
      simp only [bind_ok_iff] at h
      obtain ⟨_, _, ⟨n5, w5⟩, h5, j, hj, w6, h6, ⟨rhs7, w7⟩, h7, h⟩ := h
      cases h
      obtain ⟨d1, d2, _⟩ := pushKC_sls h5
      have hl5 : Node.len n5 = mid + 1 := by
        have : (Node.sls n5).length = mid + 1 := by
          rw [d2]
          have : Node.sls { n1 with size := key.pos } = (Node.sls n).take mid := s2
          rw [this, List.length_append, List.length_take]
          simp
          omega
        simpa [Node.sls, Node.len] using this
      have hj : j = mid := by
        change usub (Node.len n5) 1 = .ok j at hj
        rw [hl5, usub_ok (by omega)] at hj
        cases hj
        rfl
      have k5 : evState w5 = .ok (none, true) := by
        rw [evState_of (leafPush_events h5), k3, if_neg (by omega), if_pos c2]
      have k6 : evState w6 = .ok (some (Node.ptr n5, j), true) := by
        have := EvOk.putBack h6 k5
        simpa using this
      have k7 : evState w7 = .ok (some (Node.ptr n5, j), true) := by rw [evState_of (prependSnd_ev h7).1, k6]
      refine .inr ⟨.left, [], _, fun hr => ⟨?_, rfl⟩, ⟨rfl, sl, ?_, hq⟩, k7, fun hs' => Bool.noConfusion (hs.symm.trans hs')⟩
      · have f5 : w5.fst = none := by rw [(pushKC_ev h5).2, f3 hr]
        have f6 := (emit_fst h6 hr f5).2 (by intro p i h; cases h)
        have f7 : w7.fst = none := by rw [(prependSnd_ev h7).2, f6]
        change mapSide m 1 _ w7.fst _ = _
        rw [f7, hside0 _ _ hr]
      · change (Node.sls n5)[j]? = _
        rw [d2, hj]
        have : Node.sls { n1 with size := key.pos } = (Node.sls n).take mid := s2
        rw [this]
        have hlen : (List.take mid (Node.sls n)).length = mid := by rw [List.length_take]; omega
        rw [List.getElem?_append_right (by omega), hlen]
        rw [c2] at s7
        rw [hk] at s7
        cases s7
        simp
    · -- the key is the midpoint, or in the right half
      simp only [bind_ok_iff] at h
      obtain ⟨i', hi', ⟨n5, w5⟩, h5, h⟩ := h
      cases h
      obtain ⟨a1, a2, a4, w0, a5, a6⟩ := leafInsertHalf_sls h5
      have k4 := (EvOk.insertion a6 (by rw [evState_of a5.1, k3])).1 hs
      rw [usub_ok (by omega)] at hi'
      cases hi'
      have hr5 : Node.ptr n5 = w.next := a1.trans (er.1.trans s4)
      by_cases c3 : mid = k
      · rw [if_neg (by omega), if_pos c3] at k4
        have hkey : sl = key.slice := by
          rw [c3, hk] at s7
          cases s7
          rfl
        refine .inl ⟨fun hr => ⟨?_, rfl⟩, ?_, .inr ⟨rfl, k4⟩⟩
        · have hfst := (emit_fst a6 hr (by rw [a5.2, f3 hr])).1 _ _ rfl
          change mapSide m 1 _ w5.fst _ = _
          rw [hfst, hside _ _ _ _ hr, if_pos]
          refine ⟨by omega, ?_⟩
          intro e
          have e := Option.some.inj e
          exact hn (s1.symm.trans (e.trans (er.1.trans s4)))
        · rw [← hkey]; exact hq
      · rw [if_pos (by omega)] at k4
        refine .inr ⟨.right, [], (w.next, k - (mid + 1)), fun hr => ⟨?_, rfl⟩, ⟨hr5, sl, ?_, hq⟩, k4, fun hs' => Bool.noConfusion (hs.symm.trans hs')⟩
        · have hfst := (emit_fst a6 hr (by rw [a5.2, f3 hr])).1 _ _ rfl
          change mapSide m 1 _ w5.fst _ = _
          rw [hfst, hside _ _ _ _ hr, if_neg (by omega)]
        · change (Node.sls n5)[k - (mid + 1)]? = _
          have hrs : Node.sls rhs' = (Node.sls n).drop (mid + 1) := er.2.1.trans s5
          rw [a2, hrs, List.append_assoc, List.getElem?_append_left (by simp only [List.length_take, List.length_drop]; omega),
            List.getElem?_take_of_lt (by omega), List.getElem?_drop, ← hk]
          congr 1
          omega

/-! ## Insertion into a leaf -/

theorem noJoin_cases {E : Env I S} {cb : Cb} {m : Maps I} {n : Tree I S 1} {ctx : Ctx I S Ht 1} {i : Nat}
    {ov : Option I} {f : Sized I S} {s : Option (Sized I S)} {w : World} {r} (h : noJoin E cb m n ctx i ov f s w = .ok r) :
    (∃ b w1, leafSplit E cb n i ov f s w = .ok (b, w1) ∧ bubbleFinish E cb m ctx b false [] w1 = .ok r) ∨
      ∃ ad x t path j, leafRoom E cb n i ov f s ad w = .ok x ∧
        opKey E.ix m false ctx x.1 j x.2.1 x.2.2.1 x.2.2.2.1 [] = .ok (t, path) ∧ r = (.done t, path, ctx.readUp (ptrT x.1) x.2.2.2.2) := by
  simp only [noJoin, bind_ok_iff] at h
  obtain ⟨_, _, _, _, h⟩ := h
  have key : ∀ (one : Nat) (ad : I), ((usub (2 * E.M) one >>= fun lim => if Node.len n ≥ lim then do
      let (b, w) ← leafSplit E cb n i ov f s w
      bubbleFinish E cb m ctx b false [] w
    else do
      let (n, ovPos, old, new, w) ← leafRoom E cb n i ov f s ad w
      let (t, path) ← opKey E.ix m false ctx n (i + one) ovPos old new []
      pure (.done t, path, ctx.readUp (ptrT n) w)) = .ok r) → (∃ b w1, leafSplit E cb n i ov f s w = .ok (b, w1) ∧ bubbleFinish E cb m ctx b false [] w1 = .ok r) ∨
      ∃ ad x t path j, leafRoom E cb n i ov f s ad w = .ok x ∧
        opKey E.ix m false ctx x.1 j x.2.1 x.2.2.1 x.2.2.2.1 [] = .ok (t, path) ∧ r = (.done t, path, ctx.readUp (ptrT x.1) x.2.2.2.2) := by
    intro one ad h
    simp only [bind_ok_iff] at h
    obtain ⟨_, _, h⟩ := h
    split at h
    · simp only [bind_ok_iff] at h
      obtain ⟨⟨b, w1⟩, h1, h⟩ := h
      exact .inl ⟨b, w1, h1, h⟩
    · simp only [bind_ok_iff] at h
      obtain ⟨x, h1, ⟨t, path⟩, h2, h⟩ := h
      cases h
      exact .inr ⟨ad, x, t, path, _, h1, h2, rfl⟩
  cases s with
  | none => exact key 0 f.size h
  | some s =>
    simp only [bind_ok_iff, R.pure_eq, R.bind_ok] at h
    obtain ⟨ad, _, h⟩ := h
    exact key 1 ad (by simpa only [bind_ok_iff, R.pure_eq, R.bind_ok] using h)

/-- The first new slice is marked and not in the tree yet. -/
theorem noJoin_tag {q : S → Prop} {E : Env I S} {cb : Cb} {m : Maps I} {n : Tree I S 1} {ctx : Ctx I S Ht 1} {i : Nat}
    {ov : Option I} {f : Sized I S} {s : Option (Sized I S)} {w : World} {r} (h : noJoin E cb m n ctx i ov f s w = .ok r)
    (hs : cb.skip = false) (hm : m.cursor = false) (hq : q f.slice) (hw : evState w = .ok (none, false)) :
    PostTag q True r.1 r.2.1 r.2.2 := by
  rcases noJoin_cases h with ⟨b, w1, h1, h2⟩ | ⟨ad, x, t, path, j, h1, h2, rfl⟩
  · have hb := leafSplit_tag (trk := True) h1 hs hq hw
    refine bubbleFinish_tag (by rw [hm]; intro h; cases h) h2 ?_
    rw [mapSide_above (by rw [hm]; intro h; cases h), mapPath_above (by rw [hm]; intro h; cases h)]
    exact hb
  · obtain ⟨a1, a2, a4, w0, a5, a6⟩ := leafRoom_sls h1
    have k := (EvOk.insertion a6 (by rw [evState_of a5.1, hw])).2 hs rfl
    obtain ⟨gp', c1, c2⟩ := opKey_tag (q := q) (trk := True) (gp := []) (x := (Node.ptr n, i)) (by rw [hm]; intro h; cases h) h2
      ⟨a1, f.slice, by rw [a2, new_at]; rw [List.length_take]; omega, hq⟩ (fun _ => mapCursor_above (by rw [hm]; intro h; cases h))
    exact ⟨gp', _, c1, (evState_readUp ..).trans k, c2⟩

/-- Key `k` of the leaf is marked and known, the first new slice is to be put right of it. -/
theorem noJoin_tagLhs {q : S → Prop} {E : Env I S} {cb : Cb} {m : Maps I} {n : Tree I S 1} {ctx : Ctx I S Ht 1} {k : Nat}
    {ov : Option I} {f : Sized I S} {w : World} {sl : S} {r} (h : noJoin E cb m n ctx (k + 1) ov f none w = .ok r)
    (hs : cb.skip = true) (hm : m.cursor = cb.remap) (hm0 : m.lhsHeight = 0) (hk : (Node.sls n)[k]? = some sl) (hq : q sl)
    (hw : evState w = .ok (some (Node.ptr n, k), true)) (hf : w.fst = none) (hn : Node.ptr n ≠ w.next) :
    PostTag q (cb.remap = true) r.1 r.2.1 r.2.2 := by
  rcases noJoin_cases h with ⟨b, w1, h1, h2⟩ | ⟨ad, x, t, path, j, h1, h2, rfl⟩
  · have hb := leafSplit_tagLhs h1 hs hm hm0 hk hq hw hf hn
    refine bubbleFinish_tag (by rw [hm0]; intro _; omega) h2 ?_
    have : (if m.cursor && 1 == m.lhsHeight + 1 then ([] : List Nat) else []) = [] := by split <;> rfl
    rw [this]
    exact hb
  · obtain ⟨a1, a2, a4, w0, a5, a6⟩ := leafRoom_sls h1
    have k' := (EvOk.insertion a6 (by rw [evState_of a5.1, hw])).1 hs
    obtain ⟨hk1, _⟩ := List.getElem?_eq_some_iff.mp hk
    obtain ⟨gp', c1, c2⟩ := opKey_tag (q := q) (trk := cb.remap = true) (gp := []) (x := (Node.ptr n, k)) (by rw [hm0]; intro _; omega) h2
      ⟨a1, sl, by
        rw [a2, List.append_assoc, List.getElem?_append_left (by simp only [List.length_take]; omega),
          List.getElem?_take_of_lt (by omega), hk], hq⟩ (fun _ => by unfold mapCursor; split <;> rfl)
    exact ⟨gp', _, c1, (evState_readUp ..).trans k', c2⟩

/-! ## Joining -/

theorem setSliceUp_climb {n : Nat} : ∀ {h : Nat} {ctx ctx' : Ctx I S Ht (h + 1)} {k : Nat} {s : S} {t : Tree I S (h + 1)} {r},
    setSliceUp n ctx k s = .ok ctx' → climb (n + 1) t ctx' = .ok r → (Node.sls r.2.1)[k]? = some s := by
  induction n with
  | zero =>
    intro h ctx ctx' k s t r h1 h2
    cases ctx with
    | top => cases h1
    | frame ptr size keys kl kr up =>
      simp only [setSliceUp] at h1
      split at h1
      · cases h1
      · rename_i key hk
        cases h1
        cases h2
        obtain ⟨hk, _⟩ := List.getElem?_eq_some_iff.mp hk
        change (List.map Key.slice (keys.set k { key with slice := s }))[k]? = some s
        simp [hk]
  | succ n ih =>
    intro h ctx ctx' k s t r h1 h2
    cases ctx with
    | top => cases h1
    | frame ptr size keys kl kr up =>
      simp only [setSliceUp, bind_ok_iff] at h1
      obtain ⟨up', h1, h3⟩ := h1
      cases h3
      exact ih h1 h2

theorem setSliceAt_climb {leaf leaf' : Tree I S 1} {ctx ctx' : Ctx I S Ht 1} {hd : Nat × Nat} {s : S} {r}
    (h1 : setSliceAt leaf ctx hd s = .ok (leaf', ctx')) (h2 : climb hd.1 leaf' ctx' = .ok r) :
    (Node.sls r.2.1)[hd.2]? = some s := by
  obtain ⟨n, k⟩ := hd
  cases n with
  | zero =>
    simp only [setSliceAt, bind_ok_iff] at h1
    obtain ⟨leaf'', h1, h3⟩ := h1
    cases h3
    cases h2
    obtain ⟨_, a2, _, a4⟩ := setSlice_sls h1
    change (Node.sls leaf')[k]? = some s
    rw [a2]
    simp [a4]
  | succ n =>
    simp only [setSliceAt, bind_ok_iff] at h1
    obtain ⟨ctx'', h1, h3⟩ := h1
    cases h3
    exact setSliceUp_climb h1 h2

/-- A property of slices that splitting, joining and failing to join keep. -/
structure Sticky (sl : SliceOps I S) (q : S → Prop) : Prop where
  joined : ∀ {a b c}, sl.tryJoin a b = .inl c → (q a ∨ q b) → q c
  left : ∀ {a b a' b'}, sl.tryJoin a b = .inr (a', b') → q a → q a'
  right : ∀ {a b a' b'}, sl.tryJoin a b = .inr (a', b') → q b → q b'

theorem identity_cursor (ix : IdxOps I) : (Maps.identity ix).cursor = false := rfl

/-- A marked slice is written to a key, which is then reported. -/
theorem joined_tag {q : S → Prop} {ix : IdxOps I} {h : Nat} {n : Tree I S (h + 1)} {ctx : Ctx I S Ht (h + 1)} {k : Nat} {old new : I}
    {w w' : World} {s : S} {r} (hk : (Node.sls n)[k]? = some s) (hq : q s)
    (h1 : emit ⟨false, false⟩ (.insertion (Node.ptr n) k) w = .ok w')
    (h2 : opKey ix (Maps.identity ix) false ctx n k none old new [] = .ok r) (hw : evState w = .ok (none, false)) :
    PostTag q True (.done r.1) r.2 w' := by
  have k' := (EvOk.insertion h1 hw).2 rfl rfl
  obtain ⟨gp', c1, c2⟩ := opKey_tag (q := q) (trk := True) (gp := []) (x := (Node.ptr n, k))
    (by rw [identity_cursor]; intro h; cases h) h2 ⟨rfl, s, hk, hq⟩ (fun _ => mapCursor_above (by rw [identity_cursor]; intro h; cases h))
  exact ⟨gp', _, c1, k', c2⟩

theorem finishJoin_tag {q : S → Prop} {E : Env I S} {leaf leaf' : Tree I S 1} {ctx ctx' : Ctx I S Ht 1} {hd : Nat × Nat} {s : S}
    {old new : I} {w : World} {r} (h0 : setSliceAt leaf ctx hd s = .ok (leaf', ctx')) (hq : q s)
    (h : finishJoin E leaf' ctx' hd old new w = .ok r) (hw : evState w = .ok (none, false)) : PostTag q True r.1 r.2.1 r.2.2 := by
  simp only [finishJoin, bind_ok_iff] at h
  obtain ⟨⟨h', n, ctx1⟩, h1, w', h2, ⟨t, path⟩, h3, h⟩ := h
  cases h
  exact (joined_tag (setSliceAt_climb h0 h1) hq h2 h3 hw).readUp ..

theorem tryJoinEdge_tag {q : S → Prop} {E : Env I S} (st : Sticky E.sl q) {leaf : Tree I S 1} {ctx : Ctx I S Ht 1}
    {lhs rhs : Option (Nat × Nat)} {slice : S} {size : I} {w : World} {r} (h : tryJoinEdge E leaf ctx lhs rhs slice size w = .ok r)
    (hq : q slice) (hw : evState w = .ok (none, false)) :
    (∀ x, r = .inl x → PostTag q True x.1 x.2.1 x.2.2) ∧ ∀ leaf' ctx' s', r = .inr (leaf', ctx', s') → q s' := by
  have fin : ∀ {leaf leaf' : Tree I S 1} {ctx ctx' : Ctx I S Ht 1} {hd : Nat × Nat} {s : S} {old new : I} {x},
      setSliceAt leaf ctx hd s = .ok (leaf', ctx') → q s → finishJoin E leaf' ctx' hd old new w = .ok x → r = .inl x →
      (∀ x, r = .inl x → PostTag q True x.1 x.2.1 x.2.2) ∧ ∀ leaf' ctx' s', r = .inr (leaf', ctx', s') → q s' := by
    intro leaf leaf' ctx ctx' hd s old new x h0 hs h1 h2
    subst h2
    refine ⟨?_, fun _ _ _ h => by cases h⟩
    intro x h
    cases h
    exact finishJoin_tag h0 hs h1 hw
  have fail : ∀ {leaf : Tree I S 1} {ctx : Ctx I S Ht 1} {s : S}, q s → r = .inr (leaf, ctx, s) →
      (∀ x, r = .inl x → PostTag q True x.1 x.2.1 x.2.2) ∧ ∀ leaf' ctx' s', r = .inr (leaf', ctx', s') → q s' := by
    intro leaf ctx s hs h
    subst h
    refine ⟨fun _ h => (by cases h), ?_⟩
    intro _ _ _ h
    cases h
    exact hs
  unfold tryJoinEdge at h
  split at h
  · cases h
    exact fail hq rfl
  · cases lhs with
    | none =>
      cases rhs with
      | none => cases h
      | some r' =>
        simp only [bind_ok_iff] at h
        obtain ⟨⟨rs, rsize⟩, _, h⟩ := h
        dsimp only at h
        split at h
        · rename_i new hj
          simp only [bind_ok_iff] at h
          obtain ⟨⟨leaf1, ctx1⟩, h1, _, _, x, h2, h3⟩ := h
          cases h3
          exact fin h1 (st.joined hj (.inl hq)) h2 rfl
        · rename_i s1 rs1 hj
          simp only [bind_ok_iff] at h
          obtain ⟨⟨leaf1, ctx1⟩, h1, h3⟩ := h
          cases h3
          exact fail (st.left hj hq) rfl
    | some l =>
      cases rhs with
      | none =>
        simp only [bind_ok_iff] at h
        obtain ⟨⟨ls, lsize⟩, _, h⟩ := h
        dsimp only at h
        split at h
        · rename_i new hj
          simp only [bind_ok_iff] at h
          obtain ⟨⟨leaf1, ctx1⟩, h1, _, _, x, h2, h3⟩ := h
          cases h3
          exact fin h1 (st.joined hj (.inr hq)) h2 rfl
        · rename_i ls1 s1 hj
          simp only [bind_ok_iff] at h
          obtain ⟨⟨leaf1, ctx1⟩, h1, h3⟩ := h
          cases h3
          exact fail (st.right hj hq) rfl
      | some r' =>
        simp only [bind_ok_iff] at h
        obtain ⟨⟨ls, lsize⟩, _, ⟨rs, rsize⟩, _, h⟩ := h
        dsimp only at h
        split at h
        · rename_i mid hj
          simp only [bind_ok_iff] at h
          obtain ⟨_, _, h⟩ := h
          split at h
          · cases h
          · rename_i mid1 rs1 hj2
            simp only [bind_ok_iff] at h
            obtain ⟨⟨leaf1, ctx1⟩, _, ⟨leaf2, ctx2⟩, h1, x, h2, h3⟩ := h
            cases h3
            exact fin h1 (st.left hj2 (st.joined hj (.inr hq))) h2 rfl
        · rename_i ls1 s1 hj
          simp only [bind_ok_iff] at h
          obtain ⟨⟨leaf1, ctx1⟩, _, h⟩ := h
          have hq1 := st.right hj hq
          dsimp only at h
          split at h
          · rename_i new hj2
            simp only [bind_ok_iff] at h
            obtain ⟨⟨leaf2, ctx2⟩, h1, _, _, x, h2, h3⟩ := h
            cases h3
            exact fin h1 (st.joined hj2 (.inl hq1)) h2 rfl
          · rename_i s2 rs2 hj2
            simp only [bind_ok_iff] at h
            obtain ⟨⟨leaf2, ctx2⟩, h1, h3⟩ := h
            cases h3
            exact fail (st.left hj2 hq1) rfl

theorem insertEdge_tag {q : S → Prop} {E : Env I S} (st : Sticky E.sl q) {leaf : Tree I S 1} {ctx : Ctx I S Ht 1} {idx : Nat}
    {lhs rhs : Option (Nat × Nat)} {slice : S} {size : I} {w : World} {r} (h : insertEdge E leaf ctx idx lhs rhs slice size w = .ok r)
    (hq : q slice) (hw : evState w = .ok (none, false)) : PostTag q True r.2.1 r.2.2.1 r.2.2.2 := by
  simp only [insertEdge, bind_ok_iff] at h
  obtain ⟨_, _, jr, h1, h⟩ := h
  obtain ⟨a1, a2⟩ := tryJoinEdge_tag st h1 hq hw
  split at h
  · rename_i x
    cases h
    exact a1 _ rfl
  · rename_i leaf1 ctx1 s1
    simp only [bind_ok_iff] at h
    obtain ⟨x, h2, h⟩ := h
    cases h
    exact noJoin_tag h2 rfl rfl (a2 _ _ _ rfl) hw

/-! ## Inside of a slice -/

theorem insertRhs_tag {q : S → Prop} {E : Env I S} {nop : Bool} {h : Nat} {n : Tree I S (h + 1)} {ctx : Ctx I S Ht (h + 1)} {k : Nat}
    {newLhs : I} {f : Sized I S} {s : Option (Sized I S)} {w : World} {r}
    (hr : insertRhs E nop false n ctx k newLhs false f s w = .ok r) (hq : q f.slice) (hw : evState w = .ok (none, false)) :
    PostTag q True r.1 r.2.1 r.2.2 := by
  simp only [insertRhs, bind_ok_iff] at hr
  obtain ⟨_, _, _, _, ⟨leaf, ctx1, i⟩, _, hr⟩ := hr
  exact noJoin_tag hr rfl rfl hq hw

theorem insertRhs_tagLhs {q : S → Prop} {E : Env I S} {nop : Bool} {n : Tree I S 1} {ctx : Ctx I S Ht 1} {k : Nat}
    {newLhs : I} {f : Sized I S} {w : World} {sl : S} {r}
    (hr : insertRhs (h := 0) E nop true n ctx k newLhs true f none w = .ok r) (hk : (Node.sls n)[k]? = some sl) (hq : q sl)
    (hw : evState w = .ok (some (Node.ptr n, k), true)) (hf : w.fst = none) (hn : Node.ptr n ≠ w.next) :
    PostTag q (nop = false) r.1 r.2.1 r.2.2 := by
  simp only [insertRhs, bind_ok_iff] at hr
  obtain ⟨_, _, _, _, ⟨leaf, ctx1, i⟩, h1, hr⟩ := hr
  cases h1
  have := noJoin_tagLhs hr rfl rfl rfl hk hq hw hf hn
  simpa using this

theorem PostTag.mono {q : S → Prop} {a b : Prop} {p : Post I S Ht} {path : List Nat} {w : World} (h : PostTag q a p path w) (hab : b → a) :
    PostTag q b p path w := by
  cases p with
  | done t =>
    obtain ⟨gp, x, h1, h2, h3⟩ := h
    exact ⟨gp, x, h1, h2, fun hb => h3 (hab hb)⟩
  | newRoot l k z r =>
    rcases h with ⟨h1, h2, h3⟩ | ⟨s, gp, x, h1, h2, h3⟩
    · exact .inl ⟨h1, h2, fun hb => h3 (hab hb)⟩
    · exact .inr ⟨s, gp, x, h1, h2, fun hb => h3 (hab hb)⟩

/-- If the left part of a split slice joins the new one, the result joins the right part again. -/
def Rejoins (sl : SliceOps I S) (key : S) (p : I) (slice : S) : Prop := sl.mayJoin = true →
  ∀ mid, sl.tryJoin (sl.splitAt key p).1 slice = .inl mid → ∃ new, sl.tryJoin mid (sl.splitAt key p).2 = .inl new

/-- The marked slice is found for insertions inside of slices of leaves, and inside of slices whose parts rejoin. -/
def SplitOk (sl : SliceOps I S) (slice : S) : Point I S Ht → Prop
  | .edge _ _ _ _ _ => True
  | .split h n _ k p => h = 0 ∨ ∀ s, (Node.sls n)[k]? = some s → Rejoins sl s p slice

theorem handle_sls {n : Node I S C} {k : Nat} {key : Key I S} (h : n.handle k = .ok key) : n.sls[k]? = some key.slice := by
  unfold Node.handle at h
  simp only [Node.sls, List.getElem?_map]
  split at h
  · cases h
  · rename_i hk
    cases h
    rw [hk]
    rfl

theorem insertSplit_tag {q : S → Prop} {E : Env I S} (st : Sticky E.sl q) {nop : Bool} {h : Nat} {n : Tree I S (h + 1)}
    {ctx : Ctx I S Ht (h + 1)} {k : Nat} {p : I} {slice : S} {size : I} {w : World} {r}
    (hr : insertSplit E nop n ctx k p slice size w = .ok r) (hq : q slice) (hw : evState w = .ok (none, false)) (hf : w.fst = none)
    (hn : Node.ptr n ≠ w.next) (hok : h = 0 ∨ ∀ s, (Node.sls n)[k]? = some s → Rejoins E.sl s p slice) :
    PostTag q (nop = false) r.2.1 r.2.2.1 r.2.2.2 := by
  simp only [insertSplit, bind_ok_iff] at hr
  obtain ⟨keySize, _, key, hkey, n1, h1, rsize, _, hr⟩ := hr
  have hks := handle_sls hkey
  obtain ⟨b1, b2, _, b4⟩ := setSlice_sls h1
  split at hr
  · simp only [bind_ok_iff] at hr
    obtain ⟨x, h2, hr⟩ := hr
    cases hr
    exact (insertRhs_tag h2 hq hw).mono fun _ => trivial
  · rename_i hmay
    split at hr
    · rename_i mid hj
      simp only [bind_ok_iff] at hr
      obtain ⟨midSize, _, hr⟩ := hr
      have hqm := st.joined hj (.inr hq)
      split at hr
      · rename_i new hj2
        simp only [bind_ok_iff] at hr
        obtain ⟨n2, h2, w1, h3, _, _, _, _, ⟨t, path⟩, h4, hr⟩ := hr
        cases hr
        obtain ⟨d1, d2, _, d4⟩ := setSlice_sls h2
        exact ((joined_tag (by rw [d2]; simp [d4]) (st.joined hj2 (.inl hqm)) h3 h4 hw).readUp ..).mono fun _ => trivial
      · rename_i l rr hj2
        simp only [bind_ok_iff] at hr
        obtain ⟨n2, h2, w1, h3, x, h4, hr⟩ := hr
        cases hr
        obtain ⟨d1, d2, _, d4⟩ := setSlice_sls h2
        rcases hok with rfl | hok
        · refine insertRhs_tagLhs (sl := l) h4 (by rw [d2]; simp [d4]) (st.left hj2 hqm) ((EvOk.insertion h3 hw).2 rfl rfl) ?_ ?_
          · simp only [emit, Bool.false_and, Bool.false_eq_true, if_false, R.pure_eq] at h3
            cases h3
            exact hf
          · rw [(emit_world h3).2]
            intro e
            exact hn (b1.symm.trans (d1.symm.trans e))
        · obtain ⟨new, hnew⟩ := hok _ hks (by simpa using hmay) mid hj
          rw [hnew] at hj2
          cases hj2
    · rename_i l s1 hj
      simp only [bind_ok_iff] at hr
      obtain ⟨n2, h2, hr⟩ := hr
      have hq1 := st.right hj hq
      split at hr
      · rename_i new hj2
        simp only [bind_ok_iff] at hr
        obtain ⟨_, _, x, h3, hr⟩ := hr
        cases hr
        exact (insertRhs_tag h3 (st.joined hj2 (.inl hq1)) hw).mono fun _ => trivial
      · rename_i s2 r2 hj2
        simp only [bind_ok_iff] at hr
        obtain ⟨x, h3, hr⟩ := hr
        cases hr
        exact (insertRhs_tag h3 (st.left hj2 hq1) hw).mono fun _ => trivial

/-! ## Insertion -/

theorem insertAt_tag {q : S → Prop} {E : Env I S} (st : Sticky E.sl q) {nop : Bool} {pt : Point I S Ht} {slice : S} {size : I} {w : World} {r}
    (hr : insertAt E nop pt slice size w = .ok r) (hq : q slice) (hw : evState w = .ok (none, false)) (hf : w.fst = none)
    (hn : ∀ h n ctx k p, pt = .split h n ctx k p → Node.ptr n ≠ w.next) (hok : SplitOk E.sl slice pt) :
    PostTag q (nop = false) r.2.1 r.2.2.1 r.2.2.2 := by
  cases pt with
  | edge leaf ctx i lhs rhs => exact (insertEdge_tag st hr hq hw).mono fun _ => trivial
  | split h n ctx k p => exact insertSplit_tag st hr hq hw hf (hn _ _ _ _ _ rfl) hok

/-- The marked slice is where path and handle say. -/
def Marked (q : S → Prop) (E : Env I S) (nop : Bool) (t : RleTree I S) (out : Inserted) : Prop :=
  ∃ root, t.root = some root ∧ ∃ gp x, TagAt q root.tree gp x ∧ (nop = false → out.path = gp) ∧ (E.refs = true → out.handle = some x)

theorem makeNewParent_sls {ix : IdxOps I} {h : Nat} {l r : Tree I S (h + 1)} {k : Key I S} {z : I} {w : World} {x}
    (hx : makeNewParent ix l k z r w = .ok x) : (Node.sls x.1)[0]? = some k.slice ∧ Node.kids x.1 = [l, r] := by
  simp only [makeNewParent, bind_ok_iff] at hx
  obtain ⟨_, _, _, _, hx⟩ := hx
  cases hx
  exact ⟨rfl, rfl⟩

theorem applyEvs_of {w : World} {o : Option (Nat × Nat)} {a : Bool} (h : evState w = .ok (o, a)) : applyEvs w.events = .ok o := by
  unfold evState at h
  simp only [applyEvs, h, R.bind_ok, R.pure_eq]

theorem insert_tag {q : S → Prop} {E : Env I S} (st : Sticky E.sl q) {nop : Bool} {t : RleTree I S} {hints : List Nat} {idx : I} {slice : S}
    {size : I} {w : World} {r} (hr : RleTree.insert E t nop hints idx slice size w = .ok r) (hq : q slice)
    (hok : ∀ root pt, t.root = some root → findPoint E root.tree .top (some hints) idx none none = .ok pt →
      SplitOk E.sl slice pt ∧ ∀ h n ctx k p, pt = .split h n ctx k p → Node.ptr n ≠ w.next) :
    Marked q E nop r.1 r.2 := by
  obtain ⟨root⟩ := t
  simp only [RleTree.insert, bind_ok_iff] at hr
  obtain ⟨_, _, _, _, hr⟩ := hr
  cases root with
  | none =>
    simp only [bind_ok_iff] at hr
    obtain ⟨⟨t1, w1⟩, h1, hr⟩ := hr
    simp only [RleTree.new, bind_ok_iff] at h1
    obtain ⟨_, _, _, _, _, _, h1⟩ := h1
    cases h1
    cases hr
    refine ⟨_, rfl, [], (w.next, 0), ⟨rfl, slice, rfl, hq⟩, fun _ => rfl, fun h => ?_⟩
    simp [h]
    rfl
  | some root =>
    simp only [bind_ok_iff] at hr
    obtain ⟨pt, h1, ⟨d, post, path, w1⟩, h2, hr⟩ := hr
    obtain ⟨handle, h3, hr⟩ : ∃ handle, (E.refs = true → applyEvs w1.events = .ok handle) ∧
        installRoot E (root.len + d) post path handle w1 = .ok r := by
      split at hr
      · simp only [bind_ok_iff] at hr
        obtain ⟨handle, h3, hr⟩ := hr
        exact ⟨handle, fun _ => h3, hr⟩
      · rename_i hrf
        exact ⟨none, fun h => absurd h hrf, hr⟩
    obtain ⟨ok1, ok2⟩ := hok root pt rfl h1
    have ht := insertAt_tag st h2 hq rfl rfl ok2 ok1
    cases post with
    | done t =>
      obtain ⟨gp, x, c1, c2, c3⟩ := ht
      simp only [installRoot, bind_ok_iff] at hr
      obtain ⟨_, _, hr⟩ := hr
      cases hr
      refine ⟨_, rfl, gp, x, c1, c3, fun hrf => ?_⟩
      have h3 := h3 hrf
      rw [applyEvs_of c2] at h3
      cases h3
      rfl
    | newRoot l k z r =>
      simp only [installRoot, bind_ok_iff] at hr
      obtain ⟨⟨t, w2⟩, h4, _, _, hr⟩ := hr
      cases hr
      obtain ⟨d1, d2⟩ := makeNewParent_sls h4
      rcases ht with ⟨c1, ⟨a, c2⟩, c3⟩ | ⟨s, gp, x, c1, c2, c3⟩
      · refine ⟨_, rfl, [], (Node.ptr t, 0), ⟨rfl, _, d1, c1⟩, c3, fun hrf => ?_⟩
        have h3 := h3 hrf
        rw [applyEvs_of c2] at h3
        cases h3
        simp [hrf]
      · refine ⟨_, rfl, s.toNat :: gp, x, ⟨s.pick l r, ?_, c1⟩, c3, fun hrf => ?_⟩
        · change (Node.kids t)[s.toNat]? = _
          rw [d2]
          cases s <;> rfl
        · have h3 := h3 hrf
          rw [applyEvs_of c2] at h3
          cases h3
          simp

end Sherman
