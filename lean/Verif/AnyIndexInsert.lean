import Verif.AnyIndex
/-!
# Arbitrary implementations of `Index`: insertion keeps the shape of the tree and never reaches undefined behaviour
-/
namespace Sherman
variable {I S C : Type}
variable {μ : Nat}

section
variable {ix : IdxOps I} (hc : Civil ix)
include hc

/-! ## Sizes and positions above the place of insertion -/

theorem opPos_safe {n : Node I S C} {cok : COK} {ov : Option I} {old : I} (h : ∀ k, cok = .key k → k < n.keys.length) :
    Safe ix.debug (opPos ix n cok ov old) fun _ => True := by
  unfold opPos
  split
  · exact trivial
  · exact keyPos_safe (h _ rfl)
  · exact hc.sSubL _ _

theorem mapSizes_safe {m : Maps I} {handled : Bool} {height : Nat} {n : Node I S C} {cok : COK} {ov : Option I} {old new : I}
    (hk : ∀ k, cok = .key k → k < n.keys.length)
    (hs : ∀ k, cok = .key k → m.sizes = true → height = m.lhsHeight → handled = true) :
    Safe ix.debug (mapSizes ix m handled height n cok ov old new) fun r => r.1 = n := by
  unfold mapSizes
  split
  · exact rfl
  · rename_i hcond
    ixop hc
    ixop hc
    refine (opPos_safe hc hk).op fun _ => ?_
    ixop hc
    ixop hc
    ixop hc
    ixop hc
    ixop hc
    cases cok with
    | child c => exact rfl
    | key k =>
      exfalso
      apply hcond
      simp only [Bool.or_eq_true, Bool.not_eq_true', bne_iff_ne, ne_eq]
      by_cases h1 : m.sizes = true
      · by_cases h2 : height = m.lhsHeight
        · exact .inr (hs k rfl h1 h2)
        · exact .inl (.inr h2)
      · exact .inl (.inl (by simpa using h1))

/-- The place the step is about exists. -/
def COK.In (n : Node I S C) : COK → Prop
  | .child c => c ≤ n.keys.length
  | .key k => k < n.keys.length

theorem opStep_safe {m : Maps I} {handled : Bool} {height : Nat} {n : Node I S C} {cok : COK} {ov : Option I} {old new : I}
    (hk : cok.In n) (hs : ∀ k, cok = .key k → m.sizes = true → height = m.lhsHeight → handled = true) :
    Safe ix.debug (opStep ix m handled height n cok ov old new) fun r => Same n r.1 := by
  have hk' : ∀ k, cok = .key k → k < n.keys.length := by rintro k rfl; exact hk
  unfold opStep
  refine (mapSizes_safe hc hk' hs).bind fun r hr => ?_
  obtain ⟨n1, ov1, old1, new1⟩ := r
  obtain rfl : n1 = n := hr
  refine (opPos_safe hc hk').op fun _ => ?_
  refine (shiftKeysAuto_safe hc ?_).bind fun n' h' => ?_
  · cases cok with
    | child c => exact hk
    | key k => exact hk
  · exact h'

theorem opUp_safe {M : Nat} {m : Maps I} {handled : Bool} {H : Nat} : ∀ {h : Nat} (ctx : Ctx I S H h) (t : Tree I S h) (old new : I) (path : List Nat),
    ctx.Shape μ M → FillT μ M (ctx.low μ) t → Safe ix.debug (opUp ix m handled ctx t old new path) fun r => FillT μ M 1 r.1 := by
  intro h ctx
  induction ctx with
  | top => intro t old new path _ ht; exact ht
  | @frame h p z keys kl kr up ih =>
    intro t old new path hx ht
    unfold opUp
    have hp := plug_shape hx ht
    have hin : (COK.child kl.length).In (plugNode p z keys kl t kr) := by
      show kl.length ≤ keys.length
      have := hx.2.2.1; omega
    refine (opStep_safe hc hin (by intro k hk; cases hk)).bind fun r hr => ?_
    exact ih _ _ _ _ hx.2.2.2.2.2 (hp.same hr)

theorem opKey_safe {M : Nat} {m : Maps I} {handled : Bool} {H h : Nat} {ctx : Ctx I S H (h + 1)} {n : Tree I S (h + 1)} {k : Nat} {ov : Option I}
    {old new : I} {path : List Nat} (hx : ctx.Shape μ M) (hn : FillT μ M (ctx.low μ) n) (hk : k < (Node.keys n).length)
    (hs : m.sizes = true → h = m.lhsHeight → handled = true) :
    Safe ix.debug (opKey ix m handled ctx n k ov old new path) fun r => FillT μ M 1 r.1 := by
  unfold opKey
  refine (opStep_safe hc (cok := .key k) hk (fun _ _ => hs)).bind fun r hr => ?_
  exact opUp_safe hc ctx _ _ _ _ hx (hn.same hr)

/-! ## Splitting internal nodes -/

omit hc in
theorem emitFst_safe {d : Bool} {cb : Cb} {ev : Ev} {w : World} (h : w.fst = none ∨ ∀ a b c e f, ev ≠ .move a b c e f) :
    Safe d (emitFst cb ev w) fun _ => True := by
  unfold emitFst
  split
  · split
    · exact trivial
    · rename_i hfst
      rcases h with h | h
      · rw [h] at hfst; cases hfst
      · exact absurd rfl (h _ _ _ _ _)
    · exact trivial
  · exact trivial

omit hc in
theorem emit_safe {d : Bool} {cb : Cb} {ev : Ev} {w : World} (h : w.fst = none ∨ ∀ a b c e f, ev ≠ .move a b c e f) :
    Safe d (emit cb ev w) fun _ => True := (emitFst_safe h).op fun _ => trivial

omit hc in
/-- Events other than the insertion leave the followed handle as it is. -/
theorem emit_keeps {d : Bool} {cb : Cb} {ev : Ev} {w : World} (h : w.fst = none) (hi : ∀ a b, ev ≠ .insertion a b) :
    Safe d (emit cb ev w) fun w' => w'.fst = none := by
  have h1 : Safe d (emitFst cb ev w) fun w' => w'.fst = none := by
    unfold emitFst
    split
    · split
      · exact absurd rfl (hi _ _)
      · rename_i hfst; rw [h] at hfst; cases hfst
      · exact h
    · exact h
  refine h1.bind fun w' hw' => ?_
  show (emitRec cb ev w').fst = none
  unfold emitRec
  split <;> exact hw'

omit hc in
theorem emitKey_safe {d : Bool} {cb : Cb} {ins : Bool} {n : Node I S C} {k : Nat} {w : World} (h : k < n.keys.length) :
    Safe d (emitKey cb ins n k w) fun _ => True := by
  unfold emitKey
  refine (handle_safe h).op fun _ => ?_
  split
  · exact emit_safe (.inr (by intros; simp))
  · exact emit_safe (.inr (by intros; simp))

theorem roomNums_safe {shift : Option (Shift I)} {a b c : I} : Safe ix.debug (roomNums ix shift a b c) fun _ => True := by
  unfold roomNums
  split
  · ixop hc
    ixop hc
    ixop hc
    exact trivial
  · ixop hc
    exact trivial

theorem halfNums_safe {shift : Option (Shift I)} {a b : I} : Safe ix.debug (halfNums ix shift a b) fun _ => True := by
  unfold halfNums
  split
  · ixop hc
    exact trivial
  · ixop hc
    exact trivial

end

section
variable {E : Env I S} (hc : Civil E.ix)
include hc

theorem bubbleRoom_safe [HasPtr C] {cb : Cb} {sz : C → I} {n : Node I S C} {c : Nat} {b : Bubble I S C} {path : List Nat} {w : World}
    (hcl : c ≤ n.keys.length) (hm : n.keys.length < 2 * E.M) :
    Safe E.ix.debug (bubbleRoom E cb sz n c b path w) fun r =>
      r.1.keys.length = n.keys.length + 1 ∧ r.1.kids = n.kids.take (c + 1) ++ b.rhs :: n.kids.drop (c + 1) := by
  unfold bubbleRoom
  ixop hc
  ixop hc
  refine (roomNums_safe hc).op fun r => ?_
  obtain ⟨ov, old, new, lp⟩ := r
  refine (insertKeyAndChild_safe hcl hm).bind fun r hr => ?_
  obtain ⟨n1, _, w1⟩ := r
  obtain ⟨h1, h2⟩ := hr
  dsimp only at h1 h2
  ixop hc
  refine (setKeyPos_safe (by omega)).bind fun n2 h' => ?_
  refine (emitKey_safe (by rw [h'.1]; omega)).op fun _ => ?_
  exact ⟨by rw [h'.1, h1], by rw [h'.2, h2]⟩

theorem bubbleInsertHalf_safe [HasPtr C] {cb : Cb} {sz : C → I} {n : Node I S C} {c : Nat} {b : Bubble I S C} {shift : Option (Shift I)}
    {path : List Nat} {w : World} (hcl : c ≤ n.keys.length) (hm : n.keys.length < 2 * E.M) :
    Safe E.ix.debug (bubbleInsertHalf E cb sz n c b shift path w) fun r =>
      r.1.keys.length = n.keys.length + 1 ∧ r.1.kids = n.kids.take (c + 1) ++ b.rhs :: n.kids.drop (c + 1) := by
  unfold bubbleInsertHalf
  ixop hc
  ixop hc
  refine (halfNums_safe hc).op fun r => ?_
  obtain ⟨lp, sp, old, new⟩ := r
  dsimp only
  ixop hc
  ixop hc
  ixop hc
  refine (insertKeyAndChild_safe hcl hm).bind fun r hr => ?_
  obtain ⟨n1, _, w1⟩ := r
  obtain ⟨h1, h2⟩ := hr
  dsimp only at h1 h2 ⊢
  refine (setKeyPos_safe (by omega)).bind fun n2 h' => ?_
  refine (shiftKeys_safe hc (by rw [h'.1]; omega)).bind fun n3 h'' => ?_
  refine (emitKey_safe (by rw [h''.1, h'.1]; omega)).op fun _ => ?_
  exact ⟨by rw [h''.1, h'.1, h1], by rw [h''.2, h'.2, h2]⟩

omit hc in
/-- The lists of children after an insertion into a node with the right number of them. -/
theorem kids_insert {l : List C} {k c : Nat} {x : C} {P : C → Prop} (hl : l.length = k + 1) (hcl : c ≤ k) (hP : ∀ y ∈ l, P y) (hx : P x) :
    (l.take (c + 1) ++ x :: l.drop (c + 1)).length = k + 2 ∧ ∀ y ∈ l.take (c + 1) ++ x :: l.drop (c + 1), P y := by
  refine ⟨by simp; omega, ?_⟩
  intro y hy
  simp only [List.mem_append, List.mem_cons] at hy
  rcases hy with hy | rfl | hy
  · exact hP y (List.mem_of_mem_take hy)
  · exact hx
  · exact hP y (List.mem_of_mem_drop hy)

/-- Splitting a full node: both halves have the right number of keys and children. -/
theorem bubbleSplit_safe [HasPtr C] (hM : 1 ≤ E.M) {cb : Cb} {sz : C → I} {n : Node I S C} {c : Nat} {b : Bubble I S C} {path : List Nat} {w : World}
    {P : C → Prop} (hn : n.keys.length = 2 * E.M) (ha : n.kids.length = 2 * E.M + 1) (hcl : c ≤ 2 * E.M) (hP : ∀ y ∈ n.kids, P y) (hr : P b.rhs) :
    Safe E.ix.debug (bubbleSplit E cb sz n c b path w) fun r =>
      r.1.shift = none ∧
      (E.M ≤ r.1.lhs.keys.length ∧ r.1.lhs.keys.length ≤ 2 * E.M ∧ r.1.lhs.Arity ∧ ∀ y ∈ r.1.lhs.kids, P y) ∧
      (E.M ≤ r.1.rhs.keys.length ∧ r.1.rhs.keys.length ≤ 2 * E.M ∧ r.1.rhs.Arity ∧ ∀ y ∈ r.1.rhs.kids, P y) := by
  unfold bubbleSplit
  have hmid : Safe E.ix.debug (bubbleMid E.M c) fun mid => mid = (if c > E.M then E.M else E.M - 1) := by
    unfold bubbleMid
    split
    · exact rfl
    · exact Safe.usub hM
  refine hmid.bind fun mid hmid => ?_
  have hlt : mid < n.keys.length := by rw [hn, hmid]; split <;> omega
  refine (split_safe hlt).bind fun r hs => ?_
  obtain ⟨L, key, R, w1⟩ := r
  obtain ⟨h1, h2, h3, h4, -⟩ := hs
  dsimp only at h1 h2 h3 h4 ⊢
  have hL : L.kids.length = mid + 1 := by rw [h2]; simp; omega
  have hR : R.kids.length = R.keys.length + 1 := by rw [h4, h3]; simp; omega
  have hPL : ∀ y ∈ L.kids, P y := fun y hy => hP y (List.mem_of_mem_take (h2 ▸ hy))
  have hPR : ∀ y ∈ R.kids, P y := fun y hy => hP y (List.mem_of_mem_drop (h4 ▸ hy))
  have hfp : Safe E.ix.debug (firstPos E.M R) fun _ => True := by
    unfold firstPos
    split
    · exact trivial
    · rename_i hnone
      simp only [Node.tryKeyPos, Option.map_eq_none_iff, List.getElem?_eq_none_iff] at hnone
      split
      · exfalso
        rw [h3, hn, hmid] at hnone
        split at hnone <;> omega
      · exact trivial
  refine hfp.op fun _ => ?_
  have hfs : Safe E.ix.debug (firstSize sz E.M c b.oldSize R) fun _ => True := by
    unfold firstSize
    split
    · exact trivial
    · exact childSize_safe (by omega)
  refine hfs.op fun _ => ?_
  ixop hc
  rename_i rhsStart
  ixop hc
  split
  · rename_i hcM
    refine (shiftKeys_safe hc (Nat.zero_le _)).bind fun R1 hsame => ?_
    obtain ⟨hs1, hs2⟩ := hsame
    split
    · rename_i hlt'
      have hmid' : mid = E.M - 1 := by rw [hmid, if_neg (by omega)]
      refine (bubbleInsertHalf_safe hc (n := { L with size := key.pos }) (by dsimp only; omega) (by dsimp only; omega)).bind fun r hh => ?_
      obtain ⟨L1, path1, w2⟩ := r
      obtain ⟨g1, g2⟩ := hh
      dsimp only at g1 g2
      obtain ⟨k1, k2⟩ := kids_insert (k := mid) (c := c) (x := b.rhs) hL (by omega) hPL hr
      refine ⟨rfl, ⟨?_, ?_, ?_, ?_⟩, ?_, ?_, ?_, ?_⟩ <;> dsimp only
      · omega
      · omega
      · show L1.kids.length = L1.keys.length + 1
        rw [g2, k1, g1, h1]
      · rw [g2]; exact k2
      · rw [hs1, h3, hn]; omega
      · rw [hs1, h3, hn]; omega
      · show R1.kids.length = R1.keys.length + 1
        rw [hs2, hs1]; exact hR
      · rw [hs2]; exact hPR
    · have hmid' : mid = E.M := by rw [hmid, if_pos (by omega)]
      refine (Safe.usub (by omega)).bind fun c' hc' => ?_
      have hrs : ∀ sh, Safe E.ix.debug (relShift E.ix sh rhsStart) fun _ => True := by
        intro sh
        unfold relShift
        split
        · ixop hc
          exact trivial
        · exact trivial
      refine (hrs _).op fun sh => ?_
      refine (bubbleInsertHalf_safe hc (n := R1) (c := c') (by omega) (by omega)).bind fun r hh => ?_
      obtain ⟨R2, path1, w2⟩ := r
      obtain ⟨g1, g2⟩ := hh
      dsimp only at g1 g2
      obtain ⟨k1, k2⟩ := kids_insert (k := R.keys.length) (c := c') (x := b.rhs) hR (by omega) hPR hr
      refine ⟨rfl, ⟨?_, ?_, ?_, ?_⟩, ?_, ?_, ?_, ?_⟩ <;> dsimp only
      · omega
      · omega
      · show L.kids.length = L.keys.length + 1
        omega
      · exact hPL
      · omega
      · omega
      · show R2.kids.length = R2.keys.length + 1
        rw [g2, hs2, k1]; omega
      · rw [g2, hs2]; exact k2
  · have hcM : c = E.M := by omega
    have hmid' : mid = E.M - 1 := by rw [hmid, if_neg (by omega)]
    refine (replaceFirstChild_safe (by omega)).bind fun r hf => ?_
    obtain ⟨R1, c0, w2⟩ := r
    obtain ⟨f1, f2, f3⟩ := hf
    dsimp only at f1 f2 f3 ⊢
    ixop hc
    ixop hc
    refine (pushKeyAndChild_safe (n := { L with size := key.pos }) (by dsimp only; omega)).bind fun r hpp => ?_
    obtain ⟨L1, w3⟩ := r
    obtain ⟨p1, p2, -⟩ := hpp
    dsimp only at p1 p2 ⊢
    refine (keyPos_safe (by omega)).op fun _ => ?_
    refine (shiftKeysAuto_safe hc (Nat.zero_le _)).bind fun R2 hsame => ?_
    obtain ⟨hs1, hs2⟩ := hsame
    refine ⟨rfl, ⟨?_, ?_, ?_, ?_⟩, ?_, ?_, ?_, ?_⟩ <;> dsimp only
    · omega
    · omega
    · show L1.kids.length = L1.keys.length + 1
      rw [p2]; simp; omega
    · rw [p2]; intro y hy
      simp only [List.mem_append, List.mem_singleton] at hy
      rcases hy with hy | rfl
      · exact hPL y hy
      · exact hPR y f3
    · omega
    · omega
    · show R2.kids.length = R2.keys.length + 1
      rw [hs2, f2]; simp; omega
    · rw [hs2, f2]; intro y hy
      simp only [List.mem_cons] at hy
      rcases hy with rfl | hy
      · exact hr
      · exact hPR y (List.mem_of_mem_tail hy)

/-- What is left to do after the tree was changed has the shape of a tree. -/
def Post.Shape (μ M : Nat) {H : Nat} : Post I S H → Prop
  | .done t => FillT μ M 1 t
  | .newRoot l _ _ r => FillT μ M μ l ∧ FillT μ M μ r

theorem bubbleFinish_safe (hM : 1 ≤ E.M) (hμ : μ ≤ E.M) {cb : Cb} {m : Maps I} {H : Nat} : ∀ {h : Nat} (ctx : Ctx I S H h) (b : Bubble I S (Tree I S h)) (handled : Bool)
    (path : List Nat) (w : World), ctx.Shape μ E.M → b.shift = none → FillT μ E.M μ b.lhs → FillT μ E.M μ b.rhs →
    (m.sizes = true → handled = true ∨ h ≤ m.lhsHeight) → (m.sizes = true → m.lhsHeight < H) →
    Safe E.ix.debug (bubbleFinish E cb m ctx b handled path w) fun r => r.1.Shape μ E.M := by
  intro h ctx
  induction ctx with
  | top =>
    intro b handled path w _ hsh hl hr hm hH
    unfold bubbleFinish
    have : Safe E.ix.debug (mapShift m H handled b.shift) fun r => r.2 = none := by
      unfold mapShift
      rw [hsh]
      split
      · rename_i hsz
        refine (Safe.checkT rfl).op fun _ => ?_
        rw [if_neg (by have := hH hsz; simp; omega)]
        exact rfl
      · exact rfl
    refine this.bind fun r hr' => ?_
    obtain ⟨_, sh⟩ := r
    refine (Safe.checkT (by rw [show sh = none from hr']; rfl)).op fun _ => ?_
    exact ⟨hl, hr⟩
  | @frame h p z keys kl kr up ih =>
    intro b handled path w hx hsh hl hr hm hH
    unfold bubbleFinish
    have : Safe E.ix.debug (mapShift m h handled b.shift) fun r => m.sizes = true → (r.1 = true ∨ h + 1 ≤ m.lhsHeight) := by
      unfold mapShift
      rw [hsh]
      split
      · rename_i hsz
        refine (Safe.checkT rfl).op fun _ => ?_
        split
        · intro _; exact .inl rfl
        · rename_i hne
          intro _
          simp only [beq_iff_eq] at hne
          rcases hm hsz with h | h
          · exact .inl h
          · exact .inr (by omega)
      · rename_i hsz
        intro h; exact absurd h hsz
    refine this.bind fun r hr' => ?_
    obtain ⟨handled', sh⟩ := r
    dsimp only at hr' ⊢
    have hp := plug_shape (p := p) (z := z) hx hl
    have hx' := hx
    obtain ⟨x1, x2, x3, x4, x5, x6⟩ := hx
    have hkl : kl.length ≤ keys.length := by omega
    obtain ⟨q1, q2, q3, q4⟩ := fillT_succ.1 hp
    have q1 : up.low μ ≤ keys.length := q1
    have q3 : (kl ++ b.lhs :: kr).length = keys.length + 1 := q3
    split
    · rename_i hroom
      have hroom : keys.length < 2 * E.M := hroom
      refine (bubbleRoom_safe hc (n := plugNode p z keys kl b.lhs kr) hkl hroom).bind fun r hb => ?_
      obtain ⟨n, ov, old, new, path1, w1⟩ := r
      obtain ⟨b1, b2⟩ := hb
      dsimp only at b1 b2 ⊢
      have b1 : n.keys.length = keys.length + 1 := b1
      obtain ⟨k1, k2⟩ := kids_insert (k := keys.length) (c := kl.length) (x := b.rhs) (P := FillT μ E.M μ) q3 hkl q4 hr
      have hn : FillT μ E.M (up.low μ) (h := h + 1) n :=
        shape_mk b1 b2 (by omega) (by omega) (by simpa [plugNode] using k1) k2
      refine (opKey_safe hc (n := n) x6 hn (by show _ < n.keys.length; omega) ?_).bind fun r hr => ?_
      · intro hsz he
        rcases hr' hsz with h | h
        · exact h
        · omega
      · exact hr
    · rename_i hroom
      have hfull : keys.length = 2 * E.M := by
        have : ¬ keys.length < 2 * E.M := hroom
        omega
      refine (bubbleSplit_safe hc hM (n := plugNode p z keys kl b.lhs kr) (c := kl.length) (b := ⟨b.lhs, b.key, b.keySize, b.rhs, b.oldSize, sh,
        mapSide m h (ptrT b.lhs) w.fst b.side, b.inserted⟩) (P := FillT μ E.M μ) hfull (by show (kl ++ b.lhs :: kr).length = _; omega)
        (by omega) q4 hr).bind fun r hb => ?_
      obtain ⟨b', path1, w1⟩ := r
      obtain ⟨s1, ⟨s2, s3, s4, s5⟩, t2, t3, t4, t5⟩ := hb
      exact ih b' handled' path1 w1 x6 s1 (shape_mk rfl rfl (hμ.trans s2) s3 s4 s5) (shape_mk rfl rfl (hμ.trans t2) t3 t4 t5) hr' hH


/-! ## Leaves -/

/-- Number of keys and children of a leaf. -/
def Lf (k : Nat) (n : Tree I S 1) : Prop := (Node.keys n).length = k ∧ (Node.kids n).length = k + 1

omit hc in
theorem Lf.shape {M lo k : Nat} {n : Tree I S 1} (h : Lf k n) (h1 : lo ≤ k) (h2 : k ≤ 2 * M) : FillT μ M lo n :=
  shape_mk h.1 rfl h1 h2 h.2 (fun _ _ => trivial)

omit hc in
theorem FillT.lf {M lo : Nat} {n : Tree I S 1} (h : FillT μ M lo n) : Lf (Node.keys n).length n := ⟨rfl, h.arity⟩

omit hc in
theorem Lf.same {k : Nat} {n n' : Tree I S 1} (h : Lf k n) (hs : Same (C := Tree I S 0) n n') : Lf k n' := by
  obtain ⟨h1, h2⟩ := hs
  exact ⟨h1.trans h.1, by rw [h2]; exact h.2⟩

omit hc in
theorem Lf.arity {k : Nat} {n : Tree I S 1} (h : Lf k n) : Node.Arity n := by
  show (Node.kids n).length = (Node.keys n).length + 1
  rw [h.1, h.2]

omit hc in
theorem leafInsert_safe {d : Bool} {n : Tree I S 1} {k idx : Nat} {s : S} {w : World} (h : Lf k n) (hi : idx ≤ k) (hm : k < 2 * E.M) :
    Safe d (leafInsert E n idx s w) fun r => Lf (k + 1) r.1 := by
  obtain ⟨h1, h2⟩ := h
  refine (insertKeyAndChild_safe (by omega) (by omega)).mono fun r hr => ?_
  obtain ⟨r1, r2⟩ := hr
  refine ⟨by rw [r1, h1], ?_⟩
  rw [r2]
  exact (kids_insert (C := Tree I S 0) (P := fun _ => True) h2 hi (fun _ _ => trivial) trivial).1

omit hc in
theorem length_push {l : List C} {x : C} {k : Nat} (h : l.length = k) : (l ++ [x]).length = k + 1 := by simp [h]

omit hc in
theorem leafPush_safe {d : Bool} {n : Tree I S 1} {k : Nat} {s : S} {ref : Option Nat} {z : I} {w : World} (h : Lf k n) (hm : k < 2 * E.M) :
    Safe d (leafPush E n s ref z w) fun r => Lf (k + 1) r.1 ∧ r.2.fst = w.fst := by
  obtain ⟨h1, h2⟩ := h
  refine (pushKeyAndChild_safe (by omega)).mono fun r hr => ?_
  obtain ⟨r1, r2, r3⟩ := hr
  refine ⟨⟨by rw [r1, h1], ?_⟩, r3⟩
  rw [r2]
  exact length_push (C := Tree I S 0) h2

omit hc in
theorem leaf_split_safe {d : Bool} {n : Tree I S 1} {k mid : Nat} {w : World} (h : Lf k n) (hm : mid < k) :
    Safe d (Node.split n mid w) fun r => Lf mid r.1 ∧ Lf (k - (mid + 1)) r.2.2.1 ∧ r.2.2.2.fst = w.fst := by
  obtain ⟨h1, h2⟩ := h
  refine (split_safe (by omega)).mono fun r hr => ?_
  obtain ⟨r1, r2, r3, r4, r5⟩ := hr
  exact ⟨⟨r1, by rw [r2]; simp; omega⟩, ⟨by rw [r3, h1], by rw [r4]; simp; omega⟩, r5⟩

/-- Both halves have the shape of nodes below the root. -/
def Bubble.Ok (μ M : Nat) {h : Nat} (b : Bubble I S (Tree I S h)) : Prop := b.shift = none ∧ FillT μ M μ b.lhs ∧ FillT μ M μ b.rhs

omit hc in
theorem leafSplitSmall_safe {d : Bool} {cb : Cb} {n : Tree I S 1} {idx : Nat} {ov : Option I} {fst snd : Sized I S} {w : World} (hM : E.M = 1) (hμ : μ ≤ E.M)
    (h : Lf 1 n) (hi : idx ≤ 1) (hov : ov.isSome = true → idx ≠ 0) (hw : w.fst = none) :
    Safe d (leafSplitSmall E cb n idx ov fst snd w) fun r => r.1.Ok μ E.M := by
  unfold leafSplitSmall
  refine (Safe.weak (by simp [hM])).op fun _ => ?_
  refine (Safe.weak ?_).op fun _ => ?_
  · cases ov with
    | none => rfl
    | some x => have := hov rfl; simp [this]
  refine (Safe.weak ?_).op fun _ => ?_
  · simp [Node.len, h.1]
  refine (Safe.weak (decide_eq_true hi)).op fun _ => ?_
  refine (leaf_split_safe h (by omega)).bind fun r hs => ?_
  obtain ⟨L, key, R, w1⟩ := r
  obtain ⟨s1, s2, s3⟩ := hs
  dsimp only at s1 s2 s3 ⊢
  split
  · refine (leafPush_safe (E := E) (k := 0) (n := { L with size := E.ix.zero }) s1 (by omega)).bind fun r h1 => ?_
    obtain ⟨L1, w2⟩ := r
    refine (leafPush_safe (E := E) (k := 0) (n := { R with size := E.ix.zero }) s2 (by omega)).bind fun r h2 => ?_
    obtain ⟨R1, w3⟩ := r
    refine (emit_safe (.inl ?_)).op fun _ => (emit_safe (.inr (by intros; simp))).op fun _ => ?_
    · rw [h2.2, h1.2, s3, hw]
    · exact ⟨rfl, h1.1.shape (by omega) (by omega), h2.1.shape (by omega) (by omega)⟩
  · refine (leafPush_safe (E := E) (k := 0) (n := { L with size := E.ix.zero }) s1 (by omega)).bind fun r h1 => ?_
    obtain ⟨L1, w2⟩ := r
    refine (leafPush_safe (E := E) (k := 0) (n := { R with size := E.ix.zero }) s2 (by omega)).bind fun r h2 => ?_
    obtain ⟨R1, w3⟩ := r
    exact ⟨rfl, h1.1.shape (by omega) (by omega), h2.1.shape (by omega) (by omega)⟩

/-- Which midpoint and side the plan may name. -/
def PlanOk (M len idx : Nat) (hasSnd : Bool) (r : Nat × (Side ⊕ Side)) : Prop :=
  match r.2 with
  | .inl .left => idx ≤ r.1 ∧ M ≤ r.1 + 1 + hasSnd.toNat ∧ r.1 < M ∧ M ≤ len - (r.1 + 1) ∧ len - (r.1 + 1) ≤ M
  | .inl .right => r.1 = M ∧ M < idx
  | .inr .left => r.1 + 2 ≥ M ∧ r.1 < M ∧ hasSnd = true ∧ M ≤ len - (r.1 + 1) ∧ len - (r.1 + 1) ≤ 2 * M
  | .inr .right => r.1 + 1 = M ∧ M ≤ len - (r.1 + 1) + hasSnd.toNat ∧ len - (r.1 + 1) + hasSnd.toNat ≤ 2 * M

omit hc in
theorem splitPlan_safe {d : Bool} {M len idx : Nat} {hasSnd : Bool} (hM : 1 ≤ M) (h1 : len ≤ 2 * M) (h2 : 2 * M ≤ len + hasSnd.toNat)
    (h3 : ¬ (M = 1 ∧ len = 1)) : Safe d (splitPlan M len idx hasSnd) (PlanOk M len idx hasSnd) := by
  unfold splitPlan
  split
  · split
    · rename_i h
      simp only [Bool.and_eq_true, decide_eq_true_eq] at h
      rw [h.1] at h2 ⊢
      simp only [Bool.toNat_true] at h2
      refine (Safe.usub (by omega)).bind fun m1 e1 => (Safe.usub (by omega)).bind fun m2 e2 => ?_
      split
      · refine ⟨?_, ?_, ?_, ?_, ?_⟩ <;> dsimp only [Bool.toNat_true] <;> omega
      · refine ⟨?_, ?_, ?_, ?_, ?_⟩ <;> first | omega | rfl
    · rename_i h
      have : len = 2 * M := by
        cases hasSnd
        · simp only [Bool.toNat_false] at h2; omega
        · simp at h; omega
      refine (Safe.usub (by omega)).bind fun m1 e1 => ?_
      refine ⟨?_, ?_, ?_, ?_, ?_⟩ <;> (try dsimp only) <;> omega
  · split
    · refine (Safe.usub (by omega)).bind fun m1 e1 => ?_
      split
      · rename_i h
        simp only [Bool.and_eq_true, beq_iff_eq] at h
        refine ⟨?_, ?_, ?_, ?_, ?_⟩ <;> first | omega | exact h.1
      · rename_i h
        refine ⟨?_, ?_, ?_⟩
        · omega
        · omega
        · cases hasSnd
          · simp only [Bool.toNat_false]; omega
          · simp only [Bool.toNat_true]; omega
    · exact ⟨rfl, by omega⟩


theorem leafInsertHalf_safe {cb : Cb} {n : Tree I S 1} {k idx : Nat} {ov : Option I} {fst : Sized I S} {snd : Option (Sized I S)} {w : World}
    (h : Lf k n) (hi : idx ≤ k) (hov : ov.isSome = true → idx ≠ 0) (hm : k + 1 + snd.isSome.toNat ≤ 2 * E.M) :
    Safe E.ix.debug (leafInsertHalf E cb n idx ov fst snd w) fun r => Lf (k + 1 + snd.isSome.toNat) r.1 := by
  have hend : ∀ (n3 : Tree I S 1) (start : Nat) (w3 : World) (pos old new : I), Lf (k + 1 + snd.isSome.toNat) n3 → start ≤ k + 1 + snd.isSome.toNat →
      Safe E.ix.debug (do
        let n ← Node.shiftKeys E.ix n3 true start pos old new
        let _ ← Node.handle n idx
        let w ← emit cb (.insertion n.ptr idx) w3
        pure (n, w)) fun r => Lf (k + 1 + snd.isSome.toNat) r.1 := by
    intro n3 start w3 pos old new g1 g2
    refine (shiftKeys_safe hc (by have := g1.1; omega)).bind fun n4 hs4 => ?_
    have h4 := g1.same hs4
    refine (handle_safe (by have := h4.1; omega)).op fun _ => ?_
    exact (emit_safe (.inr (by intros; simp))).op fun _ => h4
  unfold leafInsertHalf
  dsimp only
  have hmid : ∀ pos old new, Safe E.ix.debug (do
      let (n, _, w) ← leafInsert E n idx fst.slice w
      let fstPos ← E.ix.addR pos new
      let n ← Node.setKeyPos n idx fstPos
      let new ← E.ix.addR new fst.size
      let (n, new, start, w) ← match snd with
        | none => pure (n, new, idx + 1, w)
        | some s => do
          let (n, _, w) ← leafInsert E n (idx + 1) s.slice w
          let new ← E.ix.addR new s.size
          let sndPos ← E.ix.addR fstPos fst.size
          let n ← Node.setKeyPos n (idx + 1) sndPos
          pure (n, new, idx + 2, w)
      let n ← Node.shiftKeys E.ix n true start pos old new
      let _ ← Node.handle n idx
      let w ← emit cb (.insertion n.ptr idx) w
      pure (n, w)) fun r => Lf (k + 1 + snd.isSome.toNat) r.1 := by
    intro pos old new
    refine (leafInsert_safe h hi (by omega)).bind fun r h1 => ?_
    obtain ⟨n1, _, w1⟩ := r
    dsimp only at h1 ⊢
    ixop hc
    refine (setKeyPos_safe (by have := h1.1; omega)).bind fun n2 hs => ?_
    have h2 : Lf (k + 1) n2 := h1.same hs
    ixop hc
    cases snd with
    | none => exact hend n2 _ _ _ _ _ h2 (by simp; omega)
    | some s =>
      simp only [Option.isSome_some, Bool.toNat_true] at hm
      refine (leafInsert_safe h2 (by omega) (by omega)).bind fun r h3 => ?_
      obtain ⟨n3, _, w3⟩ := r
      dsimp only at h3 ⊢
      ixop hc
      ixop hc
      refine (setKeyPos_safe (by have := h3.1; omega)).bind fun n4 hs4 => ?_
      exact hend n4 _ _ _ _ _ (h3.same hs4) (by simp; omega)
  cases ov with
  | none => exact hmid _ _ _
  | some z =>
    have := hov rfl
    refine (Safe.usub (by omega)).bind fun j hj => ?_
    have hk : j < (Node.keys n).length := by rw [h.1]; omega
    exact (keyPos_safe hk).op fun _ => (sliceSize_safe hc hk h.arity).op fun _ => hmid _ _ _

theorem prependSnd_safe {n : Tree I S 1} {k : Nat} {snd : Option (Sized I S)} {w : World} (h : Lf k n) (hm : k + snd.isSome.toNat ≤ 2 * E.M) :
    Safe E.ix.debug (prependSnd E n snd w) fun r => Lf (k + snd.isSome.toNat) r.1 := by
  unfold prependSnd
  cases snd with
  | none => exact h
  | some s =>
    simp only [Option.isSome_some, Bool.toNat_true] at hm ⊢
    refine (leafInsert_safe h (Nat.zero_le _) (by omega)).bind fun r h1 => ?_
    obtain ⟨n1, _, w1⟩ := r
    dsimp only at h1 ⊢
    refine (shiftKeys_safe hc (by have := h1.1; omega)).bind fun n4 hs4 => ?_
    exact h1.same hs4

theorem midResize_safe {ov : Option I} {at_ : Side ⊕ Side} {idx mid : Nat} {a b : I} :
    Safe E.ix.debug (midResize E.ix ov at_ idx mid a b) fun r => r.2.isSome = true → ov.isSome = true ∧
      (at_ = .inl .right → idx ≠ mid + 1) := by
  unfold midResize
  split
  · intro h; cases h
  · split
    · intro h; cases h
    · rename_i h
      ixop hc
      intro _; exact ⟨rfl, fun _ => h⟩
  · ixop hc
    intro _; exact ⟨rfl, fun h => by cases h⟩
  · ixop hc
    intro h; cases h

theorem splitPlace_safe {cb : Cb} {at_ : Side ⊕ Side} {n rhs : Tree I S 1} {key : Key I S} {keySize rhsStart oldSize : I} {idx mid len : Nat}
    {ov : Option I} {fst : Sized I S} {snd : Option (Sized I S)} {w : World} (hM : 1 ≤ E.M) (hμ : μ ≤ E.M) (hl : len ≤ 2 * E.M) (hl' : 2 * E.M ≤ len + snd.isSome.toNat)
    (hp : PlanOk E.M len idx snd.isSome (mid, at_)) (hn : Lf mid n) (hr : Lf (len - (mid + 1)) rhs) (hi : idx ≤ len)
    (hov : ov.isSome = true → idx ≠ 0 ∧ (at_ = .inl .right → idx ≠ mid + 1)) :
    Safe E.ix.debug (splitPlace E cb at_ n key keySize rhs rhsStart oldSize idx mid ov fst snd w) fun r => r.1.Ok μ E.M := by
  have hb : snd.isSome.toNat ≤ 1 := by cases snd <;> simp
  unfold splitPlace
  match at_, hp with
  | .inr .right, hp =>
    obtain ⟨p1, p2, p3⟩ := hp
    dsimp only at p1 p2 p3 ⊢
    ixop hc
    refine (leafPush_safe (E := E) hn (by omega)).bind fun r h1 => ?_
    obtain ⟨n1, w1⟩ := r
    obtain ⟨h1, -⟩ := h1
    dsimp only at h1 ⊢
    refine (Safe.usub (by have := h1.1; show 1 ≤ (Node.keys n1).length; omega)).op' fun _ => ?_
    refine (emit_safe (.inr (by intros; simp))).op fun _ => ?_
    refine (prependSnd_safe hc hr (by omega)).bind fun r h2 => ?_
    obtain ⟨R1, w2⟩ := r
    exact ⟨rfl, h1.shape (by omega) (by omega), h2.shape (by omega) (by omega)⟩
  | .inr .left, hp =>
    obtain ⟨p1, p2, p3, p4, p5⟩ := hp
    dsimp only at p1 p2 p4 p5 ⊢
    cases snd with
    | none => cases p3
    | some s =>
      dsimp only
      ixop hc
      ixop hc
      refine (leafPush_safe (E := E) hn (by omega)).bind fun r h1 => ?_
      obtain ⟨n1, w1⟩ := r
      obtain ⟨h1, -⟩ := h1
      dsimp only at h1 ⊢
      refine (leafPush_safe (E := E) h1 (by omega)).bind fun r h2 => ?_
      obtain ⟨n2, w2⟩ := r
      obtain ⟨h2, -⟩ := h2
      dsimp only at h2 ⊢
      have e : Node.len (C := Tree I S 0) n = mid := hn.1
      rw [e]
      refine (handle_safe (by have := h2.1; omega)).op fun _ => ?_
      refine (handle_safe (by have := h2.1; omega)).op fun _ => ?_
      refine (emit_safe (.inr (by intros; simp))).op fun _ => ?_
      refine (emit_safe (.inr (by intros; simp))).op fun _ => ?_
      exact ⟨rfl, h2.shape (by omega) (by omega), hr.shape (by omega) (by omega)⟩
  | .inl .left, hp =>
    obtain ⟨p1, p2, p3, p4, p5⟩ := hp
    dsimp only at p1 p2 p3 p4 p5 ⊢
    refine (leafInsertHalf_safe hc hn p1 (fun h => (hov h).1) (by omega)).bind fun r h1 => ?_
    obtain ⟨n1, w1⟩ := r
    exact ⟨rfl, h1.shape (by omega) (by omega), hr.shape (by omega) (by omega)⟩
  | .inl .right, hp =>
    obtain ⟨p1, p2⟩ := hp
    dsimp only at p1 p2 ⊢
    refine (Safe.usub (by omega)).bind fun idx' hi' => ?_
    refine (leafInsertHalf_safe hc (idx := idx') hr (by omega) (fun h => by have := (hov h).2 rfl; omega) (by omega)).bind fun r h1 => ?_
    obtain ⟨n1, w1⟩ := r
    exact ⟨rfl, hn.shape (by omega) (by omega), h1.shape (by omega) (by omega)⟩

theorem leafSplit_safe {cb : Cb} {n : Tree I S 1} {len idx : Nat} {ov : Option I} {fst : Sized I S} {snd : Option (Sized I S)} {w : World} (hM : 1 ≤ E.M) (hμ : μ ≤ E.M)
    (h : Lf len n) (hl : len ≤ 2 * E.M) (hl' : 2 * E.M ≤ len + snd.isSome.toNat) (hi : idx ≤ len) (hov : ov.isSome = true → idx ≠ 0)
    (hw : w.fst = none) : Safe E.ix.debug (leafSplit E cb n idx ov fst snd w) fun r => r.1.Ok μ E.M := by
  unfold leafSplit
  have hlen : Node.len n = len := h.1
  split
  · rename_i hsm
    obtain ⟨e1, e2⟩ := hsm
    cases snd with
    | none => simp at hl'; omega
    | some s =>
      have e3 : len = 1 := by omega
      subst e3
      exact leafSplitSmall_safe e1 hμ h hi hov hw
  · rename_i hsm
    rw [hlen] at hsm ⊢
    refine (splitPlan_safe hM hl hl' hsm).bind fun r hp => ?_
    obtain ⟨mid, at_⟩ := r
    have hb : snd.isSome.toNat ≤ 1 := by cases snd <;> simp
    have hmid : mid < len := by
      match at_, hp with
      | .inl .left, hp => obtain ⟨p1, p2, p3, p4, p5⟩ := hp; dsimp only at *; omega
      | .inl .right, hp => obtain ⟨p1, p2⟩ := hp; dsimp only at *; omega
      | .inr .left, hp => obtain ⟨p1, p2, p3, p4, p5⟩ := hp; dsimp only at *; omega
      | .inr .right, hp => obtain ⟨p1, p2, p3⟩ := hp; dsimp only at *; omega
    dsimp only
    refine (leaf_split_safe h hmid).bind fun r hs => ?_
    obtain ⟨L, key, R, w1⟩ := r
    obtain ⟨s1, s2, s3⟩ := hs
    dsimp only at s1 s2 s3 ⊢
    refine (emit_keeps (s3.trans hw) (by intros; simp)).bind fun w2 hw2 => ?_
    refine (emit_safe (.inl hw2)).op fun w3 => ?_
    refine (midResize_safe hc).bind fun r hmr => ?_
    obtain ⟨ks, ov'⟩ := r
    dsimp only at hmr ⊢
    refine (shiftKeys_safe hc (Nat.zero_le _)).bind fun R1 hsame => ?_
    exact splitPlace_safe hc hM hμ hl hl' hp (n := { L with size := key.pos }) s1 (s2.same hsame) hi (fun h => ⟨hov (hmr h).1, (hmr h).2⟩)

theorem leafRoom_safe {cb : Cb} {n : Tree I S 1} {k idx : Nat} {ov : Option I} {fst : Sized I S} {snd : Option (Sized I S)} {added : I} {w : World}
    (h : Lf k n) (hi : idx ≤ k) (hov : ov.isSome = true → idx ≠ 0) (hm : k + 1 + snd.isSome.toNat ≤ 2 * E.M) :
    Safe E.ix.debug (leafRoom E cb n idx ov fst snd added w) fun r => Lf (k + 1 + snd.isSome.toNat) r.1 := by
  have hend : ∀ (n3 : Tree I S 1) (w3 : World) (p : Option I) (old new : I), Lf (k + 1 + snd.isSome.toNat) n3 →
      Safe E.ix.debug (do
        let _ ← Node.handle n3 idx
        let w ← emit cb (.insertion n3.ptr idx) w3
        pure (n3, p, old, new, w)) fun r => Lf (k + 1 + snd.isSome.toNat) r.1 := by
    intro n3 w3 p old new hr
    refine (handle_safe (by have := hr.1; omega)).op fun _ => ?_
    exact (emit_safe (.inr (by intros; simp))).op fun _ => hr
  unfold leafRoom
  dsimp only
  cases ov with
  | some z =>
    have := hov rfl
    refine (Safe.usub (by omega)).bind fun j hj => ?_
    have hk : j < (Node.keys n).length := by rw [h.1]; omega
    refine (keyPos_safe hk).op fun _ => (sliceSize_safe hc hk h.arity).op fun _ => ?_
    ixop hc
    refine (leafInsert_safe h hi (by omega)).bind fun r h1 => ?_
    obtain ⟨n1, _, w1⟩ := r
    dsimp only at h1 ⊢
    refine (setKeyPos_safe (by have := h1.1; omega)).bind fun n2 hs => ?_
    have h2 : Lf (k + 1) n2 := h1.same hs
    cases snd with
    | none =>
      simp only [R.pure_eq, R.bind_ok]
      ixop hc
      exact hend _ _ _ _ _ h2
    | some s =>
      simp only [Option.isSome_some, Bool.toNat_true] at hm
      refine (leafInsert_safe h2 (by omega) (by omega)).bind fun r h3 => ?_
      obtain ⟨n3, _, w3⟩ := r
      dsimp only at h3 ⊢
      ixop hc
      refine (setKeyPos_safe (by have := h3.1; omega)).bind fun n4 hs4 => ?_
      simp only [R.pure_eq, R.bind_ok]
      ixop hc
      exact hend _ _ _ _ _ (h3.same hs4)
  | none =>
    refine (leafInsert_safe h hi (by omega)).bind fun r h1 => ?_
    obtain ⟨n1, _, w1⟩ := r
    dsimp only at h1 ⊢
    cases snd with
    | none => exact hend _ _ _ _ _ h1
    | some s =>
      simp only [Option.isSome_some, Bool.toNat_true] at hm
      refine (leafInsert_safe h1 (by omega) (by omega)).bind fun r h3 => ?_
      obtain ⟨n3, _, w3⟩ := r
      dsimp only at h3 ⊢
      ixop hc
      refine (setKeyPos_safe (by have := h3.1; omega)).bind fun n4 hs4 => ?_
      exact hend _ _ _ _ _ (h3.same hs4)

theorem noJoin_safe {cb : Cb} {m : Maps I} {H : Nat} {n : Tree I S 1} {ctx : Ctx I S H 1} {idx : Nat} {ov : Option I} {fst : Sized I S}
    {snd : Option (Sized I S)} {w : World} (hM : 1 ≤ E.M) (hμ : μ ≤ E.M) (hx : ctx.Shape μ E.M) (hn : FillT μ E.M (ctx.low μ) n) (hi : idx ≤ (Node.keys n).length)
    (hov : ov.isSome = true → idx ≠ 0) (hw : w.fst = none) (hm : m.sizes = true → 0 < m.lhsHeight ∧ m.lhsHeight < H) :
    Safe E.ix.debug (noJoin E cb m n ctx idx ov fst snd w) fun r => r.1.Shape μ E.M := by
  obtain ⟨q1, q2, q3, -⟩ := fillT_succ.1 hn
  unfold noJoin
  refine (Safe.weak (decide_eq_true hi)).op fun _ => ?_
  refine (Safe.weak ?_).op fun _ => ?_
  · cases ov with
    | none => rfl
    | some x => have := hov rfl; simp [this]
  have hb : snd.isSome.toNat ≤ 1 := by cases snd <;> simp
  have hend : ∀ one added, one = snd.isSome.toNat → Safe E.ix.debug (do
      let lim ← usub (2 * E.M) one
      if Node.len n ≥ lim then do
        let (b, w) ← leafSplit E cb n idx ov fst snd w
        bubbleFinish E cb m ctx b false [] w
      else do
        let (n, ovPos, old, new, w) ← leafRoom E cb n idx ov fst snd added w
        let (t, path) ← opKey E.ix m false ctx n (idx + one) ovPos old new []
        pure (.done t, path, ctx.readUp (ptrT n) w)) fun r => r.1.Shape μ E.M := by
    intro one added hr
    subst hr
    refine (Safe.usub (by omega)).bind fun lim hlim => ?_
    split
    · rename_i hge
      have hge : lim ≤ (Node.keys n).length := hge
      refine (leafSplit_safe hc hM hμ hn.lf q2 (by omega) hi hov hw).bind fun r hb => ?_
      obtain ⟨b, w1⟩ := r
      obtain ⟨b1, b2, b3⟩ := hb
      exact bubbleFinish_safe hc hM hμ ctx b false [] w1 hx b1 b2 b3 (fun h => .inr (by have := hm h; omega)) (fun h => (hm h).2)
    · rename_i hge
      have hge : ¬ lim ≤ (Node.keys n).length := hge
      refine (leafRoom_safe hc hn.lf hi hov (by omega)).bind fun r h1 => ?_
      obtain ⟨n1, ovp, old, new, w1⟩ := r
      dsimp only at h1 ⊢
      refine (opKey_safe hc (n := n1) hx (h1.shape (by omega) (by omega)) (by have := h1.1; omega) ?_).bind fun r hr => hr
      intro h e
      have := hm h
      omega
  dsimp only
  cases snd with
  | none => exact hend _ _ rfl
  | some s =>
    dsimp only
    ixop hc
    exact hend _ _ rfl

end

end Sherman
