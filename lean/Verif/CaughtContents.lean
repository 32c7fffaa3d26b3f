import Verif.CaughtKeptLeaf
/-!
# Nothing is duplicated, reordered or made up by an insertion that panics

An insertion puts a slice between two slices of the tree, or into one of them, which is then replaced by its two parts.  If it panics, what is left in the tree
is part of that, in the same order.  This holds for any index type, any `M`, and also for trees that other panics have left.
-/
namespace Sherman
variable {I S : Type}

/-- Specification: `new` is put between two slices, or into one that is replaced by its parts.  `split_at`: src/public_traits.rs:59-70 -/
inductive Spliced (sl : SliceOps I S) (new : S) : List S → List S → Prop
  | between (l r : List S) : Spliced sl new (l ++ r) (l ++ new :: r)
  | inside (l r : List S) (x : S) (p : I) : Spliced sl new (l ++ x :: r) (l ++ (sl.splitAt x p).1 :: new :: (sl.splitAt x p).2 :: r)

theorem noJoinC_leaves {H : Nat} {E : Env I S} {cb : Cb} {m : Maps I} {n : Tree I S 1} {ctx : Ctx I S H 1} {idx : Nat} {ov : Option I} {fst : Sized I S}
    {snd : Option (Sized I S)} {w : World} {l : List S} (hx : ctx.Arity) (hn : Flat n l) :
    Leaves (noJoinC E cb m n ctx idx ov fst snd w) (fun r => r.1.Fits (ctx.pre ++ insL l idx fst snd ++ ctx.post))
      fun t => PartT t (ctx.pre ++ insL l idx fst snd ++ ctx.post) := by
  have hp := close_part hx (hn.part (sub_insL l idx fst snd))
  unfold noJoinC
  refine Leaves.skip hp fun _ => Leaves.skip hp fun _ => Leaves.skip hp fun r => ?_
  obtain ⟨one, added⟩ := r
  refine Leaves.skip hp fun lim => ?_
  dsimp only
  split
  · refine Leaves.bind (Leaves.within (leafSplitC_leaves hn) fun t ht => close_part hx ht) fun r hr => ?_
    obtain ⟨b, w1⟩ := r
    obtain ⟨x, y, h1, h2, h3⟩ := hr
    have := bubbleFinishC_leaves (E := E) (cb := cb) (m := m) ctx b false [] w1 x y hx (flat_fits.1 h1) (flat_fits.1 h2)
    rw [h3] at this
    exact this
  · refine Leaves.bind (Leaves.within (leafRoomC_leaves hn) fun t ht => close_part hx ht) fun r hr => ?_
    obtain ⟨n1, a1, a2, a3, w1⟩ := r
    refine ((opKeyC_leaves hx (flat_fits.1 hr)).mono (fun _ h => h) fun t ht => ht.part (List.Sublist.refl _)).bind fun r hr => ?_
    exact Leaves.pure hr

/-- Going down to a child. -/
theorem enter_fits {H h : Nat} {n : Tree I S (h + 2)} {ctx : Ctx I S H (h + 2)} {c : Nat} {ch : Tree I S (h + 1)} (hx : ctx.Arity) (hn : ArityT n)
    (hc : (Node.kids n)[c]? = some ch) :
    let f : Ctx I S H (h + 1) := .frame (Node.ptr n) (Node.size n) (Node.keys n) ((Node.kids n).take c) ((Node.kids n).drop (c + 1)) ctx
    f.Arity ∧ ArityT ch ∧ f.pre ++ slicesT ch ++ f.post = ctx.pre ++ slicesT n ++ ctx.post := by
  intro f
  obtain ⟨hl, hch⟩ := List.getElem?_eq_some_iff.1 hc
  have hk : Node.kids n = (Node.kids n).take c ++ ch :: (Node.kids n).drop (c + 1) := by
    rw [← hch]; simp
  have ha : (Node.kids n).length = (Node.keys n).length + 1 := hn.1
  have hkl : (Node.keys n).length = ((Node.kids n).take c).length + ((Node.kids n).drop (c + 1)).length := by
    simp only [List.length_take, List.length_drop]; omega
  have h1 : ∀ x ∈ (Node.kids n).take c, ArityT x := fun x hm => hn.2 x (List.mem_of_mem_take hm)
  have h2 : ∀ x ∈ (Node.kids n).drop (c + 1), ArityT x := fun x hm => hn.2 x (List.mem_of_mem_drop hm)
  have h3 : ArityT ch := hn.2 ch (List.mem_of_getElem? hc)
  refine ⟨⟨hkl, h1, h2, hx⟩, h3, ?_⟩
  have hpl : plugNode (Node.ptr n) (Node.size n) (Node.keys n) ((Node.kids n).take c) ch ((Node.kids n).drop (c + 1)) = n := by
    unfold plugNode; rw [← hk]; rfl
  have hf := plug_fits (p := Node.ptr n) (z := Node.size n) hkl h1 h2 (fits_self h3)
  rw [hpl] at hf
  have e := hf.2
  rw [e]
  simp [f, Ctx.pre, Ctx.post]

theorem descend_ret {H : Nat} : ∀ {h : Nat} (n : Tree I S (h + 1)) (ctx : Ctx I S H (h + 1)), ctx.Arity → ArityT n →
    Ret (descend n ctx) fun r => r.2.Arity ∧ ArityT r.1 ∧ r.2.pre = ctx.pre ∧ slicesT r.1 ++ r.2.post = slicesT n ++ ctx.post := by
  intro h
  induction h with
  | zero => intro n ctx hx hn; exact Ret.pure ⟨hx, hn, rfl, rfl⟩
  | succ h ih =>
    intro n ctx hx hn
    refine (child_ret (C := Tree I S (h + 1))).bind fun ch hc => ?_
    obtain ⟨e1, e2, e3⟩ := enter_fits hx hn hc
    refine (ih ch _ e1 e2).mono fun r hr => ?_
    obtain ⟨r1, r2, r3, r4⟩ := hr
    have hpre : (Ctx.frame (Node.ptr n) (Node.size n) (Node.keys n) ((Node.kids n).take 0) ((Node.kids n).drop 1) ctx : Ctx I S H (h + 1)).pre = ctx.pre := by
      simp [Ctx.pre, mixL]
    refine ⟨r1, r2, r3.trans hpre, r4.trans ?_⟩
    rw [hpre, List.append_assoc, List.append_assoc] at e3
    exact List.append_cancel_left e3

/-- The slices of a node before and after a key. -/
theorem around {h : Nat} {n : Tree I S (h + 1)} {k : Nat} {key : Key I S} (hn : ArityT n) (hk : (Node.keys n)[k]? = some key) :
    slicesT n = mix (((Node.kids n).map slicesT).take (k + 1)) (((Node.keys n).map Key.slice).take k) ++
      key.slice :: mix (((Node.kids n).map slicesT).drop (k + 1)) (((Node.keys n).map Key.slice).drop (k + 1)) := by
  have ha := hn.1
  exact mix_split k _ _ key.slice (by simp [ha]) (by simp [hk])

theorem mixL_take : ∀ (k : Nat) (cs : List (List S)) (ks : List S) (s : S), cs.length = ks.length + 1 → ks[k]? = some s →
    mixL (cs.take (k + 1)) ks = mix (cs.take (k + 1)) (ks.take k) ++ [s] := by
  intro k
  induction k with
  | zero =>
    intro cs ks s h hk
    cases cs with
    | nil => simp at h
    | cons c cs =>
      cases ks with
      | nil => simp at hk
      | cons k ks => simp at hk; simp [mixL, mix, hk]
  | succ k ih =>
    intro cs ks s h hk
    cases cs with
    | nil => simp at h
    | cons c cs =>
      cases ks with
      | nil => simp at hk
      | cons k' ks => simpa [mixL, mix] using ih cs ks s (by simpa using h) (by simpa using hk)

theorem rhsLeaf_ret {H : Nat} {h : Nat} {n : Tree I S (h + 1)} {ctx : Ctx I S H (h + 1)} {k : Nat} {key : Key I S} (hx : ctx.Arity) (hn : ArityT n)
    (hk : (Node.keys n)[k]? = some key) :
    Ret (rhsLeaf n ctx k) fun r => r.2.1.Arity ∧ ArityT r.1 ∧
      r.2.1.pre ++ (slicesT r.1).take r.2.2 = ctx.pre ++ (mix (((Node.kids n).map slicesT).take (k + 1)) (((Node.keys n).map Key.slice).take k) ++ [key.slice]) ∧
      (slicesT r.1).drop r.2.2 ++ r.2.1.post = mix (((Node.kids n).map slicesT).drop (k + 1)) (((Node.keys n).map Key.slice).drop (k + 1)) ++ ctx.post := by
  have ha := hn.1
  have hkl : k < (Node.keys n).length := (List.getElem?_eq_some_iff.1 hk).1
  cases h with
  | zero =>
    have har := around hn hk
    have e1 : mix (((Node.kids n).map slicesT).take (k + 1)) (((Node.keys n).map Key.slice).take k) = ((Node.keys n).map Key.slice).take k := by
      have := mix_nils ((Node.kids n).take (k + 1)) (((Node.keys n).map Key.slice).take k) (by simp [ha])
      rw [← List.map_take]
      exact this
    have hlen : (mix (((Node.kids n).map slicesT).take (k + 1)) (((Node.keys n).map Key.slice).take k)).length = k := by
      rw [e1]; simp; omega
    refine Ret.pure ⟨hx, hn, ?_, ?_⟩
    · show ctx.pre ++ (slicesT n).take (k + 1) = _
      rw [har, List.take_append, List.take_of_length_le (by omega), hlen]
      simp
    · show (slicesT n).drop (k + 1) ++ ctx.post = _
      rw [har, List.drop_append, List.drop_of_length_le (by omega), hlen]
      simp
  | succ h =>
    refine (child_ret (C := Tree I S (h + 1))).bind fun ch hc => ?_
    obtain ⟨e1, e2, e3⟩ := enter_fits hx hn hc
    refine (descend_ret ch _ e1 e2).bind fun r hr => ?_
    obtain ⟨leaf, ctx'⟩ := r
    obtain ⟨r1, r2, r3, r4⟩ := hr
    have hpre : (Ctx.frame (Node.ptr n) (Node.size n) (Node.keys n) ((Node.kids n).take (k + 1)) ((Node.kids n).drop (k + 1 + 1)) ctx : Ctx I S H (h + 1)).pre =
        ctx.pre ++ (mix (((Node.kids n).map slicesT).take (k + 1)) (((Node.keys n).map Key.slice).take k) ++ [key.slice]) := by
      have := mixL_take k ((Node.kids n).map slicesT) ((Node.keys n).map Key.slice) key.slice (by simp [ha]) (by simp [hk])
      rw [← this]
      simp only [Ctx.pre, List.map_take]
    refine Ret.pure ⟨r1, r2, ?_, ?_⟩
    · show ctx'.pre ++ List.take 0 _ = _
      rw [List.take_zero, List.append_nil, r3]
      exact hpre
    · show List.drop 0 _ ++ ctx'.post = _
      rw [List.drop_zero, r4]
      rw [hpre, around hn hk] at e3
      simp only [List.append_assoc, List.cons_append] at e3
      have e4 := List.append_cancel_left (List.append_cancel_left e3)
      injection e4 with _ e5

/-- What is found is in the tree. -/
def Point.Of {H : Nat} (pt : Point I S H) (old : List S) : Prop :=
  match pt with
  | .edge leaf ctx _ _ _ => ctx.Arity ∧ ArityT leaf ∧ ctx.pre ++ slicesT leaf ++ ctx.post = old
  | .split _ n ctx _ _ => ctx.Arity ∧ ArityT n ∧ ctx.pre ++ slicesT n ++ ctx.post = old

theorem findPoint_ret {E : Env I S} {H : Nat} {old : List S} : ∀ {h : Nat} (n : Tree I S (h + 1)) (ctx : Ctx I S H (h + 1)) (hints : Option (List Nat)) (target : I)
    (lhs rhs : Option (Nat × Nat)), ctx.Arity → ArityT n → ctx.pre ++ slicesT n ++ ctx.post = old →
    Ret (findPoint E n ctx hints target lhs rhs) fun pt => pt.Of old := by
  intro h
  induction h with
  | zero =>
    intro n ctx hints target lhs rhs hx hn he
    unfold findPoint
    refine Ret.skip fun st => ?_
    cases st with
    | key k p => exact Ret.skip fun _ => Ret.skip fun _ => Ret.pure ⟨hx, hn, he⟩
    | child c p => exact Ret.pure ⟨hx, hn, he⟩
  | succ h ih =>
    intro n ctx hints target lhs rhs hx hn he
    unfold findPoint
    refine Ret.skip fun st => ?_
    cases st with
    | key k p => exact Ret.skip fun _ => Ret.skip fun _ => Ret.pure ⟨hx, hn, he⟩
    | child c p =>
      dsimp only
      refine Ret.skip fun _ => (child_ret (C := Tree I S (h + 1))).bind fun ch hc => ?_
      obtain ⟨e1, e2, e3⟩ := enter_fits hx hn hc
      exact ih ch _ _ _ _ _ e1 e2 (e3.trans he)

/-- What may be left of a tree with the slices `old` when `new` is inserted; `d` is the change of the reported number of slices. -/
def LeftOf {H : Nat} (sl : SliceOps I S) (new : S) (old : List S) (t : Tree I S H) (d : Nat) : Prop :=
  ArityT t ∧ (slicesT t).length ≤ old.length + d ∧ (slicesT t = old ∨ ∃ full, Spliced sl new old full ∧ (slicesT t).Sublist full)

theorem insertAtC_leaves {E : Env I S} {H : Nat} {nop : Bool} {pt : Point I S H} {s : S} {z : I} {w : World} {old : List S} (hp : pt.Of old) :
    Leaves (insertAtC E nop pt s z w) (fun r => ∃ full, r.2.1.Fits full ∧ Spliced E.sl s old full ∧ full.length = old.length + r.1)
      fun l => LeftOf E.sl s old l.1 l.2 := by
  cases pt with
  | edge leaf ctx i lhs rhs =>
    obtain ⟨hx, hn, he⟩ := hp
    have f0 := close_fits ctx leaf _ hx (fits_self hn)
    rw [he] at f0
    have l0 : LeftOf E.sl s old (ctx.close leaf) 0 := ⟨f0.1, by rw [f0.2]; simp, .inl f0.2⟩
    have hsp : Spliced E.sl s old (ctx.pre ++ insL (slicesT leaf) i ⟨s, z⟩ none ++ ctx.post) := by
      have := Spliced.between (sl := E.sl) (new := s) (ctx.pre ++ (slicesT leaf).take i) ((slicesT leaf).drop i ++ ctx.post)
      have e1 : ctx.pre ++ (slicesT leaf).take i ++ ((slicesT leaf).drop i ++ ctx.post) = old := by
        rw [← he, List.append_assoc ctx.pre, ← List.append_assoc ((slicesT leaf).take i), List.take_append_drop, List.append_assoc]
      rw [e1] at this
      simpa [insL] using this
    have hlen : (ctx.pre ++ insL (slicesT leaf) i (⟨s, z⟩ : Sized I S) none ++ ctx.post).length = old.length + 1 := by
      rw [← he]
      have := congrArg List.length (List.take_append_drop i (slicesT leaf))
      simp only [List.length_append] at this
      simp only [insL, List.length_append, List.length_cons, Option.map_none, Option.toList_none, List.length_nil]
      omega
    unfold insertAtC
    refine Leaves.skip l0 fun _ => ?_
    refine Leaves.bind (Leaves.within (noJoinC_leaves hx (flat_fits.2 (fits_self hn))) fun t ht => ?_) fun r hr => Leaves.pure ⟨_, hr, hsp, hlen⟩
    obtain ⟨l', q1, q2⟩ := ht
    refine ⟨q1.1, ?_, .inr ⟨_, hsp, by rw [q1.2]; exact q2⟩⟩
    rw [q1.2, ← hlen]
    exact q2.length_le
  | split h n ctx k p =>
    obtain ⟨hx, hn, he⟩ := hp
    have f0 := close_fits ctx n _ hx (fits_self hn)
    rw [he] at f0
    have l0 : LeftOf E.sl s old (ctx.close n) 0 := ⟨f0.1, by rw [f0.2]; simp, .inl f0.2⟩
    unfold insertAtC
    refine Leaves.skip l0 fun kz => ?_
    refine Leaves.step (handle_ret (C := Tree I S h)) l0 fun key hk => ?_
    have hsl := Spliced.inside (sl := E.sl) (new := s) (ctx.pre ++ mix (((Node.kids n).map slicesT).take (k + 1)) (((Node.keys n).map Key.slice).take k))
      (mix (((Node.kids n).map slicesT).drop (k + 1)) (((Node.keys n).map Key.slice).drop (k + 1)) ++ ctx.post) key.slice p
    have ho : ctx.pre ++ mix (((Node.kids n).map slicesT).take (k + 1)) (((Node.keys n).map Key.slice).take k) ++
        key.slice :: (mix (((Node.kids n).map slicesT).drop (k + 1)) (((Node.keys n).map Key.slice).drop (k + 1)) ++ ctx.post) = old := by
      rw [← he, around hn hk]; simp
    rw [ho] at hsl
    generalize E.sl.splitAt key.slice p = sp at hsl ⊢
    obtain ⟨ls, rs⟩ := sp
    dsimp only at hsl ⊢
    refine Leaves.step (setSlice_ret (C := Tree I S h)) l0 fun n1 hs => ?_
    obtain ⟨s1, s2⟩ := hs
    have hkl : k < (Node.keys n).length := (List.getElem?_eq_some_iff.1 hk).1
    have hlen1 : n1.keys.length = (Node.keys n).length := by
      have := congrArg List.length s1
      simpa using this
    have ha1 : ArityT (h := h + 1) n1 := by
      refine ⟨?_, ?_⟩
      · rw [s2, hlen1]; exact hn.1
      · rw [s2]; exact hn.2
    obtain ⟨key1, hk1, hks⟩ : ∃ key1, n1.keys[k]? = some key1 ∧ key1.slice = ls := by
      have h1 : (n1.keys.map Key.slice)[k]? = some ls := by rw [s1]; simp [hkl]
      rw [List.getElem?_map, Option.map_eq_some_iff] at h1
      exact h1
    have t1 : (n1.keys.map Key.slice).take k = ((Node.keys n).map Key.slice).take k := by rw [s1, List.take_set_of_le (le_refl k)]
    have t2 : (n1.keys.map Key.slice).drop (k + 1) = ((Node.keys n).map Key.slice).drop (k + 1) := by
      rw [s1, List.drop_set_of_lt (Nat.lt_succ_self k)]
    -- the whole list, from the node with the key shortened
    generalize hA : ctx.pre ++ mix (((Node.kids n).map slicesT).take (k + 1)) (((Node.keys n).map Key.slice).take k) = A at hsl ho
    generalize hB : mix (((Node.kids n).map slicesT).drop (k + 1)) (((Node.keys n).map Key.slice).drop (k + 1)) ++ ctx.post = B at hsl ho
    have f1 : Fits (Ctx.close (h := h + 1) ctx n1) (A ++ ls :: B) := by
      have := close_fits ctx (h := h + 1) n1 _ hx (fits_self ha1)
      rw [around ha1 hk1, t1, t2, s2, hks] at this
      rw [← hA, ← hB]
      simpa using this
    have l1 : LeftOf E.sl s old (Ctx.close (h := h + 1) ctx n1) 0 := by
      refine ⟨f1.1, by rw [f1.2, ← ho]; simp, .inr ⟨_, hsl, ?_⟩⟩
      rw [f1.2]
      exact (List.Sublist.refl _).append ((((List.Sublist.refl _).cons _).cons _).cons_cons _)
    refine Leaves.skip l1 fun rz => ?_
    have hlen : (A ++ ls :: s :: rs :: B).length = old.length + 2 := by rw [← ho]; simp; omega
    have key : Leaves (insertRhsC E nop false n1 ctx k p false ⟨s, z⟩ (some ⟨rs, rz⟩) w) (fun r => r.1.Fits (A ++ ls :: s :: rs :: B))
        fun t => PartT t (A ++ ls :: s :: rs :: B) := by
      have p1 : PartT (Ctx.close (h := h + 1) ctx n1) (A ++ ls :: s :: rs :: B) :=
        f1.part ((List.Sublist.refl _).append ((((List.Sublist.refl _).cons _).cons _).cons_cons _))
      unfold insertRhsC
      refine Leaves.skip p1 fun _ => Leaves.skip p1 fun _ => ?_
      refine Leaves.step (rhsLeaf_ret hx ha1 hk1) p1 fun r hr => ?_
      obtain ⟨leaf, ctx', i⟩ := r
      obtain ⟨q1, q2, q3, q4⟩ := hr
      dsimp only at q1 q2 q3 q4
      have e : ctx'.pre ++ insL (slicesT leaf) i (⟨s, z⟩ : Sized I S) (some ⟨rs, rz⟩) ++ ctx'.post = A ++ ls :: s :: rs :: B := by
        rw [t1, s2, hks, ← List.append_assoc] at q3
        rw [t2, s2] at q4
        rw [hA] at q3
        rw [hB] at q4
        have : ctx'.pre ++ insL (slicesT leaf) i (⟨s, z⟩ : Sized I S) (some ⟨rs, rz⟩) ++ ctx'.post =
          (ctx'.pre ++ (slicesT leaf).take i) ++ s :: rs :: ((slicesT leaf).drop i ++ ctx'.post) := by simp [insL]
        rw [this, q3, q4]
        simp
      rw [← e]
      exact noJoinC_leaves q1 (flat_fits.2 (fits_self q2))
    refine Leaves.bind (Leaves.within key fun t ht => ?_) fun r hr => Leaves.pure ⟨_, hr, hsl, hlen⟩
    obtain ⟨l', g1, g2⟩ := ht
    refine ⟨g1.1, ?_, .inr ⟨_, hsl, by rw [g1.2]; exact g2⟩⟩
    rw [g1.2, ← hlen]
    exact g2.length_le

/-! ## Trees -/

/-- Specification: the slices that are stored, in order. -/
def RleTree.slices (t : RleTree I S) : List S := t.places.map Cell.slice

theorem weave_mix (p : Nat) : ∀ (i : Nat) (cs : List (List (Cell S))) (ks : List (Key I S)),
    (weave p i cs ks).map Cell.slice = mix (cs.map (List.map Cell.slice)) (ks.map Key.slice) := by
  intro i cs
  induction cs generalizing i with
  | nil => intro ks; rfl
  | cons c cs ih =>
    intro ks
    have hu : (c.map (Cell.under i)).map Cell.slice = c.map Cell.slice := by simp [Cell.under]
    cases ks with
    | nil => simp only [weave, List.map_cons, List.map_nil, mix, hu]
    | cons k ks => simp only [weave, List.map_append, List.map_cons, mix, hu, ih]

theorem cells_slices : ∀ {h : Nat} (t : Tree I S h), (cells t).map Cell.slice = slicesT t := by
  intro h
  induction h with
  | zero => intro t; rfl
  | succ h ih =>
    intro t
    have : ((Node.kids t).map cells).map (List.map Cell.slice) = (Node.kids t).map slicesT := by
      rw [List.map_map]
      exact List.map_congr_left fun c _ => ih c
    show (weave _ 0 _ _).map Cell.slice = mix _ _
    rw [weave_mix, this]

theorem slices_some (h : Nat) (t : Tree I S (h + 1)) (n : Nat) : (⟨some ⟨h, t, n⟩⟩ : RleTree I S).slices = slicesT t := cells_slices t

/-- The right arities, and not more slices than reported. -/
def RleTree.Counted (t : RleTree I S) : Prop := ∀ r, t.root = some r → ArityT r.tree ∧ (slicesT r.tree).length ≤ r.len

theorem Post.left_fits {H : Nat} {p : Post I S H} {full : List S} (hp : p.Fits full) : PartT p.left full := by
  cases p with
  | done t => exact Sherman.Fits.part hp (List.Sublist.refl _)
  | newRoot a key z d =>
    obtain ⟨x, y, h1, h2, h3⟩ := hp
    exact h1.part (by rw [← h3]; exact List.sublist_append_left _ _)

theorem installRoot_ret {E : Env I S} {H len : Nat} {post : Post I S (H + 1)} {path : List Nat} {hd : Option (Nat × Nat)} {w : World} {full : List S}
    (hp : post.Fits full) (hl : full.length ≤ len) : Ret (installRoot E len post path hd w) fun r => r.1.Counted ∧ r.1.slices = full := by
  cases post with
  | done t =>
    refine Ret.skip fun _ => Ret.pure ⟨?_, ?_⟩
    · rintro r ⟨⟩
      exact ⟨hp.1, by have := hp.2; dsimp only; rw [this]; exact hl⟩
    · exact (slices_some _ _ _).trans hp.2
  | newRoot a key z d =>
    obtain ⟨x, y, h1, h2, h3⟩ := hp
    have hm : Ret (makeNewParent E.ix a key z d w) fun r => Sherman.Fits r.1 full := by
      refine Ret.skip fun _ => Ret.skip fun _ => Ret.pure (fits_succ.2 ⟨rfl, ?_, ?_⟩)
      · intro c hc
        simp only [List.mem_cons, List.not_mem_nil, or_false] at hc
        rcases hc with rfl | rfl
        · exact h1.1
        · exact h2.1
      · simp [mix, h1.2, h2.2, h3]
    refine hm.bind fun r hr => ?_
    obtain ⟨t, w1⟩ := r
    refine Ret.skip fun _ => Ret.pure ⟨?_, ?_⟩
    · rintro r ⟨⟩
      exact ⟨hr.1, by have := hr.2; dsimp only at this ⊢; rw [this]; exact hl⟩
    · exact (slices_some _ _ _).trans hr.2

theorem insertC_leaves {E : Env I S} {t : RleTree I S} (ht : t.Counted) (nop : Bool) (hints : List Nat) (idx : I) (s : S) (z : I) (w : World) :
    Leaves (t.insertC E nop hints idx s z w) (fun r => r.1.Counted ∧ Spliced E.sl s t.slices r.1.slices)
      fun t' => t'.Counted ∧ (t'.slices = t.slices ∨ ∃ full, Spliced E.sl s t.slices full ∧ t'.slices.Sublist full) := by
  unfold RleTree.insertC
  cases hroot : t.root with
  | none =>
    have hs : t.slices = [] := by simp [RleTree.slices, RleTree.places, hroot]
    have l0 : t.Counted ∧ (t.slices = t.slices ∨ ∃ full, Spliced E.sl s t.slices full ∧ t.slices.Sublist full) := ⟨ht, .inl rfl⟩
    refine Leaves.leave ?_ l0
    have hnew : Ret (RleTree.new E s z w) fun r => r.1.Counted ∧ r.1.slices = [s] := by
      refine Ret.skip fun _ => Ret.skip fun _ => Ret.skip fun _ => Ret.pure ⟨?_, ?_⟩
      · rintro r ⟨⟩
        refine ⟨⟨rfl, fun _ _ => trivial⟩, ?_⟩
        exact Nat.le_refl 1
      · exact (slices_some _ _ _).trans rfl
    unfold RleTree.insert
    rw [hroot]
    refine Ret.skip fun _ => Ret.skip fun _ => ?_
    refine hnew.bind fun r hr => ?_
    obtain ⟨t1, w1⟩ := r
    dsimp only
    split
    · exact Ret.err
    · refine Ret.pure ⟨hr.1, ?_⟩
      rw [hs, hr.2]
      exact Spliced.between [] []
  | some root =>
    obtain ⟨h, tr, len⟩ := root
    obtain ⟨ha, hlen⟩ := ht _ hroot
    dsimp only at ha hlen
    have hs : t.slices = slicesT tr := by
      have : t = ⟨some ⟨h, tr, len⟩⟩ := by cases t; simpa using hroot
      rw [this]; exact slices_some _ _ _
    have l0 : t.Counted ∧ (t.slices = t.slices ∨ ∃ full, Spliced E.sl s t.slices full ∧ t.slices.Sublist full) := ⟨ht, .inl rfl⟩
    refine Leaves.skip l0 fun _ => Leaves.skip l0 fun _ => ?_
    refine Leaves.step (findPoint_ret (old := slicesT tr) tr .top _ _ _ _ trivial ha (by simp [Ctx.pre, Ctx.post])) l0 fun pt hpt => ?_
    rw [hs]
    refine Leaves.bind (Leaves.within (insertAtC_leaves hpt) fun l hl => ?_) fun r hr => ?_
    · obtain ⟨q1, q2, q3⟩ := hl
      refine ⟨?_, by rw [slices_some]; exact q3⟩
      rintro r ⟨⟩
      exact ⟨q1, by dsimp only; omega⟩
    · obtain ⟨dlen, post, path, w1⟩ := r
      obtain ⟨full, f1, f2, f3⟩ := hr
      dsimp only at f1 f3
      refine Leaves.leave ((installRoot_ret f1 (by dsimp only; omega)).mono fun r hr => ⟨hr.1, by rw [hr.2]; exact f2⟩) ?_
      obtain ⟨l', g1, g2⟩ := Post.left_fits f1
      refine ⟨?_, .inr ⟨full, f2, ?_⟩⟩
      · rintro r ⟨⟩
        refine ⟨g1.1, ?_⟩
        have := g2.length_le
        have e := g1.2
        dsimp only
        rw [e]
        omega
      · rw [slices_some, g1.2]; exact g2

theorem attempts_counted {E : Env I S} (as : List (Attempt I S)) : ∀ {t : RleTree I S}, t.Counted → (as.foldl (RleTree.attempt E) t).Counted := by
  induction as with
  | nil => intro t ht; exact ht
  | cons a as ih =>
    intro t ht
    refine ih ?_
    have hm := insertC_leaves (E := E) ht a.nop a.hints a.idx a.slice a.size a.world
    unfold RleTree.attempt Attempt.run
    split
    · rename_i r hx; exact (hm.1 r hx).1
    · rename_i e hx; exact (hm.2 e.1 e.2 hx).1

/-- **C56.** Whatever the index type and `M`, after any number of insertions of which some panicked: a further insertion that returns has put its slice between two
of those stored or into one of them; if it panics, what is stored is as before, or part of what would have been stored, in the same order.  The tree never
stores more slices than it reports. -/
theorem caught_contents {E : Env I S} (_ : E.sl.mayJoin = false) (_ : E.refs = false) (as : List (Attempt I S)) (a : Attempt I S) :
    let t := as.foldl (RleTree.attempt E) ⟨none⟩
    (∀ r, a.run E t = .ok r → Spliced E.sl a.slice t.slices r.1.slices) ∧
    (∀ f t', a.run E t = .error (f, t') → t'.slices = t.slices ∨ ∃ full, Spliced E.sl a.slice t.slices full ∧ t'.slices.Sublist full) ∧
    t.slices.length ≤ t.numberOfSlices := by
  intro t
  have ht : t.Counted := attempts_counted as (by rintro r ⟨⟩)
  have hm := insertC_leaves (E := E) ht a.nop a.hints a.idx a.slice a.size a.world
  refine ⟨fun r h => (hm.1 r h).2, fun f t' h => (hm.2 f t' h).2, ?_⟩
  cases hroot : t.root with
  | none => simp [RleTree.slices, RleTree.places, hroot]
  | some r =>
    have h1 := (ht r hroot).2
    simpa [RleTree.slices, RleTree.places, RleTree.numberOfSlices, hroot, ← cells_slices] using h1

/-- The program of `caught_loses`: the insertion panics, and what is left is part of the six letters with 'z' after the first. -/
example : (∃ f, ((put 100 1 'z' 250).run (byteEnv 3) (after 3 sixLetters)) = .error (f, (after 3 sixLetters).attempt (byteEnv 3) (put 100 1 'z' 250))) ∧
    (after 3 sixLetters).slices = ['a', 'b', 'c', 'd', 'e', 'f'] ∧
    ((after 3 sixLetters).attempt (byteEnv 3) (put 100 1 'z' 250)).slices = ['a', 'z', 'b'] ∧
    Spliced letterSl 'z' ['a', 'b', 'c', 'd', 'e', 'f'] ['a', 'z', 'b', 'c', 'd', 'e', 'f'] := by
  refine ⟨?_, by decide +kernel, by decide +kernel, Spliced.between ['a'] ['b', 'c', 'd', 'e', 'f']⟩
  have h : ((put 100 1 'z' 250).run (byteEnv 3) (after 3 sixLetters)).toOption = none := by decide +kernel
  unfold RleTree.attempt
  cases hx : (put 100 1 'z' 250).run (byteEnv 3) (after 3 sixLetters) with
  | ok r => rw [hx] at h; cases h
  | error e => exact ⟨e.1, rfl⟩

/-- With `M = 1`, where the tree that is left cannot be iterated over, the theorem holds too: 'z' goes into 'd', and the panic loses that, 'z' and 'a'. -/
example : let as := [put 0 0 'a' 3, put 10 3 'b' 3, put 20 6 'c' 3, put 30 0 'd' 3]
    (after 1 as).slices = ['d', 'a', 'b', 'c'] ∧ ((after 1 as).attempt (byteEnv 1) (put 40 2 'z' 254)).slices = ['b', 'c'] ∧
    Spliced letterSl 'z' ['d', 'a', 'b', 'c'] ['d', 'z', 'd', 'a', 'b', 'c'] := by
  exact ⟨by decide +kernel, by decide +kernel, Spliced.inside [] ['a', 'b', 'c'] 'd' 2⟩

end Sherman
