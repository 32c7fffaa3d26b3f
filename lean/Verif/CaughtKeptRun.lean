import Verif.CaughtKept
/-!
# What is stored after an insertion that panics: the steps of an insertion
-/
namespace Sherman
variable {I S C : Type}

/-! ## Positions and sizes -/

theorem mapSizes_ret {ix : IdxOps I} {m : Maps I} {handled : Bool} {height : Nat} {n : Node I S C} {cok : COK} {ov : Option I} {old new : I} :
    Ret (mapSizes ix m handled height n cok ov old new) fun r => Eqv n r.1 := by
  unfold mapSizes
  split
  · exact Ret.pure (Eqv.refl n)
  · refine Ret.skip fun _ => Ret.skip fun _ => Ret.skip fun _ => Ret.skip fun _ => Ret.skip fun _ => Ret.skip fun _ => Ret.skip fun _ => Ret.skip fun _ => ?_
    cases cok with
    | child c => exact Ret.pure (Eqv.refl n)
    | key k => exact Ret.skip fun _ => Ret.skip fun _ => Ret.skip fun _ => setKeyPos_ret.bind fun n' h => Ret.pure h

theorem opStepC_leaves {ix : IdxOps I} {m : Maps I} {handled : Bool} {height : Nat} {n : Node I S C} {cok : COK} {ov : Option I} {old new : I} :
    Leaves (opStepC ix m handled height n cok ov old new) (fun r => Eqv n r.1) (Eqv n) := by
  refine Leaves.step mapSizes_ret (Eqv.refl n) fun r hr => ?_
  obtain ⟨n1, ov1, old1, new1⟩ := r
  refine Leaves.skip hr fun pos => ?_
  exact (shiftKeysC_leaves.mono (fun _ h => hr.trans h) (fun _ h => hr.trans h)).bind fun n' h => Leaves.pure h

theorem opUpC_leaves {ix : IdxOps I} {m : Maps I} {handled : Bool} {H : Nat} : ∀ {h : Nat} (ctx : Ctx I S H h) (t : Tree I S h) (old new : I) (path : List Nat)
    (l : List S), ctx.Arity → Fits t l →
    Leaves (opUpC ix m handled ctx t old new path) (fun r => Fits r.1 (ctx.pre ++ l ++ ctx.post)) fun t => Fits t (ctx.pre ++ l ++ ctx.post) := by
  intro h ctx
  induction ctx with
  | top => intro t old new path l _ ht; exact Leaves.pure (by simpa [Ctx.pre, Ctx.post] using ht)
  | @frame h p z keys kl kr up ih =>
    intro t old new path l hx ht
    obtain ⟨h0, h1, h2, h3⟩ := hx
    have hf := plug_fits (p := p) (z := z) h0 h1 h2 ht
    have e : ∀ n : Tree I S (h + 1), Eqv (plugNode p z keys kl t kr) n → Fits n _ := fun n he => fits_succ.2 ((fits_succ.1 hf).eqv he)
    have el : (Ctx.frame p z keys kl kr up).pre ++ l ++ (Ctx.frame p z keys kl kr up).post =
      up.pre ++ (mixL (kl.map slicesT) (keys.map Key.slice) ++ l ++ mixR ((keys.map Key.slice).drop kl.length) (kr.map slicesT)) ++ up.post := by
      simp [Ctx.pre, Ctx.post]
    rw [el]
    refine (opStepC_leaves.within fun n he => close_fits up (h := h + 1) n _ h3 (e n he)).bind fun r he => ?_
    obtain ⟨n', z'⟩ := r
    exact ih n' _ _ _ _ h3 (e n' he)

theorem opKeyC_leaves {ix : IdxOps I} {m : Maps I} {handled : Bool} {H h : Nat} {ctx : Ctx I S H (h + 1)} {n : Tree I S (h + 1)} {k : Nat} {ov : Option I}
    {old new : I} {path : List Nat} {l : List S} (hx : ctx.Arity) (hn : Fits n l) :
    Leaves (opKeyC ix m handled ctx n k ov old new path) (fun r => Fits r.1 (ctx.pre ++ l ++ ctx.post)) fun t => Fits t (ctx.pre ++ l ++ ctx.post) := by
  have e : ∀ n' : Tree I S (h + 1), Eqv (C := Tree I S h) n n' → Fits n' l := fun n' he => fits_succ.2 ((fits_succ.1 hn).eqv he)
  refine (opStepC_leaves.within fun n he => close_fits ctx (h := h + 1) n _ hx (e n he)).bind fun r he => ?_
  obtain ⟨n', z'⟩ := r
  exact opUpC_leaves ctx n' _ _ _ _ hx (e n' he)

/-! ## A new child in a node -/

section
variable [HasPtr C] {P : C → Prop} {g : C → List S}

/-- The slices of a node with a key and a child put after child `c`. -/
def insN (g : C → List S) (n : Node I S C) (c : Nat) (b : Bubble I S C) : List S :=
  insMix (n.kids.map g) (n.keys.map Key.slice) c b.key.slice (g b.rhs)

omit [HasPtr C] in
theorem Has.sub_ins {n : Node I S C} {l : List S} {c : Nat} {b : Bubble I S C} (hn : Has P g n l) (hc : c ≤ n.keys.length) : Part P g n (insN g n c b) :=
  hn.part (by rw [← hn.list]; exact mix_sub_ins _ _ _ _ _ (by simp [hn.arity]) (by simpa using hc))

omit [HasPtr C] in
theorem Has.ins {n n' : Node I S C} {l : List S} {c : Nat} {b : Bubble I S C} (hn : Has P g n l) (hb : P b.rhs) (hc : c ≤ n.keys.length)
    (h1 : n'.keys.map Key.slice = (n.keys.map Key.slice).take c ++ b.key.slice :: (n.keys.map Key.slice).drop c)
    (h2 : n'.kids = n.kids.take (c + 1) ++ b.rhs :: n.kids.drop (c + 1)) : Has P g n' (insN g n c b) := by
  have hl : n'.keys.length = n.keys.length + 1 := by
    have := congrArg List.length h1
    simp only [List.length_map, List.length_append, List.length_take, List.length_cons, List.length_drop] at this
    omega
  refine ⟨?_, ?_, ?_⟩
  · rw [hl, h2]
    simp only [List.length_append, List.length_take, List.length_cons, List.length_drop, hn.arity]
    omega
  · intro x hx
    rw [h2] at hx
    simp only [List.mem_append, List.mem_cons] at hx
    rcases hx with hx | rfl | hx
    · exact hn.kids x (List.mem_of_mem_take hx)
    · exact hb
    · exact hn.kids x (List.mem_of_mem_drop hx)
  · rw [h1, h2]
    simp only [List.map_append, List.map_cons, List.map_take, List.map_drop]
    exact mix_ins _ _ _ _ _ (by simp [hn.arity]) (by simpa using hc)

theorem bubbleRoomC_leaves {E : Env I S} {cb : Cb} {sz : C → I} {n : Node I S C} {c : Nat} {b : Bubble I S C} {z : I} {path : List Nat} {w : World} {l : List S}
    (hn : Has P g n l) (hb : P b.rhs) (hc : c ≤ n.keys.length) :
    Leaves (bubbleRoomC E cb sz n c b z path w) (fun r => Has P g r.1 (insN g n c b)) fun n' => Part P g n' (insN g n c b) := by
  unfold bubbleRoomC
  refine Leaves.skip (hn.sub_ins hc) fun r => ?_
  obtain ⟨a1, a2, a3, a4⟩ := r
  refine Leaves.step insertKeyAndChild_ret (hn.sub_ins hc) fun r hr => ?_
  obtain ⟨n1, p, w1⟩ := r
  have h1 := hn.ins hb hc hr.2.1 hr.2.2
  refine Leaves.skip (h1.part (List.Sublist.refl _)) fun mid => ?_
  refine Leaves.step setKeyPos_ret (h1.part (List.Sublist.refl _)) fun n2 e => ?_
  have h2 := h1.eqv e
  exact Leaves.skip (h2.part (List.Sublist.refl _)) fun w2 => Leaves.pure h2

theorem bubbleInsertHalfC_leaves {E : Env I S} {cb : Cb} {sz : C → I} {n : Node I S C} {c : Nat} {b : Bubble I S C} {z : I} {sh : Option (Shift I)}
    {path : List Nat} {w : World} {l : List S} (hn : Has P g n l) (hb : P b.rhs) (hc : c ≤ n.keys.length) :
    Leaves (bubbleInsertHalfC E cb sz n c b z sh path w) (fun r => Has P g r.1 (insN g n c b)) fun n' => Part P g n' (insN g n c b) := by
  unfold bubbleInsertHalfC
  refine Leaves.skip (hn.sub_ins hc) fun r => ?_
  obtain ⟨a1, a2, a3, a4⟩ := r
  refine Leaves.skip (hn.sub_ins hc) fun _ => Leaves.skip (hn.sub_ins hc) fun _ => Leaves.skip (hn.sub_ins hc) fun _ => ?_
  refine Leaves.step insertKeyAndChild_ret (hn.sub_ins hc) fun r hr => ?_
  obtain ⟨n1, p, w1⟩ := r
  have h1 := hn.ins hb hc hr.2.1 hr.2.2
  refine Leaves.step setKeyPos_ret (h1.part (List.Sublist.refl _)) fun n2 e => ?_
  have h2 := h1.eqv e
  refine (shiftKeysC_leaves.mono (fun _ e => h2.eqv e) (fun _ e => (h2.eqv e).part (List.Sublist.refl _))).bind fun n3 h3 => ?_
  exact Leaves.skip (h3.part (List.Sublist.refl _)) fun w2 => Leaves.pure h3

/-- The two halves of a node that was split. -/
theorem Has.halves {n a d : Node I S C} {mid : Nat} {key : Key I S} {l : List S} (hn : Has P g n l) (hk : n.keys[mid]? = some key)
    (h1 : a.keys = n.keys.take mid) (h2 : a.kids = n.kids.take (mid + 1)) (h3 : d.keys = n.keys.drop (mid + 1)) (h4 : d.kids = n.kids.drop (mid + 1)) :
    (∃ x, Has P g a x) ∧ (∃ x, Has P g d x) := by
  have hm : mid < n.keys.length := (List.getElem?_eq_some_iff.1 hk).1
  refine ⟨⟨_, ?_, ?_, rfl⟩, ⟨_, ?_, ?_, rfl⟩⟩
  · rw [h1, h2]; simp only [List.length_take, hn.arity]; omega
  · intro c hc; rw [h2] at hc; exact hn.kids c (List.mem_of_mem_take hc)
  · rw [h3, h4]; simp only [List.length_drop, hn.arity]; omega
  · intro c hc; rw [h4] at hc; exact hn.kids c (List.mem_of_mem_drop hc)

theorem bubbleSplitC_leaves {E : Env I S} {cb : Cb} {sz : C → I} {n : Node I S C} {c : Nat} {b : Bubble I S C} {z : I} {path : List Nat} {w : World} {l : List S}
    (hn : Has P g n l) (hb : P b.rhs) (hc : c ≤ n.keys.length) :
    Leaves (bubbleSplitC E cb sz n c b z path w)
      (fun r => ∃ x y, Has P g r.1.lhs x ∧ Has P g r.1.rhs y ∧ x ++ r.1.key.slice :: y = insN g n c b)
      fun n' => Part P g n' (insN g n c b) := by
  have har : (n.kids.map g).length = (n.keys.map Key.slice).length + 1 := by simp [hn.arity]
  unfold bubbleSplitC
  have hmid : Ret (bubbleMid E.M c) fun mid => (c ≤ E.M → mid + 1 = E.M) ∧ (E.M < c → mid = E.M) := by
    unfold bubbleMid
    split
    · exact Ret.pure ⟨fun h => by omega, fun _ => rfl⟩
    · exact Ret.usub.mono fun r hr => ⟨fun _ => by omega, fun h => by omega⟩
  refine Leaves.step hmid (hn.sub_ins hc) fun mid hm => ?_
  refine Leaves.step split_ret (hn.sub_ins hc) fun r hr => ?_
  obtain ⟨a, key, d, w1⟩ := r
  obtain ⟨hk, e1, e2, e3, e4⟩ := hr
  dsimp only at hk e1 e2 e3 e4
  obtain ⟨⟨x, hx⟩, ⟨y, hy⟩⟩ := hn.halves hk e1 e2 e3 e4
  have hk' : (n.keys.map Key.slice)[mid]? = some key.slice := by simp [hk]
  have hml : mid < n.keys.length := (List.getElem?_eq_some_iff.1 hk).1
  have ha : Has P g { a with size := key.pos } x := hx.eqv ⟨rfl, rfl⟩
  have xe : mix ((n.kids.map g).take (mid + 1)) ((n.keys.map Key.slice).take mid) = x := by
    rw [← hx.list, e1, e2]; simp only [List.map_take]
  have ye : mix ((n.kids.map g).drop (mid + 1)) ((n.keys.map Key.slice).drop (mid + 1)) = y := by
    rw [← hy.list, e3, e4]; simp only [List.map_drop]
  -- the left half alone is part of the result
  have hsub : x.Sublist (insN g n c b) := by
    refine List.Sublist.trans ?_ (mix_sub_ins c _ _ _ _ har (by simpa using hc))
    rw [mix_split mid _ _ _ har hk', xe]
    exact List.sublist_append_left _ _
  have hp := ha.part hsub
  refine Leaves.skip hp fun _ => Leaves.skip hp fun _ => Leaves.skip hp fun rs => Leaves.skip hp fun ks => ?_
  split
  · rename_i hne
    refine Leaves.step shiftKeys_ret hp fun d1 ed => ?_
    dsimp only
    have hd : Has P g d1 y := hy.eqv ed
    split
    · rename_i hlt
      have hle : c ≤ mid := by have := hm.1 (by omega); omega
      have te : insN g n c b = insN g { a with size := key.pos } c b ++ key.slice :: y := by
        rw [← ye]
        unfold insN
        have := ins_left c mid _ _ key.slice b.key.slice (g b.rhs) har hk' hle
        rw [this, e1, e2]
        simp only [List.map_take]
      rw [te]
      refine ((bubbleInsertHalfC_leaves ha hb (by rw [e1]; simp; omega)).mono (fun _ h => h) fun n' h => ?_).bind fun r hr => ?_
      · obtain ⟨l', h1, h2⟩ := h
        exact h1.part (h2.trans (List.sublist_append_left _ _))
      · obtain ⟨a2, p2, w2⟩ := r
        exact Leaves.pure ⟨_, _, hr, hd, rfl⟩
    · rename_i hge
      have hgt : E.M < c := by omega
      have hmM := hm.2 hgt
      refine Leaves.step Ret.usub hp fun c' hc' => ?_
      have hcc : c = mid + 1 + c' := by omega
      refine Leaves.skip hp fun sh => ?_
      have te : insN g n c b = x ++ key.slice :: insN g d1 c' b := by
        rw [← xe]
        unfold insN
        rw [hcc, ins_right mid c' _ _ key.slice b.key.slice (g b.rhs) har hk', ed.1, ed.2, e3, e4]
        simp only [List.map_drop]
      have hcl : c' ≤ d1.keys.length := by rw [ed.len, e3]; simp; omega
      refine Leaves.bind (Leaves.within (bubbleInsertHalfC_leaves hd hb hcl) (fun _ _ => hp)) fun r hr => ?_
      obtain ⟨d2, p2, w2⟩ := r
      exact Leaves.pure ⟨_, _, ha, hr, te.symm⟩
  · rename_i hcM
    have hcM : c = E.M := by omega
    have hcm : c = mid + 1 := by have := hm.1 (by omega); omega
    refine Leaves.step replaceFirstChild_ret hp fun r hr => ?_
    obtain ⟨d1, c0, w2⟩ := r
    obtain ⟨cs, f1, f2, f3⟩ := hr
    dsimp only at f1 f2 f3
    refine Leaves.skip hp fun _ => Leaves.skip hp fun nz => ?_
    refine Leaves.step pushKeyAndChild_ret hp fun r hr => ?_
    obtain ⟨a1, w3⟩ := r
    obtain ⟨g1, g2⟩ := hr
    dsimp only at g1 g2
    have hkd : n.kids.drop (mid + 1) = c0 :: cs := by rw [← e4, f1]
    have htk : n.kids.take (mid + 2) = n.kids.take (mid + 1) ++ [c0] := by
      have h0 : n.kids[mid + 1]? = some c0 := by
        have := congrArg (fun l => l[0]?) hkd
        simpa using this
      rw [List.take_add_one, h0]; rfl
    have hdr : n.kids.drop (mid + 2) = cs := by
      have := congrArg (List.drop 1) hkd
      simpa [List.drop_drop] using this
    have hks : (n.keys.map Key.slice).take (mid + 1) = (n.keys.map Key.slice).take mid ++ [key.slice] := by
      rw [List.take_add_one, hk']; rfl
    have ha1 : Has P g a1 (mix ((n.kids.map g).take (c + 1)) ((n.keys.map Key.slice).take c)) := by
      have k1 : a1.keys.map Key.slice = (n.keys.map Key.slice).take c := by rw [g1, hcm, hks]; simp only [e1, List.map_take]
      have k2 : a1.kids = n.kids.take (c + 1) := by rw [g2, hcm]; simp only [e2]; exact htk.symm
      refine ⟨?_, ?_, ?_⟩
      · have := congrArg List.length k1
        simp only [List.length_map, List.length_take] at this
        rw [k2]
        simp only [List.length_take, hn.arity]
        omega
      · intro q hq; rw [k2] at hq; exact hn.kids q (List.mem_of_mem_take hq)
      · rw [k1, k2]; simp only [List.map_take]
    have hd1 : Has P g d1 (mix (g b.rhs :: (n.kids.map g).drop (c + 1)) ((n.keys.map Key.slice).drop c)) := by
      refine ⟨?_, ?_, ?_⟩
      · have := hy.arity; rw [f1] at this; rw [f2, f3]; simpa using this
      · intro q hq
        rw [f2, List.mem_cons] at hq
        rcases hq with rfl | hq
        · exact hb
        · exact hy.kids q (by rw [f1]; exact List.mem_cons_of_mem _ hq)
      · rw [f2, f3, e3, hcm, List.map_cons, ← List.map_drop, hdr, ← List.map_drop]
    have te : insN g n c b = _ := ins_at c _ _ b.key.slice (g b.rhs) har (by simpa using hc)
    have hp1 : Part P g a1 (insN g n c b) := ha1.part (by rw [te]; exact List.sublist_append_left _ _)
    refine Leaves.skip hp1 fun _ => ?_
    refine Leaves.step shiftKeys_ret hp1 fun d2 ed => ?_
    exact Leaves.pure ⟨_, _, ha1, hd1.eqv ed, te.symm⟩
end

/-! ## Upwards -/

/-- The slices of a tree after an insertion whose root may have been split. -/
def Post.Fits {H : Nat} (p : Post I S H) (l : List S) : Prop :=
  match p with
  | .done t => Sherman.Fits t l
  | .newRoot a key _ d => ∃ x y, Sherman.Fits a x ∧ Sherman.Fits d y ∧ x ++ key.slice :: y = l

theorem bubbleFinishC_leaves {E : Env I S} {cb : Cb} {m : Maps I} {H : Nat} : ∀ {h : Nat} (ctx : Ctx I S H h) (b : Bubble I S (Tree I S h)) (handled : Bool)
    (path : List Nat) (w : World) (x y : List S), ctx.Arity → Fits b.lhs x → Fits b.rhs y →
    Leaves (bubbleFinishC E cb m ctx b handled path w) (fun r => r.1.Fits (ctx.pre ++ (x ++ b.key.slice :: y) ++ ctx.post))
      fun t => PartT t (ctx.pre ++ (x ++ b.key.slice :: y) ++ ctx.post) := by
  intro h ctx
  induction ctx with
  | top =>
    intro b handled path w x y _ h1 h2
    have hp : PartT b.lhs ((Ctx.top : Ctx I S H H).pre ++ (x ++ b.key.slice :: y) ++ (Ctx.top : Ctx I S H H).post) :=
      h1.part (by simp [Ctx.pre, Ctx.post])
    unfold bubbleFinishC
    dsimp only
    refine Leaves.skip hp fun r => ?_
    obtain ⟨r1, r2⟩ := r
    refine Leaves.skip hp fun _ => Leaves.skip hp fun _ => Leaves.pure ?_
    exact ⟨x, y, h1, h2, by simp [Ctx.pre, Ctx.post]⟩
  | @frame h p z keys kl kr up ih =>
    intro b handled path w x y hx h1 h2
    obtain ⟨k0, k1, k2, k3⟩ := hx
    have hf := plug_fits (p := p) (z := z) k0 k1 k2 h1
    have hn := fits_succ.1 hf
    have hcl : kl.length ≤ (plugNode p z keys kl b.lhs kr).keys.length := by simp [plugNode]; omega
    have te : ∀ s o i, insN slicesT (plugNode p z keys kl b.lhs kr) kl.length { b with side := s, shift := o, inserted := i } =
        mixL (kl.map slicesT) (keys.map Key.slice) ++ (x ++ b.key.slice :: y) ++ mixR ((keys.map Key.slice).drop kl.length) (kr.map slicesT) := by
      intro s o i
      have := insMix_mid (kl.map slicesT) (keys.map Key.slice) (slicesT b.lhs) (kr.map slicesT) b.key.slice (slicesT b.rhs) (by simp; omega)
      simp only [List.length_map] at this
      rw [h1.2, h2.2] at this
      unfold insN
      simpa only [plugNode, List.map_append, List.map_cons, h1.2, h2.2] using this
    have el : (Ctx.frame p z keys kl kr up).pre ++ (x ++ b.key.slice :: y) ++ (Ctx.frame p z keys kl kr up).post =
      up.pre ++ (mixL (kl.map slicesT) (keys.map Key.slice) ++ (x ++ b.key.slice :: y) ++
        mixR ((keys.map Key.slice).drop kl.length) (kr.map slicesT)) ++ up.post := by
      simp [Ctx.pre, Ctx.post]
    have up' : ∀ (s : Option Side) (o : Option (Shift I)) (n : Tree I S (h + 1)),
        Part ArityT slicesT n (insN slicesT (plugNode p z keys kl b.lhs kr) kl.length { b with side := s, shift := o }) →
        PartT (Ctx.close (h := h + 1) up n) ((Ctx.frame p z keys kl kr up).pre ++ (x ++ b.key.slice :: y) ++ (Ctx.frame p z keys kl kr up).post) := by
      intro s o n hpn
      rw [el, ← te s o b.inserted]
      obtain ⟨l', q1, q2⟩ := hpn
      exact close_part k3 ⟨l', fits_succ.2 q1, q2⟩
    unfold bubbleFinishC
    dsimp only
    have hp0 := up' b.side b.shift _ (hn.sub_ins hcl)
    refine Leaves.skip hp0 fun r => ?_
    obtain ⟨r1, r2⟩ := r
    refine Leaves.skip hp0 fun nt => ?_
    dsimp only
    split
    · refine Leaves.bind (Leaves.within (bubbleRoomC_leaves hn (b := { b with side := _, shift := _ }) h2.1 hcl) (fun n hpn => up' _ _ n hpn)) fun r hr => ?_
      obtain ⟨n, a1, a2, a3, a4, a5⟩ := r
      have hr' : Fits (h := h + 1) n _ := fits_succ.2 hr
      rw [te] at hr'
      refine ((opKeyC_leaves k3 hr').mono (fun r hr => ?_) fun t ht => ?_).bind fun r hr => Leaves.pure hr
      · rw [el]; exact hr
      · rw [el]; exact ht.part (List.Sublist.refl _)
    · refine Leaves.bind (Leaves.within (bubbleSplitC_leaves hn (b := { b with side := _, shift := _ }) h2.1 hcl) (fun n hpn => up' _ _ n hpn)) fun r hr => ?_
      obtain ⟨b1, a4, a5⟩ := r
      obtain ⟨x1, y1, q1, q2, q3⟩ := hr
      have := ih b1 r1 a4 a5 x1 y1 k3 (fits_succ.2 q1) (fits_succ.2 q2)
      rw [q3, te, ← el] at this
      exact this

end Sherman
