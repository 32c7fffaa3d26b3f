import Verif.OrderedIter
import Verif.OrderedProps
/-!
# C53: insertion at negative positions

`insert` rejects positions above the size of the tree and no others (src/tree/insert.rs:54-56).  For the index types of
`Verif/OrderedIndex.lean` an insertion at a negative position is the insertion at zero.
-/
namespace Sherman
open Filter
variable {I J G S : Type}

/-! ## The nodes through which insertion at zero goes -/

/-- The nodes found by `find_insertion_point` for zero, with conditions on their positions.  Stated as a computation so that it
can be compared between index types; not code of the library.  src/tree/insert.rs:1229-1326 -/
def spineR (ix : IdxOps I) : {h : Nat} → Tree I S (h + 1) → Option (List Nat) → R Unit
  | 0, n, hints => do
    check (ix.lt ix.zero (Node.size n)) "size"
    check ((Node.keys n).all fun k => ix.le ix.zero k.pos) "positions in a leaf"
    match ← findStep ix n (headHint hints) ix.zero with
    | .child c p => check (decide (c = 0) && ix.eq p ix.zero) "first edge"
    | .key _ _ => .error (.panic "not an edge")
  | h + 1, n, hints => do
    check (ix.lt ix.zero (Node.size n)) "size"
    check ((Node.keys n).all fun k => ix.lt ix.zero k.pos) "positions above leaves"
    match ← findStep ix n (headHint hints) ix.zero with
    | .child c p => do
      check (decide (c = 0) && ix.eq p ix.zero) "first child"
      let ch ← Node.child n 0
      spineR ix (h := h) ch (nextHints hints (.child 0 ix.zero))
    | .key _ _ => .error (.panic "not a child")

/-- Insert, then go down as for an insertion at zero.  src/tree/insert.rs:41-197 -/
def gSpine (E : Env I S) (ops : List (GOp I S)) (hints : List Nat) : R Unit := do
  let t ← gInsertAll E ⟨none⟩ ops
  match t.root with
  | none => pure ()
  | some r => spineR E.ix r.tree (some hints)

theorem ISim.check {B : Fault → Prop} {b : Bool} {m : String} : ISim B (Sherman.check b m) (Sherman.check b m) id := by
  cases b
  · exact .inr rfl
  · exact .inr rfl

theorem mi_spineR {B : Fault → Prop} {f : I → J} {E : Env I S} {F : Env J S} (hh : IHom B f E F) :
    {h : Nat} → (n : Tree I S (h + 1)) → (hints : Option (List Nat)) → ISim B (spineR E.ix n hints) (spineR F.ix (miT f n) hints) id
  | 0, n, hints => by
    have e1 : Node.size (miT f n) = f (Node.size n) := rfl
    have e2 : ((Node.keys (miT f n)).all fun k => F.ix.le F.ix.zero k.pos) = (Node.keys n).all fun k => E.ix.le E.ix.zero k.pos := by
      have : Node.keys (miT f n) = (Node.keys n).map (Key.mi f) := rfl
      rw [this, List.all_map, hh.zero]
      exact congrArg (List.all _) (funext fun k => hh.le _ _)
    rw [hh.zero] at e2
    simp only [spineR, e1, hh.zero, hh.lt]
    erw [e2]
    refine ISim.bind ISim.check fun _ => ISim.bind ISim.check fun _ => ISim.bind (mi_findStep hh n _ _) fun r => ?_
    cases r with
    | key k p => exact ISim.err
    | child c p =>
      simp only [Step.mi, hh.eq]
      exact ISim.check
  | h + 1, n, hints => by
    have e1 : Node.size (miT f n) = f (Node.size n) := rfl
    have e2 : ((Node.keys (miT f n)).all fun k => F.ix.lt F.ix.zero k.pos) = (Node.keys n).all fun k => E.ix.lt E.ix.zero k.pos := by
      have : Node.keys (miT f n) = (Node.keys n).map (Key.mi f) := rfl
      rw [this, List.all_map, hh.zero]
      exact congrArg (List.all _) (funext fun k => hh.lt _ _)
    rw [hh.zero] at e2
    simp only [spineR, e1, hh.zero, hh.lt, mi_nextHints']
    erw [e2]
    refine ISim.bind ISim.check fun _ => ISim.bind ISim.check fun _ => ISim.bind (mi_findStep hh n _ _) fun r => ?_
    cases r with
    | key k p => exact ISim.err
    | child c p =>
      simp only [Step.mi, hh.eq]
      refine ISim.bind ISim.check fun _ => ISim.bind (Node.mi_child (f := f) (g := miT f) n 0) fun ch => ?_
      exact mi_spineR hh ch _

theorem mi_gSpine {B : Fault → Prop} {f : I → J} {E : Env I S} {F : Env J S} (hh : IHom B f E F) (ops : List (GOp I S))
    (hints : List Nat) : ISim B (gSpine E ops hints) (gSpine F (ops.map (GOp.mi f)) hints) id := by
  refine ISim.bind (mi_gInsertAll hh ⟨none⟩ ops) fun t => ?_
  obtain ⟨_ | r⟩ := t
  · exact ISim.ok rfl
  · exact mi_spineR hh r.tree _

theorem spineR_evt {ι : Type} {fl : Filter ι} {a : ι → IdxOps I} {b : IdxOps I} (h : IxEv fl a b) {n : Nat} (t : Tree I S (n + 1))
    (hints : Option (List Nat)) : Evt fl (fun i => spineR (a i) t hints) (spineR b t hints) := by
  induction n generalizing hints with
  | zero =>
    simp only [spineR, h.zero, h.le, h.lt, h.eq]
    refine Evt.bind (Evt.const _) fun _ => Evt.bind (Evt.const _) fun _ => Evt.bind (findStep_evt h t _ _) fun r => ?_
    cases r <;> exact Evt.const _
  | succ n ih =>
    simp only [spineR, h.zero, h.le, h.lt, h.eq]
    refine Evt.bind (Evt.const _) fun _ => Evt.bind (Evt.const _) fun _ => Evt.bind (findStep_evt h t _ _) fun r => ?_
    cases r with
    | key k p => exact Evt.const _
    | child c p => exact Evt.bind (Evt.const _) fun _ => Evt.bind (Evt.const _) fun ch => ih ch _

theorem gSpine_ev {ι : Type} {fl : Filter ι} {a : ι → Env I S} {b : Env I S} (hE : EnvEv fl a b) (ops : List (GOp I S))
    (hints : List Nat) : Evt fl (fun i => gSpine (a i) ops hints) (gSpine b ops hints) := by
  have h1 : ∀ t : RleTree I S, Evt fl (fun i => gInsertAll (a i) t ops) (gInsertAll b t ops) := by
    induction ops with
    | nil => exact fun t => Evt.const _
    | cons x xs ih => exact fun t => Evt.bind (rleInsert_evt hE t x.nop x.hints x.idx x.slice x.size x.world) fun v => ih v.1
  refine Evt.bind (h1 ⟨none⟩) fun t => ?_
  obtain ⟨_ | r⟩ := t
  · exact Evt.const _
  · exact spineR_evt hE.ix r.tree _

/-! ## In the natural numbers -/

theorem keysR_ge {C : Type} {sz : C → Nat} {o : Nat} {l : List (Item S C)} {k : Key Nat S} (h : k ∈ keysR sz o l) : o ≤ k.pos := by
  induction l generalizing o with
  | nil => cases h
  | cons it r ih =>
    rcases List.mem_cons.1 h with rfl | h
    · exact Nat.le_refl _
    · exact Nat.le_trans (by omega) (ih h)

theorem tot_zero {C : Type} {sz : C → Nat} {l : List (Item S C)} (hp : ∀ it ∈ l, 0 < it.size) (h : tot sz l = 0) : l = [] := by
  cases l with
  | nil => rfl
  | cons it r =>
    have := hp it (by simp)
    simp only [tot] at h
    omega

theorem total_pos {es : List (Ent S)} (hp : Pos es) (h : es ≠ []) : 0 < total es := by
  cases es with
  | nil => exact absurd rfl h
  | cons x xs =>
    have := (Pos.cons.1 hp).1
    simp only [total, List.map_cons, List.sum_cons]
    omega

/-- The first step for zero goes into the first child, which is at zero. -/
theorem first_step {M MAX lo h : Nat} (hlo : 1 ≤ lo) {n : Tree Nat S (h + 1)} {es : List (Ent S)} (hr : Rep M lo n es) (hp : Pos es) :
    es ≠ [] ∧ 0 < Node.size n ∧ ∃ (c : Tree Nat S h) (ec : List (Ent S)), Rep M M c ec ∧ Pos ec ∧ Node.child n 0 = .ok c ∧
      (∀ k ∈ Node.keys n, szN c ≤ k.pos) ∧ ∀ hint, findStep (natIdx MAX) n hint 0 = .ok (.child 0 0) := by
  obtain ⟨psl, psr, c, ec, hn, a1, a2, a3, a4, a5, a6, a7⟩ := findStep_spec (MAX := MAX) hr hp (Nat.zero_le _)
  have hp' := hp
  rw [a4, Pos.append, Pos.append] at hp'
  have hpos : ∀ it ∈ psl, 0 < it.size := hp'.1.1.items
  rcases a7 with ⟨b1, b2, _⟩ | ⟨_, _, _, _, b2, _⟩
  · have := tot_zero hpos (Nat.le_zero.1 b2)
    subst this
    have hne : es ≠ [] := by
      cases psr with
      | nil => simp at a5; omega
      | cons it r => rw [a4]; simp [entsR]
    have hsz : Node.size n = total es := hr.size
    refine ⟨hne, by rw [hsz]; exact total_pos hp hne, c, ec, a2, hp'.1.2, ?_, ?_, fun hint => b1 hint⟩
    · rw [hn]; rfl
    · intro k hk
      rw [hn] at hk
      have hk : k ∈ keysL szN 0 ([] : List (Item S (Tree Nat S h))) ++ keysR szN (tot szN ([] : List (Item S (Tree Nat S h))) + szN c) psr := hk
      rw [keysL_nil, List.nil_append] at hk
      have := keysR_ge hk
      simp only [tot] at this
      omega
  · omega

theorem spineR_nat {M MAX lo : Nat} (hM : 1 ≤ M) (hlo : 1 ≤ lo) {h : Nat} (n : Tree Nat S (h + 1)) {es : List (Ent S)}
    (hr : Rep M lo n es) (hp : Pos es) (hints : Option (List Nat)) : spineR (natIdx MAX) n hints = .ok () := by
  induction h generalizing lo es hints with
  | zero =>
    obtain ⟨_, h1, c, ec, h2, h3, h4, h5, h6⟩ := first_step (MAX := MAX) hlo hr hp
    have e1 : ((Node.keys n).all fun k => (natIdx MAX).le 0 k.pos) = true := by
      rw [List.all_eq_true]
      intro k _
      rw [natIdx_le, decide_eq_true_iff]
      exact Nat.zero_le _
    have e0 : (natIdx MAX).zero = 0 := rfl
    simp only [spineR, e0, h6, natIdx_lt, natIdx_eq, h1, decide_true, check]
    erw [e1]
    rfl
  | succ h ih =>
    obtain ⟨_, h1, c, ec, h2, h3, h4, h5, h6⟩ := first_step (MAX := MAX) hlo hr hp
    obtain ⟨g0, -⟩ := first_step (MAX := MAX) hM h2 h3
    have hc : 0 < szN c := by
      rw [h2.size]
      exact total_pos h3 g0
    have e1 : ((Node.keys n).all fun k => decide (0 < k.pos)) = true := by
      rw [List.all_eq_true]
      intro k hk
      have := h5 k hk
      rw [decide_eq_true_iff]
      omega
    have e0 : (natIdx MAX).zero = 0 := rfl
    simp only [spineR, e0, h6, h4, natIdx_lt, natIdx_eq, h1, decide_true, check]
    erw [e1]
    exact ih hM c h2 h3 _

/-! ## Transfer -/

section
variable [AddCommGroup G] [LinearOrder G] [IsOrderedAddMonoid G]
variable {e : I → G} {MAX : G} {E : Env I S} {slG : SliceOps G S}

theorem gSpine_transfer (L : LawfulIdx e MAX E.ix) (hs : SameSl e E.sl slG) (hM0 : 0 ≤ MAX)
    (ops : List (GOp I S)) (hints : List Nat) (hops : ∀ x ∈ ops, 0 ≤ e x.idx ∧ 0 ≤ e x.size) :
    ∀ᶠ Y : Finset G in Filter.atTop, ∀ φ, GoodOn Y φ →
      gSpine (natEnv E MAX Y φ slG) (ops.map (GOp.mi (natOf e φ))) hints = .ok () → gSpine E ops hints = .ok () := by
  obtain ⟨bad, hbad⟩ : ∃ bad, gSpine ({ E with ix := strictIx e MAX E.ix } : Env I S) ops hints ≠ .error bad := by
    by_cases h : gSpine ({ E with ix := strictIx e MAX E.ix } : Env I S) ops hints = .error .overflow
    · exact ⟨.underflow, by rw [h]; intro hc; cases hc⟩
    · exact ⟨_, h⟩
  filter_upwards [gSpine_ev (part_ev (bad := bad) E) ops hints, ev_mem 0, ev_mem MAX, ev_mem_list (ops.map fun x => e x.idx),
    ev_mem_list (ops.map fun x => e x.size)] with Y hev h0 hM h1 h2 φ hφ
  have hz : e E.ix.zero ∈ Y ∧ 0 ≤ e E.ix.zero := by rw [L.zero]; exact ⟨h0, le_refl _⟩
  obtain ⟨ops', hops'⟩ : ∃ ops' : List (GOp (SubI e Y) S), ops'.map (GOp.mi Subtype.val) = ops := by
    refine exists_map fun x hx => ?_
    have g := hops x hx
    exact ⟨⟨⟨x.idx, h1 _ (List.mem_map.2 ⟨x, hx, rfl⟩), g.1⟩, x.slice, ⟨x.size, h2 _ (List.mem_map.2 ⟨x, hx, rfl⟩), g.2⟩,
      x.nop, x.hints, x.world⟩, rfl⟩
  have k1 := mi_gSpine (sub_hom (bad := bad) L hz) ops' hints
  have k2 := mi_gSpine (nat_hom (bad := bad) L hs hz hM hM0 hφ) ops' hints
  have k3 := mi_gSpine (strict_hom (e := e) (MAX := MAX) E) ops hints
  have e1 : ops'.map (GOp.mi fun x => natOf e φ x.1) = ops.map (GOp.mi (natOf e φ)) := by
    rw [← hops', List.map_map]; rfl
  have e3 : ops.map (GOp.mi id) = ops := by
    have : (GOp.mi id : GOp I S → GOp I S) = id := rfl
    rw [this, List.map_id]
  rw [hops'] at k1
  rw [e1] at k2
  rw [e3] at k3
  intro hr
  obtain ⟨x, g1, _⟩ := (transfer k1 hev k2 k3 hbad).1 () hr
  exact g1

/-- In every tree made by a history within bounds, the nodes on the way to zero are as in `spineR`. -/
theorem ordered_spine (L : LawfulIdx e MAX E.ix) (hs : SameSl e E.sl slG) (hM : 1 ≤ E.M ∧ E.M ≤ 127) {ops : List (GOp I S)}
    (hb : gBounds MAX 0 (ops.map (GOp.val e))) {es : List (GRun G S)} (h : gAll slG [] (ops.map (GOp.val e)) = .ok es)
    (hints : List Nat) : gSpine E ops hints = .ok () := by
  have hnn := gBounds_nonneg hb
  have hMAX := gBounds_max (le_refl _) hb
  have hops : ∀ x ∈ ops, 0 ≤ e x.idx ∧ 0 ≤ e x.size := fun x hx => hnn _ (List.mem_map.2 ⟨x, hx, rfl⟩)
  obtain ⟨Y, h1, h2⟩ := ((gSpine_transfer L hs hMAX ops hints hops).and (nat_history (slG := slG) hb)).exists
  obtain ⟨φ, hφ⟩ := exists_good Y
  refine h1 φ hφ ?_
  obtain ⟨hin, hspec⟩ := h2 φ hφ
  rw [h] at hspec
  obtain ⟨esN, hN⟩ : ∃ esN, specAll (slN Y φ slG) [] (natOps e φ ops) = .ok esN := by
    cases hc : specAll (slN Y φ slG) [] (natOps e φ ops) with
    | error f => rw [hc] at hspec; cases hspec
    | ok v => exact ⟨v, rfl⟩
  have hE : (natEnv E MAX Y φ slG).ix = natIdx (φ MAX).toNat := rfl
  have hr1 : Reach (φ MAX).toNat (natEnv E MAX Y φ slG) ⟨none⟩ := .empty (by simp [RleTree.newEmpty, natEnv, check, hM.1, hM.2])
  obtain ⟨tN, ht1, ht2, ht3⟩ := insertAll_returns hE hr1 (ops := natOps e φ ops) hin (es' := esN) hN
  rw [natOps_g]
  unfold gSpine
  rw [gInsertAll_nat, ht1]
  simp only [R.bind_ok]
  have hh := (ht3.holds hE).2.1
  obtain ⟨_ | r⟩ := tN
  · rfl
  · rw [hE]
    exact spineR_nat hM.1 (Nat.le_refl _) r.tree hh.2.1 hh.1 _

/-! ## Negative positions -/

theorem bsearch_below {ix : IdxOps I} {xs : List I} {t : I} (h : ∀ x ∈ xs, ix.cmp x t = .gt) {r : Nat} (hr : r ≤ xs.length) :
    bsearch ix xs t 0 r = .ok (.inr 0) := by
  induction r using Nat.strongRecOn with
  | _ r ih =>
    unfold bsearch
    by_cases h0 : 0 < r
    · have hm : 0 + (r - 0) / 2 < xs.length := by omega
      simp only [h0, dif_pos, List.getElem?_eq_getElem hm, h _ (List.getElem_mem hm)]
      exact ih _ (by omega) (by omega)
    · simp [h0]

theorem LawfulIdx.lt_iff (L : LawfulIdx e MAX E.ix) (a b : I) : E.ix.lt a b = true ↔ e a < e b := by
  rw [← compare_lt_iff_lt, ← L.cmp]
  simp [IdxOps.lt]

theorem LawfulIdx.le_iff (L : LawfulIdx e MAX E.ix) (a b : I) : E.ix.le a b = true ↔ e a ≤ e b := by
  rw [← not_lt, ← compare_gt_iff_gt, ← L.cmp]
  simp [IdxOps.le]

theorem LawfulIdx.eq_iff (L : LawfulIdx e MAX E.ix) (a b : I) : E.ix.eq a b = true ↔ a = b := by
  have : E.ix.eq a b = true ↔ compare (e a) (e b) = .eq := by
    rw [← L.cmp]
    simp [IdxOps.eq]
  rw [this, compare_eq_iff_eq]
  exact ⟨L.inj, fun h => by rw [h]⟩

theorem check_inv {b : Bool} {m : String} {u : Unit} (h : check b m = .ok u) : b = true := by
  cases b
  · cases h
  · rfl

theorem check_of {b : Bool} {m : String} (h : b = true) : check b m = .ok () := by rw [h]; rfl

/-- A negative target goes into the first child if no key is below zero and the cursor does not lead elsewhere. -/
theorem findStep_neg (L : LawfulIdx e MAX E.ix) {idx : I} (hi : e idx < 0) {h : Nat} {n : Tree I S (h + 1)} {hint : Option Nat}
    (h1 : E.ix.lt E.ix.zero (Node.size n) = true) (h2 : ∀ k ∈ Node.keys n, 0 ≤ e k.pos)
    (h3 : hintStep E.ix n hint idx = .ok none) : findStep E.ix n hint idx = .ok (.child 0 E.ix.zero) := by
  rw [L.lt_iff, L.zero] at h1
  have c1 : (!E.ix.debug || E.ix.le idx (Node.size n)) = true := by
    rw [(L.le_iff _ _).2 (le_of_lt (lt_trans hi h1)), Bool.or_true]
  have c2 : fullStep E.ix n idx = .ok (.child 0 E.ix.zero) := by
    unfold fullStep
    rw [bsearch_below (fun x hx => ?_) (by simp [Node.len])]
    · rfl
    · obtain ⟨k, hk, rfl⟩ := List.mem_map.1 hx
      rw [L.cmp, compare_gt_iff_gt]
      exact lt_of_lt_of_le hi (h2 k hk)
  unfold findStep searchStep
  rw [check_of c1]
  simp only [R.bind_ok, h3, c2]
  rfl

/-- Where `find_insertion_point` finds zero it finds every negative position too. -/
theorem findPoint_neg (L : LawfulIdx e MAX E.ix) {idx : I} (hi : e idx < 0) (hsub : E.ix.subL idx E.ix.zero = .ok idx) {H h : Nat}
    (n : Tree I S (h + 1)) (ctx : Ctx I S H (h + 1)) (hints : Option (List Nat)) (l r : Option (Nat × Nat))
    (hsp : spineR E.ix n hints = .ok ()) : findPoint E n ctx hints idx l r = findPoint E n ctx hints E.ix.zero l r := by
  induction h generalizing hints l r with
  | zero =>
    simp only [spineR, bind_ok_iff] at hsp
    obtain ⟨_, h1, _, h2, st, h3, h4⟩ := hsp
    have h1 := check_inv h1
    have h2 := List.all_eq_true.1 (check_inv h2)
    cases st with
    | key k p => cases h4
    | child c p =>
      have h4 := check_inv h4
      rw [Bool.and_eq_true, decide_eq_true_iff, L.eq_iff] at h4
      obtain ⟨rfl, rfl⟩ := h4
      have g := findStep_neg (hint := headHint hints) L hi h1 (fun k hk => by
        have := (L.le_iff _ _).1 (h2 k hk)
        rwa [L.zero] at this) rfl
      simp only [findPoint, h3, g]
      rfl
  | succ h ih =>
    simp only [spineR, bind_ok_iff] at hsp
    obtain ⟨_, h1, _, h2, st, h3, h4⟩ := hsp
    have h1 := check_inv h1
    have h2 := List.all_eq_true.1 (check_inv h2)
    have h2 : ∀ k ∈ Node.keys n, 0 < e k.pos := fun k hk => by
      have := (L.lt_iff _ _).1 (h2 k hk)
      rwa [L.zero] at this
    cases st with
    | key k p => cases h4
    | child c p =>
      simp only [bind_ok_iff] at h4
      obtain ⟨_, h4, ch, h5, h6⟩ := h4
      have h4 := check_inv h4
      rw [Bool.and_eq_true, decide_eq_true_iff, L.eq_iff] at h4
      obtain ⟨rfl, rfl⟩ := h4
      have hn : hintStep E.ix n (headHint hints) idx = .ok none := by
        cases hh : headHint hints with
        | none => rfl
        | some c =>
          rw [hh] at h3
          simp only [findStep, searchStep, bind_ok_iff] at h3
          obtain ⟨s, ⟨_, _, o, k1, k2⟩, k3⟩ := h3
          simp only [hintStep] at k1 ⊢
          by_cases hc : c > Node.len n
          · rw [if_pos hc]; rfl
          · rw [if_neg hc] at k1 ⊢
            simp only [bind_ok_iff] at k1
            obtain ⟨cs, k4, cp, k5, k6⟩ := k1
            rw [k4, R.bind_ok, k5, R.bind_ok]
            by_cases hle : e cp ≤ e idx
            · exfalso
              have hnx : 0 < e (Node.nextPos n c) := by
                unfold Node.nextPos Node.tryKeyPos
                cases hk : (Node.keys n)[c]? with
                | none =>
                  have := (L.lt_iff _ _).1 h1
                  rw [L.zero] at this
                  exact this
                | some k => exact h2 k (List.mem_of_getElem? hk)
              have q1 : E.ix.le cp E.ix.zero = true := (L.le_iff _ _).2 (by rw [L.zero]; exact le_of_lt (lt_of_le_of_lt hle hi))
              have q2 : E.ix.lt E.ix.zero (Node.nextPos n c) = true := (L.lt_iff _ _).2 (by rw [L.zero]; exact hnx)
              rw [q1, q2] at k6
              cases k6
              cases k2
              cases k3
              rw [L.zero] at hle
              exact absurd hi (not_lt.2 hle)
            · have q : E.ix.le cp idx = false := by
                rw [Bool.eq_false_iff, Ne, L.le_iff]
                exact hle
              rw [q]
              rfl
      have g := findStep_neg (hint := headHint hints) L hi h1 (fun k hk => (h2 k hk).le) hn
      have hz : E.ix.subL E.ix.zero E.ix.zero = .ok E.ix.zero := by
        obtain ⟨c, c1, c2⟩ := L.subL E.ix.zero E.ix.zero (by rw [L.zero]) (le_refl _)
        rw [c1, L.inj (show e c = e E.ix.zero by rw [c2, L.zero, sub_zero])]
      simp only [findPoint, h3, g, R.bind_ok, hsub, hz, h5]
      exact ih ch _ _ _ _ h6

/-- C53: insertion at a negative position into a tree with a lawful index type is insertion at zero, with any cursor and every
outcome (`idx - 0` must be `idx`). -/
theorem ordered_negative (L : LawfulIdx e MAX E.ix) (hs : SameSl e E.sl slG) (hM : 1 ≤ E.M ∧ E.M ≤ 127) {ops : List (GOp I S)}
    (hb : gBounds MAX 0 (ops.map (GOp.val e))) {es : List (GRun G S)} (h : gAll slG [] (ops.map (GOp.val e)) = .ok es)
    {t : RleTree I S} (ht : gInsertAll E ⟨none⟩ ops = .ok t) {idx : I} (hi : e idx < 0) (hsub : E.ix.subL idx E.ix.zero = .ok idx)
    (nop : Bool) (hints : List Nat) (s : S) (z : I) (w : World) :
    t.insert E nop hints idx s z w = t.insert E nop hints E.ix.zero s z w := by
  have hsp := ordered_spine L hs hM hb h hints
  unfold gSpine at hsp
  rw [ht, R.bind_ok] at hsp
  have hsz : 0 ≤ e (t.size E) := by
    obtain ⟨_ | ⟨_ | h, r, len⟩⟩ := t
    · exact L.zero.ge
    all_goals
      simp only [spineR, bind_ok_iff] at hsp
      obtain ⟨_, h1, _⟩ := hsp
      have := (L.lt_iff _ _).1 (check_inv h1)
      rw [L.zero] at this
      exact this.le
  have c1 : (!E.ix.lt (t.size E) idx) = true := by
    rw [Bool.not_eq_true', Bool.eq_false_iff, Ne, L.lt_iff]
    exact not_lt.2 (le_trans hi.le hsz)
  have c2 : (!E.ix.lt (t.size E) E.ix.zero) = true := by
    rw [Bool.not_eq_true', Bool.eq_false_iff, Ne, L.lt_iff, L.zero]
    exact not_lt.2 hsz
  obtain ⟨_ | r⟩ := t
  · simp only [RleTree.insert, check_of c1, check_of c2]
  · simp only [RleTree.insert, check_of c1, check_of c2, findPoint_neg L hi hsub r.tree .top _ none none hsp]

/-- The operation with zero in place of a negative position: the argument `idx` of src/tree/mod.rs:677.  Specification. -/
def GOp.clamp (ix : IdxOps I) (o : GOp I S) : GOp I S := if ix.lt o.idx ix.zero then { o with idx := ix.zero } else o

theorem gInsertAll_append (E : Env I S) (t : RleTree I S) (a b : List (GOp I S)) :
    gInsertAll E t (a ++ b) = gInsertAll E t a >>= fun t => gInsertAll E t b := by
  induction a generalizing t with
  | nil => rfl
  | cons o os ih =>
    simp only [List.cons_append, gInsertAll]
    cases t.insert E o.nop o.hints o.idx o.slice o.size o.world with
    | error f => rfl
    | ok x => exact ih x.1

theorem gBounds_prefix {n : G} {a b : List (G × S × G)} (h : gBounds MAX n (a ++ b)) : gBounds MAX n a := by
  induction a generalizing n with
  | nil =>
    cases b with
    | nil => exact h
    | cons o os => exact le_trans (le_add_of_nonneg_right h.2.2.1.le) h.2.2.2.1
  | cons o os ih => exact ⟨h.1, h.2.1, h.2.2.1, h.2.2.2.1, ih h.2.2.2.2⟩

/-- C53: a history with negative positions is the history with zero in their place. -/
theorem ordered_negative_history (L : LawfulIdx e MAX E.ix) (hs : SameSl e E.sl slG) (hM : 1 ≤ E.M ∧ E.M ≤ 127) {ops : List (GOp I S)}
    (hb : gBounds MAX 0 ((ops.map (GOp.clamp E.ix)).map (GOp.val e)))
    (hsub : ∀ x ∈ ops, e x.idx < 0 → E.ix.subL x.idx E.ix.zero = .ok x.idx) :
    gInsertAll E ⟨none⟩ ops = gInsertAll E ⟨none⟩ (ops.map (GOp.clamp E.ix)) := by
  induction ops using List.reverseRecOn with
  | nil => rfl
  | append_singleton ops x ih =>
    rw [List.map_append, List.map_append] at hb
    have hb' := gBounds_prefix hb
    have ih := ih hb' fun y hy => hsub y (by simp [hy])
    rw [List.map_append, gInsertAll_append, gInsertAll_append, ih]
    cases h : gAll slG [] ((ops.map (GOp.clamp E.ix)).map (GOp.val e)) with
    | error f => rw [(ordered_index_fails L hs hM hb' h).2]; rfl
    | ok es =>
      obtain ⟨t, ht, _⟩ := ordered_index L hs hM hb' h
      rw [ht, R.bind_ok, R.bind_ok]
      simp only [List.map_cons, List.map_nil, gInsertAll]
      by_cases hx : e x.idx < 0
      · have : E.ix.lt x.idx E.ix.zero = true := (L.lt_iff _ _).2 (by rw [L.zero]; exact hx)
        rw [ordered_negative L hs hM hb' h ht hx (hsub x (by simp) hx)]
        simp only [GOp.clamp, this, if_true]
      · have : E.ix.lt x.idx E.ix.zero = false := by
          rw [Bool.eq_false_iff, Ne, L.lt_iff, L.zero]
          exact hx
        simp only [GOp.clamp, this]
        rfl

end

/-- The history of `negative_insert`, which has negative positions, meets the conditions. -/
example : gInsertAll ⟨intIdx, wrapSlG, 1, false⟩ ⟨none⟩
      [⟨-5, 'a', 10, false, [], exWorld⟩, ⟨-3, 'b', 5, false, [], exWorld⟩, ⟨4, 'c', 5, false, [], exWorld⟩] =
    gInsertAll ⟨intIdx, wrapSlG, 1, false⟩ ⟨none⟩
      [⟨0, 'a', 10, false, [], exWorld⟩, ⟨0, 'b', 5, false, [], exWorld⟩, ⟨4, 'c', 5, false, [], exWorld⟩] :=
  ordered_negative_history (e := fun x : ℤ => x) (MAX := 100) (slG := wrapSlG) (intIdx_lawful 100) ⟨rfl, rfl, fun _ _ => rfl⟩
    ⟨by decide, by decide⟩ (by
      show gBounds (100 : ℤ) 0 [((0 : ℤ), 'a', (10 : ℤ)), (0, 'b', 5), (4, 'c', 5)]
      simp [gBounds]) (fun x _ _ => by simp [intIdx])

end Sherman
