import Verif.CowHeap
/-!
# The way down is made unique
-/
namespace Sherman.Cow
variable {I S : Type}

/-- Every tree looks the same as before. -/
def AlikeAll (H H' : Heap I S) : Prop :=
  ∀ x nd (t : Tree I S (nd.height + 1)), H.mem x = some nd → readT H (nd.height + 1) x = .ok t →
    ∃ t', readT H' (nd.height + 1) x = .ok t' ∧ Alike t t'

/-- Nodes stay and keep their height. -/
def Stay (H H' : Heap I S) : Prop := ∀ x nd, H.mem x = some nd → ∃ nd', H'.mem x = some nd' ∧ nd.height = nd'.height

theorem AlikeAll.trans {H H' H'' : Heap I S} (hs : Stay H H') (a : AlikeAll H H') (b : AlikeAll H' H'') : AlikeAll H H'' := by
  intro x nd t hm ht
  obtain ⟨nd', hm', he⟩ := hs x nd hm
  obtain ⟨t', ht', e1⟩ := a x nd t hm ht
  obtain ⟨c, hh, z, ks, kd⟩ := nd'
  simp only at he
  subst he
  obtain ⟨t'', ht'', e2⟩ := b x ⟨c, nd.height, z, ks, kd⟩ t' hm' ht'
  exact ⟨t'', ht'', e1.trans e2⟩

theorem count_set {l : List Nat} {c q q' : Nat} (h : l[c]? = some q) (x : Nat) :
    (l.set c q').count x + (if x = q then 1 else 0) = l.count x + (if x = q' then 1 else 0) := by
  induction l generalizing c with
  | nil => simp at h
  | cons a l ih =>
    cases c with
    | zero =>
      simp only [List.getElem?_cons_zero, Option.some.injEq] at h
      subst h
      simp only [List.set_cons_zero, List.count_cons, beq_iff_eq]
      split_ifs <;> omega
    | succ c =>
      simp only [List.getElem?_cons_succ] at h
      have := ih h
      simp only [List.set_cons_succ, List.count_cons]
      omega

theorem mem_set_or {l : List Nat} {c q' x : Nat} (h : x ∈ l.set c q') : x = q' ∨ x ∈ l := by
  rcases List.mem_or_eq_of_mem_set h with h | h
  · exact .inr h
  · exact .inl h

theorem forall₂_set {rel : Nat → Nat → Prop} {l : List Nat} {c q q' : Nat} (h : l[c]? = some q) (hq : rel q q') (hr : ∀ x ∈ l, rel x x) :
    List.Forall₂ rel l (l.set c q') := by
  induction l generalizing c with
  | nil => exact .nil
  | cons a l ih =>
    cases c with
    | zero =>
      simp only [List.getElem?_cons_zero, Option.some.injEq] at h
      subst h
      refine .cons hq ?_
      rw [List.forall₂_same]
      exact fun x hx => hr x (by simp [hx])
    | succ c =>
      simp only [List.getElem?_cons_succ] at h
      exact .cons (hr a (by simp)) (ih h (fun x hx => hr x (by simp [hx])))

/-- The contents after `ensure_unique` can be read as before; the new node as the old one. -/
theorem Uniq.ht {H H' : Heap I S} {out : Nat → Nat} (hi : Inv H out) {h p p' : Nat} (u : Uniq H H' h p p') {x : Nat} {nd' : HNode I S}
    (hx : H'.mem x = some nd') : (∀ q ∈ refsOf (some nd'), ∃ ndq, H'.mem q = some ndq ∧ ndq.height + 1 = nd'.height) ∧
      (nd'.height = 0 → ∀ q ∈ nd'.kids, q = 0) := by
  have : ∃ y nd, H.mem y = some nd ∧ nd.Same nd' := by
    rcases u.back x nd' hx with rfl | ⟨nd, h1, h2⟩
    · obtain ⟨nd, nd2, h1, h2, h3, -⟩ := u.new
      rw [hx] at h2; cases h2
      exact ⟨p, nd, h1, h3⟩
    · exact ⟨x, nd, h1, h2⟩
  obtain ⟨y, nd, hy, hs⟩ := this
  constructor
  · intro q hq
    rw [← hs.refs] at hq
    obtain ⟨ndq, h1, h2⟩ := hi.ht y nd hy q hq
    obtain ⟨ndq', h3, h4⟩ := u.keep q ndq h1
    exact ⟨ndq', h3, by rw [← h4.1, h2, hs.1]⟩
  · intro h0 q hq
    exact hi.leaf y nd hy (by rw [hs.1]; exact h0) q (by rw [hs.2.2.2]; exact hq)

/-- The reference of a tree variable is redirected. -/
theorem Uniq.root {H H' : Heap I S} {out out' : Nat → Nat} (hi : Inv H out) {h p p' : Nat} (u : Uniq H H' h p p')
    (ho : ∀ x, out' x + (if x = p then 1 else 0) = out x + (if x = p' then 1 else 0)) : Inv H' out' := by
  refine ⟨fun x => ?_, u.lt, u.pos, fun x nd hx => (u.ht hi hx).1, fun x nd hx => (u.ht hi hx).2⟩
  have h1 := hi.cnt x
  have h2 := u.bal x
  have h3 := ho x
  omega

theorem Uniq.rel {H H' : Heap I S} {out : Nat → Nat} (hi : Inv H out) {h p p' : Nat} (u : Uniq H H' h p p') {x x' : Nat}
    (hx : (x = x' ∧ ∃ nd, H.mem x = some nd) ∨ (x = p ∧ x' = p')) :
    ∃ nd nd', H.mem x = some nd ∧ H'.mem x' = some nd' ∧ nd.height = nd'.height ∧ nd.size = nd'.size ∧
      nd.keys = nd'.keys ∧ nd.kids.length = nd'.kids.length ∧
      List.Forall₂ (fun x x' => (x = x' ∧ ∃ nd, H.mem x = some nd) ∨ (x = p ∧ x' = p')) (refsOf (some nd)) (refsOf (some nd')) := by
  have key : ∃ nd nd', H.mem x = some nd ∧ H'.mem x' = some nd' ∧ nd.Same nd' := by
    rcases hx with ⟨rfl, nd, hm⟩ | ⟨rfl, rfl⟩
    · obtain ⟨nd', h1, h2⟩ := u.keep x nd hm
      exact ⟨nd, nd', hm, h1, h2⟩
    · obtain ⟨nd, nd', h1, h2, h3, -⟩ := u.new
      exact ⟨nd, nd', h1, h2, h3⟩
  obtain ⟨nd, nd', h1, h2, h3⟩ := key
  refine ⟨nd, nd', h1, h2, h3.1, h3.2.1, h3.2.2.1, by rw [h3.2.2.2], ?_⟩
  rw [← h3.refs, List.forall₂_same]
  intro q hq
  obtain ⟨ndq, g, -⟩ := hi.ht x nd h1 q hq
  exact .inl ⟨rfl, ndq, g⟩

theorem Uniq.alikeAll {H H' : Heap I S} {out : Nat → Nat} (hi : Inv H out) {h p p' : Nat} (u : Uniq H H' h p p') :
    AlikeAll H H' := fun _ nd _ hm ht =>
  readT_sim (fun _ _ => u.rel hi) hi hm rfl (.inl ⟨rfl, nd, hm⟩) ht

theorem Uniq.alike {H H' : Heap I S} {out : Nat → Nat} (hi : Inv H out) {h p p' : Nat} (u : Uniq H H' h p p') {nd : HNode I S}
    (hm : H.mem p = some nd) {t : Tree I S (nd.height + 1)} (ht : readT H (nd.height + 1) p = .ok t) :
    ∃ t', readT H' (nd.height + 1) p' = .ok t' ∧ Alike t t' :=
  readT_sim (fun _ _ => u.rel hi) hi hm rfl (.inr ⟨rfl, rfl⟩) ht

theorem Uniq.stay {H H' : Heap I S} {h p p' : Nat} (u : Uniq H H' h p p') : Stay H H' := fun x nd hx => by
  obtain ⟨nd', h1, h2⟩ := u.keep x nd hx
  exact ⟨nd', h1, h2.1⟩

/-- The reference from a parent is redirected. -/
theorem redirect {H H1 : Heap I S} {out : Nat → Nat} (hi : Inv H out) {p c q q' : Nat} {nd ndq : HNode I S} (hm : H.mem p = some nd)
    (h0 : nd.height ≠ 0) (hc : nd.kids[c]? = some q) (hq : H.mem q = some ndq) (u : Uniq H H1 ndq.height q q') :
    ndq.height + 1 = nd.height ∧ H1.mem p = some nd ∧ q' ≠ p ∧
    Inv (H1.put p { nd with kids := nd.kids.set c q' }) out ∧ AlikeAll H (H1.put p { nd with kids := nd.kids.set c q' }) ∧
    ∀ t, readT H (ndq.height + 1) q = .ok t →
      ∃ t', readT (H1.put p { nd with kids := nd.kids.set c q' }) (ndq.height + 1) q' = .ok t' ∧ Alike t t' := by
  have f1 : refsOf (some nd) = nd.kids := by simp [refsOf, h0]
  have f2 : refsOf (some { nd with kids := nd.kids.set c q' }) = nd.kids.set c q' := by simp [refsOf, h0]
  have hqm : q ∈ nd.kids := List.mem_of_getElem? hc
  have hhq : ndq.height + 1 = nd.height := by
    obtain ⟨n, h1, h2⟩ := hi.ht p nd hm q (by rw [f1]; exact hqm)
    rw [hq] at h1; cases h1; exact h2
  have hpq : p ≠ q := by rintro rfl; rw [hm] at hq; cases hq; omega
  have hp := hi.lt p nd hm
  have hm1 : H1.mem p = some nd := u.high p nd hm (by omega) hpq
  have hpq' : q' ≠ p := by
    rcases u.fresh with h | h
    · rw [h]; exact hpq.symm
    · omega
  have hself : (H1.put p { nd with kids := nd.kids.set c q' }).mem p = some { nd with kids := nd.kids.set c q' } := by simp [Heap.put]
  have hother : ∀ x, x ≠ p → (H1.put p { nd with kids := nd.kids.set c q' }).mem x = H1.mem x := fun x hx => by simp [Heap.put, hx]
  have halive : ∀ x n, H1.mem x = some n → ∃ n', (H1.put p { nd with kids := nd.kids.set c q' }).mem x = some n' ∧ n'.height = n.height := by
    intro x n hx
    by_cases hxp : x = p
    · subst hxp; rw [hm1] at hx; cases hx; exact ⟨_, hself, rfl⟩
    · exact ⟨n, by rw [hother x hxp]; exact hx, rfl⟩
  obtain ⟨nq, nq', g1, g2, g3, g4⟩ := u.new
  rw [hq] at g1; cases g1
  have hrel : ∀ x x', ((x = x' ∧ ∃ nd, H.mem x = some nd) ∨ (x = q ∧ x' = q')) → ∃ n n', H.mem x = some n ∧
      (H1.put p { nd with kids := nd.kids.set c q' }).mem x' = some n' ∧ n.height = n'.height ∧ n.size = n'.size ∧
      n.keys = n'.keys ∧ n.kids.length = n'.kids.length ∧
      List.Forall₂ (fun x x' => (x = x' ∧ ∃ nd, H.mem x = some nd) ∨ (x = q ∧ x' = q')) (refsOf (some n)) (refsOf (some n')) := by
    intro x x' hx
    by_cases hxp : x' = p
    · rcases hx with ⟨rfl, n, hn⟩ | ⟨_, rfl⟩
      · subst hxp
        refine ⟨nd, _, hm, hself, rfl, rfl, rfl, by simp, ?_⟩
        rw [f1, f2]
        refine forall₂_set hc (.inr ⟨rfl, rfl⟩) (fun y hy => ?_)
        obtain ⟨ny, k, -⟩ := hi.ht x nd hm y (by rw [f1]; exact hy)
        exact .inl ⟨rfl, ny, k⟩
      · exact absurd hxp hpq'
    · obtain ⟨n, n', k⟩ := u.rel hi hx
      exact ⟨n, n', by rw [hother x' hxp]; exact k⟩
  refine ⟨hhq, hm1, hpq', ⟨fun x => ?_, fun x n hx => ?_, fun x n hx => ?_, fun x n hx y hy => ?_, fun x n hx h y hy => ?_⟩, ?_, ?_⟩
  · have e1 := hi.cnt x
    have e2 := u.bal x
    have e3 := refsIn_change (H := H1) (H' := H1.put p { nd with kids := nd.kids.set c q' }) rfl (u.lt p nd hm1)
      (fun y hy => by rw [hother y hy]) x
    rw [hm1, hself, f1, f2] at e3
    have e4 := count_set (q' := q') hc x
    have e5 : cnt (H1.put p { nd with kids := nd.kids.set c q' }) x = cnt H1 x := by
      by_cases hxp : x = p
      · subst hxp; rw [cnt_some hself, cnt_some hm1]
      · unfold cnt; rw [hother x hxp]
    omega
  · by_cases hxp : x = p
    · subst hxp; exact u.lt x nd hm1
    · rw [hother x hxp] at hx; exact u.lt x n hx
  · by_cases hxp : x = p
    · subst hxp; rw [hself] at hx; cases hx; exact hi.pos x nd hm
    · rw [hother x hxp] at hx; exact u.pos x n hx
  · by_cases hxp : x = p
    · subst hxp
      rw [hself] at hx
      cases hx
      rw [f2] at hy
      rcases mem_set_or hy with rfl | hy
      · obtain ⟨n', k1, k2⟩ := halive y nq' g2
        exact ⟨n', k1, by show _ = nd.height; rw [k2, ← g3.1, hhq]⟩
      · obtain ⟨n, k1, k2⟩ := (u.ht hi hm1).1 y (by rw [f1]; exact hy)
        obtain ⟨n', k3, k4⟩ := halive y n k1
        exact ⟨n', k3, by show _ = nd.height; omega⟩
    · rw [hother x hxp] at hx
      obtain ⟨n1, k1, k2⟩ := (u.ht hi hx).1 y hy
      obtain ⟨n', k3, k4⟩ := halive y n1 k1
      exact ⟨n', k3, by omega⟩
  · by_cases hxp : x = p
    · subst hxp; rw [hself] at hx; cases hx; exact absurd h h0
    · rw [hother x hxp] at hx; exact (u.ht hi hx).2 h y hy
  · intro x n t hx ht
    exact readT_sim hrel hi hx rfl (.inl ⟨rfl, n, hx⟩) ht
  · intro t ht
    exact readT_sim hrel hi hq rfl (.inr ⟨rfl, rfl⟩) ht

/-- The nodes on a way down from `p`, none of them shared. -/
def Way (H : Heap I S) : List Nat → Nat → List Nat → Prop
  | [], p, X => X = [p] ∧ ∃ nd, H.mem p = some nd ∧ nd.count = 1
  | c :: path, p, X => ∃ nd q X', H.mem p = some nd ∧ nd.count = 1 ∧ nd.height ≠ 0 ∧ nd.kids[c]? = some q ∧ X = p :: X' ∧
      Way H path q X'

/-- The way down exists in the tree. -/
def Fits : {h : Nat} → Tree I S h → List Nat → Prop
  | _, _, [] => True
  | 0, _, _ :: _ => False
  | h + 1, n, c :: path => 0 < h ∧ ∃ k, (Node.kids n)[c]? = some k ∧ Fits (h := h) k path

theorem Fits.alike {h : Nat} {t t' : Tree I S h} {path : List Nat} (hf : Fits t path) (e : Alike t t') : Fits t' path := by
  induction path generalizing h with
  | nil => cases h <;> trivial
  | cons c path ih =>
    cases h with
    | zero => exact hf.elim
    | succ h =>
      obtain ⟨h0, k, h1, h2⟩ := hf
      obtain ⟨k', h3, h4⟩ := alike_get (alike_node.1 e).2.2 h1
      exact ⟨h0, k', h3, ih h2 h4⟩

theorem forall₂_get {X Y : Type} {P : X → Y → Prop} {l : List X} {r : List Y} (h : List.Forall₂ P l r) {c : Nat} {y : Y} (hy : r[c]? = some y) :
    ∃ x, l[c]? = some x ∧ P x y := by
  induction h generalizing c with
  | nil => simp at hy
  | cons h1 h2 ih =>
    cases c with
    | zero => simp only [List.getElem?_cons_zero, Option.some.injEq] at hy; subst hy; exact ⟨_, rfl, h1⟩
    | succ c => simp only [List.getElem?_cons_succ] at hy ⊢; exact ih hy

theorem forall₂_get' {X Y : Type} {P : X → Y → Prop} {l : List X} {r : List Y} (h : List.Forall₂ P l r) {c : Nat} {x : X} (hx : l[c]? = some x) :
    ∃ y, r[c]? = some y ∧ P x y := by
  induction h generalizing c with
  | nil => simp at hx
  | cons h1 h2 ih =>
    cases c with
    | zero => simp only [List.getElem?_cons_zero, Option.some.injEq] at hx; subst hx; exact ⟨_, rfl, h1⟩
    | succ c => simp only [List.getElem?_cons_succ] at hx ⊢; exact ih hx

theorem unshareDown_spec {imax : Nat} {H : Heap I S} {out : Nat → Nat} (hi : Inv H out) {path : List Nat} {h p : Nat} {nd : HNode I S}
    (hm : H.mem p = some nd) (hh : nd.height = h) (hc : nd.count = 1) {t : Tree I S (h + 1)} (ht : readT H (h + 1) p = .ok t) (hf : Fits t path) :
    (∃ H' X, unshareDown imax path H h p = .ok H' ∧ Inv H' out ∧ Way H' path p X ∧ AlikeAll H H' ∧ Stay H H' ∧
      (∀ x nd, H.mem x = some nd → x ∉ X → ∃ nd', H'.mem x = some nd' ∧ nd.Same nd') ∧
      (∀ x nd, H.mem x = some nd → h ≤ nd.height → x ≠ p → H'.mem x = some nd)) ∨
    unshareDown imax path H h p = .error tooMany := by
  induction path generalizing H h p nd with
  | nil =>
    left
    refine ⟨H, [p], rfl, hi, ⟨rfl, nd, hm, hc⟩, fun x nd t _ ht => ⟨t, ht, .refl _⟩, fun x nd h => ⟨nd, h, rfl⟩,
      fun x nd h _ => ⟨nd, h, .refl _⟩, fun x nd h _ _ => h⟩
  | cons c path ih =>
    obtain ⟨nd0, ks, r1, r2, rfl⟩ := readT_succ.1 ht
    rw [hm] at r1; cases r1
    obtain ⟨h0, k, f1, f2⟩ := hf
    obtain ⟨q, hcq, hrq⟩ := forall₂_get r2 f1
    have hne : nd.height ≠ 0 := by omega
    obtain ⟨ndq, hq, hhq⟩ := hi.ht p nd hm q (by simp only [refsOf, hne, if_false]; exact List.mem_of_getElem? hcq)
    cases h with
    | zero => omega
    | succ h =>
      have eh : ndq.height = h := by omega
      subst eh
      simp only [unshareDown, get_ok.2 hm, R.bind_ok, hcq, R.pure_eq, Nat.add_sub_cancel]
      rcases ensureUnique_spec (imax := imax) hi hq with ⟨H1, q', e, u, -⟩ | e
      · rw [e]
        simp only [R.bind_ok]
        obtain ⟨k1, k2, k3, k4, k5, k6⟩ := redirect hi hm hne hcq hq u
        rw [get_ok.2 k2]
        simp only [R.bind_ok]
        obtain ⟨t', k7, k8⟩ := k6 k hrq
        obtain ⟨nq, nq', g1, g2, g3, g4⟩ := u.new
        rw [hq] at g1; cases g1
        have hmq' : (H1.put p { nd with kids := nd.kids.set c q' }).mem q' = some nq' := by simp [Heap.put, k3, g2]
        have hself : (H1.put p { nd with kids := nd.kids.set c q' }).mem p = some { nd with kids := nd.kids.set c q' } := by simp [Heap.put]
        have hother : ∀ x, x ≠ p → (H1.put p { nd with kids := nd.kids.set c q' }).mem x = H1.mem x := fun x hx => by simp [Heap.put, hx]
        have hstay : Stay H (H1.put p { nd with kids := nd.kids.set c q' }) := by
          intro x n hx
          by_cases hxp : x = p
          · subst hxp; rw [hm] at hx; cases hx; exact ⟨_, hself, rfl⟩
          · obtain ⟨n', e1, e2⟩ := u.keep x n hx
            exact ⟨n', by rw [hother x hxp]; exact e1, e2.1⟩
        rcases ih k4 hmq' g3.1.symm g4 k7 (f2.alike k8) with ⟨H', X, e1, e2, e3, e4, e5, e6, e7⟩ | e1
        · left
          refine ⟨H', p :: X, e1, e2, ?_, k5.trans hstay e4, ?_, ?_, ?_⟩
          · refine ⟨{ nd with kids := nd.kids.set c q' }, q', X, ?_, hc, hne, ?_, rfl, e3⟩
            · exact e7 p _ hself (by show ndq.height ≤ nd.height; omega) (Ne.symm k3)
            · have := (List.getElem?_eq_some_iff.1 hcq).1
              simp [this]
          · intro x n hx
            obtain ⟨n', a1, a2⟩ := hstay x n hx
            obtain ⟨n'', a3, a4⟩ := e5 x n' a1
            exact ⟨n'', a3, a2.trans a4⟩
          · intro x n hx hnx
            simp only [List.mem_cons, not_or] at hnx
            obtain ⟨n', a1, a2⟩ := u.keep x n hx
            obtain ⟨n'', a3, a4⟩ := e6 x n' (by rw [hother x hnx.1]; exact a1) hnx.2
            exact ⟨n'', a3, a2.trans a4⟩
          · intro x n hx hle hxp
            have hxq : x ≠ q := by rintro rfl; rw [hq] at hx; cases hx; omega
            have a1 := u.high x n hx (by omega) hxq
            refine e7 x n (by rw [hother x hxp]; exact a1) (by omega) ?_
            rintro rfl
            rw [g2] at a1; cases a1
            have := g3.1
            omega
        · right; exact e1
      · right; rw [e]; rfl

theorem unshare_spec {imax : Nat} {H : Heap I S} {out : Nat → Nat} (hi : Inv H out) {path : List Nat} {h p : Nat} {nd : HNode I S}
    (hm : H.mem p = some nd) (hh : nd.height = h) {t : Tree I S (h + 1)} (ht : readT H (h + 1) p = .ok t) (hf : Fits t path)
    (ho : 0 < out p) :
    (∃ H' p' X, unshare imax path H h p = .ok (H', p') ∧
      (∀ out', (∀ x, out' x + (if x = p then 1 else 0) = out x + (if x = p' then 1 else 0)) → Inv H' out') ∧
      Way H' path p' X ∧ AlikeAll H H' ∧ Stay H H' ∧ (∃ nd', H'.mem p' = some nd' ∧ nd'.height = h) ∧
      ∃ t', readT H' (h + 1) p' = .ok t' ∧ Alike t t') ∨
    unshare imax path H h p = .error tooMany := by
  subst hh
  simp only [unshare]
  rcases ensureUnique_spec (imax := imax) hi hm with ⟨H1, p', e, u, -⟩ | e
  · rw [e]
    simp only [R.bind_ok]
    have hbal : ∀ x, (fun x => out x + (if x = p' then 1 else 0) - (if x = p then 1 else 0)) x + (if x = p then 1 else 0) =
        out x + (if x = p' then 1 else 0) := by
      intro x
      by_cases hx : x = p
      · subst hx; simp only [if_true]; split <;> omega
      · simp [hx]
    have k := u.root hi hbal
    obtain ⟨t1, a1, a2⟩ := u.alike hi hm ht
    obtain ⟨nq, nq', g1, g2, g3, g4⟩ := u.new
    rw [hm] at g1; cases g1
    rcases unshareDown_spec (imax := imax) k g2 g3.1.symm g4 a1 (hf.alike a2) with ⟨H', X, e1, e2, e3, e4, e5, -, -⟩ | e1
    · left
      rw [e1]
      refine ⟨H', p', X, rfl, ?_, e3, (u.alikeAll hi).trans u.stay e4, ?_, ?_, ?_⟩
      · intro out' ho'
        have : out' = (fun x => out x + (if x = p' then 1 else 0) - (if x = p then 1 else 0)) := by
          funext x
          have h1 := ho' x
          have h2 := hbal x
          simp only at h2 ⊢
          omega
        rw [this]; exact e2
      · intro x n hx
        obtain ⟨n', b1, b2⟩ := u.stay x n hx
        obtain ⟨n'', b3, b4⟩ := e5 x n' b1
        exact ⟨n'', b3, b2.trans b4⟩
      · obtain ⟨n', b1, b2⟩ := e5 p' nq' g2
        exact ⟨n', b1, by rw [← b2, ← g3.1]⟩
      · obtain ⟨c0, hh', z, kk, kd⟩ := nq'
        have hx : nd.height = hh' := g3.1
        subst hx
        obtain ⟨t2, b1, b2⟩ := e4 p' ⟨c0, nd.height, z, kk, kd⟩ t1 g2 a1
        exact ⟨t2, b1, a2.trans b2⟩
    · right; rw [e1]; rfl
  · right; rw [e]; rfl

/-- Nodes on the way are referred to only from the way. -/
theorem Way.excl {H : Heap I S} {out : Nat → Nat} (hi : Inv H out) {path : List Nat} {p : Nat} {X : List Nat} (w : Way H path p X) :
    ∀ q ∈ X, q ≠ p → out q = 0 ∧ ∀ z nd, H.mem z = some nd → q ∈ refsOf (some nd) → z ∈ X := by
  induction path generalizing p X with
  | nil =>
    obtain ⟨rfl, -⟩ := w
    intro q hq hne
    simp only [List.mem_singleton] at hq
    exact absurd hq hne
  | cons c path ih =>
    obtain ⟨nd, q, X', h1, h2, h3, h4, rfl, h5⟩ := w
    intro x hx hne
    simp only [List.mem_cons, hne, false_or] at hx
    by_cases hxq : x = q
    · subst hxq
      have f1 : refsOf (some nd) = nd.kids := by simp [refsOf, h3]
      have hxm : x ∈ nd.kids := List.mem_of_getElem? h4
      obtain ⟨nx, hnx, hcx⟩ : ∃ nx, H.mem x = some nx ∧ nx.count = 1 := by
        cases path with
        | nil => exact h5.2
        | cons c' path =>
          obtain ⟨nx, _, _, a, b, _⟩ := h5
          exact ⟨nx, a, b⟩
      have hcnt := hi.cnt x
      rw [cnt_some hnx, hcx] at hcnt
      have hle := refsIn_le (hi.lt p nd h1) x
      rw [h1, f1] at hle
      have hpos : 0 < nd.kids.count x := List.count_pos_iff.2 hxm
      refine ⟨by omega, fun z nz hz hxz => ?_⟩
      by_cases hzp : z = p
      · simp [hzp]
      · exfalso
        have := refsIn_two (hi.lt z nz hz) (hi.lt p nd h1) hzp x
        rw [hz, h1, f1] at this
        have h6 : 0 < (refsOf (some nz)).count x := List.count_pos_iff.2 hxz
        omega
    · obtain ⟨a, b⟩ := ih h5 x hx hxq
      exact ⟨a, fun z nz hz hxz => List.mem_cons_of_mem _ (b z nz hz hxz)⟩

theorem Way.head {H : Heap I S} {path : List Nat} {p : Nat} {X : List Nat} (w : Way H path p X) :
    p ∈ X ∧ ∃ nd, H.mem p = some nd ∧ nd.count = 1 := by
  cases path with
  | nil => obtain ⟨rfl, h⟩ := w; exact ⟨by simp, h⟩
  | cons c path => obtain ⟨nd, _, X', h1, h2, _, _, rfl, _⟩ := w; exact ⟨by simp, nd, h1, h2⟩

theorem Way.one {H : Heap I S} {path : List Nat} {p : Nat} {X : List Nat} (w : Way H path p X) :
    ∀ x ∈ X, ∃ nd, H.mem x = some nd ∧ nd.count = 1 := by
  induction path generalizing p X with
  | nil => obtain ⟨rfl, h⟩ := w; intro x hx; simp only [List.mem_singleton] at hx; subst hx; exact h
  | cons c path ih =>
    obtain ⟨nd, q, X', h1, h2, _, _, rfl, h5⟩ := w
    intro x hx
    rcases List.mem_cons.1 hx with rfl | hx
    · exact ⟨nd, h1, h2⟩
    · exact ih h5 x hx

/-- Nodes further down have less height. -/
theorem Way.height {H : Heap I S} {out : Nat → Nat} (hi : Inv H out) {path : List Nat} {p : Nat} {X : List Nat} (w : Way H path p X)
    {nd : HNode I S} (hm : H.mem p = some nd) : ∀ x ∈ X, ∃ nx, H.mem x = some nx ∧ nx.height ≤ nd.height := by
  induction path generalizing p X nd with
  | nil => obtain ⟨rfl, h⟩ := w; intro x hx; simp only [List.mem_singleton] at hx; subst hx; exact ⟨nd, hm, Nat.le_refl _⟩
  | cons c path ih =>
    obtain ⟨nd', q, X', h1, h2, h3, h4, rfl, h5⟩ := w
    rw [hm] at h1; cases h1
    intro x hx
    rcases List.mem_cons.1 hx with rfl | hx
    · exact ⟨nd, hm, Nat.le_refl _⟩
    · obtain ⟨nq, hq, hh⟩ := hi.ht p nd hm q (by simp only [refsOf, h3, if_false]; exact List.mem_of_getElem? h4)
      obtain ⟨nx, k1, k2⟩ := ih h5 hq x hx
      exact ⟨nx, k1, by omega⟩

end Sherman.Cow
