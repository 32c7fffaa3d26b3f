import Verif.ClonePanicLemmas
import Verif.CowIterSim
/-!
# The slice of a key on the way of an insertion is replaced
-/
namespace Sherman.Cow
variable {I S : Type}

theorem Way.snoc {H : Heap I S} {path : List Nat} {c p : Nat} {X : List Nat} (w : Way H (path ++ [c]) p X) :
    ∃ X1 q1 nd q, Way H path p X1 ∧ X1.getLast? = some q1 ∧ H.mem q1 = some nd ∧ nd.height ≠ 0 ∧ nd.kids[c]? = some q ∧ X = X1 ++ [q] := by
  induction path generalizing p X with
  | nil =>
    obtain ⟨nd, q, X', h1, h2, h3, h4, rfl, rfl, _⟩ := w
    exact ⟨[p], p, nd, q, ⟨rfl, nd, h1, h2⟩, rfl, h1, h3, h4, rfl⟩
  | cons a path ih =>
    obtain ⟨nd, q, X', h1, h2, h3, h4, rfl, h5⟩ := w
    obtain ⟨X1, q1, nd1, q', g1, g2, g3, g4, g5, rfl⟩ := ih h5
    refine ⟨p :: X1, q1, nd1, q', ⟨nd, q, X1, h1, h2, h3, h4, rfl, g1⟩, ?_, g3, g4, g5, rfl⟩
    cases X1 with
    | nil => cases g2
    | cons a l => exact g2

/-- Nodes on a way have different heights. -/
theorem Way.height_inj {H : Heap I S} {out : Nat → Nat} (hi : Inv H out) {path : List Nat} {p : Nat} {X : List Nat} (w : Way H path p X)
    {x y : Nat} (hx : x ∈ X) (hy : y ∈ X) {nx ny : HNode I S} (mx : H.mem x = some nx) (my : H.mem y = some ny) (e : nx.height = ny.height) :
    x = y := by
  induction path generalizing p X with
  | nil =>
    obtain ⟨rfl, -⟩ := w
    simp only [List.mem_singleton] at hx hy
    rw [hx, hy]
  | cons c path ih =>
    obtain ⟨nd, q, X', h1, h2, h3, h4, rfl, h5⟩ := w
    have hq : q ∈ refsOf (some nd) := by simp only [refsOf, if_neg h3]; exact List.mem_of_getElem? h4
    obtain ⟨nq, g1, g2⟩ := hi.ht p nd h1 q hq
    have low : ∀ z ∈ X', ∀ nz, H.mem z = some nz → nz.height < nd.height := by
      intro z hz nz mz
      obtain ⟨nz', a, b⟩ := h5.height hi g1 z hz
      rw [mz] at a; cases a; omega
    rcases List.mem_cons.1 hx with ex | hx'
    · subst ex
      rw [h1] at mx; cases mx
      rcases List.mem_cons.1 hy with ey | hy'
      · exact ey.symm
      · have := low y hy' ny my; omega
    · rcases List.mem_cons.1 hy with ey | hy'
      · subst ey
        rw [h1] at my; cases my
        have := low x hx' nx mx; omega
      · exact ih h5 hx' hy'

/-- The subtree at the end of a way. -/
theorem fill_read {H : Heap I S} {out : Nat → Nat} (hi : Inv H out) {Ht h : Nat} {ctx : Ctx I S Ht h} {n : Tree I S h} {p : Nat}
    {nd : HNode I S} (hm : H.mem p = some nd) (hh : nd.height + 1 = Ht) {t : Tree I S Ht} (ht : readT H Ht p = .ok t) (al : Alike (fill ctx n) t)
    {X : List Nat} (w : Way H ctx.way p X) {q : Nat} (hq : X.getLast? = some q) :
    ∃ n1 nq, readT H h q = .ok n1 ∧ Alike n n1 ∧ H.mem q = some nq ∧ nq.height + 1 = h ∧ nq.count = 1 := by
  induction ctx generalizing X q with
  | top =>
    obtain ⟨rfl, n0, h1, h2⟩ := w
    cases hq
    rw [hm] at h1; cases h1
    exact ⟨t, nd, ht, al, hm, hh, h2⟩
  | @frame h ptr size keys kl kr up ih =>
    obtain ⟨nq0, c1, c2⟩ := w.one q (List.mem_of_getLast? hq)
    obtain ⟨X1, q1, nd1, q', g1, g2, g3, g4, g5, rfl⟩ := w.snoc
    simp only [List.getLast?_append, List.getLast?_singleton, Option.some_or, Option.some.injEq] at hq
    subst hq
    obtain ⟨m1, nq, r1, r2, r3, r4, r5⟩ := ih (n := plugNode ptr size keys kl n kr) al g1 g2
    obtain rfl : nd1 = nq := by rw [g3] at r3; exact Option.some.inj r3
    obtain ⟨nd2, ks, s1, s2, rfl⟩ := readT_succ.1 r1
    obtain rfl : nd1 = nd2 := by rw [g3] at s1; exact Option.some.inj s1
    obtain ⟨e1, e2, e3⟩ := alike_node.1 r2
    have e4 : (kl ++ n :: kr)[kl.length]? = some n := by simp
    obtain ⟨k, k1, k2⟩ := alike_get e3 e4
    obtain ⟨x, x1, x2⟩ := forall₂_get s2 k1
    rw [g5] at x1; cases x1
    have hr : q' ∈ refsOf (some nd1) := by simp only [refsOf, if_neg g4]; exact List.mem_of_getElem? g5
    obtain ⟨nq', y1, y2⟩ := hi.ht q1 nd1 g3 q' hr
    rw [c1] at y1; cases y1
    exact ⟨k, nq0, x2, k2, c1, by omega, c2⟩

theorem forall₂_put {X Y : Type} {P Q : X → Y → Prop} {l : List X} {r : List Y} (h : List.Forall₂ P l r) {c : Nat} {x : X} {y : Y}
    (hx : l[c]? = some x) (hy : Q x y) (hk : ∀ i a b, i ≠ c → l[i]? = some a → P a b → Q a b) : List.Forall₂ Q l (r.set c y) := by
  induction h generalizing c with
  | nil => cases hx
  | @cons a b l r h1 h2 ih =>
    cases c with
    | zero =>
      cases hx
      refine .cons hy ?_
      clear ih
      have : ∀ i a b, l[i]? = some a → P a b → Q a b := fun i a b ha hp => hk (i + 1) a b (by omega) (by simpa using ha) hp
      clear hk
      induction h2 with
      | nil => exact .nil
      | cons g1 g2 ih => exact .cons (this 0 _ _ rfl g1) (ih (fun i a b ha => this (i + 1) a b (by simpa using ha)))
    | succ c =>
      refine .cons (hk 0 _ _ (by omega) rfl h1) (ih (by simpa using hx) (fun i a b hne ha => hk (i + 1) a b (by omega) (by simpa using ha)))

/-- The subtree at the end of a way was changed; the nodes above, and outside, were not. -/
theorem put_fill {H H2 : Heap I S} {out : Nat → Nat} (hi : Inv H out) {p : Nat} {X : List Nat} (ha : Apart H X)
    (hinj : ∀ x y nx ny, x ∈ X → y ∈ X → H.mem x = some nx → H.mem y = some ny → nx.height = ny.height → x = y)
    (h2 : ∀ x, ¬ Ow H X x → H2.mem x = H.mem x) {Ht h : Nat} {ctx : Ctx I S Ht h} {n n2 : Tree I S h}
    {nd : HNode I S} (hm : H.mem p = some nd) (hh : nd.height + 1 = Ht) {t : Tree I S Ht} (ht : readT H Ht p = .ok t) (al : Alike (fill ctx n) t)
    {X1 : List Nat} (w : Way H ctx.way p X1) (hpre : X1 <+: X) (hs : ∀ x ∈ X1.dropLast, H2.mem x = H.mem x) {q : Nat} (hq : X1.getLast? = some q)
    {n2' : Tree I S h} (hr : readT H2 h q = .ok n2') (al2 : Alike n2 n2') :
    ∃ t2, readT H2 Ht p = .ok t2 ∧ Alike (fill ctx n2) t2 := by
  induction ctx generalizing X1 q with
  | top =>
    obtain ⟨rfl, -⟩ := w
    cases hq
    exact ⟨n2', hr, al2⟩
  | @frame h ptr size keys kl kr up ih =>
    have w' := w
    obtain ⟨X0, q1, nd1, q', g1, g2, g3, g4, g5, rfl⟩ := w'.snoc
    simp only [List.getLast?_append, List.getLast?_singleton, Option.some_or, Option.some.injEq] at hq
    subst hq
    obtain ⟨nq0, c1, c2⟩ := w.one q' (by simp)
    obtain ⟨m1, nq, r1, r2, r3, r4, r5⟩ := fill_read (h := h + 1) (n := plugNode ptr size keys kl n kr) hi hm hh ht al g1 g2
    obtain rfl : nd1 = nq := by rw [g3] at r3; exact Option.some.inj r3
    obtain ⟨nd2, ks, s1, s2, rfl⟩ := readT_succ.1 r1
    obtain rfl : nd1 = nd2 := by rw [g3] at s1; exact Option.some.inj s1
    obtain ⟨e1, e2, e3⟩ := alike_node.1 r2
    have hrefs : refsOf (some nd1) = nd1.kids := by simp only [refsOf, if_neg g4]
    have hq' : q' ∈ refsOf (some nd1) := by rw [hrefs]; exact List.mem_of_getElem? g5
    have hX : q' ∈ X := hpre.subset (by simp)
    -- the other children
    have hoth : ∀ i a b, i ≠ kl.length → nd1.kids[i]? = some a → readT H h a = .ok b → readT H2 h a = .ok b := by
      intro i a b hne hia hab
      have har : a ∈ refsOf (some nd1) := by rw [hrefs]; exact List.mem_of_getElem? hia
      obtain ⟨na, y1, y2⟩ := hi.ht q1 nd1 g3 a har
      obtain ⟨nq', z1, z2⟩ := hi.ht q1 nd1 g3 q' hq'
      rw [c1] at z1; cases z1
      have haX : a ∉ X := by
        intro haX
        have := hinj a q' na nq0 haX hX y1 c1 (by omega)
        subst this
        have h1 := count_two g5 hia hne
        have h3 := hi.cnt a
        have h4 := refsIn_le (hi.lt _ _ g3) a
        rw [g3, hrefs] at h4
        rw [cnt_some c1, c2] at h3
        omega
      obtain rfl : h = na.height + 1 := by omega
      exact read_outside hi ha h2 y1 rfl haX hab
    have hq1 : H2.mem q1 = some nd1 := by
      rw [hs q1 (by simpa using List.mem_of_getLast? g2), g3]
    have hread : readT H2 (h + 1) q1 = .ok (⟨q1, nd1.size, nd1.keys, ks.set kl.length n2'⟩ : Node I S (Tree I S h)) :=
      readT_succ.2 ⟨nd1, _, hq1, forall₂_put s2 g5 hr hoth, rfl⟩
    refine ih (n := plugNode ptr size keys kl n kr) (n2 := plugNode ptr size keys kl n2 kr) al g1 ((List.prefix_append _ _).trans hpre) ?_ g2 hread ?_
    · intro x hx
      exact hs x (by simpa using List.dropLast_subset _ hx)
    · refine alike_node.2 ⟨e1, e2, ?_⟩
      have e3' : (kl ++ n :: kr).map strip = ks.map strip := e3
      show (kl ++ n2 :: kr).map strip = (ks.set kl.length n2').map strip
      rw [List.map_set, ← e3']
      have : strip n2' = strip n2 := al2.symm
      simp [this]

/-- The tree around the point. -/
def _root_.Sherman.Point.whole {Ht : Nat} : Point I S Ht → Tree I S Ht
  | .edge leaf ctx _ _ _ => fill ctx leaf
  | .split _ n ctx _ _ => fill ctx n

/-- A search goes down in the tree. -/
theorem findPoint_fill {E : Env Nat S} {Ht h : Nat} {n : Tree Nat S (h + 1)} {ctx : Ctx Nat S Ht (h + 1)} {hints : Option (List Nat)}
    {t : Nat} {l r : Option (Nat × Nat)} {pt} (hr : findPoint E n ctx hints t l r = .ok pt) : pt.whole = fill ctx n := by
  induction h generalizing hints t l r with
  | zero =>
    simp only [findPoint, bind_ok_iff] at hr
    obtain ⟨x, h1, hr⟩ := hr
    split at hr
    · simp only [bind_ok_iff] at hr
      obtain ⟨key, hkey, _, _, hr⟩ := hr
      cases hr; rfl
    · cases hr; rfl
  | succ h ih =>
    simp only [findPoint, bind_ok_iff] at hr
    obtain ⟨x, h1, hr⟩ := hr
    split at hr
    · simp only [bind_ok_iff] at hr
      obtain ⟨key, hkey, _, _, hr⟩ := hr
      cases hr; rfl
    · simp only [bind_ok_iff] at hr
      obtain ⟨_, _, ch, h2, hr⟩ := hr
      have := ih hr
      have e := fill_enter (ctx := ctx) h2
      unfold Ctx.enter at e
      rw [e] at this
      exact this

/-- A slice in a node is replaced. -/
theorem setKeySlice_inv {H : Heap I S} {out : Nat → Nat} (hi : Inv H out) {q k : Nat} {nq : HNode I S} (hm : H.mem q = some nq) {key : Key I S}
    (hk : nq.keys[k]? = some key) (v : S) :
    setKeySlice q k v H = .ok (H.put q { nq with keys := nq.keys.set k { key with slice := v } }, ()) ∧
      Inv (H.put q { nq with keys := nq.keys.set k { key with slice := v } }) out := by
  have href : ∀ x, refsOf ((H.put q { nq with keys := nq.keys.set k { key with slice := v } }).mem x) = refsOf (H.mem x) := by
    intro x
    simp only [Heap.put]
    split
    · rename_i h; subst h; rw [hm]; rfl
    · rfl
  refine ⟨by simp only [setKeySlice, get_ok.2 hm, R.bind_ok, hk]; rfl, ⟨fun x => ?_, fun x nd h => ?_, fun x nd h => ?_, fun x nd h y hy => ?_, fun x nd h => ?_⟩⟩
  · rw [refsIn_congr (H := H) (H' := H.put q _) rfl href, ← hi.cnt x]
    simp only [cnt, Heap.put]
    by_cases h : x = q
    · subst h; simp [hm]
    · simp [h]
  · simp only [Heap.put] at h ⊢
    split at h
    · rename_i e; subst e; exact hi.lt _ _ hm
    · exact hi.lt _ _ h
  · simp only [Heap.put] at h
    split at h
    · cases h; exact hi.pos q nq hm
    · exact hi.pos _ _ h
  · have e := href x
    rw [h] at e
    rw [e] at hy
    have : ∃ nx, H.mem x = some nx ∧ nx.height = nd.height := by
      simp only [Heap.put] at h
      split at h
      · rename_i e; subst e; cases h; exact ⟨nq, hm, rfl⟩
      · exact ⟨nd, h, rfl⟩
    obtain ⟨nx, h1, h2⟩ := this
    rw [h1] at hy
    obtain ⟨ny, g1, g2⟩ := hi.ht x nx h1 y hy
    simp only [Heap.put]
    split
    · rename_i e; subst e; rw [hm] at g1; cases g1; exact ⟨_, rfl, by rw [← h2, ← g2]⟩
    · exact ⟨ny, g1, by rw [← h2, ← g2]⟩
  · simp only [Heap.put] at h
    split at h
    · cases h; exact hi.leaf q nq hm
    · exact hi.leaf _ _ h

end Sherman.Cow
