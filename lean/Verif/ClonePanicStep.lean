import Verif.ClonePanicWay
import Verif.CowProps
/-!
# An insertion that is unwound by a panic in `Clone`: what it leaves
-/
namespace Sherman.Cow
variable {I S : Type}

theorem CapT.ofRep {M lo h : Nat} {t : Tree Nat S h} {es : List (Ent S)} (hr : Rep M lo t es) : CapT M t := by
  induction h generalizing lo es with
  | zero => trivial
  | succ h ih =>
    have hk := Rep.kids_len hr
    have hkid := fun k (hk : k ∈ Node.kids t) => Rep.kid hr hk
    obtain ⟨c, ec, psr, hn, -, -, -, -, h2⟩ := hr
    have hl : (Node.keys t).length ≤ 2 * M := by
      rw [hn]
      have := mkG_len szN (Node.ptr t) [] c (szN c) psr
      simp only [List.length_nil] at this
      omega
    have hk' : (Node.kids t).length = (Node.keys t).length + 1 := hk
    refine ⟨hl, by omega, fun k hk => ?_⟩
    obtain ⟨e, he⟩ := hkid k hk
    exact ih he

theorem Fits.prefix {h : Nat} {t : Tree I S h} {p q : List Nat} (hf : Fits t q) (hp : p <+: q) : Fits t p := by
  induction p generalizing h q with
  | nil => cases h <;> trivial
  | cons a p ih =>
    cases q with
    | nil => simp at hp
    | cons b q =>
      obtain ⟨rfl, hp'⟩ := List.cons_prefix_cons.1 hp
      cases h with
      | zero => exact hf.elim
      | succ h =>
        obtain ⟨h1, k, h2, h3⟩ := hf
        exact ⟨h1, k, h2, ih h3 hp'⟩

/-- Clones made and values destroyed: each clone is in memory or was destroyed. -/
structure Bal (s s' : CSt I S) (new ds : List S) : Prop where
  made : s'.made = s.made ++ new
  gone : s'.gone = s.gone ++ ds
  vals : (valsIn s'.heap ++ ds).Perm (valsIn s.heap ++ new)
  left : s.left = s'.left + new.length

theorem Acc.bal {s s' : CSt I S} {new ds : List S} (h : Acc s s' new ds) : Bal s s' new ds := ⟨h.made, h.gone, h.vals, h.left⟩

theorem Bal.trans {a b c : CSt I S} {n1 n2 d1 d2 : List S} (h : Bal a b n1 d1) (g : Bal b c n2 d2) : Bal a c (n1 ++ n2) (d1 ++ d2) := by
  have h' : Acc { a with root := c.root } { b with root := c.root } n1 d1 := ⟨rfl, h.made, h.gone, h.vals, h.left⟩
  have g' : Acc { b with root := c.root } c n2 d2 := ⟨rfl, g.made, g.gone, g.vals, g.left⟩
  have k := (h'.trans g').bal
  exact ⟨k.made, k.gone, k.vals, k.left⟩

/-- Memory after an operation on the tree with root `r` ended, with root `r'`: counts fit; the tree reads as `t'`; whatever else was held
still reads the same. -/
structure Torn (H H' : Heap I S) (out : Nat → Nat) (r r' : CRoot) (t' : Tree I S (r.h + 1)) : Prop where
  inv : ∀ out', (∀ x, out' x + (if x = r.p then 1 else 0) = out x + (if x = r'.p then 1 else 0)) → Inv H' out'
  h : r'.h = r.h
  root : ∃ nd, H'.mem r'.p = some nd ∧ nd.height = r.h
  read : ∃ t1, readT H' (r.h + 1) r'.p = .ok t1 ∧ Alike t' t1
  oth : ∀ x nd (tx : Tree I S (nd.height + 1)), H.mem x = some nd → (if x = r.p then 1 else 0) < out x → readT H (nd.height + 1) x = .ok tx →
    ∃ nd' tx', H'.mem x = some nd' ∧ nd'.height = nd.height ∧ readT H' (nd.height + 1) x = .ok tx' ∧ Alike tx tx'

theorem Torn.same {H : Heap I S} {out : Nat → Nat} (hi : Inv H out) {r : CRoot} {nd : HNode I S} (hm : H.mem r.p = some nd) (hh : nd.height = r.h)
    {t : Tree I S (r.h + 1)} (ht : readT H (r.h + 1) r.p = .ok t) : Torn H H out r r t := by
  refine ⟨fun out' ho => ?_, rfl, ⟨nd, hm, hh⟩, ⟨t, ht, .refl _⟩, fun x nd tx h1 h2 h3 => ⟨nd, tx, h1, rfl, h3, .refl _⟩⟩
  have : out' = out := by
    funext x
    have := ho x
    omega
  rw [this]; exact hi

/-- The first part of an insertion: the way down. -/
def goDown (M imax : Nat) (path : List Nat) (h : Nat) : CM I S Nat := do
  let p ← makeRootUnique M imax
  unshareDownC M imax path h p

theorem goDown_spec {M imax : Nat} {s : CSt I S} {out : Nat → Nat} (hi : Inv s.heap out) {path : List Nat} {nd : HNode I S}
    (hm : s.heap.mem s.root.p = some nd) (hh : nd.height = s.root.h) (ho : 0 < out s.root.p) {t : Tree I S (s.root.h + 1)}
    (ht : readT s.heap (s.root.h + 1) s.root.p = .ok t) (hf : Fits t path) (hcap : CapT M t) :
    (∃ s' q new X, goDown M imax path s.root.h s = (s', .ok q) ∧ s'.root = { s.root with p := s'.root.p } ∧ Bal s s' new [] ∧
      Torn s.heap s'.heap out s.root s'.root t ∧ Way s'.heap path s'.root.p X ∧ X.getLast? = some q ∧
      unshare imax path s.heap s.root.h s.root.p = .ok (s'.heap, s'.root.p)) ∨
    (∃ s' new ds, goDown M imax path s.root.h s = (s', .error userPanic) ∧ s'.left = 0 ∧ s'.root = { s.root with p := s'.root.p } ∧
      Bal s s' new ds ∧ Torn s.heap s'.heap out s.root s'.root t) ∨
    (unshare imax path s.heap s.root.h s.root.p = .error tooMany ∧ ∃ s', goDown M imax path s.root.h s = (s', .error tooMany)) := by
  obtain ⟨H, ⟨h, p, len⟩, left, made, gone⟩ := s
  simp only at hi hm hh ho ht hf ⊢
  subst hh
  have hk : nd.keys.length ≤ 2 * M := by
    obtain ⟨n0, _, g1, _, g2⟩ := readT_succ.1 ht
    rw [hm] at g1; cases g1
    rw [g2] at hcap
    exact hcap.1
  -- what `unshare` does is known
  have torn : ∀ path' H' p', path' <+: path → unshare imax path' H nd.height p = .ok (H', p') →
      Torn H H' out ⟨nd.height, p, len⟩ ⟨nd.height, p', len⟩ t := by
    intro path' H' p' hp e
    rcases unshare_spec (imax := imax) hi hm rfl ht (hf.prefix hp) ho with ⟨H1, p1, X, e', k1, k2, k3, k4, k5, k6⟩ | e'
    swap
    · rw [e] at e'; cases e'
    rw [e] at e'; cases e'
    refine ⟨k1, rfl, k5, k6, fun x nx tx h1 _ h3 => ?_⟩
    obtain ⟨nx', g1, g2⟩ := k4 x nx h1
    obtain ⟨tx', g3, g4⟩ := k3 x nx tx h1 h3
    exact ⟨nx', tx', g1, g2.symm, g3, g4⟩
  have go : ∀ (H1 : Heap I S) (p' : Nat) (left' : Nat) (new : List S),
      ensureUnique imax H nd.height p = .ok (H1, p') →
      ensureUniqueC M imax nd.height p ⟨H, ⟨nd.height, p, len⟩, left, made, gone⟩ =
        (⟨H1, ⟨nd.height, p, len⟩, left', made ++ new, gone⟩, .ok p') →
      valsIn H1 = valsIn H ++ new → left = left' + new.length →
      (∃ s' q new X, goDown M imax path nd.height ⟨H, ⟨nd.height, p, len⟩, left, made, gone⟩ = (s', .ok q) ∧
        s'.root = ⟨nd.height, s'.root.p, len⟩ ∧ Bal ⟨H, ⟨nd.height, p, len⟩, left, made, gone⟩ s' new [] ∧
        Torn H s'.heap out ⟨nd.height, p, len⟩ s'.root t ∧ Way s'.heap path s'.root.p X ∧ X.getLast? = some q ∧
        unshare imax path H nd.height p = .ok (s'.heap, s'.root.p)) ∨
      (∃ s' new ds, goDown M imax path nd.height ⟨H, ⟨nd.height, p, len⟩, left, made, gone⟩ = (s', .error userPanic) ∧ s'.left = 0 ∧
        s'.root = ⟨nd.height, s'.root.p, len⟩ ∧ Bal ⟨H, ⟨nd.height, p, len⟩, left, made, gone⟩ s' new ds ∧
        Torn H s'.heap out ⟨nd.height, p, len⟩ s'.root t) ∨
      (unshare imax path H nd.height p = .error tooMany ∧
        ∃ s', goDown M imax path nd.height ⟨H, ⟨nd.height, p, len⟩, left, made, gone⟩ = (s', .error tooMany)) := by
    intro H1 p' left' new e e' hv hl
    rcases ensureUnique_spec (imax := imax) hi hm with ⟨H1', p'', e2, u, -⟩ | e2
    swap
    · rw [e] at e2; cases e2
    rw [e] at e2; cases e2
    have k := u.root (out' := fun x => out x + (if x = p' then 1 else 0) - (if x = p then 1 else 0)) hi (fun x => by
      by_cases hx : x = p
      · subst hx; simp only [if_true]; split <;> omega
      · simp [hx])
    obtain ⟨t1, a1, a2⟩ := u.alike hi hm ht
    obtain ⟨nq, nq', g1, g2, g3, g4⟩ := u.new
    rw [hm] at g1; cases g1
    have hmk : makeRootUnique M imax ⟨H, ⟨nd.height, p, len⟩, left, made, gone⟩ =
        (⟨H1, ⟨nd.height, p', len⟩, left', made ++ new, gone⟩, .ok p') := by
      unfold makeRootUnique
      simp only [e']
    have hun : ∀ path', unshare imax path' H nd.height p = (do
        let H ← unshareDown imax path' H1 nd.height p'
        pure (H, p')) := by
      intro path'
      simp only [unshare, e, R.bind_ok]
    have hb : Bal ⟨H, ⟨nd.height, p, len⟩, left, made, gone⟩ ⟨H1, ⟨nd.height, p', len⟩, left', made ++ new, gone⟩ new [] :=
      ⟨rfl, by simp, by simp [hv], hl⟩
    have hgo : goDown M imax path nd.height ⟨H, ⟨nd.height, p, len⟩, left, made, gone⟩ =
        unshareDownC M imax path nd.height p' ⟨H1, ⟨nd.height, p', len⟩, left', made ++ new, gone⟩ := by
      unfold goDown
      rw [CM.bind_ok hmk]
    rcases unshareDownC_spec (imax := imax) (s := ⟨H1, ⟨nd.height, p', len⟩, left', made ++ new, gone⟩) k g2 g3.1.symm g4 a1 (hf.alike a2)
      (hcap.alike a2) with ⟨s', x, new', b1, b2, b3, X, b4, b5⟩ | ⟨s', path', new', ds, b1, b2, b3, b4, b5⟩ | ⟨b1, s', b2⟩
    · left
      have er : s'.root = ⟨nd.height, p', len⟩ := b3.root
      have eu : unshare imax path H nd.height p = .ok (s'.heap, p') := by rw [hun, b2]; rfl
      refine ⟨s', x, new ++ new', X, hgo.trans b1, by rw [er], by simpa using hb.trans b3.bal, ?_, ?_, b5, ?_⟩
      · rw [er]; exact torn path _ _ List.prefix_rfl eu
      · rw [er]; exact b4
      · rw [er]; exact eu
    · right; left
      have er : s'.root = ⟨nd.height, p', len⟩ := b5.root
      refine ⟨s', new ++ new', ds, hgo.trans b1, b3, by rw [er], by simpa using hb.trans b5.bal, ?_⟩
      rw [er]
      refine torn path' _ _ b2 ?_
      rw [hun, b4]; rfl
    · right; right
      exact ⟨by rw [hun, b1]; rfl, s', hgo.trans b2⟩
  rcases ensureUniqueC_spec (s := ⟨H, ⟨nd.height, p, len⟩, left, made, gone⟩) (imax := imax) hi hm hk with
    ⟨e1, e2, e3⟩ | ⟨e1, e2, e3, e4⟩ | ⟨e1, e2, e3⟩ | ⟨e1, s', e2⟩
  · exact go H p left [] e2 (by rw [List.append_nil]; exact e3) (by simp) rfl
  · simp only at e3
    exact go _ _ _ _ e2 e4 (valsIn_splitOff hi hm) (by simp; omega)
  · right; left
    simp only at e2
    refine ⟨⟨H, ⟨nd.height, p, len⟩, 0, made ++ nd.vals.take left, gone ++ nd.vals.take left⟩, nd.vals.take left,
      nd.vals.take left, ?_, rfl, rfl, ⟨rfl, rfl, .refl _, ?_⟩, .same hi hm rfl ht⟩
    · unfold goDown
      refine CM.bind_error ?_
      unfold makeRootUnique
      simp only [e3]
    · show left = 0 + _
      simp; omega
  · right; right
    refine ⟨?_, s', ?_⟩
    · simp only at e1
      simp only [unshare, e1]; rfl
    · unfold goDown
      refine CM.bind_error ?_
      unfold makeRootUnique
      simp only [e2]

/-! ## The slice put back into a key -/

theorem valsIn_set {H : Heap I S} {q k : Nat} {nq : HNode I S} (hm : H.mem q = some nq) (hq : q < H.next) {key : Key I S}
    (hk : nq.keys[k]? = some key) (v : S) :
    (valsIn (H.put q { nq with keys := nq.keys.set k { key with slice := v } }) ++ [key.slice]).Perm (valsIn H ++ [v]) := by
  obtain ⟨A, B, hAB⟩ : ∃ A B, List.range H.next = A ++ q :: B := List.append_of_mem (List.mem_range.2 hq)
  have hnd : (A ++ q :: B).Nodup := by rw [← hAB]; exact List.nodup_range
  have hne : ∀ x, x ∈ A ∨ x ∈ B → x ≠ q := by
    rintro x hx rfl
    rw [List.nodup_append] at hnd
    rcases hx with hx | hx
    · exact hnd.2.2 x hx x (by simp) rfl
    · exact (List.nodup_cons.1 hnd.2.1).1 hx
  have hoff : ∀ x, x ≠ q → slicesAt (H.put q { nq with keys := nq.keys.set k { key with slice := v } }) x = slicesAt H x := by
    intro x hx
    simp [slicesAt, Heap.put, hx]
  have hself : ((slicesAt (H.put q { nq with keys := nq.keys.set k { key with slice := v } }) q) ++ [key.slice]).Perm (slicesAt H q ++ [v]) := by
    simp only [slicesAt, Heap.put, if_true, hm]
    obtain ⟨hlt, rfl⟩ := List.getElem?_eq_some_iff.1 hk
    have h1 : nq.keys = nq.keys.take k ++ nq.keys[k] :: nq.keys.drop (k + 1) := by simp
    have h2 : nq.keys.set k { nq.keys[k] with slice := v } = nq.keys.take k ++ { nq.keys[k] with slice := v } :: nq.keys.drop (k + 1) :=
      List.set_eq_take_append_cons_drop.trans (by simp [hlt])
    rw [h2]
    conv_rhs => rw [h1]
    simp only [List.map_append, List.map_cons, List.append_assoc, List.cons_append]
    refine List.Perm.append_left _ ?_
    refine (List.Perm.cons v List.perm_append_comm).trans (.trans (List.Perm.swap _ _ _) (List.Perm.cons _ ?_))
    exact (List.perm_append_comm (l₁ := [v]))
  show ((List.range H.next).flatMap _ ++ _).Perm ((List.range H.next).flatMap _ ++ _)
  rw [hAB]
  simp only [List.flatMap_append, List.flatMap_cons]
  rw [flatMap_congr' (fun x hx => hoff x (hne x (.inl hx))), flatMap_congr' (fun x hx => hoff x (hne x (.inr hx)))]
  simp only [List.append_assoc]
  refine List.Perm.append_left _ ?_
  have c1 := List.perm_append_comm (l₁ := B.flatMap (slicesAt H)) (l₂ := [key.slice])
  have c2 := List.perm_append_comm (l₁ := [v]) (l₂ := B.flatMap (slicesAt H))
  refine (List.Perm.append_left _ c1).trans (.trans ?_ (List.Perm.append_left _ c2))
  rw [← List.append_assoc, ← List.append_assoc]
  exact hself.append_right _

theorem forall₂_imp_mem {X Y : Type} {P Q : X → Y → Prop} {l : List X} {r : List Y} (h : List.Forall₂ P l r) (hi : ∀ a b, a ∈ l → P a b → Q a b) :
    List.Forall₂ Q l r := by
  induction h with
  | nil => exact .nil
  | cons a b ih => exact .cons (hi _ _ (by simp) a) (ih (fun x y hx hy => hi x y (by simp [hx]) hy))

/-- The node with the slice of one key replaced. -/
def setN {C : Type} (n : Node I S C) (k : Nat) (key : Key I S) (v : S) : Node I S C := { n with keys := n.keys.set k { key with slice := v } }

/-- A slice on the way is replaced. -/
theorem hurt_spec {H H1 : Heap I S} {out : Nat → Nat} {r r1 : CRoot} {t : Tree I S (r.h + 1)} (tn : Torn H H1 out r r1 t) (ho : 0 < out r.p)
    {g : Nat} {ctx : Ctx I S (r.h + 1) (g + 1)} {n : Tree I S (g + 1)} (et : fill ctx n = t) {X : List Nat} (w : Way H1 ctx.way r1.p X) {q : Nat}
    (hq : X.getLast? = some q) {k : Nat} {key : Key I S} (hk : (Node.keys n)[k]? = some key) (v : S) :
    ∃ H2 n2 nq, setKeySlice q k v H1 = .ok (H2, ()) ∧ Torn H H2 out r r1 (fill ctx (setN (C := Tree I S g) n k key v)) ∧
      H2.mem q = some nq ∧ nq.height = g ∧ nq.count = 1 ∧ readT H2 (g + 1) q = .ok n2 ∧ Alike (h := g + 1) (setN (C := Tree I S g) n k key v) n2 ∧
      (valsIn H2 ++ [key.slice]).Perm (valsIn H1 ++ [v]) := by
  obtain ⟨t1, ht1, al⟩ := tn.read
  obtain ⟨nd1, hm1, hh1⟩ := tn.root
  have hinv : ∀ out', (∀ x, out' x + (if x = r.p then 1 else 0) = out x + (if x = r1.p then 1 else 0)) → Inv H1 out' := tn.inv
  let out1 : Nat → Nat := fun x => out x + (if x = r1.p then 1 else 0) - (if x = r.p then 1 else 0)
  have hout1 : ∀ x, out1 x + (if x = r.p then 1 else 0) = out x + (if x = r1.p then 1 else 0) := by
    intro x
    show out x + _ - _ + _ = _
    by_cases hx : x = r.p
    · subst hx; simp only [if_true]; split <;> omega
    · simp [hx]
  have hi := hinv out1 hout1
  have hpos : 0 < out1 r1.p := by
    have h1 := hout1 r1.p
    simp only [if_true] at h1
    by_cases hx : r1.p = r.p
    · rw [hx] at h1 ⊢; simp only [if_true] at h1; omega
    · simp only [hx, if_false] at h1; omega
  subst et
  obtain ⟨n1, nq, r1', r2, r3, r4, r5⟩ := fill_read (n := n) hi hm1 (by omega) ht1 al w hq
  obtain ⟨nq', ks, s1, s2, e⟩ := readT_succ.1 r1'
  rw [r3] at s1; cases s1
  subst e
  obtain ⟨e1, e2, e3⟩ := alike_node.1 r2
  have hk1 : nq.keys[k]? = some key := by
    have : Node.keys n = nq.keys := e2
    rw [← this]; exact hk
  obtain ⟨hset, hinv2⟩ := setKeySlice_inv hi r3 hk1 v
  have hap := w.apart hi hpos
  have hq0 : q ∈ X := List.mem_of_getLast? hq
  have hself : (H1.put q { nq with keys := nq.keys.set k { key with slice := v } }).mem q =
      some { nq with keys := nq.keys.set k { key with slice := v } } := by simp [Heap.put]
  have hoff : ∀ x, x ≠ q → (H1.put q { nq with keys := nq.keys.set k { key with slice := v } }).mem x = H1.mem x := by
    intro x hx; simp [Heap.put, hx]
  have hout : ∀ x, ¬ Ow H1 X x → (H1.put q { nq with keys := nq.keys.set k { key with slice := v } }).mem x = H1.mem x := by
    intro x hx
    exact hoff x (fun h => hx (.inl (by rw [h]; exact hq0)))
  -- the children of the node
  have hkids : List.Forall₂ (fun a b => readT (H1.put q { nq with keys := nq.keys.set k { key with slice := v } }) g a = .ok b) nq.kids ks := by
    have : ∀ a b, a ∈ nq.kids → readT H1 g a = .ok b →
        readT (H1.put q { nq with keys := nq.keys.set k { key with slice := v } }) g a = .ok b := by
      intro a b ha hab
      cases g with
      | zero => exact hab
      | succ g =>
        have har : a ∈ refsOf (some nq) := by simp only [refsOf]; rw [if_neg (by omega)]; exact ha
        obtain ⟨na, y1, y2⟩ := hi.ht q nq r3 a har
        refine readT_frame (Z := fun x => ∃ nx, H1.mem x = some nx ∧ nx.height < nq.height) (fun x ⟨nx, hx1, hx2⟩ => ?_) ⟨na, y1, by omega⟩ y1
          (by omega) hab
        refine ⟨nx, nx, hx1, ?_, .refl _, fun z hz => ?_⟩
        · rw [hoff x (fun h => by subst h; rw [r3] at hx1; cases hx1; omega)]; exact hx1
        · obtain ⟨nz, z1, z2⟩ := hi.ht x nx hx1 z hz
          exact ⟨⟨nz, z1, by omega⟩, nz, z1, z2⟩
    exact forall₂_imp_mem s2 this
  have hread := (readT_succ (h := g)).2 ⟨_, ks, hself, hkids, rfl⟩
  have al2 : Alike (h := g + 1) (setN (C := Tree I S g) n k key v)
      (⟨q, nq.size, nq.keys.set k { key with slice := v }, ks⟩ : Node I S (Tree I S g)) := by
    refine alike_node.2 ⟨e1, ?_, e3⟩
    have : Node.keys n = nq.keys := e2
    show (Node.keys n).set k _ = nq.keys.set k _
    rw [this]
  have hdl : ∀ x ∈ X.dropLast, (H1.put q { nq with keys := nq.keys.set k { key with slice := v } }).mem x = H1.mem x := by
    intro x hx
    refine hoff x ?_
    rintro rfl
    have hnd := w.nodup hi
    have hX : X = X.dropLast ++ [x] := by
      have := List.dropLast_append_getLast? x hq
      exact this.symm
    rw [hX, List.nodup_append] at hnd
    exact hnd.2.2 x hx x (by simp) rfl
  obtain ⟨t2, u1, u2⟩ := put_fill (n := n) (n2 := setN (C := Tree I S g) n k key v) hi hap (fun x y nx ny hx hy mx my e => w.height_inj hi hx hy mx my e)
    hout hm1 (by omega) ht1 al w List.prefix_rfl hdl hq hread al2
  refine ⟨_, _, _, hset, ⟨fun out' ho' => (setKeySlice_inv (hinv out' ho') r3 hk1 v).2, tn.h, ?_, ⟨t2, u1, u2⟩, ?_⟩, hself, by
    show nq.height = g
    omega, r5, hread, al2, valsIn_set r3 (hi.lt _ _ r3) hk1 v⟩
  · by_cases h : r1.p = q
    · refine ⟨_, by rw [h]; exact hself, ?_⟩
      rw [← h, hm1] at r3
      cases r3; exact hh1
    · exact ⟨nd1, by rw [hoff _ h]; exact hm1, hh1⟩
  · intro x nd tx h1 h2 h3
    obtain ⟨nd', tx', g1, g2, g3, g4⟩ := tn.oth x nd tx h1 h2 h3
    have hxX : x ∉ X := by
      intro hx
      have h4 := w.others hi hpos hx
      have h5 := hout1 x
      rw [h4] at h5
      omega
    exact ⟨nd', tx', by rw [hoff x (fun h => hxX (by rw [h]; exact hq0))]; exact g1, g2, read_outside hi hap hout g1 g2 hxX g3, g4⟩

/-- More nodes are unshared. -/
theorem Torn.down {H H1 H2 : Heap I S} {out : Nat → Nat} {r r1 : CRoot} {t : Tree I S (r.h + 1)} (tn : Torn H H1 out r r1 t) {imax : Nat}
    {path : List Nat} {g q : Nat} {nq : HNode I S} (hm : H1.mem q = some nq) (hh : nq.height = g) (hc : nq.count = 1) {n : Tree I S (g + 1)}
    (hn : readT H1 (g + 1) q = .ok n) (hf : Fits n path) (ho : 0 < out r.p) (e : unshareDown imax path H1 g q = .ok H2) : Torn H H2 out r r1 t := by
  have key : ∀ out', Inv H1 out' → Inv H2 out' ∧ AlikeAll H1 H2 ∧ Stay H1 H2 := by
    intro out' hi
    rcases unshareDown_spec (imax := imax) hi hm hh hc hn hf with ⟨H', X, e1, e2, e3, e4, e5, -⟩ | e1
    · rw [e] at e1; cases e1; exact ⟨e2, e4, e5⟩
    · rw [e] at e1; cases e1
  obtain ⟨out', ho'⟩ : ∃ out' : Nat → Nat, ∀ x, out' x + (if x = r.p then 1 else 0) = out x + (if x = r1.p then 1 else 0) := by
    refine ⟨fun x => out x + (if x = r1.p then 1 else 0) - (if x = r.p then 1 else 0), fun x => ?_⟩
    show out x + _ - _ + _ = _
    by_cases hx : x = r.p
    · subst hx; simp only [if_true]; split <;> omega
    · simp [hx]
  obtain ⟨-, k2, k3⟩ := key out' (tn.inv out' ho')
  refine ⟨fun o h => (key o (tn.inv o h)).1, tn.h, ?_, ?_, fun x nd tx h1 h2 h3 => ?_⟩
  · obtain ⟨nd, h1, h2⟩ := tn.root
    obtain ⟨nd', h3, h4⟩ := k3 _ _ h1
    exact ⟨nd', h3, by rw [← h4, h2]⟩
  · obtain ⟨t1, h1, h2⟩ := tn.read
    obtain ⟨nd, h3, h4⟩ := tn.root
    obtain ⟨c0, hh', z, kk, kd⟩ := nd
    simp only at h4
    obtain ⟨rh, rp, rl⟩ := r
    simp only at h4
    subst h4
    obtain ⟨t2, h5, h6⟩ := k2 _ _ _ h3 h1
    exact ⟨t2, h5, h2.trans h6⟩
  · obtain ⟨nd', tx', g1, g2, g3, g4⟩ := tn.oth x nd tx h1 h2 h3
    obtain ⟨nd'', g5, g6⟩ := k3 _ _ g1
    obtain ⟨c0, hh', z, kk, kd⟩ := nd'
    simp only at g2 g6
    subst g2
    obtain ⟨tx'', g7, g8⟩ := k2 x ⟨c0, nd.height, z, kk, kd⟩ tx' g1 g3
    exact ⟨nd'', tx'', g5, g6.symm, g7, g4.trans g8⟩

/-! ## Insertion -/

theorem Rep.fill {M : Nat} {m : Maps Nat} {Ht h : Nat} {ctx : Ctx Nat S Ht h} {n : Tree Nat S h} {es L R L' : List (Ent S)}
    (hr : Rep M (ctx.lo M) n es) (hc : CtxRep M m ctx (szN n) L R L') : Rep M 1 (fill ctx n) (L ++ es ++ R) := by
  induction ctx generalizing es L R L' with
  | top =>
    obtain ⟨rfl, rfl, -⟩ := hc
    simp only [List.nil_append, List.append_nil]
    exact hr
  | frame ptr size keys kl kr up ih =>
    obtain ⟨psl, psl', psr, Lu, Ru, Lu', rfl, rfl, rfl, rfl, h5, h6, -, h8, h9, rfl, rfl, -, h13⟩ := hc
    have := Rep.ofFocus (p := ptr) (lo := up.lo M) h5 hr h6 rfl h8 h9
    have := ih (n := mkG szN ptr psl n (szN n) psr) this h13
    simp only [List.append_assoc] at this ⊢
    exact this

/-- What is left in place of a slice `x`, of a run that an insertion of `s` at offset `o` splits, before the `rest` is inserted. -/
def Remains (sl : SliceOps Nat S) (x : S) (o : Nat) (s v : S) (rest : List S) : Prop :=
  (sl.mayJoin = false ∧ v = (sl.splitAt x o).1 ∧ rest = [s, (sl.splitAt x o).2]) ∨
  (sl.mayJoin = true ∧ ∃ m q, sl.tryJoin (sl.splitAt x o).1 s = .inl m ∧ sl.tryJoin m (sl.splitAt x o).2 = .inr (v, q) ∧ rest = [q]) ∨
  (sl.mayJoin = true ∧ ∃ s' n, sl.tryJoin (sl.splitAt x o).1 s = .inr (v, s') ∧ sl.tryJoin s' (sl.splitAt x o).2 = .inl n ∧ rest = [n]) ∨
  (sl.mayJoin = true ∧ ∃ s' m q, sl.tryJoin (sl.splitAt x o).1 s = .inr (v, s') ∧ sl.tryJoin s' (sl.splitAt x o).2 = .inr (m, q) ∧ rest = [m, q])

theorem remains_of {E : Env Nat S} {x s v : S} {o d : Nat} {rest : List S} (h : splitParts E x o s = some (v, d, rest)) :
    Remains E.sl x o s v rest ∧ d = rest.length := by
  unfold splitParts at h
  cases hm : E.sl.mayJoin with
  | false =>
    simp only [hm] at h
    cases h
    exact ⟨.inl ⟨hm, rfl, rfl⟩, rfl⟩
  | true =>
    simp only [hm, if_true] at h
    cases h1 : E.sl.tryJoin (E.sl.splitAt x o).1 s with
    | inl m =>
      rw [h1] at h
      simp only at h
      cases h2 : E.sl.tryJoin m (E.sl.splitAt x o).2 with
      | inl y => rw [h2] at h; cases h
      | inr y =>
        rw [h2] at h; cases h
        exact ⟨.inr (.inl ⟨hm, m, y.2, h1, h2, rfl⟩), rfl⟩
    | inr y =>
      rw [h1] at h
      simp only at h
      cases h2 : E.sl.tryJoin y.2 (E.sl.splitAt x o).2 with
      | inl z =>
        rw [h2] at h; cases h
        exact ⟨.inr (.inr (.inl ⟨hm, y.2, z, h1, h2, rfl⟩)), rfl⟩
      | inr z =>
        rw [h2] at h; cases h
        exact ⟨.inr (.inr (.inr ⟨hm, y.2, z.1, z.2, h1, h2, rfl⟩)), rfl⟩

/-- What an insertion leaves of the runs `es` if it is unwound after it has split a run: the run keeps its size, but has the left part `v` of
its slice `x` only; `rest` is the rest of it and the inserted slice, as far as they could not be joined. -/
def Hurt (sl : SliceOps Nat S) (es : List (Ent S)) (idx : Nat) (s : S) (es' : List (Ent S)) (x v : S) (rest : List S) : Prop :=
  ∃ L e R o, es = L ++ e :: R ∧ idx = total L + o ∧ 0 < o ∧ o < e.size ∧ e.slice = x ∧ Remains sl x o s v rest ∧ es' = L ++ { e with slice := v } :: R

theorem Fits.kids {g : Nat} {a b : Tree I S (g + 1)} (e : Node.kids a = Node.kids b) {p : List Nat} (hf : Fits a p) : Fits b p := by
  cases p with
  | nil => trivial
  | cons c p =>
    obtain ⟨h1, k, h2, h3⟩ := hf
    exact ⟨h1, k, by rw [← e]; exact h2, h3⟩

theorem setN_mkG {g p : Nat} {psl psr : List (Item S (Tree Nat S g))} {it : Item S (Tree Nat S g)} {c : Tree Nat S g} {key : Key Nat S}
    (hk : (mkG szN p psl c (szN c) (it :: psr)).keys[psl.length]? = some key) (v : S) :
    key.slice = it.slice ∧ setN (mkG szN p psl c (szN c) (it :: psr)) psl.length key v = mkG szN p psl c (szN c) ({ it with slice := v } :: psr) := by
  have hl : (keysL szN 0 psl).length = psl.length := by simp
  have hk' : key = ⟨tot szN psl + szN c, it.slice, it.ref⟩ := by
    simp only [mkG, keysR_cons] at hk
    rw [List.getElem?_append_right (by omega), hl] at hk
    simpa using hk.symm
  subst hk'
  refine ⟨rfl, ?_⟩
  simp only [setN, mkG, keysR_cons]
  rw [List.set_append_right _ _ (by omega), hl]
  simp only [Nat.sub_self, List.set_cons_zero]
  rfl

theorem Torn.len {H H' : Heap I S} {out : Nat → Nat} {r r' r'' : CRoot} {t' : Tree I S (r.h + 1)} (tn : Torn H H' out r r' t') (e1 : r''.p = r'.p)
    (e2 : r''.h = r'.h) : Torn H H' out r r'' t' :=
  ⟨fun o h => tn.inv o (by rw [← e1]; exact h), e2.trans tn.h, by rw [e1]; exact tn.root, by rw [e1]; exact tn.read, tn.oth⟩

theorem perm_chain {a b c d ds new new' rest : List S} {x v : S} (h1 : (a ++ ds).Perm (b ++ new')) (h2 : (b ++ [x]).Perm (c ++ [v]))
    (h3 : c.Perm (d ++ new)) : (a ++ (ds ++ rest) ++ [x]).Perm (d ++ (new ++ new') ++ v :: rest) := by
  rw [← Multiset.coe_eq_coe] at h1 h2 h3 ⊢
  simp only [← Multiset.coe_add, ← Multiset.cons_coe, ← Multiset.singleton_add, Multiset.coe_nil, add_zero] at h1 h2 h3 ⊢
  calc (a : Multiset S) + (ds + rest) + {x} = (a + ds) + (rest + {x}) := by ac_rfl
    _ = (b + {x}) + (new' + rest) := by rw [h1]; ac_rfl
    _ = d + (new + new') + ({v} + rest) := by rw [h2, h3]; ac_rfl

/-- The way down of an insertion: it returns, or a call of `Clone` panics. -/
theorem descend_spec {MAX imax : Nat} {E : Env Nat S} (hE : E.ix = natIdx MAX) {s : CSt Nat S} {out : Nat → Nat} (hi : Inv s.heap out)
    {nd : HNode Nat S} (hm : s.heap.mem s.root.p = some nd) (hh : nd.height = s.root.h) (ho : 0 < out s.root.p) {t : Tree Nat S (s.root.h + 1)}
    (ht : readT s.heap (s.root.h + 1) s.root.p = .ok t) {es : List (Ent S)} (hr : Rep E.M 1 t es) (hp : Pos es) {idx : Nat} (hidx : idx ≤ total es)
    (hints : List Nat) (slice : S) :
    (∃ s', descend E imax t hints idx slice s = (s', .ok ())) ∨
    (∃ s' t' es' d made gone, descend E imax t hints idx slice s = (s', .error userPanic) ∧ s'.left = 0 ∧
      s'.root.len = s.root.len + d ∧ Torn s.heap s'.heap out s.root s'.root t' ∧ Rep E.M 1 t' es' ∧
      s'.made = s.made ++ made ∧ s'.gone = s.gone ++ gone ∧ made.length = s.left ∧
      ((es' = es ∧ d = 0 ∧ (valsIn s'.heap ++ gone).Perm (valsIn s.heap ++ made ++ [slice])) ∨
        ∃ x v rest, Hurt E.sl es idx slice es' x v rest ∧ d = rest.length ∧
          (valsIn s'.heap ++ gone ++ [x]).Perm (valsIn s.heap ++ made ++ v :: rest))) ∨
    (∃ s', descend E imax t hints idx slice s = (s', .error tooMany)) := by
  obtain ⟨pt, h1, h2⟩ := findPoint_spec (MAX := MAX) (m := Maps.identity (natIdx MAX)) (ctx := .top)
    (hints := some hints) (lhs := none) (rhs := none) (L := []) (R := []) hE rfl hr hp hidx
    ⟨rfl, rfl, rfl⟩ (fun _ => ⟨trivial, trivial⟩)
  have hcap := CapT.ofRep hr
  have hwhole := findPoint_fill h1
  obtain ⟨fq, f1, f2, f3⟩ := findPoint_fits hr h1
  have f1 : pt.path = fq := by rw [f1]; rfl
  subst f1
  have hlift : (CM.lift (findPoint E t .top (some hints) idx none none) : CM Nat S (Point Nat S (s.root.h + 1))) s = (s, .ok pt) := by
    unfold CM.lift
    rw [h1]
  unfold descend
  rw [CM.bind_ok hlift]
  cases pt with
  | edge leaf ctx i l r =>
    simp only
    rcases goDown_spec (imax := imax) hi hm hh ho ht f2 hcap with ⟨s', q, new, X, e, -⟩ | ⟨s', new, ds, e, e1, e2, e3, e4⟩ | ⟨-, s', e⟩
    · left
      exact ⟨s', (CM.bind_ok (CM.unwind_ok e)).trans rfl⟩
    · right; left
      refine ⟨{ s' with gone := s'.gone ++ [slice] }, t, es, 0, new, ds ++ [slice], ?_, e1, by show s'.root.len = _; rw [e2]; rfl, e4, hr, e3.made, ?_, ?_, .inl ⟨rfl, rfl, ?_⟩⟩
      · exact CM.bind_error (CM.unwind_error e rfl)
      · show s'.gone ++ [slice] = _
        rw [e3.gone, List.append_assoc]
      · have := e3.left; omega
      · have := e3.vals.append_right [slice]
        simpa [List.append_assoc] using this
    · right; right
      exact ⟨_, CM.bind_error (CM.unwind_error e rfl)⟩
  | split g n ctx k o =>
    simp only
    obtain ⟨⟨key, hkey⟩, f3⟩ := f3 _ _ _ _ _ rfl
    rcases goDown_spec (imax := imax) hi hm hh ho ht f2 hcap with ⟨s1, q, new, X, e, er, eb, et, ew, eq, -⟩ | ⟨s', new, ds, e, e1, e2, e3, e4⟩ | ⟨-, s', e⟩
    · obtain ⟨p, psl, psr, it, c, ec, L, R, rfl, rfl, a1, a2, a3, a4, a5, a6, a7, a8, a9, a10⟩ := h2
      have e' : (do
          let p ← makeRootUnique E.M imax
          unshareDownC E.M imax ctx.way s.root.h p : CM Nat S Nat) s = (s1, .ok q) := e
      rw [CM.bind_ok (CM.unwind_ok e')]
      have hlk : (CM.lift (Node.handle (mkG szN p psl c (szN c) (it :: psr)) psl.length) : CM Nat S (Key Nat S)) s1 = (s1, .ok key) := by
        unfold CM.lift
        rw [hkey]
      rw [CM.bind_ok hlk]
      cases hsp : splitParts E key.slice o slice with
      | none => exact .inl ⟨s1, rfl⟩
      | some res =>
        obtain ⟨v, d, rest⟩ := res
        simp only
        have hkk : (mkG szN p psl c (szN c) (it :: psr)).keys[psl.length]? = some key := by
          have := hkey
          unfold Node.handle at this
          split at this
          · cases this
          · rename_i h; cases this; exact h
        obtain ⟨m1, m2⟩ := setN_mkG hkk v
        obtain ⟨H2, n2, nq, b1, b2, b3, b4, b5, b6, b7, b8⟩ := hurt_spec et ho hwhole ew eq (k := psl.length) (key := key) hkk v
        rw [m2] at b2 b7
        obtain ⟨hrem, hd⟩ := remains_of hsp
        rw [m1] at hrem b8
        have a3' : RepItems E.M ({ it with slice := v } :: psr) := by
          rw [RepItems.cons] at a3 ⊢
          exact a3
        have hrn : Rep E.M (ctx.lo E.M) (h := g + 1) (mkG szN p psl c (szN c) ({ it with slice := v } :: psr)) _ :=
          Rep.ofFocus a1 a2 a3' rfl a4 a5
        have hrn0 : Rep E.M (ctx.lo E.M) (h := g + 1) (mkG szN p psl c (szN c) (it :: psr)) _ :=
          Rep.ofFocus a1 a2 a3 rfl a4 a5
        have hrt := Rep.fill hrn (L := L) (R := R) (L' := L) (m := Maps.identity (natIdx MAX)) a6
        have hfit : Fits n2 (rhsWay g psl.length) := by
          have h1 := Rep.fits_rhs hrn0 hkey
          have h2 : Fits (h := g + 1) (mkG szN p psl c (szN c) ({ it with slice := v } :: psr)) (rhsWay g psl.length) :=
            Fits.kids (a := mkG szN p psl c (szN c) (it :: psr)) (b := mkG szN p psl c (szN c) ({ it with slice := v } :: psr)) rfl h1
          exact h2.alike b7
        rw [CM.bind_ok (CM.onHeap_ok b1)]
        rw [CM.bind_ok (show addLen d { s1 with heap := H2 } = (⟨H2, { s1.root with len := s1.root.len + d }, s1.left, s1.made, s1.gone⟩, .ok ()) from rfl)]
        have b2' : Torn s.heap H2 out s.root { s1.root with len := s1.root.len + d } _ := b2.len rfl rfl
        have hi2 := b2'.inv (fun x => out x + (if x = s1.root.p then 1 else 0) - (if x = s.root.p then 1 else 0)) (fun x => by
          show out x + _ - _ + _ = _
          by_cases hx : x = s.root.p
          · subst hx; simp only [if_true]; split <;> omega
          · simp [hx])
        rcases unshareDownC_spec (M := E.M) (imax := imax) (s := ⟨H2, { s1.root with len := s1.root.len + d }, s1.left, s1.made, s1.gone⟩) hi2 b3 b4 b5 b6 hfit
          ((CapT.ofRep hrn).alike b7) with ⟨s', x, new', c1, -⟩ | ⟨s', path', new', ds, c1, c2, c3, c4, c5⟩ | ⟨-, s', c1⟩
        · exact .inl ⟨s', (CM.bind_ok (CM.unwind_ok c1)).trans rfl⟩
        · right; left
          have er' : s'.root = { s1.root with len := s1.root.len + d } := c5.root
          refine ⟨{ s' with gone := s'.gone ++ rest }, _, _, d, new ++ new', ds ++ rest, CM.bind_error (CM.unwind_error c1 rfl), c3, ?_, ?_, hrt, ?_, ?_, ?_, .inr ⟨it.slice, v, rest, ?_, hd, ?_⟩⟩
          · show s'.root.len = _
            rw [er']
            show s1.root.len + d = _
            rw [er]
          · show Torn _ s'.heap _ _ s'.root _
            rw [er']
            exact b2'.down b3 b4 b5 b6 (hfit.prefix c2) ho c4
          · show s'.made = _
            rw [c5.made]
            show s1.made ++ new' = _
            rw [eb.made, List.append_assoc]
          · show s'.gone ++ rest = _
            rw [c5.gone]
            show s1.gone ++ ds ++ rest = _
            rw [eb.gone, List.append_nil, List.append_assoc]
          · have h1 := eb.left
            have h2 := c5.left
            simp only at h2
            rw [List.length_append]; omega
          · refine ⟨L ++ entsL psl ++ ec, it.ent, it.ents ++ entsR psr ++ R, o, by simpa using a7, ?_, a9, a10, rfl, hrem, ?_⟩
            · have e1 := RepItems.totL a1
              have e2 := a2.size
              simp only [total_append]
              simp at a8; omega
            · simp [Item.ent]
          · have h1 := eb.vals
            have h2 := c5.vals
            simp only [List.append_nil] at h1 h2
            exact perm_chain h2 b8 h1
        · exact .inr (.inr ⟨_, CM.bind_error (CM.unwind_error c1 rfl)⟩)
    · right; left
      refine ⟨{ s' with gone := s'.gone ++ [slice] }, t, es, 0, new, ds ++ [slice], ?_, e1, by show s'.root.len = _; rw [e2]; rfl, e4, hr, e3.made, ?_, ?_, .inl ⟨rfl, rfl, ?_⟩⟩
      · exact CM.bind_error (CM.unwind_error e rfl)
      · show s'.gone ++ [slice] = _
        rw [e3.gone, List.append_assoc]
      · have := e3.left; omega
      · have := e3.vals.append_right [slice]
        simpa [List.append_assoc] using this
    · right; right
      exact ⟨_, CM.bind_error (CM.unwind_error e rfl)⟩

end Sherman.Cow
