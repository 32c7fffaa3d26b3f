import Verif.Iter
import Verif.Cells
/-!
# Walking over a tree: positions of heads, and the steps to the next and the previous one
-/
namespace Sherman
variable {S : Type}

/-- `Within M root ctx n L es Rr`: `n`, below the ancestors `ctx`, is a subtree of `root` that stores `es`;
the rest of `root` stores `L` left of it and `Rr` right of it. -/
def Within (M : Nat) {H : Nat} (root : Tree Nat S H) : {h : Nat} → Ctx Nat S H h → Tree Nat S h → List (Ent S) →
    List (Ent S) → List (Ent S) → Prop
  | _, .top, n, L, es, Rr => n = root ∧ L = [] ∧ Rr = [] ∧ Rep M 1 n es
  | h, .frame ptr size keys kl kr up, n, L, es, Rr =>
    ∃ (psl psr : List (Item S (Tree Nat S h))) (Lu Ru : List (Ent S)),
      plugNode ptr size keys kl n kr = mkG szN ptr psl n (szN n) psr ∧ kl = kidsOf psl ∧
      RepItems M psl ∧ Rep M M n es ∧ RepItems M psr ∧ L = Lu ++ entsL psl ∧ Rr = entsR psr ++ Ru ∧
      Within M root up (plugNode ptr size keys kl n kr) Lu (entsL psl ++ es ++ entsR psr) Ru

/-- Child indices from the root to the subtree. -/
def Ctx.path {H : Nat} : {h : Nat} → Ctx Nat S H h → List Nat
  | _, .top => []
  | _, .frame _ _ _ kl _ up => up.path ++ [kl.length]

theorem Rep.mono {M lo lo' h : Nat} {t : Tree Nat S h} {es : List (Ent S)} (hl : lo' ≤ lo) (hr : Rep M lo t es) :
    Rep M lo' t es := by
  cases h with
  | zero => exact hr
  | succ h =>
    obtain ⟨c, ec, psr, a1, a2, a3, a4, a5, a6⟩ := hr
    exact ⟨c, ec, psr, a1, a2, a3, a4, by omega, a6⟩

theorem Within.rep {M H h : Nat} (hM : 1 ≤ M) {root : Tree Nat S H} {ctx : Ctx Nat S H h} {n : Tree Nat S h}
    {L es Rr : List (Ent S)} (hw : Within M root ctx n L es Rr) : Rep M 1 n es := by
  cases ctx with
  | top => exact hw.2.2.2
  | frame ptr size keys kl kr up =>
    obtain ⟨psl, psr, Lu, Ru, _, _, _, h4, _⟩ := hw
    exact h4.mono hM

theorem Within.root {M H h : Nat} {root : Tree Nat S H} {ctx : Ctx Nat S H h} {n : Tree Nat S h}
    {L es Rr : List (Ent S)} (hw : Within M root ctx n L es Rr) : Rep M 1 root (L ++ es ++ Rr) := by
  induction ctx generalizing L es Rr with
  | top =>
    obtain ⟨rfl, rfl, rfl, h⟩ := hw
    simpa using h
  | frame ptr size keys kl kr up ih =>
    obtain ⟨psl, psr, Lu, Ru, _, _, _, _, _, rfl, rfl, hu⟩ := hw
    have := ih hu
    simpa using this

/-- Going into a child. -/
theorem Within.enter {M H h : Nat} {root : Tree Nat S H} {ctx : Ctx Nat S H (h + 1)} {n : Tree Nat S (h + 1)}
    {L es Rr ec : List (Ent S)} {psl psr : List (Item S (Tree Nat S h))} {c : Tree Nat S h}
    (hw : Within M root ctx n L es Rr) (hn : n = mkG szN (Node.ptr n) psl c (szN c) psr)
    (h1 : RepItems M psl) (h2 : Rep M M c ec) (h3 : RepItems M psr) (he : es = entsL psl ++ ec ++ entsR psr) :
    Within M root (ctx.enter n psl.length) c (L ++ entsL psl) ec (entsR psr ++ Rr) := by
  have hk : n.kids = kidsOf psl ++ c :: kidsOf psr := by rw [hn]; rfl
  have e1 : n.kids.take psl.length = kidsOf psl := by rw [hk]; simp
  have e2 : n.kids.drop (psl.length + 1) = kidsOf psr := by
    rw [hk, show kidsOf psl ++ c :: kidsOf psr = (kidsOf psl ++ [c]) ++ kidsOf psr by simp]
    exact List.drop_left' (by simp)
  have e3 : plugNode n.ptr n.size n.keys (n.kids.take psl.length) c (n.kids.drop (psl.length + 1)) = n := by
    have : ∀ m : Node Nat S (Tree Nat S h), m.kids = kidsOf psl ++ c :: kidsOf psr →
        plugNode m.ptr m.size m.keys (kidsOf psl) c (kidsOf psr) = m := by
      rintro ⟨a, b, d, e⟩ hm
      simp only at hm
      simp [plugNode, hm]
    rw [e1, e2]
    exact this n hk
  refine ⟨psl, psr, L, Rr, ?_, e1, h1, h2, h3, rfl, rfl, ?_⟩
  · rw [e3]; exact hn
  · rw [e3, ← he]; exact hw

/-- `HeadAt M root hd A e B`: the head `hd` is at the run `e`, which has `A` before it and `B` after it. -/
def HeadAt (M : Nat) {H : Nat} (root : Tree Nat S H) (hd : Head Nat S H) (A : List (Ent S)) (e : Ent S)
    (B : List (Ent S)) : Prop :=
  ∃ (L es Rr ec : List (Ent S)) (psl psr : List (Item S (Tree Nat S hd.h))) (it : Item S (Tree Nat S hd.h))
    (c : Tree Nat S hd.h),
    Within M root hd.ctx hd.node L es Rr ∧ hd.node = mkG szN (Node.ptr hd.node) psl c (szN c) (it :: psr) ∧
    RepItems M psl ∧ Rep M M c ec ∧ RepItems M (it :: psr) ∧ es = entsL psl ++ ec ++ entsR (it :: psr) ∧
    psl.length = hd.idx ∧ A = L ++ entsL psl ++ ec ∧ e = it.ent ∧ B = it.ents ++ entsR psr ++ Rr

theorem HeadAt.ents {M H : Nat} {root : Tree Nat S H} {hd : Head Nat S H} {A B : List (Ent S)} {e : Ent S}
    (hh : HeadAt M root hd A e B) : Rep M 1 root (A ++ e :: B) := by
  obtain ⟨L, es, Rr, ec, psl, psr, it, c, hw, _, _, _, _, rfl, _, rfl, rfl, rfl⟩ := hh
  have := hw.root
  simpa using this

theorem HeadAt.sliceSize {MAX M H : Nat} {root : Tree Nat S H} {hd : Head Nat S H} {A B : List (Ent S)} {e : Ent S}
    (hh : HeadAt M root hd A e B) : hd.sliceSize (natIdx MAX) = .ok e.size := by
  obtain ⟨L, es, Rr, ec, psl, psr, it, c, _, hn, _, _, _, _, hi, _, rfl, _⟩ := hh
  unfold Head.sliceSize
  rw [szT_natIdx, ← hi]
  have hk : hd.node.keys = keysL szN 0 psl ++ ⟨tot szN psl + szN c, it.slice, it.ref⟩ ::
      keysR szN (tot szN psl + szN c + it.size + szN it.kid) psr := by rw [hn]; rfl
  have hkid : hd.node.kids = (kidsOf psl ++ [c]) ++ it.kid :: kidsOf psr := by rw [hn]; simp [mkG]
  have hs : hd.node.size = tot szN psl + szN c + it.size + szN it.kid + tot szN psr := by
    rw [hn]; simp [mkG]; omega
  exact sliceSize_at hk (by simp) hkid (by simp) hs rfl

theorem HeadAt.handle {M H : Nat} {root : Tree Nat S H} {hd : Head Nat S H} {A B : List (Ent S)} {e : Ent S}
    (hh : HeadAt M root hd A e B) : ∃ p, Node.handle hd.node hd.idx = .ok ⟨p, e.slice, e.ref⟩ := by
  obtain ⟨L, es, Rr, ec, psl, psr, it, c, _, hn, _, _, _, _, hi, _, rfl, _⟩ := hh
  have hk : hd.node.keys = keysL szN 0 psl ++ ⟨tot szN psl + szN c, it.slice, it.ref⟩ ::
      keysR szN (tot szN psl + szN c + it.size + szN it.kid) psr := by rw [hn]; rfl
  exact ⟨_, handle_at hk (by simp [hi])⟩

theorem HeadAt.entry {M H : Nat} {root : Tree Nat S H} {hd : Head Nat S H} {A B : List (Ent S)} {e : Ent S}
    (hh : HeadAt M root hd A e B) (a b : Nat) :
    hd.entry a b = .ok ⟨a, b, e.slice, hd.node.ptr, hd.idx, e.ref⟩ := by
  obtain ⟨p, hp⟩ := hh.handle
  simp only [Head.entry, hp, R.bind_ok]
  rfl

/-- Building a `HeadAt` at key `k` of a subtree. -/
theorem HeadAt.ofKey {M H h k : Nat} (hM : 1 ≤ M) {root : Tree Nat S H} {ctx : Ctx Nat S H (h + 1)}
    {n : Tree Nat S (h + 1)} {L es Rr : List (Ent S)} (hw : Within M root ctx n L es Rr) (hk : k < Node.len n) :
    ∃ (psl psr : List (Item S (Tree Nat S h))) (it : Item S (Tree Nat S h)) (c : Tree Nat S h) (ec : List (Ent S)),
      psl.length = k ∧ es = entsL psl ++ ec ++ entsR (it :: psr) ∧
      n = mkG szN (Node.ptr n) psl c (szN c) (it :: psr) ∧ RepItems M psl ∧ Rep M M c ec ∧ RepItems M (it :: psr) ∧
      HeadAt M root ⟨h, n, ctx, k⟩ (L ++ entsL psl ++ ec) it.ent (it.ents ++ entsR psr ++ Rr) := by
  obtain ⟨psl, psr, c, ec, hl, hn, h1, h2, h3, h4, _, _⟩ := (hw.rep hM).focus (i := k) (by omega)
  cases psr with
  | nil =>
    have : Node.len n = psl.length := by rw [hn]; simp [Node.len]
    omega
  | cons it psr =>
    exact ⟨psl, psr, it, c, ec, hl, h4, hn, h1, h2, h3, L, es, Rr, ec, psl, psr, it, c, hw, hn, h1, h2, h3, h4, hl,
      rfl, rfl, rfl⟩

theorem Rep.leaf {M : Nat} {t : Tree Nat S 0} {es : List (Ent S)} (h : Rep M M t es) : es = [] := h

/-- The first key of a leaf. -/
theorem leaf_first {M H : Nat} (hM : 1 ≤ M) {root : Tree Nat S H} {ctx : Ctx Nat S H 1} {n : Tree Nat S 1}
    {L es Rr : List (Ent S)} (hw : Within M root ctx n L es Rr) :
    1 ≤ Node.len (C := Tree Nat S 0) n ∧ ∃ e B, es = e :: B ∧ HeadAt M root ⟨0, n, ctx, 0⟩ L e (B ++ Rr) := by
  have h0 : 1 ≤ Node.len (C := Tree Nat S 0) n := by
    obtain ⟨c, ec, psr, hn, _, _, _, h, _⟩ := hw.rep hM
    rw [hn]; simpa [Node.len] using h
  obtain ⟨psl, psr, it, c, ec, hl, he, _, _, hc, _, hh⟩ := HeadAt.ofKey hM hw (k := 0) h0
  obtain rfl : psl = [] := List.length_eq_zero_iff.mp hl
  obtain rfl := hc.leaf
  refine ⟨h0, it.ent, it.ents ++ entsR psr, by simpa using he, ?_⟩
  simpa using hh

theorem firstBelow_spec {M H : Nat} (hM : 1 ≤ M) {root : Tree Nat S H} : ∀ {h : Nat} {ctx : Ctx Nat S H (h + 2)}
    {n : Tree Nat S (h + 2)} {L es Rr ec : List (Ent S)} {psl psr : List (Item S (Tree Nat S (h + 1)))}
    {c : Tree Nat S (h + 1)}, Within M root ctx n L es Rr → n = mkG szN (Node.ptr n) psl c (szN c) psr →
    RepItems M psl → Rep M M c ec → RepItems M psr → es = entsL psl ++ ec ++ entsR psr →
    ∃ hd e B, firstBelow n ctx psl.length = .ok hd ∧ ec = e :: B ∧
      HeadAt M root hd (L ++ entsL psl) e (B ++ (entsR psr ++ Rr)) := by
  intro h
  induction h with
  | zero =>
    intro ctx n L es Rr ec psl psr c hw hn h1 h2 h3 he
    have hch : Node.child n psl.length = .ok c := by
      rw [hn]; exact child_at (KA := kidsOf psl) (KB := kidsOf psr) rfl (by simp)
    have hw' := hw.enter hn h1 h2 h3 he
    obtain ⟨h0, e, B, rfl, hh⟩ := leaf_first hM hw'
    refine ⟨_, e, B, ?_, rfl, hh⟩
    simp only [firstBelow, hch, R.bind_ok, h0, decide_true, check_true]
    rfl
  | succ h ih =>
    intro ctx n L es Rr ec psl psr c hw hn h1 h2 h3 he
    have hch : Node.child n psl.length = .ok c := by
      rw [hn]; exact child_at (KA := kidsOf psl) (KB := kidsOf psr) rfl (by simp)
    have hw' := hw.enter hn h1 h2 h3 he
    obtain ⟨c', ec', psr', hn', hc', hi', he', _, _⟩ := h2
    obtain ⟨hd, e, B, hf, rfl, hh⟩ := ih (psl := []) hw' hn' RepItems.nil hc' hi' (by simpa using he')
    refine ⟨hd, e, B ++ entsR psr', ?_, by simp [he'], ?_⟩
    · simp only [firstBelow, hch, R.bind_ok]
      exact hf
    · simpa using hh

/-- The last key of a leaf. -/
theorem leaf_last {M H : Nat} (hM : 1 ≤ M) {root : Tree Nat S H} {ctx : Ctx Nat S H 1} {n : Tree Nat S 1}
    {L es Rr : List (Ent S)} (hw : Within M root ctx n L es Rr) :
    1 ≤ Node.len (C := Tree Nat S 0) n ∧ ∃ A e, es = A ++ [e] ∧
      HeadAt M root ⟨0, n, ctx, Node.len (C := Tree Nat S 0) n - 1⟩ (L ++ A) e Rr := by
  have h0 : 1 ≤ Node.len (C := Tree Nat S 0) n := by
    obtain ⟨c, ec, psr, hn, _, _, _, h, _⟩ := hw.rep hM
    rw [hn]; simpa [Node.len] using h
  obtain ⟨psl, psr, it, c, ec, hl, he, hn, _, hc, hi, hh⟩ :=
    HeadAt.ofKey hM hw (k := Node.len (C := Tree Nat S 0) n - 1) (by omega)
  have hlen : Node.len (C := Tree Nat S 0) n = psl.length + (psr.length + 1) := by rw [hn]; simp [Node.len]
  obtain rfl : psr = [] := List.length_eq_zero_iff.mp (by omega)
  obtain rfl := hc.leaf
  have hie : it.ents = [] := (RepItems.cons.mp hi).1
  refine ⟨h0, entsL psl, it.ent, by simpa [hie] using he, ?_⟩
  simpa [hie] using hh

theorem lastBelow_spec {M H : Nat} (hM : 1 ≤ M) {root : Tree Nat S H} : ∀ {h : Nat} {ctx : Ctx Nat S H (h + 2)}
    {n : Tree Nat S (h + 2)} {L es Rr ec : List (Ent S)} {psl psr : List (Item S (Tree Nat S (h + 1)))}
    {c : Tree Nat S (h + 1)}, Within M root ctx n L es Rr → n = mkG szN (Node.ptr n) psl c (szN c) psr →
    RepItems M psl → Rep M M c ec → RepItems M psr → es = entsL psl ++ ec ++ entsR psr →
    ∃ hd A e, lastBelow n ctx psl.length = .ok hd ∧ ec = A ++ [e] ∧
      HeadAt M root hd (L ++ entsL psl ++ A) e (entsR psr ++ Rr) := by
  intro h
  induction h with
  | zero =>
    intro ctx n L es Rr ec psl psr c hw hn h1 h2 h3 he
    have hch : Node.child n psl.length = .ok c := by
      rw [hn]; exact child_at (KA := kidsOf psl) (KB := kidsOf psr) rfl (by simp)
    have hw' := hw.enter hn h1 h2 h3 he
    obtain ⟨h0, A, e, rfl, hh⟩ := leaf_last hM hw'
    refine ⟨_, A, e, ?_, rfl, hh⟩
    have h0' : Node.len (C := Tree Nat S 0) c ≠ 0 := by omega
    simp only [lastBelow, hch, R.bind_ok, decide_eq_true h0', check_true, usub_ok h0]
    rfl
  | succ h ih =>
    intro ctx n L es Rr ec psl psr c hw hn h1 h2 h3 he
    have hch : Node.child n psl.length = .ok c := by
      rw [hn]; exact child_at (KA := kidsOf psl) (KB := kidsOf psr) rfl (by simp)
    have hw' := hw.enter hn h1 h2 h3 he
    obtain ⟨psl', psr', c', ec', hl', hn', b1, b2, b3, he', _, _⟩ := h2.focus (i := Node.len c) (Nat.le_refl _)
    have hlen : Node.len c = psl'.length + psr'.length := by rw [hn']; simp [Node.len]
    obtain rfl : psr' = [] := List.length_eq_zero_iff.mp (by omega)
    obtain ⟨hd, A, e, hf, rfl, hh⟩ := ih hw' hn' b1 b2 b3 he'
    refine ⟨hd, entsL psl' ++ A, e, ?_, by simp [he'], ?_⟩
    · simp only [lastBelow, hch, R.bind_ok]
      rw [hl'] at hf
      exact hf
    · simpa using hh

theorem nextAbove_spec {M H : Nat} (hM : 1 ≤ M) {root : Tree Nat S H} {h : Nat} {ctx : Ctx Nat S H h}
    {n : Tree Nat S h} {L es B : List (Ent S)} {e : Ent S} (hw : Within M root ctx n L es (e :: B)) :
    ∃ hd, nextAbove n ctx = .ok hd ∧ HeadAt M root hd (L ++ es) e B := by
  induction ctx generalizing L es B e with
  | top => exact absurd hw.2.2.1 (by simp)
  | frame ptr size keys kl kr up ih =>
    obtain ⟨psl, psr, Lu, Ru, h1, h2, h3, h4, h5, rfl, h7, hu⟩ := hw
    have hlen : Node.len (plugNode ptr size keys kl n kr) = psl.length + psr.length := by rw [h1]; simp [Node.len]
    unfold nextAbove
    cases psr with
    | nil =>
      have hng : ¬ kl.length < Node.len (plugNode ptr size keys kl n kr) := by rw [hlen, h2]; simp
      simp only [if_neg hng]
      simp only [entsR_nil, List.nil_append, List.append_nil] at h7 hu
      rw [← h7] at hu
      obtain ⟨hd, q1, q2⟩ := ih hu
      exact ⟨hd, q1, by simpa using q2⟩
    | cons it psr =>
      have hlt : kl.length < Node.len (plugNode ptr size keys kl n kr) := by rw [hlen, h2]; simp
      simp only [if_pos hlt]
      refine ⟨_, rfl, Lu, entsL psl ++ es ++ entsR (it :: psr), Ru, es, psl, psr, it, n, hu, h1, h3, h4, h5, rfl, by simp [h2],
        by simp, ?_, ?_⟩
      · simp at h7; exact h7.1
      · simp at h7; simpa using h7.2

theorem prevAbove_spec {M H : Nat} (hM : 1 ≤ M) {root : Tree Nat S H} {h : Nat} {ctx : Ctx Nat S H h}
    {n : Tree Nat S h} {A es Rr : List (Ent S)} {e : Ent S} (hw : Within M root ctx n (A ++ [e]) es Rr) :
    ∃ hd, prevAbove n ctx = .ok hd ∧ HeadAt M root hd A e (es ++ Rr) := by
  induction ctx generalizing A es Rr e with
  | top => exact absurd hw.2.1 (by simp)
  | frame ptr size keys kl kr up ih =>
    obtain ⟨psl, psr, Lu, Ru, h1, h2, h3, h4, h5, h6, rfl, hu⟩ := hw
    unfold prevAbove
    rcases List.eq_nil_or_concat psl with rfl | ⟨q, it, rfl⟩
    · have hng : ¬ kl.length ≠ 0 := by rw [h2]; simp
      simp only [if_neg hng]
      simp only [entsL_nil, List.nil_append, List.append_nil] at h6 hu
      rw [← h6] at hu
      obtain ⟨hd, q1, q2⟩ := ih hu
      exact ⟨hd, q1, by simpa using q2⟩
    · rw [List.concat_eq_append] at *
      have hlt : kl.length ≠ 0 := by rw [h2]; simp
      simp only [if_pos hlt]
      have hm := mkG_move szN ptr q it.kid { it with kid := n, ents := es } psr it.ents
      simp only at hm
      rw [RepItems.append, RepItems.cons] at h3
      refine ⟨_, rfl, Lu, entsL (q ++ [it]) ++ es ++ entsR psr, Ru, it.ents, q, psr, { it with kid := n, ents := es }, it.kid,
        hu, ?_, h3.1, h3.2.1, RepItems.cons.mpr ⟨h4, h5⟩, by simp [Item.ent], by simp [h2], ?_, ?_, ?_⟩
      · exact h1.trans hm.symm
      · have h6' : A ++ [e] = (Lu ++ entsL q ++ it.ents) ++ [it.ent] := by rw [h6]; simp
        exact (List.append_inj' h6' rfl).1
      · have h6' : A ++ [e] = (Lu ++ entsL q ++ it.ents) ++ [it.ent] := by rw [h6]; simp
        have := (List.append_inj' h6' rfl).2
        simpa [Item.ent] using this
      · simp

/-- `fwd_step` goes to the next run. -/
theorem HeadAt.succ {M H : Nat} (hM : 1 ≤ M) {root : Tree Nat S H} {hd : Head Nat S H} {A B : List (Ent S)}
    {e e' : Ent S} (hh : HeadAt M root hd A e (e' :: B)) :
    ∃ hd', hd.succ = .ok hd' ∧ HeadAt M root hd' (A ++ [e]) e' B := by
  obtain ⟨h, n, ctx, k⟩ := hd
  obtain ⟨L, es, Rr, ec, psl, psr, it, c, hw, hn, h1, h2, h3, h4, h5, rfl, rfl, hB⟩ := hh
  simp only at h5 hw hn
  rw [RepItems.cons] at h3
  cases h with
  | zero =>
    obtain rfl := h2.leaf
    have hie : it.ents = [] := h3.1
    have hlen : Node.len n = psl.length + (psr.length + 1) := by rw [hn]; simp [Node.len]
    simp only [Head.succ]
    cases psr with
    | nil =>
      rw [if_neg (by simp at hlen; omega)]
      simp only [hie, entsR_nil, List.nil_append, List.append_nil] at hB
      rw [← hB] at hw
      obtain ⟨hd', q1, q2⟩ := nextAbove_spec hM hw
      refine ⟨hd', q1, ?_⟩
      rw [h4] at q2
      simpa [hie] using q2
    | cons it' psr =>
      rw [RepItems.cons] at h3
      rw [if_pos (by simp at hlen; omega)]
      refine ⟨_, rfl, L, es, Rr, it.ents, psl ++ [{ it with kid := c, ents := [] }], psr, it', it.kid, hw, ?_, ?_, h3.1,
        RepItems.cons.mpr h3.2, ?_, by simp [h5], ?_, ?_, ?_⟩
      · rw [← mkG_move]; exact hn
      · exact RepItems.append.mpr ⟨h1, RepItems.cons.mpr ⟨h2, RepItems.nil⟩⟩
      · simp [h4, Item.ent]
      · simp [hie, Item.ent]
      · simp [hie] at hB; exact hB.1
      · simp [hie] at hB; simpa using hB.2
  | succ h =>
    simp only [Head.succ]
    have hn' : n = mkG szN (Node.ptr n) (psl ++ [{ it with kid := c, ents := ec }]) it.kid (szN it.kid) psr := by
      rw [← mkG_move]; exact hn
    obtain ⟨hd', e1, B1, q1, q2, q3⟩ := firstBelow_spec hM hw hn'
      (RepItems.append.mpr ⟨h1, RepItems.cons.mpr ⟨h2, RepItems.nil⟩⟩) h3.1 h3.2 (by simp [h4, Item.ent])
    have hk : (psl ++ [{ it with kid := c, ents := ec }]).length = k + 1 := by simp [h5]
    rw [hk] at q1
    rw [q2] at hB
    simp at hB
    obtain ⟨rfl, rfl⟩ := hB
    refine ⟨hd', q1, ?_⟩
    simpa [Item.ent] using q3

/-- `bkwd_step` goes to the previous run. -/
theorem HeadAt.pred {M H : Nat} (hM : 1 ≤ M) {root : Tree Nat S H} {hd : Head Nat S H} {A B : List (Ent S)}
    {e e' : Ent S} (hh : HeadAt M root hd (A ++ [e']) e B) :
    ∃ hd', hd.pred = .ok hd' ∧ HeadAt M root hd' A e' (e :: B) := by
  obtain ⟨h, n, ctx, k⟩ := hd
  obtain ⟨L, es, Rr, ec, psl, psr, it, c, hw, hn, h1, h2, h3, h4, h5, hA, rfl, rfl⟩ := hh
  simp only at h5 hw hn
  cases h with
  | zero =>
    obtain rfl := h2.leaf
    simp only [Head.pred]
    rcases List.eq_nil_or_concat psl with rfl | ⟨q, it', rfl⟩
    · rw [if_neg (by simp at h5; omega)]
      simp only [entsL_nil, List.append_nil] at hA
      rw [← hA] at hw
      obtain ⟨hd', q1, q2⟩ := prevAbove_spec hM hw
      refine ⟨hd', q1, ?_⟩
      rw [h4] at q2
      simpa using q2
    · rw [List.concat_eq_append] at *
      rw [RepItems.append, RepItems.cons] at h1
      have hie : it'.ents = [] := h1.2.1
      rw [if_pos (by simp at h5; omega)]
      have hm := mkG_move szN (Node.ptr n) q it'.kid { it' with kid := c, ents := [] } (it :: psr) it'.ents
      simp only at hm
      have hA' : A ++ [e'] = (L ++ entsL q) ++ [it'.ent] := by rw [hA]; simp [hie]
      have hA1 := (List.append_inj' hA' rfl).1
      have hA2 := (List.append_inj' hA' rfl).2
      refine ⟨_, rfl, L, es, Rr, it'.ents, q, it :: psr, { it' with kid := c, ents := [] }, it'.kid, hw, ?_, h1.1, h1.2.1,
        RepItems.cons.mpr ⟨h2, h3⟩, ?_, ?_, ?_, ?_, ?_⟩
      · rw [hm]; exact hn
      · simp [h4, Item.ent]
      · simp at h5; simp; omega
      · simp [hie, hA1]
      · simpa [Item.ent] using hA2
      · simp
  | succ h =>
    simp only [Head.pred]
    obtain ⟨hd', A1, e1, q1, q2, q3⟩ := lastBelow_spec hM hw hn h1 h2 h3 h4
    rw [h5] at q1
    have hA' : A ++ [e'] = (L ++ entsL psl ++ A1) ++ [e1] := by rw [hA, q2]; simp
    have hA1 := (List.append_inj' hA' rfl).1
    have hA2 := (List.append_inj' hA' rfl).2
    simp at hA2
    subst hA2
    refine ⟨hd', q1, ?_⟩
    rw [hA1]
    simpa using q3

/-! ## Heads and cells -/

theorem under_path (p : List Nat) (c : Cell S) (i : Nat) :
    ({ c with path := p ++ [i] ++ c.path } : Cell S) = { Cell.under i c with path := p ++ (Cell.under i c).path } := by
  simp [Cell.under]

theorem Within.cells {M H h : Nat} {root : Tree Nat S H} {ctx : Ctx Nat S H h} {n : Tree Nat S h}
    {L es Rr : List (Ent S)} (hw : Within M root ctx n L es Rr) :
    ∃ X Y, cells root = X ++ (cells n).map (fun c => { c with path := ctx.path ++ c.path }) ++ Y ∧
      X.length = L.length := by
  induction ctx generalizing L es Rr with
  | top =>
    obtain ⟨rfl, rfl, rfl, h⟩ := hw
    exact ⟨[], [], by simp [Ctx.path], rfl⟩
  | @frame h ptr size keys kl kr up ih =>
    obtain ⟨psl, psr, Lu, Ru, h1, h2, h3, h4, h5, rfl, rfl, hu⟩ := hw
    obtain ⟨X, Y, hX, hl⟩ := ih hu
    have hc : Sherman.cells (h := h + 1) (plugNode ptr size keys kl n kr) =
        cellsL ptr 0 psl ++ (Sherman.cells n).map (Cell.under psl.length) ++ cellsR ptr psl.length psr := by
      rw [h1]; exact cells_mkG ptr psl psr n (szN n)
    rw [hc] at hX
    refine ⟨X ++ (cellsL ptr 0 psl).map (fun c => { c with path := up.path ++ c.path }),
      (cellsR ptr psl.length psr).map (fun c => { c with path := up.path ++ c.path }) ++ Y, ?_, ?_⟩
    · rw [hX]
      have h6 : kl.length = psl.length := by simp [h2]
      simp [Ctx.path, Cell.under, h6, Function.comp_def]
    · simp [hl, cellsL_length h3]

/-- The place of a head. -/
theorem HeadAt.cell {M H : Nat} {root : Tree Nat S H} {hd : Head Nat S H} {A B : List (Ent S)} {e : Ent S}
    (hh : HeadAt M root hd A e B) :
    (cells root)[A.length]? = some ⟨hd.ctx.path, hd.node.ptr, hd.idx, e.slice, e.ref⟩ := by
  obtain ⟨L, es, Rr, ec, psl, psr, it, c, hw, hn, h1, h2, h3, h4, h5, rfl, rfl, hB⟩ := hh
  obtain ⟨X, Y, hX, hl⟩ := hw.cells
  have l1 := cellsL_length (p := Node.ptr hd.node) (i := 0) h1
  have l2 := cells_length h2
  have hc : cells hd.node = (cellsL (Node.ptr hd.node) 0 psl ++ (cells c).map (Cell.under psl.length)) ++
      (⟨[], Node.ptr hd.node, psl.length, it.slice, it.ref⟩ :: ((cells it.kid).map (Cell.under (psl.length + 1)) ++
        cellsR (Node.ptr hd.node) (psl.length + 1) psr)) := by
    have := cells_mkG (Node.ptr hd.node) psl (it :: psr) c (szN c)
    rw [← hn] at this
    rw [this]; rfl
  rw [hX, hc]
  have hlen : (L ++ entsL psl ++ ec).length = (X ++ (cellsL (Node.ptr hd.node) 0 psl ++
      (cells c).map (Cell.under psl.length)).map
        (fun c => ({ c with path := hd.ctx.path ++ c.path } : Cell S))).length := by
    simp [hl, l1, l2]
  rw [hlen, List.map_append, List.append_assoc, List.append_assoc, ← List.append_assoc X,
    List.getElem?_append_right (Nat.le_refl _)]
  simp [h5, Item.ent]

/-- When addresses are distinct, equal handles are at the same run. -/
theorem HeadAt.same {M H : Nat} {root : Tree Nat S H} {a b : Head Nat S H} {A B A' B' : List (Ent S)} {e e' : Ent S}
    (hd : ((cells root).map (fun c => (c.ptr, c.idx))).Nodup)
    (ha : HeadAt M root a A e B) (hb : HeadAt M root b A' e' B') : a.same b = true ↔ A.length = A'.length := by
  have h1 := ha.cell
  have h2 := hb.cell
  constructor
  · intro h
    simp [Head.same] at h
    have l1 := (List.getElem?_eq_some_iff.mp h1).1
    have l2 := (List.getElem?_eq_some_iff.mp h2).1
    refine (List.getElem_inj (h₀ := by simpa using l1) (h₁ := by simpa using l2) hd).mp ?_
    simp [(List.getElem?_eq_some_iff.mp h1).2, (List.getElem?_eq_some_iff.mp h2).2, h]
  · intro h
    rw [h] at h1
    rw [h1] at h2
    simp at h2
    simp [Head.same, h2]

end Sherman
