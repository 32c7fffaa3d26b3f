import Verif.SearchLemmas
import Verif.NoJoin
/-!
# `find_insertion_point` finds the place
-/
namespace Sherman
variable {S : Type}

/-- Outcome of `findStep`: a child whose closed range contains the target, or a key strictly around it. -/
theorem findStep_spec {M MAX lo h t : Nat} {n : Tree Nat S (h + 1)} {es : List (Ent S)}
    (hr : Rep M lo n es) (hp : Pos es) (ht : t ≤ total es) :
    ∃ (psl psr : List (Item S (Tree Nat S h))) (c : Tree Nat S h) (ec : List (Ent S)),
      n = mkG szN (Node.ptr n) psl c (szN c) psr ∧ RepItems M psl ∧ Rep M M c ec ∧
      RepItems M psr ∧ es = entsL psl ++ ec ++ entsR psr ∧ lo ≤ psl.length + psr.length ∧
      psl.length + psr.length ≤ 2 * M ∧
      (((∀ hint, findStep (natIdx MAX) n hint t = .ok (.child psl.length (tot szN psl))) ∧
          tot szN psl ≤ t ∧ t ≤ tot szN psl + szN c) ∨
        ∃ it psr', psr = it :: psr' ∧
          (∀ hint, findStep (natIdx MAX) n hint t = .ok (.key psl.length (tot szN psl + szN c))) ∧
          tot szN psl + szN c < t ∧ t < tot szN psl + szN c + it.size) := by
  obtain ⟨psl, psr, c, ec, hn, a1, a2, a3, a4, a5, a6, a7, a8⟩ := hr.locate ht
  have hpos : ∀ it ∈ psl, 0 < it.size := by
    have hp' := hp
    rw [a4, Pos.append, Pos.append] at hp'
    exact hp'.1.1.items
  refine ⟨psl, psr, c, ec, hn, a1, a2, a3, a4, a5, a6, ?_⟩
  have hchild : (t < tot szN psl + szN c ∨ (psr = [] ∧ t ≤ tot szN psl + szN c)) →
      (∀ hint, findStep (natIdx MAX) n hint t = .ok (.child psl.length (tot szN psl))) := by
    intro h2 hint
    unfold findStep
    rw [searchStep_hint hr hp ht hint]
    have := fullStep_child (MAX := MAX) (p := Node.ptr n) hpos a7 h2
    rw [← hn] at this
    rw [this]; rfl
  rcases a8 with h2 | ⟨rfl, h2⟩ | ⟨it, psr', rfl, h2, h3⟩
  · exact .inl ⟨hchild (.inl h2), a7, by omega⟩
  · exact .inl ⟨hchild (.inr ⟨rfl, h2⟩), a7, by omega⟩
  · have hf := fullStep_key (MAX := MAX) (p := Node.ptr n) (psr := psr') hpos h2 h3
    rw [← hn] at hf
    by_cases he : tot szN psl + szN c = t
    · left
      refine ⟨?_, a7, by omega⟩
      intro hint
      unfold findStep
      rw [searchStep_hint hr hp ht hint, hf]
      have hcs : Node.childSize (szT (natIdx MAX)) n psl.length = .ok (szN c) := by
        rw [szT_natIdx, hn]
        exact childSize_at (KA := kidsOf psl) rfl (by simp)
      have h4 : szN c ≤ tot szN psl + szN c := by omega
      have h5 : tot szN psl + szN c - szN c = tot szN psl := by omega
      simp only [Sherman.R.bind_ok, natIdx_eq, he, decide_true, if_true, hcs]
      simp only [← he, subR_ok h4, h5, Sherman.R.bind_ok]
      rfl
    · right
      refine ⟨it, psr', rfl, ?_, by omega, h3⟩
      intro hint
      unfold findStep
      rw [searchStep_hint hr hp ht hint, hf]
      simp [he]

/-! ## Handles to adjacent keys -/

/-- No key is left of the subtree. -/
def LhsNone {H : Nat} : {h : Nat} → Ctx Nat S H h → Prop
  | _, .top => True
  | _, .frame _ _ _ kl _ up => kl = [] ∧ LhsNone up

/-- Key `k` of the ancestor `n` levels above is the closest key left of the subtree. -/
def LhsAt {H : Nat} : (n : Nat) → {h : Nat} → Ctx Nat S H h → Nat → Prop
  | _, _, .top, _ => False
  | 0, _, .frame _ _ _ kl _ _, k => kl.length = k + 1
  | n + 1, _, .frame _ _ _ kl _ up, k => kl = [] ∧ LhsAt n up k

/-- No key is right of the subtree. -/
def RhsNone {H : Nat} : {h : Nat} → Ctx Nat S H h → Prop
  | _, .top => True
  | _, .frame _ _ _ _ kr up => kr = [] ∧ RhsNone up

/-- Key `k` of the ancestor `n` levels above is the closest key right of the subtree. -/
def RhsAt {H : Nat} : (n : Nat) → {h : Nat} → Ctx Nat S H h → Nat → Prop
  | _, _, .top, _ => False
  | 0, _, .frame _ _ _ kl kr _, k => kl.length = k ∧ kr ≠ []
  | n + 1, _, .frame _ _ _ _ kr up, k => kr = [] ∧ RhsAt n up k

/-- The handle to the key left of the subtree of height `h - 1`. -/
def LhsH {H h : Nat} (ctx : Ctx Nat S H h) : Option (Nat × Nat) → Prop
  | none => LhsNone ctx
  | some (hh, k) => ∃ n, hh = h + n ∧ LhsAt n ctx k

def RhsH {H h : Nat} (ctx : Ctx Nat S H h) : Option (Nat × Nat) → Prop
  | none => RhsNone ctx
  | some (hh, k) => ∃ n, hh = h + n ∧ RhsAt n ctx k

/-- The handles to the keys left and right of index `i` of a leaf with `len` keys. -/
def LhsLeaf {H : Nat} (ctx : Ctx Nat S H 1) (i : Nat) : Option (Nat × Nat) → Prop
  | none => i = 0 ∧ LhsNone ctx
  | some (0, k) => i = k + 1
  | some (n + 1, k) => i = 0 ∧ LhsAt n ctx k

def RhsLeaf {H : Nat} (ctx : Ctx Nat S H 1) (i len : Nat) : Option (Nat × Nat) → Prop
  | none => i = len ∧ RhsNone ctx
  | some (0, k) => i = k ∧ i < len
  | some (n + 1, k) => i = len ∧ RhsAt n ctx k

/-- What `find_insertion_point` guarantees: the place is where position `pos` of the entries `all` is. -/
def PointOK (E : Env Nat S) (m : Maps Nat) {H : Nat} (all : List (Ent S)) (pos : Nat) : Point Nat S H → Prop
  | .edge leaf ctx i lhs rhs => ∃ p A B L R, leaf = leafOf p (A ++ B) ∧ i = A.length ∧
      ctx.lo E.M ≤ A.length + B.length ∧ A.length + B.length ≤ 2 * E.M ∧
      CtxRep E.M m ctx (total A + total B) L R L ∧ all = L ++ (A ++ B) ++ R ∧ pos = total L + total A ∧
      (E.sl.mayJoin = true → LhsLeaf ctx i lhs ∧ RhsLeaf ctx i (A.length + B.length) rhs)
  | .split h n ctx k o => ∃ (p : Nat) (psl psr : List (Item S (Tree Nat S h))) (it : Item S (Tree Nat S h))
      (c : Tree Nat S h) (ec L R : List (Ent S)),
      n = mkG szN p psl c (szN c) (it :: psr) ∧ k = psl.length ∧ RepItems E.M psl ∧ Rep E.M E.M c ec ∧
      RepItems E.M (it :: psr) ∧ ctx.lo E.M ≤ psl.length + (psr.length + 1) ∧
      psl.length + (psr.length + 1) ≤ 2 * E.M ∧
      CtxRep E.M m ctx (szN (h := h + 1) n) L R L ∧
      all = L ++ (entsL psl ++ ec ++ entsR (it :: psr)) ++ R ∧
      pos = total L + (tot szN psl + szN c) + o ∧ 0 < o ∧ o < it.size

theorem take_drop_kids {α : Type} {KA KB : List α} {c : α} {i : Nat} (h : KA.length = i) :
    (KA ++ c :: KB).take i = KA ∧ (KA ++ c :: KB).drop (i + 1) = KB := by
  subst h
  constructor
  · simp
  · rw [show KA ++ c :: KB = (KA ++ [c]) ++ KB by simp]
    exact List.drop_left' (by simp)

/-- The frame made when going into a child. -/
theorem CtxRep.down {M : Nat} {m : Maps Nat} (hm : m.sizes = false) {H h : Nat} {ctx : Ctx Nat S H (h + 1)}
    {p : Nat} {psl psr : List (Item S (Tree Nat S h))} {c : Tree Nat S h} {L R : List (Ent S)}
    (hctx : CtxRep M m ctx (szN (h := h + 1) (mkG szN p psl c (szN c) psr)) L R L)
    (hl : RepItems M psl) (hr : RepItems M psr) (hlo : ctx.lo M ≤ psl.length + psr.length)
    (hhi : psl.length + psr.length ≤ 2 * M) :
    CtxRep M m (.frame p (mkG szN p psl c (szN c) psr).size (mkG szN p psl c (szN c) psr).keys (kidsOf psl)
      (kidsOf psr) ctx) (szN c) (L ++ entsL psl) (entsR psr ++ R) (L ++ entsL psl) :=
  ⟨psl, psl, psr, L, R, L, rfl, rfl, rfl, rfl, hl, hr,
    by unfold LhsChange; rw [if_neg (by simp [hm])], hlo, hhi, rfl, rfl, rfl, hctx⟩

theorem findPoint_spec {MAX : Nat} {E : Env Nat S} (hE : E.ix = natIdx MAX) {m : Maps Nat} (hm : m.sizes = false)
    {H : Nat} : ∀ {h : Nat} {n : Tree Nat S (h + 1)} {ctx : Ctx Nat S H (h + 1)} {hints : Option (List Nat)}
    {t : Nat} {lhs rhs : Option (Nat × Nat)} {es L R : List (Ent S)},
    Rep E.M (ctx.lo E.M) n es → Pos es → t ≤ total es → CtxRep E.M m ctx (szN n) L R L →
    (E.sl.mayJoin = true → LhsH ctx lhs ∧ RhsH ctx rhs) →
    ∃ pt, findPoint E n ctx hints t lhs rhs = .ok pt ∧ PointOK E m (L ++ es ++ R) (total L + t) pt := by
  intro h
  induction h with
  | zero =>
    intro n ctx hints t lhs rhs es L R hr hp ht hctx hadj
    obtain ⟨psl, psr, c, ec, hn, a1, a2, a3, a4, a5, a6, a7⟩ := findStep_spec (MAX := MAX) hr hp ht
    rcases a7 with ⟨hf, h1, h2⟩ | ⟨it, psr', rfl, hf, h1, h2⟩
    · -- an edge in the leaf
      obtain ⟨hleaf, b1, b2⟩ := hr.eq_leafOf
      have hlen : Node.len n = psl.length + psr.length := by rw [hn]; simp [Node.len]
      have hlen2 : Node.len n = es.length := by rw [hleaf]; exact leafOf_len _ _
      have hes : psl.length ≤ es.length := by omega
      have hAB : es = es.take psl.length ++ es.drop psl.length := (List.take_append_drop _ _).symm
      have hA : (es.take psl.length).length = psl.length := by simp; omega
      have hB : (es.drop psl.length).length = psr.length := by simp; omega
      -- sizes
      have hentsL : ∀ l : List (Item S (Tree Nat S 0)), RepItems E.M l → (entsL l).length = l.length := by
        intro l
        induction l with
        | nil => intro _; rfl
        | cons x l ih =>
          intro hx
          rw [RepItems.cons] at hx
          have hx1 : x.ents = [] := hx.1
          simp [hx1, ih hx.2]
      have hec : ec = [] := a2
      subst hec
      have htake : es.take psl.length = entsL psl := by
        rw [a4, List.append_nil]
        exact List.take_left' (hentsL psl a1)
      have htot : total (es.take psl.length) = tot szN psl := by rw [htake, a1.totL]
      have hc0 : szN c = 0 := rfl
      refine ⟨.edge n ctx psl.length (adjacent E 0 n psl.length lhs rhs).1
        (adjacent E 0 n psl.length lhs rhs).2, ?_, ?_⟩
      · simp only [findPoint, hE, hf, Sherman.R.bind_ok]
        rfl
      · refine ⟨Node.ptr n, es.take psl.length, es.drop psl.length, L, R, ?_, hA.symm, ?_, ?_, ?_, ?_, ?_, ?_⟩
        · rw [← hAB]; exact hleaf
        · rw [hA, hB]; exact a5
        · rw [hA, hB]; exact a6
        · have := hr.size
          have e : total (es.take psl.length) + total (es.drop psl.length) = szN n := by
            rw [this, ← total_append, ← hAB]
          rw [e]; exact hctx
        · rw [← hAB]
        · rw [htot]; omega
        · intro hj
          obtain ⟨c1, c2⟩ := hadj hj
          rw [hA, hB]
          simp only [adjacent, hj, if_true, hlen]
          constructor
          · by_cases hz : 0 < psl.length
            · simp only [hz, if_true, LhsLeaf]; omega
            · simp only [hz, if_false]
              cases lhs with
              | none => exact ⟨by omega, c1⟩
              | some x =>
                obtain ⟨hh, k⟩ := x
                obtain ⟨nn, rfl, c1⟩ := c1
                rw [show 0 + 1 + nn = nn + 1 by omega]
                exact ⟨by omega, c1⟩
          · by_cases hz : psl.length < psl.length + psr.length
            · simp only [hz, if_true, RhsLeaf]; simp
            · simp only [hz, if_false]
              cases rhs with
              | none => exact ⟨by omega, c2⟩
              | some x =>
                obtain ⟨hh, k⟩ := x
                obtain ⟨nn, rfl, c2⟩ := c2
                rw [show 0 + 1 + nn = nn + 1 by omega]
                exact ⟨by omega, c2⟩
    · refine ⟨.split 0 n ctx psl.length (t - (tot szN psl + szN c)), ?_, ?_⟩
      · have hh : Node.handle n psl.length = .ok ⟨tot szN psl + szN c, it.slice, it.ref⟩ := by
          rw [hn]
          exact handle_at (A := keysL szN 0 psl) rfl (by simp)
        have hs : tot szN psl + szN c ≤ t := by omega
        simp only [findPoint, hE, hf, Sherman.R.bind_ok, hh, subL_ok hs]
        rfl
      · refine ⟨Node.ptr n, psl, psr', it, c, ec, L, R, hn, rfl, a1, a2, a3, by simpa using a5,
          by simpa using a6, hctx, by rw [a4], by omega, by omega, by omega⟩
  | succ h ih =>
    intro n ctx hints t lhs rhs es L R hr hp ht hctx hadj
    obtain ⟨psl, psr, c, ec, hn, a1, a2, a3, a4, a5, a6, a7⟩ := findStep_spec (MAX := MAX) hr hp ht
    rcases a7 with ⟨hf, h1, h2⟩ | ⟨it, psr', rfl, hf, h1, h2⟩
    · have hlen : Node.len n = psl.length + psr.length := by rw [hn]; simp [Node.len]
      have hch : Node.child n psl.length = .ok c := by
        rw [hn]; exact child_at (KA := kidsOf psl) rfl (by simp)
      have hkids : n.kids.take psl.length = kidsOf psl ∧ n.kids.drop (psl.length + 1) = kidsOf psr := by
        rw [hn]; exact take_drop_kids (by simp)
      have hctx' : CtxRep E.M m (.frame n.ptr n.size n.keys (kidsOf psl) (kidsOf psr) ctx) (szN c)
          (L ++ entsL psl) (entsR psr ++ R) (L ++ entsL psl) := by
        have := CtxRep.down hm (p := Node.ptr n) (psl := psl) (psr := psr) (c := c) (ctx := ctx) (L := L)
          (R := R) (by rw [← hn]; exact hctx) a1 a3 a5 a6
        rw [← hn] at this
        exact this
      have hpe : Pos ec := by
        rw [a4, Pos.append, Pos.append] at hp; exact hp.1.2
      have hcs := a2.size
      obtain ⟨pt, hpt, hok⟩ := ih (n := c)
        (ctx := .frame n.ptr n.size n.keys (kidsOf psl) (kidsOf psr) ctx)
        (hints := nextHints hints (.child psl.length (tot szN psl))) (t := t - tot szN psl)
        (lhs := (adjacent E (h + 1) n psl.length lhs rhs).1)
        (rhs := (adjacent E (h + 1) n psl.length lhs rhs).2)
        a2 hpe (by omega) hctx' (by
          intro hj
          obtain ⟨c1, c2⟩ := hadj hj
          simp only [adjacent, hj, if_true, hlen]
          constructor
          · by_cases hz : 0 < psl.length
            · simp only [hz, if_true]
              refine ⟨0, by omega, ?_⟩
              simp only [LhsAt, kidsOf_length]; omega
            · simp only [hz, if_false]
              have hnil : kidsOf psl = [] := by
                obtain rfl : psl = [] := List.length_eq_zero_iff.mp (by omega)
                rfl
              cases lhs with
              | none => exact ⟨hnil, c1⟩
              | some x =>
                obtain ⟨hh, k⟩ := x
                obtain ⟨nn, rfl, c1⟩ := c1
                exact ⟨nn + 1, by omega, hnil, c1⟩
          · by_cases hz : psl.length < psl.length + psr.length
            · simp only [hz, if_true]
              refine ⟨0, by omega, by simp, ?_⟩
              intro h0
              have := congrArg List.length h0
              simp at this
              simp [this] at hz
            · simp only [hz, if_false]
              have hnil : kidsOf psr = [] := by
                obtain rfl : psr = [] := List.length_eq_zero_iff.mp (by omega)
                rfl
              cases rhs with
              | none => exact ⟨hnil, c2⟩
              | some x =>
                obtain ⟨hh, k⟩ := x
                obtain ⟨nn, rfl, c2⟩ := c2
                exact ⟨nn + 1, by omega, hnil, c2⟩)
      refine ⟨pt, ?_, ?_⟩
      · simp only [findPoint, hE, hf, Sherman.R.bind_ok, subL_ok h1, hch, hkids.1, hkids.2]
        exact hpt
      · have e1 : L ++ entsL psl ++ ec ++ (entsR psr ++ R) = L ++ es ++ R := by simp [a4]
        have e2 : total (L ++ entsL psl) + (t - tot szN psl) = total L + t := by
          rw [total_append, ← a1.totL]; omega
        rw [e1, e2] at hok
        exact hok
    · refine ⟨.split (h + 1) n ctx psl.length (t - (tot szN psl + szN c)), ?_, ?_⟩
      · have hh : Node.handle n psl.length = .ok ⟨tot szN psl + szN c, it.slice, it.ref⟩ := by
          rw [hn]
          exact handle_at (A := keysL szN 0 psl) rfl (by simp)
        have hs : tot szN psl + szN c ≤ t := by omega
        simp only [findPoint, hE, hf, Sherman.R.bind_ok, hh, subL_ok hs]
        rfl
      · refine ⟨Node.ptr n, psl, psr', it, c, ec, L, R, hn, rfl, a1, a2, a3, by simpa using a5,
          by simpa using a6, hctx, by rw [a4], by omega, by omega, by omega⟩

end Sherman
