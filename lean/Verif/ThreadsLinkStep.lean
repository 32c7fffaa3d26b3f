import Verif.ThreadsLinks
/-!
# Links: the steps of the descent
-/
namespace Sherman.Cow
variable {I S : Type}

/-! ## Links on a way -/

theorem LWay.same {H H' : Heap I S} {L L' : LinkMap} {path : List Nat} {r : Nat} {X : List Nat} (w : Way H path r X) (hw : LWay H L path r)
    (hx : ∀ x ∈ X.dropLast, ∀ nd, H.mem x = some nd → ∃ nd', H'.mem x = some nd' ∧ nd'.kids = nd.kids) (hL : ∀ x ∈ X.tail, L' x = L x) :
    LWay H' L' path r := by
  induction path generalizing r X with
  | nil => trivial
  | cons c path ih =>
    obtain ⟨n, q, X', g1, g2, g3, g4, rfl, g5⟩ := w
    have hne : X' ≠ [] := by rintro rfl; exact absurd g5.head.1 (by simp)
    obtain ⟨n', k1, k2⟩ := hx r (by rw [List.dropLast_cons_of_ne_nil hne]; simp) n g1
    obtain ⟨w1, w2⟩ := hw n q g1 g4
    intro m q' hm hq'
    rw [k1] at hm; cases hm
    rw [k2, g4] at hq'; cases hq'
    refine ⟨by rw [hL q (by simpa using g5.head.1)]; exact w1, ih g5 w2 (fun x hx' => hx x ?_) (fun x hx' => hL x (List.mem_of_mem_tail hx'))⟩
    rw [List.dropLast_cons_of_ne_nil hne]
    exact List.mem_cons_of_mem _ hx'

theorem LWay.further {H : Heap I S} {L : LinkMap} {path : List Nat} {r : Nat} {X : List Nat} (w : Way H path r X) (hw : LWay H L path r)
    {p c q : Nat} {nd : HNode I S} (hl : X.getLast? = some p) (hm : H.mem p = some nd) (hc : nd.kids[c]? = some q) (hq : L q = some (p, c)) :
    LWay H L (path ++ [c]) r := by
  induction path generalizing r X with
  | nil =>
    obtain ⟨rfl, -⟩ := w
    simp only [List.getLast?_singleton, Option.some.injEq] at hl
    subst hl
    intro n' q' h1 h2
    rw [hm] at h1; cases h1
    rw [hc] at h2; cases h2
    exact ⟨hq, trivial⟩
  | cons d path ih =>
    obtain ⟨n, q1, X', g1, g2, g3, g4, rfl, g5⟩ := w
    have hne : X' ≠ [] := by rintro rfl; exact absurd g5.head.1 (by simp)
    rw [List.getLast?_cons_of_ne_nil hne] at hl
    obtain ⟨w1, w2⟩ := hw n q1 g1 g4
    intro n' q' h1 h2
    rw [g1] at h1; cases h1
    rw [g4] at h2; cases h2
    exact ⟨w1, ih g5 w2 hl⟩

/-- Nodes that can be reached have been allocated. -/
theorem rch_lt {H : Heap I S} {out : Nat → Nat} (hi : Inv H out) {p x : Nat} (hp : 0 < out p) (hr : Rch H p x) : x < H.next := by
  cases hr with
  | here =>
    have := hi.cnt p
    cases hm : H.mem p with
    | none => rw [cnt_none hm] at this; omega
    | some nd => exact hi.lt p nd hm
  | next h1 h2 h3 =>
    obtain ⟨nx, g1, -⟩ := hi.ht _ _ h2 _ h3
    exact hi.lt _ _ g1

/-- A thread has come the same way in another memory, if nothing that it can reach is different there. -/
theorem Task.Ok.unique {E : Env I S} {H H' : Heap I S} {out : Nat → Nat} (hi : Inv H out) {t : Task I S} {X X' past past' : List Nat}
    {tree tree' : Tree I S (t.root.h + 1)} (hk : Keeps H H' t.root.p) (a : t.Ok E H X past tree) (b : t.Ok E H' X' past' tree') :
    X' = X ∧ past' = past ∧ tree' = tree := by
  obtain ⟨nr, r1, r2⟩ := a.root
  have h1 : tree' = tree := by have := b.read; rw [hk.read hi r1 r2 a.read] at this; cases this; rfl
  subst h1
  have h2 : past' = past := by
    have := b.way
    rw [a.way] at this
    exact (List.append_cancel_right (Except.ok.inj this)).symm
  subst h2
  refine ⟨?_, rfl, rfl⟩
  cases hn : t.node with
  | none => rw [(a.start hn).2.1, (b.start hn).2.1]
  | some p =>
    have key : ∀ (path : List Nat) (r : Nat) (X X' : List Nat), Rch H t.root.p r → Way H path r X → Way H' path r X' → X' = X := by
      intro path
      induction path with
      | nil => rintro r X X' _ ⟨rfl, -⟩ ⟨rfl, -⟩; rfl
      | cons c path ih =>
        rintro r X X' hr ⟨n, q, Y, g1, g2, g3, g4, rfl, g5⟩ ⟨n', q', Y', k1, k2, k3, k4, rfl, k5⟩
        obtain ⟨m, m1, m2⟩ := hk r n hr g1
        rw [k1] at m1; cases m1
        rw [← m2.2.2.2, g4] at k4; cases k4
        rw [ih q _ _ (.next hr g1 (by simp only [refsOf]; rw [if_neg (by omega)]; exact List.mem_of_getElem? g4)) g5 k5]
    exact key _ _ _ _ .here (a.down p hn).1 (b.down p hn).1

/-! ## Steps -/

/-- The links that a thread relies on. -/
def Task.Lk (E : Env I S) (H : Heap I S) (L : LinkMap) (t : Task I S) : Prop :=
  ∀ X past tree, t.Ok E H X past tree → t.node ≠ none → L t.root.p = none ∧ LWay H L past t.root.p

/-- What a step of an insertion does to links. -/
structure LStepped (E : Env I S) (H : Heap I S) (L : LinkMap) (t : Task I S) (tree : Tree I S (t.root.h + 1)) (oth : Nat → Nat) (H' : Heap I S)
    (L' : LinkMap) (v : Var I S) : Prop where
  simple : Simple H'
  linked : Linked H L → Linked H' L'
  iso : ∀ q, 0 < oth q → ∀ x, Rch H q x → L' x = L x
  dup : (addrs tree).Nodup → ∀ (r : CRoot) tree', (v = .idle (some r) ∨ ∃ t', v = .busy t' ∧ t'.root = r) → readT H' (r.h + 1) r.p = .ok tree' →
    (addrs tree').Nodup
  way : ∀ t', v = .busy t' → t'.Lk E H' L'
  next : H.next ≤ H'.next

variable {E : Env I S} {H : Heap I S} {L : LinkMap} {oth : Nat → Nat} {t : Task I S} {X past : List Nat} {tree : Tree I S (t.root.h + 1)}

theorem alike_way (E : Env I S) {h h' : Nat} {tree : Tree I S (h + 1)} {tree' : Tree I S (h' + 1)} {len len' : Nat}
    (a : RleTree.Alike ⟨some ⟨h, tree, len⟩⟩ ⟨some ⟨h', tree', len'⟩⟩) (hints : List Nat) (idx : I) (slice : S) :
    wayDown E tree hints idx slice = wayDown E tree' hints idx slice := by
  obtain ⟨-, e2, e3⟩ := a
  dsimp only at e2
  subst e2
  exact wayDown_alike e3 _ _

/-- The way down is the same after a step. -/
theorem Stepped.todo {H' : Heap I S} {v : Var I S} (k : Stepped E H t tree oth H' v) (ok : t.Ok E H X past tree) {t' : Task I S} (hv : v = .busy t')
    {X1 past1 : List Nat} {tree1 : Tree I S (t'.root.h + 1)} (ok1 : t'.Ok E H' X1 past1 tree1) : past1 ++ t'.todo = past ++ t.todo := by
  obtain ⟨ha, tree', h1, h2⟩ := k.busy t' hv
  have := ok1.read
  rw [h1] at this; cases this
  have hw := ok1.way
  rw [ha] at hw
  have e := alike_way E h2 t.args.hints t.args.idx t.args.slice
  rw [← e, ok.way] at hw
  exact (Except.ok.inj hw).symm

/-- Counts change, or nodes are freed that the thread does not reach. -/
theorem less_links (hi : Inv H (fun x => (Var.busy t).refs.count x + oth x)) (ok : t.Ok E H X past tree) (hs : Simple H) (hlk : t.Lk E H L)
    {H' : Heap I S} {pc : Pc} (k : Stepped E H t tree oth H' (.busy { t with pc := pc })) (hless : Less H' H) (hn : H'.next = H.next)
    (hk : Keeps H H' t.root.p) : LStepped E H L t tree oth H' L (.busy { t with pc := pc }) := by
  obtain ⟨nr, r1, r2⟩ := ok.root
  have hread := hk.read hi r1 r2 ok.read
  refine ⟨hless.simple hs, fun hl => hless.linked hn hl, fun _ _ _ _ => rfl, fun hd r tree' hv hr => ?_, fun t' hv => ?_, by omega⟩
  · rcases hv with hv | ⟨t', hv, rfl⟩
    · cases hv
    · cases hv
      dsimp only at hr
      rw [hread] at hr; cases hr
      exact hd
  · cases hv
    intro X1 past1 tree1 ok1 hnode
    have hp := k.todo ok rfl ok1
    have hp : past1 = past := List.append_cancel_right hp
    subst hp
    obtain ⟨h1, h2⟩ := hlk X past1 tree ok hnode
    refine ⟨h1, ?_⟩
    cases hnd : t.node with
    | none => exact absurd hnd hnode
    | some p =>
      obtain ⟨w, -, -⟩ := ok.down p hnd
      refine LWay.same w h2 (fun x hx nd hm => ?_) (fun _ _ => rfl)
      obtain ⟨nd', g1, g2⟩ := hk x nd (w.rch x (List.dropLast_subset _ hx)) hm
      exact ⟨nd', g1, g2.2.2.2.symm⟩

theorem giveUp_lessens {H H' : Heap I S} {w : Nat × Nat} {work work' : List (Nat × Nat)} (h : giveUp H (w :: work) = .ok (H', work')) :
    Less H' H ∧ H'.next = H.next := by
  obtain ⟨ht, q⟩ := w
  simp only [giveUp, bind_ok_iff] at h
  obtain ⟨nd, hg, h⟩ := h
  have hm := get_ok.1 hg
  have hfree : Less (H.free q) H := by
    intro x n hx
    simp only [Heap.free] at hx
    split at hx
    · cases hx
    · exact ⟨n, hx, .refl _⟩
  split at h
  · cases ht with
    | zero => cases h; exact ⟨hfree, rfl⟩
    | succ ht => cases h; exact ⟨hfree, rfl⟩
  · simp only [bind_ok_iff] at h
    obtain ⟨c, -, h⟩ := h
    cases h
    refine ⟨fun x n hx => ?_, rfl⟩
    simp only [Heap.put] at hx
    split at hx
    · rename_i e
      subst e
      cases hx
      exact ⟨nd, hm, ⟨rfl, rfl, rfl, rfl⟩⟩
    · exact ⟨n, hx, .refl _⟩

theorem Less.rfl' (H : Heap I S) : Less H H := fun _ n h => ⟨n, h, .refl _⟩

/-- The next node on the way has been found unique: its link is set. -/
theorem advance_links (hi : Inv H (fun x => (Var.busy t).refs.count x + oth x)) (ok : t.Ok E H X past tree) (hs : Simple H) (hlk : t.Lk E H L)
    (hpc : t.pc = .check) {q : Nat} {nd : HNode I S} (ht : t.target H = .ok (some q)) (hm : H.mem q = some nd) (hc : nd.count = 1)
    (k : Stepped E H t tree oth H (.busy (t.advance q .check))) :
    LStepped E H L t tree oth H (L.put q t.linkTo) (.busy (t.advance q .check)) := by
  have hrefs : (Var.busy t).refs = [t.root.p] := by simp [Var.refs, hpc, Pc.refs]
  have hroot : 0 < (fun x => (Var.busy t).refs.count x) t.root.p := by simp [hrefs]
  have hput : ∀ x, x ≠ q → (L.put q t.linkTo) x = L x := fun x hx => by simp [LinkMap.put, hx]
  have hq : (L.put q t.linkTo) q = t.linkTo := by simp [LinkMap.put]
  have dup : (addrs tree).Nodup → ∀ (r : CRoot) tree', ((Var.busy (t.advance q .check) : Var I S) = .idle (some r) ∨
      ∃ t', (Var.busy (t.advance q .check) : Var I S) = .busy t' ∧ t'.root = r) → readT H (r.h + 1) r.p = .ok tree' → (addrs tree').Nodup := by
    intro hd r tree' hv hr
    rcases hv with hv | ⟨t', hv, rfl⟩
    · cases hv
    · cases hv
      have h := ok.read
      dsimp only [Task.advance] at hr
      rw [h] at hr; cases hr
      exact hd
  rcases ok.target hi with ⟨e, -⟩ | ⟨q', nd', g1, g2, g3, g4, g5⟩
  · rw [e] at ht; cases ht
  rw [g1] at ht; cases ht
  rw [hm] at g2; cases g2
  rcases g5 with ⟨e1, e2⟩ | ⟨p, c, todo, np, e1, e2, e3, e4, e5, e6⟩
  · -- the root
    subst e2
    have w : Way H [] t.root.p [t.root.p] := ⟨rfl, nd, hm, hc⟩
    refine ⟨hs, fun hl => hl.step (fun x n h _ => ⟨n, h, rfl⟩) (Nat.le_refl _) (fun y n hy x hx => ?_), fun r hr x hx => hput x ?_, dup, fun t' hv => ?_,
      Nat.le_refl _⟩
    · refine .inr ⟨hput x ?_, y, n, hy, hx, rfl⟩
      rintro rfl
      have c1 := hi.cnt t.root.p
      rw [cnt_some hm, hc] at c1
      have c2 := refsIn_le (hi.lt y n hy) t.root.p
      rw [hy] at c2
      have c3 := List.count_pos_iff.2 hx
      dsimp only at hroot
      omega
    · rintro rfl
      exact w.priv hi hroot hr (by simp) hx
    · cases hv
      intro X1 past1 tree1 ok1 _
      have hp := k.todo ok rfl ok1
      have htodo : (t.advance t.root.p .check).todo = t.todo := by simp [Task.advance, e1]
      rw [htodo, (ok.start e1).1] at hp
      obtain rfl : past1 = [] := List.append_cancel_right hp
      refine ⟨?_, trivial⟩
      show (L.put t.root.p t.linkTo) t.root.p = none
      rw [hq, Task.linkTo, e1]
  · -- a child
    obtain ⟨w, hl, hh⟩ := ok.down p e1
    have hlink : t.linkTo = some (p, c) := by simp only [Task.linkTo, e1, e2]
    have w' := w.further hl e3 e4 e5 hm hc
    have hnd := w'.nodup hi
    have hqX : q ∉ X := fun h => (List.nodup_append.1 hnd).2.2 q h q (by simp) rfl
    have hrX : t.root.p ∈ X := w.head.1
    refine ⟨hs, fun hl' => hl'.step (fun x n h _ => ⟨n, h, rfl⟩) (Nat.le_refl _) (fun y n hy x hx => ?_), fun r hr x hx => hput x ?_, dup, fun t' hv => ?_,
      Nat.le_refl _⟩
    · by_cases hxq : x = q
      · subst hxq
        refine .inl ⟨p, c, by rw [hq, hlink], hi.lt p np e3, fun nq hnq => ?_⟩
        rw [e3] at hnq; cases hnq
        obtain ⟨nx, k1, k2⟩ := hi.ht y n hy x hx
        rw [hm] at k1; cases k1
        omega
      · exact .inr ⟨hput x hxq, y, n, hy, hx, rfl⟩
    · rintro rfl
      exact w'.priv hi hroot hr (by simp) hx
    · cases hv
      intro X1 past1 tree1 ok1 _
      have hp := k.todo ok rfl ok1
      have htodo : (t.advance q .check).todo = todo := by simp [Task.advance, e1, e2]
      have hpath : past ++ t.todo = (past ++ [c]) ++ todo := by rw [e2]; simp
      rw [htodo, hpath] at hp
      obtain rfl : past1 = past ++ [c] := List.append_cancel_right hp
      obtain ⟨l1, l2⟩ := hlk X past tree ok (by rw [e1]; simp)
      refine ⟨?_, ?_⟩
      · show (L.put q t.linkTo) t.root.p = none
        rw [hput _ (fun h => hqX (h ▸ hrX))]; exact l1
      · show LWay H (L.put q t.linkTo) (past ++ [c]) t.root.p
        refine LWay.further w (LWay.same w l2 (fun x _ nd h => ⟨nd, h, rfl⟩) (fun x hx => hput x ?_)) hl e3 e5 (by rw [hq, hlink])
        rintro rfl
        exact hqX (List.mem_of_mem_tail hx)

/-! ## Copies -/

theorem forall₂_flatMap {A B : Type} {rel : Nat → Nat → Prop} {P : A → B → Prop} {f : A → List Nat} {g : B → List Nat} {l : List A} {r : List B}
    (h : List.Forall₂ P l r) (hf : ∀ a b, P a b → List.Forall₂ rel (f a) (g b)) : List.Forall₂ rel (l.flatMap f) (r.flatMap g) := by
  induction h with
  | nil => exact .nil
  | cons h1 h2 ih =>
    rw [List.flatMap_cons, List.flatMap_cons]
    exact List.rel_append (hf _ _ h1) ih

theorem forall₂_compose {A B C D : Type} {P : A → B → Prop} {Q : A → C → Prop} {R' : B → D → Prop} {T : C → D → Prop} {l : List A} {m : List B} {n : List C}
    {o : List D} (h1 : List.Forall₂ P l m) (h2 : List.Forall₂ Q l n) (h3 : List.Forall₂ R' m o) (h : ∀ a b c d, P a b → Q a c → R' b d → T c d) :
    List.Forall₂ T n o := by
  induction h1 generalizing n o with
  | nil => cases h2; cases h3; exact .nil
  | cons a b ih =>
    cases h2 with
    | cons c d =>
      cases h3 with
      | cons e f => exact .cons (h _ _ _ _ a c e) (ih d f)

/-- Trees in two memories with related nodes have related addresses. -/
theorem sim_addrs {H H' : Heap I S} {rel : Nat → Nat → Prop} (hrel : ∀ x x', rel x x' → ∃ n n', H.mem x = some n ∧ H'.mem x' = some n' ∧
      n.height = n'.height ∧ List.Forall₂ rel (refsOf (some n)) (refsOf (some n'))) {out : Nat → Nat} (hi : Inv H out) {h x x' : Nat} {n : HNode I S}
    (hm : H.mem x = some n) (hh : n.height = h) (hx : rel x x') {t t' : Tree I S (h + 1)} (ht : readT H (h + 1) x = .ok t)
    (ht' : readT H' (h + 1) x' = .ok t') : List.Forall₂ rel (addrs t) (addrs t') := by
  induction h generalizing x x' n with
  | zero =>
    obtain ⟨n0, ks, r1, r2, rfl⟩ := readT_succ.1 ht
    obtain ⟨n0', ks', r1', r2', rfl⟩ := readT_succ.1 ht'
    have e : ∀ l : List (Tree I S 0), l.flatMap (addrs (h := 0)) = [] := fun l => by simp [addrs]
    show List.Forall₂ rel (x :: ks.flatMap (addrs (h := 0))) (x' :: ks'.flatMap (addrs (h := 0)))
    rw [e, e]
    exact .cons hx .nil
  | succ h ih =>
    obtain ⟨n0, ks, r1, r2, rfl⟩ := readT_succ.1 ht
    obtain ⟨n0', ks', r1', r2', rfl⟩ := readT_succ.1 ht'
    obtain ⟨a, a', k1, k2, k3, k4⟩ := hrel x x' hx
    obtain rfl : n0 = a := Option.some.inj (r1.symm.trans k1)
    obtain rfl : n0' = a' := Option.some.inj (r1'.symm.trans k2)
    obtain rfl : n0 = n := Option.some.inj (r1.symm.trans hm)
    have f1 : refsOf (some n0) = n0.kids := by simp [refsOf, hh]
    have f2 : refsOf (some n0') = n0'.kids := by simp [refsOf, ← k3, hh]
    rw [f1, f2] at k4
    show List.Forall₂ rel (x :: ks.flatMap (addrs (h := h + 1))) (x' :: ks'.flatMap (addrs (h := h + 1)))
    refine .cons hx ?_
    have hmem : List.Forall₂ (fun q (k : Tree I S (h + 1)) => readT H (h + 1) q = .ok k ∧ q ∈ n0.kids) n0.kids ks :=
      forall₂_of_get r2 (fun j q k hq _ hr => ⟨hr, List.mem_of_getElem? hq⟩)
    have hb : List.Forall₂ (fun (k k' : Tree I S (h + 1)) => List.Forall₂ rel (addrs k) (addrs k')) ks ks' := by
      refine forall₂_compose k4 hmem r2' (fun q q' k k' c1 c2 c3 => ?_)
      obtain ⟨nq, g1, g2⟩ := hi.ht x n0 r1 q (by rw [f1]; exact c2.2)
      exact ih g1 (by omega) c1 c2.1 c3
    exact forall₂_flatMap hb (fun _ _ h => h)

/-- One address is replaced by one that is not among them. -/
theorem nodup_replace {q q' : Nat} {l l' : List Nat} (h : List.Forall₂ (fun a a' => a' = a ∨ (a = q ∧ a' = q')) l l') (hn : l.Nodup) (hq : q' ∉ l) :
    l'.Nodup := by
  induction h with
  | nil => exact List.nodup_nil
  | @cons a a' l l' h1 h2 ih =>
    rw [List.nodup_cons] at hn
    simp only [List.mem_cons, not_or] at hq
    have hsub : ∀ (m m' : List Nat), List.Forall₂ (fun a a' => a' = a ∨ (a = q ∧ a' = q')) m m' → ∀ x ∈ m', x ∈ m ∨ (q ∈ m ∧ x = q') := by
      intro m m' hm
      induction hm with
      | nil => intro x hx; cases hx
      | @cons b b' m m' k1 k2 ih =>
        intro x hx
        rcases List.mem_cons.1 hx with rfl | hx
        · rcases k1 with k1 | ⟨k1, k3⟩
          · exact .inl (by rw [k1]; simp)
          · exact .inr ⟨by rw [k1]; simp, k3⟩
        · rcases ih x hx with h | ⟨h, h'⟩
          · exact .inl (List.mem_cons_of_mem _ h)
          · exact .inr ⟨List.mem_cons_of_mem _ h, h'⟩
    refine List.nodup_cons.2 ⟨fun hx => ?_, ih hn.2 hq.2⟩
    rcases hsub l l' h2 a' hx with h | ⟨h, h'⟩
    · rcases h1 with h1 | ⟨h1, h3⟩
      · rw [h1] at h; exact hn.1 h
      · rw [h3] at h; exact hq.2 h
    · rcases h1 with h1 | ⟨h1, h3⟩
      · exact hq.1 (by rw [← h', h1])
      · rw [h1] at hn; exact hn.1 h

/-- As `copy_alike`, for addresses. -/
theorem copy_addrs {H H' : Heap I S} {out : Nat → Nat} (hi : Inv H out) {q q' : Nat} {nd : HNode I S} (hq : H.mem q = some nd)
    (hq' : ∃ nd', H'.mem q' = some nd' ∧ nd.Same nd')
    (hx : ∀ x n, H.mem x = some n → ∃ n', H'.mem x = some n' ∧ (n.Same n' ∨ (n.height = n'.height ∧
      n.height ≠ 0 ∧ ∃ c : Nat, n.kids[c]? = some q ∧ n'.kids = n.kids.set c q')))
    {x x' h : Nat} {n : HNode I S} (hm : H.mem x = some n) (hh : n.height = h) (hxx : x' = x ∨ (x = q ∧ x' = q')) {t t' : Tree I S (h + 1)}
    (ht : readT H (h + 1) x = .ok t) (ht' : readT H' (h + 1) x' = .ok t') :
    List.Forall₂ (fun a a' => a' = a ∨ (a = q ∧ a' = q')) (addrs t) (addrs t') := by
  refine List.Forall₂.imp (fun a b (h : (b = a ∧ ∃ n, H.mem a = some n) ∨ (a = q ∧ b = q')) => h.imp And.left id)
    (sim_addrs (rel := fun x x' => (x' = x ∧ ∃ n, H.mem x = some n) ∨ (x = q ∧ x' = q')) ?_ hi hm hh ?_ ht ht')
  · have hrefl : ∀ z n, H.mem z = some n → ∀ y ∈ refsOf (some n), (y = y ∧ ∃ n, H.mem y = some n) ∨ (y = q ∧ y = q') := by
      intro z n hz y hy
      obtain ⟨ny, k1, -⟩ := hi.ht z n hz y hy
      exact .inl ⟨rfl, ny, k1⟩
    have hrefl' : ∀ z n, H.mem z = some n →
        List.Forall₂ (fun x x' => (x' = x ∧ ∃ n, H.mem x = some n) ∨ (x = q ∧ x' = q')) (refsOf (some n)) (refsOf (some n)) := fun z n hz =>
      List.forall₂_same.2 (hrefl z n hz)
    intro y y' hy
    rcases hy with ⟨rfl, n, hn⟩ | ⟨rfl, rfl⟩
    · obtain ⟨n', k1, k2 | ⟨k2, k5, c, k6, k7⟩⟩ := hx _ n hn
      · refine ⟨n, n', hn, k1, k2.1, ?_⟩
        rw [← k2.refs]; exact hrefl' _ n hn
      · refine ⟨n, n', hn, k1, k2, ?_⟩
        have f1 : refsOf (some n) = n.kids := by simp [refsOf, k5]
        have f2 : refsOf (some n') = n'.kids := by simp [refsOf, ← k2, k5]
        have := hrefl _ n hn
        rw [f1] at this
        rw [f1, f2, k7]
        exact forall₂_set (rel := fun x x' => (x' = x ∧ ∃ n, H.mem x = some n) ∨ (x = q ∧ x' = q')) k6 (.inr ⟨rfl, rfl⟩) this
    · obtain ⟨n', k1, k2⟩ := hq'
      refine ⟨nd, n', hq, k1, k2.1, ?_⟩
      rw [← k2.refs]; exact hrefl' _ nd hq
  · rcases hxx with h | h
    · exact .inl ⟨h, n, hm⟩
    · exact .inr h

/-- A copy takes the place of a shared node: the link of the copy is set. -/
theorem copy_links {imax : Nat} (hi : Inv H (fun x => (Var.busy t).refs.count x + oth x)) (ok : t.Ok E H X past tree) (hs : Simple H)
    (hlk : t.Lk E H L) {done : List Nat} (hpc : t.pc = .incr done []) {H' : Heap I S} {v : Var I S} (hstep : t.step E imax H = .ok (H', v))
    (k : Stepped E H t tree oth H' v) (k0 : Option (Nat × Nat)) :
    LStepped E H L t tree oth H' ((L.put H.next k0).put H.next t.linkTo) v := by
  obtain ⟨q, nd, h1, h2, h3, h4⟩ := ok.incr _ _ hpc
  obtain ⟨nr, r1, r2⟩ := ok.root
  have hput : ∀ x, x ≠ H.next → ((L.put H.next k0).put H.next t.linkTo) x = L x := fun x hx => by simp [LinkMap.put, hx]
  have hnext : ((L.put H.next k0).put H.next t.linkTo) H.next = t.linkTo := by simp [LinkMap.put]
  generalize ((L.put H.next k0).put H.next t.linkTo) = L' at *
  have hlt : ∀ x n, H.mem x = some n → ∀ y ∈ refsOf (some n), y < H.next := fun x n hx y hy => by
    obtain ⟨ny, g1, -⟩ := hi.ht x n hx y hy
    exact hi.lt y ny g1
  have iso : ∀ q, 0 < oth q → ∀ x, Rch H q x → L' x = L x := fun q hq x hx => hput x (by
    have := rch_lt hi (show 0 < (fun x => (Var.busy t).refs.count x + oth x) q by dsimp only; omega) hx
    omega)
  rcases ok.target hi with ⟨e, -⟩ | ⟨q', nd', g1, g2, g3, g4, g5⟩
  · rw [e] at h1; cases h1
  rw [g1] at h1; cases h1
  rw [h2] at g2; cases g2
  simp only [Task.step, hpc, g1, R.bind_ok, get_ok.2 h2] at hstep
  have hq := hi.lt q nd h2
  have hA : ∀ x, x ≠ H.next → (H.alloc { nd with count := 1 }).1.mem x = H.mem x := fun x hx => by simp [Heap.alloc, hx]
  have hnew : (H.alloc { nd with count := 1 }).1.mem H.next = some { nd with count := 1 } := by simp [Heap.alloc]
  have hA2 : (H.alloc { nd with count := 1 }).2 = H.next := rfl
  have hA3 : (H.alloc { nd with count := 1 }).1.next = H.next + 1 := rfl
  generalize (H.alloc { nd with count := 1 }).1 = A at *
  have ext : ∀ x n, H.mem x = some n → A.mem x = some n := fun x n hx => by rw [hA x (by have := hi.lt x n hx; omega)]; exact hx
  rcases g5 with ⟨e1, e2⟩ | ⟨p, c, todo, np, e1, e2, e3, e4, e5, e6⟩
  · -- the root
    subst e2
    have hins : t.install A H.next = .ok (A, { t with root := { t.root with p := H.next } }) := by
      simp only [Task.install, e1]; rfl
    simp only [hA2, hins, R.bind_ok, R.pure_eq, Except.ok.injEq, Prod.mk.injEq] at hstep
    obtain ⟨rfl, rfl⟩ := hstep
    have cases' : ∀ x n, A.mem x = some n → ∃ x0 n0, H.mem x0 = some n0 ∧ refsOf (some n) = refsOf (some n0) ∧ n.height = n0.height := by
      intro x n hx
      by_cases hxn : x = H.next
      · subst hxn
        rw [hnew] at hx; cases hx
        exact ⟨_, nd, h2, rfl, rfl⟩
      · rw [hA x hxn] at hx
        exact ⟨x, n, hx, rfl, rfl⟩
    refine ⟨fun x n hx => ?_, fun hl => hl.step (fun x n h hx => ⟨n, by rwa [hA x (by omega)] at h, rfl⟩) (by omega) (fun y n hy x hx => ?_), iso,
      fun hd r tree' hv hr => ?_, fun t' hv => ?_, by omega⟩
    · obtain ⟨x0, n0, c1, c2, -⟩ := cases' x n hx
      rw [c2]; exact hs x0 n0 c1
    · obtain ⟨x0, n0, c1, c2, c3⟩ := cases' y n hy
      rw [c2] at hx
      exact .inr ⟨hput x (by have := hlt x0 n0 c1 x hx; omega), x0, n0, c1, hx, c3.symm⟩
    · rcases hv with hv | ⟨t', hv, rfl⟩
      · cases hv
      · cases hv
        refine nodup_replace (copy_addrs hi h2 ⟨_, hnew, ⟨rfl, rfl, rfl, rfl⟩⟩ (fun x n hx => ⟨n, ext x n hx, .inl (.refl _)⟩) r1 r2 (.inr ⟨rfl, rfl⟩)
          ok.read hr) hd (fun hx => ?_)
        have := addrs_live hi r1 r2 ok.read _ hx
        omega
    · cases hv
      intro X1 past1 tree1 ok1 _
      have hp := k.todo ok rfl ok1
      have htodo : (Task.advance { t with root := { t.root with p := H.next } } H.next (.giveUp [(t.h, t.root.p)])).todo = t.todo := by
        simp [Task.advance, e1]
      rw [htodo, (ok.start e1).1] at hp
      obtain rfl : past1 = [] := List.append_cancel_right hp
      refine ⟨?_, trivial⟩
      show L' H.next = none
      rw [hnext, Task.linkTo, e1]
  · -- a child
    have e3' := ext p np e3
    have hne : H.next ≠ p := by have := hi.lt p np e3; omega
    have hins : t.install A H.next = .ok (A.put p { np with kids := np.kids.set c H.next }, t) := by
      simp only [Task.install, e1, e2, get_ok.2 e3', R.bind_ok]; rfl
    simp only [hA2, hins, R.bind_ok, R.pure_eq, Except.ok.injEq, Prod.mk.injEq] at hstep
    obtain ⟨hB, rfl⟩ := hstep
    have hself : H'.mem p = some { np with kids := np.kids.set c H.next } := by
      rw [← hB]; simp [Heap.put]
    have hother : ∀ x, x ≠ p → H'.mem x = A.mem x := fun x hx => by rw [← hB]; simp [Heap.put, hx]
    have hBn : H'.next = H.next + 1 := by rw [← hB]; exact hA3
    have hnew' : H'.mem H.next = some { nd with count := 1 } := by
      rw [hother _ hne]; exact hnew
    have frefs : refsOf (some np) = np.kids := by simp [refsOf, e4]
    have frefs' : refsOf (some { np with kids := np.kids.set c H.next }) = np.kids.set c H.next := by simp [refsOf, e4]
    have hlink : t.linkTo = some (p, c) := by simp only [Task.linkTo, e1, e2]
    have hold : ∀ x n, H.mem x = some n → x ≠ p → H'.mem x = some n := fun x n hx hxp => by rw [hother x hxp]; exact ext x n hx
    have cases' : ∀ y n, H'.mem y = some n → ∀ x ∈ refsOf (some n), (x = H.next ∧ n.height = np.height) ∨
        (x ≠ H.next ∧ ∃ y0 n0, H.mem y0 = some n0 ∧ x ∈ refsOf (some n0) ∧ n0.height = n.height) := by
      intro y n hy x hx
      by_cases hyp : y = p
      · subst hyp
        rw [hself] at hy; cases hy
        rw [frefs'] at hx
        rcases List.mem_or_eq_of_mem_set hx with h | h
        · exact .inr ⟨by have := hlt y np e3 x (by rw [frefs]; exact h); omega, y, np, e3, by rw [frefs]; exact h, rfl⟩
        · exact .inl ⟨h, rfl⟩
      · rw [hother y hyp] at hy
        by_cases hyn : y = H.next
        · subst hyn
          rw [hnew] at hy; cases hy
          exact .inr ⟨by have := hlt q nd h2 x hx; omega, q, nd, h2, hx, rfl⟩
        · rw [hA y hyn] at hy
          exact .inr ⟨by have := hlt y n hy x hx; omega, y, n, hy, hx, rfl⟩
    refine ⟨fun x n hx => ?_, fun hl => hl.step (fun x n h hxl => ?_) (by omega) (fun y n hy x hx => ?_), iso,
      fun hd r tree' hv hr => ?_, fun t' hv => ?_, by omega⟩
    · by_cases hxp : x = p
      · subst hxp
        rw [hself] at hx; cases hx
        rw [frefs']
        refine nodup_set (by have := hs x np e3; rwa [frefs] at this) (.inl (fun h => ?_))
        have := hlt x np e3 _ (by rw [frefs]; exact h)
        omega
      · rw [hother x hxp] at hx
        by_cases hxn : x = H.next
        · subst hxn
          rw [hnew] at hx; cases hx
          exact hs q nd h2
        · rw [hA x hxn] at hx
          exact hs x n hx
    · by_cases hxp : x = p
      · subst hxp
        rw [hself] at h; cases h
        exact ⟨_, e3, rfl⟩
      · rw [hother x hxp, hA x (by omega)] at h
        exact ⟨n, h, rfl⟩
    · rcases cases' y n hy x hx with ⟨rfl, hn⟩ | ⟨hxn, y0, n0, c1, c2, c3⟩
      · refine .inl ⟨p, c, by rw [hnext, hlink], by have := hi.lt p np e3; omega, fun nq hnq => ?_⟩
        rw [hself] at hnq; cases hnq
        exact hn.symm
      · exact .inr ⟨hput x hxn, y0, n0, c1, c2, c3⟩
    · rcases hv with hv | ⟨t', hv, rfl⟩
      · cases hv
      · cases hv
        refine nodup_replace (copy_addrs hi h2 ⟨_, hnew', ⟨rfl, rfl, rfl, rfl⟩⟩ (fun x n hx => ?_) r1 r2 (.inl rfl) ok.read hr) hd (fun hx => ?_)
        · by_cases hxp : x = p
          · subst hxp
            rw [e3] at hx; cases hx
            exact ⟨_, hself, .inr ⟨rfl, e4, c, e5, rfl⟩⟩
          · exact ⟨n, hold x n hx hxp, .inl (.refl _)⟩
        · have := addrs_live hi r1 r2 ok.read _ hx
          omega
    · cases hv
      intro X1 past1 tree1 ok1 _
      have hp := k.todo ok rfl ok1
      have htodo : (Task.advance t H.next (.giveUp [(t.h, q)])).todo = todo := by simp [Task.advance, e1, e2]
      have hpath : past ++ t.todo = (past ++ [c]) ++ todo := by rw [e2]; simp
      rw [htodo, hpath] at hp
      obtain rfl : past1 = past ++ [c] := List.append_cancel_right hp
      obtain ⟨l1, l2⟩ := hlk X past tree ok (by rw [e1]; simp)
      obtain ⟨w, hl, hh⟩ := ok.down p e1
      have hXlt : ∀ x ∈ X, x ≠ H.next := fun x hx => by
        obtain ⟨n, m1, -⟩ := w.one x hx
        have := hi.lt x n m1
        omega
      have hnpc : np.count = 1 := by
        obtain ⟨n, m1, m2⟩ := w.one p (List.mem_of_getLast? hl)
        rw [e3] at m1; cases m1; exact m2
      have w' : Way H' past t.root.p X := w.set_last hi hl e3 (fun x hx hxp => by
        obtain ⟨n, m1, -⟩ := w.one x hx
        rw [hold x n m1 hxp, m1]) hself hnpc
      have hnd := w.nodup hi
      refine ⟨?_, ?_⟩
      · show L' t.root.p = none
        rw [hput _ (hXlt _ w.head.1)]; exact l1
      · show LWay H' L' (past ++ [c]) t.root.p
        refine LWay.further w' (LWay.same w l2 (fun x hx n hm => ⟨n, hold x n hm ?_, rfl⟩) (fun x hx => hput x (hXlt x (List.mem_of_mem_tail hx)))) hl hself
          (List.getElem?_set_self (lt_of_get e5)) (by rw [hnext, hlink])
        rintro rfl
        have hXne : X ≠ [] := List.ne_nil_of_mem w.head.1
        rw [← List.dropLast_append_getLast hXne] at hnd
        rw [List.getLast?_eq_some_getLast hXne] at hl
        cases hl
        exact (List.nodup_append.1 hnd).2.2 _ hx _ (by simp) rfl

end Sherman.Cow
