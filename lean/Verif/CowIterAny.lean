import Verif.CowIterProps
/-!
# Iteration over trees that share nodes, whatever the stored links: C40, C48

`iter_shared` assumes that no address is used twice.  Here nothing is assumed about how memory came to be: the links that the nodes store may be any,
except that a first or last child must not store, with its own index, the address of a node above its parent.  That is what goes wrong in
`iter_reuse_wrong`, and it cannot be in trees of one or two levels.
-/
namespace Sherman.Cow
variable {S : Type}

/-! ## Specification -/

/-- Memory holds the tree. -/
def InMem {I : Type} (H : Heap I S) : {h : Nat} → Tree I S h → Prop
  | 0, _ => True
  | h + 1, n => readT H (h + 1) (Node.ptr n) = .ok n ∧ (∃ nd, H.mem (Node.ptr n) = some nd ∧ nd.height = h) ∧ ∀ k ∈ Node.kids n, InMem H (h := h) k

/-- Every child stores some link.  The link of a first or last child is not the address of a node above its parent, with the child's index.
`A` are the addresses of the nodes above. -/
def Clear {I : Type} (L : LinkMap) : {h : Nat} → List Nat → Tree I S h → Prop
  | 0, _, _ => True
  | h + 1, A, n =>
      (∀ i k c, (Node.kids n)[i]? = some k → ptrT k = some c → ∃ l, L c = some l ∧ ((i = 0 ∨ i = (Node.keys n).length) → ∀ a ∈ A, l ≠ (a, i))) ∧
      ∀ k ∈ Node.kids n, Clear L (h := h) (Node.ptr n :: A) k

/-- Calls of `next` (`false`) and `next_back` (`true`), each with the memory and the links that it finds. -/
def watchAny {I : Type} (ix : IdxOps I) : MIter I → List (Heap I S × LinkMap × Bool) → R (List (Option (Entry I S)))
  | _, [] => pure []
  | it, (H, L, false) :: calls => do
    let (x, it) ← it.next ix H L
    let xs ← watchAny ix it calls
    pure (x :: xs)
  | it, (H, L, true) :: calls => do
    let (x, it) ← it.nextBack ix H L
    let xs ← watchAny ix it calls
    pure (x :: xs)

/-! ## Proofs -/

theorem fit_iff {I : Type} {H : Heap I S} {L : LinkMap} : ∀ {h : Nat} {A : List Nat} {t : Tree I S h}, Fit H L A t ↔ InMem H t ∧ Clear L A t := by
  intro h
  induction h with
  | zero => intro A t; exact ⟨fun _ => ⟨trivial, trivial⟩, fun _ => trivial⟩
  | succ h ih =>
    intro A t
    constructor
    · rintro ⟨h1, h2, h3, h4⟩
      exact ⟨⟨h1, h2, fun k hk => (ih.1 (h4 k hk)).1⟩, h3, fun k hk => (ih.1 (h4 k hk)).2⟩
    · rintro ⟨⟨h1, h2, h4⟩, h3, h5⟩
      exact ⟨h1, h2, h3, fun k hk => ih.2 ⟨h4 k hk, h5 k hk⟩⟩

theorem kid_addrs {I : Type} {h : Nat} {n : Tree I S (h + 1)} {k : Tree I S h} (hk : k ∈ Node.kids n) {x : Nat} (hx : x ∈ addrs k) : x ∈ addrs n :=
  List.mem_cons_of_mem _ (List.mem_flatMap.2 ⟨k, hk, hx⟩)

theorem ptr_addrs {I : Type} {h : Nat} {k : Tree I S h} {c : Nat} (hc : ptrT k = some c) : c ∈ addrs k := by
  cases h with
  | zero => cases hc
  | succ h => cases hc; exact List.mem_cons_self

theorem Clear.congr {I : Type} {L L' : LinkMap} : ∀ {h : Nat} {A : List Nat} {t : Tree I S h}, Clear L A t → (∀ x ∈ addrs t, L' x = L x) → Clear L' A t := by
  intro h
  induction h with
  | zero => intro A t _ _; trivial
  | succ h ih =>
    intro A t hc he
    refine ⟨fun i k c hk hp => ?_, fun k hk => ih (hc.2 k hk) fun x hx => he x (kid_addrs hk hx)⟩
    obtain ⟨l, h1, h2⟩ := hc.1 i k c hk hp
    exact ⟨l, by rw [he c (kid_addrs (List.mem_of_getElem? hk) (ptr_addrs hp)), h1], h2⟩

theorem watchAny_sim {ix : IdxOps Nat} {L : LinkMap} {h : Nat} {root : Tree Nat S (h + 1)} (calls : List (Heap Nat S × LinkMap × Bool))
    (hc : Clear L [] root) (hcalls : ∀ c ∈ calls, InMem c.1 root ∧ ∀ x ∈ addrs root, c.2.1 x = L x) {it : Iter Nat S} {m : MIter Nat} (hs : Sim L it m)
    (hroot : Rooted (fun {h'} root' => (⟨h', root'⟩ : (h : Nat) × Tree Nat S (h + 1)) = ⟨h, root⟩) it) {xs : List (Option (Entry Nat S))}
    (hx : runIter ix it (calls.map (·.2.2)) = .ok xs) : watchAny ix m calls = .ok xs := by
  induction calls generalizing it m xs with
  | nil => cases hx; rfl
  | cons c calls ih =>
    obtain ⟨H, L', b⟩ := c
    obtain ⟨hm, hl⟩ := hcalls _ List.mem_cons_self
    simp only at hm hl
    have hcl : Clear L' [] root := hc.congr hl
    have hfit : Rooted (Fit H L' []) it := by
      intro st hst
      have := hroot st hst
      cases this
      exact fit_iff.2 ⟨hm, hcl⟩
    have hs' : Sim L' it m := by
      refine hs.congr ?_
      intro st hst
      have := hroot st hst
      cases this
      exact hl
    have back : ∀ {it' : Iter Nat S} {m' : MIter Nat}, Rooted (fun {h'} root' => (⟨h', root'⟩ : (h : Nat) × Tree Nat S (h + 1)) = ⟨h, root⟩) it' →
        Sim L' it' m' → Sim L it' m' := by
      intro it' m' hr' h'
      refine h'.congr ?_
      intro st hst
      have := hr' st hst
      cases this
      exact fun x hx => (hl x hx).symm
    cases b with
    | false =>
      simp only [List.map_cons, runIter, bind_ok_iff] at hx
      obtain ⟨⟨x, it'⟩, h1, ys, h2, hx⟩ := hx
      cases hx
      obtain ⟨m', g1, g2⟩ := next_sim hs' hfit h1
      have hr' := next_rooted hroot h1
      simp only [watchAny, g1, R.bind_ok, ih (fun c hc => hcalls c (List.mem_cons_of_mem _ hc)) (back hr' g2) hr' h2]
      rfl
    | true =>
      simp only [List.map_cons, runIter, bind_ok_iff] at hx
      obtain ⟨⟨x, it'⟩, h1, ys, h2, hx⟩ := hx
      cases hx
      obtain ⟨m', g1, g2⟩ := nextBack_sim hs' hfit h1
      have hr' := nextBack_rooted hroot h1
      simp only [watchAny, g1, R.bind_ok, ih (fun c hc => hcalls c (List.mem_cons_of_mem _ hc)) (back hr' g2) hr' h2]
      rfl

/-- C40, C48: whatever links the nodes of a tree store, as long as no first or last child names a node above its parent: iterating over any valid range
yields the entries of the range in whatever order they are asked for, whatever else changes in memory meanwhile. -/
theorem iter_any_links {MAX : Nat} {E : Env Nat S} (hE : E.ix = natIdx MAX) {t : RleTree Nat S} (ht : Reach MAX E t) (hn : t.addrs.Nodup)
    {r : Root Nat S} (hr : t.root = some r) {L : LinkMap} (hc : Clear L [] r.tree) (cursor : List Nat) {rg : Range.Rng Nat}
    (hv : ValidRange (t.size E) rg) :
    ∃ it, MIter.new E.ix rg (t.size E) cursor (some ⟨r.h, Node.ptr r.tree, r.len⟩) = .ok it ∧
      ∀ calls : List (Heap Nat S × LinkMap × Bool), (∀ c ∈ calls, InMem c.1 r.tree ∧ ∀ x ∈ addrs r.tree, c.2.1 x = L x) →
        watchAny E.ix it calls = .ok (runDeque (expected t rg) (calls.map (·.2.2))) := by
  obtain ⟨it, h1, h2⟩ := iter_deque_reach hE ht (P_nodup hn) cursor hv
  unfold RleTree.iter at h1
  rw [hr] at h1
  obtain ⟨m, g1, g2, g3⟩ := new_sim (L := L) (cr := some ⟨r.h, Node.ptr r.tree, r.len⟩) (fun h => by cases h) (fun rt h => by cases h; exact ⟨_, rfl, rfl, rfl⟩) h1
  refine ⟨m, g1, fun calls hcalls => watchAny_sim calls hc hcalls g2 ?_ (h2 _)⟩
  intro st hst
  obtain ⟨len, hlen⟩ := g3 st hst
  cases hlen
  rfl

/-- Below a root and its children there is no node, so no link can mislead. -/
theorem clear_low {I : Type} {L : LinkMap} {h : Nat} (hh : h ≤ 1) {t : Tree I S (h + 1)} (hl : ∀ k ∈ Node.kids t, ∀ c, ptrT k = some c → L c ≠ none) :
    Clear L [] t := by
  refine ⟨fun i k c hk hp => ?_, fun k hk => ?_⟩
  · cases h1 : L c with
    | none => exact absurd h1 (hl k (List.mem_of_getElem? hk) c hp)
    | some l => exact ⟨l, rfl, fun _ a ha => by cases ha⟩
  · cases h with
    | zero => trivial
    | succ h =>
      obtain rfl : h = 0 := by omega
      exact ⟨fun i k' c hk' hp => (nomatch (show (none : Option Nat) = some c from hp)), fun _ _ => trivial⟩

/-- C40, C48: trees with a root and leaves can be iterated over whatever links the leaves store. -/
theorem iter_two_levels {MAX : Nat} {E : Env Nat S} (hE : E.ix = natIdx MAX) {t : RleTree Nat S} (ht : Reach MAX E t) (hn : t.addrs.Nodup)
    {r : Root Nat S} (hr : t.root = some r) (hh : r.h ≤ 1) {L : LinkMap} (hl : ∀ k ∈ Node.kids r.tree, ∀ c, ptrT k = some c → L c ≠ none)
    (cursor : List Nat) {rg : Range.Rng Nat} (hv : ValidRange (t.size E) rg) :
    ∃ it, MIter.new E.ix rg (t.size E) cursor (some ⟨r.h, Node.ptr r.tree, r.len⟩) = .ok it ∧
      ∀ calls : List (Heap Nat S × LinkMap × Bool), (∀ c ∈ calls, InMem c.1 r.tree ∧ ∀ x ∈ addrs r.tree, c.2.1 x = L x) →
        watchAny E.ix it calls = .ok (runDeque (expected t rg) (calls.map (·.2.2))) :=
  iter_any_links hE ht hn hr (clear_low hh hl) cursor hv

/-! ## Programs -/

/-- After a program, memory holds each tree. -/
theorem inMem_run {MAX imax : Nat} {E : Env Nat S} (hE : E.ix = natIdx MAX) (hM : 1 ≤ E.M) (hM' : E.M ≤ 127) {ops : List (Op Nat S)}
    (hops : ∀ op ∈ ops, op.fits MAX) {s : LSt Nat S} (h : LSt.run E imax LSt.init ops = .ok s) {j : Nat} {t : RleTree Nat S}
    (hv : s.st.view j = .ok t) {r : Root Nat S} (hr : t.root = some r) : InMem s.st.heap r.tree := by
  obtain ⟨⟨ss, hrel⟩, hl⟩ := run_lok hE hM hM' hops h
  exact (fit_iff.1 (fit_root hrel hl.linked hv (len := r.len) hr)).1

/-- C40: a tree of a program can be iterated over whatever links are stored in its nodes, as long as these do not name nodes above the parent. -/
theorem iter_links_replaced {MAX imax : Nat} {E : Env Nat S} (hE : E.ix = natIdx MAX) (hM : 1 ≤ E.M) (hM' : E.M ≤ 127) {ops : List (Op Nat S)}
    (hops : ∀ op ∈ ops, op.fits MAX) {s : LSt Nat S} (h : LSt.run E imax LSt.init ops = .ok s) {j : Nat} {t : RleTree Nat S}
    (hv : s.st.view j = .ok t) {r : Root Nat S} (hr : t.root = some r) {L : LinkMap} (hc : Clear L [] r.tree) (cursor : List Nat)
    {rg : Range.Rng Nat} (hrg : ValidRange (t.size E) rg) :
    ∃ it, (⟨s.st, L⟩ : LSt Nat S).iter E.ix j cursor rg = .ok it ∧
      ∀ calls : List Bool, watchAny E.ix it (calls.map fun b => (s.st.heap, L, b)) = .ok (runDeque (expected t rg) calls) := by
  obtain ⟨⟨ss, hrel⟩, hl⟩ := run_lok hE hM hM' hops h
  obtain ⟨o, ho⟩ := view_tree hv
  have : ∃ es, ss[j]? = some (some es) := by
    by_contra hn
    exact hrel.noTree (fun es he => hn ⟨es, he⟩) o ho
  obtain ⟨es, hes⟩ := this
  obtain ⟨t', hv', hreach, -⟩ := hrel.view j es hes
  rw [hv] at hv'; cases hv'
  obtain ⟨it, h1, h2⟩ := iter_deque_reach hE hreach (P_nodup (hl.nodup j t hv)) cursor hrg
  obtain ⟨m, g1, g2, g3⟩ := iter_sim (s := ⟨s.st, L⟩) hv h1
  refine ⟨m, g1, fun calls => ?_⟩
  have hm := inMem_run hE hM hM' hops h hv hr
  have := watchAny_sim (root := r.tree) (calls.map fun b => (s.st.heap, L, b)) hc (fun c hc => ?_) g2 ?_ (h2 _)
  · rw [this, List.map_map]
    exact congrArg Except.ok (congrArg _ (List.map_id' calls))
  · obtain ⟨b, -, rfl⟩ := List.mem_map.1 hc
    exact ⟨hm, fun _ _ => rfl⟩
  · intro st hst
    obtain ⟨len, hlen⟩ := g3 st hst
    rw [hr] at hlen
    cases hlen
    rfl

/-- Links that name no node of the tree do not mislead. -/
theorem clear_of_foreign {I : Type} {L : LinkMap} : ∀ {h : Nat} {A : List Nat} {t : Tree I S h},
    (∀ x ∈ addrs t, ∃ l, L x = some l ∧ l.1 ∉ A ∧ l.1 ∉ addrs t) → Clear L A t := by
  intro h
  induction h with
  | zero => intro A t _; trivial
  | succ h ih =>
    intro A t hl
    refine ⟨fun i k c hk hp => ?_, fun k hk => ih fun x hx => ?_⟩
    · obtain ⟨l, h1, h2, -⟩ := hl c (kid_addrs (List.mem_of_getElem? hk) (ptr_addrs hp))
      exact ⟨l, h1, fun _ a ha he => h2 (by rw [he]; exact ha)⟩
    · obtain ⟨l, h1, h2, h3⟩ := hl x (kid_addrs hk hx)
      refine ⟨l, h1, ?_, fun h => h3 (kid_addrs hk h)⟩
      rw [List.mem_cons]
      rintro (h | h)
      · exact h3 (by rw [h]; exact List.mem_cons_self)
      · exact h2 h

/-! ## Examples -/

/-- Seven runs in three levels; every node stores the address 999 as its parent's. -/
def foreignRun (a : Nat) (calls : List Bool) : R (Nat × List (Option (Nat × Nat × Char))) := do
  let s ← LSt.run exEnv 1000 LSt.init (reuseProg ++ [reuseLast])
  let r ← s.st.tree 1
  let it ← (⟨s.st, fun _ => some (a, 0)⟩ : LSt Nat Char).iter exEnv.ix 1 [] ⟨.unbounded, .unbounded⟩
  let xs ← watchAny exEnv.ix it (calls.map fun b => (s.st.heap, (fun _ => some (a, 0)), b))
  pure ((r.map (·.h)).getD 0, xs.map (Option.map fun x => (x.start, x.stop, x.slice)))

example : foreignRun 999 [false, false, true, false, false, true, false, false, false] = .ok (2,
    [some (0, 1, 'a'), some (1, 2, 'b'), some (6, 7, 'g'), some (2, 3, 'c'), some (3, 4, 'd'), some (5, 6, 'f'), some (4, 5, 'e'), none, none]) := by
  decide +kernel

/-- The condition on links is needed also for going forward: if every node stores the address of the root, then `d` is yielded twice and `g` never. -/
theorem iter_root_links_wrong : foreignRun 8 [false, false, false, false, false, false, false, false] = .ok (2,
    [some (0, 1, 'a'), some (1, 2, 'b'), some (2, 3, 'c'), some (3, 4, 'd'), some (4, 5, 'e'), some (5, 6, 'd'), some (6, 8, 'f'), none]) := by
  decide +kernel

/-- The condition of `iter_links_replaced` is met there. -/
example : ∃ (s : LSt Nat Char) (t : RleTree Nat Char) (r : Root Nat Char), LSt.run exEnv 1000 LSt.init (reuseProg ++ [reuseLast]) = .ok s ∧
    s.st.view 1 = .ok t ∧ t.root = some r ∧ Clear (fun _ => some (999, 0)) [] r.tree := by
  have h : (LSt.run exEnv 1000 LSt.init (reuseProg ++ [reuseLast]) >>= fun s => s.st.view 1 >>= fun t =>
      pure (t.root.any fun r => decide (999 ∉ addrs r.tree))) = .ok true := by decide +kernel
  simp only [bind_ok_iff] at h
  obtain ⟨s, h1, t, h2, h3⟩ := h
  have h3 := Except.ok.inj h3
  cases hr : t.root with
  | none => rw [hr] at h3; cases h3
  | some r =>
    rw [hr] at h3
    simp only [Option.any_some, decide_eq_true_eq] at h3
    exact ⟨s, t, r, h1, h2, hr, clear_of_foreign fun x _ => ⟨_, rfl, by simp, h3⟩⟩

end Sherman.Cow
