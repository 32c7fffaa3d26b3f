import Verif.Validate
/-!
# `validate` accepts all trees that programs build, and only trees that behave (C42)
-/
namespace Sherman
variable {S : Type}

/-- Well-formed trees respect the sizes of arrays. -/
theorem Rep.fits {M lo h : Nat} {t : Tree Nat S h} {es : List (Ent S)} (hr : Rep M lo t es) : FitsT M t := by
  induction h generalizing lo es with
  | zero => trivial
  | succ h ih =>
    obtain ⟨c, ec, psr, ⟨-, h2, h3⟩, hc, hi, -, -, h4⟩ := rep_node.1 hr
    refine ⟨by rw [h2]; simpa using h4, by rw [h2, h3]; simp [kidsOf], fun d hd => ?_⟩
    rw [h3] at hd
    rcases List.mem_cons.1 hd with rfl | hd
    · exact ih hc
    · obtain ⟨it, h5, rfl⟩ := List.mem_map.1 hd
      exact ih (hi it h5)

theorem Holds.accepts {MAX : Nat} {E : Env Nat S} (hE : E.ix = natIdx MAX) (hM : 1 ≤ E.M) {t : RleTree Nat S} {es : List (Ent S)} (h : Holds E t es)
    {cow : Bool} {L : LinkMap} (hl : LinksOk cow L t) : t.validate E cow L = .ok () :=
  (RleTree.validate_iff hE hM (fun r hr => by
    obtain ⟨-, h2⟩ := h
    rw [hr] at h2
    exact h2.1.fits)).2 ⟨⟨es, h⟩, hl⟩

/-! ## No false alarms -/

namespace Forest

/-- Programs with any number of trees that do not share nodes, as `Run`, with all sizes within the index type. -/
inductive Prog (MAX : Nat) (E : Env Nat S) : Forest Nat S → Prop
  | start (n : Nat) (L : LinkMap) : Prog MAX E ⟨[], n, L⟩
  | newEmpty {st st' : Forest Nat S} : Prog MAX E st → st.newEmpty E = .ok st' → Prog MAX E st'
  | new {st st' : Forest Nat S} {s : S} {size : Nat} : Prog MAX E st → size ≤ MAX → st.new E s size = .ok st' → Prog MAX E st'
  | insert {st st' : Forest Nat S} {i : Nat} {nop : Bool} {hints : List Nat} {idx : Nat} {s : S} {size : Nat} {out : Inserted} :
      Prog MAX E st → size ≤ MAX → st.insert E i nop hints idx s size = .ok (st', out) → Prog MAX E st'
  | relabel {st st' : Forest Nat S} {i : Nat} {f} : Prog MAX E st → st.relabel i f = .ok st' → Prog MAX E st'
  | clone {st st' : Forest Nat S} {i : Nat} : Prog MAX E st → st.clone i = .ok st' → Prog MAX E st'
  | drop {st st' : Forest Nat S} {i : Nat} : Prog MAX E st → st.drop i = .ok st' → Prog MAX E st'

theorem Prog.run {MAX : Nat} {E : Env Nat S} {st : Forest Nat S} (h : Prog MAX E st) : Run E st := by
  induction h with
  | start n L => exact .start n L
  | newEmpty _ h ih => exact .newEmpty ih h
  | new _ _ h ih => exact .new ih h
  | insert _ _ h ih => exact .insert ih h
  | relabel _ h ih => exact .relabel ih h
  | clone _ h ih => exact .clone ih h
  | drop _ h ih => exact .drop ih h

/-- Each tree of a program has a history of its own. -/
theorem Prog.reach {MAX : Nat} {E : Env Nat S} (hM : 1 ≤ E.M) (hM' : E.M ≤ 127) {st : Forest Nat S} (h : Prog MAX E st) :
    ∀ t ∈ st.trees, Reach MAX E t := by
  have hnone : Reach MAX E ⟨none⟩ := .empty (by simp [RleTree.newEmpty, check, hM, hM', Nat.one_le_iff_ne_zero.1 hM])
  have keep : ∀ {l : List (RleTree Nat S)} {t' : RleTree Nat S} {i : Nat}, (∀ t ∈ l, Reach MAX E t) → Reach MAX E t' →
      ∀ t ∈ l.set i t', Reach MAX E t := by
    intro l t' i hl ht t hm
    rcases List.mem_or_eq_of_mem_set hm with hm | rfl
    · exact hl t hm
    · exact ht
  induction h with
  | start n L => intro t ht; simp at ht
  | newEmpty _ h ih =>
    simp only [Forest.newEmpty, bind_ok_iff] at h
    obtain ⟨t, h1, h2⟩ := h
    cases h2
    intro u hu
    rcases List.mem_append.1 hu with hu | hu
    · exact ih u hu
    · cases List.mem_singleton.1 hu
      exact .empty h1
  | new _ hs h ih =>
    simp only [Forest.new, bind_ok_iff] at h
    obtain ⟨⟨t, w⟩, h1, L, h2, h3⟩ := h
    cases h3
    intro u hu
    rcases List.mem_append.1 hu with hu | hu
    · exact ih u hu
    · cases List.mem_singleton.1 hu
      exact .single hs h1
  | insert _ hs h ih =>
    simp only [Forest.insert, bind_ok_iff, tree_ok] at h
    obtain ⟨t, h1, ⟨t', out⟩, h2, L, h3, h4⟩ := h
    cases h4
    exact keep ih (.insert (ih t (List.mem_of_getElem? h1)) hs h2)
  | relabel _ h ih =>
    simp only [Forest.relabel, bind_ok_iff, tree_ok] at h
    obtain ⟨t, h1, h2⟩ := h
    cases h2
    exact keep ih (.relabel _ (ih t (List.mem_of_getElem? h1)))
  | clone _ h ih =>
    simp only [Forest.clone, bind_ok_iff, tree_ok] at h
    obtain ⟨t, h1, L, h3, h4⟩ := h
    cases h4
    intro u hu
    rcases List.mem_append.1 hu with hu | hu
    · exact ih u hu
    · cases List.mem_singleton.1 hu
      exact .alike cloneNodes_alike (.relabel _ (ih t (List.mem_of_getElem? h1)))
  | drop _ h ih =>
    simp only [Forest.drop, bind_ok_iff, tree_ok] at h
    obtain ⟨t, h1, h2⟩ := h
    cases h2
    exact keep ih hnone

end Forest

/-- **C42.** `validate` never panics on a tree that a program has built, whatever insertions, clones and drops there were: in trees without
copy-on-write. -/
theorem validate_accepts {MAX : Nat} {E : Env Nat S} (hE : E.ix = natIdx MAX) (hM : 1 ≤ E.M) (hM' : E.M ≤ 127) {st : Forest Nat S}
    (h : Forest.Prog MAX E st) : ∀ t ∈ st.trees, t.validate E false st.links = .ok () :=
  fun t ht => ((h.reach hM hM' t ht).holds hE).2.1.accepts hE hM (h.run.linked t ht)

namespace Cow

/-- In memory children have links; so they have in every tree that is read from it. -/
theorem hasLinks_of {H : Heap Nat S} {L : LinkMap} {out : Nat → Nat} (hi : Inv H out) (hl : Linked H L) {h p : Nat} {nd : HNode Nat S} (hm : H.mem p = some nd)
    (hh : nd.height = h) {t : Tree Nat S (h + 1)} (ht : readT H (h + 1) p = .ok t) : HasLinksT L t := by
  induction h generalizing p nd with
  | zero =>
    intro c hc
    exact ⟨fun q hq => (by simp [ptrT] at hq), trivial⟩
  | succ h ih =>
    obtain ⟨nd', ks, h1, h2, rfl⟩ := readT_succ.1 ht
    rw [hm] at h1; cases h1
    intro c hc
    obtain ⟨i, hi'⟩ := List.getElem?_of_mem hc
    have hlen := h2.length_eq
    have hlt : i < ks.length := lt_of_get hi'
    have hq : readT H (h + 1) (nd.kids[i]'(by omega)) = .ok c := by
      have := (List.forall₂_iff_get.1 h2).2 i (by omega) hlt
      simp only [List.get_eq_getElem] at this
      rw [this, (List.getElem?_eq_some_iff.1 hi').2]
    have hmem : nd.kids[i]'(by omega) ∈ refsOf (some nd) := by
      simp only [refsOf, hh]
      simp
    obtain ⟨nq, g1, g2⟩ := hi.ht p nd hm _ hmem
    refine ⟨fun q hq' => ?_, ih g1 (by omega) hq⟩
    obtain ⟨nd2, ks2, -, -, rfl⟩ := readT_succ.1 hq
    cases hq'
    obtain ⟨a, b, e, -⟩ := hl p nd hm _ hmem
    simp [e]

/-- **C42.** Likewise with copy-on-write. -/
theorem validate_accepts_shared {MAX imax : Nat} {E : Env Nat S} (hE : E.ix = natIdx MAX) (hM : 1 ≤ E.M) (hM' : E.M ≤ 127)
    {ops : List (Op Nat S)} (hops : ∀ op ∈ ops, op.fits MAX) {s : LSt Nat S} (h : LSt.run E imax LSt.init ops = .ok s) {i : Nat} {t : RleTree Nat S}
    (hv : s.st.view i = .ok t) : t.validate E true s.links = .ok () := by
  obtain ⟨⟨ss, hr⟩, hl⟩ := run_lok hE hM hM' hops h
  obtain ⟨o, ho⟩ := view_tree hv
  have : ∃ es, ss[i]? = some (some es) := by
    by_contra hn
    exact hr.noTree (fun es he => hn ⟨es, he⟩) o ho
  obtain ⟨es, hes⟩ := this
  obtain ⟨t', hv', ht, -⟩ := hr.view i es hes
  rw [hv] at hv'; cases hv'
  refine (ht.holds hE).2.1.accepts hE hM ?_
  show HasLinks s.links t
  intro r hrt
  refine ⟨fun q hq => ?_, ?_⟩
  · have := hl.top i t hv r hrt
    cases hq
    exact this
  · rcases St.view_cases hv with ⟨-, rfl⟩ | ⟨r0, t0, h0, ht0, rfl⟩
    · cases hrt
    · cases hrt
      obtain ⟨nd, h1, h2⟩ := hr.ok.root i r0 h0
      exact hasLinks_of hr.ok.inv hl.linked h1 h2 ht0

end Cow

/-! ## Nothing slips through -/

/-- **C42.** Whatever the tree is and wherever it comes from: if `validate` accepts it, then `len` and `size` are the number and the total size of its runs,
which are all of positive size, and each insertion that returns has done to the runs what the specification says. -/
theorem validate_trusted {MAX : Nat} {E : Env Nat S} (hE : E.ix = natIdx MAX) (hM : 1 ≤ E.M) (hM' : E.M ≤ 127) {t : RleTree Nat S}
    (hf : ∀ r, t.root = some r → FitsT E.M r.tree) {cow : Bool} {L : LinkMap} (h : t.validate E cow L = .ok ()) :
    (∀ e ∈ t.runs, 0 < e.size) ∧ t.numberOfSlices = t.runs.length ∧ t.size E = total t.runs ∧
      (t.size E ≤ MAX → ∀ (nop : Bool) (hints : List Nat) (idx : Nat) (s : S) (size : Nat) (w : World) (t' : RleTree Nat S) (out : Inserted), size ≤ MAX →
        t.insert E nop hints idx s size w = .ok (t', out) → specInsert E.sl t.runs idx s size = .ok t'.runs) := by
  obtain ⟨⟨es, he⟩, -⟩ := (RleTree.validate_iff hE hM hf).1 h
  have hr := he.runs
  subst hr
  refine ⟨he.1, he.len, he.size hE, fun hb nop hints idx s size w t' out hs hi => ?_⟩
  rw [he.size hE] at hb
  obtain ⟨-, -, -, es', h1, h2, -⟩ := insert_returned hE hM hM' he hb hs hi
  rw [h1, h2.runs]

/-! ## Instances -/

/-- `validate` on all trees of a forest. -/
def validateAll {I : Type} (E : Env I S) (cow : Bool) (st : Forest I S) : List (R Unit) := st.trees.map fun t => t.validate E cow st.links

/-- The three-level trees of `exMem`, one of them a clone, are accepted. -/
example : exMem.map (fun st => validateAll exEnv false st) = .ok [.ok (), .ok ()] := by decide +kernel

/-- So are those of a program with copy-on-write, some of whose nodes are shared and have links to places in other trees. -/
example : (∀ op ∈ Cow.exProg, op.fits 255) ∧
    (Cow.LSt.run exEnv 1000 Cow.LSt.init (Cow.exProg.take 12) >>= fun s => do
      let t ← s.st.view 2
      let w ← Cow.wrongIn s 2
      pure (w, t.validate exEnv true s.links)) = .ok ([0, 3], .ok ()) := by
  refine ⟨by simp [Cow.exProg, Cow.Op.fits], by decide +kernel⟩

/-- A leaf with two runs. -/
def exLeaf (p a b : Nat) (size : Nat) : Tree Nat Char 1 := ⟨p, size, [⟨a, 'a', none⟩, ⟨b, 'b', none⟩], [(), (), ()]⟩

/-- A tree of two levels, five runs. -/
def exTwo (l r : Tree Nat Char 1) (k size len : Nat) : RleTree Nat Char :=
  ⟨some ⟨1, (⟨9, size, [⟨k, 'k', none⟩], [l, r]⟩ : Node Nat Char (Tree Nat Char 1)), len⟩⟩

/-- Links of its nodes. -/
def exLinks : LinkMap := fun p => if p = 1 then some (9, 0) else if p = 2 then some (9, 1) else none

/-- It meets the hypotheses and is accepted, -/
example : (∀ r, (exTwo (exLeaf 1 0 3 5) (exLeaf 2 0 1 4) 5 11 5).root = some r → FitsT exEnv.M r.tree) ∧
    (exTwo (exLeaf 1 0 3 5) (exLeaf 2 0 1 4) 5 11 5).validate exEnv false exLinks = .ok () := by
  refine ⟨fun r hr => ?_, by decide +kernel⟩
  cases hr
  refine ⟨by decide, by decide, fun c hc => ?_⟩
  have hc : c = exLeaf 1 0 3 5 ∨ c = exLeaf 2 0 1 4 := by simpa [exTwo] using hc
  rcases hc with rfl | rfl <;> exact ⟨by decide, by decide, fun _ _ => trivial⟩

/-- but not if a leaf does not start at zero, two keys have the same position, a key is not where the child before it ends, a size leaves no room for
the last run, the count is wrong, or a link is wrong or missing. -/
example : [((exTwo (exLeaf 1 1 3 5) (exLeaf 2 0 1 4) 5 11 5).validate exEnv false exLinks).isOk,
    ((exTwo (exLeaf 1 0 0 5) (exLeaf 2 0 1 4) 5 11 5).validate exEnv false exLinks).isOk,
    ((exTwo (exLeaf 1 0 3 5) (exLeaf 2 0 1 4) 6 11 5).validate exEnv false exLinks).isOk,
    ((exTwo (exLeaf 1 0 3 5) (exLeaf 2 0 1 4) 5 9 5).validate exEnv false exLinks).isOk,
    ((exTwo (exLeaf 1 0 3 3) (exLeaf 2 0 1 4) 3 11 5).validate exEnv false exLinks).isOk,
    ((exTwo (exLeaf 1 0 3 5) (exLeaf 2 0 1 4) 5 11 4).validate exEnv false exLinks).isOk,
    ((exTwo (exLeaf 1 0 3 5) (exLeaf 2 0 1 4) 5 11 5).validate exEnv false (exLinks.put 2 (some (9, 0)))).isOk,
    ((exTwo (exLeaf 1 0 3 5) (exLeaf 2 0 1 4) 5 11 5).validate exEnv true (exLinks.put 2 none)).isOk] = List.replicate 8 false := by
  decide +kernel

/-- With copy-on-write a link that names another place is accepted. -/
example : (exTwo (exLeaf 1 0 3 5) (exLeaf 2 0 1 4) 5 11 5).validate exEnv true (exLinks.put 2 (some (7, 0))) = .ok () := by decide +kernel

end Sherman
