import Verif.ThreadsTask
/-!
# A step of an insertion, continued: a copy takes the place of a node; the end
-/
namespace Sherman.Cow
variable {I S : Type} {E : Env I S} {imax : Nat} {H : Heap I S} {oth : Nat → Nat} {t : Task I S} {X past : List Nat}
  {tree : Tree I S (t.root.h + 1)}

theorem ite_beq (a x : Nat) : (if (a == x) = true then 1 else 0) = if x = a then 1 else 0 := by
  by_cases h : x = a
  · subst h; simp
  · simp [h, Ne.symm h]

/-- The copy is allocated, and `*ptr` overwritten. -/
theorem step_copy (hi : Inv H (fun x => (Var.busy t).refs.count x + oth x)) (ok : t.Ok E H X past tree) {done : List Nat}
    (hpc : t.pc = .incr done []) : ∃ H' v, t.step E imax H = .ok (H', v) ∧ Stepped E H t tree oth H' v := by
  obtain ⟨q, nd, h1, h2, h3, h4⟩ := ok.incr _ _ hpc
  rw [List.append_nil] at h4
  obtain ⟨nr, r1, r2⟩ := ok.root
  rcases ok.target hi with ⟨e, -⟩ | ⟨q', nd', g1, g2, g3, g4, g5⟩
  · rw [e] at h1; cases h1
  rw [g1] at h1; cases h1
  rw [h2] at g2; cases g2
  simp only [Task.step, hpc, g1, R.bind_ok, get_ok.2 h2]
  have hq := hi.lt q nd h2
  -- the copy
  obtain ⟨i1, ext, hnew⟩ := alloc_inv (out' := fun x => [t.root.p, H.next].count x + oth x) (nd := { nd with count := 1 }) hi rfl
    (fun y hy => hi.ht q nd h2 y hy) (fun h0 y hy => hi.leaf q nd h2 h0 y hy) (fun x => by
      have hr : refsOf (some { nd with count := 1 }) = done := h4
      rw [hr]
      simp only [Var.refs, hpc, Pc.refs, List.count_cons, List.count_nil]
      by_cases hx : x = H.next
      · subst hx; simp; omega
      · simp [hx, Ne.symm hx]; omega)
  generalize hA : (H.alloc { nd with count := 1 }).1 = A at *
  have hA2 : (H.alloc { nd with count := 1 }).2 = H.next := rfl
  rcases g5 with ⟨e1, e2⟩ | ⟨p, c, todo, np, e1, e2, e3, e4, e5, e6⟩
  · -- the root
    subst e2
    have hins : t.install A H.next = .ok (A, { t with root := { t.root with p := H.next } }) := by
      simp only [Task.install, e1]; rfl
    simp only [hA, hA2, hins, R.bind_ok, R.pure_eq]
    obtain ⟨tree', k1, k2⟩ := copy_alike (H' := A) hi h2 ⟨_, hnew, ⟨rfl, rfl, rfl, rfl⟩⟩ (fun x n hx => ⟨n, ext x n hx, .inl (.refl _)⟩) r1 r2
      (.inr ⟨rfl, rfl⟩) ok.read
    obtain ⟨s1, s2, s3⟩ := ok.start e1
    have ok1 : Task.Ok E A { t with root := { t.root with p := H.next }, pc := .check } X past tree' := by
      refine ⟨⟨_, hnew, ?_⟩, k1, ?_, ok.fits.alike k2, ok.start, fun p hp => ?_, fun d td h => by (cases h), fun w h => by (cases h)⟩
      · rw [r1] at h2; cases h2; exact r2
      · rw [← wayDown_alike k2]; exact ok.way
      · simp only [e1] at hp; cases hp
    have htar : Task.target A { t with root := { t.root with p := H.next }, pc := .check } = .ok (some H.next) := by
      simp only [Task.target, e1]; rfl
    obtain ⟨X', past', ok2⟩ := ok1.advance i1 htar hnew rfl (pc := .giveUp [(t.h, t.root.p)]) (fun _ _ h => by (cases h)) (fun w h => by
      cases h
      intro e he
      simp only [List.mem_singleton] at he
      subst he
      exact ⟨nd, ext _ _ h2, h3⟩)
    refine ⟨_, _, rfl, ?_, ⟨X', past', tree', ok2⟩, ?_, ?_, fun o h => by (cases h), fun w h => by (cases h)⟩
    · have e0 : (fun x => [t.root.p, H.next].count x + oth x) = fun x => [H.next, t.root.p].count x + oth x := by
        funext x
        simp only [List.count_cons, List.count_nil]; omega
      rw [e0] at i1
      exact i1
    · intro x n hx
      exact .inl (ext x n hx)
    · intro t' e
      cases e
      exact ⟨rfl, tree', k1, rfl, rfl, k2⟩
  · -- a child
    have e3' := ext p np e3
    have hne : H.next ≠ p := by have := hi.lt p np e3; omega
    have hins : t.install A H.next = .ok (A.put p { np with kids := np.kids.set c H.next }, t) := by
      simp only [Task.install, e1, e2, get_ok.2 e3', R.bind_ok]; rfl
    simp only [hA, hA2, hins, R.bind_ok, R.pure_eq]
    have i2 : Inv (A.put p { np with kids := np.kids.set c H.next }) (fun x => [t.root.p, q].count x + oth x) := by
      refine put_kid i1 e3' e4 e5 hnew e6 (fun x => ?_)
      simp only [List.count_cons, List.count_nil, ite_beq]
      omega
    have hself : (A.put p { np with kids := np.kids.set c H.next }).mem p = some { np with kids := np.kids.set c H.next } := by
      simp [Heap.put]
    have hother : ∀ x, x ≠ p → (A.put p { np with kids := np.kids.set c H.next }).mem x = A.mem x := fun x hx => by simp [Heap.put, hx]
    have hnew' : (A.put p { np with kids := np.kids.set c H.next }).mem H.next = some { nd with count := 1 } := by
      rw [hother _ hne]; exact hnew
    generalize hB : A.put p { np with kids := np.kids.set c H.next } = B at *
    obtain ⟨tree', k1, k2⟩ := copy_alike (H' := B) hi h2 ⟨_, hnew', ⟨rfl, rfl, rfl, rfl⟩⟩ (fun x n hx => by
      by_cases hxp : x = p
      · subst hxp
        rw [e3] at hx; cases hx
        exact ⟨_, hself, .inr ⟨rfl, rfl, rfl, e4, c, e5, rfl⟩⟩
      · exact ⟨n, by rw [hother x hxp]; exact ext x n hx, .inl (.refl _)⟩) r1 r2 (.inl rfl) ok.read
    obtain ⟨w, hl, hh⟩ := ok.down p e1
    have hnpc : np.count = 1 := by
      obtain ⟨n, m1, m2⟩ := w.one p (List.mem_of_getLast? hl)
      rw [e3] at m1; cases m1; exact m2
    have w' : Way B past t.root.p X := w.set_last hi hl e3 (fun x hx hxp => by
      obtain ⟨n, m1, -⟩ := w.one x hx
      rw [hother x hxp, ext x n m1, m1]) hself hnpc
    have ok1 : Task.Ok E B { t with pc := .check } X past tree' := by
      refine ⟨?_, k1, ?_, ok.fits.alike k2, ok.start, fun p' hp => ?_, fun d td h => by (cases h), fun w h => by (cases h)⟩
      · by_cases hrp : t.root.p = p
        · refine ⟨_, by rw [hrp]; exact hself, ?_⟩
          rw [hrp] at r1
          rw [r1] at e3; cases e3
          exact r2
        · exact ⟨nr, by rw [hother _ hrp]; exact ext _ _ r1, r2⟩
      · rw [← wayDown_alike k2]; exact ok.way
      · simp only [e1] at hp; cases hp
        refine ⟨w', hl, fun n hn => ?_⟩
        rw [hself] at hn; cases hn
        exact hh np e3
    have hck : (np.kids.set c H.next)[c]? = some H.next := List.getElem?_set_self (lt_of_get e5)
    have htar : Task.target B { t with pc := .check } = .ok (some H.next) := by
      simp only [Task.target, e1, e2, get_ok.2 hself, R.bind_ok, hck]; rfl
    have hqp : q ≠ p := by
      rintro rfl
      rw [h2] at e3; cases e3; omega
    obtain ⟨X', past', ok2⟩ := ok1.advance i2 htar hnew' rfl (pc := .giveUp [(t.h, q)]) (fun _ _ h => by (cases h)) (fun w h => by
      cases h
      intro e he
      simp only [List.mem_singleton] at he
      subst he
      exact ⟨nd, by rw [hother _ hqp]; exact ext _ _ h2, h3⟩)
    refine ⟨_, _, rfl, i2, ⟨X', past', tree', ok2⟩, ?_, ?_, fun o h => by (cases h), fun w h => by (cases h)⟩
    · intro x n hx
      by_cases hxp : x = p
      · subst hxp
        have hroot : 0 < (fun x => (Var.busy t).refs.count x) t.root.p := by simp [Var.refs]
        exact .inr ⟨⟨t.root.p, hroot, w.rch x (List.mem_of_getLast? hl)⟩, .inr (fun r hr => w.priv hi hroot hr (List.mem_of_getLast? hl))⟩
      · exact .inl (by rw [hother x hxp]; exact ext x n hx)
    · intro t' e
      cases e
      exact ⟨rfl, tree', k1, rfl, rfl, k2⟩

/-- The rest of an insertion. -/
theorem step_finish (hi : Inv H (fun x => (Var.busy t).refs.count x + oth x)) (ok : t.Ok E H X past tree) (hpc : t.pc = .check)
    (ht : t.target H = .ok none) {p : Nat} (hp : t.node = some p) (htodo : t.todo = []) :
    (∃ H' v, t.step E imax H = .ok (H', v) ∧ Stepped E H t tree oth H' v) ∨
    ∃ f w, t.step E imax H = .error f ∧
      RleTree.insert E ⟨some ⟨t.root.h, tree, t.root.len⟩⟩ t.args.nop t.args.hints t.args.idx t.args.slice t.args.size w = .error f := by
  simp only [Task.step, hpc, ht, R.bind_ok, Task.finish, ok.read]
  cases hr : RleTree.insert E ⟨some ⟨t.root.h, tree, t.root.len⟩⟩ t.args.nop t.args.hints t.args.idx t.args.slice t.args.size
      ⟨H.next, [], [], none, []⟩ with
  | error f => exact .inr ⟨f, _, rfl, hr⟩
  | ok res =>
    left
    obtain ⟨t2, o⟩ := res
    obtain ⟨nr, r1, r2⟩ := ok.root
    obtain ⟨w, hl, hh⟩ := ok.down p hp
    have hroot : 0 < (fun x => (Var.busy t).refs.count x) t.root.p := by simp [Var.refs]
    have hway := ok.way
    rw [htodo, List.append_nil] at hway
    obtain ⟨r', e1, k1, k2, k3, k4, -⟩ := insert_write hi w r1 r2 (Nat.lt_of_lt_of_le hroot (Nat.le_add_right _ _)) ok.read hr hway
    subst e1
    simp only [R.bind_ok, R.pure_eq]
    have hrefs : (Var.busy t).refs = [t.root.p] := by simp [Var.refs, hpc, Pc.refs]
    refine ⟨_, _, rfl, k2 _ (fun x => ?_), k3, ?_, fun t' e => by (cases e), fun o h => ?_, fun w h => by (cases h)⟩
    · rw [hrefs]
      simp only [Var.refs, List.count_cons, List.count_nil, ite_beq]
      omega
    · intro x n hx
      by_cases hX : x ∈ X
      · exact .inr ⟨⟨t.root.p, hroot, w.rch x hX⟩, .inr (fun r hr => w.priv hi hroot hr hX)⟩
      · left
        rw [k4]
        · exact hx
        · have := hi.lt x n hx
          rintro (h | h)
          · exact hX h
          · omega
    · cases h
      exact ⟨_, r'.tree, _, _, rfl, k1, hr⟩

/-- Every step of an insertion. -/
theorem task_step (hi : Inv H (fun x => (Var.busy t).refs.count x + oth x)) (ok : t.Ok E H X past tree) :
    (∃ H' v, t.step E imax H = .ok (H', v) ∧ Stepped E H t tree oth H' v) ∨
    (t.step E imax H = .error tooMany ∧ ∃ x n, H.mem x = some n ∧ imax < n.count) ∨
    ∃ f w, t.step E imax H = .error f ∧
      RleTree.insert E ⟨some ⟨t.root.h, tree, t.root.len⟩⟩ t.args.nop t.args.hints t.args.idx t.args.slice t.args.size w = .error f := by
  cases hpc : t.pc with
  | check =>
    rcases ok.target hi with ⟨e, ⟨p, hp⟩, htodo⟩ | ⟨q', nd', g1, g2, g3, g4, g5⟩
    · rcases step_finish (imax := imax) hi ok hpc e hp htodo with h | h
      · exact .inl h
      · exact .inr (.inr h)
    · obtain ⟨v, h⟩ := step_check (imax := imax) hi ok hpc g1 g2 g3
      exact .inl ⟨H, v, h⟩
  | incr done todo =>
    cases todo with
    | nil => exact .inl (step_copy hi ok hpc)
    | cons a todo =>
      rcases step_incr (imax := imax) hi ok hpc with h | h
      · exact .inl h
      · exact .inr (.inl h)
  | giveUp work => exact .inl (step_giveUp hi ok hpc)

end Sherman.Cow
