import Verif.HolesProps
import Verif.TreeProps
/-!
# C57: index arithmetic that panics while slices are being joined

(src/tree/insert.rs)

`edgePhase` and `splitPhase` (`Verif/Destroy.lean`) are repeated with the sizes of slices: the operations of the index type that an
insertion carries out between its first access to a slice and the end of joining may panic too.  The sizes of the neighbours are arguments:
`slice_size` is called before any slice is taken out of its place.
-/
namespace Sherman.Cow
variable {I V : Type}

/-- An operation of the index type, which may panic.  src/public_traits.rs:15-46 -/
def reckon {α : Type} (x : R α) : HM I V α := fun s => (s, x)

/-- `do_insert_full_edge_try_join` up to the end of joining, with its index arithmetic; src/tree/insert.rs:687-807.  Neighbours come with
their sizes (696-697).  `none` if the slice was joined, otherwise the slice that is still to be inserted. -/
def edgePhaseA (u : UserOps I V) (ix : IdxOps I) (lhs rhs : Option ((Nat × Nat) × I)) (slice : V) (size : I) : HM I V (Option V) :=
  if !u.mayJoin then HM.pure (some slice)
  else
    match lhs, rhs with
    | none, none => HM.fail (.unreachable "edges have at least one key on either side")
    | some (l, lsize), none => do
      let ls ← takeValue l
      match ← u.join ls slice with
      | .inl new => do
        fillHole l new
        let _ ← reckon (ix.addR lsize size)
        HM.pure none
      | .inr (ls, s) => do
        fillHole l ls
        HM.pure (some s)
    | none, some (r, rsize) => do
      let rs ← takeValue r
      match ← u.join slice rs with
      | .inl new => do
        fillHole r new
        let _ ← reckon (ix.addL rsize size)
        HM.pure none
      | .inr (s, rs) => do
        fillHole r rs
        HM.pure (some s)
    | some (l, lsize), some (r, rsize) => do
      let ls ← takeValue l
      match ← u.join ls slice with
      | .inl mid => do
        let midSize ← reckon (ix.addR lsize size)
        let rs ← takeValue r
        match ← u.join mid rs with
        | .inl new => do
          fillHole l new
          let _ ← reckon (ix.addR midSize rsize)
          HM.fail (.todo "handle_join_deletion")
        | .inr (mid, rs) => do
          fillHole r rs
          fillHole l mid
          HM.pure none
      | .inr (ls, s) => do
        fillHole l ls
        let rs ← takeValue r
        match ← u.join s rs with
        | .inl new => do
          fillHole r new
          let _ ← reckon (ix.addR size rsize)
          HM.pure none
        | .inr (s, rs) => do
          fillHole r rs
          HM.pure (some s)

/-- `do_insert_full_split_key` up to the end of joining, with its index arithmetic; src/tree/insert.rs:538-652.  `keySize` is the size of
the slice (538).  The slices to be inserted right of the key. -/
def splitPhaseA (u : UserOps I V) (ix : IdxOps I) (hd : Nat × Nat) (keySize pos : I) (slice : V) (size : I) : HM I V (List V) := do
  let rhs ← withSplit u hd pos
  let rhsSize ← reckon (ix.subL keySize pos)
  if !u.mayJoin then HM.pure [slice, rhs]
  else do
    let ls ← takeValue hd
    match ← u.join ls slice with
    | .inl mid => do
      let midSize ← reckon (ix.addR pos size)
      match ← u.join mid rhs with
      | .inl new => do
        fillHole hd new
        let _ ← reckon (ix.addR pos rhsSize)
        let _ ← reckon (ix.addR midSize rhsSize)
        HM.pure []
      | .inr (l, r) => do
        fillHole hd l
        HM.pure [r]
    | .inr (l, s) => do
      fillHole hd l
      match ← u.join s rhs with
      | .inl new => do
        let _ ← reckon (ix.addR size rhsSize)
        HM.pure [new]
      | .inr (s, r) => HM.pure [s, r]

/-! ## Specification -/

/-- The places without a value are exactly the given ones (and the nodes record them exactly). -/
def Empty (s : HSt I V) (hs : List (Nat × Nat)) : Prop := ExactHoles s ∧ ∀ x, slotAt s x = some .moved ↔ x ∈ hs

/-- `try_join` and `split_at` return. -/
structure Returns (u : UserOps I V) : Prop where
  join : ∀ a b, ∃ r, u.tryJoin a b = some r
  split : ∀ a i, ∃ r, u.splitAt a i = some r

/-- The arithmetic of an index type is not undefined behaviour (it may panic). -/
structure Civilised (ix : IdxOps I) : Prop where
  addL : ∀ a b msg, ix.addL a b ≠ .error (.ub msg)
  addR : ∀ a b msg, ix.addR a b ≠ .error (.ub msg)
  subL : ∀ a b msg, ix.subL a b ≠ .error (.ub msg)

/-- An insertion between two slices leaves the place `x` empty when it panics with `e`: the slice on the left has been taken out and joined,
and then the sum of sizes panics; or everything has been joined (joining three slices is not implemented). -/
inductive EdgeLeaves (u : UserOps I V) (ix : IdxOps I) (s : HSt I V) :
    Option ((Nat × Nat) × I) → Option ((Nat × Nat) × I) → V → I → Nat × Nat → Fault → Prop where
  | sum {l r : Nat × Nat} {lsize rsize size : I} {ls mid slice : V} {e : Fault} (hj : u.mayJoin = true) (h1 : slotAt s l = some (.init ls))
      (h2 : u.tryJoin ls slice = some (.inl mid)) (h3 : ix.addR lsize size = .error e) :
      EdgeLeaves u ix s (some (l, lsize)) (some (r, rsize)) slice size l e
  | both {l r : Nat × Nat} {lsize rsize size msize : I} {ls rs mid new slice : V} {e : Fault} (hj : u.mayJoin = true)
      (h1 : slotAt s l = some (.init ls)) (h2 : slotAt s r = some (.init rs)) (h3 : u.tryJoin ls slice = some (.inl mid))
      (h4 : ix.addR lsize size = .ok msize) (h5 : u.tryJoin mid rs = some (.inl new))
      (h6 : ix.addR msize rsize = .error e ∨ (∃ n, ix.addR msize rsize = .ok n) ∧ e = .todo "handle_join_deletion") :
      EdgeLeaves u ix s (some (l, lsize)) (some (r, rsize)) slice size r e

/-- An insertion inside of a slice leaves its place empty when it panics with `e`: the left part has been taken out and joined, and then the
sum of sizes panics. -/
inductive SplitLeaves (u : UserOps I V) (ix : IdxOps I) (s : HSt I V) (hd : Nat × Nat) (keySize pos : I) (slice : V) (size : I) (e : Fault) : Prop where
  | sum {v l r mid : V} {rsize : I} (hj : u.mayJoin = true) (h1 : slotAt s hd = some (.init v)) (h2 : u.splitAt v pos = some (l, r))
      (h3 : ix.subL keySize pos = .ok rsize) (h4 : u.tryJoin l slice = some (.inl mid)) (h5 : ix.addR pos size = .error e)

/-! ## Taking and putting back succeed -/

theorem takeHoles_ok {hol : HoleArr} {l : List (Slot V)} {k : Nat} {v : V} (h : NodeFits hol l) (hk : l[k]? = some (.init v))
    (h2 : ∀ i j : Nat, l[i]? = some Slot.moved → l[j]? = some Slot.moved → i = j) : ∃ hol', takeHoles hol k = .ok hol' := by
  obtain ⟨a, b⟩ := hol
  obtain ⟨m, p, sn, lt⟩ := h
  simp only at m p sn lt
  cases b with
  | none =>
    have := sn rfl
    subst this
    exact ⟨_, rfl⟩
  | some b =>
    cases a with
    | none =>
      have hb : b ≠ k + 1 := by
        rintro rfl
        have := (m k).2 (.inr rfl)
        rw [hk] at this; cases this
      simp only [takeHoles]
      split
      · exact ⟨_, rfl⟩
      · split
        · exact ⟨_, rfl⟩
        · omega
    | some a =>
      exfalso
      have hlt := lt a b rfl rfl
      obtain ⟨a, rfl⟩ : ∃ a', a = a' + 1 := ⟨a - 1, by have : a ≠ 0 := fun h => p.1 (by rw [h]); omega⟩
      obtain ⟨b, rfl⟩ : ∃ b', b = b' + 1 := ⟨b - 1, by omega⟩
      have := h2 a b ((m a).2 (.inl rfl)) ((m b).2 (.inr rfl))
      omega

theorem fillHoles_ok {hol : HoleArr} {l : List (Slot V)} {k : Nat} (h : NodeFits hol l) (hk : l[k]? = some .moved) :
    ∃ hol', fillHoles hol k = .ok hol' := by
  unfold fillHoles
  rcases (h.mem k).1 hk with e | e
  · split
    · exact ⟨_, rfl⟩
    · exact ⟨_, rfl⟩
  · exact ⟨_, if_pos e⟩

theorem slotAt_some {s : HSt I V} {hd : Nat × Nat} {x : Slot V} (h : slotAt s hd = some x) :
    ∃ nd key, s.heap.mem hd.1 = some nd ∧ nd.keys[hd.2]? = some key ∧ key.slice = x := by
  unfold slotAt at h
  cases hm : s.heap.mem hd.1 with
  | none => rw [hm] at h; cases h
  | some nd =>
    rw [hm] at h
    have : ∃ key, nd.keys[hd.2]? = some key ∧ key.slice = x := by simpa [slots] using h
    obtain ⟨key, e1, e2⟩ := this
    exact ⟨nd, key, rfl, e1, e2⟩

theorem slotAt_slots {s : HSt I V} {p k : Nat} {nd : HNode I (Slot V)} (hm : s.heap.mem p = some nd) : slotAt s (p, k) = (slots nd)[k]? := by
  simp [slotAt, hm]

/-- A value can be taken if at most one place is empty and this is not it. -/
theorem take_ok {s : HSt I V} {hs : List (Nat × Nat)} (he : Empty s hs) (hs1 : hs.length ≤ 1) {hd : Nat × Nat} {v : V}
    (hv : slotAt s hd = some (.init v)) :
    ∃ s', takeValue hd s = (s', .ok v) ∧ Empty s' (hd :: hs) ∧ ∀ x, x ≠ hd → slotAt s' x = slotAt s x := by
  obtain ⟨nd, key, hm, hk, hsl⟩ := slotAt_some hv
  have hf := he.1 _ _ hm
  have hmv : ∀ i j : Nat, (slots nd)[i]? = some Slot.moved → (slots nd)[j]? = some Slot.moved → i = j := by
    intro i j hi hj
    rw [← slotAt_slots hm, he.2] at hi hj
    match hs, hs1 with
    | [], _ => cases hi
    | [y], _ =>
      simp only [List.mem_singleton] at hi hj
      rw [← hj] at hi
      exact (Prod.mk.inj hi).2
  obtain ⟨hol', e⟩ := takeHoles_ok (v := v) hf (by rw [← slotAt_slots hm]; exact hv) hmv
  have ht : takeValue hd s = (s.write hd.1 nd hd.2 key .moved hol', .ok v) := by
    simp only [takeValue, hm, hk, e, hsl]
  refine ⟨_, ht, ⟨?_, fun x => ?_⟩, fun x hx => write_other hm _ _ hx⟩
  · have := (takeValue_careful hd (hs := [hd]) (by simp)).fits s he.1
    rw [ht] at this
    exact this
  · rw [(takeValue_moved ht).2 x, he.2, List.mem_cons]
    exact or_comm

/-- An empty place can be filled. -/
theorem fill_ok {s : HSt I V} {hs : List (Nat × Nat)} (he : Empty s hs) {hd : Nat × Nat} (hin : hd ∈ hs) (v : V) :
    ∃ s', fillHole hd v s = (s', .ok ()) ∧ (∀ hs', (∀ x, x ∈ hs' ↔ x ∈ hs ∧ x ≠ hd) → Empty s' hs') ∧ slotAt s' hd = some (.init v) ∧
      ∀ x, x ≠ hd → slotAt s' x = slotAt s x := by
  obtain ⟨nd, key, hm, hk, hsl⟩ := slotAt_some ((he.2 hd).2 hin)
  have hf := he.1 _ _ hm
  obtain ⟨hol', e⟩ := fillHoles_ok hf (k := hd.2) (by rw [← slotAt_slots hm]; exact (he.2 hd).2 hin)
  have ht : fillHole hd v s = (s.write hd.1 nd hd.2 key (.init v) hol', .ok ()) := by
    simp only [fillHole, hm, hk, e]
  refine ⟨_, ht, fun hs' hh => ⟨?_, fun x => ?_⟩, write_self hk _ _, fun x hx => write_other hm _ _ hx⟩
  · have := (fillHole_careful hd v (hs := [hd]) (by simp)).fits s he.1
    rw [ht] at this
    exact this
  · rw [fillHole_moved ht x, he.2, hh]

theorem HM.bind_run {α β : Type} {m : HM I V α} {f : α → HM I V β} {s s1 : HSt I V} {a : α} (h : m s = (s1, .ok a)) :
    (m >>= f) s = f a s1 := by
  show HM.bind m f s = _
  unfold HM.bind
  rw [h]

theorem HM.bind_err {α β : Type} {m : HM I V α} {f : α → HM I V β} {s s1 : HSt I V} {e : Fault} (h : m s = (s1, .error e)) :
    (m >>= f) s = (s1, .error e) := by
  show HM.bind m f s = _
  unfold HM.bind
  rw [h]

theorem join_run {u : UserOps I V} {a b : V} {r : V ⊕ V × V} (h : u.tryJoin a b = some r) (s : HSt I V) : u.join a b s = (s, .ok r) := by
  simp [UserOps.join, h, HM.pure]

theorem split_run {u : UserOps I V} {a : V} {i : I} {r : V × V} (h : u.splitAt a i = some r) (s : HSt I V) : u.split a i s = (s, .ok r) := by
  simp [UserOps.split, h, HM.pure]

theorem reckon_ok {α : Type} {x : R α} {a : α} (h : x = .ok a) (s : HSt I V) : (reckon x : HM I V α) s = (s, .ok a) := by rw [h]; rfl

theorem reckon_err {α : Type} {x : R α} {e : Fault} (h : x = .error e) (s : HSt I V) : (reckon x : HM I V α) s = (s, .error e) := by rw [h]; rfl

theorem init_of {s : HSt I V} (he : Empty s []) {hd : Nat × Nat} (h : slotAt s hd ≠ none) : ∃ v, slotAt s hd = some (.init v) := by
  cases hs : slotAt s hd with
  | none => exact (h hs).elim
  | some x =>
    cases x with
    | init v => exact ⟨v, rfl⟩
    | moved => exact (List.not_mem_nil ((he.2 hd).1 hs)).elim

/-- C57, insertion between slices: a place is left empty exactly in the cases of `EdgeLeaves`; otherwise all slices are in their places,
whether index arithmetic panics or not. -/
theorem edge_overflow_holes {u : UserOps I V} (hu : Returns u) (ix : IdxOps I) {s : HSt I V} (he : Empty s [])
    {lhs rhs : Option ((Nat × Nat) × I)} (hl : ∀ hd ∈ lhs, slotAt s hd.1 ≠ none) (hr : ∀ hd ∈ rhs, slotAt s hd.1 ≠ none)
    (hne : ∀ a ∈ lhs, ∀ b ∈ rhs, a.1 ≠ b.1) (slice : V) (size : I) :
    (∀ x e, EdgeLeaves u ix s lhs rhs slice size x e →
      ∃ s', edgePhaseA u ix lhs rhs slice size s = (s', .error e) ∧ Empty s' [x]) ∧
    ((∀ x e, ¬ EdgeLeaves u ix s lhs rhs slice size x e) → Empty (edgePhaseA u ix lhs rhs slice size s).1 []) := by
  have one : ∀ y x : Nat × Nat, x ∈ ([] : List (Nat × Nat)) ↔ x ∈ [y] ∧ x ≠ y := fun y x => by simp
  by_cases hj : u.mayJoin = true
  swap
  · refine ⟨fun x e h => ?_, fun _ => ?_⟩
    · cases h <;> contradiction
    · simp only [edgePhaseA, hj]
      exact he
  cases lhs with
  | none =>
    refine ⟨(by rintro x e ⟨⟩), fun _ => ?_⟩
    cases rhs with
    | none =>
      simp only [edgePhaseA, hj, Bool.not_true, Bool.false_eq_true, if_false]
      exact he
    | some r =>
      obtain ⟨r, rsize⟩ := r
      obtain ⟨rs, hrs⟩ := init_of he (hr _ rfl)
      obtain ⟨s1, e1, m1, -⟩ := take_ok he (by simp) hrs
      obtain ⟨x, hx⟩ := hu.join slice rs
      simp only [edgePhaseA, hj, Bool.not_true, Bool.false_eq_true, if_false]
      rw [HM.bind_run e1, HM.bind_run (join_run hx s1)]
      rcases x with new | ⟨a, b⟩
      · obtain ⟨s2, e2, m2, -⟩ := fill_ok m1 (List.mem_singleton.2 rfl) new
        simp only
        rw [HM.bind_run e2]
        cases ha : ix.addL rsize size with
        | error e => rw [HM.bind_err (reckon_err rfl s2)]; exact m2 _ (one r)
        | ok n => rw [HM.bind_run (reckon_ok rfl s2)]; exact m2 _ (one r)
      · obtain ⟨s2, e2, m2, -⟩ := fill_ok m1 (List.mem_singleton.2 rfl) b
        simp only
        rw [HM.bind_run e2]
        exact m2 _ (one r)
  | some l =>
    obtain ⟨l, lsize⟩ := l
    obtain ⟨ls, hls⟩ := init_of he (hl _ rfl)
    obtain ⟨s1, e1, m1, o1⟩ := take_ok he (by simp) hls
    obtain ⟨x, hx⟩ := hu.join ls slice
    cases rhs with
    | none =>
      refine ⟨(by rintro x e ⟨⟩), fun _ => ?_⟩
      simp only [edgePhaseA, hj, Bool.not_true, Bool.false_eq_true, if_false]
      rw [HM.bind_run e1, HM.bind_run (join_run hx s1)]
      rcases x with new | ⟨a, b⟩
      · obtain ⟨s2, e2, m2, -⟩ := fill_ok m1 (List.mem_singleton.2 rfl) new
        simp only
        rw [HM.bind_run e2]
        cases ha : ix.addR lsize size with
        | error e => rw [HM.bind_err (reckon_err rfl s2)]; exact m2 _ (one l)
        | ok n => rw [HM.bind_run (reckon_ok rfl s2)]; exact m2 _ (one l)
      · obtain ⟨s2, e2, m2, -⟩ := fill_ok m1 (List.mem_singleton.2 rfl) a
        simp only
        rw [HM.bind_run e2]
        exact m2 _ (one l)
    | some r =>
      obtain ⟨r, rsize⟩ := r
      obtain ⟨rs, hrs⟩ := init_of he (hr _ rfl)
      have hlr : l ≠ r := hne _ rfl _ rfl
      simp only [edgePhaseA, hj, Bool.not_true, Bool.false_eq_true, if_false]
      rw [HM.bind_run e1, HM.bind_run (join_run hx s1)]
      rcases x with mid | ⟨a, b⟩
      · -- joined with the slice on the left
        simp only
        cases ha : ix.addR lsize size with
        | error e =>
          rw [HM.bind_err (reckon_err rfl s1)]
          refine ⟨fun x e' h => ?_, fun h => (h _ _ (.sum hj hls hx ha)).elim⟩
          cases h with
          | sum _ h1 h2 h3 =>
            rw [ha] at h3; cases h3
            exact ⟨s1, rfl, m1⟩
          | both _ h1 h2 h3 h4 => rw [ha] at h4; cases h4
        | ok msize =>
          rw [HM.bind_run (reckon_ok rfl s1)]
          obtain ⟨s2, e2, m2, o2⟩ := take_ok m1 (by simp) (hd := r) (v := rs) (by rw [o1 r hlr.symm]; exact hrs)
          obtain ⟨y, hy⟩ := hu.join mid rs
          rw [HM.bind_run e2, HM.bind_run (join_run hy s2)]
          rcases y with new | ⟨a, b⟩
          · obtain ⟨s3, e3, m3, -⟩ := fill_ok m2 (hd := l) (by simp) new
            have m4 : Empty s3 [r] := m3 _ (fun x => by
              simp only [List.mem_cons, List.not_mem_nil, or_false]
              constructor
              · rintro rfl; exact ⟨.inl rfl, hlr.symm⟩
              · rintro ⟨h | h, h'⟩
                · exact h
                · exact (h' h).elim)
            simp only
            rw [HM.bind_run e3]
            have hsame : ∀ x e, EdgeLeaves u ix s (some (l, lsize)) (some (r, rsize)) slice size x e → x = r ∧
                (ix.addR msize rsize = .error e ∨ (∃ n, ix.addR msize rsize = .ok n) ∧ e = .todo "handle_join_deletion") := by
              intro x e h
              cases h with
              | sum _ h1 h2 h3 => rw [ha] at h3; cases h3
              | both _ h1 h2 h3 h4 h5 h6 =>
                rw [ha] at h4; cases h4
                exact ⟨rfl, h6⟩
            cases hb : ix.addR msize rsize with
            | error e =>
              rw [HM.bind_err (reckon_err rfl s3)]
              refine ⟨fun x e' h => ?_, fun h => (h _ _ (.both hj hls hrs hx ha hy (.inl hb))).elim⟩
              obtain ⟨rfl, h6⟩ := hsame x e' h
              rw [hb] at h6
              rcases h6 with h6 | ⟨⟨n, h6⟩, -⟩ <;> cases h6
              exact ⟨s3, rfl, m4⟩
            | ok n =>
              rw [HM.bind_run (reckon_ok rfl s3)]
              refine ⟨fun x e' h => ?_, fun h => (h _ _ (.both hj hls hrs hx ha hy (.inr ⟨⟨n, hb⟩, rfl⟩))).elim⟩
              obtain ⟨rfl, h6⟩ := hsame x e' h
              rw [hb] at h6
              rcases h6 with h6 | ⟨-, rfl⟩
              · cases h6
              exact ⟨s3, rfl, m4⟩
          · obtain ⟨s3, e3, m3, -⟩ := fill_ok m2 (hd := r) (by simp) b
            have m4 : Empty s3 [l] := m3 _ (fun x => by
              simp only [List.mem_cons, List.not_mem_nil, or_false]
              constructor
              · rintro rfl; exact ⟨.inr rfl, hlr⟩
              · rintro ⟨h | h, h'⟩
                · exact (h' h).elim
                · exact h)
            obtain ⟨s4, e4, m5, -⟩ := fill_ok m4 (hd := l) (by simp) a
            simp only
            rw [HM.bind_run e3, HM.bind_run e4]
            refine ⟨fun x e h => ?_, fun _ => m5 _ (one l)⟩
            cases h with
            | sum _ h1 h2 h3 => rw [ha] at h3; cases h3
            | both _ h1 h2 h3 h4 h5 h6 =>
              rw [hls] at h1; cases h1
              rw [hrs] at h2; cases h2
              rw [hx] at h3; cases h3
              rw [hy] at h5; cases h5
      · -- not joined with the slice on the left
        obtain ⟨s2, e2, m2, -, o2⟩ := fill_ok m1 (List.mem_singleton.2 rfl) a
        have m2 := m2 _ (one l)
        obtain ⟨s3, e3, m3, -⟩ := take_ok m2 (by simp) (hd := r) (v := rs) (by rw [o2 r hlr.symm, o1 r hlr.symm]; exact hrs)
        obtain ⟨y, hy⟩ := hu.join b rs
        simp only
        rw [HM.bind_run e2, HM.bind_run e3, HM.bind_run (join_run hy s3)]
        refine ⟨fun x e h => ?_, fun _ => ?_⟩
        · cases h with
          | sum _ h1 h2 h3 => rw [hls] at h1; cases h1; rw [hx] at h2; cases h2
          | both _ h1 h2 h3 => rw [hls] at h1; cases h1; rw [hx] at h3; cases h3
        · rcases y with new | ⟨c, d⟩
          · obtain ⟨s4, e4, m4, -⟩ := fill_ok m3 (List.mem_singleton.2 rfl) new
            simp only
            rw [HM.bind_run e4]
            cases ha : ix.addR size rsize with
            | error e => rw [HM.bind_err (reckon_err rfl s4)]; exact m4 _ (one r)
            | ok n => rw [HM.bind_run (reckon_ok rfl s4)]; exact m4 _ (one r)
          · obtain ⟨s4, e4, m4, -⟩ := fill_ok m3 (List.mem_singleton.2 rfl) d
            simp only
            rw [HM.bind_run e4]
            exact m4 _ (one r)

/-- C57, insertion inside of a slice: its place is left empty exactly in the case of `SplitLeaves`; otherwise all slices are in their places,
whether index arithmetic panics or not. -/
theorem split_overflow_holes {u : UserOps I V} (hu : Returns u) (ix : IdxOps I) {s : HSt I V} (he : Empty s [])
    {hd : Nat × Nat} (hv : slotAt s hd ≠ none) (keySize pos : I) (slice : V) (size : I) :
    (∀ e, SplitLeaves u ix s hd keySize pos slice size e →
      ∃ s', splitPhaseA u ix hd keySize pos slice size s = (s', .error e) ∧ Empty s' [hd]) ∧
    ((∀ e, ¬ SplitLeaves u ix s hd keySize pos slice size e) → Empty (splitPhaseA u ix hd keySize pos slice size s).1 []) := by
  have one : ∀ x : Nat × Nat, x ∈ ([] : List (Nat × Nat)) ↔ x ∈ [hd] ∧ x ≠ hd := fun x => by simp
  obtain ⟨v, hv⟩ := init_of he hv
  obtain ⟨s1, e1, m1, -⟩ := take_ok he (by simp) hv
  obtain ⟨⟨a, b⟩, hs⟩ := hu.split v pos
  obtain ⟨s2, e2, m2, v2, -⟩ := fill_ok m1 (List.mem_singleton.2 rfl) a
  have m2 := m2 _ one
  have ew : withSplit u hd pos s = (s2, .ok b) := by
    unfold withSplit
    rw [HM.bind_run e1, HM.bind_run (split_run hs s1)]
    simp only
    rw [HM.bind_run e2]
    rfl
  unfold splitPhaseA
  rw [HM.bind_run ew]
  cases hk : ix.subL keySize pos with
  | error e =>
    rw [HM.bind_err (reckon_err rfl s2)]
    refine ⟨fun e' h => ?_, fun _ => m2⟩
    cases h with
    | sum _ _ _ h3 => rw [hk] at h3; cases h3
  | ok rsize =>
    rw [HM.bind_run (reckon_ok rfl s2)]
    by_cases hj : u.mayJoin = true
    swap
    · simp only [hj]
      exact ⟨fun e h => by cases h; contradiction, fun _ => m2⟩
    obtain ⟨s3, e3, m3, -⟩ := take_ok m2 (by simp) v2
    obtain ⟨x, hx⟩ := hu.join a slice
    simp only [hj, Bool.not_true, Bool.false_eq_true, if_false]
    rw [HM.bind_run e3, HM.bind_run (join_run hx s3)]
    rcases x with mid | ⟨c, d⟩
    · simp only
      cases ha : ix.addR pos size with
      | error e =>
        rw [HM.bind_err (reckon_err rfl s3)]
        refine ⟨fun e' h => ?_, fun h => (h _ (.sum hj hv hs hk hx ha)).elim⟩
        cases h with
        | sum _ _ _ _ _ h5 =>
          rw [ha] at h5; cases h5
          exact ⟨s3, rfl, m3⟩
      | ok msize =>
        rw [HM.bind_run (reckon_ok rfl s3)]
        refine ⟨fun e' h => ?_, fun _ => ?_⟩
        · cases h with
          | sum _ _ _ _ _ h5 => rw [ha] at h5; cases h5
        obtain ⟨y, hy⟩ := hu.join mid b
        rw [HM.bind_run (join_run hy s3)]
        rcases y with new | ⟨c, d⟩
        · obtain ⟨s4, e4, m4, -⟩ := fill_ok m3 (List.mem_singleton.2 rfl) new
          have m4 := m4 _ one
          simp only
          rw [HM.bind_run e4]
          cases hb : ix.addR pos rsize with
          | error e => rw [HM.bind_err (reckon_err rfl s4)]; exact m4
          | ok n =>
            rw [HM.bind_run (reckon_ok rfl s4)]
            cases hc : ix.addR msize rsize with
            | error e => rw [HM.bind_err (reckon_err rfl s4)]; exact m4
            | ok n => rw [HM.bind_run (reckon_ok rfl s4)]; exact m4
        · obtain ⟨s4, e4, m4, -⟩ := fill_ok m3 (List.mem_singleton.2 rfl) c
          simp only
          rw [HM.bind_run e4]
          exact m4 _ one
    · simp only
      obtain ⟨s4, e4, m4, -⟩ := fill_ok m3 (List.mem_singleton.2 rfl) c
      have m4 := m4 _ one
      rw [HM.bind_run e4]
      refine ⟨fun e' h => ?_, fun _ => ?_⟩
      · cases h with
        | sum _ h1 h2 _ h4 _ =>
          rw [hv] at h1; cases h1
          rw [hs] at h2; cases h2
          rw [hx] at h4; cases h4
      · obtain ⟨y, hy⟩ := hu.join d b
        rw [HM.bind_run (join_run hy s4)]
        rcases y with new | ⟨p, q⟩
        · simp only
          cases hc : ix.addR size rsize with
          | error e => rw [HM.bind_err (reckon_err rfl s4)]; exact m4
          | ok n => rw [HM.bind_run (reckon_ok rfl s4)]; exact m4
        · exact m4

/-! ## If no index operation panics these are the functions of `Verif/Destroy.lean` -/

theorem reckon_bind {α β : Type} {x : R α} (h : ∃ a, x = .ok a) (m : HM I V β) : (reckon x >>= fun _ => m) = m := by
  obtain ⟨a, rfl⟩ := h
  rfl

theorem edgePhaseA_eq (u : UserOps I V) {ix : IdxOps I} (hR : ∀ a b, ∃ c, ix.addR a b = .ok c) (hL : ∀ a b, ∃ c, ix.addL a b = .ok c)
    (lhs rhs : Option ((Nat × Nat) × I)) (slice : V) (size : I) :
    edgePhaseA u ix lhs rhs slice size = edgePhase u (lhs.map (·.1)) (rhs.map (·.1)) slice := by
  unfold edgePhaseA edgePhase
  split
  · rfl
  · rcases lhs with _ | ⟨l, lsize⟩ <;> rcases rhs with _ | ⟨r, rsize⟩
    · rfl
    · simp only [Option.map_none, Option.map_some, reckon_bind (hL _ _)]
      rfl
    · simp only [Option.map_none, Option.map_some, reckon_bind (hR _ _)]
      rfl
    · obtain ⟨m, hm⟩ := hR lsize size
      have : ∀ f : I → HM I V (Option V), (reckon (ix.addR lsize size) >>= f) = f m := fun f => by rw [hm]; rfl
      simp only [Option.map_some, reckon_bind (hR _ _), this]
      rfl

theorem splitPhaseA_eq (u : UserOps I V) {ix : IdxOps I} (hR : ∀ a b, ∃ c, ix.addR a b = .ok c) {keySize pos : I}
    (hs : ∃ c, ix.subL keySize pos = .ok c) (hd : Nat × Nat) (slice : V) (size : I) :
    splitPhaseA u ix hd keySize pos slice size = splitPhase u hd pos slice := by
  obtain ⟨c, hc⟩ := hs
  obtain ⟨m, hm⟩ := hR pos size
  have h1 : ∀ f : I → HM I V (List V), (reckon (ix.subL keySize pos) >>= f) = f c := fun f => by rw [hc]; rfl
  have h2 : ∀ f : I → HM I V (List V), (reckon (ix.addR pos size) >>= f) = f m := fun f => by rw [hm]; rfl
  unfold splitPhaseA splitPhase
  simp only [h1, h2, reckon_bind (hR _ _)]
  rfl

/-! ## Drops after panics -/

theorem reckon_careful {α : Type} {x : R α} (h : ∀ msg, x ≠ .error (.ub msg)) (hs : List (Nat × Nat)) : Careful hs (reckon x : HM I V α) := by
  refine ⟨fun _ h => h, fun s => .refl s, fun _ _ _ => rfl, fun _ e _ _ he msg => ?_⟩
  rintro rfl
  exact h msg he

/-- An insertion up to the end of joining: at an edge next to one or two keys, or inside of a key.  The functions of the slice and the index
type may panic, and may be different each time. -/
inductive Try (I V : Type) where
  | edge (u : UserOps I V) (ix : IdxOps I) (lhs rhs : Option ((Nat × Nat) × I)) (slice : V) (size : I)
  | split (u : UserOps I V) (ix : IdxOps I) (hd : Nat × Nat) (keySize pos : I) (slice : V) (size : I)

def Try.run (s : HSt I V) : Try I V → HSt I V × Option Fault
  | .edge u ix lhs rhs slice size => match edgePhaseA u ix lhs rhs slice size s with
    | (s, .ok _) => (s, none)
    | (s, .error e) => (s, some e)
  | .split u ix hd keySize pos slice size => match splitPhaseA u ix hd keySize pos slice size s with
    | (s, .ok _) => (s, none)
    | (s, .error e) => (s, some e)

/-- The keys next to which it inserts. -/
def Try.keys : Try I V → List (Nat × Nat)
  | .edge _ _ lhs rhs _ _ => (lhs.map (·.1)).toList ++ (rhs.map (·.1)).toList
  | .split _ _ hd _ _ _ _ => [hd]

/-- The index type. -/
def Try.ix : Try I V → IdxOps I
  | .edge _ ix _ _ _ _ => ix
  | .split _ ix _ _ _ _ _ => ix

theorem edgePhaseA_careful (u : UserOps I V) {ix : IdxOps I} (hi : Civilised ix) (lhs rhs : Option ((Nat × Nat) × I)) (slice : V) (size : I) :
    Careful ((lhs.map (·.1)).toList ++ (rhs.map (·.1)).toList) (edgePhaseA u ix lhs rhs slice size) := by
  unfold edgePhaseA
  split
  · exact .pure _ _
  · cases lhs with
    | none =>
      cases rhs with
      | none => exact .fail _ (by simp)
      | some r =>
        refine (takeValue_careful r.1 (by simp)).bind (fun rs => (join_careful u _ _ _).bind (fun x => ?_))
        rcases x with new | ⟨s, rs⟩
        · exact (fillHole_careful r.1 _ (by simp)).bind (fun _ => (reckon_careful (hi.addL _ _) _).bind (fun _ => .pure _ _))
        · exact (fillHole_careful r.1 _ (by simp)).bind (fun _ => .pure _ _)
    | some l =>
      cases rhs with
      | none =>
        refine (takeValue_careful l.1 (by simp)).bind (fun rs => (join_careful u _ _ _).bind (fun x => ?_))
        rcases x with new | ⟨s, rs⟩
        · exact (fillHole_careful l.1 _ (by simp)).bind (fun _ => (reckon_careful (hi.addR _ _) _).bind (fun _ => .pure _ _))
        · exact (fillHole_careful l.1 _ (by simp)).bind (fun _ => .pure _ _)
      | some r =>
        refine (takeValue_careful l.1 (by simp)).bind (fun rs => (join_careful u _ _ _).bind (fun x => ?_))
        rcases x with mid | ⟨ls, s⟩
        · refine (reckon_careful (hi.addR _ _) _).bind (fun _ => (takeValue_careful r.1 (by simp)).bind (fun rs =>
            (join_careful u _ _ _).bind (fun x => ?_)))
          rcases x with new | ⟨mid, rs⟩
          · exact (fillHole_careful l.1 _ (by simp)).bind (fun _ => (reckon_careful (hi.addR _ _) _).bind (fun _ => .fail _ (by simp)))
          · exact (fillHole_careful r.1 _ (by simp)).bind (fun _ => (fillHole_careful l.1 _ (by simp)).bind (fun _ => .pure _ _))
        · refine (fillHole_careful l.1 _ (by simp)).bind (fun _ => (takeValue_careful r.1 (by simp)).bind (fun rs =>
            (join_careful u _ _ _).bind (fun x => ?_)))
          rcases x with new | ⟨s, rs⟩
          · exact (fillHole_careful r.1 _ (by simp)).bind (fun _ => (reckon_careful (hi.addR _ _) _).bind (fun _ => .pure _ _))
          · exact (fillHole_careful r.1 _ (by simp)).bind (fun _ => .pure _ _)

theorem splitPhaseA_careful (u : UserOps I V) {ix : IdxOps I} (hi : Civilised ix) (hd : Nat × Nat) (keySize pos : I) (slice : V) (size : I) :
    Careful [hd] (splitPhaseA u ix hd keySize pos slice size) := by
  unfold splitPhaseA
  refine Careful.bind (f := _) ?_ (fun rhs => (reckon_careful (hi.subL _ _) _).bind (fun rsize => ?_))
  · exact (takeValue_careful hd (by simp)).bind (fun v => (split_careful u _ _ _).bind (fun x => (fillHole_careful hd _ (by simp)).bind (fun _ => .pure _ _)))
  · split
    · exact .pure _ _
    · refine (takeValue_careful hd (by simp)).bind (fun v => (join_careful u _ _ _).bind (fun x => ?_))
      rcases x with mid | ⟨l, s⟩
      · refine (reckon_careful (hi.addR _ _) _).bind (fun _ => (join_careful u _ _ _).bind (fun x => ?_))
        rcases x with new | ⟨l, r⟩
        · exact (fillHole_careful hd _ (by simp)).bind (fun _ => (reckon_careful (hi.addR _ _) _).bind (fun _ =>
            (reckon_careful (hi.addR _ _) _).bind (fun _ => .pure _ _)))
        · exact (fillHole_careful hd _ (by simp)).bind (fun _ => .pure _ _)
      · refine (fillHole_careful hd _ (by simp)).bind (fun _ => (join_careful u _ _ _).bind (fun x => ?_))
        rcases x with new | ⟨s, r⟩
        · exact (reckon_careful (hi.addR _ _) _).bind (fun _ => .pure _ _)
        · exact .pure _ _

theorem Try.ok (s : HSt I V) (a : Try I V) (hi : Civilised a.ix) : (ExactHoles s → ExactHoles (a.run s).1) ∧ SameNodes s (a.run s).1 ∧
    (∀ hd, hd ∉ a.keys → slotAt (a.run s).1 hd = slotAt s hd) ∧
    (ExactHoles s → (∀ hd ∈ a.keys, slotAt s hd ≠ none) → ∀ msg, (a.run s).2 ≠ some (.ub msg)) := by
  cases a with
  | edge u ix lhs rhs slice size =>
    have c := edgePhaseA_careful u hi lhs rhs slice size
    have h1 := c.fits s; have h2 := c.same s; have h3 := c.other s; have h4 := c.noUb s
    simp only [Try.ix] at h1 h2 h3 h4
    simp only [Try.run, Try.keys]
    cases hr : edgePhaseA u ix lhs rhs slice size s with
    | mk s' r =>
      rw [hr] at h1 h2 h3 h4
      cases r with
      | ok a => exact ⟨h1, h2, h3, fun _ _ _ => by simp⟩
      | error e => exact ⟨h1, h2, h3, fun hx hv msg => by simpa using h4 e hx hv rfl msg⟩
  | split u ix hd keySize pos slice size =>
    have c := splitPhaseA_careful u hi hd keySize pos slice size
    have h1 := c.fits s; have h2 := c.same s; have h3 := c.other s; have h4 := c.noUb s
    simp only [Try.ix] at h1 h2 h3 h4
    simp only [Try.run, Try.keys]
    cases hr : splitPhaseA u ix hd keySize pos slice size s with
    | mk s' r =>
      rw [hr] at h1 h2 h3 h4
      cases r with
      | ok a => exact ⟨h1, h2, h3, fun _ _ _ => by simp⟩
      | error e => exact ⟨h1, h2, h3, fun hx hv msg => by simpa using h4 e hx hv rfl msg⟩

/-- Several attempts. -/
def tries (s : HSt I V) (as : List (Try I V)) : HSt I V := as.foldl (fun s a => (a.run s).1) s

theorem tries_ok (s : HSt I V) (as : List (Try I V)) (hi : ∀ a ∈ as, Civilised a.ix) :
    (ExactHoles s → ExactHoles (tries s as)) ∧ SameNodes s (tries s as) ∧
    ∀ hd, (∀ a ∈ as, hd ∉ a.keys) → slotAt (tries s as) hd = slotAt s hd := by
  induction as generalizing s with
  | nil => exact ⟨fun h => h, .refl s, fun _ _ => rfl⟩
  | cons a as ih =>
    obtain ⟨h1, h2, h3, -⟩ := a.ok s (hi a (by simp))
    obtain ⟨g1, g2, g3⟩ := ih (a.run s).1 (fun a ha => hi a (by simp [ha]))
    refine ⟨fun h => g1 (h1 h), h2.trans g2, fun hd hn => ?_⟩
    show slotAt (tries (a.run s).1 as) hd = _
    rw [g3 hd (fun a' ha' => hn a' (by simp [ha'])), h3 hd (hn a (by simp))]

/-- C30 and C57, as far as they are true: after any program, let user code or index arithmetic of any number of insertions panic anywhere up
to the end of joining.  Then

* no attempt reads an empty place or violates another precondition;
* the places of all other keys still hold their slices;
* dropping a tree frees the nodes that only this tree holds, once each, and destroys exactly the values in them, once each.

Missing: other uses of the tree after a caught panic, see `overflow_read_counterexample`. -/
theorem overflow_then_drop_partial {MAX imax : Nat} {E : Env Nat V} (hE : E.ix = natIdx MAX) (hM : 1 ≤ E.M) (hM' : E.M ≤ 127) {cow : Bool}
    {ops : List (Op Nat V)} (hops : ∀ op ∈ ops, op.fits MAX) {st : St Nat V} (h : St.run E imax cow St.init ops = .ok st)
    (as : List (Try Nat V)) (hc : ∀ a ∈ as, Civilised a.ix) :
    (∀ bs a, bs ++ [a] <+: as → (∀ hd ∈ a.keys, slotAt (lift st.heap) hd ≠ none) → ∀ msg, (a.run (tries (lift st.heap) bs)).2 ≠ some (.ub msg)) ∧
    (∀ hd, (∀ a ∈ as, hd ∉ a.keys) → slotAt (tries (lift st.heap) as) hd = slotAt (lift st.heap) hd) ∧
    ∀ i es, runsOf st i = .ok es →
      ∃ st' nodes, ((tries (lift st.heap) as).with st.trees).dropLog (tries (lift st.heap) as).hol i =
          .ok (st', ⟨(nodes.flatMap (presentAt (tries (lift st.heap) as))).map .init, nodes⟩) ∧ nodes.Nodup ∧
        (∀ x, x ∈ nodes ↔ Holds st i x ∧ ∀ j, j ≠ i → ¬ Holds st j x) ∧
        ExactHoles ⟨st'.heap, (tries (lift st.heap) as).hol⟩ ∧ st'.Ok := by
  obtain ⟨ss, -, h2⟩ := run_sound hE hM hM' hops h
  obtain ⟨g1, g2, g3⟩ := tries_ok (lift st.heap) as hc
  refine ⟨fun bs a hp hv => ?_, g3, fun i es hi => ?_⟩
  · obtain ⟨k1, k2, -⟩ := tries_ok (lift st.heap) bs (fun b hb => hc b (hp.subset (by simp [hb])))
    exact (a.ok _ (hc a (hp.subset (by simp)))).2.2.2 (k1 (lift_exact _)) (fun hd hh hc => hv hd hh ((k2.slotAt_none hd).1 hc))
  · have hx := g1 (lift_exact _)
    have hm : ∀ p, (st.heap.mem p).map (fun nd => (nd.count, nd.height, nd.kids)) =
        ((tries (lift st.heap) as).heap.mem p).map (fun nd => (nd.count, nd.height, nd.kids)) :=
      fun p => (lift_mem st.heap p).trans (g2.mem3 p)
    have ok' : ((tries (lift st.heap) as).with st.trees).Ok := h2.ok.congr rfl g2.next hm
    simp only [runsOf, bind_ok_iff] at hi
    obtain ⟨t, hv, -⟩ := hi
    obtain ⟨o, ho⟩ := view_tree hv
    obtain ⟨st', nodes, e1, e2, e3, e4, e5, -⟩ := exact_drop hx ok' ho
    refine ⟨st', nodes, e1, e2, fun x => ?_, e4, e5⟩
    have hh : ∀ j, Holds ((tries (lift st.heap) as).with st.trees) j x ↔ Holds st j x := fun j =>
      ⟨fun h => holds_congr (st := (tries (lift st.heap) as).with st.trees) (st' := st) rfl (fun p => (hm p).symm) h,
        fun h => holds_congr (st := st) (st' := (tries (lift st.heap) as).with st.trees) rfl hm h⟩
    rw [e3, hh]
    simp only [hh]

theorem natIdx_civilised (MAX : Nat) : Civilised (natIdx MAX) := by
  constructor <;> intro a b msg h <;> simp only [natIdx] at h <;> split at h <;> cases h

theorem lift_empty (H : Heap I V) : Empty (lift H) [] := by
  refine ⟨lift_exact H, fun x => ?_⟩
  simp only [List.not_mem_nil, iff_false]
  intro h
  obtain ⟨nd, key, hm, hk, e⟩ := slotAt_some h
  simp only [lift, Option.map_eq_some_iff] at hm
  obtain ⟨nd0, -, rfl⟩ := hm
  simp only [List.getElem?_map, Option.map_eq_some_iff] at hk
  obtain ⟨k0, -, rfl⟩ := hk
  cases e

/-! ## Library types only -/

/-- `Constant<T>`; src/lib.rs:92-117 -/
def constU (T : Type) [BEq T] : UserOps Nat T where
  mayJoin := true
  tryJoin a b := some (if a == b then .inl a else .inr (a, b))
  splitAt a _ := some (a, a)

theorem constU_returns (T : Type) [BEq T] : Returns (constU T) := ⟨fun _ _ => ⟨_, rfl⟩, fun _ _ => ⟨_, rfl⟩⟩

/-- C57 for numbers and `Constant`, inside of a run: the run is lost exactly if the same value is inserted and the left part would get larger
than the largest number. -/
theorem const_split_overflow {T : Type} [BEq T] [LawfulBEq T] {MAX : Nat} {s : HSt Nat T} (he : Empty s []) {hd : Nat × Nat} {v : T}
    (hv : slotAt s hd = some (.init v)) {keySize pos : Nat} (hp : pos ≤ keySize) (slice : T) (size : Nat) :
    (∃ x, slotAt (splitPhaseA (constU T) (natIdx MAX) hd keySize pos slice size s).1 x = some .moved) ↔ slice = v ∧ MAX < pos + size := by
  obtain ⟨h1, h2⟩ := split_overflow_holes (constU_returns T) (natIdx MAX) he (hd := hd) (by simp [hv]) keySize pos slice size
  by_cases hc : slice = v ∧ MAX < pos + size
  · obtain ⟨rfl, hlt⟩ := hc
    obtain ⟨s', e, m⟩ := h1 .overflow (.sum (v := slice) (l := slice) (r := slice) (mid := slice) (rsize := keySize - pos) rfl hv rfl
      (by simp [natIdx, hp]) (by simp [constU]) (by simp [natIdx]; omega))
    rw [e]
    exact ⟨fun _ => ⟨rfl, hlt⟩, fun _ => ⟨hd, (m.2 hd).2 (by simp)⟩⟩
  · refine ⟨fun ⟨x, hx⟩ => ?_, fun h => (hc h).elim⟩
    have := h2 (fun e h => by
      cases h with
      | sum _ k1 k2 k3 k4 k5 =>
        rw [hv] at k1; cases k1
        simp only [constU, Option.some.injEq, Prod.mk.injEq] at k2
        obtain ⟨rfl, rfl⟩ := k2
        refine hc ⟨?_, ?_⟩
        · simp only [constU, Option.some.injEq] at k4
          split at k4
          · rename_i hq; exact (eq_of_beq hq).symm
          · cases k4
        · simp only [natIdx] at k5
          split at k5
          · cases k5
          · omega)
    exact (List.not_mem_nil ((this.2 x).1 hx)).elim

/-- One run of 250 in a tree with `u8` as index. -/
def exU8 : List (Op Nat Char) := [.new, .insert 0 false [] 0 'a' 250]

/-- Trees of `Constant<char>` with `u8` as index. -/
def exEnvU8 : Env Nat Char := { exEnv with M := 3, ix := natIdx 255 }

/-- Memory after that, and after the insertion of another 100 at index 200, which panics; the leaf is node 0. -/
def exOverflown (cow : Bool) : R (HSt Nat Char × List (Option (Option CRoot)) × Option Fault) := do
  let st ← St.run exEnvU8 1000 cow St.init exU8
  let (s, f) := Try.run (lift st.heap) (.split (constU Char) (natIdx 255) (0, 0) 250 200 'a' 100)
  pure (s, st.trees, f)

/-- C57 is false, with types of the library only: the addition panics, and then `get` gives a reference to the value that was moved out of the
tree (and destroyed). -/
theorem overflow_read_counterexample (cow : Bool) :
    (exOverflown cow).map (fun r => r.2.2) = .ok (some .overflow) ∧ ((exOverflown cow).bind (fun r => readSlot r.1 (0, 0))) = .ok .moved := by
  revert cow
  decide +kernel

/-- The same between two slices: 200 times 'a', 50 times 'b'; 100 times 'a' inserted in between. -/
def exU8' : List (Op Nat Char) := [.new, .insert 0 false [] 0 'a' 200, .insert 0 false [] 200 'b' 50]

/-- Memory after the insertion in between, which panics. -/
def exOverflown' (cow : Bool) : R (HSt Nat Char × List (Option (Option CRoot)) × Option Fault) := do
  let st ← St.run exEnvU8 1000 cow St.init exU8'
  let (s, f) := Try.run (lift st.heap) (.edge (constU Char) (natIdx 255) (some ((0, 0), 200)) (some ((0, 1), 50)) 'a' 100)
  pure (s, st.trees, f)

/-- See `overflow_read_counterexample`; the insertion is between two slices. -/
theorem overflow_read_counterexample' (cow : Bool) :
    (exOverflown' cow).map (fun r => r.2.2) = .ok (some .overflow) ∧ ((exOverflown' cow).bind (fun r => readSlot r.1 (0, 0))) = .ok .moved ∧
    ((exOverflown' cow).bind (fun r => readSlot r.1 (0, 1))) = .ok (.init 'b') := by
  revert cow
  decide +kernel

/-- These are the insertions of `Verif/Insert.lean`: they fail in the same way there. -/
example (cow : Bool) : (St.run exEnvU8 1000 cow St.init (exU8 ++ [.insert 0 false [] 200 'a' 100])).map (fun _ => ()) = .error .overflow ∧
    (St.run exEnvU8 1000 cow St.init (exU8' ++ [.insert 0 false [] 200 'a' 100])).map (fun _ => ()) = .error .overflow := by
  revert cow
  decide +kernel

/-- The hypotheses of the theorems are met here: all places hold a value before. -/
example (cow : Bool) : ∃ st, St.run exEnvU8 1000 cow St.init exU8' = .ok st ∧ Empty (lift st.heap) [] ∧
    slotAt (lift st.heap) (0, 0) = some (.init 'a') ∧ slotAt (lift st.heap) (0, 1) = some (.init 'b') := by
  have h : ∀ cow, ((St.run exEnvU8 1000 cow St.init exU8').map (fun st => (slotAt (lift st.heap) (0, 0), slotAt (lift st.heap) (0, 1)))) =
      .ok (some (.init 'a'), some (.init 'b')) := by decide +kernel
  have h := h cow
  cases hr : St.run exEnvU8 1000 cow St.init exU8' with
  | error f => rw [hr] at h; cases h
  | ok st =>
    rw [hr] at h
    simp only [Except.map, Except.ok.injEq, Prod.mk.injEq] at h
    exact ⟨st, rfl, lift_empty _, h.1, h.2⟩

/-- Dropping the tree then destroys only what is left. -/
example (cow : Bool) : ((exOverflown' cow).bind (fun r => ((r.1.with r.2.1).dropLog r.1.hol 0).map (fun d => d.2.vals))) = .ok [.init 'b'] := by
  revert cow
  decide +kernel

end Sherman.Cow
