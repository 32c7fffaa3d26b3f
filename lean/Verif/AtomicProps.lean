import Verif.Atomic
/-!
# The reference count under concurrency (C25)
-/
namespace Sherman.Atomic
namespace St

/-- What holds in every state. -/
structure Inv (imax : Nat) (s : St) : Prop where
  nb : s.bad = false
  cnt : ∃ m, s.hist.getLast? = some m ∧ m.val = s.live + s.forgotten + s.panicked ∧ m.val ≤ imax + 1 + s.panicked
  kn : s.forgotten + s.panicked = 0 → ∀ m : Msg, s.hist.getLast? = some m → ∀ a : Nat, a < s.accesses.length → a ∈ m.view.acc ∨
    (∃ (h : Nat) (x : Handle), s.handles[h]? = some (some x) ∧ (a ∈ x.excl.acc ∨ a ∈ x.shared.acc)) ∨
    (∃ t, s.dying = some (t, false) ∧ a ∈ (s.view t).acc) ∨ s.lasts = 1 ∧ ∀ t, s.dying ≠ some (t, false)
  two : ∀ (h : Nat) (x : Handle), s.handles[h]? = some (some x) → ∀ (i : Nat) (m : Msg), x.excl.ts ≤ i → x.shared.ts ≤ i →
    i + 1 < s.hist.length → s.hist[i]? = some m → 2 ≤ m.val
  wr : ∀ (h : Nat) (x : Handle), s.handles[h]? = some (some x) → ∀ a : Nat, s.accesses[a]? = some true → a ∈ x.excl.acc
  mx : ∀ (h : Nat) (x : Handle) (t : Nat), s.handles[h]? = some (some x) → x.mutating = some t →
    s.live + s.forgotten + s.panicked = 1 ∧ ∀ a : Nat, a < s.accesses.length → a ∈ x.excl.acc
  fin : (s.lasts = 0 ∧ s.dying = none ∧ s.freed = false ∧ 1 ≤ s.live + s.forgotten + s.panicked) ∨
    (s.lasts = 1 ∧ s.live + s.forgotten + s.panicked = 0 ∧
      ((∃ t, s.dying = some (t, false) ∧ s.freed = false ∧ s.hist.length ≤ (s.view t).ts + 1) ∨
       (∃ t, s.dying = some (t, true) ∧ s.freed = false ∧ ∀ a, a < s.accesses.length → a ∈ (s.view t).acc) ∨
       (s.dying = none ∧ s.freed = true)))

theorem idle_spec {s : St} {h : Nat} {x : Handle} (hx : s.idle h = some x) : s.handles[h]? = some (some x) ∧ x.mutating = none := by
  unfold idle at hx
  split at hx
  · split at hx
    · cases hx
      rename_i hm
      exact ⟨by assumption, by simpa using hm⟩
    · cases hx
  · cases hx

theorem live_set_some {s : St} {h : Nat} {x y : Handle} (hx : s.handles[h]? = some (some x)) :
    (s.setHandle h (some y)).live = s.live := by
  have hlt : h < s.handles.length := (List.getElem?_eq_some_iff.mp hx).1
  have he : s.handles[h] = some x := (List.getElem?_eq_some_iff.mp hx).2
  simp only [setHandle, live, List.countP_set hlt, he]
  have : 0 < s.handles.countP Option.isSome := List.countP_pos_iff.mpr ⟨some x, he ▸ List.getElem_mem hlt, rfl⟩
  simp; omega

theorem live_set_none {s : St} {h : Nat} {x : Handle} (hx : s.handles[h]? = some (some x)) :
    (s.setHandle h none).live + 1 = s.live := by
  have hlt : h < s.handles.length := (List.getElem?_eq_some_iff.mp hx).1
  have he : s.handles[h] = some x := (List.getElem?_eq_some_iff.mp hx).2
  simp only [setHandle, live, List.countP_set hlt, he]
  have : 0 < s.handles.countP Option.isSome := List.countP_pos_iff.mpr ⟨some x, he ▸ List.getElem_mem hlt, rfl⟩
  simp; omega

theorem live_pos {s : St} {h : Nat} {x : Handle} (hx : s.handles[h]? = some (some x)) : 1 ≤ s.live := by
  have := live_set_none hx; omega

/-- Two different handles count twice. -/
theorem live_two {s : St} {h h' : Nat} {x x' : Handle} (hx : s.handles[h]? = some (some x)) (hx' : s.handles[h']? = some (some x'))
    (hne : h' ≠ h) : 2 ≤ s.live := by
  have h1 := live_set_none hx
  have h2 : (s.setHandle h none).handles[h']? = some (some x') := by
    simp only [setHandle]
    rw [List.getElem?_set_ne (Ne.symm hne), hx']
  have := live_pos h2
  omega

theorem get_set {l : List (Option Handle)} {h h' : Nat} {y : Option Handle} {x : Handle} (hx : (l.set h y)[h']? = some (some x)) :
    (h' = h ∧ y = some x) ∨ (h' ≠ h ∧ l[h']? = some (some x)) := by
  rw [List.getElem?_set] at hx
  split at hx
  · rename_i e
    split at hx
    · exact .inl ⟨e.symm, by simpa using hx⟩
    · cases hx
  · rename_i e
    exact .inr ⟨fun e' => e e'.symm, hx⟩


theorem mem_join_l {a b : View} {n : Nat} (h : n ∈ a.acc) : n ∈ (a.join b).acc := List.mem_append_left _ h
theorem mem_join_r {a b : View} {n : Nat} (h : n ∈ b.acc) : n ∈ (a.join b).acc := List.mem_append_right _ h
theorem ts_join_l {a b : View} : a.ts ≤ (a.join b).ts := Nat.le_max_left _ _
theorem ts_join_r {a b : View} : b.ts ≤ (a.join b).ts := Nat.le_max_right _ _

variable {imax : Nat}

theorem Inv.start : Inv imax start where
  nb := rfl
  cnt := ⟨⟨1, ⟨0, []⟩⟩, rfl, rfl, by simp [Atomic.start]⟩
  kn _ m hm a ha := by
    have : a = 0 := by simp [Atomic.start] at ha; omega
    subst this
    exact .inr (.inl ⟨0, ⟨⟨0, [0]⟩, ⟨0, []⟩, none⟩, rfl, .inl (by simp)⟩)
  two h x hx i m _ _ hi := by simp [Atomic.start] at hi
  wr h x hx a ha := by
    have : a = 0 := by
      have := (List.getElem?_eq_some_iff.mp ha).1
      simp [Atomic.start] at this; omega
    subst this
    have : h = 0 := by
      have := (List.getElem?_eq_some_iff.mp hx).1
      simp [Atomic.start] at this; omega
    subst this
    cases hx
    simp
  mx h x t hx hm := by
    have : h = 0 := by
      have := (List.getElem?_eq_some_iff.mp hx).1
      simp [Atomic.start] at this; omega
    subst this
    cases hx
    cases hm
  fin := .inl ⟨rfl, rfl, rfl, by simp [live, Atomic.start]⟩

/-- While there are handles the node is alive. -/
theorem Inv.alive {s : St} (I : Inv imax s) {h : Nat} {x : Handle} (hx : s.handles[h]? = some (some x)) :
    s.lasts = 0 ∧ s.dying = none ∧ s.freed = false := by
  have := live_pos hx
  rcases I.fin with h1 | h1
  · exact ⟨h1.1, h1.2.1, h1.2.2.1⟩
  · omega

/-- A value of one seen by somebody with exclusive access to a handle is the newest, and the handle is the only one. -/
theorem Inv.fresh {s : St} (I : Inv imax s) {h i : Nat} {x : Handle} {m : Msg} (hx : s.handles[h]? = some (some x))
    (hm : s.hist[i]? = some m) (h1 : m.val = 1) (he : x.excl.ts ≤ i) (hs : x.shared.ts ≤ i) :
    s.hist.getLast? = some m ∧ s.live + s.forgotten + s.panicked = 1 := by
  have hlt := (List.getElem?_eq_some_iff.mp hm).1
  have hlast : i + 1 = s.hist.length := by
    rcases Nat.lt_or_ge (i + 1) s.hist.length with h2 | h2
    · have := I.two h x hx i m he hs h2 hm; omega
    · omega
  have : s.hist.getLast? = some m := by
    rw [List.getLast?_eq_getElem?, ← hm]; congr 1; omega
  obtain ⟨m', hm', hv, _⟩ := I.cnt
  rw [this] at hm'; cases hm'
  exact ⟨this, by omega⟩

/-- Synchronisation only adds knowledge. -/
theorem Inv.sync {s : St} (I : Inv imax s) (a b : Nat) : Inv imax (s.setView b ((s.view b).join (s.view a))) := by
  have hv : ∀ t n, n ∈ (s.view t).acc → n ∈ ((s.setView b ((s.view b).join (s.view a))).view t).acc := by
    intro t n hn
    simp only [setView]
    split
    · rename_i e; subst e; exact mem_join_l hn
    · exact hn
  have ht : ∀ t, (s.view t).ts ≤ ((s.setView b ((s.view b).join (s.view a))).view t).ts := by
    intro t
    simp only [setView]
    split
    · rename_i e; subst e; exact ts_join_l
    · exact Nat.le_refl _
  exact {
    nb := I.nb
    cnt := I.cnt
    kn := fun h0 m hm n hn => by
      rcases I.kn h0 m hm n hn with h | h | ⟨t, h, h'⟩ | h
      · exact .inl h
      · exact .inr (.inl h)
      · exact .inr (.inr (.inl ⟨t, h, hv t n h'⟩))
      · exact .inr (.inr (.inr h))
    two := I.two
    wr := I.wr
    mx := I.mx
    fin := by
      rcases I.fin with h | ⟨h1, h2, ⟨t, h3, h4, h5⟩ | ⟨t, h3, h4, h5⟩ | h⟩
      · exact .inl h
      · exact .inr ⟨h1, h2, .inl ⟨t, h3, h4, Nat.le_trans h5 (Nat.succ_le_succ (ht t))⟩⟩
      · exact .inr ⟨h1, h2, .inr (.inl ⟨t, h3, h4, fun n hn => hv t n (h5 n hn)⟩)⟩
      · exact .inr ⟨h1, h2, .inr (.inr h)⟩ }

theorem hist_push {l : List Msg} {m : Msg} {i : Nat} {m' : Msg} (h : (l ++ [m])[i]? = some m') (hi : i + 1 < (l ++ [m]).length) :
    l[i]? = some m' ∧ i < l.length := by
  simp at hi
  rw [List.getElem?_append_left hi] at h
  exact ⟨h, hi⟩

/-- The newest value is at least two if a handle other than `h` exists besides `h`. -/
theorem Inv.two_push {s : St} (I : Inv imax s) {h h' : Nat} {x x' : Handle} (hx : s.handles[h]? = some (some x))
    (hx' : s.handles[h']? = some (some x')) (hne : h' ≠ h) {m : Msg} {i : Nat} {m' : Msg} (he : x'.excl.ts ≤ i) (hs : x'.shared.ts ≤ i)
    (hi : i + 1 < (s.hist ++ [m]).length) (hm : (s.hist ++ [m])[i]? = some m') : 2 ≤ m'.val := by
  obtain ⟨hm, hlt⟩ := hist_push hm hi
  rcases Nat.lt_or_ge (i + 1) s.hist.length with h2 | h2
  · exact I.two h' x' hx' i m' he hs h2 hm
  · obtain ⟨m2, hm2, hv, _⟩ := I.cnt
    rw [List.getLast?_eq_getElem?, show s.hist.length - 1 = i by omega, hm] at hm2
    cases hm2
    have := live_two hx hx' hne
    omega

theorem Inv.clone {s s' : St} (I : Inv imax s) (t h : Nat) (hs : s.clone imax t h = some s') (hp : s'.panicked ≤ imax) : Inv imax s' := by
  unfold St.clone at hs
  simp only [Option.bind_eq_bind, Option.bind_eq_some_iff] at hs
  obtain ⟨x, hx, m, hm, hs⟩ := hs
  obtain ⟨hx, hmut⟩ := idle_spec hx
  obtain ⟨m', hm', hval, hle⟩ := I.cnt
  rw [hm] at hm'; cases hm'
  obtain ⟨hl0, hd0, hf0⟩ := I.alive hx
  have hlpos := live_pos hx
  generalize hv : ({ (s.view t).join x.excl with ts := s.hist.length } : View) = v at hs
  have hvts : v.ts = s.hist.length := by rw [← hv]
  have hvacc : ∀ n, n ∈ x.excl.acc → n ∈ v.acc := fun n hn => by rw [← hv]; exact mem_join_r hn
  generalize hy : ({ x with shared := x.shared.join v } : Handle) = y at hs
  have hye : y.excl = x.excl := by rw [← hy]
  have hym : y.mutating = none := by rw [← hy]; exact hmut
  have hyt : s.hist.length ≤ y.shared.ts := by rw [← hy, ← hvts]; exact ts_join_r
  have hys : ∀ n, n ∈ x.shared.acc → n ∈ y.shared.acc := fun n hn => by rw [← hy]; exact mem_join_l hn
  have hL : (s.handles.set h (some y)).countP Option.isSome = s.live := live_set_some (s := s) hx (y := y)
  have hget : (s.handles.set h (some y))[h]? = some (some y) := by
    rw [List.getElem?_set_self (List.getElem?_eq_some_iff.mp hx).1]
  -- the handles afterwards: `y` at `h`, the others as before, perhaps a new one
  have hkn : ∀ l : List (Option Handle), s.forgotten + s.panicked = 0 → ∀ a : Nat, a < s.accesses.length → a ∈ m.view.acc ∨
      (∃ (h' : Nat) (z : Handle), (s.handles.set h (some y) ++ l)[h']? = some (some z) ∧ (a ∈ z.excl.acc ∨ a ∈ z.shared.acc)) := by
    intro l h0 a ha
    have app : ∀ {h' : Nat} {z : Handle}, (s.handles.set h (some y))[h']? = some (some z) →
        (s.handles.set h (some y) ++ l)[h']? = some (some z) := fun {h' z} e => by
      rw [List.getElem?_append_left (List.getElem?_eq_some_iff.mp e).1, e]
    rcases I.kn h0 m hm a ha with h1 | ⟨h', z, hz, h1⟩ | ⟨t', h1, _⟩ | h1
    · exact .inl h1
    · rcases Decidable.em (h' = h) with e | e
      · subst e
        rw [hx] at hz; cases hz
        exact .inr ⟨h', y, app hget, h1.imp (fun h2 => hye ▸ h2) (hys a)⟩
      · exact .inr ⟨h', z, app (by rw [List.getElem?_set_ne (Ne.symm e), hz]), h1⟩
    · rw [hd0] at h1; cases h1
    · omega
  have hold : ∀ {l : List (Option Handle)} {h' : Nat} {z : Handle}, (s.handles.set h (some y) ++ l)[h']? = some (some z) →
      (h' = h ∧ z = y) ∨ (h' ≠ h ∧ s.handles[h']? = some (some z)) ∨ some z ∈ l := by
    intro l h' z hz
    rcases Nat.lt_or_ge h' (s.handles.set h (some y)).length with h1 | h1
    · rw [List.getElem?_append_left h1] at hz
      rcases get_set hz with h2 | h2
      · exact .inl ⟨h2.1, by simpa using h2.2.symm⟩
      · exact .inr (.inl h2)
    · rw [List.getElem?_append_right h1] at hz
      exact .inr (.inr (List.mem_of_getElem? hz))
  have hnomut : ∀ {h' : Nat} {z : Handle} {u : Nat}, h' ≠ h → s.handles[h']? = some (some z) → z.mutating = some u → False := by
    intro h' z u e hz hu
    have := (I.mx h' z u hz hu).1
    have := live_two hx hz e
    omega
  split at hs
  · rename_i hbig
    cases hs
    simp only [setView, setHandle, push] at hp
    refine ⟨by simp [push, setView, setHandle, I.nb, hf0], ?_, ?_, ?_, ?_, ?_, ?_⟩
    · refine ⟨⟨(m.val + 1) % (2 * imax + 2), m.view⟩, by simp [push, setView, setHandle], ?_, ?_⟩
      · simp only [push, setView, setHandle, live]
        rw [Nat.mod_eq_of_lt (by omega)]; unfold live at hL hval; omega
      · simp only [push, setView, setHandle]
        rw [Nat.mod_eq_of_lt (by omega)]; omega
    · intro h0; exact absurd h0 (by simp)
    · intro h' z hz i m' he hs hi hm'
      simp only [push, setView, setHandle] at hz hi hm'
      rcases get_set hz with ⟨e, e2⟩ | ⟨e, hz⟩
      · cases e2
        simp at hi; omega
      · exact I.two_push hx hz e he hs hi hm'
    · intro h' z hz a ha
      simp only [push, setView, setHandle] at hz ha
      rcases get_set hz with ⟨e, e2⟩ | ⟨e, hz⟩
      · cases e2; exact hye ▸ I.wr h x hx a ha
      · exact I.wr h' z hz a ha
    · intro h' z u hz hu
      simp only [push, setView, setHandle] at hz
      rcases get_set hz with ⟨e, e2⟩ | ⟨e, hz⟩
      · cases e2; rw [hym] at hu; cases hu
      · exact (hnomut e hz hu).elim
    · refine .inl ⟨hl0, hd0, hf0, ?_⟩
      simp only [push, setView, setHandle, live]; unfold live at hL hlpos; omega
  · rename_i hsmall
    cases hs
    simp only [setView, setHandle, push] at hp
    refine ⟨by simp [push, setView, setHandle, I.nb, hf0], ?_, ?_, ?_, ?_, ?_, ?_⟩
    · refine ⟨⟨(m.val + 1) % (2 * imax + 2), m.view⟩, by simp [push, setView, setHandle], ?_, ?_⟩
      · simp only [push, setView, setHandle, live, List.countP_append]
        rw [Nat.mod_eq_of_lt (by omega)]; unfold live at hL hval; simp; omega
      · simp only [push, setView, setHandle]
        rw [Nat.mod_eq_of_lt (by omega)]; omega
    · intro h0 m2 hm2 a ha
      simp only [push, setView, setHandle] at h0 ha hm2 ⊢
      simp at hm2; subst hm2
      rcases hkn _ h0 a ha with h1 | h1
      · exact .inl h1
      · exact .inr (.inl h1)
    · intro h' z hz i m' he hs hi hm'
      simp only [push, setView, setHandle] at hz hi hm'
      rcases hold hz with ⟨e, e2⟩ | ⟨e, hz⟩ | hz
      · subst e2
        simp at hi; omega
      · exact I.two_push hx hz e he hs hi hm'
      · simp at hz; subst hz
        simp at hi; simp at he; omega
    · intro h' z hz a ha
      simp only [push, setView, setHandle] at hz ha
      rcases hold hz with ⟨e, e2⟩ | ⟨e, hz⟩ | hz
      · subst e2; exact hye ▸ I.wr h x hx a ha
      · exact I.wr h' z hz a ha
      · simp at hz; subst hz
        exact hvacc a (I.wr h x hx a ha)
    · intro h' z u hz hu
      simp only [push, setView, setHandle] at hz
      rcases hold hz with ⟨e, e2⟩ | ⟨e, hz⟩ | hz
      · subst e2; rw [hym] at hu; cases hu
      · exact (hnomut e hz hu).elim
      · simp at hz; subst hz; cases hu
    · refine .inl ⟨hl0, hd0, hf0, ?_⟩
      simp only [push, setView, setHandle, live, List.countP_append]; unfold live at hL hlpos; omega

/-- Replacing a handle by one that knows more, without touching the counter. -/
theorem Inv.touch {s s' : St} (I : Inv imax s) {h : Nat} {x y : Handle} (hx : s.handles[h]? = some (some x))
    (hh : s'.handles = s.handles.set h (some y)) (hhist : s'.hist = s.hist) (hb : s'.bad = false)
    (hlasts : s'.lasts = s.lasts) (hd : s'.dying = s.dying) (hf : s'.freed = s.freed) (hfo : s'.forgotten = s.forgotten)
    (hpa : s'.panicked = s.panicked) (hacc : s'.accesses = s.accesses ∨ ∃ b, s'.accesses = s.accesses ++ [b] ∧
      (b = true → s.accesses.length ∈ y.excl.acc ∧ s.live + s.forgotten + s.panicked = 1) ∧
      (s.accesses.length ∈ y.excl.acc ∨ s.accesses.length ∈ y.shared.acc))
    (he : ∀ n, n ∈ x.excl.acc → n ∈ y.excl.acc) (hs : ∀ n, n ∈ x.shared.acc → n ∈ y.shared.acc)
    (hte : x.excl.ts ≤ y.excl.ts) (hts : x.shared.ts ≤ y.shared.ts)
    (hm : ∀ u, y.mutating = some u → s.live + s.forgotten + s.panicked = 1 ∧ ∀ a : Nat, a < s'.accesses.length → a ∈ y.excl.acc) :
    Inv imax s' := by
  obtain ⟨hl0, hd0, hf0⟩ := I.alive hx
  have hlpos := live_pos hx
  have hL : s'.live = s.live := by
    have := live_set_some (s := s) hx (y := y)
    simpa [live, setHandle, hh] using this
  have hget : s'.handles[h]? = some (some y) := by
    rw [hh, List.getElem?_set_self (List.getElem?_eq_some_iff.mp hx).1]
  have hkn : s.forgotten + s.panicked = 0 → ∀ m : Msg, s.hist.getLast? = some m → ∀ a : Nat, a < s.accesses.length → a ∈ m.view.acc ∨
      (∃ (h' : Nat) (z : Handle), s'.handles[h']? = some (some z) ∧ (a ∈ z.excl.acc ∨ a ∈ z.shared.acc)) := by
    intro h0 m hm a ha
    rcases I.kn h0 m hm a ha with h1 | ⟨h', z, hz, h1⟩ | ⟨t', h1, _⟩ | h1
    · exact .inl h1
    · rcases Decidable.em (h' = h) with e | e
      · subst e
        rw [hx] at hz; cases hz
        exact .inr ⟨h', y, hget, h1.imp (he a) (hs a)⟩
      · exact .inr ⟨h', z, by rw [hh, List.getElem?_set_ne (Ne.symm e), hz], h1⟩
    · rw [hd0] at h1; cases h1
    · omega
  refine ⟨hb, ?_, ?_, ?_, ?_, ?_, ?_⟩
  · rw [hhist, hL, hfo, hpa]; exact I.cnt
  · intro h0 m hm a ha
    rw [hfo, hpa] at h0
    rw [hhist] at hm
    rcases Nat.lt_or_ge a s.accesses.length with h1 | h1
    · rcases hkn h0 m hm a h1 with h2 | h2
      · exact .inl h2
      · exact .inr (.inl h2)
    · rcases hacc with h2 | ⟨b, h2, _, h3⟩
      · rw [h2] at ha; omega
      · rw [h2] at ha
        have : a = s.accesses.length := by simp at ha; omega
        subst this
        exact .inr (.inl ⟨h, y, hget, h3⟩)
  · intro h' z hz i m h1 h2 h3 h4
    rw [hhist] at h3 h4
    rw [hh] at hz
    rcases get_set hz with ⟨e, e2⟩ | ⟨e, hz⟩
    · cases e2
      exact I.two h x hx i m (by omega) (by omega) h3 h4
    · exact I.two h' z hz i m h1 h2 h3 h4
  · intro h' z hz a ha
    rw [hh] at hz
    rcases get_set hz with ⟨e, e2⟩ | ⟨e, hz⟩
    · cases e2
      rcases hacc with h2 | ⟨b, h2, h3, _⟩
      · rw [h2] at ha; exact he a (I.wr h x hx a ha)
      · rw [h2] at ha
        rcases Nat.lt_or_ge a s.accesses.length with h1 | h1
        · rw [List.getElem?_append_left h1] at ha
          exact he a (I.wr h x hx a ha)
        · have hlt := (List.getElem?_eq_some_iff.mp ha).1
          have : a = s.accesses.length := by simp at hlt; omega
          subst this
          simp at ha
          exact (h3 ha).1
    · rcases hacc with h2 | ⟨b, h2, h3, _⟩
      · rw [h2] at ha; exact I.wr h' z hz a ha
      · rw [h2] at ha
        rcases Nat.lt_or_ge a s.accesses.length with h1 | h1
        · rw [List.getElem?_append_left h1] at ha
          exact I.wr h' z hz a ha
        · have hlt := (List.getElem?_eq_some_iff.mp ha).1
          have : a = s.accesses.length := by simp at hlt; omega
          subst this
          simp at ha
          have := (h3 ha).2
          have := live_two hx hz e
          omega
  · intro h' z u hz hu
    rw [hL, hfo, hpa]
    rw [hh] at hz
    rcases get_set hz with ⟨e, e2⟩ | ⟨e, hz⟩
    · cases e2
      exact hm u hu
    · have := (I.mx h' z u hz hu).1
      have := live_two hx hz e
      omega
  · refine .inl ⟨by rw [hlasts, hl0], by rw [hd, hd0], by rw [hf, hf0], by rw [hL]; omega⟩

theorem Inv.read {s s' : St} (I : Inv imax s) (t h : Nat) (hs : s.read t h = some s') : Inv imax s' := by
  unfold St.read at hs
  simp only [Option.bind_eq_bind, Option.bind_eq_some_iff] at hs
  obtain ⟨x, hx, hs⟩ := hs
  obtain ⟨hx, hmut⟩ := idle_spec hx
  obtain ⟨hl0, hd0, hf0⟩ := I.alive hx
  cases hs
  refine I.touch hx rfl rfl ?_ rfl rfl rfl rfl rfl (.inr ⟨false, rfl, by simp, .inr (mem_join_r (by simp))⟩) (fun n hn => hn)
    (fun n hn => mem_join_l hn) (Nat.le_refl _) ts_join_l (fun u hu => by simp [hmut] at hu)
  simp only [setHandle, setView, access, I.nb, hf0, Bool.false_or, Bool.not_eq_false', List.all_eq_true, List.mem_range]
  intro a ha
  rcases hw : s.accesses[a]? with _ | b
  · simp
  · cases b
    · simp
    · have := mem_join_r (a := s.view t) (I.wr h x hx a hw)
      simp [this]

theorem Inv.check {s s' : St} (I : Inv imax s) (t h i : Nat) (hs : s.check code t h i = some s') : Inv imax s' := by
  unfold St.check at hs
  simp only [Option.bind_eq_bind, Option.bind_eq_some_iff] at hs
  obtain ⟨x, hx, m, hm, _, hg, hs⟩ := hs
  obtain ⟨hx, hmut⟩ := idle_spec hx
  obtain ⟨hl0, hd0, hf0⟩ := I.alive hx
  have hts : (((s.view t).join x.excl).join x.shared).ts ≤ i := by
    simp only [guard] at hg
    split at hg
    · assumption
    · cases hg
  have h1 : x.excl.ts ≤ i := Nat.le_trans (Nat.le_trans ts_join_r ts_join_l) hts
  have h2 : x.shared.ts ≤ i := Nat.le_trans ts_join_r hts
  cases hs
  refine I.touch hx rfl rfl (by simp [setHandle, setView, I.nb, hf0]) rfl rfl rfl rfl rfl (.inl rfl)
    (fun n hn => List.mem_append_left _ (mem_join_l (mem_join_r hn))) (fun n hn => List.mem_append_left _ (mem_join_r hn)) h1 h2 ?_
  intro u hu
  simp only at hu
  split at hu
  · rename_i hv
    obtain ⟨hlast, hone⟩ := I.fresh hx hm hv h1 h2
    refine ⟨hone, fun a ha => ?_⟩
    have hlpos := live_pos hx
    rcases I.kn (by omega) m hlast a ha with h3 | ⟨h', z, hz, h3⟩ | ⟨t', h3, _⟩ | h3
    · exact List.mem_append_right _ h3
    · rcases Decidable.em (h' = h) with e | e
      · subst e
        rw [hx] at hz; cases hz
        rcases h3 with h3 | h3
        · exact List.mem_append_left _ (mem_join_l (mem_join_r h3))
        · exact List.mem_append_left _ (mem_join_r h3)
      · have := live_two hx hz e
        omega
    · rw [hd0] at h3; cases h3
    · omega
  · cases hu

theorem guard_some {p : Prop} [Decidable p] {u : Unit} (h : (guard p : Option Unit) = some u) : p := by
  simp only [guard] at h
  split at h
  · assumption
  · cases h

theorem Inv.write {s s' : St} (I : Inv imax s) (t h : Nat) (hs : s.write t h = some s') : Inv imax s' := by
  unfold St.write at hs
  split at hs
  · rename_i x hx
    simp only [Option.bind_eq_bind, Option.bind_eq_some_iff] at hs
    obtain ⟨_, hg, hs⟩ := hs
    have hmut := guard_some hg
    obtain ⟨hl0, hd0, hf0⟩ := I.alive hx
    obtain ⟨hone, hall⟩ := I.mx h x t hx hmut
    cases hs
    refine I.touch hx rfl rfl ?_ rfl rfl rfl rfl rfl (.inr ⟨true, rfl, fun _ => ⟨by simp, hone⟩, .inl (by simp)⟩)
      (fun n hn => List.mem_cons_of_mem _ (mem_join_r hn)) (fun n hn => hn) ts_join_r (Nat.le_refl _) ?_
    · simp only [setHandle, setView, access, I.nb, hf0, Bool.false_or, Bool.not_eq_false', List.all_eq_true, List.mem_range]
      intro a ha
      have := mem_join_r (a := s.view t) (hall a ha)
      simp [this]
    · intro u _
      refine ⟨hone, fun a ha => ?_⟩
      simp only [setHandle, setView, access, List.length_append, List.length_singleton] at ha
      rcases Nat.lt_or_ge a s.accesses.length with h1 | h1
      · exact List.mem_cons_of_mem _ (mem_join_r (hall a h1))
      · exact List.mem_cons.mpr (.inl (by omega))
  · cases hs

theorem Inv.done {s s' : St} (I : Inv imax s) (t h : Nat) (hs : s.done t h = some s') : Inv imax s' := by
  unfold St.done at hs
  split at hs
  · rename_i x hx
    simp only [Option.bind_eq_bind, Option.bind_eq_some_iff] at hs
    obtain ⟨_, hg, hs⟩ := hs
    cases hs
    exact I.touch hx rfl rfl I.nb rfl rfl rfl rfl rfl (.inl rfl) (fun n hn => hn) (fun n hn => hn) (Nat.le_refl _) (Nat.le_refl _)
      (fun u hu => by cases hu)
  · cases hs

theorem Inv.drop {s s' : St} (I : Inv imax s) (t h : Nat) (hp : s.panicked ≤ imax) (hs : s.drop imax code t h = some s') : Inv imax s' := by
  unfold St.drop at hs
  simp only [Option.bind_eq_bind, Option.bind_eq_some_iff] at hs
  obtain ⟨x, hx, m, hm, hs⟩ := hs
  obtain ⟨hx, hmut⟩ := idle_spec hx
  obtain ⟨m', hm', hval, hle⟩ := I.cnt
  rw [hm] at hm'; cases hm'
  obtain ⟨hl0, hd0, hf0⟩ := I.alive hx
  have hlpos := live_pos hx
  generalize hv : ({ ((s.view t).join x.excl).join x.shared with ts := s.hist.length } : View) = v at hs
  have hvts : v.ts = s.hist.length := by rw [← hv]
  have hve : ∀ n, n ∈ x.excl.acc → n ∈ v.acc := fun n hn => by rw [← hv]; exact mem_join_l (mem_join_r hn)
  have hvs : ∀ n, n ∈ x.shared.acc → n ∈ v.acc := fun n hn => by rw [← hv]; exact mem_join_r hn
  have hL : (s.handles.set h none).countP Option.isSome + 1 = s.live := live_set_none (s := s) hx
  have hmod : (m.val + (2 * imax + 1)) % (2 * imax + 2) = m.val - 1 := by
    have : m.val + (2 * imax + 1) = (m.val - 1) + (2 * imax + 2) := by omega
    rw [this, Nat.add_mod_right, Nat.mod_eq_of_lt (by omega)]
  have hnone : ∀ {h' : Nat} {z : Handle}, (s.handles.set h none)[h']? = some (some z) → h' ≠ h ∧ s.handles[h']? = some (some z) := by
    intro h' z hz
    rcases get_set hz with ⟨_, e⟩ | h1
    · cases e
    · exact h1
  -- an invariant of the state without the `m.val = 1` part
  have base : ∀ s'' : St, s''.hist = s.hist ++ [⟨m.val - 1, m.view.join v⟩] → s''.handles = s.handles.set h none →
      s''.accesses = s.accesses → s''.bad = false → s''.forgotten = s.forgotten → s''.panicked = s.panicked →
      ((s''.lasts = 0 ∧ s''.dying = none ∧ s''.freed = false ∧ 1 ≤ s''.live + s''.forgotten + s''.panicked) ∨
      (s''.lasts = 1 ∧ s''.live + s''.forgotten + s''.panicked = 0 ∧
        (∃ t, s''.dying = some (t, false) ∧ s''.freed = false ∧ s''.hist.length ≤ (s''.view t).ts + 1))) → Inv imax s'' := by
    intro s'' e1 e2 e3 e4 e5 e6 e7
    refine ⟨e4, ⟨_, by rw [e1]; simp; rfl, ?_, ?_⟩, ?_, ?_, ?_, ?_, ?_⟩
    · clear e7; simp only [live, e2, e5, e6]; omega
    · clear e7; simp only [e6]; omega
    · intro h0 m2 hm2 a ha
      rw [e5, e6] at h0
      rw [e1] at hm2; simp at hm2; subst hm2
      rw [e3] at ha
      rcases I.kn h0 m hm a ha with h1 | ⟨h', z, hz, h1⟩ | ⟨t', h1, _⟩ | h1
      · exact .inl (mem_join_l h1)
      · rcases Decidable.em (h' = h) with e | e
        · subst e
          rw [hx] at hz; cases hz
          exact .inl (mem_join_r (h1.elim (hve a) (hvs a)))
        · exact .inr (.inl ⟨h', z, by rw [e2, List.getElem?_set_ne (Ne.symm e), hz], h1⟩)
      · rw [hd0] at h1; cases h1
      · omega
    · intro h' z hz i m' he hs hi hm'
      rw [e2] at hz
      rw [e1] at hi hm'
      exact I.two_push hx (hnone hz).2 (hnone hz).1 he hs hi hm'
    · intro h' z hz a ha
      rw [e2] at hz
      rw [e3] at ha
      exact I.wr h' z (hnone hz).2 a ha
    · intro h' z u hz hu
      rw [e2] at hz
      have := (I.mx h' z u (hnone hz).2 hu).1
      have := live_two hx (hnone hz).2 (hnone hz).1
      omega
    · rcases e7 with h1 | ⟨h1, h2, h3⟩
      · exact .inl h1
      · exact .inr ⟨h1, h2, .inl h3⟩
  split at hs
  · rename_i hone
    cases hs
    refine base _ (by simp [push, setView, setHandle, hmod, code]) rfl rfl (by simp [push, setView, setHandle, I.nb, hf0]) rfl rfl ?_
    refine .inr ⟨by simp [push, setView, setHandle, hl0], ?_, t, rfl, hf0, ?_⟩
    · simp only [push, setView, setHandle, live]; omega
    · simp [push, setView, setHandle, hvts]
  · rename_i hone
    cases hs
    refine base _ (by simp [push, setView, setHandle, hmod, code]) rfl rfl (by simp [push, setView, setHandle, I.nb, hf0]) rfl rfl ?_
    refine .inl ⟨hl0, hd0, hf0, ?_⟩
    simp only [push, setView, setHandle, live]; omega

theorem Inv.forget {s s' : St} (I : Inv imax s) (h : Nat) (hs : s.forget h = some s') : Inv imax s' := by
  unfold St.forget at hs
  simp only [Option.bind_eq_bind, Option.bind_eq_some_iff] at hs
  obtain ⟨x, hx, hs⟩ := hs
  obtain ⟨hx, hmut⟩ := idle_spec hx
  obtain ⟨hl0, hd0, hf0⟩ := I.alive hx
  have hL : (s.handles.set h none).countP Option.isSome + 1 = s.live := live_set_none (s := s) hx
  have hnone : ∀ {h' : Nat} {z : Handle}, (s.handles.set h none)[h']? = some (some z) → h' ≠ h ∧ s.handles[h']? = some (some z) := by
    intro h' z hz
    rcases get_set hz with ⟨_, e⟩ | h1
    · cases e
    · exact h1
  cases hs
  refine ⟨I.nb, ?_, ?_, ?_, ?_, ?_, ?_⟩
  · obtain ⟨m, h1, h2, h3⟩ := I.cnt
    exact ⟨m, h1, by simp only [setHandle, live]; omega, h3⟩
  · intro h0; simp [setHandle] at h0
  · exact fun h' z hz => I.two h' z (hnone hz).2
  · exact fun h' z hz => I.wr h' z (hnone hz).2
  · intro h' z u hz hu
    have := (I.mx h' z u (hnone hz).2 hu).1
    have := live_two hx (hnone hz).2 (hnone hz).1
    omega
  · exact .inl ⟨hl0, hd0, hf0, by simp only [setHandle, live]; omega⟩

/-- No handles are left. -/
theorem no_handles {s : St} (h0 : s.live + s.forgotten + s.panicked = 0) {h : Nat} {x : Handle} (hx : s.handles[h]? = some (some x)) :
    False := by
  have := live_pos hx
  omega

theorem Inv.load {s s' : St} (I : Inv imax s) (t i : Nat) (hs : s.load code t i = some s') : Inv imax s' := by
  unfold St.load at hs
  simp only [Option.bind_eq_bind, Option.bind_eq_some_iff] at hs
  obtain ⟨_, hg, m, hm, _, hg2, hs⟩ := hs
  have hd := guard_some hg
  have hle := guard_some hg2
  cases hs
  rcases I.fin with h1 | ⟨h1, h0, ⟨t', h3, h4, h5⟩ | ⟨t', h3, _⟩ | h⟩
  · rw [hd] at h1; cases h1.2.1
  · rw [hd] at h3; cases h3
    have hlt := (List.getElem?_eq_some_iff.mp hm).1
    have hlast : s.hist.getLast? = some m := by
      rw [List.getLast?_eq_getElem?, ← hm]; congr 1; omega
    refine ⟨by simp [I.nb, h4], I.cnt, ?_, fun h' z hz => (no_handles h0 hz).elim, fun h' z hz => (no_handles h0 hz).elim,
      fun h' z u hz => (no_handles h0 hz).elim, ?_⟩
    · intro _ m2 hm2 a ha
      exact .inr (.inr (.inr ⟨h1, fun t' => by simp⟩))
    · refine .inr ⟨h1, h0, .inr (.inl ⟨t, rfl, h4, fun a ha => ?_⟩)⟩
      simp only [setView, if_true, acquire, code]
      rcases I.kn (by omega) m hlast a ha with h6 | ⟨h', z, hz, _⟩ | ⟨t', h6, h7⟩ | ⟨_, h6⟩
      · exact List.mem_append_right _ h6
      · exact (no_handles h0 hz).elim
      · rw [hd] at h6; cases h6
        exact List.mem_append_left _ h7
      · exact (h6 t hd).elim
  · rw [hd] at h3; cases h3
  · rw [hd] at h; cases h.1

theorem Inv.destroy {s s' : St} (I : Inv imax s) (t : Nat) (hs : s.destroy t = some s') : Inv imax s' := by
  unfold St.destroy at hs
  simp only [Option.bind_eq_bind, Option.bind_eq_some_iff] at hs
  obtain ⟨_, hg, hs⟩ := hs
  have hd := guard_some hg
  cases hs
  rcases I.fin with h1 | ⟨h1, h0, ⟨t', h3, _⟩ | ⟨t', h3, h4, h5⟩ | h⟩
  · rw [hd] at h1; cases h1.2.1
  · rw [hd] at h3; cases h3
  · rw [hd] at h3; cases h3
    refine ⟨?_, I.cnt, ?_, fun h' z hz => (no_handles h0 hz).elim, fun h' z hz => (no_handles h0 hz).elim,
      fun h' z u hz => (no_handles h0 hz).elim, .inr ⟨h1, h0, .inr (.inr ⟨rfl, rfl⟩)⟩⟩
    · simp only [access, I.nb, h4, Bool.false_or, Bool.not_eq_false', List.all_eq_true, List.mem_range]
      intro a ha
      simp [h5 a ha]
    · intro _ m2 hm2 a ha
      exact .inr (.inr (.inr ⟨h1, fun t' => by simp⟩))
  · rw [hd] at h; cases h.1

/-- A step never takes back a panic. -/
theorem panicked_mono {s s' : St} {o : Orders} (op : Op) (hs : s.step imax o op = some s') : s.panicked ≤ s'.panicked := by
  cases op <;> simp only [step] at hs
  · cases hs; exact Nat.le_refl _
  · unfold St.clone at hs
    simp only [Option.bind_eq_bind, Option.bind_eq_some_iff] at hs
    obtain ⟨x, hx, m, hm, hs⟩ := hs
    split at hs <;> cases hs <;> simp [push, setView, setHandle]
  · unfold St.read at hs
    simp only [Option.bind_eq_bind, Option.bind_eq_some_iff] at hs
    obtain ⟨x, hx, hs⟩ := hs
    cases hs; exact Nat.le_refl _
  · unfold St.check at hs
    simp only [Option.bind_eq_bind, Option.bind_eq_some_iff] at hs
    obtain ⟨x, hx, m, hm, _, _, hs⟩ := hs
    cases hs; exact Nat.le_refl _
  · unfold St.write at hs
    split at hs
    · simp only [Option.bind_eq_bind, Option.bind_eq_some_iff] at hs
      obtain ⟨_, _, hs⟩ := hs
      cases hs; exact Nat.le_refl _
    · cases hs
  · unfold St.done at hs
    split at hs
    · simp only [Option.bind_eq_bind, Option.bind_eq_some_iff] at hs
      obtain ⟨_, _, hs⟩ := hs
      cases hs; exact Nat.le_refl _
    · cases hs
  · unfold St.drop at hs
    simp only [Option.bind_eq_bind, Option.bind_eq_some_iff] at hs
    obtain ⟨x, hx, m, hm, hs⟩ := hs
    split at hs <;> cases hs <;> simp [push, setView, setHandle]
  · unfold St.forget at hs
    simp only [Option.bind_eq_bind, Option.bind_eq_some_iff] at hs
    obtain ⟨x, hx, hs⟩ := hs
    cases hs; exact Nat.le_refl _
  · unfold St.load at hs
    simp only [Option.bind_eq_bind, Option.bind_eq_some_iff] at hs
    obtain ⟨_, _, m, _, _, _, hs⟩ := hs
    cases hs; exact Nat.le_refl _
  · unfold St.destroy at hs
    simp only [Option.bind_eq_bind, Option.bind_eq_some_iff] at hs
    obtain ⟨_, _, hs⟩ := hs
    cases hs; exact Nat.le_refl _

theorem Reach.inv {s : St} (hr : Reach imax code s) : s.panicked ≤ imax → Inv imax s := by
  induction hr with
  | start => intro _; exact .start
  | @step s s' op hr hs ih =>
    intro hp
    have hle := panicked_mono op hs
    have I := ih (Nat.le_trans hle hp)
    cases op <;> simp only [St.step] at hs
    · cases hs; exact I.sync _ _
    · exact I.clone _ _ hs hp
    · exact I.read _ _ hs
    · exact I.check _ _ _ hs
    · exact I.write _ _ hs
    · exact I.done _ _ hs
    · exact I.drop _ _ (Nat.le_trans hle hp) hs
    · exact I.forget _ hs
    · exact I.load _ _ hs
    · exact I.destroy _ hs

/-! ### C25 -/

/-- C25: in no execution is there a data race or an access to a freed node, as long as at most `isize::MAX` calls of `clone` have
panicked. -/
theorem race_free {s : St} (hr : Reach imax code s) (hp : s.panicked ≤ imax) : s.bad = false := (hr.inv hp).nb

/-- C25: as long as a handle exists (or a handle was given to `mem::forget`) no call of `decrement` has returned true and the node has not been
freed; when none is left, exactly one has. -/
theorem one_last {s : St} (hr : Reach imax code s) (hp : s.panicked ≤ imax) :
    (1 ≤ s.live + s.forgotten + s.panicked → s.lasts = 0 ∧ s.freed = false) ∧
    (s.live + s.forgotten + s.panicked = 0 → s.lasts = 1 ∧ (s.freed = true ∨ ∃ t b, s.dying = some (t, b))) := by
  rcases (hr.inv hp).fin with h | ⟨h1, h2, h3⟩
  · exact ⟨fun _ => ⟨h.1, h.2.2.1⟩, fun h0 => by omega⟩
  · refine ⟨fun h0 => by omega, fun _ => ⟨h1, ?_⟩⟩
    rcases h3 with ⟨t, h, _⟩ | ⟨t, h, _⟩ | h
    · exact .inr ⟨t, _, h⟩
    · exact .inr ⟨t, _, h⟩
    · exact .inl h.2

/-- C25: a thread to which `is_unique` has returned true has the only handle, for as long as it has mutable access. -/
theorem unique_is_alone {s : St} (hr : Reach imax code s) (hp : s.panicked ≤ imax) {h : Nat} {x : Handle} {t : Nat}
    (hx : s.handles[h]? = some (some x)) (hm : x.mutating = some t) :
    s.forgotten = 0 ∧ ∀ (h' : Nat) (y : Handle), s.handles[h']? = some (some y) → h' = h := by
  have h1 := ((hr.inv hp).mx h x t hx hm).1
  have := live_pos hx
  refine ⟨by omega, fun h' y hy => Decidable.byContradiction fun e => ?_⟩
  have := live_two hx hy e
  omega

/-- C25: the counter is exact. -/
theorem count_exact {s : St} (hr : Reach imax code s) (hp : s.panicked ≤ imax) :
    ∃ m, s.hist.getLast? = some m ∧ m.val = s.live + s.forgotten + s.panicked :=
  let ⟨m, h1, h2, _⟩ := (hr.inv hp).cnt
  ⟨m, h1, h2⟩

/-- Nobody is aware of values of the counter that do not exist. -/
structure TsOk (s : St) : Prop where
  thr : ∀ t, (s.view t).ts < s.hist.length
  han : ∀ (h : Nat) (x : Handle), s.handles[h]? = some (some x) → x.excl.ts < s.hist.length ∧ x.shared.ts < s.hist.length

theorem TsOk.set {s s' : St} (T : TsOk s) {t : Nat} {v : View} {h : Nat} {y : Option Handle} (hh : s'.handles = s.handles.set h y)
    (hv : s'.view = fun u => if u = t then v else s.view u) (hl : s.hist.length ≤ s'.hist.length) (h1 : v.ts < s'.hist.length)
    (h2 : ∀ x, y = some x → x.excl.ts < s'.hist.length ∧ x.shared.ts < s'.hist.length) : TsOk s' where
  thr u := by
    rw [hv]; dsimp only
    split
    · exact h1
    · exact Nat.lt_of_lt_of_le (T.thr u) hl
  han h' x hx := by
    rw [hh] at hx
    rcases get_set hx with ⟨_, e⟩ | ⟨_, hx⟩
    · exact h2 x e
    · exact ⟨Nat.lt_of_lt_of_le (T.han h' x hx).1 hl, Nat.lt_of_lt_of_le (T.han h' x hx).2 hl⟩

theorem get_snoc {α : Type} {l : List α} {y z : α} {n : Nat} (h : (l ++ [y])[n]? = some z) : l[n]? = some z ∨ z = y := by
  rcases Nat.lt_or_ge n l.length with h1 | h1
  · rw [List.getElem?_append_left h1] at h; exact .inl h
  · rw [List.getElem?_append_right h1] at h
    have := List.mem_of_getElem? h
    simp at this; exact .inr this

theorem ts_join {a b : View} {n : Nat} (h1 : a.ts < n) (h2 : b.ts < n) : (a.join b).ts < n := Nat.max_lt.mpr ⟨h1, h2⟩

theorem Reach.ts {o : Orders} {s : St} (hr : Reach imax o s) : TsOk s := by
  induction hr with
  | start =>
    refine ⟨fun t => by simp [Atomic.start], fun h x hx => ?_⟩
    have : h = 0 := by
      have := (List.getElem?_eq_some_iff.mp hx).1
      simp [Atomic.start] at this; omega
    subst this
    cases hx
    simp [Atomic.start]
  | @step s s' op hr hs T =>
    cases op with
    | sync a b =>
      cases hs
      refine ⟨fun t => ?_, T.han⟩
      simp only [setView]
      split
      · exact ts_join (T.thr _) (T.thr _)
      · exact T.thr t
    | clone t h =>
      simp only [St.step] at hs
      unfold St.clone at hs
      simp only [Option.bind_eq_bind, Option.bind_eq_some_iff] at hs
      obtain ⟨x, hx, m, hm, hs⟩ := hs
      obtain ⟨hx, hmut⟩ := idle_spec hx
      have key := T.set (s' := (((s.push m ((m.val + 1) % (2 * imax + 2)) false
        { (s.view t).join x.excl with ts := s.hist.length }).setView t { (s.view t).join x.excl with ts := s.hist.length }).setHandle h
        (some { x with shared := x.shared.join { (s.view t).join x.excl with ts := s.hist.length } })))
        (t := t) (v := { (s.view t).join x.excl with ts := s.hist.length }) rfl rfl (by simp [push, setView, setHandle])
        (by simp [push, setView, setHandle]) (by
          intro z hz
          simp only [push, setView, setHandle, List.length_append, List.length_singleton]
          cases hz
          exact ⟨Nat.lt_succ_of_lt (T.han h x hx).1, ts_join (Nat.lt_succ_of_lt (T.han h x hx).2) (Nat.lt_succ_self _)⟩)
      split at hs
      · cases hs; exact ⟨key.thr, key.han⟩
      · cases hs
        refine ⟨key.thr, fun h' z hz => ?_⟩
        rcases get_snoc hz with hz | e
        · exact key.han h' z hz
        · cases e
          simp [push, setView, setHandle]
    | read t h =>
      simp only [St.step] at hs
      unfold St.read at hs
      simp only [Option.bind_eq_bind, Option.bind_eq_some_iff] at hs
      obtain ⟨x, hx, hs⟩ := hs
      obtain ⟨hx, hmut⟩ := idle_spec hx
      cases hs
      have hv := ts_join (T.thr t) (T.han h x hx).1
      refine T.set rfl rfl (Nat.le_refl _) hv ?_
      intro z hz; cases hz
      exact ⟨(T.han h x hx).1, ts_join (T.han h x hx).2 hv⟩
    | check t h i =>
      simp only [St.step] at hs
      unfold St.check at hs
      simp only [Option.bind_eq_bind, Option.bind_eq_some_iff] at hs
      obtain ⟨x, hx, m, hm, _, _, hs⟩ := hs
      have hlt := (List.getElem?_eq_some_iff.mp hm).1
      cases hs
      have e : ∀ b v, (acquire m i b v).ts = i := fun b v => by unfold acquire; split <;> rfl
      refine T.set rfl rfl (Nat.le_refl _) (by rw [e]; exact hlt) ?_
      intro z hz; cases hz
      exact ⟨by rw [e]; exact hlt, by rw [e]; exact hlt⟩
    | write t h =>
      simp only [St.step] at hs
      unfold St.write at hs
      split at hs
      · rename_i x hx
        simp only [Option.bind_eq_bind, Option.bind_eq_some_iff] at hs
        obtain ⟨_, _, hs⟩ := hs
        cases hs
        have hv := ts_join (T.thr t) (T.han h x hx).1
        refine T.set rfl rfl (Nat.le_refl _) hv ?_
        intro z hz; cases hz
        exact ⟨hv, (T.han h x hx).2⟩
      · cases hs
    | done t h =>
      simp only [St.step] at hs
      unfold St.done at hs
      split at hs
      · rename_i x hx
        simp only [Option.bind_eq_bind, Option.bind_eq_some_iff] at hs
        obtain ⟨_, _, hs⟩ := hs
        cases hs
        refine ⟨T.thr, fun h' z hz => ?_⟩
        rcases get_set hz with ⟨_, e⟩ | ⟨_, hz⟩
        · cases e; exact T.han h x hx
        · exact T.han h' z hz
      · cases hs
    | drop t h =>
      simp only [St.step] at hs
      unfold St.drop at hs
      simp only [Option.bind_eq_bind, Option.bind_eq_some_iff] at hs
      obtain ⟨x, hx, m, hm, hs⟩ := hs
      split at hs <;> cases hs <;>
      exact T.set (t := t) (h := h) (y := none) rfl rfl (by simp [push, setView, setHandle]) (by simp [push, setView, setHandle])
        (fun z hz => by cases hz)
    | forget t h =>
      simp only [St.step] at hs
      unfold St.forget at hs
      simp only [Option.bind_eq_bind, Option.bind_eq_some_iff] at hs
      obtain ⟨x, hx, hs⟩ := hs
      cases hs
      refine ⟨T.thr, fun h' z hz => ?_⟩
      rcases get_set hz with ⟨_, e⟩ | ⟨_, hz⟩
      · cases e
      · exact T.han h' z hz
    | load t i =>
      simp only [St.step] at hs
      unfold St.load at hs
      simp only [Option.bind_eq_bind, Option.bind_eq_some_iff] at hs
      obtain ⟨_, _, m, hm, _, _, hs⟩ := hs
      have hlt := (List.getElem?_eq_some_iff.mp hm).1
      cases hs
      have e : ∀ b v, (acquire m i b v).ts = i := fun b v => by unfold acquire; split <;> rfl
      refine ⟨fun u => ?_, T.han⟩
      simp only [setView]
      split
      · rw [e]; exact hlt
      · exact T.thr u
    | destroy t =>
      simp only [St.step] at hs
      unfold St.destroy at hs
      simp only [Option.bind_eq_bind, Option.bind_eq_some_iff] at hs
      obtain ⟨_, _, hs⟩ := hs
      cases hs
      exact ⟨T.thr, T.han⟩

/-- C25: whoever has to destroy the node can: the final load returns, and then the destruction is possible. -/
theorem last_can_finish {s : St} {t : Nat} (hr : Reach imax code s) (hp : s.panicked ≤ imax) (hd : s.dying = some (t, false)) :
    ∃ i s1 s2, s.step imax code (.load t i) = some s1 ∧ s1.step imax code (.destroy t) = some s2 ∧ s2.freed = true ∧ s2.bad = false := by
  have T := hr.ts.thr t
  have hm : s.hist[(s.view t).ts]? = some s.hist[(s.view t).ts] := List.getElem?_eq_getElem T
  have h1 : s.step imax code (.load t (s.view t).ts) = some { s.setView t (acquire s.hist[(s.view t).ts] (s.view t).ts true (s.view t)) with dying := some (t, true), bad := s.bad || s.freed } := by
    simp [St.step, St.load, hd, hm, guard, code]
  have h2 : ∀ s1 : St, s1.dying = some (t, true) → s1.step imax code (.destroy t) = some { s1.access true (s1.view t) with freed := true, dying := none } := by
    intro s1 h; simp [St.step, St.destroy, h, guard]
  refine ⟨_, _, _, h1, h2 _ rfl, rfl, ?_⟩
  exact race_free ((hr.step _ h1).step _ (h2 _ rfl)) hp

/-- Steps of a run are reachable. -/
theorem run_reach {o : Orders} {s s' : St} (ops : List Op) (hr : Reach imax o s) (h : s.run imax o ops = some s') : Reach imax o s' := by
  induction ops generalizing s with
  | nil => cases h; exact hr
  | cons op ops ih =>
    simp only [run, Option.bind_eq_bind, Option.bind_eq_some_iff] at h
    obtain ⟨s1, h1, h2⟩ := h
    exact ih (hr.step op h1) h2

/-- Two threads: the second gets a handle, both read, the second drops its handle; the first finds itself unique, writes, and drops the last
handle. -/
def exRun : List Op :=
  [.clone 0 0, .sync 0 1, .read 1 1, .read 0 0, .drop 1 1, .check 0 0 2, .write 0 0, .done 0 0, .drop 0 0, .load 0 3, .destroy 0]

example : ∃ s, Reach 100 code s ∧ s.panicked ≤ 100 ∧ s.freed = true ∧ s.lasts = 1 ∧ s.accesses.length = 5 :=
  ⟨_, run_reach exRun .start rfl, Nat.zero_le 100, rfl, rfl, rfl⟩

/-- A state with mutable access. -/
example : ∃ s x, Reach 100 code s ∧ s.panicked ≤ 100 ∧ s.handles[0]? = some (some x) ∧ x.mutating = some 0 :=
  ⟨_, _, run_reach (exRun.take 6) .start rfl, Nat.zero_le 100, rfl, rfl⟩

/-- A stale load: after the second thread has dropped its handle, the first may still see the count as two. -/
example : ∃ s, Reach 100 code s ∧ s.live = 1 ∧ ∃ s', s.step 100 code (.check 0 0 1) = some s' ∧
    s'.handles.all (fun x => x.all (fun x => x.mutating.isNone)) = true :=
  ⟨_, run_reach (exRun.take 5) .start rfl, rfl, _, rfl, rfl⟩

/-- C25: each of the orderings is needed.  If the load of `is_unique` is relaxed, the write of the first thread races with the read of the
second. -/
theorem relaxed_unique_races : ∃ s, Reach 100 ⟨false, true, true⟩ s ∧ s.panicked ≤ 100 ∧ s.bad = true :=
  ⟨_, run_reach (exRun.take 7) .start rfl, Nat.zero_le 100, rfl⟩

/-- C25: the same if the subtraction of `decrement` is relaxed. -/
theorem relaxed_decrement_races : ∃ s, Reach 100 ⟨true, false, true⟩ s ∧ s.panicked ≤ 100 ∧ s.bad = true :=
  ⟨_, run_reach (exRun.take 7) .start rfl, Nat.zero_le 100, rfl⟩

/-- C25: without the last load of `decrement`, the destructor races with the other thread's read. -/
theorem no_last_load_races : ∃ s, Reach 100 ⟨true, true, false⟩ s ∧ s.panicked ≤ 100 ∧ s.bad = true :=
  ⟨_, run_reach [.clone 0 0, .sync 0 1, .read 1 1, .drop 1 1, .drop 0 0, .load 0 3, .destroy 0] .start rfl, Nat.zero_le 100, rfl⟩

/-- A state in which thread 0 has done nothing but clone its handle. -/
structure Cloned (imax : Nat) (s : St) (v n p : Nat) : Prop where
  reach : Reach imax code s
  last : ∃ m, s.hist.getLast? = some m ∧ m.val = v
  len : s.handles.length = n
  han : ∀ h, h < n → ∃ x, s.handles[h]? = some (some x) ∧ x.mutating = none ∧ ∀ a ∈ x.excl.acc, a = 0
  view : ∀ t, ∀ a ∈ (s.view t).acc, a = 0
  acc : s.accesses = [true]
  pan : s.panicked = p

theorem Cloned.clone {s : St} {v n p : Nat} (C : Cloned imax s v n p) (hn : 0 < n) :
    ∃ s', Cloned imax s' ((v + 1) % (2 * imax + 2)) (if v > imax then n else n + 1) (if v > imax then p + 1 else p) := by
  obtain ⟨m, hm, hv⟩ := C.last
  obtain ⟨x, hx, hmut, hacc⟩ := C.han 0 hn
  have hi : s.idle 0 = some x := by simp [idle, hx, hmut]
  have hz : ∀ a ∈ ((s.view 0).join x.excl).acc, a = 0 := by
    intro a ha
    simp only [View.join, List.mem_append] at ha
    rcases ha with ha | ha
    · exact C.view 0 a ha
    · exact hacc a ha
  have hs : ∃ s', s.step imax code (.clone 0 0) = some s' := by
    simp only [St.step, St.clone, hi, hm, Option.bind_eq_bind, Option.bind_some]
    split <;> exact ⟨_, rfl⟩
  obtain ⟨s', hs⟩ := hs
  have hr := C.reach.step _ hs
  simp only [St.step, St.clone, hi, hm, Option.bind_eq_bind, Option.bind_some] at hs
  refine ⟨s', ?_⟩
  split at hs
  · rename_i hgt
    rw [hv] at hgt
    cases hs
    rw [if_pos hgt, if_pos hgt]
    refine ⟨hr, ⟨⟨(m.val + 1) % (2 * imax + 2), m.view⟩, by simp [push, setView, setHandle], by simp [hv]⟩, by simp [push, setView, setHandle, C.len], ?_, ?_, C.acc, by simp [push, setView, setHandle, C.pan]⟩
    · intro h hh
      by_cases e : h = 0
      · subst e
        have hlt : 0 < s.handles.length := by rw [C.len]; exact hn
        exact ⟨{ x with shared := x.shared.join { (s.view 0).join x.excl with ts := s.hist.length } }, by simp [push, setView, setHandle, hlt], hmut, hacc⟩
      · obtain ⟨y, hy⟩ := C.han h hh
        exact ⟨y, by simpa [push, setView, setHandle, List.getElem?_set, Ne.symm e] using hy.1, hy.2⟩
    · intro t a ha
      simp only [push, setView, setHandle] at ha
      split at ha
      · exact hz a ha
      · exact C.view t a ha
  · rename_i hgt
    rw [hv] at hgt
    cases hs
    rw [if_neg hgt, if_neg hgt]
    refine ⟨hr, ⟨⟨(m.val + 1) % (2 * imax + 2), m.view⟩, by simp [push, setView, setHandle], by simp [hv]⟩, by simp [push, setView, setHandle, C.len], ?_, ?_, C.acc, by simp [push, setView, setHandle, C.pan]⟩
    · intro h hh
      by_cases en : h = n
      · subst en
        refine ⟨⟨{ (s.view 0).join x.excl with ts := s.hist.length }, ⟨0, []⟩, none⟩, ?_, rfl, hz⟩
        simp only [push, setView, setHandle]
        rw [List.getElem?_append_right (by simp [C.len])]
        simp [C.len]
      · have hlt : h < n := by omega
        have hl : h < s.handles.length := by rw [C.len]; exact hlt
        by_cases e : h = 0
        · subst e
          refine ⟨{ x with shared := x.shared.join { (s.view 0).join x.excl with ts := s.hist.length } }, ?_, hmut, hacc⟩
          simp only [push, setView, setHandle]
          rw [List.getElem?_append_left (by simp [C.len, hn]), List.getElem?_set_self hl]
        · obtain ⟨y, hy⟩ := C.han h hlt
          refine ⟨y, ?_, hy.2⟩
          simp only [push, setView, setHandle]
          rw [List.getElem?_append_left (by simp [C.len, hlt]), List.getElem?_set_ne (Ne.symm e)]
          exact hy.1
    · intro t a ha
      simp only [push, setView, setHandle] at ha
      split at ha
      · exact hz a ha
      · exact C.view t a ha

theorem Cloned.start (imax : Nat) : Cloned imax Atomic.start 1 1 0 := by
  refine ⟨.start, ⟨_, rfl, rfl⟩, rfl, ?_, by simp [Atomic.start], rfl, rfl⟩
  intro h hh
  have : h = 0 := by omega
  subst this
  exact ⟨_, rfl, rfl, by simp⟩

/-- Cloning until the next clone would panic. -/
theorem Cloned.fill (imax k : Nat) (hk : k ≤ imax) : ∃ s, Cloned imax s (k + 1) (k + 1) 0 := by
  induction k with
  | zero => exact ⟨_, Cloned.start imax⟩
  | succ k ih =>
    obtain ⟨s, C⟩ := ih (by omega)
    obtain ⟨s', C'⟩ := C.clone (by omega)
    rw [if_neg (by omega), if_neg (by omega), Nat.mod_eq_of_lt (by omega)] at C'
    exact ⟨s', C'⟩

/-- Catching panics: each of them leaves the count one higher. -/
theorem Cloned.spill (imax k : Nat) (hk : k ≤ imax) : ∃ s, Cloned imax s (imax + 1 + k) (imax + 1) k := by
  induction k with
  | zero => exact Cloned.fill imax imax (Nat.le_refl _)
  | succ k ih =>
    obtain ⟨s, C⟩ := ih (by omega)
    obtain ⟨s', C'⟩ := C.clone (by omega)
    rw [if_pos (by omega), if_pos (by omega), Nat.mod_eq_of_lt (by omega)] at C'
    exact ⟨s', C'⟩

/-- C25: the bound on panics in `race_free`, `one_last` and `unique_is_alone` is exact.  `increment` adds before it checks, and does not undo
the addition; one panic more than `isize::MAX` and the count wraps around.  The next clone makes it one although there are `isize::MAX + 2`
handles, and a write by one thread races with a read by another. -/
theorem wrapped_count_races (imax : Nat) : ∃ s, Reach imax code s ∧ s.panicked = imax + 1 ∧ s.bad = true := by
  obtain ⟨s, C⟩ := Cloned.spill imax imax (Nat.le_refl _)
  obtain ⟨s, C⟩ := C.clone (by omega)
  rw [if_pos (by omega), if_pos (by omega), show imax + 1 + imax + 1 = 2 * imax + 2 by omega, Nat.mod_self] at C
  obtain ⟨s, C⟩ := C.clone (by omega)
  rw [if_neg (by omega), if_neg (by omega), Nat.mod_eq_of_lt (by omega)] at C
  obtain ⟨m, hm, hv⟩ := C.last
  obtain ⟨x, hx, hmut, hacc⟩ := C.han 0 (by omega)
  obtain ⟨y, hy, hmuty, haccy⟩ := C.han 1 (by omega)
  have T := C.reach.ts
  have hl : s.hist[s.hist.length - 1]? = some m := by rw [← List.getLast?_eq_getElem?]; exact hm
  have hn := C.len
  -- thread 0 finds the count to be one
  obtain ⟨s1, h1, w1⟩ : ∃ s1, s.step imax code (.check 0 0 (s.hist.length - 1)) = some s1 ∧
      (s1.accesses = [true] ∧ s1.panicked = imax + 1 ∧ s1.view 1 = s.view 1 ∧ s1.handles[1]? = some (some y) ∧
       ∃ x', s1.handles[0]? = some (some x') ∧ x'.mutating = some 0) := by
    have hts : (((s.view 0).join x.excl).join x.shared).ts ≤ s.hist.length - 1 :=
      Nat.le_sub_one_of_lt (ts_join (ts_join (T.thr 0) (T.han 0 x hx).1) (T.han 0 x hx).2)
    have hs : s.step imax code (.check 0 0 (s.hist.length - 1)) = some
        (({ s with bad := s.bad || s.freed }.setView 0 (acquire m (s.hist.length - 1) true (((s.view 0).join x.excl).join x.shared))).setHandle 0
          (some ⟨acquire m (s.hist.length - 1) true (((s.view 0).join x.excl).join x.shared),
            acquire m (s.hist.length - 1) true (((s.view 0).join x.excl).join x.shared), some 0⟩)) := by
      simp [St.step, St.check, idle, hx, hmut, hl, guard, hts, hv, code]
    refine ⟨_, hs, C.acc, C.pan, by simp [setHandle, setView], by simpa [setHandle, setView] using hy, _, List.getElem?_set_self (by simp only [setView]; omega), rfl⟩
  obtain ⟨ha1, hp1, hv1, hy1, x', hx', hmx⟩ := w1
  obtain ⟨s2, h2, w2⟩ : ∃ s2, s1.step imax code (.write 0 0) = some s2 ∧
      (s2.accesses = [true, true] ∧ s2.panicked = imax + 1 ∧ s2.view 1 = s.view 1 ∧ s2.handles[1]? = some (some y)) := by
    have hs : s1.step imax code (.write 0 0) = some
        (((s1.access true ((s1.view 0).join x'.excl)).setView 0
          { (s1.view 0).join x'.excl with acc := s1.accesses.length :: ((s1.view 0).join x'.excl).acc }).setHandle 0
          (some { x' with excl := { (s1.view 0).join x'.excl with acc := s1.accesses.length :: ((s1.view 0).join x'.excl).acc } })) := by
      simp [St.step, St.write, hx', hmx, guard]
    refine ⟨_, hs, by simp [access, setHandle, setView, ha1], hp1, by simp [access, setHandle, setView, hv1], ?_⟩
    simpa [access, setHandle, setView] using hy1
  obtain ⟨ha2, hp2, hv2, hy2⟩ := w2
  obtain ⟨s3, h3, w3⟩ : ∃ s3, s2.step imax code (.read 1 1) = some s3 ∧ (s3.panicked = imax + 1 ∧ s3.bad = true) := by
    have hi : s2.idle 1 = some y := by simp [idle, hy2, hmuty]
    have hs : s2.step imax code (.read 1 1) = some
        (((s2.access false ((s2.view 1).join y.excl)).setView 1
          { (s2.view 1).join y.excl with acc := s2.accesses.length :: ((s2.view 1).join y.excl).acc }).setHandle 1
          (some { y with shared := y.shared.join { (s2.view 1).join y.excl with acc := s2.accesses.length :: ((s2.view 1).join y.excl).acc } })) := by
      simp [St.step, St.read, hi]
    refine ⟨_, hs, hp2, ?_⟩
    have hno : (1 : Nat) ∉ ((s2.view 1).join y.excl).acc := by
      intro h
      simp only [View.join, List.mem_append, hv2] at h
      rcases h with h | h
      · exact absurd (C.view 1 1 h) (by decide)
      · exact absurd (haccy 1 h) (by decide)
    simp only [setHandle, setView, access, ha2, Bool.or_eq_true, Bool.not_eq_true', List.all_eq_false]
    refine .inr ⟨1, by simp, ?_⟩
    simpa using hno
  exact ⟨s3, ((C.reach.step _ h1).step _ h2).step _ h3, w3⟩

end St
end Sherman.Atomic
