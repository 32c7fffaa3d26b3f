import Verif.DestroyProps
/-!
# C30: panics in user code

The places of a node that hold no value are exactly those recorded as holes, whatever `try_join` and `split_at` do and wherever they
panic, so that a drop destroys exactly the values that are there.  What the code does *not* guarantee after a caught panic:

* reading a place that is the only hole of its node (`is_hole` looks at the wrong entry),
* inserting a key left of a hole (the record of holes is not shifted).
-/
namespace Sherman.Cow
variable {I V : Type}

/-! ## Specification -/

/-- The values that are in some places. -/
def present : List (Slot V) → List V
  | [] => []
  | .init v :: l => v :: present l
  | .moved :: l => present l

/-- The places of a node without a value are exactly the recorded holes, which are in order. -/
structure NodeFits (hol : HoleArr) (l : List (Slot V)) : Prop where
  mem : ∀ k, l[k]? = some .moved ↔ hol.1 = some (k + 1) ∨ hol.2 = some (k + 1)
  pos : hol.1 ≠ some 0 ∧ hol.2 ≠ some 0
  snd : hol.2 = none → hol.1 = none
  lt : ∀ a b, hol.1 = some a → hol.2 = some b → a < b

/-- The places of a node. -/
def slots (nd : HNode I (Slot V)) : List (Slot V) := nd.keys.map (·.slice)

/-- All nodes in memory have exactly the recorded holes. -/
def ExactHoles (s : HSt I V) : Prop := ∀ p nd, s.heap.mem p = some nd → NodeFits (s.hol p) (slots nd)

/-- The place behind a handle: address of a node, index of a key. -/
def slotAt (s : HSt I V) (hd : Nat × Nat) : Option (Slot V) :=
  match s.heap.mem hd.1 with
  | none => none
  | some nd => (slots nd)[hd.2]?

/-! ## `do_drop` destroys what is there -/

theorem present_append (a b : List (Slot V)) : present (a ++ b) = present a ++ present b := by
  induction a with
  | nil => rfl
  | cons x a ih => cases x <;> simp [present, ih]

theorem present_all {l : List (Slot V)} (h : ∀ k : Nat, l[k]? ≠ some .moved) : l = (present l).map .init := by
  induction l with
  | nil => rfl
  | cons x l ih =>
    have h0 := h 0
    cases x with
    | moved => simp at h0
    | init v =>
      simp only [present, List.map_cons]
      rw [← ih (fun k => by simpa using h (k + 1))]

theorem split_at_moved {l : List (Slot V)} {k : Nat} (h : l[k]? = some .moved) : l = l.take k ++ .moved :: l.drop (k + 1) := by
  have hk : k < l.length := by
    by_contra hc
    rw [List.getElem?_eq_none (by omega)] at h; cases h
  rw [List.getElem?_eq_getElem hk] at h
  conv => lhs; rw [← List.take_append_drop k l, List.drop_eq_getElem_cons hk, Option.some.inj h]

theorem get_lt {α : Type} {l : List α} {k : Nat} {a : α} (h : l[k]? = some a) : k < l.length := by
  by_contra hc
  rw [List.getElem?_eq_none (by omega)] at h; cases h

/-- The values destroyed are exactly those present, in order. -/
theorem dropVals_fits {hol : HoleArr} {l : List (Slot V)} (h : NodeFits hol l) : dropVals hol l = .ok ((present l).map .init) := by
  obtain ⟨h1, h2, h3, h4⟩ := h
  obtain ⟨a, b⟩ := hol
  cases b with
  | none =>
    have ha : a = none := h3 rfl
    subst ha
    simp only [dropVals, R.pure_eq]
    rw [← present_all (fun k hk => by have := (h1 k).1 hk; simp at this)]
  | some b =>
    obtain ⟨b, rfl⟩ : ∃ b', b = b' + 1 := ⟨b - 1, by have := h2.2; simp at this; omega⟩
    have hb := (h1 b).2 (.inr rfl)
    have hbl := get_lt hb
    cases a with
    | none =>
      simp only [dropVals, Nat.add_sub_cancel, hbl, decide_true, weakAssert_true, R.bind_ok, R.pure_eq]
      have e := split_at_moved hb
      have e1 : ∀ k : Nat, (l.take b)[k]? ≠ some .moved := fun k hk => by
        have hkl := get_lt hk
        rw [List.getElem?_take_of_lt (by simp at hkl; omega)] at hk
        have := (h1 k).1 hk
        simp at this hkl
        omega
      have e2 : ∀ k : Nat, (l.drop (b + 1))[k]? ≠ some .moved := fun k hk => by
        rw [List.getElem?_drop] at hk
        have := (h1 _).1 hk
        simp at this
        omega
      conv => rhs; rw [e, present_append]
      simp only [present, List.map_append]
      rw [← present_all e1, ← present_all e2]
    | some a =>
      obtain ⟨a, rfl⟩ : ∃ a', a = a' + 1 := ⟨a - 1, by have := h2.1; simp at this; omega⟩
      have hab : a < b := by have := h4 _ _ rfl rfl; omega
      have ha := (h1 a).2 (.inl rfl)
      simp only [dropVals, Nat.add_sub_cancel, hbl, hab, decide_true, weakAssert_true, R.bind_ok, R.pure_eq]
      have e := split_at_moved hb
      have ha' : (l.take b)[a]? = some .moved := by rw [List.getElem?_take_of_lt hab]; exact ha
      have e' := split_at_moved ha'
      have e1 : ∀ k : Nat, (l.take a)[k]? ≠ some .moved := fun k hk => by
        have hkl := get_lt hk
        rw [List.getElem?_take_of_lt (by simp at hkl; omega)] at hk
        have := (h1 k).1 hk
        simp at this hkl
        omega
      have e2 : ∀ k : Nat, (l.drop (b + 1))[k]? ≠ some .moved := fun k hk => by
        rw [List.getElem?_drop] at hk
        have := (h1 _).1 hk
        simp at this
        omega
      have e3 : ∀ k : Nat, ((l.take b).drop (a + 1))[k]? ≠ some .moved := fun k hk => by
        have hkl := get_lt hk
        rw [List.getElem?_drop] at hk
        rw [List.getElem?_take_of_lt (by simp at hkl; omega)] at hk
        have := (h1 _).1 hk
        simp at this hkl
        omega
      have e0 : (l.take b).take a = l.take a := by rw [List.take_take, Nat.min_eq_left (by omega)]
      rw [e0] at e'
      conv => rhs; rw [e, present_append, e', present_append]
      simp only [present, List.map_append]
      rw [← present_all e1, ← present_all e2, ← present_all e3]

theorem ExactHoles.holesFit {s : HSt I V} (h : ExactHoles s) : HolesFit s.hol s.heap := fun p nd hm => ⟨_, dropVals_fits (h p nd hm)⟩

/-! ## Taking and putting back -/

theorem takeHoles_fits {hol hol' : HoleArr} {l : List (Slot V)} {k : Nat} (h : NodeFits hol l) (hk : k < l.length)
    (e : takeHoles hol k = .ok hol') : (∃ v, l[k]? = some (.init v)) ∧ NodeFits hol' (l.set k .moved) := by
  obtain ⟨h1, h2, h3, h4⟩ := h
  obtain ⟨a, b⟩ := hol
  have fin : ∀ hol' : HoleArr, (∀ j, (hol'.1 = some (j + 1) ∨ hol'.2 = some (j + 1)) ↔ j = k ∨ (a = some (j + 1) ∨ b = some (j + 1))) →
      ¬ (a = some (k + 1) ∨ b = some (k + 1)) →
      (∃ v, l[k]? = some (.init v)) ∧ ∀ j, (l.set k .moved)[j]? = some .moved ↔ hol'.1 = some (j + 1) ∨ hol'.2 = some (j + 1) := by
    intro hol' hh hn
    refine ⟨?_, fun j => ?_⟩
    · rw [← h1] at hn
      rw [List.getElem?_eq_getElem hk] at hn ⊢
      cases hs : l[k] with
      | init v => exact ⟨v, rfl⟩
      | moved => rw [hs] at hn; exact (hn rfl).elim
    · rw [hh]
      by_cases hj : j = k
      · subst hj; simp [List.getElem?_set_self hk]
      · rw [List.getElem?_set_ne (Ne.symm hj), h1]
        simp [hj]
  simp only [ne_eq] at h2 h3 h4 fin
  cases a with
  | none =>
    cases b with
    | none =>
      simp only [takeHoles, Except.ok.injEq] at e
      subst e
      obtain ⟨f1, f2⟩ := fin (none, some (k + 1)) (fun j => by simp [eq_comm]) (by simp)
      exact ⟨f1, f2, by simp, by simp, by simp⟩
    | some b =>
      simp only [takeHoles] at e
      split at e
      · rename_i hlt
        cases e
        obtain ⟨f1, f2⟩ := fin (some b, some (k + 1)) (fun j => by simp; omega) (by simp; omega)
        exact ⟨f1, f2, by simpa using h2.2, by simp, by simp; omega⟩
      · split at e
        · rename_i hlt
          cases e
          obtain ⟨f1, f2⟩ := fin (some (k + 1), some b) (fun j => by simp; omega) (by simp; omega)
          exact ⟨f1, f2, by simpa using h2.2, by simp, by simp; omega⟩
        · cases e
  | some a =>
    cases b with
    | none => simp [takeHoles] at e
    | some b =>
      simp only [takeHoles] at e
      split at e <;> cases e

theorem fillHoles_fits {hol hol' : HoleArr} {l : List (Slot V)} {k : Nat} (v : V) (h : NodeFits hol l) (hk : k < l.length)
    (e : fillHoles hol k = .ok hol') : l[k]? = some .moved ∧ NodeFits hol' (l.set k (.init v)) := by
  obtain ⟨h1, h2, h3, h4⟩ := h
  obtain ⟨a, b⟩ := hol
  have fin : ∀ hol' : HoleArr, (∀ j, (hol'.1 = some (j + 1) ∨ hol'.2 = some (j + 1)) ↔ j ≠ k ∧ (a = some (j + 1) ∨ b = some (j + 1))) →
      ∀ j, (l.set k (.init v))[j]? = some .moved ↔ hol'.1 = some (j + 1) ∨ hol'.2 = some (j + 1) := by
    intro hol' hh j
    rw [hh]
    by_cases hj : j = k
    · subst hj; simp [List.getElem?_set_self hk]
    · rw [List.getElem?_set_ne (Ne.symm hj), h1]
      simp [hj]
  simp only [ne_eq] at h2 h3 h4 fin h1
  simp only [fillHoles] at e
  split at e
  · rename_i hb
    cases e
    subst hb
    refine ⟨(h1 k).2 (.inr rfl), fin _ (fun j => ?_), ⟨by simp, h2.1⟩, fun _ => rfl, by simp⟩
    cases a with
    | none => simp; omega
    | some a => have := h4 _ _ rfl rfl; simp; omega
  · split at e
    · rename_i hb ha
      cases e
      subst ha
      refine ⟨(h1 k).2 (.inl rfl), fin _ (fun j => ?_), ⟨by simp, h2.2⟩, fun _ => rfl, by simp⟩
      cases b with
      | none => simp at h3
      | some b => have := h4 _ _ rfl rfl; simp; omega
    · cases e

/-- Memory is the same except for places and holes of some nodes. -/
structure SameNodes (s s' : HSt I V) : Prop where
  next : s'.heap.next = s.heap.next
  mem : ∀ p, (s.heap.mem p).map (fun nd => (nd.count, nd.height, nd.size, nd.kids, nd.keys.map (fun k => (k.pos, k.ref)))) =
    (s'.heap.mem p).map (fun nd => (nd.count, nd.height, nd.size, nd.kids, nd.keys.map (fun k => (k.pos, k.ref))))

theorem SameNodes.refl (s : HSt I V) : SameNodes s s := ⟨rfl, fun _ => rfl⟩

theorem SameNodes.trans {a b c : HSt I V} (x : SameNodes a b) (y : SameNodes b c) : SameNodes a c :=
  ⟨y.next.trans x.next, fun p => (x.mem p).trans (y.mem p)⟩

/-- A computation that only takes values out of the given places, and puts values back: it keeps the record of holes exact, whether it
panics or not, never reads a place without a value, and changes no other place. -/
structure Careful {α : Type} (hs : List (Nat × Nat)) (m : HM I V α) : Prop where
  fits : ∀ s, ExactHoles s → ExactHoles (m s).1
  same : ∀ s, SameNodes s (m s).1
  other : ∀ s hd, hd ∉ hs → slotAt (m s).1 hd = slotAt s hd
  noUb : ∀ s e, ExactHoles s → (∀ hd ∈ hs, slotAt s hd ≠ none) → (m s).2 = .error e → ∀ msg, e ≠ .ub msg

theorem SameNodes.slotAt_none {s s' : HSt I V} (h : SameNodes s s') (hd : Nat × Nat) : slotAt s' hd = none ↔ slotAt s hd = none := by
  have := h.mem hd.1
  unfold slotAt
  cases h1 : s.heap.mem hd.1 with
  | none =>
    rw [h1] at this
    cases h2 : s'.heap.mem hd.1 with
    | none => simp
    | some nd' => rw [h2] at this; simp at this
  | some nd =>
    rw [h1] at this
    cases h2 : s'.heap.mem hd.1 with
    | none => rw [h2] at this; simp at this
    | some nd' =>
      rw [h2] at this
      simp only [Option.map_some, Option.some.injEq, Prod.mk.injEq] at this
      have hl := congrArg List.length this.2.2.2.2
      simp only [List.length_map] at hl
      simp only [List.getElem?_eq_none_iff, slots, List.length_map]
      omega

theorem Careful.pure {α : Type} (hs : List (Nat × Nat)) (a : α) : Careful hs (HM.pure a : HM I V α) :=
  ⟨fun _ h => h, fun s => .refl s, fun _ _ _ => rfl, fun _ _ _ _ h => by cases h⟩

theorem Careful.fail {α : Type} (hs : List (Nat × Nat)) {f : Fault} (hf : ∀ msg, f ≠ .ub msg) : Careful hs (HM.fail f : HM I V α) :=
  ⟨fun _ h => h, fun s => .refl s, fun _ _ _ => rfl, fun _ _ _ _ h => by cases h; exact hf⟩

theorem Careful.bind {α β : Type} {hs : List (Nat × Nat)} {m : HM I V α} {f : α → HM I V β} (hm : Careful hs m) (hf : ∀ a, Careful hs (f a)) :
    Careful hs (m >>= f) := by
  have key : ∀ s, (∃ a, m s = ((m s).1, .ok a) ∧ (m >>= f) s = f a (m s).1) ∨ (∃ e, m s = ((m s).1, .error e) ∧ (m >>= f) s = ((m s).1, .error e)) := by
    intro s
    show (∃ a, _ ∧ HM.bind m f s = _) ∨ (∃ e, _ ∧ HM.bind m f s = _)
    unfold HM.bind
    cases h : m s with
    | mk s' r =>
      cases r with
      | ok a => exact .inl ⟨a, rfl, rfl⟩
      | error e => exact .inr ⟨e, rfl, rfl⟩
  refine ⟨fun s h => ?_, fun s => ?_, fun s hd hn => ?_, fun s e h hv he => ?_⟩
  · rcases key s with ⟨a, -, e⟩ | ⟨_, -, e⟩ <;> rw [e]
    · exact (hf a).fits _ (hm.fits s h)
    · exact hm.fits s h
  · rcases key s with ⟨a, -, e⟩ | ⟨_, -, e⟩ <;> rw [e]
    · exact (hm.same s).trans ((hf a).same _)
    · exact hm.same s
  · rcases key s with ⟨a, -, e⟩ | ⟨_, -, e⟩ <;> rw [e]
    · rw [(hf a).other _ hd hn, hm.other s hd hn]
    · exact hm.other s hd hn
  · rcases key s with ⟨a, -, e'⟩ | ⟨e1, e2, e'⟩ <;> rw [e'] at he
    · exact (hf a).noUb _ e (hm.fits s h) (fun hd hh hc => hv hd hh (((hm.same s).slotAt_none hd).1 hc)) he
    · cases he
      exact hm.noUb s e h hv (by rw [e2])

theorem map_set_slice {l : List (Key I (Slot V))} {k : Nat} {key : Key I (Slot V)} (v : Slot V) :
    (l.set k { key with slice := v }).map (·.slice) = (l.map (·.slice)).set k v := by
  rw [List.map_set]

theorem write_fits {s : HSt I V} (h : ExactHoles s) {p : Nat} {nd : HNode I (Slot V)} {k : Nat} {key : Key I (Slot V)}
    {v : Slot V} {hol : HoleArr} (hf : NodeFits hol ((slots nd).set k v)) : ExactHoles (s.write p nd k key v hol) := by
  intro q n hq
  simp only [HSt.write, Heap.put] at hq ⊢
  by_cases e : q = p
  · subst e
    simp only [if_true, Option.some.injEq] at hq ⊢
    subst hq
    simp only [slots, map_set_slice]
    exact hf
  · simp only [e, if_false] at hq ⊢
    exact h q n hq

theorem write_same {s : HSt I V} {p : Nat} {nd : HNode I (Slot V)} (hm : s.heap.mem p = some nd) {k : Nat} {key : Key I (Slot V)}
    (hk : nd.keys[k]? = some key) (v : Slot V) (hol : HoleArr) : SameNodes s (s.write p nd k key v hol) := by
  refine ⟨rfl, fun q => ?_⟩
  simp only [HSt.write, Heap.put]
  by_cases e : q = p
  · subst e
    simp only [hm, if_true, Option.map_some, List.map_set, Option.some.injEq, Prod.mk.injEq, true_and]
    have : (nd.keys.map (fun k => (k.pos, k.ref)))[k]? = some (key.pos, key.ref) := by simp [hk]
    apply List.ext_getElem?
    intro j
    by_cases hj : j = k
    · subst hj
      rw [List.getElem?_set_self (by simpa using get_lt hk), this]
    · rw [List.getElem?_set_ne (Ne.symm hj)]
  · simp only [e, if_false]

theorem write_other {s : HSt I V} {p : Nat} {nd : HNode I (Slot V)} (hm : s.heap.mem p = some nd) {k : Nat} {key : Key I (Slot V)}
    (v : Slot V) (hol : HoleArr) {hd : Nat × Nat} (hn : hd ≠ (p, k)) : slotAt (s.write p nd k key v hol) hd = slotAt s hd := by
  obtain ⟨q, j⟩ := hd
  simp only [slotAt, HSt.write, Heap.put]
  by_cases e : q = p
  · subst e
    simp only [if_true, hm, slots, map_set_slice]
    rw [List.getElem?_set_ne (by rintro rfl; exact hn rfl)]
  · simp only [e, if_false]

theorem write_self {s : HSt I V} {p : Nat} {nd : HNode I (Slot V)} {k : Nat} {key : Key I (Slot V)}
    (hk : nd.keys[k]? = some key) (v : Slot V) (hol : HoleArr) : slotAt (s.write p nd k key v hol) (p, k) = some v := by
  simp only [slotAt, HSt.write, Heap.put, if_true, slots, map_set_slice]
  exact List.getElem?_set_self (by simpa using get_lt hk)

theorem slots_get {nd : HNode I (Slot V)} {k : Nat} {key : Key I (Slot V)} (hk : nd.keys[k]? = some key) :
    (slots nd)[k]? = some key.slice := by simp [slots, hk]

theorem takeHoles_noUb {hol : HoleArr} {l : List (Slot V)} (h : NodeFits hol l) {k : Nat} {e : Fault} (he : takeHoles hol k = .error e) (msg : String) :
    e ≠ .ub msg := by
  obtain ⟨a, b⟩ := hol
  have h3 := h.snd
  cases a with
  | none =>
    cases b with
    | none => simp [takeHoles] at he
    | some b =>
      simp only [takeHoles] at he
      split at he
      · cases he
      · split at he
        · cases he
        · cases he; simp
  | some a =>
    cases b with
    | none => simp at h3
    | some b =>
      simp only [takeHoles] at he
      split at he <;> cases he <;> simp

theorem takeValue_careful (hd : Nat × Nat) {hs : List (Nat × Nat)} (hin : hd ∈ hs) : Careful hs (takeValue hd : HM I V V) := by
  constructor
  · intro s h
    unfold takeValue
    split
    · exact h
    · rename_i nd hm
      split
      · exact h
      · rename_i key hk
        split
        · exact h
        · rename_i hol he
          obtain ⟨⟨v, f1⟩, f2⟩ := takeHoles_fits (h _ _ hm) (get_lt (slots_get hk)) he
          rw [slots_get hk] at f1
          rw [Option.some.inj f1]
          exact write_fits h f2
  · intro s
    unfold takeValue
    split
    · exact .refl s
    · rename_i nd hm
      split
      · exact .refl s
      · rename_i key hk
        split
        · exact .refl s
        · split
          · exact .refl s
          · exact write_same hm hk _ _
  · intro s hd' hn
    unfold takeValue
    split
    · rfl
    · rename_i nd hm
      split
      · rfl
      · rename_i key hk
        split
        · rfl
        · split
          · rfl
          · exact write_other hm _ _ (by rintro rfl; exact hn hin)
  · intro s e h hv he
    have hv := hv hd hin
    unfold takeValue at he
    unfold slotAt at hv
    split at he
    · rename_i hm; rw [hm] at hv; exact (hv rfl).elim
    · rename_i nd hm
      rw [hm] at hv
      split at he
      · rename_i hk; exact (hv (by simp [slots, hk])).elim
      · rename_i key hk
        split at he
        · rename_i e' ht
          cases he
          exact takeHoles_noUb (h _ _ hm) ht
        · rename_i hol ht
          obtain ⟨⟨v, f1⟩, f2⟩ := takeHoles_fits (h _ _ hm) (get_lt (slots_get hk)) ht
          rw [slots_get hk] at f1
          rw [Option.some.inj f1] at he
          cases he

theorem fillHole_careful (hd : Nat × Nat) (v : V) {hs : List (Nat × Nat)} (hin : hd ∈ hs) : Careful hs (fillHole hd v : HM I V Unit) := by
  constructor
  · intro s h
    unfold fillHole
    split
    · exact h
    · rename_i nd hm
      split
      · exact h
      · rename_i key hk
        split
        · exact h
        · rename_i hol he
          exact write_fits h (fillHoles_fits v (h _ _ hm) (get_lt (slots_get hk)) he).2
  · intro s
    unfold fillHole
    split
    · exact .refl s
    · rename_i nd hm
      split
      · exact .refl s
      · rename_i key hk
        split
        · exact .refl s
        · exact write_same hm hk _ _
  · intro s hd' hn
    unfold fillHole
    split
    · rfl
    · rename_i nd hm
      split
      · rfl
      · rename_i key hk
        split
        · rfl
        · exact write_other hm _ _ (by rintro rfl; exact hn hin)
  · intro s e h hv he
    have hv := hv hd hin
    unfold fillHole at he
    unfold slotAt at hv
    split at he
    · rename_i hm; rw [hm] at hv; exact (hv rfl).elim
    · rename_i nd hm
      rw [hm] at hv
      split at he
      · rename_i hk; exact (hv (by simp [slots, hk])).elim
      · split at he
        · rename_i e' ht
          cases he
          simp only [fillHoles] at ht
          split at ht
          · cases ht
          · split at ht
            · cases ht
            · cases ht; simp
        · cases he

theorem userPanic_noUb (msg : String) : userPanic ≠ .ub msg := by simp [userPanic]

theorem join_careful (u : UserOps I V) (a b : V) (hs : List (Nat × Nat)) : Careful hs (u.join a b) := by
  unfold UserOps.join
  split
  · exact .pure _ _
  · exact .fail _ userPanic_noUb

theorem split_careful (u : UserOps I V) (a : V) (i : I) (hs : List (Nat × Nat)) : Careful hs (u.split a i) := by
  unfold UserOps.split
  split
  · exact .pure _ _
  · exact .fail _ userPanic_noUb

theorem edgePhase_careful (u : UserOps I V) (lhs rhs : Option (Nat × Nat)) (slice : V) : Careful (lhs.toList ++ rhs.toList) (edgePhase u lhs rhs slice) := by
  unfold edgePhase
  split
  · exact .pure _ _
  · cases lhs with
    | none =>
      cases rhs with
      | none => exact .fail _ (by simp)
      | some r =>
        refine (takeValue_careful r (by simp)).bind (fun rs => (join_careful u _ _ _).bind (fun x => ?_))
        rcases x with new | ⟨s, rs⟩
        · exact (fillHole_careful r _ (by simp)).bind (fun _ => .pure _ _)
        · exact (fillHole_careful r _ (by simp)).bind (fun _ => .pure _ _)
    | some l =>
      cases rhs with
      | none =>
        refine (takeValue_careful l (by simp)).bind (fun rs => (join_careful u _ _ _).bind (fun x => ?_))
        rcases x with new | ⟨s, rs⟩
        · exact (fillHole_careful l _ (by simp)).bind (fun _ => .pure _ _)
        · exact (fillHole_careful l _ (by simp)).bind (fun _ => .pure _ _)
      | some r =>
        refine (takeValue_careful l (by simp)).bind (fun rs => (join_careful u _ _ _).bind (fun x => ?_))
        rcases x with mid | ⟨ls, s⟩
        · refine (takeValue_careful r (by simp)).bind (fun rs => (join_careful u _ _ _).bind (fun x => ?_))
          rcases x with new | ⟨mid, rs⟩
          · exact (fillHole_careful l _ (by simp)).bind (fun _ => .fail _ (by simp))
          · exact (fillHole_careful r _ (by simp)).bind (fun _ => (fillHole_careful l _ (by simp)).bind (fun _ => .pure _ _))
        · refine (fillHole_careful l _ (by simp)).bind (fun _ => (takeValue_careful r (by simp)).bind (fun rs => (join_careful u _ _ _).bind (fun x => ?_)))
          rcases x with new | ⟨s, rs⟩
          · exact (fillHole_careful r _ (by simp)).bind (fun _ => .pure _ _)
          · exact (fillHole_careful r _ (by simp)).bind (fun _ => .pure _ _)

theorem splitPhase_careful (u : UserOps I V) (hd : Nat × Nat) (pos : I) (slice : V) : Careful [hd] (splitPhase u hd pos slice) := by
  unfold splitPhase
  refine Careful.bind (f := _) ?_ (fun rhs => ?_)
  · exact (takeValue_careful hd (by simp)).bind (fun v => (split_careful u _ _ _).bind (fun x => (fillHole_careful hd _ (by simp)).bind (fun _ => .pure _ _)))
  · split
    · exact .pure _ _
    · refine (takeValue_careful hd (by simp)).bind (fun v => (join_careful u _ _ _).bind (fun x => ?_))
      rcases x with mid | ⟨l, s⟩
      · refine (join_careful u _ _ _).bind (fun x => ?_)
        rcases x with new | ⟨l, r⟩
        · exact (fillHole_careful hd _ (by simp)).bind (fun _ => .pure _ _)
        · exact (fillHole_careful hd _ (by simp)).bind (fun _ => .pure _ _)
      · refine (fillHole_careful hd _ (by simp)).bind (fun _ => (join_careful u _ _ _).bind (fun x => ?_))
        rcases x with new | ⟨s, r⟩
        · exact .pure _ _
        · exact .pure _ _

/-! ## Without a panic no hole is left -/

theorem takeValue_moved {hd : Nat × Nat} {s s' : HSt I V} {v : V} (h : takeValue hd s = (s', .ok v)) :
    slotAt s hd = some (.init v) ∧ ∀ x, slotAt s' x = some .moved ↔ slotAt s x = some .moved ∨ x = hd := by
  unfold takeValue at h
  split at h
  · cases h
  · rename_i nd hm
    split at h
    · cases h
    · rename_i key hk
      split at h
      · cases h
      · split at h
        · cases h
        · rename_i v' hv
          cases h
          refine ⟨by simp [slotAt, hm, slots, hk, hv], fun x => ?_⟩
          by_cases hx : x = hd
          · subst hx
            simp only [or_true, iff_true]
            exact write_self hk _ _
          · rw [write_other hm _ _ hx]
            simp [hx]

theorem fillHole_moved {hd : Nat × Nat} {s s' : HSt I V} {v : V} {r : Unit} (h : fillHole hd v s = (s', .ok r)) :
    ∀ x, slotAt s' x = some .moved ↔ slotAt s x = some .moved ∧ x ≠ hd := by
  unfold fillHole at h
  split at h
  · cases h
  · rename_i nd hm
    split at h
    · cases h
    · rename_i key hk
      split at h
      · cases h
      · cases h
        intro x
        by_cases hx : x = hd
        · subst hx
          have := write_self (s := s) (p := x.1) (nd := nd) hk (.init v) (by assumption)
          rw [show ((x.1, x.2) : Nat × Nat) = x from rfl] at this
          rw [this]
          simp
        · rw [write_other hm _ _ hx]
          simp [hx]

theorem HM.bind_ok {α β : Type} {m : HM I V α} {f : α → HM I V β} {s s' : HSt I V} {b : β} (h : (m >>= f) s = (s', .ok b)) :
    ∃ s1 a, m s = (s1, .ok a) ∧ f a s1 = (s', .ok b) := by
  change HM.bind m f s = _ at h
  unfold HM.bind at h
  cases hm : m s with
  | mk s1 r =>
    rw [hm] at h
    cases r with
    | ok a => exact ⟨s1, a, rfl, h⟩
    | error e => cases h

theorem HM.pure_ok {α : Type} {a b : α} {s s' : HSt I V} (h : (HM.pure a : HM I V α) s = (s', .ok b)) : s' = s ∧ b = a := by
  cases h; exact ⟨rfl, rfl⟩

theorem join_ok {u : UserOps I V} {a b : V} {s s' : HSt I V} {r : V ⊕ V × V} (h : u.join a b s = (s', .ok r)) : s' = s := by
  unfold UserOps.join at h
  cases hj : u.tryJoin a b with
  | none => rw [hj] at h; cases h
  | some x => rw [hj] at h; cases h; rfl

theorem split_ok {u : UserOps I V} {a : V} {i : I} {s s' : HSt I V} {r : V × V} (h : u.split a i s = (s', .ok r)) : s' = s := by
  unfold UserOps.split at h
  cases hj : u.splitAt a i with
  | none => rw [hj] at h; cases h
  | some x => rw [hj] at h; cases h; rfl

/-- If the user code of an insertion at an edge does not panic, then afterwards there are no more empty places than before. -/
theorem edgePhase_ok_holes {u : UserOps I V} {lhs rhs : Option (Nat × Nat)} {slice : V} {s s' : HSt I V} {r : Option V}
    (h : edgePhase u lhs rhs slice s = (s', .ok r)) (x : Nat × Nat) : slotAt s' x = some .moved ↔ slotAt s x = some .moved := by
  unfold edgePhase at h
  split at h
  · obtain ⟨rfl, -⟩ := HM.pure_ok h; rfl
  · split at h
    · cases h
    · rename_i l
      obtain ⟨s1, v, h1, h⟩ := HM.bind_ok h
      obtain ⟨s2, j, h2, h⟩ := HM.bind_ok h
      cases join_ok h2
      obtain ⟨t1, t2⟩ := takeValue_moved h1
      split at h
      all_goals
        obtain ⟨s3, _, h3, h⟩ := HM.bind_ok h
        obtain ⟨rfl, -⟩ := HM.pure_ok h
        rw [fillHole_moved h3, t2]
        constructor
        · rintro ⟨a | a, b⟩
          · exact a
          · exact (b a).elim
        · intro a
          exact ⟨.inl a, fun e => by rw [e, t1] at a; cases a⟩
    · rename_i l
      obtain ⟨s1, v, h1, h⟩ := HM.bind_ok h
      obtain ⟨s2, j, h2, h⟩ := HM.bind_ok h
      cases join_ok h2
      obtain ⟨t1, t2⟩ := takeValue_moved h1
      split at h
      all_goals
        obtain ⟨s3, _, h3, h⟩ := HM.bind_ok h
        obtain ⟨rfl, -⟩ := HM.pure_ok h
        rw [fillHole_moved h3, t2]
        constructor
        · rintro ⟨a | a, b⟩
          · exact a
          · exact (b a).elim
        · intro a
          exact ⟨.inl a, fun e => by rw [e, t1] at a; cases a⟩
    · rename_i l r'
      obtain ⟨s1, v, h1, h⟩ := HM.bind_ok h
      obtain ⟨s2, j, h2, h⟩ := HM.bind_ok h
      cases join_ok h2
      obtain ⟨t1, t2⟩ := takeValue_moved h1
      split at h
      · obtain ⟨s3, v', h3, h⟩ := HM.bind_ok h
        obtain ⟨s4, j', h4, h⟩ := HM.bind_ok h
        cases join_ok h4
        obtain ⟨u1, u2⟩ := takeValue_moved h3
        split at h
        · obtain ⟨s5, _, h5, h⟩ := HM.bind_ok h
          cases h
        · obtain ⟨s5, _, h5, h⟩ := HM.bind_ok h
          obtain ⟨s6, _, h6, h⟩ := HM.bind_ok h
          obtain ⟨rfl, -⟩ := HM.pure_ok h
          rw [fillHole_moved h6, fillHole_moved h5, u2, t2]
          constructor
          · rintro ⟨⟨(a | a) | a, b⟩, c⟩
            · exact a
            · exact (c a).elim
            · exact (b a).elim
          · intro a
            refine ⟨⟨.inl (.inl a), fun e => ?_⟩, fun e => by rw [e, t1] at a; cases a⟩
            have := (t2 x).2 (.inl a)
            rw [e, u1] at this; cases this
      · obtain ⟨s2, _, hf, h⟩ := HM.bind_ok h
        obtain ⟨s3, v', h3, h⟩ := HM.bind_ok h
        obtain ⟨s4, j', h4, h⟩ := HM.bind_ok h
        cases join_ok h4
        obtain ⟨u1, u2⟩ := takeValue_moved h3
        have f1 := fillHole_moved hf
        have f2 : ∀ x, slotAt s2 x = some .moved ↔ slotAt s x = some .moved := by
          intro x
          rw [f1, t2]
          constructor
          · rintro ⟨a | a, b⟩
            · exact a
            · exact (b a).elim
          · intro a
            exact ⟨.inl a, fun e => by rw [e, t1] at a; cases a⟩
        split at h
        all_goals
          obtain ⟨s5, _, h5, h⟩ := HM.bind_ok h
          obtain ⟨rfl, -⟩ := HM.pure_ok h
          rw [fillHole_moved h5, u2, ← f2]
          constructor
          · rintro ⟨a | a, b⟩
            · exact a
            · exact (b a).elim
          · intro a
            exact ⟨.inl a, fun e => by rw [e, u1] at a; cases a⟩

/-- The same for an insertion inside of a key. -/
theorem splitPhase_ok_holes {u : UserOps I V} {hd : Nat × Nat} {pos : I} {slice : V} {s s' : HSt I V} {r : List V}
    (h : splitPhase u hd pos slice s = (s', .ok r)) (x : Nat × Nat) : slotAt s' x = some .moved ↔ slotAt s x = some .moved := by
  have back : ∀ {s s1 s2 : HSt I V} {v w : V} {q : Unit}, takeValue hd s = (s1, .ok v) → fillHole hd w s1 = (s2, .ok q) →
      ∀ x, slotAt s2 x = some .moved ↔ slotAt s x = some .moved := by
    intro s s1 s2 v w q h1 h2 x
    obtain ⟨t1, t2⟩ := takeValue_moved h1
    rw [fillHole_moved h2, t2]
    constructor
    · rintro ⟨a | a, b⟩
      · exact a
      · exact (b a).elim
    · intro a
      exact ⟨.inl a, fun e => by rw [e, t1] at a; cases a⟩
  unfold splitPhase at h
  obtain ⟨s1, rv, h1, h⟩ := HM.bind_ok h
  have hw : ∀ x, slotAt s1 x = some .moved ↔ slotAt s x = some .moved := by
    unfold withSplit at h1
    obtain ⟨s2, v, g1, h1⟩ := HM.bind_ok h1
    obtain ⟨s3, lr, g2, h1⟩ := HM.bind_ok h1
    cases split_ok g2
    obtain ⟨s4, _, g3, h1⟩ := HM.bind_ok h1
    obtain ⟨rfl, -⟩ := HM.pure_ok h1
    exact back g1 g3
  rw [← hw x]
  split at h
  · obtain ⟨rfl, -⟩ := HM.pure_ok h; rfl
  · obtain ⟨s2, v, g1, h⟩ := HM.bind_ok h
    obtain ⟨s3, j, g2, h⟩ := HM.bind_ok h
    cases join_ok g2
    split at h
    · obtain ⟨s3, j, g2, h⟩ := HM.bind_ok h
      cases join_ok g2
      split at h
      all_goals
        obtain ⟨s4, _, g3, h⟩ := HM.bind_ok h
        obtain ⟨rfl, -⟩ := HM.pure_ok h
        exact back g1 g3 x
    · obtain ⟨s4, _, g3, h⟩ := HM.bind_ok h
      obtain ⟨s5, j, g2, h⟩ := HM.bind_ok h
      cases join_ok g2
      split at h
      all_goals
        obtain ⟨rfl, -⟩ := HM.pure_ok h
        exact back g1 g3 x

/-! ## Memory with holes and the trees in it -/

/-- Reference counts and shape do not depend on the values. -/
theorem Inv.congr {S S' : Type} {H : Heap I S} {H' : Heap I S'} {out : Nat → Nat} (hi : Inv H out) (hn : H'.next = H.next)
    (hm : ∀ p, (H.mem p).map (fun nd => (nd.count, nd.height, nd.kids)) = (H'.mem p).map (fun nd => (nd.count, nd.height, nd.kids))) :
    Inv H' out := by
  have h1 : ∀ p nd', H'.mem p = some nd' → ∃ nd, H.mem p = some nd ∧ nd.count = nd'.count ∧ nd.height = nd'.height ∧ nd.kids = nd'.kids := by
    intro p nd' h
    have := hm p
    rw [h] at this
    cases h0 : H.mem p with
    | none => rw [h0] at this; cases this
    | some nd =>
      rw [h0] at this
      simp only [Option.map_some, Option.some.injEq, Prod.mk.injEq] at this
      exact ⟨nd, rfl, this⟩
  have h2 : ∀ p nd, H.mem p = some nd → ∃ nd', H'.mem p = some nd' ∧ nd.count = nd'.count ∧ nd.height = nd'.height ∧ nd.kids = nd'.kids := by
    intro p nd h
    have := hm p
    rw [h] at this
    cases h0 : H'.mem p with
    | none => rw [h0] at this; cases this
    | some nd' =>
      rw [h0] at this
      simp only [Option.map_some, Option.some.injEq, Prod.mk.injEq] at this
      exact ⟨nd', rfl, this⟩
  have hr : ∀ p, refsOf (H'.mem p) = refsOf (H.mem p) := by
    intro p
    cases h0 : H'.mem p with
    | none =>
      cases h : H.mem p with
      | none => rfl
      | some nd =>
        obtain ⟨nd', e, -⟩ := h2 p nd h
        rw [h0] at e; cases e
    | some nd' =>
      obtain ⟨nd, e1, -, e2, e3⟩ := h1 p nd' h0
      rw [e1]
      simp only [refsOf, e2, e3]
  have hc : ∀ p, Cow.cnt H' p = Cow.cnt H p := by
    intro p
    cases h0 : H'.mem p with
    | none =>
      cases h : H.mem p with
      | none => rw [cnt_none h, cnt_none h0]
      | some nd =>
        obtain ⟨nd', e, -⟩ := h2 p nd h
        rw [h0] at e; cases e
    | some nd' =>
      obtain ⟨nd, e1, e2, -, -⟩ := h1 p nd' h0
      rw [cnt_some e1, cnt_some h0, e2]
  refine ⟨fun x => ?_, fun p nd h => ?_, fun p nd h => ?_, fun p nd h q hq => ?_, fun p nd h h0 q hq => ?_⟩
  · rw [hc, hi.cnt]
    simp only [refsIn, hn, hr]
  · obtain ⟨nd0, e, -⟩ := h1 p nd h
    rw [hn]; exact hi.lt p nd0 e
  · obtain ⟨nd0, e, e2, -⟩ := h1 p nd h
    rw [← e2]; exact hi.pos p nd0 e
  · obtain ⟨nd0, e, -, e3, -⟩ := h1 p nd h
    rw [← h, hr, e] at hq
    obtain ⟨nq, f1, f2⟩ := hi.ht p nd0 e q hq
    obtain ⟨nq', g1, -, g3, -⟩ := h2 q nq f1
    exact ⟨nq', g1, by rw [← g3, f2, e3]⟩
  · obtain ⟨nd0, e, -, e3, e4⟩ := h1 p nd h
    rw [← e4] at hq
    exact hi.leaf p nd0 e (by rw [e3]; exact h0) q hq

theorem St.Ok.congr {S S' : Type} {st : St I S} {st' : St I S'} (ok : st.Ok) (ht : st'.trees = st.trees) (hn : st'.heap.next = st.heap.next)
    (hm : ∀ p, (st.heap.mem p).map (fun nd => (nd.count, nd.height, nd.kids)) =
      (st'.heap.mem p).map (fun nd => (nd.count, nd.height, nd.kids))) : st'.Ok := by
  refine ⟨by rw [ht]; exact ok.inv.congr hn hm, fun i r h => ?_⟩
  rw [ht] at h
  obtain ⟨nd, h1, h2⟩ := ok.root i r h
  have := hm r.p
  rw [h1] at this
  cases h0 : st'.heap.mem r.p with
  | none => rw [h0] at this; cases this
  | some nd' =>
    rw [h0] at this
    simp only [Option.map_some, Option.some.injEq, Prod.mk.injEq] at this
    exact ⟨nd', rfl, by rw [← this.2.1]; exact h2⟩

theorem holds_congr {S S' : Type} {st : St I S} {st' : St I S'} (ht : st'.trees = st.trees)
    (hm : ∀ p, (st.heap.mem p).map (fun nd => (nd.count, nd.height, nd.kids)) =
      (st'.heap.mem p).map (fun nd => (nd.count, nd.height, nd.kids))) {i x : Nat} (h : Holds st i x) : Holds st' i x := by
  induction h with
  | root h => exact .root (by rw [ht]; exact h)
  | @child p nd q _ hp h0 hq ih =>
    have := hm p
    rw [hp] at this
    cases h1 : st'.heap.mem p with
    | none => rw [h1] at this; cases this
    | some nd' =>
      rw [h1] at this
      simp only [Option.map_some, Option.some.injEq, Prod.mk.injEq] at this
      exact .child ih h1 (by rw [← this.2.1]; exact h0) (by rw [← this.2.2]; exact hq)

/-- A key whose place holds its slice. -/
def liftKey (k : Key I V) : Key I (Slot V) := ⟨k.pos, .init k.slice, k.ref⟩

/-- Memory in which all places hold their slices. -/
def lift (H : Heap I V) : HSt I V :=
  ⟨⟨fun p => (H.mem p).map (fun nd => ⟨nd.count, nd.height, nd.size, nd.keys.map liftKey, nd.kids⟩), H.next⟩, noHoles⟩

theorem lift_exact (H : Heap I V) : ExactHoles (lift H) := by
  intro p nd h
  simp only [lift, Option.map_eq_some_iff] at h
  obtain ⟨nd0, -, rfl⟩ := h
  refine ⟨fun k => ?_, by simp [lift, noHoles], by simp [lift, noHoles], by simp [lift, noHoles]⟩
  simp only [slots, lift, noHoles, List.map_map, List.getElem?_map, Option.map_eq_some_iff, Function.comp_apply, liftKey]
  simp

theorem lift_mem (H : Heap I V) (p : Nat) : (H.mem p).map (fun nd => (nd.count, nd.height, nd.kids)) =
    ((lift H).heap.mem p).map (fun nd => (nd.count, nd.height, nd.kids)) := by
  simp only [lift]
  cases H.mem p <;> rfl

theorem SameNodes.mem3 {s s' : HSt I V} (h : SameNodes s s') (p : Nat) : (s.heap.mem p).map (fun nd => (nd.count, nd.height, nd.kids)) =
    (s'.heap.mem p).map (fun nd => (nd.count, nd.height, nd.kids)) := by
  have := congrArg (Option.map (fun (x : Nat × Nat × I × List Nat × List (I × Option Nat)) => (x.1, x.2.1, x.2.2.2.1))) (h.mem p)
  simpa only [Option.map_map, Function.comp_def] using this

/-- Trees in memory with holes. -/
def HSt.with (s : HSt I V) (trees : List (Option (Option CRoot))) : St I (Slot V) := ⟨s.heap, trees⟩

/-- The values in a node. -/
def presentAt (s : HSt I V) (x : Nat) : List V :=
  match s.heap.mem x with
  | none => []
  | some nd => present (slots nd)

theorem kept_exact {s : HSt I V} (h : ExactHoles s) (x : Nat) : kept s.hol s.heap x = (presentAt s x).map .init := by
  unfold kept presentAt
  cases hm : s.heap.mem x with
  | none => rfl
  | some nd => simp only [dropVals_fits (h x nd hm), show nd.keys.map (·.slice) = slots nd from rfl]

theorem flatMap_map' {α β γ : Type} (f : α → List β) (g : β → γ) (l : List α) : l.flatMap (fun x => (f x).map g) = (l.flatMap f).map g := by
  induction l with
  | nil => rfl
  | cons a l ih => simp [ih]

/-- A drop of a tree with holes: exactly the values that are in freed nodes are destroyed, each once; no empty place is touched.  What is
left is in order, so that further trees can be dropped. -/
theorem exact_drop {s : HSt I V} (h : ExactHoles s) {trees : List (Option (Option CRoot))} (ok : (s.with trees).Ok) {i : Nat} {o : Option CRoot}
    (hi : trees[i]? = some (some o)) :
    ∃ st' nodes, (s.with trees).dropLog s.hol i = .ok (st', ⟨(nodes.flatMap (presentAt s)).map .init, nodes⟩) ∧ nodes.Nodup ∧
      (∀ x, x ∈ nodes ↔ Holds (s.with trees) i x ∧ ∀ j, j ≠ i → ¬ Holds (s.with trees) j x) ∧
      ExactHoles ⟨st'.heap, s.hol⟩ ∧ st'.Ok ∧ st'.trees = trees.set i none := by
  obtain ⟨st', e, ok', htr, hl, -⟩ := drop_step ok hi
  obtain ⟨g, e', hg⟩ := St.dropLog_ok h.holesFit e
  refine ⟨st', g.nodes, ?_, hg.nodup, drop_nodes ok ok' (lt_of_get hi) htr hg, fun p nd hm => ?_, ok', htr⟩
  · rw [e', ← flatMap_map']
    have : g.vals = g.nodes.flatMap (fun x => (presentAt s x).map .init) := by
      rw [hg.vals]
      exact flatMap_congr' (fun x _ => kept_exact h x)
    rw [← this]
  · obtain ⟨nd0, h1, h2⟩ := hl p nd hm
    have := h p nd0 h1
    simp only [slots, h2.2.2.1] at this
    exact this

/-- An insertion as far as its user code is concerned: at an edge next to one or two keys, or inside of a key.  The functions of the slice may
panic, and may be different each time. -/
inductive Attempt (I V : Type) where
  | edge (u : UserOps I V) (lhs rhs : Option (Nat × Nat)) (slice : V)
  | split (u : UserOps I V) (hd : Nat × Nat) (pos : I) (slice : V)

def Attempt.run (s : HSt I V) : Attempt I V → HSt I V × Option Fault
  | .edge u lhs rhs slice => match edgePhase u lhs rhs slice s with
    | (s, .ok _) => (s, none)
    | (s, .error e) => (s, some e)
  | .split u hd pos slice => match splitPhase u hd pos slice s with
    | (s, .ok _) => (s, none)
    | (s, .error e) => (s, some e)

/-- The keys next to which it inserts. -/
def Attempt.keys : Attempt I V → List (Nat × Nat)
  | .edge _ lhs rhs _ => lhs.toList ++ rhs.toList
  | .split _ hd _ _ => [hd]

theorem Attempt.ok (s : HSt I V) (a : Attempt I V) : (ExactHoles s → ExactHoles (a.run s).1) ∧ SameNodes s (a.run s).1 ∧
    (∀ hd, hd ∉ a.keys → slotAt (a.run s).1 hd = slotAt s hd) ∧
    (ExactHoles s → (∀ hd ∈ a.keys, slotAt s hd ≠ none) → ∀ msg, (a.run s).2 ≠ some (.ub msg)) := by
  cases a with
  | edge u lhs rhs slice =>
    have c := edgePhase_careful u lhs rhs slice
    have h1 := c.fits s; have h2 := c.same s; have h3 := c.other s; have h4 := c.noUb s
    simp only [Attempt.run, Attempt.keys]
    cases hr : edgePhase u lhs rhs slice s with
    | mk s' r =>
      rw [hr] at h1 h2 h3 h4
      cases r with
      | ok a => exact ⟨h1, h2, h3, fun _ _ _ => by simp⟩
      | error e => exact ⟨h1, h2, h3, fun hx hv msg => by simpa using h4 e hx hv rfl msg⟩
  | split u hd pos slice =>
    have c := splitPhase_careful u hd pos slice
    have h1 := c.fits s; have h2 := c.same s; have h3 := c.other s; have h4 := c.noUb s
    simp only [Attempt.run, Attempt.keys]
    cases hr : splitPhase u hd pos slice s with
    | mk s' r =>
      rw [hr] at h1 h2 h3 h4
      cases r with
      | ok a => exact ⟨h1, h2, h3, fun _ _ _ => by simp⟩
      | error e => exact ⟨h1, h2, h3, fun hx hv msg => by simpa using h4 e hx hv rfl msg⟩

/-- Several attempts. -/
def attempts (s : HSt I V) (as : List (Attempt I V)) : HSt I V := as.foldl (fun s a => (a.run s).1) s

theorem attempts_ok (s : HSt I V) (as : List (Attempt I V)) : (ExactHoles s → ExactHoles (attempts s as)) ∧ SameNodes s (attempts s as) ∧
    ∀ hd, (∀ a ∈ as, hd ∉ a.keys) → slotAt (attempts s as) hd = slotAt s hd := by
  induction as generalizing s with
  | nil => exact ⟨fun h => h, .refl s, fun _ _ => rfl⟩
  | cons a as ih =>
    obtain ⟨h1, h2, h3, -⟩ := a.ok s
    obtain ⟨g1, g2, g3⟩ := ih (a.run s).1
    refine ⟨fun h => g1 (h1 h), h2.trans g2, fun hd hn => ?_⟩
    show slotAt (attempts (a.run s).1 as) hd = _
    rw [g3 hd (fun a' ha' => hn a' (by simp [ha'])), h3 hd (hn a (by simp))]

/-- C30, as far as it is true: after any program, let the user code of any number of insertions panic anywhere.  Then

* no attempt reads an empty place or violates another precondition;
* the places of all other keys still hold their slices;
* dropping a tree frees the nodes that only this tree holds, once each, and destroys exactly the values in them, once each.

Missing: other uses of the tree after a caught panic, see `read_after_panic_counterexample` and `insert_after_panic_counterexample`. -/
theorem panics_then_drop_partial {MAX imax : Nat} {E : Env Nat V} (hE : E.ix = natIdx MAX) (hM : 1 ≤ E.M) (hM' : E.M ≤ 127) {cow : Bool}
    {ops : List (Op Nat V)} (hops : ∀ op ∈ ops, op.fits MAX) {st : St Nat V} (h : St.run E imax cow St.init ops = .ok st)
    (as : List (Attempt Nat V)) :
    (∀ bs a, bs ++ [a] <+: as → (∀ hd ∈ a.keys, slotAt (lift st.heap) hd ≠ none) → ∀ msg, (a.run (attempts (lift st.heap) bs)).2 ≠ some (.ub msg)) ∧
    (∀ hd, (∀ a ∈ as, hd ∉ a.keys) → slotAt (attempts (lift st.heap) as) hd = slotAt (lift st.heap) hd) ∧
    ∀ i es, runsOf st i = .ok es →
      ∃ st' nodes, ((attempts (lift st.heap) as).with st.trees).dropLog (attempts (lift st.heap) as).hol i =
          .ok (st', ⟨(nodes.flatMap (presentAt (attempts (lift st.heap) as))).map .init, nodes⟩) ∧ nodes.Nodup ∧
        (∀ x, x ∈ nodes ↔ Holds st i x ∧ ∀ j, j ≠ i → ¬ Holds st j x) ∧
        ExactHoles ⟨st'.heap, (attempts (lift st.heap) as).hol⟩ ∧ st'.Ok := by
  obtain ⟨ss, -, h2⟩ := run_sound hE hM hM' hops h
  obtain ⟨g1, g2, g3⟩ := attempts_ok (lift st.heap) as
  refine ⟨fun bs a _ hv => ?_, g3, fun i es hi => ?_⟩
  · obtain ⟨k1, k2, -⟩ := attempts_ok (lift st.heap) bs
    exact (a.ok _).2.2.2 (k1 (lift_exact _)) (fun hd hh hc => hv hd hh ((k2.slotAt_none hd).1 hc))
  · have hx := g1 (lift_exact _)
    have hm : ∀ p, (st.heap.mem p).map (fun nd => (nd.count, nd.height, nd.kids)) =
        ((attempts (lift st.heap) as).heap.mem p).map (fun nd => (nd.count, nd.height, nd.kids)) :=
      fun p => (lift_mem st.heap p).trans (g2.mem3 p)
    have ok' : ((attempts (lift st.heap) as).with st.trees).Ok := h2.ok.congr rfl g2.next hm
    simp only [runsOf, bind_ok_iff] at hi
    obtain ⟨t, hv, -⟩ := hi
    obtain ⟨o, ho⟩ := view_tree hv
    obtain ⟨st', nodes, e1, e2, e3, e4, e5, -⟩ := exact_drop hx ok' ho
    refine ⟨st', nodes, e1, e2, fun x => ?_, e4, e5⟩
    have hh : ∀ j, Holds ((attempts (lift st.heap) as).with st.trees) j x ↔ Holds st j x := fun j =>
      ⟨fun h => holds_congr (st := (attempts (lift st.heap) as).with st.trees) (st' := st) rfl (fun p => (hm p).symm) h,
        fun h => holds_congr (st := st) (st' := (attempts (lift st.heap) as).with st.trees) rfl hm h⟩
    rw [e3, hh]
    simp only [hh]

/-! ## What is not true -/

/-- `is_hole` recognises a hole only if it is the first of two; a place without a value that is the only hole of its node is read. -/
theorem readSlot_exact {s : HSt I V} (h : ExactHoles s) {p k : Nat} (hs : slotAt s (p, k) = some .moved) :
    readSlot s (p, k) = if (s.hol p).1 = some (k + 1) then .error (.panic "invalid state") else .ok .moved := by
  unfold slotAt at hs
  cases hm : s.heap.mem p with
  | none => rw [hm] at hs; cases hs
  | some nd =>
    rw [hm] at hs
    have hk : (slots nd)[k]? = some .moved := hs
    have hf := h p nd hm
    simp only [readSlot, get_ok.2 hm, R.bind_ok]
    have hk' : ∃ key, nd.keys[k]? = some key ∧ key.slice = .moved := by
      simpa [slots] using hk
    obtain ⟨key, e1, e2⟩ := hk'
    have e3 : isHole (s.hol p) k = decide ((s.hol p).1 = some (k + 1)) := by
      unfold isHole
      cases h1 : (s.hol p).1 with
      | none => simp
      | some a => simp [eq_comm]
    rw [e3]
    by_cases hc : (s.hol p).1 = some (k + 1)
    · simp [hc]
    · simp [hc, e1, e2]

/-- Places that hold a value are read correctly, also after panics. -/
theorem readSlot_init {s : HSt I V} (h : ExactHoles s) {p k : Nat} {v : V} (hs : slotAt s (p, k) = some (.init v)) :
    readSlot s (p, k) = .ok (.init v) := by
  unfold slotAt at hs
  cases hm : s.heap.mem p with
  | none => rw [hm] at hs; cases hs
  | some nd =>
    rw [hm] at hs
    have hk : (slots nd)[k]? = some (.init v) := hs
    have hf := h p nd hm
    simp only [readSlot, get_ok.2 hm, R.bind_ok]
    have hk' : ∃ key, nd.keys[k]? = some key ∧ key.slice = .init v := by simpa [slots] using hk
    obtain ⟨key, e1, e2⟩ := hk'
    have e3 : (s.hol p).1 ≠ some (k + 1) := fun hc => by
      have := (hf.mem k).2 (.inl hc)
      rw [hk] at this; cases this
    have e4 : isHole (s.hol p) k = false := by
      unfold isHole
      cases h1 : (s.hol p).1 with
      | none => simp
      | some a => rw [h1] at e3; simp at e3 ⊢; omega
    simp [e4, e1, e2]

/-- `insert_key` keeps the record of holes exact only if all holes are left of the new key. -/
theorem insertSlot_exact_iff {s : HSt I V} (h : ExactHoles s) {p k : Nat} {nd : HNode I (Slot V)} (hm : s.heap.mem p = some nd)
    (hk : k ≤ nd.keys.length) (pos : I) (v : V) :
    ∃ s', insertSlot s p k pos v = .ok s' ∧ (ExactHoles s' ↔ ∀ j, slotAt s (p, j) = some .moved → j < k) := by
  refine ⟨⟨s.heap.put p { nd with keys := nd.keys.take k ++ ⟨pos, .init v, none⟩ :: nd.keys.drop k }, s.hol⟩,
    by simp [insertSlot, get_ok.2 hm, hk], ?_⟩
  have hf := h p nd hm
  have hl : k ≤ (slots nd).length := by simpa [slots] using hk
  have es : (nd.keys.take k ++ ⟨pos, .init v, none⟩ :: nd.keys.drop k).map (·.slice) = (slots nd).take k ++ .init v :: (slots nd).drop k := by
    simp [slots, List.map_take, List.map_drop]
  have eat : ∀ j, slotAt s (p, j) = (slots nd)[j]? := fun j => by simp [slotAt, hm]
  have hget : ∀ j, ((slots nd).take k ++ .init v :: (slots nd).drop k)[j]? =
      if j < k then (slots nd)[j]? else if j = k then some (.init v) else (slots nd)[j - 1]? := by
    intro j
    have hlen : ((slots nd).take k).length = k := by simp [hl]
    split
    · rename_i hj
      rw [List.getElem?_append_left (by omega), List.getElem?_take_of_lt hj]
    · rename_i hj
      rw [List.getElem?_append_right (by omega), hlen]
      split
      · rename_i hj'; simp [hj']
      · rename_i hj'
        obtain ⟨d, hd⟩ : ∃ d, j - k = d + 1 := ⟨j - k - 1, by omega⟩
        rw [hd, List.getElem?_cons_succ, List.getElem?_drop]
        congr 1
        omega
  constructor
  · intro hx j hj
    by_contra hc
    rw [eat] at hj
    have hx := hx p { nd with keys := nd.keys.take k ++ ⟨pos, .init v, none⟩ :: nd.keys.drop k } (by simp [Heap.put])
    simp only [slots] at hx
    rw [es] at hx
    -- the last hole is recorded one too far left
    have h2 : ∃ b, (s.hol p).2 = some (b + 1) ∧ j ≤ b := by
      rcases (hf.mem j).1 hj with h1 | h1
      · cases hb : (s.hol p).2 with
        | none => have := hf.snd hb; rw [h1] at this; cases this
        | some b =>
          have := hf.lt _ _ h1 hb
          exact ⟨b - 1, by congr 1; omega, by omega⟩
      · exact ⟨j, h1, by omega⟩
    obtain ⟨b, hb, hjb⟩ := h2
    have hbm := (hf.mem b).2 (.inr hb)
    have := (hx.mem (b + 1)).1 (by
      rw [hget, if_neg (by omega), if_neg (by omega)]
      exact hbm)
    rcases this with h1 | h1
    · have := hf.lt _ _ h1 hb
      omega
    · rw [hb] at h1
      simp at h1
  · intro hx q n hq
    simp only [Heap.put] at hq ⊢
    by_cases e : q = p
    · subst e
      simp only [if_true, Option.some.injEq] at hq
      subst hq
      refine ⟨fun j => ?_, hf.pos, hf.snd, hf.lt⟩
      simp only [slots]
      rw [es, hget, ← hf.mem j]
      split
      · rfl
      · rename_i hj
        have hn : (slots nd)[j]? ≠ some .moved := fun hc => hj (hx j (by rw [eat]; exact hc))
        split
        · simp [hn]
        · simp only [hn, iff_false]
          intro hc
          exact absurd (hx (j - 1) (by rw [eat]; exact hc)) (by omega)
    · simp only [e, if_false] at hq
      exact h q n hq

/-! ## Examples: these happen -/

/-- Three runs in one leaf. -/
def exThree : List (Op Nat Char) := [.new, .insert 0 false [] 0 'a' 1, .insert 0 false [] 1 'b' 1, .insert 0 false [] 2 'c' 1]

/-- Trees with at most four keys per leaf. -/
def exEnv2 : Env Nat Char := { exEnv with M := 2 }

/-- A slice whose `try_join` always panics, and whose `split_at` works. -/
def panicking : UserOps Nat Char := ⟨true, fun _ _ => none, fun c _ => some (c, c)⟩

/-- Memory after the three insertions and one more at the end, whose `try_join` panics; the leaf is node 0. -/
def exPanicked (cow : Bool) : R (HSt Nat Char × List (Option (Option CRoot)) × Option Fault) := do
  let st ← St.run exEnv2 1000 cow St.init exThree
  let (s, f) := Attempt.run (lift st.heap) (.edge panicking (some (0, 2)) none 'd')
  pure (s, st.trees, f)

/-- C30 is false for reads: after the panic `get` gives a reference to the value that was moved out of the tree (and consumed). -/
theorem read_after_panic_counterexample (cow : Bool) :
    ((exPanicked cow).bind (fun r => readSlot r.1 (0, 2))) = .ok .moved ∧ (exPanicked cow).map (fun r => r.2.2) = .ok (some userPanic) := by
  revert cow
  decide +kernel

/-- A slice that never joins, and does not panic. -/
def joinless : UserOps Nat Char := ⟨true, fun a b => some (.inr (a, b)), fun c _ => some (c, c)⟩

/-- C30 is false for drops after a further insertion: if a key is then inserted at the front (which does not panic and returns), dropping the
tree leaks 'b' and destroys again the value that was moved out. -/
theorem insert_after_panic_counterexample (cow : Bool) :
    ((exPanicked cow).bind (fun r => (edgePhase joinless none (some (0, 0)) 'x' r.1).2)) = .ok (some 'x') ∧
    ((exPanicked cow).bind (fun r => (insertSlot (edgePhase joinless none (some (0, 0)) 'x' r.1).1 0 0 0 'x').bind (fun s => ((s.with r.2.1).dropLog s.hol 0).map (fun d => d.2.vals)))) =
      .ok [.init 'x', .init 'a', .moved] := by
  revert cow
  decide +kernel

/-- Without the further insertion the drop is as it should be. -/
example (cow : Bool) : ((exPanicked cow).bind (fun r => ((r.1.with r.2.1).dropLog r.1.hol 0).map (fun d => d.2.vals))) = .ok [.init 'a', .init 'b'] := by
  revert cow
  decide +kernel

end Sherman.Cow
