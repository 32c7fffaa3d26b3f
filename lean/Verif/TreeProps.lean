import Verif.Hints
/-!
# Properties of insertion and lookup: C01-C12, C17, C38

`t.runs` (see `Verif/Observe.lean`) reads the stored tree directly; `specInsert` (see `Verif/Spec.lean`) is insertion into
a list.  `Reach MAX E t` says that `t` was built by a program from insertions.  The index type is the unsigned integers up to
`MAX`; slice type and `M` are arbitrary.
-/
namespace Sherman
variable {S : Type} {MAX : Nat} {E : Env Nat S}

/-! ## Insertion -/

/-- C01: an insertion that returns has changed the list of runs as the list specification says. -/
theorem insert_runs (hE : E.ix = natIdx MAX) {t t' : RleTree Nat S} (ht : Reach MAX E t) {nop : Bool} {hints : List Nat}
    {idx : Nat} {s : S} {size : Nat} {w : World} {out : Inserted} (hs : size ≤ MAX)
    (h : t.insert E nop hints idx s size w = .ok (t', out)) :
    specInsert E.sl t.runs idx s size = .ok t'.runs := by
  obtain ⟨⟨hM, hM'⟩, h1, h2⟩ := ht.holds hE
  obtain ⟨_, _, _, es', h3, h4, _⟩ := insert_returned hE hM hM' h1 h2 hs h
  rw [h3, h4.runs]

/-- C01: within the documented conditions the insertion returns. -/
theorem insert_returns (hE : E.ix = natIdx MAX) {t : RleTree Nat S} (ht : Reach MAX E t)
    (nop : Bool) (hints : List Nat) {idx : Nat} (s : S) {size : Nat} (w : World) {es' : List (Ent S)}
    (hidx : idx ≤ total t.runs) (hs : 0 < size) (hb : total t.runs + size ≤ MAX)
    (hspec : specInsert E.sl t.runs idx s size = .ok es') :
    ∃ t' out, t.insert E nop hints idx s size w = .ok (t', out) ∧ t'.runs = es' ∧ Reach MAX E t' := by
  obtain ⟨⟨hM, hM'⟩, h1, h2⟩ := ht.holds hE
  have := insert_refines hE hM hM' h1 hidx (nop := nop) (hints := hints) (s := s) hs (w := w) hb
  rw [hspec] at this
  obtain ⟨t', out, h3, h4⟩ := this
  exact ⟨t', out, h3, h4.runs, ht.insert (by omega) h3⟩

/-- One call of `insert`. -/
structure Op (S : Type) where
  idx : Nat
  slice : S
  size : Nat
  nop : Bool
  hints : List Nat
  world : World

/-- A history of insertions into the tree. -/
def insertAll (E : Env Nat S) : RleTree Nat S → List (Op S) → R (RleTree Nat S)
  | t, [] => .ok t
  | t, o :: os => do
    let (t, _) ← t.insert E o.nop o.hints o.idx o.slice o.size o.world
    insertAll E t os

/-- The same history on a list of runs. -/
def specAll (sl : SliceOps Nat S) : List (Ent S) → List (Op S) → Except Fault (List (Ent S))
  | es, [] => .ok es
  | es, o :: os =>
    match specInsert sl es o.idx o.slice o.size with
    | .ok es => specAll sl es os
    | .error f => .error f

/-- C01, for histories: a history that returns has the effect of the history on lists. -/
theorem insertAll_runs (hE : E.ix = natIdx MAX) {t t' : RleTree Nat S} (ht : Reach MAX E t) {ops : List (Op S)}
    (hs : ∀ o ∈ ops, o.size ≤ MAX) (h : insertAll E t ops = .ok t') :
    specAll E.sl t.runs ops = .ok t'.runs ∧ Reach MAX E t' := by
  induction ops generalizing t with
  | nil => cases h; exact ⟨rfl, ht⟩
  | cons o os ih =>
    simp only [insertAll, bind_ok_iff] at h
    obtain ⟨⟨t1, out⟩, h1, h⟩ := h
    have hso := hs o (by simp)
    have h2 := insert_runs hE ht hso h1
    have h3 := ih (ht.insert hso h1) (fun x hx => hs x (by simp [hx])) h
    refine ⟨?_, h3.2⟩
    simp only [specAll, h2]
    exact h3.1

/-- All insertions of a history are within bounds. -/
def InBounds (MAX : Nat) : Nat → List (Op S) → Prop
  | n, [] => n ≤ MAX
  | n, o :: os => o.idx ≤ n ∧ 0 < o.size ∧ n + o.size ≤ MAX ∧ InBounds MAX (n + o.size) os

instance InBounds.dec (MAX : Nat) : (n : Nat) → (os : List (Op S)) → Decidable (InBounds MAX n os)
  | n, [] => inferInstanceAs (Decidable (n ≤ MAX))
  | n, o :: os =>
    have := InBounds.dec MAX (n + o.size) os
    inferInstanceAs (Decidable (o.idx ≤ n ∧ 0 < o.size ∧ n + o.size ≤ MAX ∧ InBounds MAX (n + o.size) os))

/-- C01, for histories: a history in bounds whose specification returns does return. -/
theorem insertAll_returns (hE : E.ix = natIdx MAX) {t : RleTree Nat S} (ht : Reach MAX E t)
    {ops : List (Op S)} (hb : InBounds MAX (total t.runs) ops) {es' : List (Ent S)}
    (hspec : specAll E.sl t.runs ops = .ok es') :
    ∃ t', insertAll E t ops = .ok t' ∧ t'.runs = es' ∧ Reach MAX E t' := by
  induction ops generalizing t with
  | nil => cases hspec; exact ⟨t, rfl, rfl, ht⟩
  | cons o os ih =>
    obtain ⟨b1, b2, b3, b4⟩ := hb
    simp only [specAll] at hspec
    cases h1 : specInsert E.sl t.runs o.idx o.slice o.size with
    | error f => rw [h1] at hspec; cases hspec
    | ok es1 =>
      rw [h1] at hspec
      simp only at hspec
      obtain ⟨t1, out, h2, h3, h4⟩ := insert_returns hE ht o.nop o.hints o.slice o.world b1 b2 b3 h1
      have h5 := (specInsert_facts (ht.holds hE).2.1.1 b1 b2 h1).2
      obtain ⟨t2, h6, h7, h8⟩ := ih h4 (by rw [h3, h5]; exact b4) (by rw [h3]; exact hspec)
      refine ⟨t2, ?_, h7, h8⟩
      simp only [insertAll, bind_ok_iff]
      exact ⟨(t1, out), h2, h6⟩

/-! ### A concrete slice type for the examples: `Constant<T>` -/

/-- `impl Slice for Constant<T>`; src/lib.rs:96-112 -/
def constSl (T : Type) [BEq T] : SliceOps Nat T where
  mayJoin := true
  splitAt s _ := (s, s)
  tryJoin a b := if a == b then .inl a else .inr (a, b)

/-- Trees of characters with `M = 1` over `u8`. -/
abbrev exEnv : Env Nat Char := ⟨natIdx 255, constSl Char, 1, false⟩

def exWorld : World := ⟨100, [], [], none, []⟩

/-- Eight insertions: appending, prepending, splitting a run, joining left and right. -/
def exOps : List (Op Char) :=
  [⟨0, 'a', 10, false, [], exWorld⟩, ⟨10, 'b', 10, true, [], exWorld⟩, ⟨5, 'c', 3, false, [7, 1], exWorld⟩,
   ⟨23, 'b', 1, false, [], exWorld⟩, ⟨0, 'd', 2, false, [0], exWorld⟩, ⟨12, 'e', 1, false, [], exWorld⟩,
   ⟨8, 'e', 1, false, [], exWorld⟩, ⟨1, 'f', 1, true, [255], exWorld⟩]

theorem exEmpty : Reach 255 exEnv ⟨none⟩ := .empty rfl

/-- The hypotheses of the theorems above are met by a history that grows the tree to several levels. -/
theorem exReach : ∃ t, insertAll exEnv ⟨none⟩ exOps = .ok t ∧ Reach 255 exEnv t ∧
    t.runs.map (fun e => (e.size, e.slice)) =
      [(1, 'd'), (1, 'f'), (1, 'd'), (5, 'a'), (1, 'c'), (1, 'e'), (2, 'c'), (2, 'a'), (1, 'e'), (3, 'a'),
       (11, 'b')] := by
  obtain ⟨t, h1, h2, h3⟩ := insertAll_returns (E := exEnv) (MAX := 255) rfl exEmpty (ops := exOps)
    (by decide)
    (es' := [⟨1, 'd', none⟩, ⟨1, 'f', none⟩, ⟨1, 'd', none⟩, ⟨5, 'a', none⟩, ⟨1, 'c', none⟩, ⟨1, 'e', none⟩,
      ⟨2, 'c', none⟩, ⟨2, 'a', none⟩, ⟨1, 'e', none⟩, ⟨3, 'a', none⟩, ⟨11, 'b', none⟩]) (by decide)
  exact ⟨t, h1, h3, by rw [h2]; rfl⟩

/-! ## C02: position-wise meaning -/

/-- A slice type that denotes sequences: `valid n s` says that `s` may be used with size `n`, `den n s` is then a sequence of
`n` elements; splitting cuts it, joining concatenates, a failed join changes nothing that can be seen. -/
structure Denotes (sl : SliceOps Nat S) (α : Type) (valid : Nat → S → Prop) (den : Nat → S → List α) : Prop where
  len : ∀ {n s}, valid n s → (den n s).length = n
  split : ∀ {n o s}, valid n s → 0 < o → o < n → valid o (sl.splitAt s o).1 ∧ valid (n - o) (sl.splitAt s o).2 ∧
    den o (sl.splitAt s o).1 ++ den (n - o) (sl.splitAt s o).2 = den n s
  join : ∀ {n m a b c}, valid n a → valid m b → sl.tryJoin a b = .inl c →
    valid (n + m) c ∧ den (n + m) c = den n a ++ den m b
  noJoin : ∀ {n m a b a' b'}, valid n a → valid m b → sl.tryJoin a b = .inr (a', b') →
    valid n a' ∧ valid m b' ∧ den n a' = den n a ∧ den m b' = den m b

/-- The elements of a list of runs. -/
def elements {α : Type} (den : Nat → S → List α) (es : List (Ent S)) : List α := es.flatMap (fun e => den e.size e.slice)

/-- Every run holds a slice valid for its size. -/
def AllValid (valid : Nat → S → Prop) (es : List (Ent S)) : Prop := ∀ e ∈ es, valid e.size e.slice

section
variable {α : Type} {valid : Nat → S → Prop} {den : Nat → S → List α} {sl : SliceOps Nat S}

theorem elements_append (a b : List (Ent S)) : elements den (a ++ b) = elements den a ++ elements den b := by
  simp [elements]

theorem elements_cons (e : Ent S) (b : List (Ent S)) : elements den (e :: b) = den e.size e.slice ++ elements den b := by
  simp [elements]

theorem elements_nil : elements den ([] : List (Ent S)) = [] := rfl

theorem AllValid.append {a b : List (Ent S)} : AllValid valid (a ++ b) ↔ AllValid valid a ∧ AllValid valid b := by
  simp only [AllValid, List.mem_append]
  exact ⟨fun h => ⟨fun e he => h e (.inl he), fun e he => h e (.inr he)⟩, fun h e he => he.elim (h.1 e) (h.2 e)⟩

theorem AllValid.cons {e : Ent S} {b : List (Ent S)} :
    AllValid valid (e :: b) ↔ valid e.size e.slice ∧ AllValid valid b := by simp [AllValid]

theorem AllValid.nil : AllValid valid ([] : List (Ent S)) := by simp [AllValid]

theorem elements_length (hd : Denotes sl α valid den) {es : List (Ent S)} (h : AllValid valid es) :
    (elements den es).length = total es := by
  induction es with
  | nil => rfl
  | cons e es ih =>
    rw [AllValid.cons] at h
    rw [elements_cons, List.length_append, hd.len h.1, ih h.2, total_cons]

theorem specEdge_elements (hd : Denotes sl α valid den) {L R es' : List (Ent S)} {s : S} {size : Nat}
    (hL : AllValid valid L) (hR : AllValid valid R) (hs : valid size s) (h : specEdge sl L R s size = .ok es') :
    AllValid valid es' ∧ elements den es' = elements den L ++ den size s ++ elements den R := by
  unfold specEdge at h
  split at h
  · cases h
    simp [AllValid.append, AllValid.cons, hL, hR, hs, elements_append, elements_cons]
  · rcases List.eq_nil_or_concat L with rfl | ⟨L, l, rfl⟩
    · cases R with
      | nil =>
        cases h
        simp [AllValid.cons, AllValid.nil, hs, elements_cons, elements_nil]
      | cons r R =>
        rw [AllValid.cons] at hR
        simp only [List.getLast?_nil] at h
        split at h
        · rename_i x hx
          cases h
          obtain ⟨j1, j2⟩ := hd.join hs hR.1 hx
          simp [AllValid.cons, j1, j2, hR.2, elements_cons, elements_nil]
        · rename_i a b hx
          cases h
          obtain ⟨j1, j2, j3, j4⟩ := hd.noJoin hs hR.1 hx
          simp [AllValid.cons, j1, j2, j3, j4, hR.2, elements_cons, elements_nil]
    · rw [List.concat_eq_append] at h hL ⊢
      rw [AllValid.append, AllValid.cons] at hL
      cases R with
      | nil =>
        simp only [List.getLast?_concat, List.dropLast_concat] at h
        split at h
        · rename_i x hx
          cases h
          obtain ⟨j1, j2⟩ := hd.join hL.2.1 hs hx
          simp [AllValid.append, AllValid.cons, AllValid.nil, j1, j2, hL.1, elements_append, elements_cons, elements_nil]
        · rename_i a b hx
          cases h
          obtain ⟨j1, j2, j3, j4⟩ := hd.noJoin hL.2.1 hs hx
          simp [AllValid.append, AllValid.cons, AllValid.nil, j1, j2, j3, j4, hL.1, elements_append, elements_cons,
            elements_nil]
      | cons r R =>
        rw [AllValid.cons] at hR
        simp only [List.getLast?_concat, List.dropLast_concat] at h
        split at h
        · rename_i x hx
          obtain ⟨j1, j2⟩ := hd.join hL.2.1 hs hx
          split at h
          · cases h
          · rename_i a b hy
            cases h
            obtain ⟨k1, k2, k3, k4⟩ := hd.noJoin j1 hR.1 hy
            simp [AllValid.append, AllValid.cons, k1, k2, k3, k4, j2, hL.1, hR.2, elements_append, elements_cons,
              elements_nil]
        · rename_i a s' hx
          obtain ⟨j1, j2, j3, j4⟩ := hd.noJoin hL.2.1 hs hx
          split at h
          · rename_i x hy
            cases h
            obtain ⟨k1, k2⟩ := hd.join j2 hR.1 hy
            simp [AllValid.append, AllValid.cons, k1, k2, j1, j3, j4, hL.1, hR.2, elements_append, elements_cons,
              elements_nil]
          · rename_i s2 b hy
            cases h
            obtain ⟨k1, k2, k3, k4⟩ := hd.noJoin j2 hR.1 hy
            simp [AllValid.append, AllValid.cons, k1, k2, k3, k4, j1, j3, j4, hL.1, hR.2, elements_append,
              elements_cons, elements_nil]

theorem specSplit_elements (hd : Denotes sl α valid den) {e : Ent S} {o : Nat} {s : S} {size : Nat}
    (he : valid e.size e.slice) (hs : valid size s) (h0 : 0 < o) (h1 : o < e.size) :
    ∃ A B, den e.size e.slice = A ++ B ∧ A.length = o ∧ AllValid valid (specSplit sl e o s size) ∧
      elements den (specSplit sl e o s size) = A ++ den size s ++ B := by
  obtain ⟨v1, v2, v3⟩ := hd.split he h0 h1
  refine ⟨_, _, v3.symm, hd.len v1, ?_⟩
  unfold specSplit
  simp only
  split
  · simp [AllValid.cons, AllValid.nil, v1, v2, hs, elements_cons, elements_nil]
  · split
    · rename_i x hx
      obtain ⟨j1, j2⟩ := hd.join v1 hs hx
      split
      · rename_i y hy
        obtain ⟨k1, k2⟩ := hd.join j1 v2 hy
        simp [AllValid.cons, AllValid.nil, k1, k2, j2, elements_cons, elements_nil]
      · rename_i x' r' hy
        obtain ⟨k1, k2, k3, k4⟩ := hd.noJoin j1 v2 hy
        simp [AllValid.cons, AllValid.nil, k1, k2, k3, k4, j2, elements_cons, elements_nil]
    · rename_i l' s' hx
      obtain ⟨j1, j2, j3, j4⟩ := hd.noJoin v1 hs hx
      split
      · rename_i y hy
        obtain ⟨k1, k2⟩ := hd.join j2 v2 hy
        simp [AllValid.cons, AllValid.nil, k1, k2, j1, j3, j4, elements_cons, elements_nil]
      · rename_i x' r' hy
        obtain ⟨k1, k2, k3, k4⟩ := hd.noJoin j2 v2 hy
        simp [AllValid.cons, AllValid.nil, k1, k2, k3, k4, j1, j3, j4, elements_cons, elements_nil]

theorem specInsert_elements (hd : Denotes sl α valid den) {es es' : List (Ent S)} {idx : Nat} {s : S} {size : Nat}
    (hv : AllValid valid es) (hidx : idx ≤ total es) (hs : valid size s) (h : specInsert sl es idx s size = .ok es') :
    AllValid valid es' ∧
      elements den es' = (elements den es).take idx ++ den size s ++ (elements den es).drop idx := by
  obtain ⟨L, R, o, h1, rfl, rfl, h4⟩ := cutAt_spec hidx
  rw [AllValid.append] at hv
  have hLl := elements_length hd hv.1
  simp only [specInsert, h1] at h
  cases o with
  | zero =>
    obtain ⟨g1, g2⟩ := specEdge_elements hd hv.1 hv.2 hs h
    refine ⟨g1, ?_⟩
    rw [g2, elements_append, Nat.add_zero, List.take_left' hLl, List.drop_left' hLl]
  | succ o =>
    rcases h4 with ⟨_, h4⟩ | ⟨e, R, rfl, h4⟩
    · cases h4
    · simp only at h
      cases h
      rw [AllValid.cons] at hv
      obtain ⟨A, B, g1, g2, g3, g4⟩ := specSplit_elements hd hv.2.1 hs (Nat.succ_pos o) h4
      refine ⟨by rw [AllValid.append, AllValid.append]; exact ⟨⟨hv.1, g3⟩, hv.2.2⟩, ?_⟩
      rw [elements_append, elements_append, g4, elements_append, elements_cons, g1]
      have hLA : (elements den L ++ A).length = total L + (o + 1) := by simp [hLl, g2]
      have e1 : elements den L ++ (A ++ B ++ elements den R) = (elements den L ++ A) ++ (B ++ elements den R) := by
        simp
      rw [e1, List.take_left' hLA, List.drop_left' hLA]
      simp

/-- C02: the elements after an insertion are the old ones with those of the slice put in at the index. -/
theorem insert_elements (hE : E.ix = natIdx MAX) (hd : Denotes E.sl α valid den) {t t' : RleTree Nat S}
    (ht : Reach MAX E t) (hv : AllValid valid t.runs) {nop : Bool} {hints : List Nat} {idx : Nat} {s : S} {size : Nat}
    {w : World} {out : Inserted} (hsz : size ≤ MAX) (hs : valid size s)
    (h : t.insert E nop hints idx s size w = .ok (t', out)) :
    AllValid valid t'.runs ∧ elements den t'.runs =
      (elements den t.runs).take idx ++ den size s ++ (elements den t.runs).drop idx := by
  obtain ⟨⟨hM, hM'⟩, h1, h2⟩ := ht.holds hE
  obtain ⟨hidx, _⟩ := insert_returned hE hM hM' h1 h2 hsz h
  exact specInsert_elements hd hv hidx hs (insert_runs hE ht hsz h)

/-- C02, for histories: what a history does to the elements. -/
theorem insertAll_elements (hE : E.ix = natIdx MAX) (hd : Denotes E.sl α valid den) {t t' : RleTree Nat S}
    (ht : Reach MAX E t) (hv : AllValid valid t.runs) {ops : List (Op S)}
    (hs : ∀ o ∈ ops, o.size ≤ MAX ∧ valid o.size o.slice) (h : insertAll E t ops = .ok t') :
    elements den t'.runs =
      ops.foldl (fun l o => l.take o.idx ++ den o.size o.slice ++ l.drop o.idx) (elements den t.runs) := by
  induction ops generalizing t with
  | nil => cases h; rfl
  | cons o os ih =>
    simp only [insertAll, bind_ok_iff] at h
    obtain ⟨⟨t1, out⟩, h1, h⟩ := h
    have hso := hs o (by simp)
    obtain ⟨g1, g2⟩ := insert_elements hE hd ht hv hso.1 hso.2 h1
    have h3 := ih (ht.insert hso.1 h1) g1 (fun x hx => hs x (by simp [hx])) h
    rw [h3, g2, List.foldl_cons]

end

/-- `Constant<T>` denotes repetition. -/
theorem constSl_denotes {T : Type} [BEq T] [LawfulBEq T] :
    Denotes (constSl T) T (fun _ _ => True) (fun n s => List.replicate n s) where
  len := by simp
  split := by
    intro n o s _ h0 h1
    simp only [constSl, List.replicate_append_replicate, true_and]
    congr 1; omega
  join := by
    intro n m a b c _ _ h
    simp only [constSl] at h
    split at h
    · rename_i hab
      cases h
      simp only [beq_iff_eq] at hab
      subst hab
      simp [List.replicate_append_replicate]
    · cases h
  noJoin := by
    intro n m a b a' b' _ _ h
    simp only [constSl] at h
    split at h
    · cases h
    · cases h; simp

/-- What the example history does to characters. -/
example : ∃ t, insertAll exEnv ⟨none⟩ exOps = .ok t ∧ elements (fun n s => List.replicate n s) t.runs =
    exOps.foldl (fun l o => l.take o.idx ++ List.replicate o.size o.slice ++ l.drop o.idx) [] := by
  obtain ⟨t, h1, h2, _⟩ := exReach
  exact ⟨t, h1, insertAll_elements (E := exEnv) (MAX := 255) rfl constSl_denotes exEmpty AllValid.nil
    (by intro o ho; exact ⟨by revert o ho; decide, trivial⟩) h1⟩

end Sherman
