import Verif.JoinEdge
import Verif.Spec
/-!
# `do_insert_full_edge` refines `specEdge`
-/
namespace Sherman
variable {S : Type}

/-- Agreement of an insertion into the tree with the specification. -/
def Agrees (M : Nat) {H : Nat} (n : Nat) (r : R (Nat × Post Nat S H × List Nat × World)) :
    Except Fault (List (Ent S)) → Prop
  | .ok es => ∃ d post path w, r = .ok (d, post, path, w) ∧ PostRep M post es ∧ es.length = n + d
  | .error f => r = .error f

theorem insertEdge_plain {MAX : Nat} {E : Env Nat S} (hE : E.ix = natIdx MAX) (hM : 1 ≤ E.M) {H : Nat}
    {leaf : Tree Nat S 1} {ctx : Ctx Nat S H 1} {p : Nat} {A B L1 R1 : List (Ent S)} {s : S} {size : Nat}
    {w : World} (hw : w.fst = none) (hleaf : leaf = leafOf p (A ++ B)) (h1 : ctx.lo E.M ≤ A.length + B.length)
    (h2 : A.length + B.length ≤ 2 * E.M)
    (hc : CtxRep E.M (Maps.identity (natIdx MAX)) ctx (total A + total B) L1 R1 L1)
    (hb : total (L1 ++ A) + total (B ++ R1) + size ≤ MAX) :
    ∃ post path w', noJoin E ⟨false, false⟩ (Maps.identity E.ix) leaf ctx A.length none ⟨s, size⟩ none w =
        .ok (post, path, w') ∧ PostRep E.M post ((L1 ++ A) ++ ⟨size, s, none⟩ :: (B ++ R1)) := by
  subst hleaf
  simp only [total_append] at hb
  obtain ⟨post, path, w', a1, a2⟩ := noJoin_spec (p := p) (cb := ⟨false, false⟩) (fst := ⟨s, size⟩) (snd := none)
    (ov := none) (A' := A) hE hM ctx hw hc rfl h1 h2 (by simp [Maps.identity]) (by omega)
    (by simp [newEnts, newEnt]; omega) (by omega) (by omega)
  rw [hE]
  refine ⟨post, path, w', a1, ?_⟩
  simpa [newEnts, newEnt] using a2

/-- With joins. -/
theorem insertEdge_join {MAX : Nat} {E : Env Nat S} (hE : E.ix = natIdx MAX) (hM : 1 ≤ E.M) {H : Nat}
    {leaf : Tree Nat S 1} {ctx : Ctx Nat S H 1} {i : Nat} {lhs rhs : Option (Nat × Nat)} {L R : List (Ent S)}
    {s : S} {size : Nat} {w : World} (hw : w.fst = none) (hj : E.sl.mayJoin = true) (hne : L ++ R ≠ [])
    (h : EdgeOK E.M (Maps.identity (natIdx MAX)) leaf ctx i lhs rhs L R)
    (hb : total L + total R + size ≤ MAX) :
    Agrees E.M (L.length + R.length) (insertEdge E leaf ctx i lhs rhs s size w) (specEdge E.sl L R s size) := by
  have hm : (Maps.identity (natIdx MAX)).sizes = false := rfl
  -- plain insertion once nothing joins
  have plain : ∀ {leaf : Tree Nat S 1} {ctx : Ctx Nat S H 1} {L R : List (Ent S)} (s : S),
      EdgeOK E.M (Maps.identity (natIdx MAX)) leaf ctx i lhs rhs L R → total L + total R + size ≤ MAX →
      ∃ post path w', noJoin E ⟨false, false⟩ (Maps.identity E.ix) leaf ctx i none ⟨s, size⟩ none w =
        .ok (post, path, w') ∧ PostRep E.M post (L ++ ⟨size, s, none⟩ :: R) := by
    rintro leaf ctx L R s ⟨p, A, B, L1, R1, rfl, rfl, h1, h2, hc, rfl, rfl, _⟩ hb
    exact insertEdge_plain hE hM hw rfl h1 h2 hc hb
  have hidx : decide (i ≤ Node.len leaf) = true := by
    obtain ⟨p, A, B, L1, R1, rfl, rfl, _⟩ := h
    simp
  have hunf : insertEdge E leaf ctx i lhs rhs s size w =
      (tryJoinEdge E leaf ctx lhs rhs s size w >>= fun r => match r with
        | .inl r => pure (0, r)
        | .inr (leaf, ctx, slice) => do
          let r ← noJoin E ⟨false, false⟩ (Maps.identity E.ix) leaf ctx i none ⟨slice, size⟩ none w
          pure (1, r)) := by
    simp only [insertEdge, hidx, weakAssert_true, Sherman.R.bind_ok]
    rcases tryJoinEdge E leaf ctx lhs rhs s size w with e | (r | ⟨a, b, c⟩) <;> rfl
  rw [hunf]
  cases lhs with
  | none =>
    have hL := h.lhs_none hm
    subst hL
    cases rhs with
    | none =>
      have hR := h.rhs_none hm
      subst hR
      simp at hne
    | some r =>
      obtain ⟨Y, e, cl, rfl, hcl, hv⟩ := h.rhs_view hm
      have hh := handleAt_spec (MAX := MAX) hcl hv
      simp only [total_nil, total_cons] at hb
      cases htj : E.sl.tryJoin s e.slice with
      | inl x =>
        obtain ⟨leaf', ctx', b1, b2⟩ := h.set_rhs hm x
        obtain ⟨Y', e', cl', hY, hcl', hv'⟩ := b2.rhs_view hm
        obtain ⟨rfl, rfl⟩ : { e with slice := x } = e' ∧ Y = Y' := by simpa using hY
        obtain ⟨post, path, w', c1, c2⟩ := finishJoin_spec (w := w) (new := size + e.size) hE hcl' hv'
          (by simp; omega) (by simp; omega)
        have ha : size + e.size ≤ MAX := by omega
        simp only [specEdge, hj, List.getLast?_nil, htj]
        refine ⟨0, post, path, w', ?_, by simpa using c2, by simp⟩
        simp only [tryJoinEdge, hj, hE, hh, Sherman.R.bind_ok, htj, b1, addL_ok ha]
        simp only at c1
        simp only [c1]
        rfl
      | inr ab =>
        obtain ⟨a, b⟩ := ab
        obtain ⟨leaf', ctx', b1, b2⟩ := h.set_rhs hm b
        obtain ⟨post, path, w', c1, c2⟩ := plain a b2 (by simp; omega)
        simp only [specEdge, hj, List.getLast?_nil, htj]
        refine ⟨1, post, path, w', ?_, by simpa using c2, by simp⟩
        simp only [tryJoinEdge, hj, hE, hh, Sherman.R.bind_ok, htj, b1]
        rw [hE] at c1
        change (noJoin E ⟨false, false⟩ (Maps.identity (natIdx MAX)) leaf' ctx' i none ⟨a, size⟩ none w).bind _ = _
        rw [c1]
        rfl
  | some l =>
    obtain ⟨X, e, cl, rfl, hcl, hv⟩ := h.lhs_view hm
    have hh := handleAt_spec (MAX := MAX) hcl hv
    simp only [total_append, total_cons, total_nil] at hb
    have hlast : (X ++ [e]).getLast? = some e := by simp
    have hdl : (X ++ [e]).dropLast = X := by simp
    cases rhs with
    | none =>
      have hR := h.rhs_none hm
      subst hR
      simp only [total_nil] at hb
      cases htj : E.sl.tryJoin e.slice s with
      | inl x =>
        obtain ⟨leaf', ctx', b1, b2⟩ := h.set_lhs hm x
        obtain ⟨X', e', cl', hX, hcl', hv'⟩ := b2.lhs_view hm
        obtain ⟨rfl, h3⟩ := List.append_inj' hX rfl
        obtain rfl : { e with slice := x } = e' := by simpa using h3
        obtain ⟨post, path, w', c1, c2⟩ := finishJoin_spec (w := w) (new := e.size + size) hE hcl' hv'
          (by simp; omega) (by simp; omega)
        have ha : e.size + size ≤ MAX := by omega
        simp only [specEdge, hj, hlast, hdl, htj]
        refine ⟨0, post, path, w', ?_, by simpa using c2, by simp⟩
        simp only [tryJoinEdge, hj, hE, hh, Sherman.R.bind_ok, htj, b1, addR_ok ha]
        simp only at c1
        simp only [c1]
        rfl
      | inr ab =>
        obtain ⟨a, b⟩ := ab
        obtain ⟨leaf', ctx', b1, b2⟩ := h.set_lhs hm a
        obtain ⟨post, path, w', c1, c2⟩ := plain b b2 (by simp; omega)
        simp only [specEdge, hj, hlast, hdl, htj]
        refine ⟨1, post, path, w', ?_, by simpa using c2, by simp⟩
        simp only [tryJoinEdge, hj, hE, hh, Sherman.R.bind_ok, htj, b1]
        rw [hE] at c1
        change (noJoin E ⟨false, false⟩ (Maps.identity (natIdx MAX)) leaf' ctx' i none ⟨b, size⟩ none w).bind _ = _
        rw [c1]
        rfl
    | some r =>
      obtain ⟨Y, er, clr, rfl, hclr, hvr⟩ := h.rhs_view hm
      have hhr := handleAt_spec (MAX := MAX) hclr hvr
      simp only [total_cons] at hb
      cases htj : E.sl.tryJoin e.slice s with
      | inl x =>
        have ha : e.size + size ≤ MAX := by omega
        cases htj2 : E.sl.tryJoin x er.slice with
        | inl y =>
          simp only [specEdge, hj, hlast, htj, htj2]
          change _ = _
          simp only [tryJoinEdge, hj, hE, hh, hhr, Sherman.R.bind_ok, htj, htj2, addR_ok ha]
          rfl
        | inr ab =>
          obtain ⟨a, b⟩ := ab
          obtain ⟨leaf1, ctx1, b1, b2⟩ := h.set_rhs hm b
          obtain ⟨leaf2, ctx2, b3, b4⟩ := b2.set_lhs hm a
          obtain ⟨X', e', cl', hX, hcl', hv'⟩ := b4.lhs_view hm
          obtain ⟨rfl, h3⟩ := List.append_inj' hX rfl
          obtain rfl : { e with slice := a } = e' := by simpa using h3
          obtain ⟨post, path, w', c1, c2⟩ := finishJoin_spec (w := w) (new := e.size + size) hE hcl' hv'
            (by simp; omega) (by simp; omega)
          simp only [specEdge, hj, hlast, hdl, htj, htj2]
          refine ⟨0, post, path, w', ?_, by simpa using c2, by simp; omega⟩
          simp only [tryJoinEdge, hj, hE, hh, hhr, Sherman.R.bind_ok, htj, htj2, b1, b3, addR_ok ha]
          simp only at c1
          simp only [c1]
          rfl
      | inr as =>
        obtain ⟨a, s1⟩ := as
        obtain ⟨leaf1, ctx1, b1, b2⟩ := h.set_lhs hm a
        have ha : size + er.size ≤ MAX := by omega
        cases htj2 : E.sl.tryJoin s1 er.slice with
        | inl y =>
          obtain ⟨leaf2, ctx2, b3, b4⟩ := b2.set_rhs hm y
          obtain ⟨Y', e', cl', hY, hcl', hv'⟩ := b4.rhs_view hm
          obtain ⟨rfl, rfl⟩ : { er with slice := y } = e' ∧ Y = Y' := by simpa using hY
          obtain ⟨post, path, w', c1, c2⟩ := finishJoin_spec (w := w) (new := size + er.size) hE hcl' hv'
            (by simp; omega) (by simp; omega)
          simp only [specEdge, hj, hlast, hdl, htj, htj2]
          refine ⟨0, post, path, w', ?_, by simpa using c2, by simp; omega⟩
          simp only [tryJoinEdge, hj, hE, hh, hhr, Sherman.R.bind_ok, htj, htj2, b1, b3, addR_ok ha]
          simp only at c1
          simp only [c1]
          rfl
        | inr sb =>
          obtain ⟨s2, b⟩ := sb
          obtain ⟨leaf2, ctx2, b3, b4⟩ := b2.set_rhs hm b
          obtain ⟨post, path, w', c1, c2⟩ := plain s2 b4 (by simp; omega)
          simp only [specEdge, hj, hlast, hdl, htj, htj2]
          refine ⟨1, post, path, w', ?_, by simpa using c2, by simp; omega⟩
          simp only [tryJoinEdge, hj, hE, hh, hhr, Sherman.R.bind_ok, htj, htj2, b1, b3]
          rw [hE] at c1
          change (noJoin E ⟨false, false⟩ (Maps.identity (natIdx MAX)) leaf2 ctx2 i none ⟨s2, size⟩ none w).bind _ = _
          rw [c1]
          rfl

/-- Without joins. -/
theorem insertEdge_nojoin {MAX : Nat} {E : Env Nat S} (hE : E.ix = natIdx MAX) (hM : 1 ≤ E.M) {H : Nat}
    {leaf : Tree Nat S 1} {ctx : Ctx Nat S H 1} {p : Nat} {lhs rhs : Option (Nat × Nat)}
    {A B L1 R1 : List (Ent S)} {s : S} {size : Nat}
    {w : World} (hw : w.fst = none) (hj : E.sl.mayJoin = false)
    (hleaf : leaf = leafOf p (A ++ B)) (h1 : ctx.lo E.M ≤ A.length + B.length)
    (h2 : A.length + B.length ≤ 2 * E.M)
    (hc : CtxRep E.M (Maps.identity (natIdx MAX)) ctx (total A + total B) L1 R1 L1)
    (hb : total (L1 ++ A) + total (B ++ R1) + size ≤ MAX) :
    Agrees E.M ((L1 ++ A).length + (B ++ R1).length) (insertEdge E leaf ctx A.length lhs rhs s size w)
      (specEdge E.sl (L1 ++ A) (B ++ R1) s size) := by
  obtain ⟨post, path, w', c1, c2⟩ := insertEdge_plain (s := s) hE hM hw hleaf h1 h2 hc hb
  simp only [specEdge, hj, if_true]
  refine ⟨1, post, path, w', ?_, c2, by simp; omega⟩
  have hidx : decide (A.length ≤ Node.len leaf) = true := by subst hleaf; simp
  simp only [insertEdge, hidx, weakAssert_true, R.bind_ok, tryJoinEdge, hj]
  simp only [Bool.not_false, if_true, R.pure_eq, R.bind_ok, c1]

end Sherman
