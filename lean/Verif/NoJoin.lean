import Verif.LeafSplit
/-!
# Insertion next to a leaf's keys, without joining
-/
namespace Sherman
variable {S : Type}

/-- `do_insert_full_edge_no_join`. -/
theorem noJoin_spec {MAX p : Nat} {E : Env Nat S} (hE : E.ix = natIdx MAX) (hM : 1 ≤ E.M) {cb : Cb}
    {m : Maps Nat} {H : Nat} (ctx : Ctx Nat S H 1) {A A' B L Rr L' : List (Ent S)} {ov : Option Nat}
    {fst : Sized Nat S} {snd : Option (Sized Nat S)} {w : World} (hw : w.fst = none)
    (hctx : CtxRep E.M m ctx (total A + total B) L Rr L') (ho : OvRel ov A A')
    (hlo : ctx.lo E.M ≤ A.length + B.length) (hhi : A.length + B.length ≤ 2 * E.M)
    (hm : m.sizes = true → 0 < m.lhsHeight ∧ m.lhsHeight < H)
    (hb1 : total L + (total A + total B) + total Rr ≤ MAX)
    (hb2 : total L' + (total A' + total (newEnts fst snd) + total B) + total Rr ≤ MAX)
    (hm1 : total A ≤ total A' + total (newEnts fst snd))
    (hm2 : total L + total A ≤ total L' + (total A' + total (newEnts fst snd))) :
    ∃ post path w', noJoin E cb m (leafOf p (A ++ B)) ctx A.length ov fst snd w = .ok (post, path, w') ∧
      PostRep E.M post (L' ++ (A' ++ newEnts fst snd ++ B) ++ Rr) := by
  have hlen : Node.len (leafOf p (A ++ B)) = A.length + B.length := by simp
  have hA' := ho.length
  have hovA : (ov.isSome && A.length == 0) = false := by
    cases ov with
    | none => rfl
    | some s => obtain ⟨q, e, rfl, _⟩ := ho; simp
  have hidx : decide (A.length ≤ A.length + B.length) = true := by simp
  have hF : (newEnts fst snd).length = if snd.isSome then 2 else 1 := by
    cases snd <;> simp [newEnts]
  -- the amount added
  obtain ⟨one, hone, hstart⟩ : ∃ one, one = (if snd.isSome then 1 else 0) ∧
      noJoin E cb m (leafOf p (A ++ B)) ctx A.length ov fst snd w =
        if A.length + B.length ≥ 2 * E.M - one then do
          let (b, w) ← leafSplit E cb (leafOf p (A ++ B)) A.length ov fst snd w
          bubbleFinish E cb m ctx b false [] w
        else (do
          let (n, ovPos, old, new, w) ← leafRoom E cb (leafOf p (A ++ B)) A.length ov fst snd
            (total (newEnts fst snd)) w
          let (t, path) ← opKey E.ix m false ctx n (A.length + one) ovPos old new []
          pure (Post.done t, path, ctx.readUp (ptrT n) w)) := by
    cases snd with
    | none =>
      refine ⟨0, rfl, ?_⟩
      unfold noJoin
      rw [hlen]
      simp only [hovA, hidx, Bool.not_false, weakAssert_true, R.bind_ok, R.pure_eq,
        usub_ok (show 0 ≤ 2 * E.M by omega), newEnts, newEnt, Option.map_none, Option.toList_none, total_cons,
        total_nil, Nat.add_zero]
    | some sn =>
      refine ⟨1, rfl, ?_⟩
      simp only [newEnts, newEnt, Option.map_some, Option.toList_some, total_cons, total_nil] at hb2
      have a1 : fst.size + sn.size ≤ MAX := by omega
      unfold noJoin
      rw [hlen]
      simp only [hovA, hidx, Bool.not_false, weakAssert_true, R.bind_ok, R.pure_eq, hE, addR_ok a1,
        usub_ok (show 1 ≤ 2 * E.M by omega), newEnts, newEnt, Option.map_some, Option.toList_some, total_cons,
        total_nil, Nat.add_zero]
  rw [hstart]
  by_cases hfull : A.length + B.length ≥ 2 * E.M - one
  · rw [if_pos hfull]
    obtain ⟨b, w1, X, Y, hls, hX, hY, hsh, hold, heq⟩ := leafSplit_spec (p := p) (cb := cb) hE hM w hw ho
      (B := B) (fst := fst) (snd := snd)
      (by subst hone; cases snd <;> simp at hfull ⊢ <;> omega) (by omega) (by omega) hm1
    have htot := congrArg total heq
    simp only [total_append, total_cons] at htot
    rw [← hold] at hctx
    obtain ⟨post, path, w2, hbf, hpost⟩ := bubbleFinish_spec (cb := cb) (m := m) (handled := false)
      (path := []) (w := w1) hE hM ctx hctx hX hY hsh (by simp) (fun h => (hm h).2) (by omega) (by omega)
      (by omega) (by omega)
    refine ⟨post, path, w2, ?_, ?_⟩
    · rw [hls]; exact hbf
    · rw [heq] at hpost; exact hpost
  · rw [if_neg hfull]
    obtain ⟨n, ovPos, old, new, w1, hlr, hop⟩ := leafRoom_spec (p := p) (cb := cb) (m := m) hE w ho
      (B := B) (fst := fst) (snd := snd)
      (by subst hone; rw [hF]; cases snd <;> simp at hfull ⊢ <;> omega)
      (fun h => by have := (hm h).1; omega) (by omega) (by omega)
    have hrep : Rep E.M (ctx.lo E.M) (leafOf p (A' ++ newEnts fst snd ++ B)) (A' ++ newEnts fst snd ++ B) := by
      refine Rep.leafOf ?_ ?_
      · simp [hF, hA']; omega
      · subst hone; cases snd <;> simp [newEnts, hA'] at hfull ⊢ <;> omega
    obtain ⟨t', path, hup, hfin⟩ := opUp_spec (MAX := MAX) (m := m) (handled := false)
      (path := mapCursor m 0 []) ctx hctx hrep (by simp) (by omega) (by simp; omega)
    refine ⟨.done t', path, ctx.readUp (ptrT n) w1, ?_, hfin⟩
    rw [hlr]
    rw [← hone] at hop
    simp only [R.bind_ok, opKey]
    rw [hop]
    simp only [R.bind_ok, hE]
    have hsz : szN (leafOf p (A' ++ newEnts fst snd ++ B)) =
      Node.size (leafOf p (A' ++ newEnts fst snd ++ B)) := rfl
    rw [← hsz, hup]
    rfl

end Sherman
