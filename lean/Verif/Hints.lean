import Verif.Reach
/-!
# Hints do not matter
-/
namespace Sherman
variable {S : Type}

theorem findPoint_hints {MAX : Nat} {E : Env Nat S} (hE : E.ix = natIdx MAX) {M H : Nat} :
    ∀ {h lo : Nat} {n : Tree Nat S (h + 1)} {ctx : Ctx Nat S H (h + 1)} {t : Nat} {lhs rhs : Option (Nat × Nat)}
    {es : List (Ent S)} (hints hints' : Option (List Nat)), Rep M lo n es → Pos es → t ≤ total es →
    findPoint E n ctx hints t lhs rhs = findPoint E n ctx hints' t lhs rhs := by
  intro h
  induction h with
  | zero =>
    intro lo n ctx t lhs rhs es hints hints' hr hp ht
    have : ∀ hint, findStep (natIdx MAX) n hint t = findStep (natIdx MAX) n none t := by
      intro hint
      unfold findStep
      rw [searchStep_hint hr hp ht hint, searchStep_hint hr hp ht none]
    simp only [findPoint, hE, this (headHint hints), this (headHint hints')]
  | succ h ih =>
    intro lo n ctx t lhs rhs es hints hints' hr hp ht
    obtain ⟨psl, psr, c, ec, hn, a1, a2, a3, a4, a5, a6, a7⟩ := findStep_spec (MAX := MAX) hr hp ht
    rcases a7 with ⟨hf, h1, h2⟩ | ⟨it, psr', rfl, hf, h1, h2⟩
    · have hch : Node.child n psl.length = .ok c := by
        rw [hn]; exact child_at (KA := kidsOf psl) rfl (by simp)
      have hp' : Pos ec := by
        rw [a4, Pos.append, Pos.append] at hp; exact hp.1.2
      simp only [findPoint, hE, hf, Sherman.R.bind_ok, subL_ok h1, hch]
      exact ih _ _ a2 hp' (by rw [← a2.size]; omega)
    · simp only [findPoint, hE, hf, Sherman.R.bind_ok]

/-- An insertion with any hints is the same insertion: same tree, same returned path, same world. -/
theorem insert_hints {MAX : Nat} {E : Env Nat S} (hE : E.ix = natIdx MAX) {t : RleTree Nat S} {es : List (Ent S)}
    (ht : Holds E t es) (nop : Bool) (hints hints' : List Nat) (idx : Nat) (s : S) (size : Nat) (w : World) :
    t.insert E nop hints idx s size w = t.insert E nop hints' idx s size w := by
  have hsz := ht.size hE
  obtain ⟨root⟩ := t
  obtain ⟨hp, ht⟩ := ht
  cases root with
  | none => rfl
  | some root =>
    by_cases hidx : idx ≤ total es
    · have := findPoint_hints hE (ctx := (.top : Ctx Nat S (root.h + 1) (root.h + 1))) (lhs := none) (rhs := none)
        (some hints) (some hints') ht.1 hp hidx
      simp only [RleTree.insert, this]
    · have : ∀ m, check (!E.ix.lt (RleTree.size E ⟨some root⟩) idx) m = .error (.panic m) := by
        intro m
        have : E.ix.lt (RleTree.size E ⟨some root⟩) idx = true := by
          rw [hsz, hE]; simp [natIdx, IdxOps.lt, Nat.compare_eq_lt]; omega
        rw [this]; rfl
      simp only [RleTree.insert, this, Sherman.R.bind_error]

end Sherman
