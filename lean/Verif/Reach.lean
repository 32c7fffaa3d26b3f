import Verif.Observe
import Verif.GetSpec
import Verif.Relabel
import Verif.Alike
/-!
# Histories of insertions

What holds of every tree a program can build, with and without slice references.
-/
namespace Sherman
variable {S : Type}

/-- Trees built by a program: created empty or from one slice, then inserted into, while references to runs are made
(`relabel`: any change of the references stored in the keys), and cloned (`alike`: any change of the addresses of the nodes).  Sizes are values of the index type, at most `MAX`.  The rest of the world (store of references, addresses in use) is arbitrary at each step. -/
inductive Reach (MAX : Nat) (E : Env Nat S) : RleTree Nat S → Prop
  | empty {t : RleTree Nat S} : RleTree.newEmpty E = .ok t → Reach MAX E t
  | single {t : RleTree Nat S} {s : S} {size : Nat} {w w' : World} : size ≤ MAX →
      RleTree.new E s size w = .ok (t, w') → Reach MAX E t
  | insert {t t' : RleTree Nat S} {nop : Bool} {hints : List Nat} {idx : Nat} {s : S} {size : Nat} {w : World}
      {out : Inserted} : Reach MAX E t → size ≤ MAX →
      RleTree.insert E t nop hints idx s size w = .ok (t', out) → Reach MAX E t'
  | relabel {t : RleTree Nat S} (f : Nat → Nat → Option Nat → Option Nat) : Reach MAX E t → Reach MAX E (t.relabel f)
  | alike {t t' : RleTree Nat S} : t.Alike t' → Reach MAX E t → Reach MAX E t'

theorem check_ok {c : Bool} {m : String} {u : Unit} (h : check c m = .ok u) : c = true := by
  unfold check at h
  split at h
  · assumption
  · cases h

theorem natIdx_ixLe {MAX MAX' : Nat} (hle : MAX ≤ MAX') : IxLe (natIdx MAX) (natIdx MAX') := by
  refine ⟨rfl, rfl, rfl, ?_, ?_, fun _ _ => Le.refl _, fun _ _ => Le.refl _⟩ <;>
  · intro x y
    simp only [natIdx]
    split
    · rw [if_pos (by omega)]; exact Le.refl _
    · exact .inl rfl

/-- With a larger bound of the index type an insertion does the same, or it overflowed before. -/
theorem insert_le {MAX MAX' : Nat} (hle : MAX ≤ MAX') {E : Env Nat S} (hE : E.ix = natIdx MAX) (t : RleTree Nat S) (nop : Bool)
    (hints : List Nat) (idx : Nat) (s : S) (size : Nat) (w : World) :
    Le (t.insert E nop hints idx s size w) (t.insert { E with ix := natIdx MAX' } nop hints idx s size w) := by
  have hL : EnvLe E { E with ix := natIdx MAX' } := ⟨by rw [hE]; exact natIdx_ixLe hle, rfl, rfl⟩
  have hsz : t.size { E with ix := natIdx MAX' } = t.size E := by
    simp only [RleTree.size]; rw [hE]; rfl
  unfold RleTree.insert
  rw [hsz]
  dsimp only
  have e1 : E.ix.lt = (natIdx MAX').lt := by rw [hE]; rfl
  have e2 : E.ix.le = (natIdx MAX').le := by rw [hE]; rfl
  have e3 : E.ix.zero = (natIdx MAX').zero := by rw [hE]; rfl
  rw [← e1, ← e2, ← e3]
  refine Le.bind (Le.refl _) (fun _ => Le.bind (Le.refl _) (fun _ => ?_))
  cases t.root with
  | none => exact Le.bind (rleNew_le hL s size w) (fun _ => Le.refl _)
  | some root =>
    refine Le.bind (findPoint_le hL _ _ _ _ _ _) (fun _ => Le.bind (insertAt_le hL _ _ _ _ _) (fun r => ?_))
    obtain ⟨dlen, post, path, w'⟩ := r
    have hi : ∀ hd, Le (installRoot E (root.len + dlen) post path hd w')
        (installRoot { E with ix := natIdx MAX' } (root.len + dlen) post path hd w') := by
      intro hd
      cases post with
      | done t => exact Le.refl _
      | newRoot l k kz rr => exact Le.bind (makeNewParent_le hL.ix _ _ _ _ _) (fun _ => Le.refl _)
    dsimp only
    split
    · exact Le.bind (Le.refl _) hi
    · exact Le.bind (Le.refl _) hi

/-- The bound of the index type and the support for references can be relaxed. -/
theorem insert_relax {MAX MAX' : Nat} (hle : MAX ≤ MAX') {E : Env Nat S} (hE : E.ix = natIdx MAX)
    {t t' : RleTree Nat S} {nop : Bool} {hints : List Nat} {idx : Nat} {s : S} {size : Nat} {w : World} {out : Inserted}
    (h : t.insert E nop hints idx s size w = .ok (t', out)) :
    ∃ out', t.insert { E with ix := natIdx MAX', refs := false } nop hints idx s size w = .ok (t', out') := by
  have hix : IxLe (natIdx MAX) (natIdx MAX') := by
    exact natIdx_ixLe hle
  have hL : EnvLe E { E with ix := natIdx MAX', refs := false } := by
    refine ⟨?_, rfl, rfl⟩
    rw [hE]; exact hix
  simp only [RleTree.insert, bind_ok_iff] at h
  obtain ⟨_, c1, _, c2, h⟩ := h
  have hsz : t.size { E with ix := natIdx MAX', refs := false } = t.size E := by
    simp only [RleTree.size]; rw [hE]; rfl
  obtain ⟨root⟩ := t
  cases root with
  | none =>
    simp only [bind_ok_iff] at h
    obtain ⟨⟨t1, w1⟩, h1, h⟩ := h
    have h2 := (rleNew_le hL s size w).ok h1
    split at h
    · cases h
    · rename_i r hr
      cases h
      refine ⟨⟨[], none, w1⟩, ?_⟩
      simp only [RleTree.insert, hsz, bind_ok_iff]
      refine ⟨(), by rw [hE] at c1; exact c1, (), by rw [hE] at c2; exact c2, (t1, w1), h2, ?_⟩
      simp only [] at hr ⊢
      rw [hr]; rfl
  | some root =>
    simp only [bind_ok_iff] at h
    obtain ⟨pt, h1, ⟨dlen, post, path, w'⟩, h2, h⟩ := h
    have g1 := (findPoint_le hL _ _ _ _ _ _).ok h1
    have g2 := (insertAt_le hL _ _ _ _ _).ok h2
    have hin : ∃ hd, installRoot E (root.len + dlen) post path hd w' = .ok (t', out) := by
      split at h
      · simp only [bind_ok_iff] at h
        obtain ⟨hd, _, h⟩ := h
        exact ⟨hd, h⟩
      · exact ⟨_, h⟩
    obtain ⟨hd, h3⟩ := hin
    have g3 : ∃ out', installRoot { E with ix := natIdx MAX', refs := false } (root.len + dlen) post path none w' =
        .ok (t', out') := by
      cases post with
      | done t =>
        simp only [installRoot, bind_ok_iff] at h3
        obtain ⟨_, _, h3⟩ := h3
        cases h3
        exact ⟨⟨path, none, w'⟩, rfl⟩
      | newRoot l k kz rr =>
        simp only [installRoot, bind_ok_iff] at h3
        obtain ⟨⟨t2, w2⟩, h4, _, _, h3⟩ := h3
        cases h3
        have g4 := (makeNewParent_le hL.ix _ _ _ _ _).ok h4
        refine ⟨⟨path, none, w2⟩, ?_⟩
        simp only [installRoot, bind_ok_iff]
        exact ⟨(t2, w2), g4, (), rfl, rfl⟩
    obtain ⟨out', g3⟩ := g3
    refine ⟨out', ?_⟩
    simp only [RleTree.insert, hsz, bind_ok_iff]
    refine ⟨(), by rw [hE] at c1; exact c1, (), by rw [hE] at c2; exact c2, pt, g1, (dlen, post, path, w'), g2, ?_⟩
    exact g3

theorem Holds.size {E : Env Nat S} {MAX : Nat} (hE : E.ix = natIdx MAX) {t : RleTree Nat S} {es : List (Ent S)}
    (h : Holds E t es) : t.size E = total es := by
  obtain ⟨root⟩ := t
  obtain ⟨_, h⟩ := h
  cases root with
  | none => simp only at h; subst h; simp [RleTree.size, hE, natIdx]
  | some r => exact h.1.size

theorem Holds.runs {E : Env Nat S} {t : RleTree Nat S} {es : List (Ent S)} (h : Holds E t es) : t.runs = es := by
  obtain ⟨root⟩ := t
  obtain ⟨_, h⟩ := h
  cases root with
  | none => simp only at h; subst h; rfl
  | some r => exact h.1.runs

theorem Holds.len {E : Env Nat S} {t : RleTree Nat S} {es : List (Ent S)} (h : Holds E t es) :
    t.numberOfSlices = es.length := by
  obtain ⟨root⟩ := t
  obtain ⟨_, h⟩ := h
  cases root with
  | none => simp only at h; subst h; rfl
  | some r => exact h.2

/-- An insertion that returns was within bounds and had the specified effect; with or without references. -/
theorem insert_returned {MAX : Nat} {E : Env Nat S} (hE : E.ix = natIdx MAX) (hM : 1 ≤ E.M) (hM' : E.M ≤ 127)
    {t t' : RleTree Nat S} {es : List (Ent S)} (ht : Holds E t es) (hb : total es ≤ MAX) {nop : Bool} {hints : List Nat}
    {idx : Nat} {s : S} {size : Nat} {w : World} {out : Inserted} (hsz : size ≤ MAX)
    (h : t.insert E nop hints idx s size w = .ok (t', out)) :
    idx ≤ total es ∧ 0 < size ∧ total es + size ≤ MAX ∧
      ∃ es', specInsert E.sl es idx s size = .ok es' ∧ Holds E t' es' ∧ total es' = total es + size := by
  have h0 := h
  simp only [RleTree.insert, bind_ok_iff] at h0
  obtain ⟨_, c1, _, c2, _⟩ := h0
  have c1 := check_ok c1
  have c2 := check_ok c2
  rw [ht.size hE, hE] at c1
  rw [hE] at c2
  have hidx : idx ≤ total es := by
    simpa [natIdx, IdxOps.lt, Nat.compare_eq_lt] using c1
  have hs : 0 < size := by
    simpa [natIdx, IdxOps.le, Nat.compare_eq_gt] using c2
  obtain ⟨out', h1⟩ := insert_relax (MAX' := total es + size + MAX) (by omega) hE h
  have h2 := insert_refines (MAX := total es + size + MAX) (E := { E with ix := natIdx (total es + size + MAX), refs := false })
    rfl hM hM' (es := es) ht hidx (nop := nop) (hints := hints) (s := s) hs (w := w) (by omega)
  cases hspec : specInsert E.sl es idx s size with
  | error f =>
    rw [hspec] at h2
    simp only at h2
    rw [h1] at h2; cases h2
  | ok es' =>
    rw [hspec] at h2
    obtain ⟨t2, out2, h2, h3⟩ := h2
    rw [h1] at h2
    cases h2
    obtain ⟨f1, f2⟩ := specInsert_facts ht.1 hidx hs hspec
    have h4 := insert_size_le hE h (by rw [ht.size hE]; exact hb) hsz
    have h3 : Holds E t' es' := h3
    rw [h3.size hE] at h4
    exact ⟨hidx, hs, by omega, es', rfl, h3, f2⟩

/-- An insertion whose total does not fit the index type overflows, unless it ends in the unimplemented case first. -/
theorem insert_overflows {MAX : Nat} {E : Env Nat S} (hE : E.ix = natIdx MAX) (hM : 1 ≤ E.M) (hM' : E.M ≤ 127)
    {t : RleTree Nat S} {es : List (Ent S)} (ht : Holds E t es) (hb : total es ≤ MAX) {nop : Bool} {hints : List Nat}
    {idx : Nat} {s : S} {size : Nat} {w : World} (hidx : idx ≤ total es) (hs : 0 < size) (hsz : size ≤ MAX)
    (ho : MAX < total es + size) :
    t.insert E nop hints idx s size w = .error .overflow ∨
      ∃ f, specInsert E.sl es idx s size = .error f ∧ t.insert E nop hints idx s size w = .error f := by
  rcases insert_le (MAX' := total es + size) (by omega) hE t nop hints idx s size w with h | h
  · exact .inl h
  have h2 := insert_refines (MAX := total es + size) (E := { E with ix := natIdx (total es + size) })
    rfl hM hM' (es := es) ht hidx (nop := nop) (hints := hints) (s := s) hs (w := w) (by omega)
  cases hspec : specInsert E.sl es idx s size with
  | error f =>
    rw [hspec] at h2
    exact .inr ⟨f, rfl, by rw [h]; exact h2⟩
  | ok es' =>
    rw [hspec] at h2
    obtain ⟨t2, out2, h2, h3⟩ := h2
    rw [h2] at h
    obtain ⟨_, _, h4, _⟩ := insert_returned hE hM hM' ht hb hsz h
    omega

/-- Every tree that can be built is well formed, and its total is within the index type. -/
theorem Reach.holds {MAX : Nat} {E : Env Nat S} (hE : E.ix = natIdx MAX) {t : RleTree Nat S} (h : Reach MAX E t) :
    (1 ≤ E.M ∧ E.M ≤ 127) ∧ Holds E t t.runs ∧ total t.runs ≤ MAX := by
  induction h with
  | empty h =>
    simp only [RleTree.newEmpty, bind_ok_iff] at h
    obtain ⟨_, c1, _, c2, h⟩ := h
    cases h
    have c1 := check_ok c1
    have c2 := check_ok c2
    exact ⟨⟨by simpa using c2, by simpa using c1⟩, ⟨Pos.nil, rfl⟩, Nat.zero_le _⟩
  | @single t s size w w' hs h =>
    simp only [RleTree.new, bind_ok_iff] at h
    obtain ⟨_, c1, _, c2, _, c3, h⟩ := h
    cases h
    have c1 := check_ok c1
    have c2 := check_ok c2
    have c3 := check_ok c3
    rw [hE] at c3
    have hs0 : 0 < size := by simpa [natIdx, IdxOps.le, Nat.compare_eq_gt] using c3
    have hM : 1 ≤ E.M := by simpa using c2
    have hH : Holds E ⟨some ⟨0, newRoot E.ix w.next s size, 1⟩⟩ [⟨size, s, none⟩] := by
      refine ⟨by simp [Pos.cons, Pos.nil, hs0], ?_, rfl⟩
      rw [hE]
      exact Rep.leafOf (p := w.next) (es := [⟨size, s, none⟩]) (by simp) (by simp; omega)
    refine ⟨⟨hM, by simpa using c1⟩, ?_, ?_⟩
    · rw [hH.runs]; exact hH
    · rw [hH.runs]; simpa using hs
  | insert _ hs h ih =>
    obtain ⟨⟨hM, hM'⟩, h1, h2⟩ := ih
    obtain ⟨_, _, h3, es', _, h4, h5⟩ := insert_returned hE hM hM' h1 h2 hs h
    refine ⟨⟨hM, hM'⟩, ?_, ?_⟩
    · rw [h4.runs]; exact h4
    · rw [h4.runs]; omega
  | relabel f _ ih =>
    obtain ⟨hM, h1, h2⟩ := ih
    obtain ⟨h3, h4⟩ := h1.relabel f
    exact ⟨hM, h3, by rw [total_congr h4]; exact h2⟩
  | alike e _ ih =>
    obtain ⟨hM, h1, h2⟩ := ih
    have h3 := e.holds h1
    exact ⟨hM, by rw [h3.runs]; exact h3, by rw [h3.runs]; exact h2⟩

end Sherman
