import Verif.InsertSpec
import Verif.Observe
/-!
# Trees that differ only in where their nodes are
-/
namespace Sherman
variable {I S : Type}

/-- A tree without the addresses of its nodes. -/
def strip : {h : Nat} → Tree I S h → Tree I S h
  | 0, t => t
  | h + 1, n => (⟨0, Node.size n, Node.keys n, (Node.kids n).map (strip (h := h))⟩ : Node I S (Tree I S h))

/-- The same contents in the same nodes; only the addresses may differ. -/
def Alike {h : Nat} (t t' : Tree I S h) : Prop := strip t = strip t'

theorem alike_node {h : Nat} {n n' : Tree I S (h + 1)} :
    Alike n n' ↔ Node.size n = Node.size n' ∧ Node.keys n = Node.keys n' ∧ (Node.kids n).map strip = (Node.kids n').map strip := by
  unfold Alike
  simp only [strip]
  constructor
  · intro h
    have h1 := congrArg (fun n : Node I S (Tree I S _) => n.size) h
    have h2 := congrArg (fun n : Node I S (Tree I S _) => n.keys) h
    have h3 := congrArg (fun n : Node I S (Tree I S _) => n.kids) h
    exact ⟨h1, h2, h3⟩
  · rintro ⟨h1, h2, h3⟩
    rw [h1, h2, h3]

theorem alike_len {h : Nat} {l l' : List (Tree I S h)} (e : l.map strip = l'.map strip) : l.length = l'.length := by
  have := congrArg List.length e
  simpa using this

theorem alike_get {h : Nat} {l l' : List (Tree I S h)} (e : l.map strip = l'.map strip) {c : Nat} {t : Tree I S h} (hc : l[c]? = some t) :
    ∃ t', l'[c]? = some t' ∧ Alike t t' := by
  have h1 : (l.map strip)[c]? = some (strip t) := by simp [hc]
  rw [e] at h1
  simp only [List.getElem?_map, Option.map_eq_some_iff] at h1
  obtain ⟨t', h2, h3⟩ := h1
  exact ⟨t', h2, h3.symm⟩

theorem Alike.sz {ix : IdxOps I} {h : Nat} {t t' : Tree I S h} (e : Alike t t') : szT ix t = szT ix t' := by
  cases h with
  | zero => rfl
  | succ h => exact (alike_node.1 e).1

theorem Alike.refl {h : Nat} (t : Tree I S h) : Alike t t := rfl

theorem Alike.symm {h : Nat} {t t' : Tree I S h} (e : Alike t t') : Alike t' t := Eq.symm e

theorem Alike.trans {h : Nat} {a b c : Tree I S h} (e : Alike a b) (f : Alike b c) : Alike a c := Eq.trans e f

theorem runsK_alike {S : Type} {h size : Nat} {l l' : List (Tree Nat S h)} (e : l.map strip = l'.map strip)
    (ih : ∀ a b : Tree Nat S h, Alike a b → runsT a = runsT b) (ks : List (Key Nat S)) :
    runsK size szN runsT l ks = runsK size szN runsT l' ks := by
  induction l generalizing l' ks with
  | nil =>
    cases l' with
    | nil => rfl
    | cons => simp at e
  | cons a l ihl =>
    cases l' with
    | nil => simp at e
    | cons a' l' =>
      simp only [List.map_cons, List.cons.injEq] at e
      have hh : headSize szN l = headSize szN l' := by
        cases l with
        | nil =>
          cases l' with
          | nil => rfl
          | cons => simp at e
        | cons b l =>
          cases l' with
          | nil => simp at e
          | cons b' l' =>
            simp only [List.map_cons, List.cons.injEq] at e
            exact Alike.sz (t := b) (t' := b') e.2.1
      cases ks with
      | nil => exact ih a a' e.1
      | cons k ks =>
        simp only [runsK]
        rw [ih a a' e.1, ihl e.2, hh]

/-- The runs do not depend on addresses. -/
theorem Alike.runs {S : Type} {h : Nat} {t t' : Tree Nat S h} (e : Alike t t') : runsT t = runsT t' := by
  induction h with
  | zero => rfl
  | succ h ih =>
    obtain ⟨h1, h2, h3⟩ := alike_node.1 e
    simp only [runsT]
    rw [h1, h2]
    exact runsK_alike h3 (fun a b e => ih e) _

theorem Alike.rep {S : Type} {M lo h : Nat} {t t' : Tree Nat S h} (e : Alike t t') {es : List (Ent S)} (hr : Rep M lo t es) :
    Rep M lo t' es := by
  induction h generalizing lo es with
  | zero => exact hr
  | succ h ih =>
    obtain ⟨c, ec, psr, hn, hc, hp, he, h1, h2⟩ := hr
    obtain ⟨e1, e2, e3⟩ := alike_node.1 e
    have key : ∀ (l : List (Item S (Tree Nat S h))) (kk : List (Tree Nat S h)), (kidsOf l).map strip = kk.map strip →
        (∀ it ∈ l, Rep M M it.kid it.ents) → ∃ l' : List (Item S (Tree Nat S h)), kidsOf l' = kk ∧
          (∀ it ∈ l', Rep M M it.kid it.ents) ∧ entsR l' = entsR l ∧ l'.length = l.length ∧
          (∀ o, keysR szN o l' = keysR szN o l) ∧ tot szN l' = tot szN l := by
      intro l
      induction l with
      | nil =>
        intro kk hk _
        cases kk with
        | nil => exact ⟨[], rfl, by simp, rfl, rfl, fun _ => rfl, rfl⟩
        | cons => simp [kidsOf] at hk
      | cons it l ihl =>
        intro kk hk hl
        cases kk with
        | nil => simp [kidsOf] at hk
        | cons k kk =>
          simp only [kidsOf, List.map_cons, List.cons.injEq] at hk
          obtain ⟨l', g1, g2, g3, g4, g5, g6⟩ := ihl kk (by simpa [kidsOf] using hk.2) (fun x hx => hl x (by simp [hx]))
          have hk1 : Alike it.kid k := hk.1
          have hz : szN it.kid = szN k := hk1.sz
          refine ⟨{ it with kid := k } :: l', by simp [kidsOf]; exact g1, ?_, ?_, by simp [g4], ?_, ?_⟩
          · intro x hx
            rcases List.mem_cons.1 hx with rfl | hx
            · exact ih hk1 (hl it (by simp))
            · exact g2 x hx
          · simp only [entsR, List.flatMap_cons] at g3 ⊢
            rw [g3]; rfl
          · intro o
            simp only [keysR_cons, g5, hz]
          · simp only [tot, g6, hz]
    rw [hn] at e1 e2 e3
    cases hk : Node.kids t' with
    | nil => rw [hk] at e3; simp [mkG] at e3
    | cons c' kk =>
      rw [hk] at e3
      simp only [mkG, kidsOf, List.map_nil, List.nil_append, List.map_cons, List.cons.injEq] at e3
      obtain ⟨l', g1, g2, g3, g4, g5, g6⟩ := key psr kk (by simpa [kidsOf] using e3.2) hp
      have hc1 : Alike c c' := e3.1
      have hz : szN c = szN c' := hc1.sz
      refine ⟨c', ec, l', ?_, ih hc1 hc, g2, by rw [g3, he], by omega, by omega⟩
      have hs : Node.size t' = tot szN ([] : List (Item S (Tree Nat S h))) + szN c' + tot szN l' := by
        rw [← e1, g6, ← hz]; rfl
      have hks : Node.keys t' = keysR szN (0 + szN c') l' := by
        rw [← e2, g5, ← hz]; simp [mkG, tot]
      have : t' = (⟨Node.ptr t', Node.size t', Node.keys t', Node.kids t'⟩ : Node Nat S (Tree Nat S h)) := rfl
      rw [this]
      simp only [mkG, hs, hks, hk, ← g1]
      simp [kidsOf, tot]
      rfl

/-- Trees that differ only in where their nodes are. -/
def RleTree.Alike (t t' : RleTree I S) : Prop :=
  match t.root, t'.root with
  | none, none => True
  | some r, some r' => r.len = r'.len ∧ ∃ e : r.h = r'.h, Sherman.Alike (e ▸ r.tree : Tree I S (r'.h + 1)) r'.tree
  | _, _ => False

theorem RleTree.Alike.holds {S : Type} {E : Env Nat S} {t t' : RleTree Nat S} (e : t.Alike t') {es : List (Ent S)} (h : Holds E t es) :
    Holds E t' es := by
  obtain ⟨r⟩ := t
  obtain ⟨r'⟩ := t'
  obtain ⟨hp, h⟩ := h
  refine ⟨hp, ?_⟩
  cases r with
  | none =>
    cases r' with
    | none => exact h
    | some => exact e.elim
  | some r =>
    cases r' with
    | none => exact e.elim
    | some r' =>
      obtain ⟨h1, h2, h3⟩ := e
      obtain ⟨hh, rt, rl⟩ := r
      obtain ⟨hh', rt', rl'⟩ := r'
      simp only at h1 h2 h3 h
      subst h2
      exact ⟨h3.rep h.1, by rw [← h1]; exact h.2⟩

/-! ## The search does not look at addresses -/

theorem searchStep_alike {ix : IdxOps I} {h : Nat} {n n' : Tree I S (h + 1)} (e : Alike n n') (hint : Option Nat) (t : I) :
    searchStep ix n hint t = searchStep ix n' hint t := by
  obtain ⟨e1, e2, e3⟩ := alike_node.1 e
  have hc : ∀ i, Node.childSize (szT ix) n i = Node.childSize (szT ix) n' i := by
    intro i
    simp only [Node.childSize, Node.child]
    cases hi : (Node.kids n)[i]? with
    | some c =>
      obtain ⟨c', hc', ha⟩ := alike_get e3 hi
      have := ha.sz (ix := ix)
      simp [hc', this]
    | none =>
      have : (Node.kids n')[i]? = none := by
        have := alike_len e3
        simp only [List.getElem?_eq_none_iff] at hi ⊢
        omega
      simp [this]
  have hh : hintStep ix n hint t = hintStep ix n' hint t := by
    cases h with
    | zero => rfl
    | succ h =>
      cases hint with
      | none => rfl
      | some c => simp only [hintStep, Node.tryKeyPos, Node.nextPos, hc, e1, e2, Node.len]; rfl
  simp only [searchStep, hh, fullStep, Node.tryKeyPos, Node.nextPos, Node.keyPos, Node.sliceSize, hc, e1, e2, Node.len]

theorem findStep_alike {ix : IdxOps I} {h : Nat} {n n' : Tree I S (h + 1)} (e : Alike n n') (hint : Option Nat) (t : I) :
    findStep ix n hint t = findStep ix n' hint t := by
  obtain ⟨e1, e2, e3⟩ := alike_node.1 e
  have hc : ∀ i, Node.childSize (szT ix) n i = Node.childSize (szT ix) n' i := by
    intro i
    simp only [Node.childSize, Node.child]
    cases hi : (Node.kids n)[i]? with
    | some c =>
      obtain ⟨c', hc', ha⟩ := alike_get e3 hi
      have := ha.sz (ix := ix)
      simp [hc', this]
    | none =>
      have : (Node.kids n')[i]? = none := by
        have := alike_len e3
        simp only [List.getElem?_eq_none_iff] at hi ⊢
        omega
      simp [this]
  simp only [findStep, searchStep_alike e, hc]

end Sherman
