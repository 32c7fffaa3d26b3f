import Verif.CaughtProps
/-!
# What is stored after an insertion that panics: lemmas

The slices of a tree in order, and what each step of an insertion does to them, whether it returns or panics.  Nothing is assumed of the index type.
-/
namespace Sherman
variable {I S C : Type}

/-! ## In-order lists -/

/-- The lists of the children with the keys between them. -/
def mix : List (List S) → List S → List S
  | [], _ => []
  | c :: _, [] => c
  | c :: cs, k :: ks => c ++ k :: mix cs ks

/-- The part before child `cs.length`. -/
def mixL : List (List S) → List S → List S
  | [], _ => []
  | c :: _, [] => c
  | c :: cs, k :: ks => c ++ k :: mixL cs ks

/-- The part after a child, starting with a key. -/
def mixR : List S → List (List S) → List S
  | [], _ => []
  | k :: _, [] => [k]
  | k :: ks, c :: cs => k :: (c ++ mixR ks cs)

/-- The list with `s` and then `x` put after child `c`. -/
def insMix : List (List S) → List S → Nat → S → List S → List S
  | [], _, _, _, _ => []
  | c0 :: cs, ks, 0, s, x => c0 ++ s :: mix (x :: cs) ks
  | c0 :: _, [], _ + 1, _, _ => c0
  | c0 :: cs, k :: ks, c + 1, s, x => c0 ++ k :: insMix cs ks c s x

theorem mix_cons (c : List S) (cs : List (List S)) : ∀ ks : List S, mix (c :: cs) ks = c ++ mixR ks cs := by
  induction cs generalizing c with
  | nil => intro ks; cases ks <;> simp [mix, mixR]
  | cons d cs ih =>
    intro ks
    cases ks with
    | nil => simp [mix, mixR]
    | cons k ks => simp [mix, mixR, ih]

theorem mix_mid (kl : List (List S)) : ∀ (ks : List S) (t : List S) (kr : List (List S)), kl.length ≤ ks.length →
    mix (kl ++ t :: kr) ks = mixL kl ks ++ t ++ mixR (ks.drop kl.length) kr := by
  induction kl with
  | nil => intro ks t kr _; simp [mixL, mix_cons]
  | cons c kl ih =>
    intro ks t kr h
    cases ks with
    | nil => simp at h
    | cons k ks => simp [mix, mixL, ih ks t kr (by simpa using h)]

theorem insMix_mid (kl : List (List S)) : ∀ (ks : List S) (t : List S) (kr : List (List S)) (s : S) (x : List S), kl.length ≤ ks.length →
    insMix (kl ++ t :: kr) ks kl.length s x = mixL kl ks ++ (t ++ s :: x) ++ mixR (ks.drop kl.length) kr := by
  induction kl with
  | nil => intro ks t kr s x _; simp [mixL, insMix, mix_cons]
  | cons c kl ih =>
    intro ks t kr s x h
    cases ks with
    | nil => simp at h
    | cons k ks => simp [insMix, mixL, ih ks t kr s x (by simpa using h)]

theorem mix_ins : ∀ (c : Nat) (cs : List (List S)) (ks : List S) (s : S) (x : List S), cs.length = ks.length + 1 → c ≤ ks.length →
    mix (cs.take (c + 1) ++ x :: cs.drop (c + 1)) (ks.take c ++ s :: ks.drop c) = insMix cs ks c s x := by
  intro c
  induction c with
  | zero =>
    intro cs ks s x h _
    cases cs with
    | nil => simp at h
    | cons c0 cs => simp [mix, insMix]
  | succ c ih =>
    intro cs ks s x h h'
    cases cs with
    | nil => simp at h
    | cons c0 cs =>
      cases ks with
      | nil => simp at h'
      | cons k ks => simpa [mix, insMix] using ih cs ks s x (by simpa using h) (by simpa using h')

theorem mix_sub_ins : ∀ (c : Nat) (cs : List (List S)) (ks : List S) (s : S) (x : List S), cs.length = ks.length + 1 → c ≤ ks.length →
    (mix cs ks).Sublist (insMix cs ks c s x) := by
  intro c
  induction c with
  | zero =>
    intro cs ks s x h _
    cases cs with
    | nil => simp at h
    | cons c0 cs =>
      simp only [insMix, mix_cons]
      exact (List.Sublist.refl _).append (((List.Sublist.refl _).trans (List.sublist_append_right _ _)).cons _)
  | succ c ih =>
    intro cs ks s x h h'
    cases cs with
    | nil => simp at h
    | cons c0 cs =>
      cases ks with
      | nil => simp at h'
      | cons k ks => simpa [mix, insMix] using ih cs ks s x (by simpa using h) (by simpa using h')

theorem mix_split : ∀ (mid : Nat) (cs : List (List S)) (ks : List S) (k : S), cs.length = ks.length + 1 → ks[mid]? = some k →
    mix cs ks = mix (cs.take (mid + 1)) (ks.take mid) ++ k :: mix (cs.drop (mid + 1)) (ks.drop (mid + 1)) := by
  intro mid
  induction mid with
  | zero =>
    intro cs ks k h hk
    cases cs with
    | nil => simp at h
    | cons c0 cs =>
      cases ks with
      | nil => simp at hk
      | cons k' ks => simp at hk; simp [mix, hk]
  | succ mid ih =>
    intro cs ks k h hk
    cases cs with
    | nil => simp at h
    | cons c0 cs =>
      cases ks with
      | nil => simp at hk
      | cons k' ks => simpa [mix] using ih cs ks k (by simpa using h) (by simpa using hk)

theorem ins_left : ∀ (c mid : Nat) (cs : List (List S)) (ks : List S) (k s : S) (x : List S), cs.length = ks.length + 1 → ks[mid]? = some k → c ≤ mid →
    insMix cs ks c s x = insMix (cs.take (mid + 1)) (ks.take mid) c s x ++ k :: mix (cs.drop (mid + 1)) (ks.drop (mid + 1)) := by
  intro c
  induction c with
  | zero =>
    intro mid cs ks k s x h hk _
    cases cs with
    | nil => simp at h
    | cons c0 cs =>
      have := mix_split mid (x :: cs) ks k (by simpa using h) hk
      simp only [List.take_succ_cons, List.drop_succ_cons] at this
      simp [insMix, this]
  | succ c ih =>
    intro mid cs ks k s x h hk hm
    obtain ⟨mid, rfl⟩ : ∃ m, mid = m + 1 := ⟨mid - 1, by omega⟩
    cases cs with
    | nil => simp at h
    | cons c0 cs =>
      cases ks with
      | nil => simp at hk
      | cons k' ks => simpa [insMix] using ih mid cs ks k s x (by simpa using h) (by simpa using hk) (by omega)

theorem ins_right : ∀ (mid c : Nat) (cs : List (List S)) (ks : List S) (k s : S) (x : List S), cs.length = ks.length + 1 → ks[mid]? = some k →
    insMix cs ks (mid + 1 + c) s x =
      mix (cs.take (mid + 1)) (ks.take mid) ++ k :: insMix (cs.drop (mid + 1)) (ks.drop (mid + 1)) c s x := by
  intro mid
  induction mid with
  | zero =>
    intro c cs ks k s x h hk
    cases cs with
    | nil => simp at h
    | cons c0 cs =>
      cases ks with
      | nil => simp at hk
      | cons k' ks => simp at hk; simp [Nat.add_comm 1 c, insMix, mix, hk]
  | succ mid ih =>
    intro c cs ks k s x h hk
    cases cs with
    | nil => simp at h
    | cons c0 cs =>
      cases ks with
      | nil => simp at hk
      | cons k' ks =>
        rw [show mid + 1 + 1 + c = (mid + 1 + c) + 1 by omega]
        simpa [insMix, mix] using ih c cs ks k s x (by simpa using h) (by simpa using hk)

theorem ins_at : ∀ (c : Nat) (cs : List (List S)) (ks : List S) (s : S) (x : List S), cs.length = ks.length + 1 → c ≤ ks.length →
    insMix cs ks c s x = mix (cs.take (c + 1)) (ks.take c) ++ s :: mix (x :: cs.drop (c + 1)) (ks.drop c) := by
  intro c
  induction c with
  | zero =>
    intro cs ks s x h _
    cases cs with
    | nil => simp at h
    | cons c0 cs => simp [mix, insMix]
  | succ c ih =>
    intro cs ks s x h h'
    cases cs with
    | nil => simp at h
    | cons c0 cs =>
      cases ks with
      | nil => simp at h'
      | cons k ks => simpa [mix, insMix] using ih cs ks s x (by simpa using h) (by simpa using h')

theorem mix_nils {β : Type} : ∀ (us : List β) (ks : List S), us.length = ks.length + 1 → mix (us.map fun _ => []) ks = ks := by
  intro us
  induction us with
  | nil => intro ks h; simp at h
  | cons u us ih =>
    intro ks h
    cases ks with
    | nil => simp [mix]
    | cons k ks =>
      have := ih ks (by simpa using h)
      simp only [List.map_cons, mix, List.nil_append, this]

/-! ## Trees -/

/-- The slices of a tree in order. -/
def slicesT : {h : Nat} → Tree I S h → List S
  | 0, _ => []
  | _ + 1, n => mix ((Node.kids n).map slicesT) ((Node.keys n).map Key.slice)

/-- Each node has one more child than keys. -/
def ArityT : {h : Nat} → Tree I S h → Prop
  | 0, _ => True
  | _ + 1, n => (Node.kids n).length = (Node.keys n).length + 1 ∧ ∀ c ∈ Node.kids n, ArityT c

/-- A node with one more child than keys, children that are `P`, and `l` in order. -/
structure Has (P : C → Prop) (g : C → List S) (n : Node I S C) (l : List S) : Prop where
  arity : n.kids.length = n.keys.length + 1
  kids : ∀ c ∈ n.kids, P c
  list : mix (n.kids.map g) (n.keys.map Key.slice) = l

/-- A tree with the right arities and `l` in order. -/
def Fits {h : Nat} (t : Tree I S h) (l : List S) : Prop := ArityT t ∧ slicesT t = l

theorem fits_succ {h : Nat} {n : Tree I S (h + 1)} {l : List S} : Fits n l ↔ Has ArityT slicesT n l :=
  ⟨fun h => ⟨h.1.1, h.1.2, h.2⟩, fun h => ⟨⟨h.1, h.2⟩, h.3⟩⟩

theorem fits_self {h : Nat} {t : Tree I S h} (ht : ArityT t) : Fits t (slicesT t) := ⟨ht, rfl⟩

/-- A node with part of `T`. -/
def Part (P : C → Prop) (g : C → List S) (n : Node I S C) (T : List S) : Prop := ∃ l, Has P g n l ∧ l.Sublist T

/-- A tree with part of `T`. -/
def PartT {h : Nat} (t : Tree I S h) (T : List S) : Prop := ∃ l, Fits t l ∧ l.Sublist T

theorem Fits.part {h : Nat} {t : Tree I S h} {l T : List S} (ht : Fits t l) (hs : l.Sublist T) : PartT t T := ⟨l, ht, hs⟩

theorem Has.part {P : C → Prop} {g : C → List S} {n : Node I S C} {l T : List S} (hn : Has P g n l) (hs : l.Sublist T) : Part P g n T := ⟨l, hn, hs⟩

/-- Same slices and children. -/
def Eqv (n n' : Node I S C) : Prop := n'.keys.map Key.slice = n.keys.map Key.slice ∧ n'.kids = n.kids

theorem Eqv.refl (n : Node I S C) : Eqv n n := ⟨rfl, rfl⟩
theorem Eqv.trans {a b c : Node I S C} (h : Eqv a b) (h' : Eqv b c) : Eqv a c := ⟨h'.1.trans h.1, h'.2.trans h.2⟩
theorem Eqv.len {a b : Node I S C} (h : Eqv a b) : b.keys.length = a.keys.length := by simpa using congrArg List.length h.1

theorem Has.eqv {P : C → Prop} {g : C → List S} {n n' : Node I S C} {l : List S} (h : Has P g n l) (e : Eqv n n') : Has P g n' l := by
  refine ⟨by rw [e.2, e.len, h.arity], by rw [e.2]; exact h.kids, by rw [e.1, e.2, h.list]⟩

namespace Ctx
variable {H : Nat}

/-- The slices before the subtree. -/
def pre : {h : Nat} → Ctx I S H h → List S
  | _, .top => []
  | _, .frame _ _ keys kl _ up => pre up ++ mixL (kl.map slicesT) (keys.map Key.slice)

/-- The slices after the subtree. -/
def post : {h : Nat} → Ctx I S H h → List S
  | _, .top => []
  | _, .frame _ _ keys kl kr up => mixR ((keys.map Key.slice).drop kl.length) (kr.map slicesT) ++ post up

/-- The arities above the subtree. -/
def Arity : {h : Nat} → Ctx I S H h → Prop
  | _, .top => True
  | _, .frame _ _ keys kl kr up => keys.length = kl.length + kr.length ∧ (∀ c ∈ kl, ArityT c) ∧ (∀ c ∈ kr, ArityT c) ∧ Arity up
end Ctx

theorem plug_fits {h : Nat} {p : Nat} {z : I} {keys : List (Key I S)} {kl kr : List (Tree I S h)} {t : Tree I S h} {l : List S}
    (hl : keys.length = kl.length + kr.length) (h1 : ∀ c ∈ kl, ArityT c) (h2 : ∀ c ∈ kr, ArityT c) (ht : Fits t l) :
    Fits (h := h + 1) (plugNode p z keys kl t kr)
      (mixL (kl.map slicesT) (keys.map Key.slice) ++ l ++ mixR ((keys.map Key.slice).drop kl.length) (kr.map slicesT)) := by
  refine fits_succ.2 ⟨?_, ?_, ?_⟩
  · simp [plugNode]; omega
  · intro c hc
    simp only [plugNode, List.mem_append, List.mem_cons] at hc
    rcases hc with hc | rfl | hc
    · exact h1 c hc
    · exact ht.1
    · exact h2 c hc
  · have := mix_mid (kl.map slicesT) (keys.map Key.slice) (slicesT t) (kr.map slicesT) (by simp; omega)
    simp only [List.length_map] at this
    rw [ht.2] at this
    simpa only [plugNode, List.map_append, List.map_cons, ht.2] using this

theorem close_fits {H : Nat} : ∀ {h : Nat} (ctx : Ctx I S H h) (t : Tree I S h) (l : List S), ctx.Arity → Fits t l →
    Fits (ctx.close t) (ctx.pre ++ l ++ ctx.post) := by
  intro h ctx
  induction ctx with
  | top => intro t l _ ht; simpa [Ctx.pre, Ctx.post, Ctx.close] using ht
  | frame p z keys kl kr up ih =>
    intro t l hx ht
    obtain ⟨h0, h1, h2, h3⟩ := hx
    have := ih _ _ h3 (plug_fits (p := p) (z := z) h0 h1 h2 ht)
    simpa [Ctx.pre, Ctx.post, Ctx.close] using this

theorem close_part {H h : Nat} {ctx : Ctx I S H h} {t : Tree I S h} {T : List S} (hx : ctx.Arity) (ht : PartT t T) :
    PartT (ctx.close t) (ctx.pre ++ T ++ ctx.post) := by
  obtain ⟨l, h1, h2⟩ := ht
  exact (close_fits ctx t l hx h1).part (((List.Sublist.refl _).append h2).append (List.Sublist.refl _))

/-! ## Results and what is left -/

/-- If `x` returns, the result has `Q`. -/
def Ret {α : Type} (x : R α) (Q : α → Prop) : Prop := ∀ a, x = .ok a → Q a

/-- If `c` returns, the result has `Q`; if it panics, what is left has `L`. -/
def Leaves {T α : Type} (c : Lv T α) (Q : α → Prop) (L : T → Prop) : Prop := (∀ a, c = .ok a → Q a) ∧ ∀ f t, c = .error (f, t) → L t

namespace Ret
variable {α β : Type} {x : R α} {Q Q' : α → Prop}
theorem bind {k : α → R β} {Q'' : β → Prop} (h : Ret x Q) (hk : ∀ a, Q a → Ret (k a) Q'') : Ret (x >>= k) Q'' := by
  cases x with
  | ok a => exact hk a (h a rfl)
  | error e => intro a h; cases h
theorem skip {k : α → R β} {Q'' : β → Prop} (hk : ∀ a, Ret (k a) Q'') : Ret (x >>= k) Q'' := bind (Q := fun _ => True) (fun _ _ => trivial) fun a _ => hk a
theorem pure {a : α} (h : Q a) : Ret (Pure.pure a) Q := by intro b hb; cases hb; exact h
theorem err {f : Fault} : Ret (.error f : R α) Q := by intro b hb; cases hb
theorem weak {c : Bool} {m : String} : Ret (weakAssert c m) fun _ => c = true := by
  intro a h; unfold weakAssert at h; split at h
  · assumption
  · cases h
theorem usub {a b : Nat} : Ret (Sherman.usub a b) fun r => b ≤ a ∧ r = a - b := by
  intro r h; unfold Sherman.usub at h; split at h
  · cases h; exact ⟨by assumption, rfl⟩
  · cases h
theorem mono (h : Ret x Q) (hq : ∀ a, Q a → Q' a) : Ret x Q' := fun a ha => hq a (h a ha)
end Ret

namespace Leaves
variable {T T' α β : Type} {c : Lv T α} {x : R α} {Q : α → Prop} {L : T → Prop}
theorem leave {t : T} (h : Ret x Q) (hl : L t) : Leaves (Sherman.leave t x) Q L := by
  cases x with
  | ok a => exact ⟨fun b hb => (by cases hb; exact h a rfl), fun f t h => by cases h⟩
  | error e => exact ⟨fun b hb => (by cases hb), fun f t h => by cases h; exact hl⟩
theorem bind {k : α → Lv T β} {Q' : β → Prop} (h : Leaves c Q L) (hk : ∀ a, Q a → Leaves (k a) Q' L) : Leaves (c >>= k) Q' L := by
  cases c with
  | ok a => exact hk a (h.1 a rfl)
  | error e => exact ⟨fun b hb => (by cases hb), fun f t he => by cases he; exact h.2 _ _ rfl⟩
theorem step {t : T} {k : α → Lv T β} {Q' : β → Prop} (h : Ret x Q) (hl : L t) (hk : ∀ a, Q a → Leaves (k a) Q' L) :
    Leaves (Sherman.leave t x >>= k) Q' L := bind (leave h hl) hk
theorem skip {t : T} {k : α → Lv T β} {Q' : β → Prop} (hl : L t) (hk : ∀ a, Leaves (k a) Q' L) : Leaves (Sherman.leave t x >>= k) Q' L :=
  step (Q := fun _ => True) (fun _ _ => trivial) hl fun a _ => hk a
theorem pure {a : α} (h : Q a) : Leaves (Pure.pure a : Lv T α) Q L := ⟨fun b hb => (by cases hb; exact h), fun f t he => by cases he⟩
theorem within {g : T → T'} {L' : T' → Prop} (h : Leaves c Q L) (hg : ∀ t, L t → L' (g t)) : Leaves (Sherman.within g c) Q L' := by
  cases c with
  | ok a => exact ⟨fun b hb => (by cases hb; exact h.1 a rfl), fun f t he => by cases he⟩
  | error e => exact ⟨fun b hb => (by cases hb), fun f t he => by cases he; exact hg _ (h.2 _ _ rfl)⟩
theorem mono {Q' : α → Prop} {L' : T → Prop} (h : Leaves c Q L) (hq : ∀ a, Q a → Q' a) (hl : ∀ t, L t → L' t) : Leaves c Q' L' :=
  ⟨fun a ha => hq a (h.1 a ha), fun f t he => hl t (h.2 f t he)⟩
end Leaves

/-! ## Operations on one node -/

theorem setKeyPos_ret {n : Node I S C} {k : Nat} {p : I} : Ret (n.setKeyPos k p) (Eqv n) := by
  unfold Node.setKeyPos
  split
  · exact Ret.err
  · rename_i key hk
    refine Ret.pure ⟨?_, rfl⟩
    simp only [List.map_set]
    have hlt := (List.getElem?_eq_some_iff.1 hk)
    obtain ⟨h1, rfl⟩ := hlt
    apply List.ext_getElem
    · simp
    · intro i h2 h3
      rw [List.getElem_set]
      split
      · subst_vars; simp
      · simp

theorem mapPos_ret {f : I → R I} (ks : List (Key I S)) : Ret (Node.mapPos f ks) fun r => r.map Key.slice = ks.map Key.slice := by
  induction ks with
  | nil => exact Ret.pure rfl
  | cons k ks ih => exact Ret.skip fun p => ih.bind fun a ha => Ret.pure (by simp [ha])

theorem setKeyPossWith_ret {n : Node I S C} {f : I → R I} {start : Nat} : Ret (n.setKeyPossWith f start) (Eqv n) := by
  refine Ret.skip fun _ => (mapPos_ret _).bind fun ks hk => Ret.skip fun s => Ret.pure ⟨?_, rfl⟩
  simp [hk]

theorem shiftKeys_ret {ix : IdxOps I} {n : Node I S C} {incr : Bool} {start : Nat} {pos o w : I} : Ret (n.shiftKeys ix incr start pos o w) (Eqv n) := by
  refine Ret.skip fun _ => Ret.skip fun _ => Ret.skip fun _ => ?_
  split
  · exact Ret.skip fun _ => setKeyPossWith_ret
  · exact Ret.skip fun _ => setKeyPossWith_ret

theorem mapPosC_leaves {f : I → R I} (ks : List (Key I S)) :
    Leaves (mapPosC f ks) (fun r => r.map Key.slice = ks.map Key.slice) fun r => r.map Key.slice = ks.map Key.slice := by
  induction ks with
  | nil => exact Leaves.pure rfl
  | cons k ks ih =>
    refine Leaves.skip rfl fun p => (ih.within fun t ht => ?_).bind fun a ha => Leaves.pure ?_
    · simp [ht]
    · simp [ha]

theorem setKeyPossWithC_leaves {n : Node I S C} {f : I → R I} {start : Nat} : Leaves (setKeyPossWithC n f start) (Eqv n) (Eqv n) := by
  refine Leaves.skip (Eqv.refl n) fun _ => ((mapPosC_leaves _).within fun ks hk => ⟨?_, rfl⟩).bind fun ks hk => Leaves.skip ⟨?_, rfl⟩ fun s => Leaves.pure ⟨?_, rfl⟩
  all_goals simp [hk]

theorem shiftKeysC_leaves {ix : IdxOps I} {n : Node I S C} {incr : Bool} {start : Nat} {pos o w : I} :
    Leaves (shiftKeysC ix n incr start pos o w) (Eqv n) (Eqv n) := by
  refine Leaves.skip (Eqv.refl n) fun _ => Leaves.skip (Eqv.refl n) fun _ => Leaves.skip (Eqv.refl n) fun _ => ?_
  split
  · exact Leaves.skip (Eqv.refl n) fun _ => setKeyPossWithC_leaves
  · exact Leaves.skip (Eqv.refl n) fun _ => setKeyPossWithC_leaves

theorem split_ret [HasPtr C] {n : Node I S C} {mid : Nat} {w : World} : Ret (n.split mid w) fun r =>
    n.keys[mid]? = some r.2.1 ∧ r.1.keys = n.keys.take mid ∧ r.1.kids = n.kids.take (mid + 1) ∧
    r.2.2.1.keys = n.keys.drop (mid + 1) ∧ r.2.2.1.kids = n.kids.drop (mid + 1) := by
  unfold Node.split
  split
  · exact Ret.err
  · rename_i key hk
    exact Ret.pure ⟨hk, rfl, rfl, rfl, rfl⟩

theorem insertKeyAndChild_ret [HasPtr C] {max : Nat} {n : Node I S C} {idx : Nat} {s : S} {ref : Option Nat} {c : C} {w : World} :
    Ret (n.insertKeyAndChild max idx s ref c w) fun r => idx ≤ n.keys.length ∧
      r.1.keys.map Key.slice = (n.keys.map Key.slice).take idx ++ s :: (n.keys.map Key.slice).drop idx ∧
      r.1.kids = n.kids.take (idx + 1) ++ c :: n.kids.drop (idx + 1) := by
  refine Ret.weak.bind fun _ h => Ret.skip fun _ => Ret.pure ⟨of_decide_eq_true h, ?_, rfl⟩
  simp

theorem pushKeyAndChild_ret [HasPtr C] {max : Nat} {n : Node I S C} {s : S} {ref : Option Nat} {c : C} {z : I} {w : World} :
    Ret (n.pushKeyAndChild max s ref c z w) fun r => r.1.keys.map Key.slice = n.keys.map Key.slice ++ [s] ∧ r.1.kids = n.kids ++ [c] := by
  refine Ret.skip fun _ => Ret.pure ⟨?_, rfl⟩
  simp

theorem replaceFirstChild_ret [HasPtr C] {n : Node I S C} {c : C} {w : World} : Ret (n.replaceFirstChild c w) fun r =>
    ∃ cs, n.kids = r.2.1 :: cs ∧ r.1.kids = c :: cs ∧ r.1.keys = n.keys := by
  unfold Node.replaceFirstChild
  split
  · exact Ret.err
  · rename_i c0 cs hk
    exact Ret.pure ⟨cs, hk, rfl, rfl⟩

theorem setSlice_ret {n : Node I S C} {k : Nat} {s : S} : Ret (n.setSlice k s) fun r =>
    r.keys.map Key.slice = (n.keys.map Key.slice).set k s ∧ r.kids = n.kids := by
  unfold Node.setSlice
  split
  · exact Ret.err
  · exact Ret.pure ⟨by simp [List.map_set], rfl⟩

theorem handle_ret {n : Node I S C} {k : Nat} : Ret (n.handle k) fun r => n.keys[k]? = some r := by
  unfold Node.handle
  split
  · exact Ret.err
  · rename_i key hk
    exact Ret.pure hk

theorem child_ret {n : Node I S C} {k : Nat} : Ret (n.child k) fun r => n.kids[k]? = some r := by
  unfold Node.child
  split
  · rename_i c hk
    exact Ret.pure hk
  · exact Ret.err

end Sherman
