import Verif.InsertSpec
import Verif.Bound
/-!
# Reading a tree

Specification-level functions that read a stored tree directly, written without reference to insertion or
search: the runs in order, and the shape of the nodes.
-/
namespace Sherman
variable {S C : Type}

/-- Where the next key of a node starts: its recorded position, or the end of the node. -/
def nextPos (size : Nat) : List (Key Nat S) → Nat
  | [] => size
  | k :: _ => k.pos

/-- Size of the first of some children. -/
def headSize (sz : C → Nat) : List C → Nat
  | [] => 0
  | c :: _ => sz c

/-- The runs of a node, in order, given those of its children.  A key's run extends to the start of the child
right of it. -/
def runsK (size : Nat) (sz : C → Nat) (rc : C → List (Ent S)) : List C → List (Key Nat S) → List (Ent S)
  | [], _ => []
  | c :: _, [] => rc c
  | c :: cs, k :: ks => rc c ++ ⟨nextPos size ks - headSize sz cs - k.pos, k.slice, k.ref⟩ :: runsK size sz rc cs ks

/-- The runs of a subtree, in order. -/
def runsT : {h : Nat} → Tree Nat S h → List (Ent S)
  | 0, _ => []
  | _ + 1, n => runsK n.size szN runsT n.kids n.keys

/-- The runs of a tree, in order. -/
def RleTree.runs (t : RleTree Nat S) : List (Ent S) :=
  match t.root with
  | none => []
  | some r => runsT r.tree

/-- B-tree shape: every node has one child more than keys; the root has between `lo` and `2*M` keys, every other
node between `M` and `2*M`.  All leaves are at the same depth by the type of the tree. -/
def ShapeT {I S : Type} (M : Nat) : Nat → {h : Nat} → Tree I S h → Prop
  | _, 0, _ => True
  | lo, _ + 1, n => lo ≤ n.keys.length ∧ n.keys.length ≤ 2 * M ∧ n.kids.length = n.keys.length + 1 ∧
      ∀ c ∈ n.kids, ShapeT M M c

/-- Every recorded size, of every node, is the sum of the sizes of the runs in it. -/
def SizesT : {h : Nat} → Tree Nat S h → Prop
  | 0, _ => True
  | _ + 1, n => n.size = total (runsT (h := _ + 1) n) ∧ ∀ c ∈ n.kids, SizesT c

theorem runsK_mkG {M h : Nat} (z : Nat) (psr : List (Item S (Tree Nat S h))) (c : Tree Nat S h) (o : Nat)
    (hz : z = o + tot szN psr) (ih : ∀ it ∈ psr, runsT it.kid = it.ents) (hi : RepItems M psr) :
    runsK z szN runsT (c :: kidsOf psr) (keysR szN o psr) = runsT c ++ entsR psr := by
  induction psr generalizing c o with
  | nil => simp [runsK, kidsOf, keysR, entsR]
  | cons it r ihr =>
    rw [RepItems.cons] at hi
    have h1 := ihr it.kid (o + it.size + szN it.kid) (by rw [hz, tot_cons]; omega)
      (fun x hx => ih x (by simp [hx])) hi.2
    simp only [kidsOf_cons, keysR_cons, runsK, h1, entsR_cons, ih it (by simp), headSize, Item.ent]
    have h2 : nextPos z (keysR szN (o + it.size + szN it.kid) r) = o + it.size + szN it.kid := by
      cases r with
      | nil => simp [nextPos, hz]; omega
      | cons => rfl
    rw [h2]
    have h3 : o + it.size + szN it.kid - szN it.kid - o = it.size := by omega
    rw [h3]

/-- A tree that stores entries is read as those entries. -/
theorem Rep.runs {M lo : Nat} {h : Nat} {t : Tree Nat S h} {es : List (Ent S)} (hr : Rep M lo t es) : runsT t = es := by
  induction h generalizing lo es with
  | zero =>
    have hr : es = [] := hr
    subst hr; rfl
  | succ h ih =>
    obtain ⟨c, ec, psr, hn, hc, hi, rfl, _, _⟩ := hr
    have h1 := runsK_mkG (M := M) (szN c + tot szN psr) psr c (szN c) rfl (fun it hit => ih (hi it hit)) hi
    rw [ih hc] at h1
    rw [hn]
    simpa [runsT, mkG] using h1

theorem Rep.shape {M lo : Nat} {h : Nat} {t : Tree Nat S h} {es : List (Ent S)} (hr : Rep M lo t es) : ShapeT M lo t := by
  induction h generalizing lo es with
  | zero => trivial
  | succ h ih =>
    obtain ⟨c, ec, psr, hn, hc, hi, rfl, h1, h2⟩ := hr
    rw [hn]
    refine ⟨by simpa [mkG] using h1, by simpa [mkG] using h2, by simp [mkG], ?_⟩
    intro d hd
    have hd : d ∈ c :: kidsOf psr := hd
    rcases List.mem_cons.1 hd with rfl | hd
    · exact ih hc
    · obtain ⟨it, hit, rfl⟩ := List.mem_map.1 hd
      exact ih (hi it hit)

theorem Rep.sizes {M lo : Nat} {h : Nat} {t : Tree Nat S h} {es : List (Ent S)} (hr : Rep M lo t es) : SizesT t := by
  induction h generalizing lo es with
  | zero => trivial
  | succ h ih =>
    refine ⟨?_, ?_⟩
    · rw [hr.runs]; exact hr.size
    obtain ⟨c, ec, psr, hn, hc, hi, rfl, h1, h2⟩ := hr
    rw [hn]
    intro d hd
    have hd : d ∈ c :: kidsOf psr := hd
    rcases List.mem_cons.1 hd with rfl | hd
    · exact ih hc
    · obtain ⟨it, hit, rfl⟩ := List.mem_map.1 hd
      exact ih (hi it hit)

theorem entsR_length {C : Type} {l : List (Item S C)} {b : Nat} (hl : ∀ it ∈ l, b ≤ it.ents.length) :
    l.length * (b + 1) ≤ (entsR l).length := by
  induction l with
  | nil => simp
  | cons it r ih =>
    have h1 := ih (fun x hx => hl x (by simp [hx]))
    have h2 := hl it (by simp)
    simp only [List.length_cons, entsR_cons, List.length_append]
    rw [Nat.succ_mul]; omega

/-- A subtree of `h` levels whose nodes all have at least `M` keys holds at least `(M+1)^h - 1` runs. -/
theorem Rep.count {M : Nat} {h : Nat} {t : Tree Nat S h} {es : List (Ent S)} (hr : Rep M M t es) :
    (M + 1) ^ h ≤ es.length + 1 := by
  induction h generalizing es with
  | zero => simp
  | succ h ih =>
    obtain ⟨c, ec, psr, hn, hc, hi, rfl, h1, _⟩ := hr
    have h2 := ih hc
    have h3 := entsR_length (l := psr) (b := (M + 1) ^ h - 1) (fun it hit => by have := ih (hi it hit); omega)
    have h4 : 0 < (M + 1) ^ h := Nat.pow_pos (by omega)
    have h5 : (M + 1) ^ h - 1 + 1 = (M + 1) ^ h := by omega
    rw [h5] at h3
    have h6 : M * (M + 1) ^ h ≤ psr.length * (M + 1) ^ h := Nat.mul_le_mul_right _ h1
    rw [List.length_append, Nat.pow_succ, Nat.mul_comm, Nat.succ_mul]
    omega

/-- Two such subtrees and a key are in a root with children. -/
theorem Rep.countRoot {M : Nat} {h : Nat} {t : Tree Nat S (h + 1)} {es : List (Ent S)} (hr : Rep M 1 t es) :
    2 * (M + 1) ^ h ≤ es.length + 1 := by
  obtain ⟨c, ec, psr, hn, hc, hi, rfl, h1, _⟩ := hr
  have h2 := hc.count
  have h3 := entsR_length (l := psr) (b := (M + 1) ^ h - 1) (fun it hit => by have := Rep.count (hi it hit); omega)
  have h4 : 0 < (M + 1) ^ h := Nat.pow_pos (by omega)
  have h5 : (M + 1) ^ h - 1 + 1 = (M + 1) ^ h := by omega
  rw [h5] at h3
  have h6 : 1 * (M + 1) ^ h ≤ psr.length * (M + 1) ^ h := Nat.mul_le_mul_right _ h1
  rw [List.length_append]
  omega

end Sherman
