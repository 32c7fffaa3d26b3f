import Verif.CowFuzz
import Verif.FuzzProps
import Verif.CowIterProps
import Verif.CowPath
import Verif.CowLimit
import Verif.ValidateProps
/-!
# The fuzz target for copy-on-write does not fail

C50: whatever the fuzzer sends, making and running the commands of a `cow` target succeeds, if the allocator does not hand out an address again.
-/
namespace Sherman
namespace Fuzz
open Cow
variable {S : Type} {MAX max imax LEN : Nat}

/-! ## Generator and runner -/

/-- The mock of a tree has these runs. -/
def Mocks (MAX max : Nat) (E : Env Nat S) (m : Mock Nat S) (es : List (Ent S)) : Prop := ∃ st, Mock.Both MAX max E st m [] ∧ st.tree.runs = es

/-- Generator and runner between two commands: runner is in a state that a program `ops` leads to; each mock has the runs of the tree. -/
structure CRel (MAX max imax : Nat) (E : Env Nat S) (g : Gen S) (s : LSt Nat S) (ops : List (Cow.Op Nat S)) (ss : Lists S) : Prop where
  fits : ∀ op ∈ ops, op.fits MAX
  run : LSt.run E imax LSt.init ops = .ok s
  rel : Cow.Rel MAX E s.st ss
  few : Few MAX ops.length s.st
  len : g.mocks.length = ss.length
  mocks : ∀ (i : Nat) (m : Mock Nat S), g.mocks[i]? = some (some m) → ∃ es, ss[i]? = some (some es) ∧ Mocks MAX max E m es
  num : g.numTrees ≤ g.mocks.countP (·.isSome)

/-- One operation of the runner. -/
theorem crel_step {E : Env Nat S} (hE : E.ix = natIdx MAX) (hM : 1 ≤ E.M) (hM' : E.M ≤ 127) {g : Gen S} {s : LSt Nat S} {ops : List (Cow.Op Nat S)} {ss ss' : Lists S}
    (h : CRel MAX max imax E g s ops ss) (hle : (ops.length + 1) * (2 * Nat.log 2 MAX + 4) ≤ imax) {op : Cow.Op Nat S} (hop : op.fits MAX)
    (hs : specStep MAX E.sl ss op = some ss') : ∃ s', s.step E imax op = .ok s' ∧ (∀ o ∈ ops ++ [op], o.fits MAX) ∧
      LSt.run E imax LSt.init (ops ++ [op]) = .ok s' ∧ Cow.Rel MAX E s'.st ss' ∧ Few MAX (ops ++ [op]).length s'.st := by
  obtain ⟨st, L⟩ := s
  have hf : ∀ o ∈ ops ++ [op], o.fits MAX := by
    intro o ho
    rcases List.mem_append.1 ho with ho | ho
    · exact h.fits o ho
    · rw [List.mem_singleton] at ho
      subst ho
      exact hop
  obtain ⟨st1, k1, k2, k3⟩ := few_step hE hM hM' h.rel h.few hle hop hs
  rcases stepL (imax := imax) hE hM hM' h.rel h.few.simple L op with ⟨st', L', e1, e2, e3, -⟩ | ⟨f, e1, e2⟩
  · rw [k1] at e1; cases e1
    exact ⟨_, e2, hf, run_snoc h.run e2, k2, by simpa using k3⟩
  · rw [k1] at e1; cases e1

theorem CRel.view {E : Env Nat S} {g : Gen S} {s : LSt Nat S} {ops : List (Cow.Op Nat S)} {ss : Lists S}
    (h : CRel MAX max imax E g s ops ss) {i : Nat} {m : Mock Nat S} (hm : g.mocks[i]? = some (some m)) :
    ∃ es t, ss[i]? = some (some es) ∧ Mocks MAX max E m es ∧ s.st.view i = .ok t ∧ Reach MAX E t ∧ t.runs = es := by
  obtain ⟨es, h1, h2⟩ := h.mocks i m hm
  obtain ⟨t, h3, h4, h5⟩ := h.rel.view i es h1
  exact ⟨es, t, h1, h2, h3, h4, h5⟩

/-- What one command is to achieve: it can be made, and running it succeeds. -/
def CStep [DecidableEq S] (MAX max imax LEN depth : Nat) (E : Env Nat S) (g : Gen S) (s : LSt Nat S) (ops : List (Cow.Op Nat S)) (id : Nat) (raw : CowRaw S) : Prop :=
  ∃ o, genCow E g id raw = .ok o ∧ ∀ c g', o = some (c, g') →
    ∃ s' ops' ss', runCow E imax LEN depth s c = .ok s' ∧ CRel MAX max imax E g' s' ops' ss' ∧ ops'.length ≤ ops.length + 1

section
variable [DecidableEq S] {E : Env Nat S} {g : Gen S} {s : LSt Nat S} {ops : List (Cow.Op Nat S)} {ss : Lists S} {id : Nat} {m : Mock Nat S}

theorem checkIterM_ok {it : MIter Nat} {dirs : List Bool} {ys : List (Option (Entry Nat S))} (hE : E.ix = natIdx MAX)
    (h : watch E imax s it (dirs.map .take) = .ok ys) (hle : ∀ x, some x ∈ ys → x.start ≤ x.stop) :
    checkIterM E.ix s it (dirs.zip (ys.map fun o => o.map fun x => (x.start, x.stop, x.stop - x.start, x.slice))) = .ok () := by
  have info : ∀ o : Option (Entry Nat S), (∀ x, o = some x → x.start ≤ x.stop) →
      entryInfo E.ix o = .ok (o.map fun x => (x.start, x.stop, x.stop - x.start, x.slice)) := by
    intro o ho
    rw [hE]
    cases o with
    | none => rfl
    | some x => simp [entryInfo, natIdx, ho x rfl]
  induction dirs generalizing it ys with
  | nil => rfl
  | cons d dirs ih =>
    cases d with
    | false =>
      simp only [List.map_cons, watch, bind_ok_iff] at h
      obtain ⟨⟨v, it1⟩, h1, vs, h2, h3⟩ := h
      cases h3
      simp only [List.map_cons, List.zip_cons_cons, checkIterM, Bool.false_eq_true, if_false, h1, R.bind_ok]
      rw [info v (fun x hx => hle x (by simp [hx]))]
      simp only [R.bind_ok, decide_true, vassert, check_true]
      exact ih h2 (fun x hx => hle x (by simp [hx]))
    | true =>
      simp only [List.map_cons, watch, bind_ok_iff] at h
      obtain ⟨⟨v, it1⟩, h1, vs, h2, h3⟩ := h
      cases h3
      simp only [List.map_cons, List.zip_cons_cons, checkIterM, if_true, h1, R.bind_ok]
      rw [info v (fun x hx => hle x (by simp [hx]))]
      simp only [R.bind_ok, decide_true, vassert, check_true]
      exact ih h2 (fun x hx => hle x (by simp [hx]))

theorem opsOf_takes (dirs : List Bool) : opsOf (dirs.map .take : List (Event Nat S)) = [] := by
  induction dirs with
  | nil => rfl
  | cons d dirs ih => simpa [opsOf] using ih

theorem takesOf_takes (dirs : List Bool) : takesOf (dirs.map .take : List (Event Nat S)) = dirs := by
  induction dirs with
  | nil => rfl
  | cons d dirs ih => simpa [takesOf] using ih

theorem cow_iter (hE : E.ix = natIdx MAX) (hM : 1 ≤ E.M) (hM' : E.M ≤ 127) (hj : Mock.LawfulJoin E.sl) (h : CRel MAX max imax E g s ops ss) (hm : g.mocks[id]? = some (some m))
    (start stop dirs) (depth : Nat) : CStep MAX max imax LEN depth E g s ops id (.iter start stop dirs) := by
  obtain ⟨es, t, h1, ⟨gst, hb, hge⟩, hv, hreach, hes⟩ := h.view hm
  have hslot := slot_ok hm
  have hgr := ((hb.live hE).inv hE).reach
  have hsz : t.size E = gst.tree.size E := by rw [(hreach.holds hE).2.1.size hE, (hgr.holds hE).2.1.size hE, hes, hge]
  rcases Mock.mock_iter hE hj hb [] ⟨start, stop⟩ with ⟨it, it', i1, i2, i3⟩ | ⟨a, b, i1, i2⟩
  · obtain ⟨ys, k1, k2⟩ := i3 dirs
    refine ⟨_, by simp only [genCow, genCmd, hslot, i2, k2, R.bind_ok]; rfl, ?_⟩
    intro c g' hc
    cases hc
    refine ⟨s, ops, ss, ?_, h, by omega⟩
    have hval : ValidRange (gst.tree.size E) ⟨start, stop⟩ := by
      by_contra hn
      obtain ⟨f, hf⟩ := (iter_panics_iff hE gst.tree [] ⟨start, stop⟩).2 hn
      rw [i1] at hf; cases hf
    obtain ⟨it2, j1, j2⟩ := Sherman.iter_deque hE (hb.live hE) [] hval
    rw [i1] at j1; cases j1
    have j2 := j2 dirs
    rw [k1] at j2
    have j2 := Except.ok.inj j2
    obtain ⟨itm, w1, w2⟩ := iter_shared hE hM hM' h.fits h.run hv [] (hsz ▸ hval)
    have w2 := w2 (dirs.map .take) (by rw [opsOf_takes]; simp) s (by rw [opsOf_takes]; rfl)
    rw [takesOf_takes] at w2
    have e1 : (runDeque (expected t ⟨start, stop⟩) dirs).map (Option.map fun x => (x.start, x.stop, x.slice)) =
        ys.map (Option.map fun x => (x.start, x.stop, x.slice)) := by
      rw [j2, ← runDeque_map, ← runDeque_map, expected_spans hE hreach, expected_spans hE hgr, hes, hge]
    have e2 : (runDeque (expected t ⟨start, stop⟩) dirs).map (fun o => o.map fun x => (x.start, x.stop, x.stop - x.start, x.slice)) =
        ys.map fun o => o.map fun x => (x.start, x.stop, x.stop - x.start, x.slice) := by
      have := congrArg (List.map (Option.map fun y : Nat × Nat × S => (y.1, y.2.1, y.2.1 - y.1, y.2.2))) e1
      simpa [List.map_map, Function.comp_def, Option.map_map] using this
    simp only [R.pure_eq, caught, runCow, w1, R.bind_ok]
    rw [← e2]
    have hle : ∀ x, some x ∈ runDeque (expected t ⟨start, stop⟩) dirs → x.start ≤ x.stop := by
      intro x hx
      rw [hE] at k2
      have := mockIter_le k2 x.start x.stop (x.stop - x.start) x.slice
      refine this ?_
      rw [← e2]
      exact List.mem_map.2 ⟨some x, hx, rfl⟩
    rw [checkIterM_ok hE w2 hle]
    rfl
  · refine ⟨_, by simp only [genCow, genCmd, hslot, i2, R.bind_ok]; rfl, ?_⟩
    intro c g' hc
    cases hc
    refine ⟨s, ops, ss, ?_, h, by omega⟩
    have hval : ¬ ValidRange (t.size E) ⟨start, stop⟩ := by
      rw [hsz]
      exact (iter_panics_iff hE gst.tree [] ⟨start, stop⟩).1 ⟨_, i1⟩
    obtain ⟨msg, hmsg⟩ := iterNew_invalid (MAX := MAX) hval [] t.root
    have hfail : s.iter E.ix id [] ⟨start, stop⟩ = .error (.panic msg) := iter_fails hv (by unfold RleTree.iter; rw [hE]; exact hmsg)
    obtain ⟨o, ho⟩ := view_tree hv
    simp only [caught, R.bind_error, runCow, hfail, mustPanic, St.tree_ok.2 ho, R.bind_ok]
    rfl

theorem cow_get (hE : E.ix = natIdx MAX) (hj : Mock.LawfulJoin E.sl) (h : CRel MAX max imax E g s ops ss) (hm : g.mocks[id]? = some (some m))
    (idx : Nat) (depth : Nat) : CStep MAX max imax LEN depth E g s ops id (.get idx) := by
  obtain ⟨es, t, h1, ⟨gst, hb, hge⟩, hv, hreach, hes⟩ := h.view hm
  have hslot := slot_ok hm
  have hgr := ((hb.live hE).inv hE).reach
  have hsz : t.size E = gst.tree.size E := by rw [(hreach.holds hE).2.1.size hE, (hgr.holds hE).2.1.size hE, hes, hge]
  refine ⟨_, by simp only [genCow, genCmd, hslot, R.bind_ok]; rfl, ?_⟩
  intro c g' hc
  cases hc
  refine ⟨s, ops, ss, ?_, h, by omega⟩
  by_cases hlt : idx < t.size E
  · obtain ⟨a, e, b, _, _, _, k1, k2, k3, -, k5, -⟩ := get_cursorTo_spec hE hreach hlt
    obtain ⟨a', e', b', _, _, _, l1, l2, l3, -, l5, -⟩ := get_cursorTo_spec hE hgr (hsz ▸ hlt)
    rw [hge] at l1
    rw [hes, l1] at k1
    obtain ⟨rfl, rfl, rfl⟩ := run_unique (s := idx) k1 ⟨l2, l3⟩ ⟨k2, k3⟩
    have := (Mock.mock_get hE hj hb [] idx _).2 ⟨_, l5 [], rfl⟩
    simp only [this, caught, runCow, hv, k5 [], R.bind_ok, decide_true, vassert, check_true]
    rfl
  · have hp := (get_panics_iff hE hreach [] idx).1.1 (by omega)
    have hgp := (get_panics_iff hE hgr [] idx).1.1 (by omega)
    cases hmg : m.get E.ix idx with
    | ok v =>
      obtain ⟨e, k1, -⟩ := (Mock.mock_get hE hj hb [] idx v).1 hmg
      rw [hgp] at k1; cases k1
    | error f =>
      simp only [caught, runCow, hv, hp, R.bind_ok, mustPanic]
      rfl

theorem cow_clone (hE : E.ix = natIdx MAX) (hM : 1 ≤ E.M) (hM' : E.M ≤ 127) (h : CRel MAX max imax E g s ops ss) (hle : (ops.length + 1) * (2 * Nat.log 2 MAX + 4) ≤ imax) (hm : g.mocks[id]? = some (some m))
    (depth : Nat) : CStep MAX max imax LEN depth E g s ops id .clone := by
  obtain ⟨es, t, h1, h2, hv, hreach, hes⟩ := h.view hm
  refine ⟨_, by simp only [genCow, hm]; rfl, ?_⟩
  intro c g' hc
  cases hc
  have hsp : specStep MAX E.sl ss (.clone id) = some (ss ++ [some es]) := by simp only [specStep, h1]
  obtain ⟨s', e1, e2, e3, e4, e5⟩ := crel_step hE hM hM' h hle (op := .clone id) trivial hsp
  · have hlt : id < ss.length := (List.getElem?_eq_some_iff.1 h1).1
    obtain ⟨t1, v1, -⟩ := e4.view id es (by rw [List.getElem?_append_left hlt]; exact h1)
    have hlen : s.st.trees.length = ss.length := h.rel.len
    obtain ⟨t2, v2, -⟩ := e4.view s.st.trees.length es (by rw [hlen]; simp)
    refine ⟨s', ops ++ [.clone id], ss ++ [some es], ?_, ⟨e2, e3, e4, e5, by simp [h.len], ?_, ?_⟩, by simp⟩
    · have w1 := validate_accepts_shared hE hM hM' e2 e3 v1
      have w2 := validate_accepts_shared hE hM hM' e2 e3 v2
      simp only [runCow, e1, R.bind_ok, validateM, v1, v2, w1, w2]
      rfl
    · intro i m' hi
      dsimp only at hi
      by_cases hl : i < g.mocks.length
      · rw [List.getElem?_append_left hl] at hi
        rw [List.getElem?_append_left (by rw [← h.len]; exact hl)]
        exact h.mocks i m' hi
      · rw [List.getElem?_append_right (by omega)] at hi
        rw [List.getElem?_append_right (by rw [← h.len]; omega), ← h.len]
        cases hk : i - g.mocks.length with
        | zero =>
          rw [hk] at hi
          obtain rfl : m = m' := by simpa using hi
          exact ⟨es, by simp, h2⟩
        | succ k => rw [hk] at hi; simp at hi
    · have := h.num
      simp only [List.countP_append]
      simp
      omega

theorem crel_gone (h : CRel MAX max imax E g s ops ss) (hm : g.mocks[id]? = some (some m)) {n : Nat} (hn : dec g.numTrees = .ok n) {s' : LSt Nat S} {ops' : List (Cow.Op Nat S)}
    (e2 : ∀ o ∈ ops', o.fits MAX) (e3 : LSt.run E imax LSt.init ops' = .ok s') (e4 : Cow.Rel MAX E s'.st (ss.set id none)) (e5 : Few MAX ops'.length s'.st) :
    CRel MAX max imax E { g with mocks := g.mocks.set id none, numTrees := n } s' ops' (ss.set id none) := by
  refine ⟨e2, e3, e4, e5, by simp [h.len], ?_, ?_⟩
  · intro i m' hi
    dsimp only at hi
    by_cases hid : id = i
    · subst hid
      have hlt : id < g.mocks.length := (List.getElem?_eq_some_iff.1 hm).1
      rw [List.getElem?_set_self hlt] at hi; simp at hi
    · rw [List.getElem?_set_ne hid] at hi ⊢
      exact h.mocks i m' hi
  · have := h.num
    have hc : g.mocks.countP (·.isSome) = (g.mocks.set id none).countP (·.isSome) + 1 := by
      obtain ⟨hlt, hget⟩ := List.getElem?_eq_some_iff.1 hm
      have hpos : 0 < g.mocks.countP (·.isSome) := List.countP_pos_iff.2 ⟨some m, List.mem_of_getElem? hm, rfl⟩
      rw [List.countP_set hlt, hget]
      simp
      omega
    unfold dec at hn
    split at hn
    · cases hn
    · cases hn
      dsimp only
      omega

theorem cow_drop (hE : E.ix = natIdx MAX) (hM : 1 ≤ E.M) (hM' : E.M ≤ 127) (h : CRel MAX max imax E g s ops ss) (hle : (ops.length + 1) * (2 * Nat.log 2 MAX + 4) ≤ imax) (hm : g.mocks[id]? = some (some m))
    (hpos : g.numTrees ≠ 0) (depth : Nat) : CStep MAX max imax LEN depth E g s ops id .drop := by
  obtain ⟨es, t, h1, h2, hv, hreach, hes⟩ := h.view hm
  have hd : dec g.numTrees = .ok (g.numTrees - 1) := by simp [dec, hpos]
  refine ⟨_, by simp only [genCow, hm, hd, R.bind_ok]; rfl, ?_⟩
  intro c g' hc
  cases hc
  have hsp : specStep MAX E.sl ss (.drop id) = some (ss.set id none) := by simp only [specStep, h1]
  obtain ⟨o, ho⟩ := view_tree hv
  obtain ⟨s', e1, e2, e3, e4, e5⟩ := crel_step hE hM hM' h hle (op := .drop id) trivial hsp
  exact ⟨s', ops ++ [.drop id], _, by simp only [runCow, ho, e1], crel_gone h hm hd e2 e3 e4 e5, by simp⟩

end

section
variable {T : Type} [DecidableEq T] {M : Nat} {g : Gen T} {s : LSt Nat T} {ops : List (Cow.Op Nat T)} {ss : Lists T} {id : Nat} {m : Mock Nat T}

theorem cow_insert (hM : 1 ≤ M) (hM' : M ≤ 127) (hL : LEN ≤ 255) (h : CRel MAX max imax (cEnv MAX M false T) g s ops ss) (hle : (ops.length + 1) * (2 * Nat.log 2 MAX + 4) ≤ imax) (hm : g.mocks[id]? = some (some m))
    (hpos : g.numTrees ≠ 0) {idx : Nat} {x : T} {size : Nat} (hs : size ≤ MAX) (depth : Nat) :
    CStep MAX max imax LEN (depth + 1) (cEnv MAX M false T) g s ops id (.insert idx x size) := by
  obtain ⟨es, t, h1, ⟨gst, hb, hge⟩, hv, hreach, hes⟩ := h.view hm
  have hslot := slot_ok hm
  have hd : dec g.numTrees = .ok (g.numTrees - 1) := by simp [dec, hpos]
  have hgr := ((hb.live rfl).inv rfl).reach
  have hfail := Mock.mock_insert_fails_iff (E := cEnv MAX M false T) rfl const_lawful hb idx x size false
  rw [(size_eq_total rfl hgr).1, hge] at hfail
  obtain ⟨o, ho⟩ := view_tree hv
  cases hmi : m.insert (natIdx MAX) (constSl T) idx x size false with
  | ok p =>
    obtain ⟨m', o'⟩ := p
    have hnf : ¬ (total es < idx ∨ size = 0 ∨ MAX < total es + size) := fun hc => by
      obtain ⟨f, hf⟩ := hfail.2 hc
      have := hmi.symm.trans hf
      cases this
    have hdist := const_distinct hreach
    rw [distinct_iff, hes] at hdist
    obtain ⟨es', c4, _⟩ := specInsert_const (s := x) (size := size) (es := es) (idx := idx) (by omega) hdist
    refine ⟨_, by simp only [genCow, genCmd, hslot, hd, R.bind_ok, hmi, caught]; rfl, ?_⟩
    intro c g' hc
    cases hc
    have hsp : specStep MAX (constSl T) ss (.insert id false (Cursor.actual LEN []) idx x size) = some (ss.set id (some es')) := by
      simp only [specStep, h1, c4]
      rw [if_pos ⟨by omega, by omega, by omega⟩]
    have hmap := insertC_map (cEnv MAX M false T) imax s id (Cursor.actual LEN []) idx x size
    obtain ⟨s', e1, e2, e3, e4, e5⟩ :=
      crel_step (E := cEnv MAX M false T) rfl hM hM' h hle (op := .insert id false (Cursor.actual LEN []) idx x size) hs hsp
    · have e1 : s.insert (cEnv MAX M false T) imax id false (Cursor.actual LEN []) idx x size = .ok s' := e1
      rw [e1] at hmap
      cases hc : s.insertC (cEnv MAX M false T) imax id (Cursor.actual LEN []) idx x size with
      | error f => rw [hc] at hmap; cases hmap
      | ok y =>
      obtain ⟨path, s2⟩ := y
      rw [hc] at hmap
      have hmap : s2 = s' := Except.ok.inj hmap
      subst hmap
      have hlt : id < ss.length := (List.getElem?_eq_some_iff.1 h1).1
      obtain ⟨t1, v1, -⟩ := e4.view id es' (List.getElem?_set_self hlt)
      have w1 := validate_accepts_shared (E := cEnv MAX M false T) rfl hM hM' e2 e3 v1
      have w2 := insert_cursorTo_const (refs := false) hM hM' h.fits h.run hs hc depth (j := idx) (by omega) (by omega)
      refine ⟨s2, _, ss.set id (some es'), ?_, ⟨e2, e3, e4, e5, by simp [h.len], ?_, ?_⟩, by simp⟩
      · simp only [runCow, Cursor.roundTrip_eq LEN hL, R.bind_ok, hc, validateM, v1, w1, cursorToM, w2, sameCursor_self hL]
        rfl
      · intro i m2 hi
        dsimp only at hi
        by_cases hid : id = i
        · subst hid
          have hlt' : id < g.mocks.length := by rw [h.len]; exact hlt
          rw [List.getElem?_set_self hlt'] at hi
          obtain rfl : m' = m2 := by simpa using hi
          refine ⟨es', List.getElem?_set_self hlt, ?_⟩
          obtain ⟨st', out, d1, d2, d3⟩ := live_insert_returns (E := cEnv MAX M false T) rfl (hb.live rfl) false [] x (idx := idx) (size := size) (es' := es')
            (by rw [hge]; omega) (by omega) (by rw [hge]; omega) (by rw [hge]; exact c4)
          obtain ⟨m3, o3, q1, q2⟩ := Mock.mock_insert rfl const_lawful hb hs d1
          have q1 := hmi.symm.trans q1
          cases q1
          exact ⟨st', q2, d3⟩
        · rw [List.getElem?_set_ne hid] at hi ⊢
          exact h.mocks i m2 hi
      · have := h.num
        obtain ⟨hlt', hget⟩ := List.getElem?_eq_some_iff.1 hm
        have hpos' : 0 < g.mocks.countP (·.isSome) := List.countP_pos_iff.2 ⟨some m, List.mem_of_getElem? hm, rfl⟩
        rw [List.countP_set hlt', hget]
        simp
        omega
  | error f =>
    have hcond := hfail.1 ⟨f, hmi⟩
    refine ⟨_, by simp only [genCow, genCmd, hslot, hd, R.bind_ok, hmi, caught]; rfl, ?_⟩
    intro c g' hc
    cases hc
    have hsp0 : specStep MAX (constSl T) ss (.insert id true [] idx x size) = none := by
      simp only [specStep, h1]
      rw [if_neg (by omega)]
    obtain ⟨f', k1, k2⟩ := (step_refines (imax := imax) (E := cEnv MAX M false T) rfl hM hM' true h.rel (.insert id true [] idx x size) hs).2 hsp0
    have k3 : s.insert (cEnv MAX M false T) imax id true [] idx x size = .error f' := by
      obtain ⟨st, L⟩ := s
      rcases stepL (imax := imax) (E := cEnv MAX M false T) rfl hM hM' h.rel h.few.simple L (.insert id true [] idx x size) with ⟨st', L', e1, e2, e3, -⟩ | ⟨f, e1, e2⟩
      · rw [k1] at e1; cases e1
      · rw [k1] at e1; cases e1; exact e2
    have k4 : mustPanic (s.insert (cEnv MAX M false T) imax id true [] idx x size) = .ok () := by
      rw [k3]
      cases f' <;> first | rfl | cases k2
    have hsp : specStep MAX (constSl T) ss (.drop id) = some (ss.set id none) := by simp only [specStep, h1]
    obtain ⟨s', e1, e2, e3, e4, e5⟩ := crel_step (E := cEnv MAX M false T) rfl hM hM' h hle (op := .drop id) trivial hsp
    exact ⟨s', ops ++ [.drop id], _, by simp only [runCow, St.tree_ok.2 ho, R.bind_ok, k4, e1], crel_gone h hm hd e2 e3 e4 e5, by simp⟩

/-! ## The whole target -/

/-- Sizes are numbers of the index type. -/
def CowRaw.fits (MAX : Nat) : CowRaw T → Prop
  | .insert _ _ size => size ≤ MAX
  | _ => True

theorem cow_step (hM : 1 ≤ M) (hM' : M ≤ 127) (hL : LEN ≤ 255) (h : CRel MAX max imax (cEnv MAX M false T) g s ops ss) (hle : (ops.length + 1) * (2 * Nat.log 2 MAX + 4) ≤ imax) (hm : g.mocks[id]? = some (some m))
    (hpos : g.numTrees ≠ 0) {raw : CowRaw T} (hfit : raw.fits MAX) (depth : Nat) :
    CStep MAX max imax LEN (depth + 1) (cEnv MAX M false T) g s ops id raw := by
  cases raw with
  | iter start stop dirs => exact cow_iter rfl hM hM' const_lawful h hm start stop dirs _
  | get i => exact cow_get rfl const_lawful h hm i _
  | insert i x size => exact cow_insert hM hM' hL h hle hm hpos hfit depth
  | clone => exact cow_clone rfl hM hM' h hle hm _
  | drop => exact cow_drop rfl hM hM' h hle hm hpos _

theorem cow_all (hM : 1 ≤ M) (hM' : M ≤ 127) (hL : LEN ≤ 255) (depth : Nat) {xs : List (CowInput T)} :
    ∀ {g : Gen T} {s : LSt Nat T} {ops : List (Cow.Op Nat T)} {ss : Lists T}, CRel MAX max imax (cEnv MAX M false T) g s ops ss → (∀ x ∈ xs, x.raw.fits MAX) →
    (ops.length + xs.length) * (2 * Nat.log 2 MAX + 4) ≤ imax →
    ∃ o, genCows (cEnv MAX M false T) g xs = .ok o ∧ ∀ cs, o = some cs →
      ∃ g' s' ops' ss', runCows (cEnv MAX M false T) imax LEN (depth + 1) s cs = .ok s' ∧ CRel MAX max imax (cEnv MAX M false T) g' s' ops' ss' ∧
        ops'.length ≤ ops.length + xs.length := by
  induction xs with
  | nil =>
    intro g s ops ss h _ _
    refine ⟨_, rfl, ?_⟩
    intro cs hcs
    cases hcs
    exact ⟨g, s, ops, ss, rfl, h, by simp⟩
  | cons x xs ih =>
    intro g s ops ss h hfit hle
    simp only [List.length_cons] at hle ⊢
    by_cases hz : g.numTrees = 0
    · refine ⟨some [], by simp only [genCows, hz, if_true]; rfl, ?_⟩
      intro cs hcs
      cases hcs
      exact ⟨g, s, ops, ss, rfl, h, by omega⟩
    · rcases choose_ok h.num x.tree with hch | ⟨i, m, hch, hi, -⟩
      · refine ⟨none, by simp only [genCows, hz, if_false, hch, R.bind_ok]; rfl, ?_⟩
        intro cs hcs
        cases hcs
      · obtain ⟨o, e1, e2⟩ := cow_step (LEN := LEN) hM hM' hL h (le_trans (Nat.mul_le_mul_right _ (by omega)) hle) hi hz (hfit x (by simp)) depth
        cases o with
        | none =>
          refine ⟨none, by simp only [genCows, hz, if_false, hch, R.bind_ok, e1]; rfl, ?_⟩
          intro cs hcs
          cases hcs
        | some p =>
          obtain ⟨c, g'⟩ := p
          obtain ⟨s', ops', ss', hr, hrel, hlen⟩ := e2 c g' rfl
          obtain ⟨o2, k1, k2⟩ := ih hrel (fun y hy => hfit y (by simp [hy])) (le_trans (Nat.mul_le_mul_right _ (by omega)) hle)
          refine ⟨match o2 with | none => none | some cs => some (c :: cs), ?_, ?_⟩
          · simp only [genCows, hz, if_false, hch, R.bind_ok, e1, k1]
            cases o2 <;> rfl
          · intro cs hcs
            cases o2 with
            | none => cases hcs
            | some cs2 =>
              cases hcs
              simp only [runCows, hr, R.bind_ok]
              obtain ⟨g2, s2, ops2, ss2, j1, j2, j3⟩ := k2 cs2 rfl
              exact ⟨g2, s2, ops2, ss2, j1, j2, by omega⟩

theorem dropTrees_ok (hM : 1 ≤ M) (hM' : M ≤ 127) {n : Nat} : ∀ {i : Nat} {s : LSt Nat T} {ops : List (Cow.Op Nat T)} {ss : Lists T},
    (∀ op ∈ ops, op.fits MAX) → LSt.run (cEnv MAX M false T) imax LSt.init ops = .ok s → Cow.Rel MAX (cEnv MAX M false T) s.st ss → Few MAX ops.length s.st →
    ss.length = i + n → (∀ j : Nat, j < i → ss[j]? = some none) → (ops.length + n) * (2 * Nat.log 2 MAX + 4) ≤ imax →
    ∃ s' ops', dropTrees (cEnv MAX M false T) imax n i s = .ok s' ∧ (∀ op ∈ ops', op.fits MAX) ∧ LSt.run (cEnv MAX M false T) imax LSt.init ops' = .ok s' ∧
      ∀ o ∈ s'.st.trees, o = none := by
  induction n with
  | zero =>
    intro i s ops ss h1 h2 h3 h4 h5 h6 _
    refine ⟨s, ops, rfl, h1, h2, fun o ho => ?_⟩
    obtain ⟨j, hj⟩ := List.mem_iff_getElem?.1 ho
    have hlt : j < i := by
      have := lt_of_get hj
      have := h3.len
      omega
    have := h3.gone j (h6 j hlt)
    rw [hj] at this
    exact Option.some.inj this
  | succ n ih =>
    intro i s ops ss h1 h2 h3 h4 h5 h6 hle
    have hlt : i < ss.length := by omega
    cases hi : ss[i]? with
    | none => rw [List.getElem?_eq_none_iff] at hi; omega
    | some o =>
    cases o with
    | none =>
      have := h3.gone i hi
      simp only [dropTrees, this]
      refine ih h1 h2 h3 h4 (by omega) (fun j hj => ?_) (le_trans (Nat.mul_le_mul_right _ (by omega)) hle)
      by_cases hji : j = i
      · rw [hji]; exact hi
      · exact h6 j (by omega)
    | some es =>
      obtain ⟨t, hv, -⟩ := h3.view i es hi
      obtain ⟨o, ho⟩ := view_tree hv
      have hsp : specStep MAX (constSl T) ss (.drop i) = some (ss.set i none) := by simp only [specStep, hi]
      have hc : CRel MAX 0 imax (cEnv MAX M false T) ⟨ss.map fun _ => none, [], 0, 0⟩ s ops ss :=
        ⟨h1, h2, h3, h4, by simp, fun j m hj => by simp [List.getElem?_replicate] at hj, by simp⟩
      obtain ⟨s', e1, e2, e3, e4, e5⟩ := crel_step (E := cEnv MAX M false T) rfl hM hM' hc (le_trans (Nat.mul_le_mul_right _ (by omega)) hle) (op := .drop i) trivial hsp
      simp only [dropTrees, ho, e1, R.bind_ok]
      refine ih e2 e3 e4 e5 (by simp; omega) (fun j hj => ?_) (le_trans (Nat.mul_le_mul_right _ (by simp; omega)) hle)
      by_cases hji : j = i
      · rw [hji]; exact List.getElem?_set_self hlt
      · rw [List.getElem?_set_ne (Ne.symm hji)]; exact h6 j (by omega)

/-- C50: whatever the fuzzer sends (up to the number of operations that could make a count overflow): the input is rejected, or all commands succeed, and
at the end no node is left in memory.  Missing, because it is false in that case: memory in which addresses are used again (`cow_target_reuse_fails`). -/
theorem cow_target_partial (hM : 1 ≤ M) (hM' : M ≤ 127) (hL : LEN ≤ 255) (depth : Nat) {xs : List (CowInput T)} (hfit : ∀ x ∈ xs, x.raw.fits MAX)
    (hle : 2 * (xs.length + 1) * (2 * Nat.log 2 MAX + 4) ≤ imax) :
    cowTarget (cEnv MAX M false T) imax LEN (depth + 1) xs = .ok none ∨
      ∃ s, cowTarget (cEnv MAX M false T) imax LEN (depth + 1) xs = .ok (some s) ∧ ∀ x, s.st.heap.mem x = none := by
  have h0 : RleTree.newEmpty (cEnv MAX M false T) = .ok (⟨none⟩ : RleTree Nat T) := by
    simp only [RleTree.newEmpty, check]
    simp [hM, hM']
  have hsp : specStep MAX (constSl T) [] (.new : Cow.Op Nat T) = some [some []] := rfl
  have hinit : CRel MAX 0 imax (cEnv MAX M false T) (⟨[], [], 0, 0⟩ : Gen T) LSt.init [] [] :=
    ⟨by simp, rfl, .init MAX _, ⟨fun p nd h => by simp [LSt.init, St.init] at h, by simp [LSt.init, St.init], by simp [LSt.init, St.init]⟩, rfl, by simp, by simp⟩
  obtain ⟨s1, e1, e2, e3, e4, e5⟩ := crel_step (E := cEnv MAX M false T) rfl hM hM' hinit (le_trans (Nat.mul_le_mul_right _ (by simp; omega)) hle) (op := .new) trivial hsp
  have hstart : CRel MAX 0 imax (cEnv MAX M false T) Gen.start s1 ([] ++ [.new]) [some []] := by
    refine ⟨e2, e3, e4, e5, rfl, fun i m hi => ?_, by simp [Gen.start]⟩
    cases i with
    | succ i => simp [Gen.start] at hi
    | zero =>
      obtain rfl : Mock.newEmpty = m := by simpa [Gen.start] using hi
      exact ⟨[], rfl, ⟨_, .empty (n := 0) h0, rfl⟩⟩
  obtain ⟨o, k1, k2⟩ := cow_all (LEN := LEN) hM hM' hL depth hstart hfit (le_trans (Nat.mul_le_mul_right _ (by simp; omega)) hle)
  cases o with
  | none => left; simp only [cowTarget, k1, R.bind_ok]; rfl
  | some cs =>
    right
    obtain ⟨g', s', ops', ss', j1, j2, j3⟩ := k2 cs rfl
    have hl : s'.st.trees.length = ss'.length := j2.rel.len
    have hl2 := j2.few.trees
    simp only [List.nil_append, List.length_singleton] at j3
    obtain ⟨s2, ops2, d1, d2, d3, d4⟩ := dropTrees_ok hM hM' (n := ss'.length) (i := 0) j2.fits j2.run j2.rel j2.few (by simp) (by simp)
      (le_trans (Nat.mul_le_mul_right _ (by omega)) hle)
    refine ⟨s2, by simp only [cowTarget, k1, R.bind_ok, e1, j1, hl, d1]; rfl, fun x => ?_⟩
    have hi := links_immaterial (imax := imax) (E := cEnv MAX M false T) rfl hM hM' d2
    rw [d3] at hi
    exact no_leak (E := cEnv MAX M false T) rfl hM hM' d2 hi.symm d4 x

end

/-! ## Addresses that are used again -/

/-- Two trees share leaves; the first is dropped; then the root of the second is split, and all runs are asked for from the end. -/
def reuseInput : List (CowInput Nat) :=
  [⟨0, .insert 0 0 1⟩, ⟨0, .insert 1 1 1⟩, ⟨0, .insert 2 2 1⟩, ⟨0, .insert 3 3 1⟩, ⟨0, .insert 4 4 1⟩, ⟨0, .clone⟩, ⟨1, .insert 5 5 1⟩, ⟨0, .drop⟩,
   ⟨0, .insert 6 6 1⟩, ⟨0, .iter .unbounded .unbounded [true, true, true, true, true, true]⟩]

/-- The commands for this input; before the last two of them, links to address `a` are taken as links to address `b`.  The result is whether there
was no node at `a` and at `b`, and what came of the last two commands.  fuzz/fuzz_targets/basic_slices/M1/cow.rs:34-43 -/
def reuseTarget (a b : Nat) : R (Bool × R Unit) := do
  match ← genCows (cEnv 255 1 false Nat) Gen.start reuseInput with
  | none => .error (.panic "rejected")
  | some cs => do
    let s ← LSt.init.step (cEnv 255 1 false Nat) 100000 .new
    let s ← runCows (cEnv 255 1 false Nat) 100000 4 9 s (cs.take 8)
    pure ((s.st.heap.mem a).isNone && (s.st.heap.mem b).isNone,
      (runCows (cEnv 255 1 false Nat) 100000 4 9 ⟨s.st, renameLinks a b s.links⟩ (cs.drop 8)).map fun _ => ())

/-- C50 fails in general: if the root of the second tree, when it is split, gets the address where the root of the dropped tree has been, then an
assertion of the target fails, though no run is wrong. -/
theorem cow_target_reuse_fails : reuseTarget 2 8 = .ok (true, .error (.panic "assertion failed")) := by decide +kernel

/-- With the addresses as they were. -/
example : reuseTarget 2 2 = .ok (true, .ok ()) := by decide +kernel

/-! ## A run -/

/-- Insertions into three trees of several levels that share nodes, one of them too large, and ranges that are wrong. -/
def exCowInput : List (CowInput Nat) :=
  [⟨0, .insert 0 0 20⟩, ⟨3, .insert 5 1 6⟩, ⟨1, .insert 26 2 9⟩, ⟨0, .insert 3 2 4⟩, ⟨0, .insert 12 3 4⟩, ⟨0, .clone⟩, ⟨1, .insert 0 5 8⟩, ⟨0, .insert 1 6 8⟩, ⟨5, .clone⟩,
   ⟨2, .insert 2 0 8⟩, ⟨1, .iter (.included 9) (.excluded 3) []⟩, ⟨2, .iter .unbounded (.included 33) [true, false, false, true, false, false, true]⟩, ⟨0, .get 7⟩,
   ⟨1, .get 200⟩, ⟨1, .insert 9 1 255⟩, ⟨1, .insert 40 4 8⟩, ⟨0, .drop⟩, ⟨0, .iter .unbounded .unbounded [false, false, false, true, true, true]⟩]

/-- The target on that input: how many trees there have been, and how many addresses were used. -/
def exCowTarget : R (Option (Nat × Nat)) := do
  match ← cowTarget (cEnv 255 1 false Nat) 100000 4 9 exCowInput with
  | none => pure none
  | some s => pure (some (s.st.trees.length, s.st.heap.next))

/-- How many commands are made. -/
def exCowCmds : R (Option Nat) := do
  match ← genCows (cEnv 255 1 false Nat) Gen.start exCowInput with
  | none => pure none
  | some cs => pure (some cs.length)

example : exCowCmds = .ok (some 18) := by decide +kernel
example : exCowTarget = .ok (some (3, 18)) := by decide +kernel
example : (∀ x ∈ exCowInput, x.raw.fits 255) ∧ 2 * (exCowInput.length + 1) * (2 * Nat.log 2 255 + 4) ≤ 100000 := by
  constructor
  · intro x hx
    simp only [exCowInput, List.mem_cons, List.not_mem_nil, or_false] at hx
    rcases hx with rfl | rfl | rfl | rfl | rfl | rfl | rfl | rfl | rfl | rfl | rfl | rfl | rfl | rfl | rfl | rfl | rfl | rfl <;> simp [CowRaw.fits]
  · have : Nat.log 2 255 < 8 := Nat.log_lt_of_lt_pow (by decide) (by decide)
    simp only [exCowInput, List.length_cons, List.length_nil]
    omega

end Fuzz
end Sherman
