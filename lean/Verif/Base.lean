/-!
# Basics: faults and the result monad

Everything that would stop or corrupt the Rust program is an explicit error value.
-/
namespace Sherman

/-- Ways in which a modelled function fails.  src/macros.rs:7-34 and the `panic!`s, `assert!`s, `todo!`s and arithmetic of all of src/ -/
inductive Fault where
  /-- `panic!` / `assert!` / failed slice indexing with a message meant for users or developers -/
  | panic (msg : String)
  /-- a violated `weak_assert!` / `weak_unreachable!` / unsafe precondition: undefined behaviour in
  release builds, a panic in debug builds (src/macros or lib.rs `weak_assert!`) -/
  | ub (msg : String)
  /-- `unreachable!()` -/
  | unreachable (msg : String)
  /-- `todo!()` -/
  | todo (msg : String)
  /-- index arithmetic above the maximum of the index type -/
  | overflow
  /-- index arithmetic below zero on an unsigned index type -/
  | underflow
  deriving DecidableEq, Repr

/-- Result of a modelled function.  (as `Fault`: src/macros.rs:7-34) -/
abbrev R (α : Type u) := Except Fault α

/-- Results can be compared; no counterpart in the code (model only; src/macros.rs:7-34). -/
instance {α : Type u} [DecidableEq α] : DecidableEq (R α) := fun a b => by
  cases a <;> cases b
  · rename_i a b
    exact if h : a = b then isTrue (by rw [h]) else isFalse (by simp [h])
  · exact isFalse (by simp)
  · exact isFalse (by simp)
  · rename_i a b
    exact if h : a = b then isTrue (by rw [h]) else isFalse (by simp [h])

@[simp] theorem R.bind_ok {α β} (a : α) (f : α → R β) : (Except.ok a >>= f) = f a := rfl
@[simp] theorem R.bind_error {α β} (e : Fault) (f : α → R β) :
    ((Except.error e : R α) >>= f) = Except.error e := rfl
@[simp] theorem R.pure_eq {α} (a : α) : (pure a : R α) = Except.ok a := rfl
@[simp] theorem R.throw_eq {α} (e : Fault) : (throw e : R α) = Except.error e := rfl

theorem R.bind_eq_ok {α β : Type _} {x : R α} {f : α → R β} {b : β} :
    (x >>= f) = .ok b ↔ ∃ a, x = .ok a ∧ f a = .ok b := by
  cases x <;> simp

/-- `weak_assert!(cond)`: violating it is UB.  src/macros.rs:19-34 -/
def weakAssert (c : Bool) (msg : String) : R Unit := if c then .ok () else .error (.ub msg)

/-- `if !cond { panic!(msg) }`; as in src/tree/mod.rs:399-405 -/
def check (c : Bool) (msg : String) : R Unit := if c then .ok () else .error (.panic msg)

@[simp] theorem weakAssert_true (m) : weakAssert true m = .ok () := rfl
@[simp] theorem check_true (m) : check true m = .ok () := rfl

end Sherman
