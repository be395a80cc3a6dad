/-!
# Outcomes of a C++ computation

Every modelled function that can do anything other than return a value returns a `Res`:

* `ok a`      – normal return of `a`;
* `throw m`   – a `symxx::Error` with detail text `m` (error.hpp 27-70);
* `exn m`     – a C++ exception other than `symxx::Error` (e.g. `std::invalid_argument`);
* `ub m`      – undefined behaviour (signed overflow, `back()` of an empty vector, ...);
* `fuel`      – a loop was not finished within the supplied fuel (possible non-termination).
-/
namespace Symxx

inductive Res (α : Type _) where
  | ok (a : α)
  | throw (msg : String)
  | exn (msg : String)
  | ub (why : String)
  | fuel
  deriving Repr, DecidableEq

namespace Res

/-- Sequencing: the first abnormal outcome is the outcome of the whole computation. -/
@[inline] def bind {α β} (x : Res α) (f : α → Res β) : Res β :=
  match x with
  | ok a => f a
  | throw m => throw m
  | exn m => exn m
  | ub m => ub m
  | fuel => fuel

instance : Monad Res where
  pure := ok
  bind := bind

@[simp] theorem pure_eq {α} (a : α) : (pure a : Res α) = ok a := rfl
@[simp] theorem bind_ok {α β} (a : α) (f : α → Res β) : (ok a >>= f) = f a := rfl
@[simp] theorem bind_throw {α β} (m) (f : α → Res β) : ((throw m : Res α) >>= f) = throw m := rfl
@[simp] theorem bind_exn {α β} (m) (f : α → Res β) : ((exn m : Res α) >>= f) = exn m := rfl
@[simp] theorem bind_ub {α β} (m) (f : α → Res β) : ((ub m : Res α) >>= f) = ub m := rfl
@[simp] theorem bind_fuel {α β} (f : α → Res β) : ((fuel : Res α) >>= f) = fuel := rfl
@[simp] theorem map_ok {α β} (a : α) (f : α → β) : (f <$> (ok a)) = ok (f a) := rfl

theorem bind_eq_ok {α β} {x : Res α} {f : α → Res β} {b : β} :
    (x >>= f) = ok b ↔ ∃ a, x = ok a ∧ f a = ok b := by
  cases x <;> simp

/-- `symxx_assert(b, msg)` (error.hpp 60-69): raises `Error msg` when `b` is false. -/
def assert (b : Bool) (msg : String) : Res Unit := if b then ok () else throw msg

@[simp] theorem assert_true (m) : assert true m = ok () := rfl
@[simp] theorem assert_false (m) : assert false m = throw m := rfl

theorem assert_eq_ok {b m} {u : Unit} : assert b m = ok u ↔ b = true := by
  cases b <;> simp

/-- The computation returned normally. -/
def isOk {α} : Res α → Bool
  | ok _ => true
  | _ => false

/-- The computation ran into undefined behaviour. -/
def isUb {α} : Res α → Bool
  | ub _ => true
  | _ => false

/-- The computation returned normally or ran into undefined behaviour (no exception, no
exhausted fuel). -/
def Clean {α} (x : Res α) : Prop := (∃ a, x = ok a) ∨ ∃ m, x = ub m

theorem Clean.ok {α} (a : α) : Clean (Res.ok a) := Or.inl ⟨a, rfl⟩
theorem Clean.ub {α} (m : String) : Clean (Res.ub m : Res α) := Or.inr ⟨m, rfl⟩

theorem Clean.bind {α β} {x : Res α} {f : α → Res β} (hx : Clean x)
    (hf : ∀ a, x = Res.ok a → Clean (f a)) : Clean (x >>= f) := by
  rcases hx with ⟨a, rfl⟩ | ⟨m, rfl⟩
  · exact hf a rfl
  · exact Clean.ub m

theorem Clean.ite {α} {c : Prop} [Decidable c] {x y : Res α} (hx : c → Clean x) (hy : ¬ c → Clean y) :
    Clean (if c then x else y) := by
  split
  · exact hx ‹_›
  · exact hy ‹_›

end Res

/-- constant `symxx_division_by_zero` (error.hpp 58). -/
def divisionByZero : String := "Division by zero"

end Symxx
