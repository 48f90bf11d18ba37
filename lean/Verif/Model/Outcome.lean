/-!
# Outcomes of C++ code

Functions of the model return an `Outcome` when the C++ code can do something else than return a
value.

* `ok a`     : the function returns `a`.
* `throws`   : a C++ exception leaves the function (`vector::at`, an explicit `throw`, ...).
* `ub`       : undefined behaviour: out-of-range Eigen or raw pointer access, null dereference,
               use of an uninitialised value.
* `diverges` : the loop never ends.
-/

namespace Verif

/-- Result of running a piece of C++ code; see the file header. -/
inductive Outcome (α : Type _) where
  | ok (a : α)
  | throws
  | ub
  | diverges
  deriving DecidableEq, Repr

namespace Outcome

/-- Sequencing: an abnormal outcome is final. -/
def bind {α β : Type _} : Outcome α → (α → Outcome β) → Outcome β
  | ok a, f => f a
  | throws, _ => throws
  | ub, _ => ub
  | diverges, _ => diverges

instance : Monad Outcome where
  pure := ok
  bind := bind

@[simp] theorem bind_ok {α β : Type _} (a : α) (f : α → Outcome β) : (ok a >>= f) = f a := rfl
@[simp] theorem bind_throws {α β : Type _} (f : α → Outcome β) :
    ((throws : Outcome α) >>= f) = throws := rfl
@[simp] theorem bind_ub {α β : Type _} (f : α → Outcome β) :
    ((ub : Outcome α) >>= f) = ub := rfl
@[simp] theorem bind_diverges {α β : Type _} (f : α → Outcome β) :
    ((diverges : Outcome α) >>= f) = diverges := rfl
@[simp] theorem pure_eq {α : Type _} (a : α) : (pure a : Outcome α) = ok a := rfl

/-- The value of a normal outcome. -/
def toOption {α : Type _} : Outcome α → Option α
  | ok a => some a
  | _ => none

end Outcome
end Verif
