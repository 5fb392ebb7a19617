/-!
# Outcomes

Shared by all models.  A C++ function either returns, throws an exception, or has undefined
behaviour.  The three are different constructors, so no theorem can confuse them.
-/

namespace PI

/-- Outcome of a C++ call: a value, an exception (`throw std::…`), or undefined behaviour. -/
inductive Out (α : Type u) where
  | ok (a : α)
  | throw
  | ub
deriving DecidableEq, Repr

namespace Out

/-- Sequencing of C++ calls: exceptions and undefined behaviour propagate. -/
def bind {α : Type u} {β : Type v} (x : Out α) (f : α → Out β) : Out β :=
  match x with
  | ok a => f a
  | throw => throw
  | ub => ub

instance : Monad Out where
  pure := ok
  bind := bind

@[simp] theorem ok_bind {α β : Type u} (a : α) (f : α → Out β) : (Out.ok a >>= f) = f a := rfl
@[simp] theorem throw_bind {α β : Type u} (f : α → Out β) : ((Out.throw : Out α) >>= f) = Out.throw := rfl
@[simp] theorem ub_bind {α β : Type u} (f : α → Out β) : ((Out.ub : Out α) >>= f) = Out.ub := rfl
@[simp] theorem pure_eq {α : Type u} (a : α) : (pure a : Out α) = Out.ok a := rfl

end Out

end PI
