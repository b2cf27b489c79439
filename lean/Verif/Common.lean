/-
Outcomes of calls and machine integers, shared by the models outside `Verif.BigInt`.
-/
namespace Verif

/-- How a call can end: normally, by an exception, by failure of an `assert`, by
executing something the C++ standard leaves undefined (signed overflow, division by zero,
out of range access), or by using up the bound on the number of loop passes that a model
gives to a loop (theorems show that this last does not happen). -/
inductive Res (α : Type) where
  | ok (a : α)
  | throw
  | assertFail
  | undefined
  | outOfFuel
  deriving DecidableEq, Repr

namespace Res

/-- sequencing of calls -/
def bind {α β : Type} (x : Res α) (f : α → Res β) : Res β :=
  match x with
  | .ok a => f a
  | .throw => .throw
  | .assertFail => .assertFail
  | .undefined => .undefined
  | .outOfFuel => .outOfFuel

instance : Monad Res where
  pure := .ok
  bind := Res.bind

@[simp] theorem ok_bind {α β : Type} (a : α) (f : α → Res β) : (Res.ok a >>= f) = f a := rfl
@[simp] theorem pure_eq {α : Type} (a : α) : (pure a : Res α) = .ok a := rfl
@[simp] theorem throw_bind {α β : Type} (f : α → Res β) : ((Res.throw : Res α) >>= f) = .throw := rfl
@[simp] theorem assertFail_bind {α β : Type} (f : α → Res β) :
    ((Res.assertFail : Res α) >>= f) = .assertFail := rfl
@[simp] theorem undefined_bind {α β : Type} (f : α → Res β) :
    ((Res.undefined : Res α) >>= f) = .undefined := rfl
@[simp] theorem outOfFuel_bind {α β : Type} (f : α → Res β) :
    ((Res.outOfFuel : Res α) >>= f) = .outOfFuel := rfl

/-- `assert(c)` in a build with assertions -/
def assert (c : Bool) : Res Unit := if c then .ok () else .assertFail

/-- `assert(c)` in a build with (`ndebug = false`) or without assertions -/
def assertIn (ndebug : Bool) (c : Bool) : Res Unit := if ndebug then .ok () else assert c

theorem assertIn_bind {β : Type} (nd : Bool) {c : Bool} (h : c = true) (f : Unit → Res β) :
    (assertIn nd c >>= f) = f () := by subst h; cases nd <;> rfl

theorem assert_bind {β : Type} {c : Bool} (h : c = true) (f : Unit → Res β) :
    (assert c >>= f) = f () := by subst h; rfl

end Res
end Verif
