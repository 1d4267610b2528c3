import Verif.Base

/-! # Model of the comparators and helpers of `core/utils.hpp` -/

namespace Verif.Utils

open Prog

variable {α : Type}

/-- `less<T>::operator()` (utils.hpp:51-56) for a `T` whose `operator<` is `lt`. -/
def less (lt : α → α → Bool) (a b : α) : Bool := lt a b

/-- `greater<T>::operator()` (utils.hpp:68-73) for a `T` whose `operator>` is `gt`. -/
def greater (gt : α → α → Bool) (a b : α) : Bool := gt a b

/-- `less<T *>::operator()` (utils.hpp:58-65).  A pointer is its address; `0` is `nullptr`.
Simplification: `<` on pointers is the order of addresses, also for pointers into different
objects (C++ leaves that order unspecified). -/
def lessPtr (a b : Nat) : Bool :=
  if b = 0 then false
  else if a = 0 then true
  else a < b

/-- `greater<T *>::operator()` (utils.hpp:75-82), same simplification. -/
def greaterPtr (a b : Nat) : Bool :=
  if a = 0 then false
  else if b = 0 then true
  else b < a

/-- `dstruct::max(a, b)` (utils.hpp:107-109) for a `T` whose `operator>` is `gt`. -/
def max (gt : α → α → Bool) (a b : α) : α := if gt a b then a else b

/-- `dstruct::abs(a)` (utils.hpp:112-114) for `T = int`: negating `INT_MIN` overflows. -/
def abs {σ : Type} (a : Int) : Prog σ Int := do
  if a ≥ 0 then pure a
  else do
    check (-a < 2 ^ 31) .overflow
    pure (-a)

/-- Two kinds of variables: `x` names one of them. -/
abbrev Vars (α : Type) := Nat → α

/-- `b = move(a)` for variables, `mv v` being what a moved-from `T` holding `v` holds.
Self-move leaves the variable unchanged (core/common.hpp:42-48). -/
def moveVar (mv : α → α) (b a : Nat) : Prog (Vars α) Unit :=
  if a = b then pure ()
  else modify fun s x => if x = b then s a else if x = a then mv (s a) else s x

/-- `dstruct::swap(a, b)` (utils.hpp:99-104); `c` is the local variable. -/
def swap (mv : α → α) (a b c : Nat) : Prog (Vars α) Unit := do
  moveVar mv c a
  moveVar mv a b
  moveVar mv b c

end Verif.Utils
