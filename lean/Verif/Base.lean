/-
Shared vocabulary of the model.

Go strings are modelled as lists of characters (`Str`), i.e. valid UTF-8 text seen as runes;
where the code depends on byte lengths the model uses `utf8Len`.  Byte streams are modelled
as lists of bytes (`Bytes`).
-/
namespace Burl

/-- A Go string holding valid UTF-8, as its sequence of runes. -/
abbrev Str := List Char

/-- A raw byte sequence (`[]byte` in Go). -/
abbrev Bytes := List UInt8

/-- `len(s)` of a Go string: the number of UTF-8 bytes. -/
def utf8Len : Str → Nat
  | [] => 0
  | c :: cs => c.utf8Size + utf8Len cs

/-- Result of a Go computation: a normal value, an error value, or a run-time panic. -/
inductive Res (ε α : Type) where
  | ok (a : α)
  | err (e : ε)
  | panic
  deriving Repr, DecidableEq

namespace Res
def bind {ε α β} (r : Res ε α) (f : α → Res ε β) : Res ε β :=
  match r with
  | ok a => f a
  | err e => err e
  | panic => panic

def map {ε α β} (f : α → β) (r : Res ε α) : Res ε β := r.bind (fun a => ok (f a))

instance {ε} : Monad (Res ε) where
  pure := ok
  bind := bind

@[simp] theorem bind_ok {ε α β} (a : α) (f : α → Res ε β) : (ok a).bind f = f a := rfl
@[simp] theorem bind_err {ε α β} (e : ε) (f : α → Res ε β) : (err e : Res ε α).bind f = err e := rfl
@[simp] theorem bind_panic {ε α β} (f : α → Res ε β) : (panic : Res ε α).bind f = panic := rfl
end Res

@[simp] theorem utf8Len_nil : utf8Len [] = 0 := rfl
@[simp] theorem utf8Len_cons (c : Char) (cs : Str) : utf8Len (c :: cs) = c.utf8Size + utf8Len cs := rfl

theorem utf8Len_append (a b : Str) : utf8Len (a ++ b) = utf8Len a + utf8Len b := by
  induction a with
  | nil => simp
  | cons c cs ih => simp [ih, Nat.add_assoc]

theorem utf8Len_eq_zero {s : Str} : utf8Len s = 0 ↔ s = [] := by
  cases s with
  | nil => simp
  | cons c cs =>
    have := Char.utf8Size_pos c
    simp; omega

end Burl
