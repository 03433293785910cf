import Verif.Example.Model
import Verif.JsonText.Spec
/-! What is expected of the example backend. -/
namespace Burl.Example.Spec
open Burl
open Burl.Json (Json)
open Burl.Rpc.Server (Request Body)

/-- What is relied on: numbers are read from numbers and written as numbers. -/
structure Lawful (f : Floats) : Prop where
  read : ∀ {v x}, f.read v = some x → (∃ n, v = .num n) ∨ ∃ t, v = .real t
  write : ∀ x, (∃ n, f.write x = .num n) ∨
    ∃ n : Rpc.Spec.Num, n.ok = true ∧ JsonText.Spec.numValue n = f.write x

/-- The only parameter is the first element of an array, zero if it is absent or `null` or if there is
`null` in place of the array. -/
inductive Given {α : Type} (is : Json → α → Prop) (zero : α) : Json → α → Prop where
  | value {v vs x} : is v x → Given is zero (.arr (v :: vs)) x
  | null {vs} : Given is zero (.arr (.null :: vs)) zero
  | absent : Given is zero (.arr []) zero
  | nothing : Given is zero .null zero

/-- Numbers of the type `int`. -/
def IsInt (v : Json) (n : Int) : Prop := v = .num n ∧ -2 ^ 63 ≤ n ∧ n < 2 ^ 63

/-- The parameter of `Sqrt`. -/
def Number (f : Floats) : Json → f.F → Prop := Given (fun v x => f.read v = some x) f.zero

/-- The parameter of `Sleep`. -/
def Time : Json → Int → Prop := Given IsInt 0

/-- A request that has no answer. -/
inductive Wrong {Id : Type} (f : Floats) (r : Request Id Json) : Prop where
  | method : r.method ≠ "example.Sqrt".toList → r.method ≠ "example.Sleep".toList → Wrong f r
  | none : r.params = none → Wrong f r
  | sqrt {p} : r.method = "example.Sqrt".toList → r.params = some p → (∀ x, ¬Number f p x) → Wrong f r
  | sleep {p} : r.method = "example.Sleep".toList → r.params = some p → (∀ t, ¬Time p t) → Wrong f r

/-- What a reply says. -/
inductive Says {Id : Type} (f : Floats) (r : Request Id Json) : Body Json → Prop where
  | root {p x} : r.method = "example.Sqrt".toList → r.params = some p → Number f p x →
      f.lt x f.zero = false → Says f r (.result (f.write (f.sqrt x)))
  | negative {p x} : r.method = "example.Sqrt".toList → r.params = some p → Number f p x →
      f.lt x f.zero = true → Says f r (.error "square root of negative number".toList)
  | slept {p t} : r.method = "example.Sleep".toList → r.params = some p → Time p t →
      Says f r (.result (.num t))
  | wrong {msg} : Wrong f r → msg ≠ [] → Says f r (.error msg)

end Burl.Example.Spec
