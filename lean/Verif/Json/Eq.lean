import Verif.Json.Spec
/-! Equality of JSON values is decidable. -/
namespace Burl.Json

mutual
/-- Comparison of values. -/
def same : Json → Json → Bool
  | .null, .null => true
  | .bool a, .bool b => a == b
  | .real a, .real b => a == b
  | .str a, .str b => a == b
  | .num a, .num b => a == b
  | .arr a, .arr b => sameAll a b
  | .obj a, .obj b => sameMembers a b
  | _, _ => false
/-- Comparison of arrays. -/
def sameAll : List Json → List Json → Bool
  | [], [] => true
  | a :: as, b :: bs => same a b && sameAll as bs
  | _, _ => false
/-- Comparison of objects. -/
def sameMembers : List (Str × Json) → List (Str × Json) → Bool
  | [], [] => true
  | (k, a) :: as, (l, b) :: bs => k == l && same a b && sameMembers as bs
  | _, _ => false
end

mutual
theorem same_iff : ∀ a b : Json, same a b = true ↔ a = b
  | .null, b => by cases b <;> simp [same]
  | .bool _, b => by cases b <;> simp [same]
  | .real _, b => by cases b <;> simp [same]
  | .str _, b => by cases b <;> simp [same]
  | .num _, b => by cases b <;> simp [same]
  | .arr a, b => by
    cases b with
    | arr b => simp [same, sameAll_iff a b]
    | _ => simp [same]
  | .obj a, b => by
    cases b with
    | obj b => simp [same, sameMembers_iff a b]
    | _ => simp [same]
theorem sameAll_iff : ∀ a b : List Json, sameAll a b = true ↔ a = b
  | [], b => by cases b <;> simp [sameAll]
  | a :: as, b => by
    cases b with
    | nil => simp [sameAll]
    | cons b bs => simp [sameAll, same_iff a b, sameAll_iff as bs]
theorem sameMembers_iff : ∀ a b : List (Str × Json), sameMembers a b = true ↔ a = b
  | [], b => by cases b <;> simp [sameMembers]
  | (k, a) :: as, b => by
    cases b with
    | nil => simp [sameMembers]
    | cons b bs =>
      obtain ⟨l, b⟩ := b
      simp [sameMembers, same_iff a b, sameMembers_iff as bs]
end

instance : DecidableEq Json := fun a b => decidable_of_iff _ (same_iff a b)

end Burl.Json
