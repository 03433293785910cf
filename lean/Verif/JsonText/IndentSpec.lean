import Verif.JsonText.Spec
/-! Layout of JSON texts for people, independent of the model. -/
namespace Burl.JsonText.Spec
open Burl
open Burl.Rpc.Spec (Piece strText)

/-- A new line with two spaces for each level. -/
def line (level : Nat) : Bytes := 10 :: (List.replicate level [32, 32]).flatten

mutual
/-- Each element and each member is on a line of its own, a bracket that ends them as well. -/
def pretty (level : Nat) : Text → Bytes
  | .arr [] => [91, 93]
  | .arr (t :: ts) => [91] ++ prettyElems (level + 1) (t :: ts) ++ line level ++ [93]
  | .obj [] => [123, 125]
  | .obj (m :: ms) => [123] ++ prettyMembers (level + 1) (m :: ms) ++ line level ++ [125]
  | .null => Rpc.Spec.Json.text .null
  | .bool b => Rpc.Spec.Json.text (.bool b)
  | .num n => Rpc.Spec.Json.text (.num n)
  | .str s => Rpc.Spec.Json.text (.str s)
/-- Elements of an array. -/
def prettyElems (level : Nat) : List Text → Bytes
  | [] => []
  | [t] => line level ++ pretty level t
  | t :: u :: ts => line level ++ pretty level t ++ [44] ++ prettyElems level (u :: ts)
/-- Members of an object. -/
def prettyMembers (level : Nat) : List (List Piece × Text) → Bytes
  | [] => []
  | [(k, t)] => line level ++ strText k ++ [58, 32] ++ pretty level t
  | (k, t) :: m :: ms => line level ++ strText k ++ [58, 32] ++ pretty level t ++ [44] ++
      prettyMembers level (m :: ms)
end

end Burl.JsonText.Spec
