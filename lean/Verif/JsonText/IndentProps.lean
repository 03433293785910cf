import Verif.JsonText.IndentLemmas
import Verif.JsonText.Props
/-! JSON texts for people (C71). -/
namespace Burl.JsonText
open Burl
open Burl.Json (Json)
open Burl.Rpc.Spec (Piece Num Blank Padded)
open Burl.JsonText.Spec

/-- C71: the text has the layout for people and says the value. -/
theorem c71_layout (short : Bool) {d : Nat} {v : Json} (h : Plain d v) :
    ∃ t : Text, t.ok d = true ∧ Means t v ∧ marshalIndent short v = pretty 0 t := by
  obtain ⟨t, h1, h2, h3⟩ := enc_means short v d h
  refine ⟨t, h2, h3, ?_⟩
  have := indent_value t d 0 h2 []
  rw [List.append_nil, h1] at this
  rw [marshalIndent, this]
  simp [indentFrom]

/-- C71: the printed text says the value. -/
theorem c71_text (short : Bool) {d : Nat} {v : Json} (h : Plain d v) :
    Padded (TextFor d v) (printed short v) := by
  obtain ⟨t, h1, h2, h3⟩ := c71_layout short h
  refine ⟨[], _, [10], by simp [Blank], ⟨t, h1, h2, ?_⟩, by simp [Blank], rfl⟩
  rw [h3]
  exact writes_pretty t 0

/-- C71: a program that reads the text gets the value. -/
theorem c71_read (short : Bool) {v : Json} (h : Plain 10000 v) : unmarshal (printed short v) = some v :=
  c68_decode (c71_text short h)

/-- Non-vacuity: the sample of C68 and its layout. -/
example : printed true sampleValue =
    (("{\n  \"k\": [\n    \"😀\\t–\",\n    -10\n  ]\n}\n".toList).flatMap putRune) ∧
    unmarshal (printed true sampleValue) = some sampleValue := by
  refine ⟨by decide +kernel, c71_read true ?_⟩
  unfold sampleValue
  simp [Plain, MembersPlain, AllPlain]

end Burl.JsonText
