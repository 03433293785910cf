import Verif.JsonText.CompactLemmas
/-! JSON texts (C68). -/
namespace Burl.JsonText
open Burl
open Burl.Json (Json)
open Burl.Rpc.Spec (Piece Num Blank Padded)
open Burl.JsonText.Spec

/-- C68: a text is decoded to what it says, whatever escapes are used in its strings and whatever
white space is around its tokens. -/
theorem c68_decode {v : Json} {x : Bytes} (h : Padded (TextFor 10000 v) x) : unmarshal x = some v := by
  obtain ⟨w, y, w', h1, ⟨t, h2, h3, h4⟩, h5, rfl⟩ := h
  exact unmarshal_writes h2 h3 ⟨w, y, w', h1, h4, h5, rfl⟩

/-- C68: a text of a value says this value. -/
theorem c68_encode (short : Bool) {d : Nat} {v : Json} (h : Plain d v) : TextFor d v (enc short v) := by
  obtain ⟨t, h1, h2, h3⟩ := enc_means short v d h
  exact ⟨t, h2, h3, by rw [← h1]; exact Rpc.writes_text t⟩

/-- C68: what is encoded can be decoded again; versions of the library that differ in escapes
understand each other. -/
theorem c68_roundtrip (short : Bool) {v : Json} (h : Plain 10000 v) :
    unmarshal (enc short v) = some v := c68_decode (Rpc.Padded.self (c68_encode short h))

/-- C68: different values have different texts. -/
theorem c68_injective (short : Bool) {v w : Json} (hv : Plain 10000 v) (hw : Plain 10000 w)
    (h : enc short v = enc short w) : v = w := by
  have h1 := c68_roundtrip short hv
  rw [h, c68_roundtrip short hw] at h1
  exact (Option.some.inj h1).symm

/-- C68: a text that is copied into another one still says the same. -/
theorem c68_copied {d : Nat} {v : Json} {x : Bytes} (h : Padded (TextFor d v) x) :
    TextFor d v (compact false false x) := by
  obtain ⟨w, y, w', h1, ⟨t, h2, h3, h4⟩, h5, rfl⟩ := h
  obtain ⟨t', e, h6, h7⟩ := compact_of h2 h3 ⟨w, y, w', h1, h4, h5, rfl⟩
  exact ⟨t', h6, h7, by rw [e]; exact Rpc.writes_text t'⟩

/-- C68: a text says one thing. -/
theorem c68_unambiguous {v w : Json} {x : Bytes} (hv : Padded (TextFor 10000 v) x)
    (hw : Padded (TextFor 10000 w) x) : v = w := by
  have h1 := c68_decode hv
  rw [c68_decode hw] at h1
  exact (Option.some.inj h1).symm

/-- A text with a surrogate pair, an escape and a character in UTF-8:
`{"k":["😀\t–",-10]}`. -/
def sample : Text :=
  .obj [([.u 48 48 54 98], .arr [.str [.u 100 56 51 100, .u 100 101 48 48, .esc 116, .plain 0xE2,
    .plain 0x80, .plain 0x93], .num ⟨true, [49, 48], [], none, false⟩])]

/-- What it says. -/
def sampleValue : Json :=
  .obj [("k".toList, .arr [.str ['😀', '\t', '–'], .num (-10)])]

theorem sample_means : sample.ok 10000 = true ∧ Means sample sampleValue := by
  refine ⟨rfl, ?_⟩
  unfold sample sampleValue
  simp only [Means, ElemsMean, MembersMean]
  refine ⟨_, ⟨['k'], _, [], ?_, ⟨_, ⟨_, _, ⟨['😀', '\t', '–'], ?_, rfl⟩, ⟨_, _, rfl, rfl, rfl⟩, rfl⟩, rfl⟩, rfl, rfl⟩, ?_⟩
  · exact .u ⟨0, 0, 6, 11, by simp [hexVal], by simp [hexVal], by simp [hexVal], by simp [hexVal], by decide⟩ .nil
  · refine .pair (hi := 0xD83D) (lo := 0xDE00)
      ⟨13, 8, 3, 13, by simp [hexVal], by simp [hexVal], by simp [hexVal], by simp [hexVal], by decide⟩
      ⟨13, 14, 0, 0, by simp [hexVal], by simp [hexVal], by simp [hexVal], by simp [hexVal], by decide⟩
      (by decide) (by decide) (by decide) (by decide) (by decide) ?_
    refine .esc (by decide) ?_
    have := StrMeans.plain (c := '–') (ps := []) (s := []) (by decide) (by decide) (by decide) .nil
    exact this
  · simp [numValue, decimal]

/-- The same text with white space: `{ "\u006b" : [..] }`. -/
def sampleBytes : Bytes :=
  123 :: ((32 :: (Rpc.Spec.strText [.u 48 48 54 98] ++ [32]) ++ 58 :: (32 ::
    ((Rpc.Spec.Json.arr [.str [.u 100 56 51 100, .u 100 101 48 48, .esc 116, .plain 0xE2, .plain 0x80,
      .plain 0x93], .num ⟨true, [49, 48], [], none, false⟩]).text ++ [32]))) ++ [125])

theorem sample_text : Padded (TextFor 10000 sampleValue) (sampleBytes ++ [10]) := by
  refine ⟨[], sampleBytes, [10], by simp [Blank], ⟨sample, sample_means.1, sample_means.2, ?_⟩, by simp [Blank], rfl⟩
  rw [sample, Rpc.Spec.Json.Writes]
  refine ⟨_, ?_, rfl⟩
  rw [Rpc.Spec.objWrites]
  exact ⟨_, _, ⟨[32], _, [32], by simp [Blank], rfl, by simp [Blank], rfl⟩,
    ⟨[32], _, [32], by simp [Blank], Rpc.writes_text _, by simp [Blank], rfl⟩, rfl⟩

/-- Non-vacuity: the text is decoded. -/
example : unmarshal (sampleBytes ++ [10]) = some sampleValue := c68_decode sample_text

/-- Non-vacuity: the value is encoded and decoded again. -/
example : Plain 10000 sampleValue ∧ unmarshal (enc true sampleValue) = some sampleValue := by
  have h : Plain 10000 sampleValue := by
    unfold sampleValue
    simp [Plain, MembersPlain, AllPlain]
  exact ⟨h, c68_roundtrip true h⟩

end Burl.JsonText
