import Verif.JsonText.Raw
import Verif.JsonText.EncodeLemmas
import Verif.JsonText.DecodeLemmas
/-! What is written for a string that is not UTF-8 (C71). -/
namespace Burl.JsonText
open Burl
open Burl.Rpc Burl.Rpc.Spec Burl.JsonText.Spec

namespace Spec

/-- Characters of bytes: U+FFFD stands for every byte with which no character begins. -/
inductive Replaced : Bytes → Str → Prop where
  | nil : Replaced [] []
  | char {c bs s} : Replaced bs s → Replaced (String.utf8EncodeChar c ++ bs) (c :: s)
  | byte {b bs s} : (∀ c, ¬String.utf8EncodeChar c <+: b :: bs) → Replaced bs s →
      Replaced (b :: bs) (Char.ofNat 0xFFFD :: s)

end Spec

theorem encRaw_means (short : Bool) {s : Bytes} {t : Str} (h : Replaced s t) :
    ∀ f, s.length ≤ f → ∃ ps, body ps = encRaw short f s ∧ StrMeans ps t := by
  induction h with
  | nil =>
    intro f _
    exact ⟨[], by cases f <;> simp [encRaw], .nil⟩
  | @char c bs s _ ih =>
    intro f hf
    rw [← putRune_eq] at hf ⊢
    have hp := putRune_length_pos c
    rw [List.length_append] at hf
    obtain ⟨f, rfl⟩ : ∃ g, f = g + 1 := ⟨f - 1, by omega⟩
    obtain ⟨ps, h1, h2⟩ := ih f (by omega)
    obtain ⟨qs, h3, h4⟩ := encRune_means short c
    refine ⟨qs ++ ps, ?_, h4 _ _ h2⟩
    have := encRaw_utf8 short [c] f bs
    simp only [utf8, List.flatMap_cons, List.flatMap_nil, List.append_nil, List.length_singleton] at this
    rw [Nat.add_comm f 1, this, ← h1, ← h3]
    simp [body]
  | @byte b bs s hb _ ih =>
    intro f hf
    obtain ⟨f, rfl⟩ : ∃ g, f = g + 1 := ⟨f - 1, by simp at hf; omega⟩
    obtain ⟨ps, h1, h2⟩ := ih f (by simpa using hf)
    have hg : getRune (b :: bs) = (runeError, 1) := getRune_bad fun c => by rw [putRune_eq]; exact hb c
    refine ⟨.u 102 102 102 100 :: ps, ?_, .u (c := Char.ofNat 0xFFFD) ?_ h2⟩
    · rw [encRaw]
      simp only [hg]
      rw [if_pos ⟨trivial, trivial⟩, ← h1]
      simp [body, Piece.text]
    · exact ⟨15, 15, 15, 13, by simp [hexVal], by simp [hexVal], by simp [hexVal], by simp [hexVal], by decide⟩

/-- C71: the text written for any bytes says their characters, and U+FFFD for every byte that does not
belong to a character. -/
theorem c71_any_bytes (short : Bool) {s : Bytes} {t : Str} (h : Replaced s t) :
    ∃ ps, strText ps = encString short s ∧ StrMeans ps t := by
  obtain ⟨ps, h1, h2⟩ := encRaw_means short h s.length (Nat.le_refl _)
  exact ⟨ps, by rw [encString, ← h1]; rfl, h2⟩

/-- Any bytes have characters. -/
theorem c71_replaced : ∀ s : Bytes, ∃ t, Replaced s t := by
  intro s
  induction hn : s.length using Nat.strongRecOn generalizing s with
  | ind n ih =>
    cases s with
    | nil => exact ⟨_, .nil⟩
    | cons b bs =>
      by_cases h : ∃ c, String.utf8EncodeChar c <+: b :: bs
      · obtain ⟨c, r, hr⟩ := h
        have hp := putRune_length_pos c
        rw [putRune_eq] at hp
        have hl := congrArg List.length hr
        rw [List.length_append] at hl
        obtain ⟨t, ht⟩ := ih r.length (by omega) r rfl
        exact ⟨c :: t, hr ▸ Replaced.char ht⟩
      · obtain ⟨t, ht⟩ := ih bs.length (by simp at hn; omega) bs rfl
        exact ⟨_, .byte (fun c hc => h ⟨c, hc⟩) ht⟩

/-- What is read back from the text written for any bytes. -/
theorem c71_read_bytes (short : Bool) {s : Bytes} {t : Str} (h : Replaced s t) (rest : Bytes) :
    ∃ r, encString short s = 34 :: r ∧ string (r ++ rest) = some (t, rest) := by
  obtain ⟨ps, h1, h2⟩ := c71_any_bytes short h
  refine ⟨body ps ++ [34], ?_, ?_⟩
  · rw [← h1]; rfl
  · rw [List.append_assoc]
    exact string_of h2 rest

/-- `/ÿ` in Latin-1. -/
example : Replaced [47, 0xFF] ['/', Char.ofNat 0xFFFD] := by
  have h0 : Replaced [0xFF] [Char.ofNat 0xFFFD] := by
    refine .byte (fun c hc => ?_) .nil
    rw [← putRune_eq] at hc
    obtain ⟨r, hr⟩ := hc
    have h1 := getRune_put c r
    rw [hr] at h1
    have h2 : getRune [0xFF] = (runeError, 1) := by decide +kernel
    rw [h2] at h1
    obtain ⟨rfl, h3⟩ := Prod.mk.inj h1
    rw [putRune_runeError] at h3
    cases h3
  exact .char (c := '/') h0

example : encString true [47, 0xFF] = "\"/\\ufffd\"".toUTF8.toList := by decide +kernel

end Burl.JsonText
