import Verif.Scan.Words
import Verif.JsonText.CompactLemmas
/-! Characters of bytes. -/
namespace Burl.Scan
open Spec
open Burl.JsonText

/-- What is decoded is a character or a single byte. -/
theorem getRune_cases (s : Bytes) (hs : s ≠ []) :
    getRune s = (runeError, 1) ∨
      (putRune (getRune s).1 <+: s ∧ (getRune s).2 = (putRune (getRune s).1).length) := by
  have key : ∀ (n : Nat) (t : Bytes) (rest : Bytes), (n < 0xD800 ∨ (0xDFFF < n ∧ n < 0x110000)) →
      (∀ c : Char, c.toNat = n → putRune c = t) →
      putRune (Char.ofNat n) <+: t ++ rest ∧ t.length = (putRune (Char.ofNat n)).length := by
    intro n t rest hn h
    have : (Char.ofNat n).toNat = n := by
      have hv : n.isValidChar := by
        rcases hn with h | h
        · exact .inl h
        · exact .inr h
      simp [Char.ofNat, hv, Char.toNat, Char.ofNatAux]
    rw [h _ this]
    exact ⟨List.prefix_append _ _, rfl⟩
  have ub : ∀ (b : UInt8) (n : Nat), b.toNat = n → UInt8.ofNat n = b := by
    intro b n h; rw [← h]; simp
  cases s with
  | nil => exact absurd rfl hs
  | cons b0 rest =>
    clear hs
    have hb0 : b0.toNat < 256 := b0.toNat_lt
    unfold getRune
    simp only
    split
    · right
      rename_i h
      refine key b0.toNat [b0] rest (by omega) fun c hc => ?_
      simp only [putRune, hc]
      rw [if_pos h, ub b0 _ rfl]
    · split
      · left; rfl
      · split
        · split
          · rename_i b1 r
            split
            · right
              rename_i h1 h2 h3 h4
              simp only [within, Bool.and_eq_true, decide_eq_true_eq] at h4
              generalize hN : (b0.toNat - 0xC0) * 64 + (b1.toNat - 0x80) = N
              refine key N [b0, b1] r (by omega) fun c hc => ?_
              simp only [putRune, hc]
              rw [if_neg (by omega), if_pos (by omega), ub b0 _ (by omega), ub b1 _ (by omega)]
            · left; rfl
          · left; rfl
        · split
          · split
            · rename_i b1 b2 r
              generalize hlo : (if b0.toNat = 0xE0 then 0xA0 else 0x80) = lo
              generalize hhi : (if b0.toNat = 0xED then 0x9F else 0xBF) = hi
              split
              · right
                rename_i h1 h2 h3 h4 h5
                simp only [within, Bool.and_eq_true, decide_eq_true_eq] at h5
                have : (0x800 ≤ (b0.toNat - 0xE0) * 4096 + (b1.toNat - 0x80) * 64 + (b2.toNat - 0x80) ∧
                    (b0.toNat - 0xE0) * 4096 + (b1.toNat - 0x80) * 64 + (b2.toNat - 0x80) < 0xD800) ∨
                    (0xDFFF < (b0.toNat - 0xE0) * 4096 + (b1.toNat - 0x80) * 64 + (b2.toNat - 0x80) ∧
                    (b0.toNat - 0xE0) * 4096 + (b1.toNat - 0x80) * 64 + (b2.toNat - 0x80) < 0x10000) := by
                  split at hlo <;> split at hhi <;> omega
                have h6 : b1.toNat ≤ 0xBF ∧ 0x80 ≤ b1.toNat := by
                  split at hlo <;> split at hhi <;> omega
                generalize hN : (b0.toNat - 0xE0) * 4096 + (b1.toNat - 0x80) * 64 + (b2.toNat - 0x80) = N
                  at this ⊢
                refine key N [b0, b1, b2] r (by omega) fun c hc => ?_
                simp only [putRune, hc]
                rw [if_neg (by omega), if_neg (by omega), if_pos (by omega), ub b0 _ (by omega),
                  ub b1 _ (by omega), ub b2 _ (by omega)]
              · left; rfl
            · left; rfl
          · split
            · split
              · rename_i b1 b2 b3 r
                generalize hlo : (if b0.toNat = 0xF0 then 0x90 else 0x80) = lo
                generalize hhi : (if b0.toNat = 0xF4 then 0x8F else 0xBF) = hi
                split
                · right
                  rename_i h1 h2 h3 h4 h5 h6
                  simp only [within, Bool.and_eq_true, decide_eq_true_eq] at h6
                  have : 0x10000 ≤ (b0.toNat - 0xF0) * 262144 + (b1.toNat - 0x80) * 4096 +
                      (b2.toNat - 0x80) * 64 + (b3.toNat - 0x80) ∧
                      (b0.toNat - 0xF0) * 262144 + (b1.toNat - 0x80) * 4096 +
                      (b2.toNat - 0x80) * 64 + (b3.toNat - 0x80) < 0x110000 := by
                    split at hlo <;> split at hhi <;> omega
                  have h7 : b1.toNat ≤ 0xBF ∧ 0x80 ≤ b1.toNat := by
                    split at hlo <;> split at hhi <;> omega
                  generalize hN : (b0.toNat - 0xF0) * 262144 + (b1.toNat - 0x80) * 4096 +
                    (b2.toNat - 0x80) * 64 + (b3.toNat - 0x80) = N at this ⊢
                  refine key N [b0, b1, b2, b3] r (by omega) fun c hc => ?_
                  simp only [putRune, hc]
                  rw [if_neg (by omega), if_neg (by omega), if_neg (by omega), ub b0 _ (by omega),
                    ub b1 _ (by omega), ub b2 _ (by omega), ub b3 _ (by omega)]
                · left; rfl
              · left; rfl
            · left; rfl

theorem getRune_char {c : Char} {s : Bytes} (h : String.utf8EncodeChar c <+: s) :
    getRune s = (c, (String.utf8EncodeChar c).length) := by
  obtain ⟨r, rfl⟩ := h
  rw [← putRune_eq]
  exact getRune_put c r

theorem getRune_bad {s : Bytes} (hs : s ≠ []) (h : ∀ c, ¬String.utf8EncodeChar c <+: s) :
    getRune s = (runeError, 1) := by
  rcases getRune_cases s hs with h1 | ⟨h1, _⟩
  · exact h1
  · rw [putRune_eq] at h1
    exact absurd h1 (h _)

theorem encode_ne (c : Char) : String.utf8EncodeChar c ≠ [] := by
  rw [← putRune_eq]
  obtain ⟨b, bs, e⟩ := putRune_ne c
  rw [e]; simp

/-- No character begins with a byte from the middle of another one. -/
theorem encode_tail {c c' : Char} {b : UInt8} {t r : Bytes} {a : Bytes} (ha : a ≠ [])
    (h : String.utf8EncodeChar c = a ++ b :: t) : ¬String.utf8EncodeChar c' <+: b :: r := by
  intro hp
  rw [← putRune_eq] at h hp
  obtain ⟨x, xs, e⟩ := putRune_ne c
  obtain ⟨y, ys, e'⟩ := putRune_ne c'
  have ht := putRune_tail e
  rw [e] at h
  cases a with
  | nil => exact ha rfl
  | cons a0 as =>
    simp only [List.cons_append, List.cons.injEq] at h
    have hb := ht b (by rw [h.2]; simp)
    rw [e'] at hp
    obtain ⟨z, hz⟩ := hp
    simp only [List.cons_append, List.cons.injEq] at hz
    rw [hz.1] at e'
    unfold putRune at e'
    simp only at e'
    have hr := toNat_range c'
    split at e'
    · have := congrArg (fun l => l.head?) e'
      simp only [List.head?_cons, Option.some.injEq] at this
      rw [← this, toNat_ofNat_lt (by omega)] at hb; omega
    · split at e'
      · have := congrArg (fun l => l.head?) e'
        simp only [List.head?_cons, Option.some.injEq] at this
        rw [← this, toNat_ofNat_lt (by omega)] at hb; omega
      · split at e'
        · have := congrArg (fun l => l.head?) e'
          simp only [List.head?_cons, Option.some.injEq] at this
          rw [← this, toNat_ofNat_lt (by omega)] at hb; omega
        · have := congrArg (fun l => l.head?) e'
          simp only [List.head?_cons, Option.some.injEq] at this
          rw [← this, toNat_ofNat_lt (by omega)] at hb; omega

theorem cut_bytes {s : Bytes} {ps : List (Bytes × Char)} (h : Cut s ps) : bytes ps = s := by
  induction h with
  | nil => rfl
  | char _ ih => simp only [bytes, List.flatMap_cons] at *; rw [ih]
  | bad _ _ ih => simp only [bytes, List.flatMap_cons] at *; rw [ih]; rfl

theorem cut_ne {s : Bytes} {ps : List (Bytes × Char)} (h : Cut s ps) : ∀ p ∈ ps, p.1 ≠ [] := by
  induction h with
  | nil => simp
  | char _ ih =>
    intro p hp
    rcases List.mem_cons.1 hp with rfl | hp
    · exact encode_ne _
    · exact ih p hp
  | bad _ _ ih =>
    intro p hp
    rcases List.mem_cons.1 hp with rfl | hp
    · simp
    · exact ih p hp

/-- The first character of bytes that are cut. -/
theorem cut_getRune {s : Bytes} {p : Bytes × Char} {ps : List (Bytes × Char)} (h : Cut s (p :: ps)) :
    getRune s = (p.2, p.1.length) ∧ s = p.1 ++ bytes ps ∧ p.1 ≠ [] ∧ Cut (bytes ps) ps := by
  cases h with
  | char h => rw [cut_bytes h]; exact ⟨getRune_char (List.prefix_append _ _), rfl, encode_ne _, h⟩
  | bad h1 h2 => rw [cut_bytes h2]; exact ⟨getRune_bad (by simp) h1, rfl, by simp, h2⟩

theorem cut_exists (s : Bytes) : ∃ ps, Cut s ps := by
  induction hn : s.length using Nat.strongRecOn generalizing s with
  | ind n ih =>
    cases s with
    | nil => exact ⟨[], .nil⟩
    | cons b rest =>
      by_cases h : ∃ c, String.utf8EncodeChar c <+: b :: rest
      · obtain ⟨c, r, hr⟩ := h
        have : r.length < n := by
          rw [← hn, ← hr, List.length_append]
          have := List.length_pos_iff.2 (encode_ne c)
          omega
        obtain ⟨ps, hp⟩ := ih _ this r rfl
        rw [← hr]
        exact ⟨_, .char hp⟩
      · obtain ⟨ps, hp⟩ := ih rest.length (by rw [← hn]; simp) rest rfl
        exact ⟨_, .bad (fun c hc => h ⟨c, hc⟩) hp⟩

theorem cut_unique {s : Bytes} {ps qs : List (Bytes × Char)} (h : Cut s ps) (h' : Cut s qs) :
    ps = qs := by
  induction ps generalizing s qs with
  | nil =>
    have := cut_bytes h
    simp only [bytes, List.flatMap_nil] at this
    subst this
    cases qs with
    | nil => rfl
    | cons q qs =>
      obtain ⟨_, h2, h3, _⟩ := cut_getRune h'
      have := congrArg List.length h2
      simp only [List.length_nil, List.length_append] at this
      have := List.length_pos_iff.2 h3
      omega
  | cons p ps ih =>
    obtain ⟨h1, h2, h3, h4⟩ := cut_getRune h
    cases qs with
    | nil =>
      have := cut_bytes h'
      simp only [bytes, List.flatMap_nil] at this
      rw [← this] at h2
      have := congrArg List.length h2
      simp only [List.length_nil, List.length_append] at this
      have := List.length_pos_iff.2 h3
      omega
    | cons q qs =>
      obtain ⟨g1, g2, g3, g4⟩ := cut_getRune h'
      rw [h1] at g1
      simp only [Prod.mk.injEq] at g1
      have e : p.1 = q.1 := (List.append_inj (h2.symm.trans g2) g1.2).1
      have e' : bytes ps = bytes qs := (List.append_inj (h2.symm.trans g2) g1.2).2
      rw [e'] at h4
      rw [ih h4 g4]
      congr 1
      exact Prod.ext e g1.1

theorem cut_append {a : List (Bytes × Char)} : ∀ {s : Bytes} {b : List (Bytes × Char)},
    Cut s (a ++ b) → Cut (bytes b) b := by
  induction a with
  | nil => intro s b h; rw [List.nil_append] at h; rwa [cut_bytes h]
  | cons p a ih => intro s b h; exact ih (cut_getRune h).2.2.2

theorem bytes_append (a b : List (Bytes × Char)) : bytes (a ++ b) = bytes a ++ bytes b := by
  simp [bytes]

theorem bytes_cons (p : Bytes × Char) (b : List (Bytes × Char)) : bytes (p :: b) = p.1 ++ bytes b := by
  simp [bytes]

/-- A byte of a character that has not been read in full, as it is seen. -/
def broken (b : UInt8) : Bytes × Char := ([b], Char.ofNat 0xFFFD)

theorem bytes_broken (t : Bytes) : bytes (t.map broken) = t := by
  induction t with
  | nil => rfl
  | cons b t ih => rw [List.map_cons, bytes_cons, ih]; rfl

/-- The beginning of a character is cut into single bytes. -/
theorem cut_part {c : Char} {t u : Bytes} (h : String.utf8EncodeChar c = t ++ u) (hu : u ≠ []) :
    Cut t (t.map broken) := by
  have rest : ∀ (a t : Bytes), a ≠ [] → String.utf8EncodeChar c = a ++ t ++ u → Cut t (t.map broken) := by
    intro a t
    induction t generalizing a with
    | nil => intro _ _; exact .nil
    | cons b t ih =>
      intro ha he
      refine .bad (fun c' => encode_tail (c := c) (t := t ++ u) ha (by rw [he]; simp)) ?_
      exact ih (a ++ [b]) (by simp) (by rw [he]; simp)
  cases t with
  | nil => exact .nil
  | cons b t =>
    refine .bad (fun c' hc' => ?_) (rest [b] t (by simp) (by rw [h]; simp))
    have h1 : String.utf8EncodeChar c' <+: String.utf8EncodeChar c := by
      rw [h]; exact hc'.trans (List.prefix_append _ _)
    have h2 := getRune_char h1
    rw [getRune_char (List.prefix_refl _)] at h2
    simp only [Prod.mk.injEq] at h2
    rw [h2.1] at h
    obtain ⟨z, hz⟩ := hc'
    have e1 := congrArg List.length h
    have e2 := congrArg List.length hz
    simp only [List.length_append, List.length_cons] at e1 e2
    have := List.length_pos_iff.2 hu
    have h3 := h2.2
    omega

/-- The beginning of bytes that are cut: whole characters, and single bytes of the one that is not
there in full. -/
theorem cut_prefix {s : Bytes} {ps : List (Bytes × Char)} (h : Cut s ps) : ∀ {d : Bytes}, d <+: s →
    ∃ a b t, ps = a ++ b ∧ d = bytes a ++ t ∧ Cut d (a ++ t.map broken) ∧
      (t = [] ∨ ∃ p b', b = p :: b' ∧ t <+: p.1 ∧ t.length < p.1.length) := by
  induction h with
  | nil =>
    intro d hd
    have := List.prefix_nil.1 hd
    subst this
    exact ⟨[], [], [], rfl, rfl, .nil, .inl rfl⟩
  | @char c rest ps h ih =>
    intro d hd
    rcases Nat.lt_or_ge d.length (String.utf8EncodeChar c).length with hl | hl
    · have hp : d <+: String.utf8EncodeChar c :=
        List.prefix_of_prefix_length_le hd (List.prefix_append _ _) (Nat.le_of_lt hl)
      obtain ⟨u, hu⟩ := hp
      have hu0 : u ≠ [] := by
        rintro rfl
        rw [List.append_nil] at hu
        rw [hu] at hl
        exact Nat.lt_irrefl _ hl
      exact ⟨[], _, d, rfl, rfl, cut_part hu.symm hu0, .inr ⟨_, _, rfl, ⟨u, hu⟩, hl⟩⟩
    · have hp : String.utf8EncodeChar c <+: d :=
        List.prefix_of_prefix_length_le (List.prefix_append _ _) hd hl
      obtain ⟨d', rfl⟩ := hp
      have hd' : d' <+: rest := (List.prefix_append_right_inj _).1 hd
      obtain ⟨a, b, t, e1, e2, e3, e4⟩ := ih hd'
      refine ⟨(String.utf8EncodeChar c, c) :: a, b, t, by rw [e1]; rfl, ?_, ?_, e4⟩
      · rw [bytes_cons, List.append_assoc, ← e2]
      · rw [List.cons_append]; exact .char e3
  | @bad b rest ps h1 h2 ih =>
    intro d hd
    cases d with
    | nil => exact ⟨[], _, [], rfl, rfl, .nil, .inl rfl⟩
    | cons x d =>
      obtain ⟨rfl, hd'⟩ : x = b ∧ d <+: rest := by
        obtain ⟨z, hz⟩ := hd
        simp only [List.cons_append, List.cons.injEq] at hz
        exact ⟨hz.1, z, hz.2⟩
      obtain ⟨a, b', t, e1, e2, e3, e4⟩ := ih hd'
      refine ⟨([x], Char.ofNat 0xFFFD) :: a, b', t, by rw [e1]; rfl, ?_, ?_, e4⟩
      · rw [bytes_cons, List.append_assoc, ← e2]; rfl
      · rw [List.cons_append]
        exact .bad (fun c hc => h1 c (hc.trans hd)) e3

/-- Bytes before one that is a character of ASCII are cut on their own. -/
theorem cut_ascii {x : Bytes} {a : List (Bytes × Char)} (h : Cut x a) {b : UInt8} {y : Bytes}
    {c : List (Bytes × Char)} (hb : b.toNat < 128) (h' : Cut (b :: y) c) :
    Cut (x ++ b :: y) (a ++ c) := by
  induction h with
  | nil => exact h'
  | char _ ih => rw [List.append_assoc, List.cons_append]; exact .char ih
  | @bad b0 rest ps h1 h2 ih =>
    rw [List.cons_append, List.cons_append]
    refine .bad (fun k hk => ?_) ih
    rcases Nat.lt_or_ge (b0 :: rest).length (String.utf8EncodeChar k).length with hl | hl
    · have hp : b0 :: rest ++ [b] <+: String.utf8EncodeChar k := by
        refine List.prefix_of_prefix_length_le (l₃ := b0 :: (rest ++ b :: y)) ?_ hk ?_
        · exact ⟨y, by simp⟩
        · rw [List.length_append]; exact hl
      obtain ⟨z, hz⟩ := hp
      rw [← putRune_eq] at hz
      have := putRune_tail (b := b0) (bs := rest ++ b :: z) (by rw [← hz]; simp) b (by simp)
      omega
    · refine h1 k (List.prefix_of_prefix_length_le hk ?_ hl)
      exact ⟨b :: y, by simp⟩

theorem runes_cut {s : Bytes} {ps : List (Bytes × Char)} (h : Cut s ps) :
    ∀ f, s.length ≤ f → runes f s = ps.map Prod.snd := by
  induction ps generalizing s with
  | nil =>
    intro f _
    have := cut_bytes h
    simp only [bytes, List.flatMap_nil] at this
    subst this
    cases f <;> simp [runes]
  | cons p ps ih =>
    intro f hf
    obtain ⟨h1, h2, h3, h4⟩ := cut_getRune h
    have hpos := List.length_pos_iff.2 h3
    have hs : s ≠ [] := by
      rw [h2]; simp [h3]
    have hlen : s.length = p.1.length + (bytes ps).length := by
      rw [← List.length_append, ← h2]
    cases f with
    | zero => omega
    | succ f =>
      rw [runes, if_neg hs, h1]
      simp only
      have : s.drop p.1.length = bytes ps := by rw [h2, List.drop_left]
      rw [this, ih h4 f (by omega), List.map_cons]

theorem text_cut {s : Bytes} {ps : List (Bytes × Char)} (h : Cut s ps) : text s = ps.map Prod.snd :=
  runes_cut h _ (Nat.le_refl _)

end Burl.Scan
