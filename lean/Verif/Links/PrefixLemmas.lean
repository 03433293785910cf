import Verif.Regex.LoopLemmas
import Verif.Links.CompileLemmas
import Verif.Links.Spec
/-! The pattern of prefixes accepts exactly valid prefixes. -/
namespace Burl.Links
open Burl.Regex Spec

def clsLetter : Cls := ⟨false, true, [.range 'a' 'z']⟩
def clsAlnum : Cls := ⟨false, true, [.range 'a' 'z', .range '0' '9']⟩
def clsSep : Cls := ⟨false, true, [.range '-' '-', .range '+' '+']⟩
def clsLine : Cls := ⟨true, false, [.range '\n' '\n']⟩

theorem reSetPrefix_eq : reSetPrefix =
    .cat .bol (.cat (.cat (.cls clsLetter) (.cat (.star false (.cls clsAlnum))
      (.star false (.cat (.cls clsSep) (.plus false (.cls clsAlnum))))))
      (.cat (.opt false (.group 1 (.cat (.lit ':') (.star false (.cls clsLine))))) .eol)) := by
  decide +kernel

theorem char_le_iff (a b : Char) : a ≤ b ↔ a.toNat ≤ b.toNat := Iff.rfl

theorem upper_fold : ∀ n, n < 91 → 65 ≤ n →
    97 ≤ (Char.ofNat (n + 32)).toNat ∧ (Char.ofNat (n + 32)).toNat ≤ 122 := by decide

theorem lower_fold : ∀ n, n < 123 → 97 ≤ n →
    65 ≤ (Char.ofNat (n - 32)).toNat ∧ (Char.ofNat (n - 32)).toNat ≤ 90 := by decide

theorem toNat_inj {c d : Char} (h : c.toNat = d.toNat) : c = d := by
  apply Char.ext
  exact UInt32.toNat_inj.1 h

theorem char_eq_iff (c d : Char) : c = d ↔ c.toNat = d.toNat := ⟨fun h => h ▸ rfl, toNat_inj⟩

theorem folds_cases (c : Char) :
    (c = '\u212a' ∧ folds c = [c, 'k', 'K']) ∨ (c = '\u017f' ∧ folds c = [c, 's', 'S']) ∨
    (97 ≤ c.toNat ∧ c.toNat ≤ 122 ∧ folds c = [c, Char.ofNat (c.toNat - 32)]) ∨
    (65 ≤ c.toNat ∧ c.toNat ≤ 90 ∧ folds c = [c, Char.ofNat (c.toNat + 32)]) ∨
    (c.toNat ≠ 0x212A ∧ c.toNat ≠ 0x017F ∧ ¬(97 ≤ c.toNat ∧ c.toNat ≤ 122) ∧
      ¬(65 ≤ c.toNat ∧ c.toNat ≤ 90) ∧ folds c = [c]) := by
  have k1 : '\u212a'.toNat = 0x212A := by decide
  have k2 : '\u017f'.toNat = 0x017F := by decide
  have a1 : 'a'.toNat = 97 := rfl
  have a2 : 'z'.toNat = 122 := rfl
  have a3 : 'A'.toNat = 65 := rfl
  have a4 : 'Z'.toNat = 90 := rfl
  unfold folds
  simp only [char_le_iff, char_eq_iff c, k1, k2, a1, a2, a3, a4]
  split
  · left; exact ⟨by assumption, rfl⟩
  · split
    · right; left; exact ⟨by assumption, rfl⟩
    · split
      · right; right; left; rename_i h; exact ⟨h.1, h.2, rfl⟩
      · split
        · right; right; right; left; rename_i h; exact ⟨h.1, h.2, rfl⟩
        · right; right; right; right
          exact ⟨by assumption, by assumption, by assumption, by assumption, rfl⟩

theorem has_letter (letter : Char → Bool) (c : Char) :
    clsLetter.has letter c = true ↔ SchemeLetter c := by
  have a1 : 'a'.toNat = 97 := rfl
  have a2 : 'z'.toNat = 122 := rfl
  have a3 : 'A'.toNat = 65 := rfl
  have a4 : 'Z'.toNat = 90 := rfl
  have k1 : '\u212a'.toNat = 0x212A := by decide
  have k2 : '\u017f'.toNat = 0x017F := by decide
  rcases folds_cases c with ⟨rfl, h⟩ | ⟨rfl, h⟩ | ⟨h1, h2, h⟩ | ⟨h1, h2, h⟩ | ⟨h1, h2, h3, h4, h⟩
  · simp [SchemeLetter, Cls.has, clsLetter, h, Item.has]
  · simp [SchemeLetter, Cls.has, clsLetter, h, Item.has]
  · simp [SchemeLetter, Cls.has, clsLetter, h, Item.has, char_le_iff, a1, a2, h1, h2]
  · obtain ⟨u1, u2⟩ := upper_fold c.toNat (by omega) h1
    simp [SchemeLetter, Cls.has, clsLetter, h, Item.has, char_le_iff, a1, a2, a3, a4, h1, h2, u1, u2]
  · simp [SchemeLetter, Cls.has, clsLetter, h, Item.has, char_le_iff, char_eq_iff c, a1, a2, a3, a4,
      k1, k2]
    omega

theorem has_alnum (letter : Char → Bool) (c : Char) :
    clsAlnum.has letter c = true ↔ SchemeChar c := by
  have a1 : 'a'.toNat = 97 := rfl
  have a2 : 'z'.toNat = 122 := rfl
  have a3 : 'A'.toNat = 65 := rfl
  have a4 : 'Z'.toNat = 90 := rfl
  have a5 : '0'.toNat = 48 := rfl
  have a6 : '9'.toNat = 57 := rfl
  have k1 : '\u212a'.toNat = 0x212A := by decide
  have k2 : '\u017f'.toNat = 0x017F := by decide
  rcases folds_cases c with ⟨rfl, h⟩ | ⟨rfl, h⟩ | ⟨h1, h2, h⟩ | ⟨h1, h2, h⟩ | ⟨h1, h2, h3, h4, h⟩
  · simp [SchemeChar, SchemeLetter, Cls.has, clsAlnum, h, Item.has]
  · simp [SchemeChar, SchemeLetter, Cls.has, clsAlnum, h, Item.has]
  · simp [SchemeChar, SchemeLetter, Cls.has, clsAlnum, h, Item.has, char_le_iff, a1, a2, h1, h2]
  · obtain ⟨u1, u2⟩ := upper_fold c.toNat (by omega) h1
    simp [SchemeChar, SchemeLetter, Cls.has, clsAlnum, h, Item.has, char_le_iff, a1, a2, a3, a4,
      h1, h2, u1, u2]
  · simp [SchemeChar, SchemeLetter, Cls.has, clsAlnum, h, Item.has, char_le_iff, char_eq_iff c, a1,
      a2, a3, a4, a5, a6, k1, k2]
    omega

theorem has_sep (letter : Char → Bool) (c : Char) :
    clsSep.has letter c = true ↔ c = '-' ∨ c = '+' := by
  have a1 : '-'.toNat = 45 := rfl
  have a2 : '+'.toNat = 43 := rfl
  have a3 : 'k'.toNat = 107 := rfl
  have a4 : 'K'.toNat = 75 := rfl
  have a5 : 's'.toNat = 115 := rfl
  have a6 : 'S'.toNat = 83 := rfl
  have k1 : '\u212a'.toNat = 0x212A := by decide
  have k2 : '\u017f'.toNat = 0x017F := by decide
  rcases folds_cases c with ⟨rfl, h⟩ | ⟨rfl, h⟩ | ⟨h1, h2, h⟩ | ⟨h1, h2, h⟩ | ⟨h1, h2, h3, h4, h⟩
  · simp [Cls.has, clsSep, h, Item.has]
  · simp [Cls.has, clsSep, h, Item.has]
  · obtain ⟨u1, u2⟩ := lower_fold c.toNat (by omega) h1
    simp [Cls.has, clsSep, h, Item.has, char_le_iff, char_eq_iff c, a1, a2]
    omega
  · obtain ⟨u1, u2⟩ := upper_fold c.toNat (by omega) h1
    simp [Cls.has, clsSep, h, Item.has, char_le_iff, char_eq_iff c, a1, a2]
    omega
  · simp [Cls.has, clsSep, h, Item.has, char_le_iff, char_eq_iff c, a1, a2]
    omega

theorem has_line (letter : Char → Bool) (c : Char) :
    clsLine.has letter c = true ↔ c ≠ '\n' := by
  have a1 : '\n'.toNat = 10 := rfl
  simp [Cls.has, clsLine, Item.has, char_le_iff, char_eq_iff c, a1]
  omega

theorem schemeChar_ne_colon {c : Char} (h : SchemeChar c) : c ≠ ':' := by
  rintro rfl
  revert h
  simp [SchemeChar, SchemeLetter]

theorem parts_ne_colon {s : Str} (h : Parts s) : ':' ∉ s := by
  induction h with
  | nil => simp
  | cons h1 _ h2 _ ih =>
    simp only [List.cons_append, List.mem_cons, List.mem_append, not_or]
    refine ⟨?_, ?_, ih⟩
    · rcases h1 with rfl | rfl <;> decide
    · intro hm
      exact schemeChar_ne_colon (h2 _ hm) rfl

theorem schemeName_ne_colon {s : Str} (h : SchemeName s) : ':' ∉ s := by
  obtain ⟨c, first, rest, rfl, h1, h2, h3⟩ := h
  simp only [List.cons_append, List.mem_cons, List.mem_append, not_or]
  refine ⟨fun h => schemeChar_ne_colon (.inl h1) h.symm, ?_, parts_ne_colon h3⟩
  intro hm
  exact schemeChar_ne_colon (h2 _ hm) rfl

/-- Iterations over separated parts. -/
theorem iter_parts {letter : Char → Bool} {s s' : St} :
    Iter (run letter (.cat (.cls clsSep) (.plus false (.cls clsAlnum)))) s s' ↔
      ∃ w, Moves s s' w ∧ s'.caps = s.caps ∧ Parts w := by
  constructor
  · intro h
    induction h with
    | refl => exact ⟨[], .refl _, rfl, .nil⟩
    | step h1 _ _ ih =>
      obtain ⟨t, g1, g2⟩ := mem_cat.1 h1
      obtain ⟨c, m1, c1, p1⟩ := mem_cls.1 g1
      obtain ⟨w, hw, m2, c2, p2⟩ := (mem_plus_one rfl).1 g2
      obtain ⟨v, m3, c3, p3⟩ := ih
      refine ⟨_, (m1.trans m2).trans m3, by rw [c3, c2, c1], ?_⟩
      exact Parts.cons ((has_sep _ _).1 (p1 c (by simp))) hw
        (fun d hd => (has_alnum _ _).1 (p2 d hd)) p3
  · rintro ⟨w, m, hc, hp⟩
    induction hp generalizing s with
    | nil =>
      have : s' = s := by
        obtain ⟨h1, h2⟩ := m
        cases s; cases s'; simp_all
      subst this
      exact .refl
    | @cons sep part rest h1 h2 h3 _ ih =>
      have e : s.rest = sep :: (part ++ (rest ++ s'.rest)) := by simpa using m.1
      refine .step (t := ⟨part.reverse ++ sep :: s.pre, rest ++ s'.rest, s.caps⟩) ?_ ?_ ?_
      · refine mem_cat.2 ⟨⟨sep :: s.pre, part ++ (rest ++ s'.rest), s.caps⟩, ?_, ?_⟩
        · exact mem_cls.2 ⟨sep, ⟨e, by simp⟩, rfl, by simpa using (has_sep letter sep).2 h1⟩
        · exact (mem_plus_one rfl).2 ⟨part, h2, ⟨rfl, rfl⟩, rfl,
            fun d hd => (has_alnum _ _).2 (h3 d hd)⟩
      · simp [e]; omega
      · exact ih ⟨rfl, by rw [m.2]; simp⟩ hc

theorem mem_name {letter : Char → Bool} {s s' : St} :
    s' ∈ run letter (.cat (.cls clsLetter) (.cat (.star false (.cls clsAlnum))
      (.star false (.cat (.cls clsSep) (.plus false (.cls clsAlnum)))))) s ↔
      ∃ w, Moves s s' w ∧ s'.caps = s.caps ∧ SchemeName w := by
  constructor
  · intro h
    obtain ⟨t, g1, g2⟩ := mem_cat.1 h
    obtain ⟨u, g3, g4⟩ := mem_cat.1 g2
    obtain ⟨c, m1, c1, p1⟩ := mem_cls.1 g1
    obtain ⟨w, m2, c2, p2⟩ := (mem_star_one rfl).1 g3
    obtain ⟨v, m3, c3, p3⟩ := iter_parts.1 (mem_star.1 g4)
    refine ⟨_, (m1.trans m2).trans m3, by rw [c3, c2, c1], ?_⟩
    exact ⟨c, w, v, rfl, (has_letter _ _).1 (p1 c (by simp)), fun d hd => (has_alnum _ _).1 (p2 d hd),
      p3⟩
  · rintro ⟨w, m, hc, c, first, rest, rfl, h1, h2, h3⟩
    have e : s.rest = c :: (first ++ (rest ++ s'.rest)) := by simpa using m.1
    refine mem_cat.2 ⟨⟨c :: s.pre, first ++ (rest ++ s'.rest), s.caps⟩, ?_, mem_cat.2
      ⟨⟨first.reverse ++ c :: s.pre, rest ++ s'.rest, s.caps⟩, ?_, ?_⟩⟩
    · exact mem_cls.2 ⟨c, ⟨e, by simp⟩, rfl, by simpa using (has_letter letter c).2 h1⟩
    · exact (mem_star_one rfl).2 ⟨first, ⟨rfl, rfl⟩, rfl, fun d hd => (has_alnum _ _).2 (h2 d hd)⟩
    · exact mem_star.2 (iter_parts.2 ⟨rest, ⟨rfl, by rw [m.2]; simp⟩, hc, h3⟩)

/-- The tail of a prefix: what group 1 matches. -/
theorem mem_tail {letter : Char → Bool} {s s' : St} :
    s' ∈ run letter (.cat (.opt false (.group 1 (.cat (.lit ':') (.star false (.cls clsLine)))))
      .eol) s ↔ ∃ w, Moves s s' w ∧ s'.rest = [] ∧
        ((w = [] ∧ s'.caps = s.caps) ∨
          ∃ t, w = ':' :: t ∧ '\n' ∉ t ∧ s'.caps = (1, w) :: s.caps) := by
  constructor
  · intro h
    obtain ⟨t, g1, g2⟩ := mem_cat.1 h
    obtain ⟨rfl, hr⟩ := mem_eol.1 g2
    rcases mem_opt.1 g1 with g3 | rfl
    · obtain ⟨u, g4, rfl⟩ := mem_group.1 g3
      obtain ⟨v, g5, g6⟩ := mem_cat.1 g4
      obtain ⟨m1, c1⟩ := mem_lit'.1 g5
      obtain ⟨w, m2, c2, p2⟩ := (mem_star_one rfl).1 g6
      have m := m1.trans m2
      refine ⟨_, m, hr, .inr ⟨w, rfl, ?_, ?_⟩⟩
      · intro hn
        exact (has_line letter _).1 (p2 _ hn) rfl
      · simp only; rw [m.between, c2, c1]
    · exact ⟨[], .refl _, hr, .inl ⟨rfl, rfl⟩⟩
  · rintro ⟨w, m, hr, ⟨rfl, hc⟩ | ⟨t, rfl, hn, hc⟩⟩
    · have : s' = s := by
        obtain ⟨h1, h2⟩ := m
        cases s; cases s'; simp_all
      subst this
      exact mem_cat.2 ⟨s', mem_opt.2 (.inr rfl), mem_eol.2 ⟨rfl, hr⟩⟩
    · refine mem_cat.2 ⟨s', mem_opt.2 (.inl (mem_group.2 ⟨⟨s'.pre, s'.rest, s.caps⟩, ?_, ?_⟩)),
        mem_eol.2 ⟨rfl, hr⟩⟩
      · refine mem_cat.2 ⟨⟨':' :: s.pre, t ++ s'.rest, s.caps⟩, mem_lit'.2 ⟨⟨m.1, by simp⟩, rfl⟩, ?_⟩
        refine (mem_star_one rfl).2 ⟨t, ⟨rfl, by rw [m.2]; simp⟩, rfl, ?_⟩
        intro d hd
        refine (has_line letter d).2 ?_
        rintro rfl
        exact hn hd
      · have m' : Moves s ⟨s'.pre, s'.rest, s.caps⟩ (':' :: t) := m
        rw [m'.between]
        cases s'
        simp_all

/-- Accepted prefixes are valid, and group 1 is empty iff there is no colon. -/
theorem findSub_prefix {letter : Char → Bool} {p : Str} {m : Match}
    (h : findSub letter reSetPrefix p = some m) :
    ValidPrefix p ∧ (m.sub 1 = [] ↔ ':' ∉ p) := by
  unfold findSub at h
  obtain ⟨⟨s, s'⟩, hf, hm⟩ := Option.map_eq_some_iff.1 h
  obtain ⟨h1, h2, w, hw⟩ := findFrom_spec hf
  rw [reSetPrefix_eq] at h1
  obtain ⟨t, g1, g2⟩ := mem_cat.1 h1
  obtain ⟨rfl, hp⟩ := mem_bol.1 g1
  obtain ⟨u, g3, g4⟩ := mem_cat.1 g2
  obtain ⟨name, m1, c1, hname⟩ := mem_name.1 g3
  obtain ⟨tail, m2, hr, hcase⟩ := mem_tail.1 g4
  have hrest : t.rest = p := by
    have e1 := hw.2
    rw [hp] at e1
    have : w = [] := by simpa using e1.symm
    subst this
    exact hw.1.symm
  have hpe : p = name ++ tail := by
    rw [← hrest, (m1.trans m2).1, hr, List.append_nil]
  have hcaps : m.caps = s'.caps := by subst hm; rfl
  rcases hcase with ⟨rfl, hc⟩ | ⟨x, rfl, hn, hc⟩
  · refine ⟨⟨name, [], hpe, hname, .inl rfl⟩, ?_⟩
    have : m.sub 1 = [] := sub_of_not_mem (by decide) (by rw [hcaps, hc, c1, h2]; simp)
    simp only [this, true_iff]
    rw [hpe, List.append_nil]
    exact schemeName_ne_colon hname
  · refine ⟨⟨name, _, hpe, hname, .inr ⟨x, rfl, hn⟩⟩, ?_⟩
    have : m.sub 1 = ':' :: x := by
      unfold Match.sub
      rw [if_neg (by decide), hcaps, hc]
      rfl
    rw [this, hpe]
    simp

/-- Valid prefixes are accepted. -/
theorem findSub_valid (letter : Char → Bool) {p : Str} (h : ValidPrefix p) :
    ∃ m, findSub letter reSetPrefix p = some m := by
  obtain ⟨name, tail, rfl, hname, htail⟩ := h
  have key : (findFrom letter reSetPrefix [] (name ++ tail)).isSome = true := by
    refine findFrom_isSome.2 ⟨[], name ++ tail, rfl, ?_⟩
    simp only [List.reverse_nil, List.nil_append]
    apply List.ne_nil_of_mem (a := ⟨tail.reverse ++ name.reverse, [],
      if tail = [] then [] else [(1, tail)]⟩)
    rw [reSetPrefix_eq]
    refine mem_cat.2 ⟨_, mem_bol.2 ⟨rfl, rfl⟩, mem_cat.2 ⟨⟨name.reverse, tail, []⟩,
      mem_name.2 ⟨name, ⟨rfl, by simp⟩, rfl, hname⟩, mem_tail.2 ⟨tail, ⟨by simp, by simp⟩, rfl, ?_⟩⟩⟩
    rcases htail with rfl | ⟨t, rfl, hn⟩
    · exact .inl ⟨rfl, by simp⟩
    · exact .inr ⟨t, rfl, hn, by simp⟩
  unfold findSub
  rw [Option.isSome_iff_exists] at key
  obtain ⟨x, hx⟩ := key
  exact ⟨_, by rw [hx]; rfl⟩

theorem setBases_some {letter : Char → Bool} {ps bs : List Str}
    (h : setBases letter ps = some bs) :
    (∀ p ∈ ps, ValidPrefix p) ∧ bs = (ps.map wanted).map quoteMeta := by
  induction ps generalizing bs with
  | nil => simp only [setBases, Option.some.injEq] at h; subst h; simp
  | cons p ps ih =>
    simp only [setBases] at h
    split at h
    · simp at h
    · rename_i m hm
      obtain ⟨hv, hc⟩ := findSub_prefix hm
      obtain ⟨bs', h1, rfl⟩ := Option.map_eq_some_iff.1 h
      obtain ⟨i1, rfl⟩ := ih h1
      refine ⟨by simpa using ⟨hv, i1⟩, ?_⟩
      simp only [List.map_cons, List.cons.injEq, and_true]
      unfold wanted
      by_cases hcol : ':' ∈ p
      · rw [if_neg (fun h0 => hc.1 h0 hcol), if_pos hcol]
      · rw [if_pos (hc.2 hcol), if_neg hcol, quoteMeta_append]
        rfl

theorem setBases_valid (letter : Char → Bool) {ps : List Str} (h : ∀ p ∈ ps, ValidPrefix p) :
    ∃ bs, setBases letter ps = some bs := by
  induction ps with
  | nil => exact ⟨[], rfl⟩
  | cons p ps ih =>
    obtain ⟨bs, hb⟩ := ih fun q hq => h q (by simp [hq])
    obtain ⟨m, hm⟩ := findSub_valid letter (h p (by simp))
    refine ⟨_, by simp only [setBases, hm, hb]; rfl⟩

/-- `MakeLinkSetBase` on valid lists. -/
theorem makeLinkSetBase_ok {letter : Char → Bool} {ps : List Str} {base : Str} :
    makeLinkSetBase letter ps = .ok base ↔ ps ≠ [] ∧ (∀ p ∈ ps, ValidPrefix p) ∧
      base = "(?:".toList ++ joinBar ((ps.map wanted).map quoteMeta) ++ ")".toList := by
  unfold makeLinkSetBase
  constructor
  · intro h
    split at h
    · cases h
    · rename_i hne
      split at h
      · cases h
      · rename_i bs hb
        obtain ⟨h1, rfl⟩ := setBases_some hb
        injection h with h
        exact ⟨hne, h1, h.symm⟩
  · rintro ⟨hne, hv, rfl⟩
    rw [if_neg hne]
    obtain ⟨bs, hb⟩ := setBases_valid letter hv
    obtain ⟨-, rfl⟩ := setBases_some hb
    rw [hb]

theorem makeLinkSetBase_invalid {letter : Char → Bool} {ps : List Str} (hne : ps ≠ [])
    (h : ∃ p ∈ ps, ¬ValidPrefix p) : makeLinkSetBase letter ps = .error .invalidPrefix := by
  unfold makeLinkSetBase
  rw [if_neg hne]
  cases hb : setBases letter ps with
  | none => rfl
  | some bs =>
    obtain ⟨p, hp, hn⟩ := h
    exact absurd ((setBases_some hb).1 p hp) hn

end Burl.Links
