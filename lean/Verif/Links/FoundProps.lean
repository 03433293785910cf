import Verif.Links.PlainLemmas
import Verif.Links.FileProps
import Verif.Links.CheckLemmas
/-! Property C56: links of a line are found. -/
namespace Burl.Links
open Burl.Regex Spec Burl.Tree.Spec
open Burl.Extract (orgExtract)
open Burl.Tree (Heap RepT)

/-! ### C56 -/

theorem quiet_end {letter : Char → Bool} {S : Re} {schemes : List Str}
    (hS : Reads' letter S schemes) {pre : List Char} : run letter (linkRe S) ⟨pre, [], []⟩ = [] := by
  apply Classical.byContradiction
  intro hne
  have hb := link_begins hS hne
  simp only at hb
  cases hb with
  | bracket h1 _ => simp at h1
  | angle _ h1 => simp at h1
  | plain _ h1 => simp at h1

theorem next_bracket {schemes : List Str} {t url part rest : Str} : Next schemes t
    ("[[".toList ++ url ++ "]".toList ++ part ++ "]".toList ++ rest) := by
  have e : "[[".toList ++ url ++ "]".toList ++ part ++ "]".toList ++ rest =
      '[' :: '[' :: (url ++ "]".toList ++ part ++ "]".toList ++ rest) := rfl
  rw [e]
  exact .bracket

theorem next_angle {schemes : List Str} {t s suffix rest : Str} : Next schemes t
    ("<".toList ++ s ++ ":".toList ++ suffix ++ ">".toList ++ rest) := by
  have e : "<".toList ++ s ++ ":".toList ++ suffix ++ ">".toList ++ rest =
      '<' :: (s ++ ":".toList ++ suffix ++ ">".toList ++ rest) := rfl
  rw [e]
  exact .angle

theorem collect_cons {α β : Type} {f : α → Res Empty (Option β)} {a : α} {as : List α} {b : β}
    {bs : List β} (h : f a = .ok (some b)) (h' : collect f as = .ok bs) :
    collect f (a :: as) = .ok (b :: bs) := by
  simp only [collect, h, Res.bind_ok, h']

theorem collect_skip {α β : Type} {f : α → Res Empty (Option β)} {a : α} {as : List α}
    (h : f a = .ok none) : collect f (a :: as) = collect f as := by
  simp only [collect, h, Res.bind_ok]

/-- The characters before a link. -/
theorem laid_found {letter : Char → Bool} {p : OrgRe} {S : Re} {schemes : List Str}
    (hp : p.link = linkRe S) (hg : groups S = 0) (hN : Names schemes)
    (hS : Reads' letter S schemes) (hword : ∀ s ∈ schemes, ∀ c, s.head? = some c → Alnum c)
    {yes no : Str → Prop} (hyes : ∀ url, yes url → matchString letter p.scheme url = true)
    (hno : ∀ url, no url → matchString letter p.scheme url = false) {line : Str} {links : List Link}
    (h : Laid schemes yes no line links) :
    ∀ {n : Nat} {pre : List Char} {pe : Option Nat}, line.length < n →
      (∀ c, pre.head? = some c → ¬Alnum c ∨ Stops line) →
      collect (fun m => orgLinkMatchIsUrl letter p (subs p.link m))
        (findAllFrom letter (linkRe S) n pre line pe) = .ok links := by
  have hgr := linkRe_groups hg
  have sub_ok : ∀ m i, i ≤ 6 → idx (subs p.link m) i = .ok (m.sub i) := by
    intro m i hi
    rw [hp]
    exact idx_subs (by omega)
  induction h with
  | text hq =>
    intro n pre pe _ _
    rw [findAllFrom_end (quiet_silent hN hS hq .done) (quiet_end hS)]
    rfl
  | bracket hq hu hd hy _ ih =>
    intro n pre pe hn _
    rename_i t url part descr rest links _ _
    obtain ⟨k, rfl⟩ : ∃ k, n = k + 1 := ⟨n - 1, by omega⟩
    obtain ⟨d, h1, h2⟩ := bracket_first (letter := letter) (S := S) (rest := rest)
      (pre := t.reverse ++ pre) hu hd
    rw [findAllFrom_next (item := "[[".toList ++ url ++ "]".toList ++ part ++ "]".toList)
      (quiet_silent hN hS hq (next_bracket)) (by simp) h1]
    refine collect_cons ?_ (ih ?_ ?_)
    · unfold orgLinkMatchIsUrl
      rw [sub_ok _ 1 (by decide), sub_ok _ 2 (by decide), sub_ok _ 3 (by decide),
        sub_ok _ 5 (by decide)]
      have s1 : Match.sub ⟨t.reverse ++ pre, "[[".toList ++ url ++ "]".toList ++ part ++ "]".toList,
          d ++ [(1, url)]⟩ 1 = url := by
        rcases h2 with ⟨-, rfl⟩ | rfl <;> rfl
      have s2 : Match.sub ⟨t.reverse ++ pre, "[[".toList ++ url ++ "]".toList ++ part ++ "]".toList,
          d ++ [(1, url)]⟩ 2 = descr := by
        rcases h2 with ⟨hp0, rfl⟩ | rfl
        · rcases hd with ⟨-, rfl⟩ | ⟨h0, -, -⟩
          · rfl
          · rw [hp0] at h0; simp at h0
        · rfl
      simp only [Res.bind_ok, s1, s2]
      rw [if_pos hu.1, if_pos (hyes _ hy)]
    · simp at hn ⊢; omega
    · intro c hc
      simp at hc
      subst hc
      exact .inl (by unfold Alnum; decide)
  | other hq hu hd hy _ ih =>
    intro n pre pe hn _
    rename_i t url part descr rest links _ _
    obtain ⟨k, rfl⟩ : ∃ k, n = k + 1 := ⟨n - 1, by omega⟩
    obtain ⟨d, h1, h2⟩ := bracket_first (letter := letter) (S := S) (rest := rest)
      (pre := t.reverse ++ pre) hu hd
    rw [findAllFrom_next (item := "[[".toList ++ url ++ "]".toList ++ part ++ "]".toList)
      (quiet_silent hN hS hq (next_bracket)) (by simp) h1]
    rw [collect_skip]
    · refine ih ?_ ?_
      · simp at hn ⊢; omega
      · intro c hc
        simp at hc
        subst hc
        exact .inl (by unfold Alnum; decide)
    · unfold orgLinkMatchIsUrl
      rw [sub_ok _ 1 (by decide), sub_ok _ 2 (by decide), sub_ok _ 3 (by decide),
        sub_ok _ 5 (by decide)]
      have s1 : Match.sub ⟨t.reverse ++ pre, "[[".toList ++ url ++ "]".toList ++ part ++ "]".toList,
          d ++ [(1, url)]⟩ 1 = url := by
        rcases h2 with ⟨-, rfl⟩ | rfl <;> rfl
      simp only [Res.bind_ok, s1]
      rw [if_pos hu.1, if_neg (by rw [hno _ hy]; decide)]
  | angle hq hs hx _ ih =>
    intro n pre pe hn _
    rename_i t s suffix rest links _ _
    obtain ⟨k, rfl⟩ : ∃ k, n = k + 1 := ⟨n - 1, by omega⟩
    have h1 := angle_first (letter := letter) hN hS (rest := rest) (pre := t.reverse ++ pre) hs hx
    rw [findAllFrom_next (item := "<".toList ++ s ++ ":".toList ++ suffix ++ ">".toList)
      (quiet_silent hN hS hq (next_angle)) (by simp) h1]
    refine collect_cons ?_ (ih ?_ ?_)
    · unfold orgLinkMatchIsUrl
      rw [sub_ok _ 1 (by decide), sub_ok _ 3 (by decide), sub_ok _ 4 (by decide)]
      have s1 : ∀ txt, Match.sub ⟨t.reverse ++ pre, txt, [(4, suffix), (3, s)]⟩ 1 = [] := fun _ => rfl
      have s3 : ∀ txt, Match.sub ⟨t.reverse ++ pre, txt, [(4, suffix), (3, s)]⟩ 3 = s := fun _ => rfl
      have s4 : ∀ txt, Match.sub ⟨t.reverse ++ pre, txt, [(4, suffix), (3, s)]⟩ 4 = suffix :=
        fun _ => rfl
      simp only [Res.bind_ok, s1, s3, s4]
      rw [if_neg (by simp), if_pos (hN s hs).1]
      simp
    · simp at hn ⊢; omega
    · intro c hc
      simp at hc
      subst hc
      exact .inl (by unfold Alnum; decide)
  | plain hq hl hs hb hr _ ih =>
    intro n pre pe hn hpre
    rename_i t s body rest links _
    obtain ⟨k, rfl⟩ : ∃ k, n = k + 1 := ⟨n - 1, by omega⟩
    have hpre' : ∀ c, (t.reverse ++ pre).head? = some c → ¬Alnum c := by
      intro c hc
      rcases List.eq_nil_or_concat t with rfl | ⟨t', d, rfl⟩
      · rcases hpre c (by simpa using hc) with h | h
        · exact h
        · exfalso
          obtain ⟨e, v, e0⟩ := List.exists_cons_of_ne_nil (hN s hs).1
          have h1 := h e (by rw [e0]; rfl)
          have h2 := isWord_iff.2 (hword s hs e (by rw [e0]; rfl))
          have key : ∀ c ∈ "[] \t\n)<>".toList, isWord c = false := by decide
          rw [key e h1] at h2
          exact absurd h2 (by decide)
      · have : c = d := by simpa using hc.symm
        subst this
        exact (hl c (by simp)).1
    have h1 := plain_first (letter := letter) hN hS (rest := rest) hs hpre' (hword s hs) hb hr
    have hnext : Next schemes t ((s ++ ":".toList ++ body) ++ rest) := by
      have := Next.plain (t := t) (y := body ++ rest) hs fun c hc => (hl c hc).2
      simpa using this
    rw [findAllFrom_next (item := s ++ ":".toList ++ body) (quiet_silent hN hS hq hnext) (by simp) h1]
    refine collect_cons ?_ (ih ?_ ?_)
    · unfold orgLinkMatchIsUrl
      rw [sub_ok _ 1 (by decide), sub_ok _ 3 (by decide), sub_ok _ 5 (by decide), sub_ok _ 6 (by decide)]
      have s1 : ∀ txt, Match.sub ⟨t.reverse ++ pre, txt, [(6, body), (5, s)]⟩ 1 = [] := fun _ => rfl
      have s3 : ∀ txt, Match.sub ⟨t.reverse ++ pre, txt, [(6, body), (5, s)]⟩ 3 = [] := fun _ => rfl
      have s5 : ∀ txt, Match.sub ⟨t.reverse ++ pre, txt, [(6, body), (5, s)]⟩ 5 = s := fun _ => rfl
      have s6 : ∀ txt, Match.sub ⟨t.reverse ++ pre, txt, [(6, body), (5, s)]⟩ 6 = body :=
        fun _ => rfl
      simp only [Res.bind_ok, s1, s3, s5, s6]
      rw [if_neg (by simp), if_neg (by simp), if_pos (hN s hs).1]
      simp
    · simp at hn ⊢; omega
    · intro c _
      exact .inr hr

theorem schemeRe_reads {letter : Char → Bool} : Reads' letter schemeRe defaultSchemes := by
  intro s s'
  constructor
  · intro h
    obtain ⟨w, m, hc⟩ := run_nogroups schemeRe_idxs h
    exact ⟨w, schemeRe_lang s s' w h m, m, hc⟩
  · rintro ⟨w, hw, m, hc⟩
    rw [schemeRe_eq, mem_alts]
    simp only [List.mem_cons, List.not_mem_nil, or_false, exists_eq_or_imp, exists_eq_left]
    have hhttp : ∀ {u : St} {v : Str}, Moves s u v → u.caps = s.caps → v = "http".toList →
        (s' = u ∨ s' ∈ run letter (.lit 's') u) →
        s' ∈ run letter (.cat (.lit 'h') (.cat (.lit 't') (.cat (.lit 't') (.cat (.lit 'p')
          (.opt false (.lit 's')))))) s := by
      intro u v m hc hv hend
      subst hv
      have e := m.1
      have p := m.2
      refine mem_cat.2 ⟨⟨'h' :: s.pre, "ttp".toList ++ u.rest, s.caps⟩, mem_lit'.2 ⟨⟨e, rfl⟩, rfl⟩, ?_⟩
      refine mem_cat.2 ⟨⟨'t' :: 'h' :: s.pre, "tp".toList ++ u.rest, s.caps⟩,
        mem_lit'.2 ⟨⟨rfl, rfl⟩, rfl⟩, ?_⟩
      refine mem_cat.2 ⟨⟨'t' :: 't' :: 'h' :: s.pre, "p".toList ++ u.rest, s.caps⟩,
        mem_lit'.2 ⟨⟨rfl, rfl⟩, rfl⟩, ?_⟩
      refine mem_cat.2 ⟨⟨'p' :: 't' :: 't' :: 'h' :: s.pre, u.rest, s.caps⟩,
        mem_lit'.2 ⟨⟨rfl, rfl⟩, rfl⟩, ?_⟩
      have : (⟨'p' :: 't' :: 't' :: 'h' :: s.pre, u.rest, s.caps⟩ : St) = u := by
        cases u
        simp only at p hc
        subst p hc
        rfl
      rw [this]
      exact mem_opt.2 (hend.symm.imp_right id)
    simp only [defaultSchemes, List.mem_cons, List.not_mem_nil, or_false] at hw
    rcases hw with rfl | rfl | rfl | rfl
    · exact .inl (mem_lits.2 ⟨m, hc⟩)
    · exact .inr (.inl (hhttp m hc rfl (.inl rfl)))
    · refine .inr (.inl (hhttp (u := ⟨"ptth".toList ++ s.pre, 's' :: s'.rest, s.caps⟩)
        (v := "http".toList) ⟨m.1, rfl⟩ rfl rfl (.inr (mem_lit'.2 ⟨⟨rfl, m.2⟩, hc⟩))))
    · exact .inr (.inr (mem_lits.2 ⟨m, hc⟩))

theorem defaultSchemes_names : Names defaultSchemes := by unfold Names; decide

/-- A link in brackets that is not reported with the default schemes. -/
def NotDefault (url : Str) : Prop :=
  ¬"doi".toList <+: url ∧ ¬Within "http".toList url ∧ ¬Within "mid:".toList url

theorem scheme_yes {letter : Char → Bool} {url : Str} (h : HasScheme defaultSchemes url) :
    matchString letter orgReDefault.scheme url = true := by
  obtain ⟨w, hw, t, rfl⟩ := h
  unfold matchString
  rw [findFrom_isSome]
  refine ⟨[], _, rfl, ?_⟩
  rw [orgReDefault_scheme]
  have key : ∃ t', t' ∈ run letter schemeRe ⟨[], w ++ [':'] ++ t, []⟩ ∧ w = w :=
    ⟨⟨w.reverse, ':' :: t, []⟩, (schemeRe_reads _ _).2 ⟨w, hw, ⟨by simp, by simp⟩, rfl⟩, rfl⟩
  simp only [defaultSchemes, List.mem_cons, List.not_mem_nil, or_false] at hw
  obtain ⟨t', h1, -⟩ := key
  rw [schemeRe_eq, mem_alts] at h1
  simp only [List.mem_cons, List.not_mem_nil, or_false, exists_eq_or_imp, exists_eq_left] at h1
  rcases h1 with h1 | h1 | h1
  · exact List.ne_nil_of_mem (mem_alts.2 ⟨_, by simp, mem_cat.2 ⟨_, mem_bol.2 ⟨rfl, rfl⟩, h1⟩⟩)
  · exact List.ne_nil_of_mem (mem_alts.2 ⟨_, by simp, h1⟩)
  · have e := (mem_lits.1 h1).1.1
    simp only at e
    rcases hw with rfl | rfl | rfl | rfl
    · exact absurd (List.cons.inj e).1 (by decide)
    · exact absurd (List.cons.inj e).1 (by decide)
    · exact absurd (List.cons.inj e).1 (by decide)
    · refine List.ne_nil_of_mem (a := ⟨"mid:".toList.reverse, t, []⟩)
        (mem_alts.2 ⟨cats ("mid:".toList.map .lit), by simp, ?_⟩)
      exact mem_lits.2 ⟨⟨rfl, rfl⟩, rfl⟩

theorem scheme_no {letter : Char → Bool} {url : Str} (h : NotDefault url) :
    matchString letter orgReDefault.scheme url = false := by
  rw [← Bool.not_eq_true]
  intro hm
  rcases scheme_check hm with h1 | h1 | h1
  · exact h.1 h1
  · exact h.2.1 h1
  · exact h.2.2 h1

/-- What the default expression for schemes is satisfied by: the beginning `doi`, or `http` or `mid:`
anywhere in the target. -/
def Reported (url : Str) : Prop :=
  "doi".toList <+: url ∨ Within "http".toList url ∨ Within "mid:".toList url

theorem scheme_iff {letter : Char → Bool} {url : Str} :
    matchString letter orgReDefault.scheme url = true ↔ Reported url := by
  constructor
  · exact scheme_check
  · intro h
    unfold matchString
    rw [findFrom_isSome, orgReDefault_scheme]
    rcases h with ⟨t, rfl⟩ | ⟨a, b, rfl⟩ | ⟨a, b, rfl⟩
    · refine ⟨[], _, rfl, List.ne_nil_of_mem (a := ⟨"doi".toList.reverse, t, []⟩) ?_⟩
      exact mem_alts.2 ⟨_, List.mem_cons_self, mem_cat.2
        ⟨_, mem_bol.2 ⟨rfl, rfl⟩, mem_lits.2 ⟨⟨rfl, rfl⟩, rfl⟩⟩⟩
    · refine ⟨a, "http".toList ++ b, by simp,
        List.ne_nil_of_mem (a := ⟨"http".toList.reverse ++ a.reverse, b, []⟩) ?_⟩
      refine mem_alts.2 ⟨_, List.mem_cons_of_mem _ List.mem_cons_self, ?_⟩
      refine mem_cat.2 ⟨⟨'h' :: (a.reverse ++ []), "ttp".toList ++ b, []⟩, mem_lit'.2 ⟨⟨rfl, rfl⟩, rfl⟩, ?_⟩
      refine mem_cat.2 ⟨⟨'t' :: 'h' :: (a.reverse ++ []), "tp".toList ++ b, []⟩,
        mem_lit'.2 ⟨⟨rfl, rfl⟩, rfl⟩, ?_⟩
      refine mem_cat.2 ⟨⟨'t' :: 't' :: 'h' :: (a.reverse ++ []), "p".toList ++ b, []⟩,
        mem_lit'.2 ⟨⟨rfl, rfl⟩, rfl⟩, ?_⟩
      refine mem_cat.2 ⟨⟨'p' :: 't' :: 't' :: 'h' :: (a.reverse ++ []), b, []⟩,
        mem_lit'.2 ⟨⟨rfl, rfl⟩, rfl⟩, ?_⟩
      exact mem_opt.2 (.inr (by simp))
    · refine ⟨a, "mid:".toList ++ b, by simp,
        List.ne_nil_of_mem (a := ⟨"mid:".toList.reverse ++ a.reverse, b, []⟩) ?_⟩
      exact mem_alts.2 ⟨cats ("mid:".toList.map .lit), by simp, mem_lits.2 ⟨⟨by simp, by simp⟩, rfl⟩⟩

/-- C56: all the links of a line made of text and links are found, in order, with their
descriptions, and nothing else. -/
theorem c56_line (letter : Char → Bool) (line : Str) (links : List Link)
    (h : Laid defaultSchemes (HasScheme defaultSchemes) NotDefault line links) :
    orgLinks letter orgReDefault line = .ok links := by
  unfold orgLinks findAll
  have := laid_found (p := orgReDefault) orgReDefault_link schemeRe_groups defaultSchemes_names
    (schemeRe_reads (letter := letter)) (by unfold Alnum; decide) (fun url => scheme_yes)
    (fun url => scheme_no) h (n := line.length + 2) (pre := []) (pe := none) (by omega) (by simp)
  rw [orgReDefault_link]
  rw [orgReDefault_link] at this
  exact this

/-- C28 and C56 for every target of a link in double brackets: it is reported if and only if it begins
with `doi`, or has `http` or `mid:` anywhere; other links are those of C56. -/
theorem c28_exact (letter : Char → Bool) (line : Str) (links : List Link)
    (h : Laid defaultSchemes Reported (fun url => ¬Reported url) line links) :
    orgLinks letter orgReDefault line = .ok links := by
  unfold orgLinks findAll
  have := laid_found (p := orgReDefault) orgReDefault_link schemeRe_groups defaultSchemes_names
    (schemeRe_reads (letter := letter)) (by unfold Alnum; decide) (fun url => scheme_iff.2)
    (fun url h => by rw [← Bool.not_eq_true]; exact fun h' => h (scheme_iff.1 h')) h
    (n := line.length + 2) (pre := []) (pe := none) (by omega) (by simp)
  rw [orgReDefault_link]
  rw [orgReDefault_link] at this
  exact this

/-- C28: a line with a single link in double brackets and any targets. -/
theorem c28_bracket (letter : Char → Bool) {t url part descr rest : Str}
    (ht : Quiet defaultSchemes t) (hu : Target url) (hd : Described part descr)
    (hr : Quiet defaultSchemes rest) :
    ∃ links, orgLinks letter orgReDefault
        (t ++ ("[[".toList ++ url ++ "]".toList ++ part ++ "]".toList ++ rest)) = .ok links ∧
      (Reported url → links = [⟨url, descr, 0⟩]) ∧ (¬Reported url → links = []) := by
  by_cases h : Reported url
  · exact ⟨_, c28_exact letter _ _ (.bracket ht hu hd h (.text hr)), fun _ => rfl, fun h' => absurd h h'⟩
  · exact ⟨_, c28_exact letter _ _ (.other ht hu hd h (.text hr)), fun h' => absurd h' h, fun _ => rfl⟩

/-- C56 with schemes given by the user: no special characters, no colon, no angle bracket, the first
character is a letter, a digit or an underscore. -/
theorem c56_configured (letter : Char → Bool) (p : OrgRe) {variants schemes : List Str}
    (hs : SchemesOf variants schemes) (hne : schemes ≠ [])
    (h : ∀ s ∈ schemes, Literal s ∧ ':' ∉ s ∧ '<' ∉ s ∧ ∀ c, s.head? = some c → Alnum c) :
    ∃ p', updateRe p variants = (p', none) ∧ ∀ line links,
      Laid schemes (Accepted schemes) (fun url => ¬Accepted schemes url) line links →
      orgLinks letter p' line = .ok links := by
  obtain rfl := schemesOf_eq hs
  obtain ⟨r, hr, hm⟩ := updateRe_literal p hne fun l hl => (h l hl).1
  refine ⟨_, hr, fun line links hl => ?_⟩
  unfold orgLinks findAll
  refine laid_found (p := ⟨makeSchemeReStr variants, r, linkRe (oneOf (uniqueSchemes variants []))⟩)
    rfl (groups_oneOf _) ?_ (fun _ _ => mem_oneOf) (fun s hs => (h s hs).2.2.2)
    (fun url => (hm _ _).2) ?_ hl (n := line.length + 2) (pre := []) (pe := none) (by omega) (by simp)
  · intro s hs
    refine ⟨(h s hs).1.1, (h s hs).2.1, fun h' => (h s hs).1.2 _ h' (by decide), (h s hs).2.2.1⟩
  · intro url hurl
    rw [← Bool.not_eq_true]
    exact fun hm' => hurl ((hm _ _).1 hm')

example : SchemesOf ["ftp:".toList, "https".toList] ["ftp".toList, "https".toList] ∧
    ∀ s ∈ ["ftp".toList, "https".toList], Literal s ∧ ':' ∉ s ∧ '<' ∉ s ∧
    ∀ c, s.head? = some c → Alnum c := by
  refine ⟨schemesOf_unique _, ?_⟩
  unfold Literal Alnum
  decide +kernel

/-- C56 for files: the links of the tree are those of the lines, with their line numbers. -/
theorem c56_file (letter : Char → Bool) (accept : Link → Bool) (h0 : Heap) (lines : List Str)
    (linksOf : Str → List Link) (h : ∀ line ∈ lines,
      Laid defaultSchemes (HasScheme defaultSchemes) NotDefault line (linksOf line)) :
    ∃ h' root cs, orgExtract (orgFind letter) accept h0 lines = .ok (h', root) ∧
      RepT h' (.node .unset cs) root ∧ linksAll cs = Extract.Spec.found linksOf accept 1 lines := by
  obtain ⟨h', root, cs, h1, h2, h3, -⟩ := Extract.c25_links (orgFind letter) accept h0 lines
  refine ⟨h', root, cs, h1, h2, ?_⟩
  rw [h3]
  have : ∀ (n : Int) (ls : List Str), (∀ l ∈ ls, l ∈ lines) →
      Extract.Spec.found (orgFind letter) accept n ls = Extract.Spec.found linksOf accept n ls := by
    intro n ls
    induction ls generalizing n with
    | nil => intro _; rfl
    | cons l ls ih =>
      intro hl
      have e := c56_line letter l _ (h l (hl l (by simp)))
      rw [orgFind_eq] at e
      simp only [Extract.Spec.found, Res.ok.inj e, ih (n + 1) fun x hx => hl x (by simp [hx])]
  exact this 1 lines fun l hl => hl

theorem not_within {part text : Str} (c : Char) (h1 : c ∈ part) (h2 : c ∉ text) :
    ¬Within part text := by
  rintro ⟨a, b, rfl⟩
  exact h2 (by simp [h1])

theorem quiet_of_no_colon {schemes : List Str} {t : Str} (h1 : '[' ∉ t) (h2 : ':' ∉ t) :
    Quiet schemes t :=
  ⟨not_within '[' (by decide) h1, fun s _ => not_within ':' (by simp) h2⟩

example : Reported "file:http.org".toList ∧ ¬HasScheme defaultSchemes "file:http.org".toList ∧
    Target "file:http.org".toList ∧ Quiet defaultSchemes "see ".toList := by
  refine ⟨.inr (.inl ⟨"file:".toList, ".org".toList, by decide⟩), ?_, ?_, ?_⟩
  · unfold HasScheme; decide
  · exact ⟨by decide, by decide⟩
  · exact quiet_of_no_colon (by decide) (by decide)

theorem plainBody_simple {w : Str} {c : Char} (hne : w ≠ []) (hw : ∀ d ∈ w, PlainChar d)
    (hc : PlainChar c) (hp : ¬Punct c ∨ c = '/') : PlainBody (w ++ [c]) := by
  refine ⟨w, [c], rfl, hne, ?_, .inl ⟨c, rfl, hc, hp⟩⟩
  clear hne
  induction w with
  | nil => exact .nil
  | cons d w ih => exact .char (hw d (by simp)) (ih fun e he => hw e (by simp [he]))

/-- A line with links of all kinds. -/
example : Laid defaultSchemes (HasScheme defaultSchemes) NotDefault
    "(see [[https://a.b/c][x [1] y]], [[file:f]] <mid:x y>; http://w.x/z).".toList
    [⟨"https://a.b/c".toList, "x [1] y".toList, 0⟩, ⟨"mid:x y".toList, [], 0⟩,
      ⟨"http://w.x/z".toList, [], 0⟩] := by
  have h4 : Laid defaultSchemes (HasScheme defaultSchemes) NotDefault ").".toList [] :=
    .text (quiet_of_no_colon (by decide) (by decide))
  have h3 : Laid defaultSchemes (HasScheme defaultSchemes) NotDefault "; http://w.x/z).".toList
      [⟨"http://w.x/z".toList, [], 0⟩] :=
    .plain (t := "; ".toList) (s := "http".toList) (body := "//w.x/z".toList) (rest := ").".toList)
      (quiet_of_no_colon (by decide) (by decide)) (by unfold Alnum; decide) (by decide)
      (plainBody_simple (w := "//w.x/".toList) (by decide) (by unfold PlainChar; decide)
        (by unfold PlainChar; decide) (by unfold Punct; decide)) (by unfold Stops; decide) h4
  have h2 : Laid defaultSchemes (HasScheme defaultSchemes) NotDefault
      " <mid:x y>; http://w.x/z).".toList
      [⟨"mid:x y".toList, [], 0⟩, ⟨"http://w.x/z".toList, [], 0⟩] :=
    .angle (t := " ".toList) (s := "mid".toList) (suffix := "x y".toList)
      (quiet_of_no_colon (by decide) (by decide)) (by decide) (by decide) h3
  have h1 : Laid defaultSchemes (HasScheme defaultSchemes) NotDefault
      ", [[file:f]] <mid:x y>; http://w.x/z).".toList
      [⟨"mid:x y".toList, [], 0⟩, ⟨"http://w.x/z".toList, [], 0⟩] :=
    .other (t := ", ".toList) (url := "file:f".toList) (part := []) (descr := [])
      (quiet_of_no_colon (by decide) (by decide)) (by unfold Target; decide) (.inl ⟨rfl, rfl⟩)
      ⟨by decide, not_within 'h' (by decide) (by decide), not_within 'm' (by decide) (by decide)⟩ h2
  refine Laid.bracket (t := "(see ".toList) (url := "https://a.b/c".toList)
      (part := "[x [1] y]".toList) (descr := "x [1] y".toList)
      (quiet_of_no_colon (by decide) (by decide)) (by unfold Target; decide)
      (.inr ⟨rfl, by decide, ?_⟩) ⟨"https".toList, by decide, by decide⟩ h1
  rintro ⟨a, b, e⟩
  have key : ∀ i < 8, ("x [1] y]".toList.drop i).take 2 ≠ "]]".toList := by decide
  have hl := congrArg List.length e
  have : a.length < 8 := by
    simp at hl
    omega
  refine key a.length this ?_
  show List.take 2 (List.drop a.length ("x [1] y".toList ++ [']'])) = _
  rw [e, List.append_assoc, List.drop_append]
  simp

end Burl.Links
