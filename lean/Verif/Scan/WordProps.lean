import Verif.Scan.WordLemmas
import Verif.Scan.Props
import Verif.Links.TextFoundProps
/-! Property C76: `ExtractUrls`.  Also C33 for bytes that are not UTF-8. -/
namespace Burl.Scan
open Spec
open Burl.Tree.Spec (Link linksAll)
open Burl.Tree (Heap RepT)
open Burl.Links (isSpaceWord isSpaceWord_eq wordLinks txtLinksOf wordsOf scanWord matchIsUrl reUrl subs)
open Burl.Links.Spec (white)
open Burl.Regex (findAll)

/-- Every file is cut into characters and words in one way. -/
theorem c76_words_exist (content : Bytes) :
    ∃ ps ws, Cut content ps ∧ Words white ps ws ∧
      ∀ ps' ws', Cut content ps' → Words white ps' ws' → ps' = ps ∧ ws' = ws := by
  obtain ⟨ps, hp⟩ := cut_exists content
  obtain ⟨ws, hw⟩ := words_exists ps
  rw [isSpaceWord_eq] at hw
  refine ⟨ps, ws, hp, hw, fun ps' ws' hp' hw' => ?_⟩
  have := cut_unique hp' hp
  subst this
  rw [← isSpaceWord_eq] at hw hw'
  exact ⟨rfl, words_unique hw' hw⟩

/-- C76: reading of a file word by word ends for every way the operating system cuts it into pieces,
also inside of characters.  Words are delivered in order.  They are all there, with an error only if
the file has failed, if each of them and the white space after it take at most 65536 bytes.
Otherwise reading stops with an error at the first one that does not fit. -/
theorem c76_words (choice : Nat → Nat) (content : Bytes) (fault : Option Unit)
    {ps : List (Bytes × Char)} {ws : List (List (Bytes × Char) × Nat)} (hc : Cut content ps)
    (hw : Words white ps ws) :
    ∃ s, Loop done (wordBody choice) (start content fault) (.ok s) ∧
      s.tokens = (ws.takeWhile fun w => (bytes w.1).length + w.2 ≤ 65536).map (fun w => bytes w.1) ∧
      s.error = if ∀ w ∈ ws, (bytes w.1).length + w.2 ≤ 65536 then fault.map fun _ => .read
        else some .tooLong := by
  rw [← isSpaceWord_eq] at hw
  obtain ⟨s, h1, h2, h3⟩ := word_loop choice (s := start content fault)
    ⟨by simp [start], by simp [start], rfl, .inl rfl⟩ (ps := ps) (ws := ws) hc hw
  refine ⟨s, h1, by rw [h2]; rfl, ?_⟩
  unfold State.error
  rw [h3]
  have e : (∀ w ∈ ws, fits w = true) ↔ ∀ w ∈ ws, (bytes w.1).length + w.2 ≤ 65536 := by
    exact ⟨fun h w hw => of_decide_eq_true (h w hw), fun h w hw => decide_eq_true (h w hw)⟩
  by_cases h : ∀ w ∈ ws, fits w = true
  · rw [if_pos h, if_pos (e.1 h)]
    simp only [start, finalErr]
    cases fault <;> simp
  · rw [if_neg h, if_neg (fun h' => h (e.2 h'))]
    simp

/-- C76: what the scanner of words delivers does not depend on pieces. -/
theorem c76_pieces_irrelevant (c1 c2 : Nat → Nat) (content : Bytes) (fault : Option Unit)
    {s1 s2 : State} (h1 : Loop done (wordBody c1) (start content fault) (.ok s1))
    (h2 : Loop done (wordBody c2) (start content fault) (.ok s2)) :
    s1.tokens = s2.tokens ∧ s1.error = s2.error := by
  obtain ⟨ps, ws, hp, hw, _⟩ := c76_words_exist content
  obtain ⟨t1, g1, e1, e2⟩ := c76_words c1 content fault hp hw
  obtain ⟨t2, g2, e3, e4⟩ := c76_words c2 content fault hp hw
  cases h1.unique g1
  cases h2.unique g2
  exact ⟨e1.trans e3.symm, e2.trans e4.symm⟩

/-! ### Calls -/

theorem callMatches_spec (more : List (List Str) → Bool) : ∀ (ms calls : List (List Str)),
    ∃ part, callMatches more ms calls = calls ++ part ∧ part <+: ms.filter matchIsUrl ∧
      (∀ k, k + 1 < part.length → more (calls ++ part.take (k + 1)) = true) ∧
      (part.length < (ms.filter matchIsUrl).length → part ≠ [] ∧ more (calls ++ part) = false)
  | [], calls => ⟨[], by simp [callMatches]⟩
  | m :: ms, calls => by
    rw [callMatches]
    by_cases hm : matchIsUrl m = true
    · rw [if_pos hm, List.filter_cons_of_pos hm]
      simp only
      by_cases hmore : more (calls ++ [m]) = true
      · rw [if_pos hmore]
        obtain ⟨part, h1, h2, h3, h4⟩ := callMatches_spec more ms (calls ++ [m])
        refine ⟨m :: part, by rw [h1]; simp, (List.cons_prefix_cons).2 ⟨rfl, h2⟩, ?_, ?_⟩
        · intro k hk
          cases k with
          | zero => simpa using hmore
          | succ k =>
            have := h3 k (by simpa using hk)
            rw [List.append_assoc] at this
            simpa using this
        · intro hl
          obtain ⟨_, h6⟩ := h4 (by simpa using hl)
          rw [List.append_assoc] at h6
          exact ⟨by simp, by simpa using h6⟩
      · rw [if_neg hmore]
        refine ⟨[m], rfl, (List.cons_prefix_cons).2 ⟨rfl, List.nil_prefix⟩, ?_, ?_⟩
        · intro k hk; simp at hk
        · intro _; exact ⟨by simp, by simpa using hmore⟩
    · rw [if_neg hm, List.filter_cons_of_neg hm]
      exact callMatches_spec more ms calls

theorem subs_head (m : Regex.Match) : (subs reUrl m).head? = some m.text := by
  unfold subs
  rw [List.range_succ_eq_map]
  simp [Regex.Match.sub]

theorem filter_heads (ms : List Regex.Match) :
    ((ms.map (subs reUrl)).filter matchIsUrl).map List.head? =
      ((ms.filter fun m => matchIsUrl (subs reUrl m)).map fun m => (⟨m.text, [], 0⟩ : Link)).map
        fun l => some l.url := by
  rw [List.filter_map, List.map_map, List.map_map]
  refine List.map_congr_left fun m _ => ?_
  exact subs_head m

/-- C76: what is offered to the callback.  The calls are parts, one for each word.  Calls of a word
have its addresses in order, those that are in the tree of the file (C33, C58).  All the calls but
the last one in a word have been accepted.  If some addresses of a word are left out, the last call
has been refused.  Other words are not affected by a refusal. -/
theorem c76_calls (letter : Char → Bool) (more : List (List Str) → Bool) (words : List Str) :
    ∃ parts : List (List (List Str)), extractUrls letter more words = parts.flatten ∧
      parts.length = words.length ∧
      ∀ (i : Nat) (word : Str) (part : List (List Str)), words[i]? = some word → parts[i]? = some part →
        part.map List.head? <+: (wordLinks letter word).map (fun l => some l.url) ∧
        (∀ k, k + 1 < part.length → more ((parts.take i).flatten ++ part.take (k + 1)) = true) ∧
        (part.length < (wordLinks letter word).length →
          part ≠ [] ∧ more (parts.take (i + 1)).flatten = false) := by
  let f := fun calls (word : Str) =>
    callMatches more ((findAll letter reUrl word).map (subs reUrl)) calls
  have key : ∀ (words : List Str) (calls : List (List Str)), ∃ parts : List (List (List Str)),
      words.foldl f calls = calls ++ parts.flatten ∧ parts.length = words.length ∧
      ∀ (i : Nat) (word : Str) (part : List (List Str)), words[i]? = some word → parts[i]? = some part →
        part.map List.head? <+: (wordLinks letter word).map (fun l => some l.url) ∧
        (∀ k, k + 1 < part.length → more (calls ++ ((parts.take i).flatten ++ part.take (k + 1))) = true) ∧
        (part.length < (wordLinks letter word).length →
          part ≠ [] ∧ more (calls ++ (parts.take (i + 1)).flatten) = false) := by
    intro words
    induction words with
    | nil => intro calls; exact ⟨[], by simp, rfl, by simp⟩
    | cons w words ih =>
      intro calls
      obtain ⟨p, h1, h2, h3, h4⟩ := callMatches_spec more ((findAll letter reUrl w).map (subs reUrl)) calls
      obtain ⟨parts, g1, g2, g3⟩ := ih (calls ++ p)
      refine ⟨p :: parts, ?_, by simp [g2], ?_⟩
      · rw [List.foldl_cons]
        show words.foldl f (f calls w) = _
        rw [show f calls w = calls ++ p from h1, g1]
        simp
      · intro i word part hw hp
        cases i with
        | zero =>
          simp only [List.getElem?_cons_zero, Option.some.injEq] at hw hp
          subst hw hp
          have hlen : (wordLinks letter w).length =
              (((findAll letter reUrl w).map (subs reUrl)).filter matchIsUrl).length := by
            have := congrArg List.length (filter_heads (findAll letter reUrl w))
            simp only [List.length_map] at this
            rw [this, wordLinks, List.length_map]
          refine ⟨?_, ?_, ?_⟩
          · have := h2.map List.head?
            rw [filter_heads] at this
            exact this
          · intro k hk; simpa using h3 k hk
          · intro hl
            rw [hlen] at hl
            simpa using h4 hl
        | succ i =>
          simp only [List.getElem?_cons_succ] at hw hp
          obtain ⟨k1, k2, k3⟩ := g3 i word part hw hp
          refine ⟨k1, ?_, ?_⟩
          · intro k hk
            have := k2 k hk
            rw [List.append_assoc] at this
            simpa using this
          · intro hl
            have := k3 hl
            rw [List.append_assoc] at this
            simpa using this
  obtain ⟨parts, h1, h2, h3⟩ := key words []
  refine ⟨parts, ?_, h2, ?_⟩
  · rw [List.nil_append] at h1; exact h1
  · simpa using h3

theorem callMatches_all : ∀ (ms calls : List (List Str)),
    callMatches (fun _ => true) ms calls = calls ++ ms.filter matchIsUrl
  | [], calls => by simp [callMatches]
  | m :: ms, calls => by
    rw [callMatches]
    by_cases hm : matchIsUrl m = true
    · rw [if_pos hm, List.filter_cons_of_pos hm]
      simp only [if_true]
      rw [callMatches_all ms]
      simp
    · rw [if_neg hm, List.filter_cons_of_neg hm, callMatches_all ms]

theorem callMatches_none : ∀ (ms calls : List (List Str)),
    callMatches (fun _ => false) ms calls = calls ++ (ms.filter matchIsUrl).take 1
  | [], calls => by simp [callMatches]
  | m :: ms, calls => by
    rw [callMatches]
    by_cases hm : matchIsUrl m = true
    · rw [if_pos hm, List.filter_cons_of_pos hm]
      simp
    · rw [if_neg hm, List.filter_cons_of_neg hm, callMatches_none ms]

theorem foldl_parts {f : Str → List (List Str)} : ∀ (words : List Str) (calls : List (List Str)),
    words.foldl (fun calls word => calls ++ f word) calls = calls ++ words.flatMap f
  | [], calls => by simp
  | w :: ws, calls => by rw [List.foldl_cons, foldl_parts ws]; simp

/-- C76: a callback that accepts everything is offered all the addresses. -/
theorem c76_all (letter : Char → Bool) (words : List Str) :
    (extractUrls letter (fun _ => true) words).map List.head? =
      (words.flatMap (wordLinks letter)).map fun l => some l.url := by
  unfold extractUrls
  simp only [callMatches_all]
  rw [foldl_parts, List.nil_append, List.map_flatMap, List.map_flatMap]
  congr 1
  funext w
  exact filter_heads _

/-- C76: a callback that refuses everything is still offered the first address of each word: what it
returns does not end the loop over words.  (The comment in the code says that it has been intended
for that.) -/
theorem c76_refused (letter : Char → Bool) (words : List Str) :
    (extractUrls letter (fun _ => false) words).map List.head? =
      (words.flatMap fun w => (wordLinks letter w).take 1).map fun l => some l.url := by
  unfold extractUrls
  simp only [callMatches_none]
  rw [foldl_parts, List.nil_append, List.map_flatMap, List.map_flatMap]
  congr 1
  funext w
  rw [List.map_take, filter_heads, ← List.map_take]
  rfl

/-! ### Agreement with trees -/

theorem cut_take {a b : List Piece} : ∀ {s : Bytes}, Cut s (a ++ b) → Cut (bytes a) a := by
  induction a with
  | nil => intro s _; exact .nil
  | cons p a ih =>
    intro s h
    rw [List.cons_append] at h
    cases h with
    | char h => rw [bytes_cons]; exact .char (ih h)
    | @bad b' rest _ h1 h2 =>
      rw [bytes_cons]
      refine .bad (fun c hc => h1 c (hc.trans ?_)) (ih h2)
      rw [← cut_bytes h2, bytes_append]
      exact ⟨bytes b, by simp⟩

theorem words_cut {ps : List Piece} {ws : List (List Piece × Nat)} (h : Words isSpaceWord ps ws) :
    ∀ {s : Bytes}, Cut s ps → ∀ w ∈ ws, Cut (bytes w.1) w.1 := by
  induction h with
  | blank _ => simp
  | last _ _ _ =>
    intro s hc w hw
    simp only [List.mem_singleton] at hw
    subst hw
    exact cut_append hc
  | @cons g w sp r ws _ _ _ _ _ ih =>
    intro s hc w' hw
    rw [List.append_assoc] at hc
    rcases List.mem_cons.1 hw with rfl | hw
    · exact cut_take (cut_append hc)
    · have h1 : g ++ (w ++ sp :: r) = (g ++ w ++ [sp]) ++ r := by simp
      rw [h1] at hc
      exact ih (cut_append hc) w' hw

theorem words_size {ps : List Piece} {ws : List (List Piece × Nat)} (h : Words isSpaceWord ps ws) :
    ∀ w ∈ ws, (bytes w.1).length + w.2 ≤ (bytes ps).length + 1 := by
  induction h with
  | blank _ => simp
  | last _ _ _ =>
    intro w hw
    simp only [List.mem_singleton] at hw
    subst hw
    rw [bytes_append, List.length_append]
    simp only
    omega
  | cons _ _ _ _ _ ih =>
    intro w hw
    simp only [bytes_append, bytes_cons, List.length_append]
    rcases List.mem_cons.1 hw with rfl | hw
    · simp only; omega
    · have := ih w hw; omega

/-- The first word of a line. -/
theorem scanWord_spec {g w : List Piece} {x : Str} (hg : Blank g) (hw : Solid w)
    (hx : ∀ c, x.head? = some c → isSpaceWord c = true) (hwx : w = [] → x = []) :
    scanWord ((g ++ w).map Prod.snd ++ x) = (w.map Prod.snd, x.drop 1) := by
  unfold scanWord
  simp only
  have h1 : ((g ++ w).map Prod.snd ++ x).dropWhile isSpaceWord = w.map Prod.snd ++ x := by
    rw [List.map_append, List.append_assoc, List.dropWhile_append_of_pos]
    · cases w with
      | nil => simp [hwx rfl]
      | cons p w =>
        rw [List.map_cons, List.cons_append, List.dropWhile_cons_of_neg (by simp [hw p (by simp)])]
    · intro c hc
      obtain ⟨p, hp, rfl⟩ := List.mem_map.1 hc
      exact hg p hp
  have hws : ∀ c ∈ w.map Prod.snd, (!isSpaceWord c) = true := by
    intro c hc
    obtain ⟨p, hp, rfl⟩ := List.mem_map.1 hc
    simp [hw p hp]
  rw [h1, List.takeWhile_append_of_pos hws, List.dropWhile_append_of_pos hws]
  cases x with
  | nil => simp
  | cons c x =>
    rw [List.takeWhile_cons_of_neg (by simp [hx c rfl]), List.dropWhile_cons_of_neg (by simp [hx c rfl])]
    simp
/-- Words of characters are found by the loop over words of a line. -/
theorem words_line (letter : Char → Bool) {ps : List Piece} {ws : List (List Piece × Nat)}
    (h : Words isSpaceWord ps ws) :
    txtLinksOf letter (ps.map Prod.snd) = ws.flatMap fun w => wordLinks letter (w.1.map Prod.snd) := by
  have hnil : wordLinks letter [] = [] := by
    cases hl : wordLinks letter [] with
    | nil => rfl
    | cons l ls =>
      obtain ⟨⟨a, b, hab⟩, h2, _⟩ := Links.wordLinks_spec (letter := letter) (word := []) (l := l)
        (by rw [hl]; simp)
      simp at hab
      exact absurd hab.2.1 h2
  unfold txtLinksOf
  induction h with
  | @blank g hg =>
    rw [wordsOf]
    split
    · simp
    · have := scanWord_spec (g := g) (w := []) (x := []) hg (by simp [Solid]) (by simp) (by simp)
      rw [List.append_nil, List.append_nil] at this
      rw [this]
      simp only [List.drop_nil, List.map_nil]
      rw [wordsOf]
      simp [hnil]
  | @last g w hg hne hw =>
    rw [wordsOf, dif_neg (by simp [hne])]
    have := scanWord_spec (g := g) (w := w) (x := []) hg hw (by simp) (by simp)
    rw [List.append_nil] at this
    rw [this]
    simp only [List.drop_nil]
    rw [wordsOf]
    simp
  | @cons g w sp r ws hg hne hw hsp _ ih =>
    rw [wordsOf, dif_neg (by simp)]
    have := scanWord_spec (g := g) (w := w) (x := (sp :: r).map Prod.snd) hg hw
      (by intro c hc; simp at hc; subst hc; exact hsp) (fun h => absurd h hne)
    rw [← List.map_append] at this
    rw [this]
    simp only [List.map_cons, List.drop_succ_cons, List.drop_zero, List.flatMap_cons]
    rw [ih]

/-- Words before and after a white space of one byte. -/
theorem words_join {a : List Piece} {wa : List (List Piece × Nat)} (h : Words isSpaceWord a wa)
    {sp : Piece} (hsp : isSpaceWord sp.2 = true) (h1 : sp.1.length = 1) {b : List Piece}
    {wb : List (List Piece × Nat)} (hb : Words isSpaceWord b wb) :
    Words isSpaceWord (a ++ sp :: b) (wa ++ wb) := by
  induction h with
  | @blank g hg =>
    obtain ⟨ws, hw⟩ := words_exists (g ++ sp :: b)
    have e : g ++ sp :: b = (g ++ [sp]) ++ b := by simp
    have hg' : Blank (g ++ [sp]) := by
      intro p hp
      rcases List.mem_append.1 hp with hp | hp
      · exact hg p hp
      · simp only [List.mem_singleton] at hp; subst hp; exact hsp
    rw [e] at hw ⊢
    have := words_unique (words_skip hg' hw) hb
    rw [List.nil_append, ← this]
    exact hw
  | last hg hne hw =>
    have := Words.cons hg hne hw hsp hb
    rw [h1] at this
    exact this
  | @cons g w sp' r ws hg hne hw hsp' _ ih =>
    have := Words.cons hg hne hw hsp' ih
    simpa using this

theorem ascii_char (b : UInt8) (hb : b.toNat < 128) :
    String.utf8EncodeChar (Char.ofNat b.toNat) = [b] := by
  have e : (Char.ofNat b.toNat).toNat = b.toNat := by
    have : b.toNat.isValidChar := .inl (by omega)
    simp [Char.ofNat, this, Char.toNat, Char.ofNatAux]
  rw [← JsonText.putRune_eq, JsonText.putRune_ascii (by omega), e]
  simp

theorem cut_ascii_cons (b : UInt8) (hb : b.toNat < 128) {y : Bytes} {c : List Piece} (h : Cut y c) :
    Cut (b :: y) (([b], Char.ofNat b.toNat) :: c) := by
  have := Cut.char (c := Char.ofNat b.toNat) h
  rw [ascii_char b hb] at this
  exact this

/-- Words of a file are words of its lines. -/
theorem lines_words {content : Bytes} {ls : List Bytes} (hl : Lines content ls)
    (hs : ∀ l ∈ ls, l.length < 65536) :
    ∀ {texts : List Bytes}, Extract.All₂ Chomped ls texts → ∃ ps ws, Cut content ps ∧
      Words isSpaceWord ps ws ∧ (∀ w ∈ ws, (bytes w.1).length + w.2 ≤ 65536) ∧
      ∀ letter, (texts.map text).flatMap (txtLinksOf letter) =
        ws.flatMap fun w => wordLinks letter (w.1.map Prod.snd) := by
  have line : ∀ {l t : Bytes}, Chomped l t → l.length < 65536 → ∃ ps ws, Cut l ps ∧
      Words isSpaceWord ps ws ∧ (∀ w ∈ ws, (bytes w.1).length + w.2 ≤ 65536) ∧
      ∀ letter, txtLinksOf letter (text t) = ws.flatMap fun w => wordLinks letter (w.1.map Prod.snd) := by
    intro l t hc hlen
    obtain ⟨pt, hpt⟩ := cut_exists t
    obtain ⟨ws, hws⟩ := words_exists pt
    have hlinks : ∀ letter, txtLinksOf letter (text t) =
        ws.flatMap fun w => wordLinks letter (w.1.map Prod.snd) := by
      intro letter
      rw [text_cut hpt]
      exact words_line letter hws
    have hsize : ∀ w ∈ ws, (bytes w.1).length + w.2 ≤ 65536 := by
      intro w hw
      have h1 := words_size hws w hw
      rw [cut_bytes hpt] at h1
      have h2 : t.length ≤ l.length := by
        cases hc with
        | cr => simp
        | none _ => exact Nat.le_refl _
      omega
    cases hc with
    | cr =>
      refine ⟨pt ++ [([13], Char.ofNat 13)], ws, ?_, ?_, hsize, hlinks⟩
      · exact cut_ascii hpt (by decide) (cut_ascii_cons 13 (by decide) .nil)
      · have := words_join hws (sp := ([13], Char.ofNat 13)) (by decide) rfl
          (Words.blank (white := isSpaceWord) (gap := []) (by simp))
        simpa using this
    | none _ => exact ⟨pt, ws, hpt, hws, hsize, hlinks⟩
  induction hl with
  | nil =>
    intro texts ht
    cases ht
    exact ⟨[], [], .nil, .blank (by simp), by simp, by simp⟩
  | @last l hne h10 =>
    intro texts ht
    cases ht with
    | cons h1 h2 =>
      cases h2
      obtain ⟨ps, ws, g1, g2, g3, g4⟩ := line h1 (hs _ (by simp))
      exact ⟨ps, ws, g1, g2, g3, fun letter => by simpa using g4 letter⟩
  | @cons l rest ls h10 hrest ih =>
    intro texts ht
    cases ht with
    | cons h1 h2 =>
      obtain ⟨ps, ws, g1, g2, g3, g4⟩ := line h1 (hs _ (by simp))
      obtain ⟨ps', ws', k1, k2, k3, k4⟩ := ih (fun l hl => hs l (List.mem_cons_of_mem _ hl)) h2
      refine ⟨ps ++ ([10], Char.ofNat 10) :: ps', ws ++ ws', ?_, ?_, ?_, ?_⟩
      · exact cut_ascii g1 (by decide) (cut_ascii_cons 10 (by decide) k1)
      · exact words_join g2 (sp := ([10], Char.ofNat 10)) (by decide) rfl k2
      · intro w hw
        rcases List.mem_append.1 hw with hw | hw
        · exact g3 w hw
        · exact k3 w hw
      · intro letter
        rw [List.map_cons, List.flatMap_cons, List.flatMap_append, g4 letter, k4 letter]

theorem txtTrace_urls (find : Str → List Link) : ∀ (lines : List Str) (n : Int),
    (Extract.txtTrace find (fun _ => true) n lines).map (fun l => some l.url) =
      (lines.flatMap find).map fun l => some l.url
  | [], _ => rfl
  | l :: ls, n => by
    rw [Extract.txtTrace, List.map_append, txtTrace_urls find ls, List.flatMap_cons, List.map_append,
      List.filter_eq_self.2 (fun _ _ => rfl), List.map_map]
    rfl

/-- C76: `ExtractUrls` with a callback that accepts everything and `TxtLinkSource.Extract` without a
filter find the same addresses in the same order in every file with lines shorter than 65536 bytes,
also if it is not UTF-8, for every way the file is cut into pieces in both cases. -/
theorem c76_same (letter : Char → Bool) (choice choice' : Nat → Nat) (content : Bytes)
    {ls : List Bytes} (hl : Lines content ls) (hs : ∀ l ∈ ls, l.length < 65536) (h0 : Heap) :
    ∃ s s' h' root cs, Loop done (wordBody choice) (start content none) (.ok s) ∧ s.error = none ∧
      Loop done (body choice') (start content none) (.ok s') ∧ s'.error = none ∧
      Extract.txtExtract (txtLinksOf letter) (fun _ => true) h0 (s'.tokens.map text) = .ok (h', root) ∧
      RepT h' (.node .unset cs) root ∧
      (extractUrls letter (fun _ => true) (s.tokens.map text)).map List.head? =
        (linksAll cs).map fun l => some l.url := by
  obtain ⟨s', h1, h2, h3⟩ := c32_lines choice' content none hl hs
  obtain ⟨ps, ws, g1, g2, g3, g4⟩ := lines_words hl hs h2
  have g2' := g2
  rw [isSpaceWord_eq] at g2'
  obtain ⟨s, k1, k2, k3⟩ := c76_words choice content none g1 g2'
  obtain ⟨h', root, cs, e, b, hp⟩ :=
    Extract.txtExtract_spec (txtLinksOf letter) (fun _ => true) h0 (s'.tokens.map text)
  obtain ⟨as, ha, hk⟩ := b.kids
  rw [if_pos g3] at k3
  refine ⟨s, s', h', root, cs, k1, k3, h1, h3, e, ?_, ?_⟩
  · simp only [RepT]
    exact ⟨as, ha, Extract.RepFs.rep _ _ hk⟩
  · have e1 : linksAll cs = Extract.txtTrace (txtLinksOf letter) (fun _ => true) 1 (s'.tokens.map text) := by
      rw [← Extract.pathsAll_links [], hp, List.map_map]
      exact List.map_id _
    have e2 : ws.takeWhile (fun w => decide ((bytes w.1).length + w.2 ≤ 65536)) = ws := by
      have := List.takeWhile_append_of_pos (l₂ := [])
        (p := fun w : List Piece × Nat => decide ((bytes w.1).length + w.2 ≤ 65536)) (l₁ := ws)
        (fun w hw => by simpa using g3 w hw)
      simpa using this
    have e3 : s.tokens.map text = ws.map fun w => w.1.map Prod.snd := by
      rw [k2, e2, List.map_map]
      refine List.map_congr_left fun w hw => ?_
      exact text_cut (words_cut g2 g1 w hw)
    rw [e1, txtTrace_urls, g4 letter, c76_all, e3, List.flatMap_map]

/-- C33 on bytes: `bufio.ScanWords` takes from the bytes of a line, also if they are not UTF-8, the
word that the loop over words takes from its characters, and leaves the same rest. -/
theorem c33_bytes (line : Bytes) :
    ∃ adv token, scanWords line true = (adv, token) ∧ adv ≤ line.length ∧
      text (token.getD []) = (scanWord (text line)).1 ∧ text (line.drop adv) = (scanWord (text line)).2 := by
  obtain ⟨ps, hp⟩ := cut_exists line
  rw [text_cut hp]
  rcases pieces_cases ps with ⟨g, w, sp, r, rfl, hg, hne, hw, hsp⟩ | ⟨g, w, rfl, hg, hw⟩
  · have h1 := scanWords_some hp hg hne hw hsp true
    have h2 := scanWord_spec (x := (sp :: r).map Prod.snd) hg hw
      (by intro c hc; simp at hc; subst hc; exact hsp) (fun h => absurd h hne)
    rw [← List.map_append, List.append_assoc] at h2
    have hlen : line.length = (bytes g).length + ((bytes w).length + (sp.1.length + (bytes r).length)) := by
      rw [← cut_bytes hp, bytes_append, bytes_append, bytes_cons]
      simp only [List.length_append]
    have e : g ++ (w ++ sp :: r) = (g ++ w ++ [sp]) ++ r := by simp
    have hr : Cut (bytes r) r := by rw [e] at hp; exact cut_append hp
    have hd : line.drop ((bytes g).length + (bytes w).length + sp.1.length) = bytes r := by
      rw [e] at hp
      rw [← drop_bytes hp]
      congr 1
      rw [bytes_append, bytes_append, List.length_append, List.length_append]
      simp [bytes]
    refine ⟨_, _, h1, by omega, ?_, ?_⟩
    · rw [h2, Option.getD_some, text_cut (cut_take (cut_append hp))]
    · rw [hd, h2, text_cut hr]; simp
  · have h2 := scanWord_spec (x := []) hg hw (by simp) (by simp)
    rw [List.append_nil] at h2
    rw [h2]
    by_cases hne : w = []
    · subst hne
      refine ⟨_, _, scanWords_none hp hg hw true (.inr rfl), ?_, rfl, ?_⟩
      · rw [← cut_bytes hp, bytes_append, List.length_append]; omega
      · rw [drop_bytes hp]; rfl
    · refine ⟨_, _, scanWords_last hp hg hw hne, Nat.le_refl _, ?_, ?_⟩
      · rw [Option.getD_some, text_cut (cut_append hp)]
      · simp [text, runes]

/-- Hypotheses of C76 are met by a file that is not UTF-8, with a white space of three bytes. -/
example : ∃ ps ws, Cut [0x61, 0xFF, 0xE2, 0x80, 0x83, 0x62, 0x0A] ps ∧ Words white ps ws ∧
    ws.map (fun w => (bytes w.1, w.2)) = [([0x61, 0xFF], 3), ([0x62], 1)] := by
  have h0 : ∀ c, ¬String.utf8EncodeChar c <+: [0xFF, 0xE2, 0x80, 0x83, 0x62, 0x0A] := by
    intro c hc
    have := getRune_char hc
    rw [show JsonText.getRune [0xFF, 0xE2, 0x80, 0x83, 0x62, 0x0A] = (Char.ofNat 0xFFFD, 1) by decide] at this
    simp only [Prod.mk.injEq] at this
    rw [← this.1] at this
    exact absurd this.2 (by decide)
  refine ⟨_, _, cut_ascii_cons 0x61 (by decide) (.bad h0 (Cut.char (c := Char.ofNat 0x2003)
    (cut_ascii_cons 0x62 (by decide) (cut_ascii_cons 0x0A (by decide) .nil)))),
    .cons (gap := []) (word := [_, _]) (space := _) (by simp) (by simp) ?_ ?_
      (.cons (gap := []) (word := [_]) (space := _) (by simp) (by simp) ?_ ?_ (.blank (gap := []) (by simp))),
    ?_⟩ <;> decide

/-- An address in each of two words; a callback that refuses the first one is offered the second. -/
example : (extractUrls Links.ascii (fun _ => false)
      ["a.org,b.org".toList, "c.org".toList]).map List.head? =
    [some "a.org".toList, some "c.org".toList] := by
  decide +kernel

end Burl.Scan
