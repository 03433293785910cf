import Verif.Regex.HeadLemmas
import Verif.Regex.LetterLemmas
/-! The first match: greedy and lazy loops, and the sequence of matches of a line. -/
namespace Burl.Regex

/-- A list of equal elements. -/
theorem head?_of_all_eq {α : Type} {l : List α} {a : α} (h : ∀ x ∈ l, x = a) (hm : a ∈ l) :
    l.head? = some a := by
  cases l with
  | nil => simp at hm
  | cons x xs => rw [h x (by simp)]; rfl

/-- The next step begins at the only possible state. -/
theorem head?_flatMap_det {α β : Type} {l : List α} {a : α} {f : α → List β} {x : β}
    (h : ∀ y ∈ l, f y ≠ [] → y = a) (hm : a ∈ l) (hx : (f a).head? = some x) :
    (l.flatMap f).head? = some x := by
  induction l with
  | nil => simp at hm
  | cons y ys ih =>
    rw [List.flatMap_cons, List.head?_append]
    by_cases hy : f y = []
    · rw [hy]
      simp only [List.head?_nil, Option.none_or]
      apply ih (fun z hz => h z (by simp [hz]))
      rcases List.mem_cons.1 hm with rfl | hm
      · rw [hy] at hx; simp at hx
      · exact hm
    · have := h y (by simp) hy
      subst this
      rw [hx]; rfl

/-- A greedy loop over known parts of the text, followed by something that fails before each part but
the last one, and succeeds before the last one only. -/
theorem greedy_head {U : Str → Prop} {f k : St → List St} {e r : Str}
    {caps : List (Nat × Str)} {x : List Char → St}
    (hf : ∀ pre u t, U u → f ⟨pre, u ++ t, caps⟩ = [⟨u.reverse ++ pre, t, caps⟩])
    (hU : ∀ u, U u → u ≠ [])
    (hend : ∀ pre, f ⟨pre, r, caps⟩ = []) (hk0 : ∀ pre, k ⟨pre, r, caps⟩ = [])
    (hk1 : ∀ pre, k ⟨pre, e ++ r, caps⟩ = [x pre]) (he : U e) :
    ∀ {us : List Str} {n : Nat} {pre : List Char}, us.length + 1 ≤ n → (∀ u ∈ us, U u) →
      ((loop false f n ⟨pre, us.flatten ++ (e ++ r), caps⟩).flatMap k).head? =
        some (x (us.flatten.reverse ++ pre)) := by
  intro us
  induction us with
  | nil =>
    intro n pre hn _
    obtain ⟨m, rfl⟩ : ∃ m, n = m + 1 := ⟨n - 1, by omega⟩
    have hl : loop false f m ⟨e.reverse ++ pre, r, caps⟩ = [⟨e.reverse ++ pre, r, caps⟩] := by
      cases m with
      | zero => rfl
      | succ m => simp [loop, hend]
    have hlt : decide (r.length < (e ++ r).length) = true := by
      have := List.length_pos_iff.2 (hU e he)
      simp; omega
    simp only [loop, List.flatten_nil, List.nil_append, hf _ _ _ he, List.filter, hlt]
    simp [hl, hk0, hk1]
  | cons c us ih =>
    intro n pre hn hw
    obtain ⟨m, rfl⟩ : ∃ m, n = m + 1 := ⟨n - 1, by omega⟩
    have := ih (n := m) (pre := c.reverse ++ pre) (by simp at hn; omega) fun d hd => hw d (by simp [hd])
    have hlt : decide ((us.flatten ++ (e ++ r)).length < (c ++ (us.flatten ++ (e ++ r))).length) =
        true := by
      have := List.length_pos_iff.2 (hU c (hw c (by simp)))
      simp; omega
    simp only [loop, List.flatten_cons, List.append_assoc, hf _ _ _ (hw c (by simp)), List.filter, hlt]
    rw [if_neg (by decide), List.flatMap_append, List.head?_append]
    simp only [List.flatMap_cons, List.flatMap_nil, List.append_nil] at this ⊢
    rw [this]
    simp

/-- A greedy loop over known parts of the text, followed by something that fails before each of
them. -/
theorem greedy_all {U : Str → Prop} {f k : St → List St} {r : Str} {caps : List (Nat × Str)}
    (hf : ∀ pre u t, U u → f ⟨pre, u ++ t, caps⟩ = [⟨u.reverse ++ pre, t, caps⟩])
    (hU : ∀ u, U u → u ≠ []) (hend : ∀ pre, f ⟨pre, r, caps⟩ = [])
    (hk : ∀ pre u t, U u → k ⟨pre, u ++ t, caps⟩ = []) :
    ∀ {us : List Str} {n : Nat} {pre : List Char}, us.length ≤ n → (∀ u ∈ us, U u) →
      (loop false f n ⟨pre, us.flatten ++ r, caps⟩).flatMap k =
        k ⟨us.flatten.reverse ++ pre, r, caps⟩ := by
  intro us
  induction us with
  | nil =>
    intro n pre _ _
    cases n with
    | zero => simp [loop]
    | succ m => simp [loop, hend]
  | cons c us ih =>
    intro n pre hn hw
    obtain ⟨m, rfl⟩ : ∃ m, n = m + 1 := ⟨n - 1, by simp at hn; omega⟩
    have := ih (n := m) (pre := c.reverse ++ pre) (by simp at hn; omega) fun d hd => hw d (by simp [hd])
    have hlt : decide ((us.flatten ++ r).length < (c ++ (us.flatten ++ r)).length) =
        true := by
      have := List.length_pos_iff.2 (hU c (hw c (by simp)))
      simp; omega
    simp only [loop, List.flatten_cons, List.append_assoc, hf _ _ _ (hw c (by simp)), List.filter, hlt]
    rw [if_neg (by decide), List.flatMap_append]
    simp only [List.flatMap_cons, List.flatMap_nil, List.append_nil]
    rw [this, hk _ _ _ (hw c (by simp))]
    simp

/-- A lazy loop stops at the first place where what follows succeeds. -/
theorem lazy_head {f k : St → List St} {r : Str} {caps : List (Nat × Str)} {x : St}
    (hf : ∀ pre c t, f ⟨pre, c :: t, caps⟩ = [⟨c :: pre, t, caps⟩]) :
    ∀ {w : Str} {n : Nat} {pre : List Char}, w.length ≤ n →
      (∀ a b, w = a ++ b → b ≠ [] → ∀ pre, k ⟨pre, b ++ r, caps⟩ = []) →
      (k ⟨w.reverse ++ pre, r, caps⟩).head? = some x →
      ((loop true f n ⟨pre, w ++ r, caps⟩).flatMap k).head? = some x := by
  intro w
  induction w with
  | nil =>
    intro n pre _ _ hx
    cases n with
    | zero => simpa [loop] using hx
    | succ n =>
      simp only [loop, if_pos, List.nil_append, List.flatMap_cons, List.head?_append]
      simp only [List.reverse_nil, List.nil_append] at hx
      rw [hx]
      rfl
  | cons c w ih =>
    intro n pre hn hw hx
    obtain ⟨m, rfl⟩ : ∃ m, n = m + 1 := ⟨n - 1, by simp at hn; omega⟩
    have := ih (n := m) (pre := c :: pre) (by simp at hn; omega)
      (fun a b e => hw (c :: a) b (by rw [e]; rfl)) (by simpa using hx)
    have h0 := hw [] (c :: w) rfl (by simp) pre
    simp only [List.cons_append] at h0
    have hlt : decide ((w ++ r).length < (c :: (w ++ r)).length) = true := by simp
    simp only [loop, List.cons_append, hf, List.filter, hlt, if_pos]
    rw [List.flatMap_cons, h0]
    simpa using this

/-- Nothing matches inside of a text. -/
def Silent (letter : Char → Bool) (r : Re) (pre : List Char) (t rest : Str) : Prop :=
  ∀ a c b, t = a ++ c :: b → run letter r ⟨a.reverse ++ pre, c :: b ++ rest, []⟩ = []

theorem findFrom_skip {letter : Char → Bool} {r : Re} {t rest : Str} :
    ∀ {pre : List Char}, Silent letter r pre t rest →
      findFrom letter r pre (t ++ rest) = findFrom letter r (t.reverse ++ pre) rest := by
  induction t with
  | nil => intro pre _; rfl
  | cons c t ih =>
    intro pre h
    have h0 := h [] c t rfl
    simp only [List.reverse_nil, List.nil_append, List.cons_append] at h0
    simp only [List.cons_append, findFrom, h0]
    rw [ih (pre := c :: pre)]
    · simp
    · intro a d b e
      have := h (c :: a) d b (by rw [e]; rfl)
      simpa using this

theorem findFrom_here {letter : Char → Bool} {r : Re} {pre : List Char} {rest : Str} {s' : St}
    (h : (run letter r ⟨pre, rest, []⟩).head? = some s') :
    findFrom letter r pre rest = some (⟨pre, rest, []⟩, s') := by
  cases hr : run letter r ⟨pre, rest, []⟩ with
  | nil => rw [hr] at h; simp at h
  | cons x xs =>
    rw [hr] at h
    simp only [List.head?_cons, Option.some.injEq] at h
    subst h
    cases rest <;> simp only [findFrom, hr]

/-- The next match of a line. -/
theorem findAllFrom_next {letter : Char → Bool} {r : Re} {n : Nat} {pre : List Char}
    {t item rest : Str} {caps : List (Nat × Str)} {pe : Option Nat}
    (hs : Silent letter r pre t (item ++ rest)) (hi : item ≠ [])
    (h : (run letter r ⟨t.reverse ++ pre, item ++ rest, []⟩).head? =
      some ⟨item.reverse ++ (t.reverse ++ pre), rest, caps⟩) :
    findAllFrom letter r (n + 1) pre (t ++ (item ++ rest)) pe =
      ⟨t.reverse ++ pre, item, caps⟩ ::
        findAllFrom letter r n (item.reverse ++ (t.reverse ++ pre)) rest
          (some (item.reverse ++ (t.reverse ++ pre)).length) := by
  have hlen : 0 < item.length := by cases item <;> simp_all
  simp only [findAllFrom, findFrom_skip hs, findFrom_here h]
  rw [if_neg (by simp; omega)]
  have : mkMatch ⟨t.reverse ++ pre, item ++ rest, []⟩
      ⟨item.reverse ++ (t.reverse ++ pre), rest, caps⟩ = ⟨t.reverse ++ pre, item, caps⟩ := by
    unfold mkMatch
    rw [Moves.between (w := item) ⟨rfl, rfl⟩]
  rw [this]

/-- No more matches. -/
theorem findAllFrom_end {letter : Char → Bool} {r : Re} {n : Nat} {pre : List Char} {t : Str}
    {pe : Option Nat} (hs : Silent letter r pre t [])
    (h : run letter r ⟨t.reverse ++ pre, [], []⟩ = []) :
    findAllFrom letter r n pre t pe = [] := by
  cases n with
  | zero => rfl
  | succ n =>
    have : findFrom letter r pre t = none := by
      have := findFrom_skip hs
      rw [List.append_nil] at this
      rw [this]
      simp only [findFrom, h]
    simp only [findAllFrom, this]

/-- The character is not in any of the sets of the expression. -/
def avoids (c : Char) : Re → Bool
  | .lit d => d != c
  | .cls k => !k.has (fun _ => false) c && k.items.all (· != .letter)
  | .any => c == '\n'
  | .space neg => isSpace c == neg
  | .cat a b => avoids c a && avoids c b
  | .alt a b => avoids c a && avoids c b
  | .star _ r => avoids c r
  | .plus _ r => avoids c r
  | .opt _ r => avoids c r
  | .rep _ _ r => avoids c r
  | .group _ r => avoids c r
  | _ => true

/-- Text with one character of a kind excluded. -/
def Without (c : Char) (s s' : St) : Prop := ∃ w, Moves s s' w ∧ c ∉ w

theorem Without.refl (c : Char) (s : St) : Without c s s := ⟨[], .refl s, by simp⟩

theorem Without.trans {c : Char} {s t u : St} (h : Without c s t) (h' : Without c t u) :
    Without c s u := by
  obtain ⟨v, h1, h2⟩ := h
  obtain ⟨w, h3, h4⟩ := h'
  exact ⟨_, h1.trans h3, by simp [h2, h4]⟩

theorem one_without {c : Char} {p : Char → Bool} (hp : p c = false) {s s' : St}
    (h : s' ∈ one p s) : Without c s s' := by
  obtain ⟨d, h1, -, h3⟩ := one_reads.1 h
  refine ⟨[d], h1, ?_⟩
  intro hc
  simp only [List.mem_singleton] at hc
  subst hc
  rw [h3 c (by simp)] at hp
  exact absurd hp (by simp)

theorem run_avoids (letter : Char → Bool) {c : Char} (r : Re) : avoids c r = true →
    ∀ {s s' : St}, s' ∈ run letter r s → Without c s s' := by
  induction r with
  | never => intro _ s s' h; simp [run] at h
  | empty => intro _ s s' h; simp [run] at h; subst h; exact .refl _ _
  | lit d =>
    intro ha s s' h
    refine one_without ?_ h
    simp only [avoids, bne_iff_ne, ne_eq] at ha
    simp [Ne.symm ha]
  | cls k =>
    intro ha s s' h
    simp only [avoids, Bool.and_eq_true, Bool.not_eq_true'] at ha
    refine one_without ?_ h
    rw [has_congr ha.2 letter fun _ => false]
    exact ha.1
  | any =>
    intro ha s s' h
    refine one_without ?_ h
    simpa [avoids] using ha
  | space k =>
    intro ha s s' h
    refine one_without ?_ h
    simp only [avoids, beq_iff_eq] at ha
    simp [ha]
  | bol =>
    intro _ s s' h; simp only [run] at h; split at h <;> simp at h; subst h; exact .refl _ _
  | eol =>
    intro _ s s' h; simp only [run] at h; split at h <;> simp at h; subst h; exact .refl _ _
  | wordB =>
    intro _ s s' h; simp only [run] at h; split at h <;> simp at h; subst h; exact .refl _ _
  | cat a b iha ihb =>
    intro ha s s' h
    simp only [avoids, Bool.and_eq_true] at ha
    obtain ⟨t, h1, h2⟩ := List.mem_flatMap.1 h
    exact (iha ha.1 h1).trans (ihb ha.2 h2)
  | alt a b iha ihb =>
    intro ha s s' h
    simp only [avoids, Bool.and_eq_true] at ha
    rcases List.mem_append.1 h with h1 | h1
    · exact iha ha.1 h1
    · exact ihb ha.2 h1
  | star lz r ih =>
    intro ha s s' h
    exact loop_induct (Without.refl _) (fun _ _ _ => Without.trans) (fun _ _ => ih ha) _ h
  | plus lz r ih =>
    intro ha s s' h
    obtain ⟨t, h1, h2⟩ := List.mem_flatMap.1 h
    exact (ih ha h1).trans
      (loop_induct (Without.refl _) (fun _ _ _ => Without.trans) (fun _ _ => ih ha) _ h2)
  | opt lz r ih =>
    intro ha s s' h
    rcases mem_opt.1 h with h1 | rfl
    · exact ih ha h1
    · exact .refl _ _
  | rep lo hi r ih =>
    intro ha s s' h
    obtain ⟨t, h1, h2⟩ := List.mem_flatMap.1 h
    exact (times_induct (Without.refl _) (fun _ _ _ => Without.trans) (fun _ _ => ih ha) _ h1).trans
      (loop_induct (Without.refl _) (fun _ _ _ => Without.trans) (fun _ _ => ih ha) _ h2)
  | group i r ih =>
    intro ha s s' h
    obtain ⟨t, h1, rfl⟩ := List.mem_map.1 h
    obtain ⟨w, h2, h3⟩ := ih ha h1
    exact ⟨w, h2, h3⟩

end Burl.Regex
