import Verif.Rpc.Props
/-! Requests are never misread: whatever part of the input arrives, in whatever portions, and
whatever white space follows the values, those served are a beginning of those sent (C08). -/
namespace Burl.Rpc
open Burl.Frame Burl.Frame.Spec Burl.Rpc.Spec

/-- A single `Read`: some bytes of the frame. -/
theorem Reader.read_any (r : Reader) (k : Nat) :
    ∃ m sched' e, m ≤ r.n ∧ m ≤ r.src.data.length ∧
      r.read k = (⟨⟨r.src.data.drop m, sched', r.src.fin⟩, r.n - m⟩, r.src.data.take m, e) := by
  by_cases hn : r.n = 0
  · exact ⟨0, r.src.sched, some .eof, by omega, by omega, by rw [Reader.read_zero r k hn]; simp⟩
  by_cases hk : k = 0
  · refine ⟨0, r.src.sched, none, by omega, by omega, ?_⟩
    unfold Reader.read
    rw [if_neg hn, if_pos hk]; simp
  by_cases hd : r.src.data = []
  · refine ⟨0, r.src.sched, some r.src.fin, by omega, by omega, ?_⟩
    rw [Reader.read_end r k (by omega) (by omega) hd]; simp
  · obtain ⟨m, sched', h1, h2, h3, h4⟩ := Reader.read_pos r k (by omega) (by omega) hd
    exact ⟨m, sched', none, h2, h3, h4⟩

theorem scanBuf_more {σ : Type} {sc : Scanner σ} {s s' : σ} {a : Bytes} (h : scanBuf sc s a = .more s')
    (b : Bytes) : scanBuf sc s (a ++ b) = match scanBuf sc s' b with
      | .done k => .done (a.length + k)
      | r => r := by
  induction a generalizing s with
  | nil =>
    simp only [scanBuf, ScanRes.more.injEq] at h
    subst h
    simp only [List.nil_append, List.length_nil, Nat.zero_add]
    split <;> simp_all
  | cons c a ih =>
    rw [scanBuf] at h
    rw [List.cons_append, scanBuf]
    cases hs : sc.step s c with
    | more t =>
      rw [hs] at h
      simp only at h ⊢
      cases ha : scanBuf sc t a with
      | more u =>
        rw [ha] at h
        simp only [ScanRes.more.injEq] at h
        subst h
        rw [ih ha]
        cases scanBuf sc u b <;> simp only [List.length_cons]
        congr 1; omega
      | done n => rw [ha] at h; simp at h
      | bad => rw [ha] at h; simp at h
    | last => rw [hs] at h; simp at h
    | stop => rw [hs] at h; simp at h
    | bad => rw [hs] at h; simp at h

theorem scanBuf_done {σ : Type} {sc : Scanner σ} {s : σ} {a : Bytes} {k : Nat}
    (h : scanBuf sc s a = .done k) (b : Bytes) : scanBuf sc s (a ++ b) = .done k := by
  induction a generalizing s k with
  | nil => simp [scanBuf] at h
  | cons c a ih =>
    rw [scanBuf] at h
    rw [List.cons_append, scanBuf]
    cases hs : sc.step s c with
    | more t =>
      rw [hs] at h
      simp only at h ⊢
      cases ha : scanBuf sc t a with
      | more u => rw [ha] at h; simp at h
      | done n => rw [ha] at h; rw [ih ha]; exact h
      | bad => rw [ha] at h; simp at h
    | last => rw [hs] at h; exact h
    | stop => rw [hs] at h; exact h
    | bad => rw [hs] at h; exact h

theorem scanBuf_le {σ : Type} {sc : Scanner σ} {s : σ} {a : Bytes} {k : Nat}
    (h : scanBuf sc s a = .done k) : k ≤ a.length := by
  induction a generalizing s k with
  | nil => simp [scanBuf] at h
  | cons c a ih =>
    rw [scanBuf] at h
    cases hs : sc.step s c with
    | more t =>
      rw [hs] at h
      simp only at h
      cases ha : scanBuf sc t a with
      | more u => rw [ha] at h; simp at h
      | done n =>
        rw [ha] at h
        simp only [ScanRes.done.injEq] at h
        have := ih ha
        simp only [List.length_cons]; omega
      | bad => rw [ha] at h; simp at h
    | last => rw [hs] at h; simp only [ScanRes.done.injEq] at h; simp only [List.length_cons]; omega
    | stop => rw [hs] at h; simp only [ScanRes.done.injEq] at h; omega
    | bad => rw [hs] at h; simp at h

/-- What the decoder returns is a beginning of its buffer and the rest of the frame: up to the end
of the value found by the scanner, or up to the end of the input if the value may end there. -/
theorem readValue_sound {σ : Type} (sc : Scanner σ) (s0 : σ) :
    ∀ (fuel : Nat) (s : σ) (n : Nat) (err : Option SrcErr) (d d' : Decoder) (r r' : Reader) (x : Bytes),
    n ≤ d.buf.length → scanBuf sc s0 (d.buf.take n) = .more s →
    readValue sc fuel s n err d r = (d', r', .ok x) →
    x ++ (d'.buf ++ r'.src.data.take r'.n) = d.buf ++ r.src.data.take r.n ∧
    (∃ j, j ≤ r.n ∧ j ≤ r.src.data.length ∧ r'.src.data = r.src.data.drop j ∧ r'.n = r.n - j ∧
      r'.src.fin = r.src.fin) ∧
    (scanBuf sc s0 (d.buf ++ r.src.data.take r.n) = .done x.length ∨
      ∃ s', scanBuf sc s0 x = .more s' ∧ sc.step s' 32 = .stop) := by
  intro fuel
  induction fuel with
  | zero => intro s n err d d' r r' x _ _ h; simp [readValue] at h
  | succ fuel ih =>
    intro s n err d d' r r' x hn hs h
    have hsplit : scanBuf sc s0 d.buf = match scanBuf sc s (d.buf.drop n) with
        | .done k => .done (n + k)
        | r => r := by
      have := scanBuf_more hs (d.buf.drop n)
      rw [List.take_append_drop, List.length_take, Nat.min_eq_left hn] at this
      exact this
    rw [readValue] at h
    cases hb : scanBuf sc s (d.buf.drop n) with
    | bad => rw [hb] at h; simp at h
    | done k =>
      rw [hb] at h hsplit
      simp only [Prod.mk.injEq, Except.ok.injEq] at h hsplit
      obtain ⟨rfl, rfl, rfl⟩ := h
      have hle := scanBuf_le hsplit
      refine ⟨?_, ⟨0, by omega, by omega, by simp, by simp, rfl⟩, .inl ?_⟩
      · rw [← List.append_assoc, List.take_append_drop]
      · rw [scanBuf_done hsplit, List.length_take, Nat.min_eq_left hle]
    | more s' =>
      rw [hb] at h hsplit
      simp only at h hsplit
      match err, h with
      | some .eof, h =>
        simp only at h
        split at h
        · rename_i hst
          simp only [Prod.mk.injEq, Except.ok.injEq] at h
          obtain ⟨rfl, rfl, rfl⟩ := h
          refine ⟨by simp, ⟨0, by omega, by omega, by simp, by simp, rfl⟩, .inr ⟨s', hsplit, hst⟩⟩
        · simp at h
      | some (.io c), h => simp at h
      | none, h =>
        simp only [Decoder.refill] at h
        obtain ⟨m, sched', e, h1, h2, h3⟩ := Reader.read_any r
          ((if d.cap - d.buf.length < 512 then 2 * d.cap + 512 else d.cap) - d.buf.length)
        rw [h3] at h
        simp only at h
        obtain ⟨g1, ⟨j, g2, g3, g4, g5, g6⟩, g7⟩ := ih s' d.buf.length e _ d' _ r' x
          (by simp only [List.length_append]; omega) (by simp only [List.take_left]; exact hsplit) h
        simp only at g1 g2 g3 g4 g5 g6 g7
        have he : d.buf ++ r.src.data.take m ++ (r.src.data.drop m).take (r.n - m) =
            d.buf ++ r.src.data.take r.n := by
          rw [List.append_assoc]
          congr 1
          have := List.take_add (l := r.src.data) (i := m) (j := r.n - m)
          rw [← this]; congr 1; omega
        rw [he] at g1 g7
        refine ⟨g1, ⟨m + j, by omega, ?_, ?_, by omega, g6⟩, g7⟩
        · rw [List.length_drop] at g3; omega
        · rw [g4, List.drop_drop]

/-! ### The scanner of JSON -/

/-- A value that is not a bracketed one has begun at the top level. -/
def Bare (s : JState) : Prop := s.ctx = [] ∧ s.fn ≠ .beginValue ∧ s.fn ≠ .beginValueOrEmpty

theorem bare_never {s : JState} {v : Bytes} (hs : Bare s) : ¬Completes json s v := by
  have step : ∀ (s : JState) (b : UInt8), Bare s → jsonStep s b ≠ .last ∧
      ∀ s', jsonStep s b = .more s' → Bare s' := by
    rintro ⟨fn, ctx⟩ b ⟨h1, h2, h3⟩
    simp only at h1 h2 h3
    subst h1
    unfold Bare
    cases fn with
    | lit cs =>
      cases cs with
      | nil => simp [jsonStep, stepEndValue]
      | cons c cs =>
        simp only [jsonStep]
        split
        · refine ⟨by simp, fun s' h => ?_⟩
          simp only [Out.more.injEq] at h
          subst h
          simp only
          refine ⟨trivial, ?_, ?_⟩ <;> (split <;> simp)
        · simp
    | beginValue => exact absurd rfl h2
    | beginValueOrEmpty => exact absurd rfl h3
    | _ =>
      simp only [jsonStep, stepEndValue, stepBeginString, stepZero, stepESign]
      refine ⟨?_, fun s' h => ?_⟩
      · repeat' split
        all_goals simp
      · repeat' split at h
        all_goals (first | (simp only [Out.more.injEq] at h; subst h; simp) | (simp at h))
  intro h
  induction h with
  | last h => exact (step _ _ hs).1 h
  | more h _ ih => exact ih ((step _ _ hs).2 _ h)

theorem not_stop {s : JState} {v : Bytes} (h : Completes json s v) : json.step s 32 ≠ .stop := by
  by_cases hb : Bare s
  · exact absurd h (bare_never hb)
  · obtain ⟨fn, ctx⟩ := s
    unfold Bare at hb
    simp only [json]
    by_cases h1 : fn = .beginValue
    · subst h1; simp [jsonStep, stepBeginValue, isSpace]
    by_cases h2 : fn = .beginValueOrEmpty
    · subst h2; simp [jsonStep, isSpace]
    cases ctx with
    | nil => exact absurd ⟨rfl, h1, h2⟩ hb
    | cons c ctx =>
      have hend : stepEndValue (c :: ctx) 32 ≠ .stop := by simp [stepEndValue, isSpace]
      cases fn with
      | lit cs =>
        cases cs with
        | nil => simpa [jsonStep] using hend
        | cons c cs => simp only [jsonStep]; split <;> simp
      | endTop =>
        cases h with
        | last h => simp [json, jsonStep] at h
        | more h _ => simp [json, jsonStep] at h
      | _ =>
        simp only [jsonStep, stepBeginString, stepZero, stepESign]
        repeat' split
        all_goals (first | exact hend | simp)
        all_goals simp_all [isSpace]

/-! ### Sessions -/

theorem readValue_exact {lead v t p rest : Bytes} (hc : Completes json json.start (lead ++ v))
    (hp : p ++ rest = v ++ t) {fuel cap : Nat} {r r' : Reader} {d' : Decoder} {x : Bytes}
    (hr : r.src.data.take r.n = p)
    (h : readValue json fuel json.start 0 none ⟨lead, cap⟩ r = (d', r', .ok x)) :
    x = lead ++ v ∧ d'.buf ++ r'.src.data.take r'.n = p.drop v.length ∧ v.length ≤ p.length ∧
      ∃ j, j ≤ r.n ∧ j ≤ r.src.data.length ∧ r'.src.data = r.src.data.drop j ∧ r'.n = r.n - j ∧
        r'.src.fin = r.src.fin := by
  obtain ⟨h1, h2, h3⟩ := readValue_sound json json.start fuel json.start 0 none _ _ _ _ _
    (by simp) (by simp [scanBuf]) h
  rw [hr] at h1 h3
  simp only at h1 h3
  have hx : x ++ (d'.buf ++ r'.src.data.take r'.n ++ rest) = (lead ++ v) ++ t := by
    rw [← List.append_assoc, h1, List.append_assoc, hp, List.append_assoc]
  have hF : (lead ++ p) ++ rest = (lead ++ v) ++ t := by
    rw [List.append_assoc, hp, List.append_assoc]
  have hlen : x.length = (lead ++ v).length ∧ (lead ++ v).length ≤ (lead ++ p).length := by
    rcases h3 with h3 | ⟨s', h3, h4⟩
    · obtain ⟨g1, g2⟩ := hc.scan (lead ++ p) rest t hF
      rcases Nat.lt_or_ge (lead ++ p).length (lead ++ v).length with hl | hl
      · obtain ⟨s', v', g3, -⟩ := g1 hl
        rw [g3] at h3; simp at h3
      · rw [g2 hl] at h3
        simp only [ScanRes.done.injEq] at h3
        exact ⟨h3.symm, hl⟩
    · obtain ⟨g1, g2⟩ := hc.scan x _ t hx
      rcases Nat.lt_or_ge x.length (lead ++ v).length with hl | hl
      · obtain ⟨s'', v', g3, -, g4⟩ := g1 hl
        rw [g3] at h3
        simp only [ScanRes.more.injEq] at h3
        subst h3
        exact absurd h4 (not_stop g4)
      · rw [g2 hl] at h3; simp at h3
  have hxe : x = lead ++ v := (List.append_inj hx hlen.1).1
  refine ⟨hxe, ?_, by simpa using hlen.2, h2⟩
  rw [hxe, List.append_assoc] at h1
  have h1 := List.append_cancel_left h1
  rw [← h1, List.drop_left]

theorem prefix_append {α : Type} {a b c : List α} (h : a <+: b ++ c) :
    (∃ d, b = a ++ d ∧ d ≠ []) ∨ ∃ d, a = b ++ d ∧ d <+: c := by
  obtain ⟨e, h⟩ := h
  rcases List.append_eq_append_iff.1 h with ⟨d, h1, h2⟩ | ⟨d, h1, h2⟩
  · cases d with
    | nil =>
      refine .inr ⟨[], by simpa using h1.symm, ?_⟩
      exact List.nil_prefix
    | cons x d => exact .inl ⟨x :: d, h1, by simp⟩
  · exact .inr ⟨d, h1, ⟨e, h2.symm⟩⟩

theorem serve_beginning (accept : Bytes → Bool) (fin : SrcErr) (ms : List (Bytes × Bytes))
    (fuel cap : Nat) (lead data : Bytes) (sched : List Nat) (hlead : lead.all isSpace = true)
    (hm : ∀ m ∈ ms, Completes json json.start m.1 ∧ m.2.all isSpace = true ∧
      m.1.length + m.2.length < 2 ^ 32)
    (hd : data <+: stream (ms.map fun m => m.1 ++ m.2)) :
    (serve json accept fuel ⟨lead, cap⟩ ⟨⟨data, sched, fin⟩, 0⟩).1 <+: withLead lead ms := by
  induction ms generalizing fuel cap lead data sched with
  | nil =>
    have : data = [] := by simpa [stream] using hd
    subst this
    cases fuel with
    | zero => simp [serve]
    | succ fuel =>
      obtain ⟨s', hh⟩ := readHeader_short ⟨⟨[], sched, fin⟩, 0⟩ rfl (by simp)
      simp only [serve, hh]
      exact List.nil_prefix
  | cons m ms ih =>
    obtain ⟨v, t⟩ := m
    cases fuel with
    | zero => simp [serve]
    | succ fuel =>
    obtain ⟨h1, h2, h3⟩ := hm (v, t) (by simp)
    simp only at h1 h2 h3
    have hvt : (v ++ t).length = v.length + t.length := by simp
    have hstream : stream (((v, t) :: ms).map fun m => m.1 ++ m.2) =
        le32 (v ++ t).length ++ ((v ++ t) ++ stream (ms.map fun m => m.1 ++ m.2)) := by
      simp [stream, frame]
    rw [hstream] at hd
    rcases prefix_append hd with ⟨d, hd, hne⟩ | ⟨data', rfl, hd'⟩
    · have hl := congrArg List.length hd
      have := List.length_pos_iff.2 hne
      rw [le32_length, List.length_append] at hl
      obtain ⟨s', hh⟩ := readHeader_short ⟨⟨data, sched, fin⟩, 0⟩ rfl (by simp only; omega)
      simp only [serve, hh]
      exact List.nil_prefix
    · obtain ⟨s', hh⟩ := readHeader_ok ⟨⟨le32 (v ++ t).length ++ data', sched, fin⟩, 0⟩ rfl
        (v ++ t).length data' (by omega) rfl
      split at hh
      · simp only [serve, hh]
        exact List.nil_prefix
      rw [serve, hh]
      simp only
      have hp : ∃ rest, data'.take (v ++ t).length ++ rest = v ++ t := by
        rcases prefix_append hd' with ⟨d, hd, -⟩ | ⟨d, rfl, -⟩
        · refine ⟨d, ?_⟩
          rw [List.take_of_length_le (by rw [hd, List.length_append]; omega)]
          exact hd.symm
        · exact ⟨[], by rw [List.append_nil, List.take_left]⟩
      obtain ⟨rest, hp⟩ := hp
      rcases hrv : readValue json ((v ++ t).length + 3) json.start 0 none ⟨lead, cap⟩
          ⟨⟨data', s', fin⟩, (v ++ t).length⟩ with ⟨d1, r1, res⟩
      cases res with
      | error e => exact List.nil_prefix
      | ok x =>
        simp only
        obtain ⟨rfl, g2, g3, j, g4, g5, g6, g7, g8⟩ := readValue_exact (completes_lead h1 lead hlead) hp
          (by rfl) hrv
        simp only at g4 g5 g6 g7 g8
        split
        · rw [withLead]
          refine List.cons_prefix_cons.2 ⟨rfl, ?_⟩
          by_cases hz : r1.n = 0
          · have hj : j = (v ++ t).length := by omega
            subst hj
            have hfull : ∃ d, data' = (v ++ t) ++ d ∧ d <+: stream (ms.map fun m => m.1 ++ m.2) := by
              rcases prefix_append hd' with ⟨d, hd, hne⟩ | h
              · have := List.length_pos_iff.2 hne
                rw [hd, List.length_append] at g5
                omega
              · exact h
            obtain ⟨d, rfl, hd2⟩ := hfull
            rw [hz] at g2
            simp only [List.take_zero, List.append_nil, List.take_left] at g2
            rw [List.drop_left] at g2
            rw [List.drop_left] at g6
            obtain ⟨⟨data1, sched1, fin1⟩, n1⟩ := r1
            obtain ⟨buf1, cap1⟩ := d1
            simp only at g2 g6 g8 hz
            subst g2 g6 g8 hz
            exact ih fuel cap1 _ _ sched1 h2 (fun m hm' => hm m (by simp [hm'])) hd2
          · cases fuel with
            | zero => simp [serve]
            | succ fuel =>
              rw [serve, c03_unread_refused _ hz]
              exact List.nil_prefix
        · exact List.nil_prefix

/-- C08: whatever part of the input arrives, in whatever portions, and however long the requests
are, those that are served are a beginning of those that have been sent; white space after a request
precedes the next one.  So a request is never misread. -/
theorem c08_beginning (accept : Bytes → Bool) (fin : SrcErr) (ms : List (Bytes × Bytes))
    (hm : ∀ m ∈ ms, Completes json json.start m.1 ∧ m.2.all isSpace = true ∧
      m.1.length + m.2.length < 2 ^ 32)
    {data : Bytes} (hd : data <+: stream (ms.map fun m => m.1 ++ m.2)) (sched : List Nat) :
    (session json accept ⟨data, sched, fin⟩).1 <+: withLead [] ms :=
  serve_beginning accept fin ms _ 0 [] data sched rfl hm hd

/-- Two requests with newlines; the last byte has not arrived. -/
example : (∀ m ∈ [(bytesOf "{}", ([10] : Bytes)), (bytesOf "{\"id\":1}", [10])],
      Completes json json.start m.1 ∧ m.2.all isSpace = true ∧ m.1.length + m.2.length < 2 ^ 32) ∧
    (stream ([(bytesOf "{}", ([10] : Bytes)), (bytesOf "{\"id\":1}", [10])].map fun m => m.1 ++ m.2)).take 19
      <+: stream ([(bytesOf "{}", ([10] : Bytes)), (bytesOf "{\"id\":1}", [10])].map fun m => m.1 ++ m.2) ∧
    (session json (fun _ => true) ⟨(stream ([(bytesOf "{}", ([10] : Bytes)),
      (bytesOf "{\"id\":1}", [10])].map fun m => m.1 ++ m.2)).take 19, [4, 3, 1], .eof⟩).1 =
        [bytesOf "{}", 10 :: bytesOf "{\"id\":1}"] := by
  refine ⟨fun m hm => ?_, List.take_prefix _ _, by decide +kernel⟩
  simp only [List.mem_cons, List.not_mem_nil, or_false] at hm
  rcases hm with rfl | rfl
  · exact ⟨completes_obj [] (by decide), by decide, by decide⟩
  · refine ⟨?_, by decide, by decide⟩
    have := completes_obj [((bytesOf "id").map .plain, Json.num ⟨false, bytesOf "1", [], none, false⟩)]
      (by decide +kernel)
    exact this

end Burl.Rpc
