import Verif.Backend.ServeProps
/-! What the numbers in a reply to `urlMentions` are (C62). -/
namespace Burl.Backend
open Burl.Json (Json)
open Burl.Json.Spec (render renderAll nodeObj key)
open Burl.Tree.Spec (Link Props Tree Annot links linksAll Exact)
open Burl.Extract.Spec (found)
open Burl.Extract (All₂ IsFileTree withLinks fileLines Source)
open Rpc.Server (Request Answers)
open Rpc.Spec (Call)
open Spec

namespace Spec

/-- The number of links in a file that the query asks for. -/
def demandIn (e : Env) (f : Str → Bool) (src : Source) : Int :=
  ((found (e.find.of src.kind) (fun _ => true) 1 (fileLines e.files src)).filter
    fun l => f l.url).length

end Spec

theorem all₂_mem {α β : Type} {R : α → β → Prop} {as : List α} {bs : List β} (h : All₂ R as bs)
    {b : β} (hb : b ∈ bs) : ∃ a ∈ as, R a b := by
  induction h with
  | nil => cases hb
  | cons hr _ ih =>
    rcases List.mem_cons.mp hb with rfl | hb
    · exact ⟨_, by simp, hr⟩
    · obtain ⟨a, h1, h2⟩ := ih hb
      exact ⟨a, by simp [h1], h2⟩

/-- C62, exactly: a reply to `urlMentions` is an object of a group of files, and then `total` is the
number of links of all files that are asked for; or it is an object of one of the files, and then
`total` is the number of such links in this file only.  The latter is the case just if one file is
shown. -/
theorem c62_total_exact {Id : Type} {e : Env} {r : Request Id Json} {v : Json} {p : Json}
    {q : Tree.MentionsQuery} {f : Str → Bool} (hf : ∀ u, f u = true ↔ Asked q u)
    (hc : Call.urlMentions.Name r.method) (h : Answers (world e) r (.result v))
    (hp : r.params = some p) (hq : argument .urlMentions p = some (.urlMentions q)) :
    (isA "FileGroup" v = true ∧ numberOf "total" v = demand e f ∧
      (inside "File" v).length ≠ 1) ∨
    (isA "File" v = true ∧ ∃ src ∈ e.sources, member "path" v = some (.str src.name) ∧
      numberOf "total" v = demandIn e f src ∧ 0 < demandIn e f src) := by
  obtain ⟨p', arg, hp', ha, hret⟩ := answered hc h
  obtain rfl := Option.some.inj (hp.symm.trans hp')
  obtain rfl := Option.some.inj (hq.symm.trans ha)
  obtain ⟨order, hp, g, trees, h', a, hs⟩ := Returns.served hret
  obtain ⟨y, hy, hcount⟩ := Tree.c18_counts hs.orders hs.rep q hs.asks (decides hf) hs.reply
  have htot := counted_total hcount
  rw [hs.asked] at htot
  obtain ⟨n0, k0, ys, rfl, hca, -, -, hv⟩ := hs.seen hy hcount
  have hfiles := (counted_files hs.files hca).1
  simp only [Annot.total] at htot
  have hobj : ∀ (cs : List Json), isA "FileGroup" (nodeObj "FileGroup" [] cs n0 k0) = true ∧
      numberOf "total" (nodeObj "FileGroup" [] cs n0 k0) = demand e f :=
    fun cs => ⟨rfl, htot⟩
  match ys, hfiles, hca, hv with
  | [], _, _, hv =>
    rw [hv, render]
    · exact .inl ⟨(hobj _).1, (hobj _).2, by
        rw [show inside "File" (nodeObj "FileGroup" [] (renderAll []) n0 k0) = [] from rfl]; simp⟩
    · intro c hc; cases hc
  | y1 :: y2 :: ys, hfiles, _, hv =>
    rw [hv, render]
    · refine .inl ⟨(hobj _).1, (hobj _).2, ?_⟩
      cases hfiles with
      | cons _ h2 =>
      cases h2 with
      | cons _ _ =>
      simp only [renderAll, render]
      have hfile : ∀ path n k cs, inside "File" (nodeObj "File" [(key "path", .str path)] cs n k) =
          [nodeObj "File" [(key "path", .str path)] cs n k] := by
        intro path n k cs
        have hA : isA "File" (nodeObj "File" [(key "path", .str path)] cs n k) = true := rfl
        rw [nodeObj] at hA ⊢
        rw [inside, if_pos hA]
      have hgroup : ∀ cs, inside "File" (nodeObj "FileGroup" [] cs n0 k0) = insideAll "File" cs := by
        intro cs
        have hB : ¬isA "File" (nodeObj "FileGroup" [] cs n0 k0) = true := by
          rw [show isA "File" (nodeObj "FileGroup" [] cs n0 k0) = false from rfl]; simp
        rw [nodeObj] at hB ⊢
        rw [inside, if_neg hB]
        simp [insideMembers, insideMember, inside]
      rw [hgroup]
      simp only [insideAll, hfile, List.length_append, List.length_cons, List.length_nil]
      omega
    · intro c hc; cases hc
  | [c], hfiles, hca, hv =>
    obtain ⟨t, hmem, hct, hpos⟩ := counted_one hca
    have htt := counted_total hct
    cases hfiles with
    | @cons n k path cs _ hin _ =>
    rw [hv, render, render]
    refine .inr ⟨rfl, ?_⟩
    obtain ⟨src, hsrc, cs', rfl, _, _, hpaths, -⟩ := all₂_mem hs.files hmem
    refine ⟨src, (withLinks_iff.mp hsrc).1, ?_, ?_⟩
    · cases hct; rfl
    · have hd : Tree.Spec.matches_ (fun l => f l.url) (.node (.file src.name) cs') =
          demandIn e f src := by
        unfold Tree.Spec.matches_ demandIn
        rw [links, fileTree_links hpaths]
      rw [← hd, ← htt]
      exact ⟨rfl, hpos⟩

/-- C62: the number `filtered` of a reply is the number of links in it. -/
theorem c62_filtered {Id : Type} {e : Env} {r : Request Id Json} {v : Json} {p : Json}
    {q : Tree.MentionsQuery} {f : Str → Bool} (hf : ∀ u, f u = true ↔ Asked q u)
    (hc : Call.urlMentions.Name r.method) (h : Answers (world e) r (.result v))
    (hp : r.params = some p) (hq : argument .urlMentions p = some (.urlMentions q))
    (hL : 0 ≤ q.limit) (hm : demand e f < 2 ^ 31) :
    numberOf "filtered" v = ((inside "Link" v).length : Int) := by
  obtain ⟨p', arg, hp', ha, hret⟩ := answered hc h
  obtain rfl := Option.some.inj (hp.symm.trans hp')
  obtain rfl := Option.some.inj (hq.symm.trans ha)
  obtain ⟨order, hp, g, trees, h', a, hs⟩ := Returns.served hret
  have hm' : Tree.Spec.matches_ (fun l => f l.url) (.node .fileGroup trees) < 2 ^ 31 := by
    rw [hs.asked]; exact hm
  obtain ⟨y, hy, hex, hle⟩ := Tree.c19_limit hs.orders hs.rep q hs.asks (decides hf) hL hm' hs.reply
  obtain ⟨y', hy', hcount⟩ := Tree.c18_counts hs.orders hs.rep q hs.asks (decides hf) hs.reply
  have hyy : y' = y := by
    obtain ⟨f1, h1⟩ := hy
    obtain ⟨f2, h2⟩ := hy'
    exact Tree.RepA.det _ _ _ _ _ h2 h1
  subst hyy
  obtain ⟨n0, k0, ys, rfl, hca, -, hin, hv⟩ := hs.seen hy' hcount
  rw [hin, List.length_map]
  have hfiles := (counted_files hs.files hca).1
  have hk := Tree.exact_length hex
  simp only [Annot.filtered] at hk
  match ys, hfiles, hex, hk, hv with
  | [], _, _, hk, hv =>
    rw [hv, render]
    · exact hk
    · intro c hc; cases hc
  | y1 :: y2 :: ys, _, _, hk, hv =>
    rw [hv, render]
    · exact hk
    · intro c hc; cases hc
  | [c], hfiles, hex, _, hv =>
    cases hex with
    | node _ hca =>
    cases hca with
    | cons hc _ _ =>
    have hk := Tree.exact_length hc
    cases hfiles with
    | @cons n k path cs _ hin _ =>
    rw [hv, render, render]
    simp only [Annot.erase, Annot.eraseAll, links, linksAll, List.append_nil]
    simp only [Annot.filtered, Annot.erase, links] at hk
    exact hk

/-- Hypotheses of `c62_total_exact` and `c62_filtered` are met: one file of two is shown. -/
example : ∃ v, Answers (world exTwo) (exMentions 1) (.result v) ∧
    isA "File" v = true ∧ numberOf "total" v = 1 ∧ numberOf "filtered" v = 1 := by
  have hy : ∃ y v, exTwoReply 1 = .ok y ∧ Json.renderR y = .ok v ∧ isA "File" v = true ∧
      numberOf "total" v = 1 ∧ numberOf "filtered" v = 1 := ⟨_, _, rfl, rfl, rfl, rfl, rfl⟩
  obtain ⟨y, v, hy, hv, h3, h4⟩ := hy
  exact ⟨v, exTwo_answers 1 (by decide) (by decide) hy hv, h3, h4⟩

end Burl.Backend
