import Verif.Args.Text
import Verif.Args.ManifestProps
import Verif.JsonText.IndentProps
/-! C71: what generated manifests say. -/
namespace Burl.Args
open Burl Burl.File
open Burl.Json (Json)
open Burl.JsonText (unmarshal)
open Burl.JsonText.Spec

theorem allPlain_strs (d : Nat) (l : List Str) : AllPlain d (l.map .str) := by
  induction l with
  | nil => simp [AllPlain]
  | cons s l ih => rw [List.map_cons, AllPlain]; exact ⟨by simp [Plain], ih⟩

theorem plain_manifest (m : Manifest) : Plain 10000 (manifestJson m) := by
  have h := allPlain_strs 9998
  unfold manifestJson
  simp only []
  split <;> split <;> simp [Plain, MembersPlain, h]

/-- **C71.** A program that reads a manifest gets an object with a name, a description, the path of
the program, its type, and the extensions or the origins that are requested; nothing else.  The name
is that of the file, the path is absolute (`Valid`), and the program is that of C54. -/
theorem c71_manifest (short : Bool) {names : Names} {env : Env} {c : Config} {x : Write} {m : Manifest}
    (hx : x ∈ (install names env c).2) (hm : x.doc = .manifest m) :
    x.path = m.manifestPath ∧ Valid m ∧
      (c.backendName ≠ [] → '/' ∉ c.backendName → m.name = c.backendName) ∧ ∃ who : Str × Json,
      unmarshal (x.doc.content short) = some (.obj
        [("name".toList, .str m.name), ("description".toList, .str names.description),
         ("path".toList, .str m.path), ("type".toList, .str "stdio".toList), who]) ∧
      ((c.firefox ≠ [] ∧ who = ("allowed_extensions".toList, .arr (c.mozillaIds.values.map .str))) ∨
       (c.chrome ≠ [] ∧ ∃ os, Origins c.chromeIds.values os ∧
          who = ("allowed_origins".toList, .arr (os.map .str)))) := by
  have hg := c54_manifest hx hm
  refine ⟨hg.path, hg.valid, hg.name, ?_⟩
  rw [hm, Doc.content, JsonText.c71_read short (plain_manifest m)]
  rcases hg.allowed with ⟨h1, h2, h3⟩ | ⟨h1, h2, h3⟩
  · refine ⟨_, ?_, .inl ⟨h3, rfl⟩⟩
    have hne : m.allowedExtensions ≠ [] := by
      rcases hg.valid.lists with h | h
      · exact absurd h2 h.1
      · exact h.2
    simp only [manifestJson, h2, if_true, hne, if_false, hg.type, hg.description, ← h1, List.append_nil, List.cons_append, List.nil_append]
  · refine ⟨_, ?_, .inr ⟨h3, _, h2, rfl⟩⟩
    have hne : m.allowedOrigins ≠ [] := by
      rcases hg.valid.lists with h | h
      · exact h.1
      · exact absurd h1 h.2
    simp only [manifestJson, h1, if_true, hne, if_false, hg.type, hg.description, List.append_nil, List.cons_append, List.nil_append]

/-- **C71 fails** for names that are not UTF-8: manifests of programs `/ÿ` and `/þ` in Latin-1 (and of
others like them) are the same. -/
theorem c71_violation_bytes (short : Bool) : ∃ a b : Bytes, a ≠ b ∧
    JsonText.encString short a = JsonText.encString short b :=
  ⟨[47, 0xFF], [47, 0xFE], by decide, JsonText.encString_bad short ['/']⟩

private def exConfig : Config where
  logFile := "-".toList
  disableLinkSet := false
  emacsCommand := emacsclient
  emacsArgs := .new []
  scheme := .new []
  sources := []
  backendName := "io.burl".toList
  wrapper := []
  firefox := []
  chrome := "/d".toList
  force := false
  mozillaIds := .new []
  chromeIds := .new ["id".toList]
  help := false
  version := false

private def exEnv : Env where
  exe := .ok "/e".toList
  wd := none
  stat := fun _ p => if p = "/d".toList then .dir else .missing
  real := fun p => .ok p
  quote := fun s => some (gnuQuote s)
  write := fun _ _ => true

/-- Non-vacuity: a manifest for Chrome. -/
example : (install ⟨"burl".toList, "Burl".toList⟩ exEnv exConfig).2.map (fun x => (x.path, x.doc.content true)) =
    [("/d/io.burl.json".toList, JsonText.utf8 ("{\n  \"name\": \"io.burl\",\n  \"description\": \"Burl\",\n".toList ++
      "  \"path\": \"/e\",\n  \"type\": \"stdio\",\n  \"allowed_origins\": [\n".toList ++
      "    \"chrome-extension://id/\"\n  ]\n}\n".toList))] := by
  decide +kernel

end Burl.Args
