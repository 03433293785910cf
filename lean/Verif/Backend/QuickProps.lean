import Verif.Backend.MainProps
import Verif.Args.ExactProps
import Verif.Args.Version
/-! C75: the installation described in `README.org` (section Install), with the constants of
`pkg/version`. -/
namespace Burl.Backend.Main
open Burl Burl.Args Burl.Args.Spec Burl.File Burl.File.Spec

/-- A manifest of Burl as browsers are to find it; the file name is that of the application. -/
def Spec.manifestFor (exe dir : Str) (origins exts : List Str) : Manifest where
  name := "io.github.maxnikulin.burl".toList
  description := "Burl - LinkRemark interface to Emacs".toList
  path := exe
  type := "stdio".toList
  allowedOrigins := origins
  allowedExtensions := exts
  manifestPath := dir ++ "/io.github.maxnikulin.burl.json".toList

/-- The program as it is released. -/
structure Released (m : Machine) : Prop where
  names : m.names = Version.names
  mozilla : m.mozilla = Version.firefoxExtension
  chrome : m.chrome = Version.chromeExtension

private theorem file_in {p : Str} (hp : ∃ r, p = cleanAbs r) (hroot : p ≠ ['/']) :
    CleanOf (p ++ "/".toList ++ Version.appName ++ ".json".toList)
      (p ++ "/io.github.maxnikulin.burl.json".toList) := by
  rw [cleanOf_iff]
  obtain ⟨r, rfl⟩ := hp
  obtain ⟨l, hl, ⟨h, _⟩ | ⟨hne, h⟩⟩ := cleanAbs_parts r
  · exact absurd h hroot
  rw [h]
  have hg : GoodPart "io.github.maxnikulin.burl.json".toList := by
    refine ⟨?_, ?_, ?_, ?_⟩ <;> decide +kernel
  have e : joinParts l ++ "/io.github.maxnikulin.burl.json".toList =
      joinParts (l ++ ["io.github.maxnikulin.burl.json".toList]) := by
    rw [joinParts_append]
    rfl
  have e2 : joinParts l ++ "/".toList ++ Version.appName ++ ".json".toList =
      joinParts l ++ "/io.github.maxnikulin.burl.json".toList := by
    rw [List.append_assoc, List.append_assoc]
    congr 1
  rw [e2, e, cleanAbs_join_good]
  · intro x hx
    rcases List.mem_append.1 hx with hx | hx
    · exact hl x hx
    · rw [List.mem_singleton] at hx
      subst hx
      exact hg
  · simp

private theorem valid_of {n d exe p t : Str} {os es : List Str} (hn : n ≠ []) (hs : '/' ∉ n)
    (habs : ∃ r, exe = '/' :: r) (hl : (os ≠ [] ∧ es = []) ∨ (os = [] ∧ es ≠ [])) :
    Valid ⟨n, d, exe, t, os, es, p ++ (['/'] ++ n ++ dotJson)⟩ :=
  ⟨hl, hn, habs, .inr ⟨p ++ ['/'], dotJson, 0, by simp, .inr ⟨p, rfl⟩, hs, rfl⟩⟩

private theorem manifest_valid {exe p : Str} {os es : List Str} (habs : ∃ r, exe = '/' :: r)
    (hl : (os ≠ [] ∧ es = []) ∨ (os = [] ∧ es ≠ [])) : Valid (Spec.manifestFor exe p os es) := by
  have hs : ("/io.github.maxnikulin.burl.json".toList : Str) =
      ['/'] ++ "io.github.maxnikulin.burl".toList ++ dotJson := by decide +kernel
  unfold Spec.manifestFor
  rw [hs]
  exact valid_of (by decide +kernel) (by decide +kernel) habs hl

private def fresh (m : Machine) : Config := Config.fresh m.defaults

/-- **C75.** `burl_backend -manifest-firefox DIR`, where `DIR` is a directory: the only thing done is
writing of a manifest there, which names the program and the add-on. -/
theorem c75_firefox {m : Machine} (hm : Released m) {dir p exe : Str}
    (hdir : dir ≠ [] ∧ dir ≠ "-".toList) (habs : Absolute m.install.wd dir p)
    (hstat : m.install.stat [] p = .dir) (hroot : p ≠ "/".toList)
    (hexe : m.install.exe = .ok exe) (hea : ∃ r, exe = '/' :: r)
    (hw : ∀ x, m.install.write [] x = true) :
    start m ["-manifest-firefox".toList, dir] =
      (.made, [⟨p ++ "/io.github.maxnikulin.burl.json".toList,
        .manifest (Spec.manifestFor exe p [] ["linkremark@maxnikulin.github.io".toList]), 0o644, false⟩]) := by
  have hc : commandLine m.defaults ["-manifest-firefox".toList, dir] =
      .ok { fresh m with firefox := dir } := by rfl
  have hi : install m.names m.install { fresh m with firefox := dir } = (.ok true,
      [⟨p ++ "/io.github.maxnikulin.burl.json".toList,
        .manifest (Spec.manifestFor exe p [] ["linkremark@maxnikulin.github.io".toList]), 0o644, false⟩]) := by
    have hin : InEnv m.install { fresh m with firefox := dir } { fresh m with firefox := dir } :=
      ⟨.inl ⟨.inr rfl, rfl⟩, .nil, rfl⟩
    refine c54_exact.2 ⟨.inr (.inl hdir.1), fun h => hdir.2 h.1, nofun, ⟨exe, none, [], _, [], _, hexe,
      ⟨_, hin⟩, .none rfl ?_, ManifestPart.file hdir.1 (.inside hdir.2 habs hstat ?_ ?_
        (file_in (absolute_clean (absolute_iff.1 habs)) hroot)) ?_
        (manifest_valid hea (.inr ⟨rfl, ?_⟩)), origins_spec.2 rfl, .none, rfl⟩, ?_⟩
    · unfold Customized
      rintro (h | h | h | h | h | h)
      · exact h rfl
      · exact h rfl
      · cases h
      · exact h rfl
      · exact h rfl
      · exact h rfl
    · rw [hm.names]
      rfl
    · decide
    · have e1 : (fresh m).mozillaIds.slice = [Version.firefoxExtension] := by
        rw [← hm.mozilla]
        rfl
      show Spec.manifestFor _ _ _ _ = ⟨_, _, _, _, _, (fresh m).mozillaIds.slice, _⟩
      rw [e1, hm.names]
      rfl
    · decide
    · intro pre x post he
      cases pre with
      | nil => exact hw x
      | cons a l =>
        have := congrArg List.length he
        simp at this
  unfold start
  rw [hc]
  simp only
  rw [if_neg (show ¬ (fresh m).help = true from nofun), if_neg (show ¬ (fresh m).version = true from nofun), hi]

/-- **C75.** The same for Chrome, with an origin instead of an identifier. -/
theorem c75_chrome {m : Machine} (hm : Released m) {dir p exe : Str}
    (hdir : dir ≠ [] ∧ dir ≠ "-".toList) (habs : Absolute m.install.wd dir p)
    (hstat : m.install.stat [] p = .dir) (hroot : p ≠ "/".toList)
    (hexe : m.install.exe = .ok exe) (hea : ∃ r, exe = '/' :: r)
    (hw : ∀ x, m.install.write [] x = true) :
    start m ["-manifest-chrome".toList, dir] =
      (.made, [⟨p ++ "/io.github.maxnikulin.burl.json".toList,
        .manifest (Spec.manifestFor exe p
          ["chrome-extension://mgmcoaemjnaehlliifkgljdnbpedihoe/".toList] []), 0o644, false⟩]) := by
  have hc : commandLine m.defaults ["-manifest-chrome".toList, dir] =
      .ok { fresh m with chrome := dir } := by rfl
  have hi : install m.names m.install { fresh m with chrome := dir } = (.ok true,
      [⟨p ++ "/io.github.maxnikulin.burl.json".toList,
        .manifest (Spec.manifestFor exe p
          ["chrome-extension://mgmcoaemjnaehlliifkgljdnbpedihoe/".toList] []), 0o644, false⟩]) := by
    have hin : InEnv m.install { fresh m with chrome := dir } { fresh m with chrome := dir } :=
      ⟨.inl ⟨.inr rfl, rfl⟩, .nil, rfl⟩
    refine c54_exact.2 ⟨.inr (.inr hdir.1), fun h => hdir.2 h.2, nofun, ⟨exe, none, [], [], _,
      ["chrome-extension://mgmcoaemjnaehlliifkgljdnbpedihoe/".toList], hexe,
      ⟨_, hin⟩, .none rfl ?_, .none, ?_, ManifestPart.file hdir.1 (.inside hdir.2 habs hstat ?_ ?_
        (file_in (absolute_clean (absolute_iff.1 habs)) hroot)) ?_
        (manifest_valid hea (.inl ⟨?_, rfl⟩)), rfl⟩, ?_⟩
    · unfold Customized
      rintro (h | h | h | h | h | h)
      · exact h rfl
      · exact h rfl
      · cases h
      · exact h rfl
      · exact h rfl
      · exact h rfl
    · have e1 : (fresh m).chromeIds.slice = [Version.chromeExtension] := by
        rw [← hm.chrome]
        rfl
      show Each OriginOf (fresh m).chromeIds.slice _
      rw [e1]
      refine .cons (origin_spec.2 ?_) .nil
      decide +kernel
    · rw [hm.names]
      rfl
    · decide
    · rw [hm.names]
      rfl
    · decide
    · intro pre x post he
      cases pre with
      | nil => exact hw x
      | cons a l =>
        have := congrArg List.length he
        simp at this
  unfold start
  rw [hc]
  simp only
  rw [if_neg (show ¬ (fresh m).help = true from nofun), if_neg (show ¬ (fresh m).version = true from nofun), hi]

/-! ## An example -/

private def exReleased : Machine where
  mozilla := Version.firefoxExtension
  chrome := Version.chromeExtension
  names := Version.names
  install := ⟨.ok "/usr/bin/burl_backend".toList, some "/home/u".toList,
    fun _ p => if p = "/home/u/hosts".toList then .dir else .missing, .ok, some, fun _ _ => true⟩
  openLog _ := true
  letter _ := false
  files _ := none
  now _ := True

example : start exReleased ["-manifest-firefox".toList, "./hosts/".toList] =
    (.made, [⟨"/home/u/hosts/io.github.maxnikulin.burl.json".toList,
      .manifest (Spec.manifestFor "/usr/bin/burl_backend".toList "/home/u/hosts".toList []
        ["linkremark@maxnikulin.github.io".toList]), 0o644, false⟩]) :=
  c75_firefox (m := exReleased) (dir := "./hosts/".toList) (p := "/home/u/hosts".toList)
    ⟨rfl, rfl, rfl⟩ ⟨by decide +kernel, by decide +kernel⟩
    (absolute_iff.2 (by decide +kernel)) (by decide +kernel) (by decide +kernel) rfl
    ⟨"usr/bin/burl_backend".toList, rfl⟩ (fun _ => rfl)

end Burl.Backend.Main
