import Verif.Backend.MainProps
import Verif.Args.ScriptProps
import Verif.Args.ExactProps
/-! C74 for runs of the backend. -/
namespace Burl.Backend.Main
open Burl Burl.Args
open Burl.Args.Spec (QuotedFor ShellFile InEnv)

/-- **C74.** After a run that made a manifest a browser that follows the manifest starts the backend: it
is named there, if it was given no options, otherwise a script is, which has been written with
permission to execute it and which is replaced by the backend.  That backend does what any backend does
that is started with the settings given in the run, with paths made absolute. -/
theorem c74_browser {m : Machine} {args : List Str} {c : Config} {x : Write} {mf : File.Manifest}
    (hcmd : commandLine m.defaults args = .ok c) (hq : QuotedFor m.install c)
    (hx : x ∈ (start m args).2) (hm : x.doc = .manifest mf) :
    ∃ exe c0, m.install.exe = .ok exe ∧
      InEnv m.install c c0 ∧
      ((mf.path = exe ∧ ¬CustomOptions c) ∨
        ∃ y t ws, y ∈ (start m args).2 ∧ y.path = mf.path ∧ y.perm = 493 ∧ y.doc = .wrapper t ∧
          (∀ short, ShellFile (y.doc.content short) t) ∧
          (∀ executable : Str → Bool, executable exe → runScript executable t = .exec exe ws) ∧
          ∀ args' c', commandLine m.defaults args' = .ok c' → StartsBackend c' → SameSettings c' c0 →
            start m ws = start m args') := by
  have hi : (start m args).2 = (install m.names m.install c).2 := by
    unfold start at hx ⊢
    rw [hcmd] at hx ⊢
    simp only at hx ⊢
    split at hx
    · cases hx
    rw [if_neg ‹_›]
    split at hx
    · cases hx
    rw [if_neg ‹_›]
    cases hin : install m.names m.install c with
    | mk r w =>
      cases r with
      | err _ => rfl
      | panic => rfl
      | ok b =>
        cases b with
        | true => rfl
        | false =>
          simp only
          split
          · rfl
          split <;> rfl
  rw [hi] at hx ⊢
  obtain ⟨exe, c0, hfix, hc⟩ := c54_program hx hm
  refine ⟨exe, c0, (c54_paths.1 hfix).1, (c54_paths.1 hfix).2, ?_⟩
  rcases hc with h | ⟨y, post, e, ts, h1, -, -, h4, h5, h6, h7, h8⟩
  · exact .inl h
  right
  have hy : y ∈ (install m.names m.install c).2 := by rw [h1]; exact List.mem_cons_self
  have hr := hq exe c0 hfix
  obtain ⟨ws, g1, g2⟩ := c66_wrapper hcmd hfix h7 fun s hs => hr s (List.mem_cons_of_mem _ hs)
  refine ⟨y, _, ws, hy, h4, h5, h8, fun short => (c74_script short hcmd hq hy h8).1, ?_, g2⟩
  intro X hX
  rw [wrapper_script X (hr exe List.mem_cons_self e h6) g1, if_pos hX]

end Burl.Backend.Main
