import Verif.Backend.SaysProps
import Verif.JsonText.SessionProps
/-! Texts of replies and what texts of requests say, without the functions that read them (C69). -/
namespace Burl.JsonText
open Burl.Json (Json)
open Burl.Rpc.Spec (Call)
open Burl.Rpc.Server (Request)
open Burl.JsonText.Spec

/-- C69: a text of a reply with a result has the identifier of the request, and the result is
right for what the text of the request says (`Backend.Spec.RightFor`). -/
theorem c69_says {e : Backend.Env} {rs : List (Request Json Json)} {us : List Text}
    {ks : List Nat} (h : Replied (Backend.world e) rs us ks) {i k : Nat} {u : Text}
    {r : Request Json Json}
    (hk : ks[i]? = some k) (hu : us[i]? = some u) (hr : rs[k]? = some r) {v id : Json}
    (hm : Means u (.obj [("id".toList, id), ("result".toList, v), ("error".toList, .null)])) :
    id = r.id.getD .null ∧ Backend.Spec.RightFor e r v := by
  obtain ⟨h1, h2⟩ := c69_right h hk hu hr hm
  exact ⟨h1, Backend.right_for h2⟩

/-- C69: a request that says nothing its method understands is answered with a text with an
error. -/
theorem c69_says_refused {e : Backend.Env} {rs : List (Request Json Json)} {us : List Text}
    {ks : List Nat} (h : Replied (Backend.world e) rs us ks) {i k : Nat} {u : Text}
    {r : Request Json Json}
    (hk : ks[i]? = some k) (hu : us[i]? = some u) (hr : rs[k]? = some r)
    {c : Call} (hc : c.Name r.method)
    (hn : ∀ a, ¬Backend.Spec.Says r (Rpc.Server.reached c) a) :
    ∃ msg, msg ≠ [] ∧ Means u (.obj [("id".toList, r.id.getD .null), ("result".toList, .null),
      ("error".toList, .str msg)]) := by
  obtain ⟨-, r', b, hr', hans, hmean⟩ := h.answers i k u hk hu
  rw [hr] at hr'
  injection hr' with hr'
  subst hr'
  obtain ⟨msg, hne, rfl⟩ := Backend.c62_says_refused hc hn hans
  exact ⟨msg, hne, hmean⟩

end Burl.JsonText
