import Verif.Args.Install
import Verif.JsonText.Indent
import Verif.JsonText.Raw
/-! Bytes of generated files (cmd/burl_backend/install.go:127-144, 206-212). -/
namespace Burl.Args
open Burl Burl.File
open Burl.Json (Json)

/-- Fields of a manifest with their tags (pkg/webextensions/manifest.go:27-37); lists have
`omitempty`. -/
def manifestJson (m : Manifest) : Json :=
  let list (name : String) (l : List Str) : List (Str × Json) :=
    if l = [] then [] else [(name.toList, .arr (l.map .str))]
  .obj ([("name".toList, .str m.name), ("description".toList, .str m.description),
    ("path".toList, .str m.path), ("type".toList, .str m.type)] ++
    list "allowed_origins" m.allowedOrigins ++ list "allowed_extensions" m.allowedExtensions)

/-- The content given to `WriteFile`. -/
def Doc.content (short : Bool) : Doc → Bytes
  | .wrapper t => JsonText.utf8 t
  | .manifest m => JsonText.printed short (manifestJson m)

end Burl.Args
