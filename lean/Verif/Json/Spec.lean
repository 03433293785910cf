import Verif.Tree.Spec
/-! JSON of `urlMentions` replies. -/
namespace Burl.Json
open Burl.Tree.Spec (Link Props Annot)

/-- JSON values; `real` is a number with a fraction or an exponent, with its text. -/
inductive Json where
  | null
  | bool (b : Bool)
  | real (text : Str)
  | str (s : Str)
  | num (n : Int)
  | arr (elements : List Json)
  | obj (members : List (Str × Json))
  deriving Repr

namespace Spec

def key (s : String) : Str := s.toList

/-- A link; `descr` is absent if empty. -/
def renderLink (l : Link) : Json :=
  .obj ((key "url", .str l.url) ::
    ((if l.descr = [] then [] else [(key "descr", .str l.descr)]) ++
      [(key "lineNo", .num l.lineNo), (key "_type", .str (key "Link"))]))

/-- Members with the given names sorted by name. -/
def nodeObj (type : String) (own : List (Str × Json)) (children : List Json)
    (total filtered : Int) : Json :=
  .obj ([(key "_type", .str (key type)), (key "children", .arr children),
    (key "filtered", .num filtered)] ++ own ++ [(key "total", .num total)])

mutual
/-- Reply of `urlMentions`.  A group of exactly one file is shown as the file itself.  Nothing is
meant for nodes without a label. -/
def render : Annot → Json
  | .body n k ls => .obj [(key "_type", .str (key "Body")), (key "filtered", .num k),
      (key "links", .arr (ls.map renderLink)), (key "total", .num n)]
  | .node n k p cs => match p, cs with
    | .fileGroup, [c] => render c
    | .fileGroup, cs => nodeObj "FileGroup" [] (renderAll cs) n k
    | .file path, cs => nodeObj "File" [(key "path", .str path)] (renderAll cs) n k
    | .heading ln text, cs => nodeObj "Heading"
        [(key "lineNo", .num ln), (key "rawText", .str text)] (renderAll cs) n k
    | .unset, _ => .obj []
    | .missingHeading, _ => .obj []
def renderAll : List Annot → List Json
  | [] => []
  | a :: as => render a :: renderAll as
end

end Spec
end Burl.Json
