import Verif.Tool.Line
import Verif.Json.Model
import Verif.JsonText.Indent
import Verif.JsonText.Raw
/-! Model of the standard output of `burl_tool` (cmd/burl_tool/burl_tool.go:80-82, 103-112).  Usage and
errors are printed elsewhere; errors of writing are ignored by the program. -/
namespace Burl.Tool.Line
open Burl

/-- What is on the standard output when the program has ended; a crash may leave nothing there, since
the encoder writes when it is done. -/
def Output (short : Bool) : Out → Res Empty Bytes → Prop
  | .urls l, r => r = .ok (l.flatMap fun u => JsonText.utf8 u ++ [10])
  | .tree (some (h, a)) _, r => ∃ j, Json.Marshal h a j ∧ r = j.bind fun v => .ok (JsonText.printed short v)
  | .tree none _, r => r = .ok []
  | .crash, r => r = .panic
  | .help, r => r = .ok []
  | .badFlags, r => r = .ok []
  | .usage, r => r = .ok []
  | .setErr _, r => r = .ok []

end Burl.Tool.Line
