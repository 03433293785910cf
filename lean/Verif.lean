import Verif.Base
import Verif.Url.Props
import Verif.Frame.Props
import Verif.Rpc.Props
import Verif.Fuzzy.Props
import Verif.Tree.Props
import Verif.Tree.CrashProps
import Verif.Tree.OverflowProps
import Verif.Tree.Concurrent
import Verif.Extract.Props
import Verif.Extract.ChainProps
import Verif.Links.FileProps
import Verif.Links.FoundProps
import Verif.Links.PlusProps
import Verif.Links.SetFoundProps
import Verif.Links.VerdictProps
import Verif.Links.HeadingProps
import Verif.Scan.Props
import Verif.Scan.WordProps
import Verif.Emacs.ConcurrentProps
import Verif.Backend.Props
import Verif.Backend.DecodeProps
import Verif.Backend.RepeatedProps
import Verif.Backend.ServeProps
import Verif.Backend.SaysProps
import Verif.Backend.CrashProps
import Verif.Backend.EndProps
import Verif.Backend.TextEndProps
import Verif.Backend.NumberProps
import Verif.File.Props
import Verif.File.NamesProps
import Verif.File.OutcomeProps
import Verif.File.PathProps
import Verif.Args.WrapperProps
import Verif.Args.WrapperExactProps
import Verif.Args.ManifestProps
import Verif.Js.Props
import Verif.Tool.Props
import Verif.Links.TextFoundProps
import Verif.Rpc.ServerProps
import Verif.Rpc.ClientProps
import Verif.Tool.ClientProps
import Verif.Tool.LineProps
import Verif.Tool.NumberProps
import Verif.Backend.LineProps
import Verif.Backend.MainProps
import Verif.Rpc.CommandProps
import Verif.JsonText.Props
import Verif.JsonText.RawProps
import Verif.JsonText.ScanLemmas
import Verif.JsonText.ExactProps
import Verif.JsonText.AnyLemmas
import Verif.JsonText.AnyProps
import Verif.JsonText.EndProps
import Verif.JsonText.SessionProps
import Verif.JsonText.RightProps
import Verif.Addon.Props
import Verif.Addon.MessageProps
import Verif.JsonText.IndentProps
import Verif.Rpc.BeginningProps
import Verif.Rpc.RejectProps
import Verif.Rpc.EdgeProps
import Verif.JsonText.BeginningProps
import Verif.JsonText.RefusedProps
import Verif.JsonText.ClientProps
import Verif.Args.TextProps
import Verif.Tool.OutputProps
import Verif.Tool.GapProps
import Verif.Tool.ClientTextProps
import Verif.Tool.GenericProps
import Verif.Backend.ScriptProps
import Verif.Backend.QuickProps
import Verif.JsonText.AnyReplyProps
import Verif.Tool.AnyProps
import Verif.Tool.SaysProps
import Verif.Example.Props
import Verif.Example.ClientProps
import Verif.Example.AnyProps
import Verif.Example.MenuProps
