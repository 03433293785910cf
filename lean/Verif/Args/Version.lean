import Verif.Args.Install
/-! The constants of `pkg/version/version.go`. -/
namespace Burl.Args.Version
open Burl

/-- `AppName` (version.go:25). -/
def appName : Str := "io.github.maxnikulin.burl".toList

/-- `Description` (version.go:22). -/
def description : Str := "Burl - LinkRemark interface to Emacs".toList

/-- `ChromeExtension` (version.go:23). -/
def chromeExtension : Str := "mgmcoaemjnaehlliifkgljdnbpedihoe".toList

/-- `FirefoxExtension` (version.go:24). -/
def firefoxExtension : Str := "linkremark@maxnikulin.github.io".toList

/-- The names used for manifests (install.go:153, 173, 202). -/
def names : Names := ⟨appName, description⟩

end Burl.Args.Version
