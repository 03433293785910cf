import Verif.Emacs.Props
/-! The argument list of the editor as Go composes it, with goroutines interleaved.

`net/rpc` runs every call in its own goroutine.  `execEmacs` (pkg/burl_emacs/emacs.go:59-62)
evaluates `append(UserArgs, Args...)` and appends the arguments of the call to the result.  `append`
writes behind the end of the slice if the backing array has room and allocates a new array
otherwise.  `UserArgs` has capacity 4 (emacs.go:48) unless more than 4 values are added to it, so the
room behind it is shared by all calls.  A step of a goroutine reads or writes one cell (an element of
type `string`; reading a value half of which is written is not modelled). -/
namespace Burl.Emacs
open Burl.Emacs.Spec

/-- A cell of the backing array of `UserArgs` or of an array allocated by the first or the second
`append` of the current call. -/
inductive Loc where
  | shared (i : Nat)
  | own1 (i : Nat)
  | own2 (i : Nat)
  deriving DecidableEq

/-- Memory accesses of `execEmacs`: `store` and `move` are made by `append`; `load` is made by
`exec.Command` that copies its arguments. -/
inductive Op where
  | store (l : Loc) (v : Str)
  | move (src dst : Loc)
  | load (l : Loc)
  deriving DecidableEq

/-- An array of cells. -/
abbrev Cells := Nat → Str

/-- Assignment to an element of a backing array (`append`, pkg/burl_emacs/emacs.go:60-61). -/
def Cells.set (c : Cells) (i : Nat) (v : Str) : Cells := fun j => if j = i then v else c j

/-- Memory seen by one goroutine. -/
structure View where
  shared : Cells
  own1 : Cells
  own2 : Cells
  argv : List Str

/-- The value of a cell (pkg/burl_emacs/emacs.go:60-62). -/
def View.get (v : View) : Loc → Str
  | .shared i => v.shared i
  | .own1 i => v.own1 i
  | .own2 i => v.own2 i

/-- Assignment to a cell (pkg/burl_emacs/emacs.go:60-61). -/
def View.put (v : View) (l : Loc) (s : Str) : View :=
  match l with
  | .shared i => { v with shared := v.shared.set i s }
  | .own1 i => { v with own1 := v.own1.set i s }
  | .own2 i => { v with own2 := v.own2.set i s }

/-- Effect of one memory operation of `execEmacs` (pkg/burl_emacs/emacs.go:60-62). -/
def Op.run (v : View) : Op → View
  | .store l s => v.put l s
  | .move a b => v.put b (v.get a)
  | .load l => { v with argv := v.argv ++ [v.get l] }

/-- Writing of values to consecutive cells. -/
def stores (arr : Nat → Loc) : Nat → List Str → List Op
  | _, [] => []
  | i, s :: ss => .store (arr i) s :: stores arr (i + 1) ss

/-- Copying of the first cells to another array. -/
def moves (a b : Nat → Loc) : Nat → List Op
  | 0 => []
  | n + 1 => moves a b n ++ [.move (a n) (b n)]

/-- Reading of the first cells. -/
def loads (a : Nat → Loc) : Nat → List Op
  | 0 => []
  | n + 1 => loads a n ++ [.load (a n)]

/-- `append(s, vs...)` where `s` has `len` elements in the array `arr` of the given capacity; `new`
is the array to allocate.  The results: array, its capacity, memory accesses.  `grow` is the
capacity chosen by the run time for a given length. -/
def appendOps (grow : Nat → Nat) (arr new : Nat → Loc) (cap len : Nat) (vs : List Str) :
    (Nat → Loc) × Nat × List Op :=
  if len + vs.length ≤ cap then (arr, cap, stores arr len vs)
  else (new, grow (len + vs.length), moves arr new len ++ stores new len vs)

/-- Memory accesses of `execEmacs(args...)` up to the start of the process (emacs.go:60-62);
`len` and `cap` are those of `UserArgs`. -/
def execOps (grow : Nat → Nat) (cap len : Nat) (args : List Str) : List Op :=
  let (a1, cap1, ops1) := appendOps grow .shared .own1 cap len Args
  let (a2, _, ops2) := appendOps grow a1 .own2 cap1 (len + Args.length) args
  ops1 ++ ops2 ++ loads a2 (len + Args.length + args.length)

/-- A goroutine serving a call: between two processes or composing the arguments of the next
process. -/
inductive Task (α : Type) where
  | ready (p : Prog α)
  | composing (args : List Str) (ops : List Op) (own1 own2 : Cells) (argv : List Str)
      (k : Outcome → Prog α)

/-- A started process: the number of the goroutine, arguments passed to `execEmacs` and arguments of
the process. -/
structure Started where
  task : Nat
  args : List Str
  argv : List Str
  deriving DecidableEq

/-- All goroutines, the array behind `UserArgs` and the processes started so far. -/
structure World (α : Type) where
  shared : Cells
  tasks : List (Task α)
  log : List Started

/-- Atomic steps.  The outcome of a process is arbitrary. -/
inductive Step {α} (grow : Nat → Nat) (cap len : Nat) : World α → World α → Prop where
  | begin {w i args k} (own1 own2 : Cells) : w.tasks[i]? = some (.ready (.exec args k)) →
      Step grow cap len w
        { w with
          tasks := w.tasks.set i
            (.composing args (execOps grow cap len args) own1 own2 [] k) }
  | access {w i args op ops own1 own2 argv k} :
      w.tasks[i]? = some (.composing args (op :: ops) own1 own2 argv k) →
      Step grow cap len w
        { w with
          shared := (op.run ⟨w.shared, own1, own2, argv⟩).shared
          tasks := w.tasks.set i (.composing args ops (op.run ⟨w.shared, own1, own2, argv⟩).own1
            (op.run ⟨w.shared, own1, own2, argv⟩).own2
            (op.run ⟨w.shared, own1, own2, argv⟩).argv k) }
  | start {w i args own1 own2 argv k} (o : Outcome) :
      w.tasks[i]? = some (.composing args [] own1 own2 argv k) →
      Step grow cap len w
        { w with
          tasks := w.tasks.set i (.ready (k o))
          log := w.log ++ [⟨i, args, argv⟩] }

/-- Any number of steps; a new request may come at any time. -/
inductive Steps (grow : Nat → Nat) (cap len : Nat) (files : List Str) :
    World Reply → World Reply → Prop where
  | refl {w} : Steps grow cap len files w w
  | step {w w' w''} : Steps grow cap len files w w' → Step grow cap len w' w'' →
      Steps grow cap len files w w''
  | request {w w'} (r : Request) : Steps grow cap len files w w' →
      Steps grow cap len files w { w' with tasks := w'.tasks ++ [.ready (serve files r)] }

/-- The backing array holds `UserArgs`, the rest of it may hold anything. -/
def Holds (userArgs : List Str) (c : Cells) : Prop := ∀ i s, userArgs[i]? = some s → c i = s

end Burl.Emacs
