/-!
# Logging of the package (logger.py, `__init__.py:110-140`)

The part of Python's `logging` the package relies on is modelled as well: a logger passes a
record on when its level is at least the effective level of the logger, applies its filters
in order and hands it to its own handlers and those of its ancestors (here: the root
logger, `propagate` is never switched off); a handler writes it when its own level allows.
The last-resort handler of `logging` is used when there is no handler at all.
-/

namespace Verif.Logs

/-- The state of `logging.getLogger("flowstab")` and of the root logger: level of the
logger, which `get_logger` returns (logger.py:44-46), number of `CustomPathnameFilter`s added to it, levels of its handlers, level of the
root logger, levels of the handlers of the root logger (logger.py:5). -/
structure LogState where
  level : Nat
  filters : Nat
  own : List Nat
  rootLevel : Nat
  root : List Nat
  deriving DecidableEq

/-- Before the package is imported: the application may have configured the root logger. -/
def fresh (rootLevel : Nat) (root : List Nat) : LogState := ⟨0, 0, [], rootLevel, root⟩

/-- `Logger.hasHandlers`: the logger or an ancestor has a handler. -/
def LogState.hasHandlers (s : LogState) : Bool := !s.own.isEmpty || !s.root.isEmpty

/-- `setup_logger(log_level)` (logger.py:20-42).  The format string is left out. -/
def setupLogger (l : Nat) (s : LogState) : LogState :=
  let s1 := { s with level := l }
  let s2 := { s1 with filters := s1.filters + 1 }
  if !s2.hasHandlers then { s2 with own := s2.own ++ [l] } else s2

/-- `level_dict` (`__init__.py:126-132`) with the numbers of `logging`. -/
def levelDict (name : String) : Option Nat :=
  if name = "DEBUG" then some 10
  else if name = "INFO" then some 20
  else if name = "WARNING" then some 30
  else if name = "ERROR" then some 40
  else if name = "CRITICAL" then some 50
  else none

inductive Err | valueError
  deriving DecidableEq

/-- `set_log_level(level)` (`__init__.py:117-140`): the state afterwards and the exception
raised, if any. -/
def setLogLevel (name : String) (s : LogState) : LogState × Option Err :=
  match levelDict name with
  | some l => ({ s with level := l, own := s.own.map fun _ => l }, none)
  | none => (s, some .valueError)

/-- What can happen to the loggers after the import: calls of the two functions of the
package, and configuration of the root logger by the application. -/
inductive Event
  | setup (l : Nat)
  | setLevel (name : String)
  | rootHandler (l : Nat)
  | rootLevel (l : Nat)
  deriving DecidableEq

/-- Effect of one event; exceptions of `set_log_level` are caught by the caller. -/
def step (s : LogState) : Event → LogState
  | .setup l => setupLogger l s
  | .setLevel name => (setLogLevel name s).1
  | .rootHandler l => { s with root := s.root ++ [l] }
  | .rootLevel l => { s with rootLevel := l }

/-- Importing the package calls `setup_logger()` with the level INFO = 20
(`__init__.py:115`, logger.py:20). -/
def imported (rootLevel : Nat) (root : List Nat) : LogState := setupLogger 20 (fresh rootLevel root)

/-- The state after the import and a sequence of events. -/
def run (rootLevel : Nat) (root : List Nat) (es : List Event) : LogState :=
  es.foldl step (imported rootLevel root)

/-- `Logger.getEffectiveLevel`: 0 (`NOTSET`) defers to the root logger. -/
def LogState.effective (s : LogState) : Nat := if s.level ≠ 0 then s.level else s.rootLevel

/-- Lines the package's own handlers write for a message of level `m` (`m > 0`). -/
def ownLines (s : LogState) (m : Nat) : Nat :=
  if s.effective ≤ m then (s.own.filter fun l => decide (l ≤ m)).length else 0

/-- All lines written for a message of level `m`: by the package's handlers, by those of the
root logger, or by the last-resort handler (level WARNING) when there are none. -/
def lines (s : LogState) (m : Nat) : Nat :=
  if s.effective ≤ m then
    if s.hasHandlers then
      (s.own.filter fun l => decide (l ≤ m)).length +
        (s.root.filter fun l => decide (l ≤ m)).length
    else if 30 ≤ m then 1 else 0
  else 0

/-- `str.split` at a separator character (logger.py:14). -/
def split (sep : Char) : List Char → List (List Char)
  | [] => [[]]
  | c :: cs =>
    if c = sep then [] :: split sep cs
    else match split sep cs with
      | [] => [[c]]
      | p :: ps => (c :: p) :: ps

/-- `sep.join` (logger.py:18). -/
def join (sep : Char) : List (List Char) → List Char
  | [] => []
  | [p] => p
  | p :: q :: ps => p ++ sep :: join sep (q :: ps)

/-- `CustomPathnameFilter.filter` on the path of a record; the record always passes
(logger.py:8-18). -/
def shorten (sep : Char) (path : List Char) : List Char :=
  if 2 < (split sep path).length then
    join sep ((split sep path).drop ((split sep path).length - 2))
  else path

/-- The path the handlers see: every filter of the logger is applied in turn. -/
def shownPath (sep : Char) (s : LogState) (path : List Char) : List Char :=
  (List.range s.filters).foldl (fun p _ => shorten sep p) path

end Verif.Logs
