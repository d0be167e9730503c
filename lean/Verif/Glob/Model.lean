import Verif.CovMain.Names

/-!
# Model: the search for existing files with `glob`

`src/flowstab/scripts/run_laplacians_transmats.py:329-341, 400, 425, 458, 498` looks for files with
`glob.glob(name + "*")`.  `glob` is a function of the Python library: the parts of the path are
patterns, matched by `fnmatch`, where `*`, `?` and `[...]` are special.  The model follows
`glob.glob` (`recursive=False`) and `fnmatch.translate` on a system where file names are not
converted (POSIX).

Simplified: a path is the list of its parts, a directory listing is the set of files below it; bytes
that are not characters do not occur.
-/

set_option linter.dupNamespace false

namespace Verif.Glob

open Verif.CovMain (Text)

/-- What a place of a pattern stands for. -/
inductive Tok
  | lit (c : Char)
  /-- `?` -/
  | any
  /-- `*` -/
  | star
  /-- `[...]`, `[!...]`: ranges of characters -/
  | set (neg : Bool) (items : List (Char × Char))

/-- The characters and ranges between brackets, e.g. `a-z_` (`fnmatch.translate`, called by
`glob.glob` at run_laplacians_transmats.py:329). -/
def setItems : Text → List (Char × Char)
  | a :: b :: c :: r => if b = '-' then (a, c) :: setItems r else (a, a) :: setItems (b :: c :: r)
  | [a, b] => [(a, a), (b, b)]
  | [a] => [(a, a)]
  | [] => []

/-- A closing bracket in the first place, also after `!`, does not count (`fnmatch.translate`): where
to look for it. -/
def skipped (s : Text) : Nat :=
  if s.head? = some '!' then (if s.tail.head? = some ']' then 2 else 1) else if s.head? = some ']' then 1 else 0

/-- What is between the bracket that has just been read and the closing one, and what follows
(`fnmatch.translate`). -/
def bracket (s : Text) : Option (Text × Text) :=
  let body := s.drop (skipped s)
  if ']' ∈ body then
    some (s.take (skipped s) ++ body.takeWhile (· ≠ ']'), (body.dropWhile (· ≠ ']')).drop 1)
  else none

/-- The place of a pattern that brackets stand for (`fnmatch.translate`). -/
def setTok (stuff : Text) : Tok := if stuff.head? = some '!' then .set true (setItems stuff.tail) else .set false (setItems stuff)

theorem bracket_shorter {s stuff rest : Text} (h : bracket s = some (stuff, rest)) : rest.length < s.length := by
  unfold bracket at h
  dsimp only at h
  split at h
  · rename_i hm
    simp only [Option.some.injEq, Prod.mk.injEq] at h
    obtain ⟨-, rfl⟩ := h
    generalize skipped s = k at hm ⊢
    have h1 : ((s.drop k).dropWhile (· ≠ ']')).length ≤ (s.drop k).length := (List.dropWhile_sublist _).length_le
    have h2 : 0 < (s.drop k).length := List.length_pos_of_mem hm
    rw [List.length_drop] at h1 h2
    rw [List.length_drop]
    omega
  · cases h

/-- `fnmatch.translate`: the places of a pattern. -/
def parse (s : Text) : List Tok :=
  match s with
  | [] => []
  | c :: r =>
    if c = '*' then .star :: parse r
    else if c = '?' then .any :: parse r
    else if c = '[' then
      match h : bracket r with
      | none => .lit '[' :: parse r
      | some (stuff, rest) => setTok stuff :: parse rest
    else .lit c :: parse r
  termination_by s.length
  decreasing_by
    all_goals simp_wf
    have := bracket_shorter h
    omega

/-- A character belongs to one of the ranges. -/
def inItems (items : List (Char × Char)) (c : Char) : Bool := items.any fun r => decide (r.1 ≤ c ∧ c ≤ r.2)

/-- The pattern stands for the whole name. -/
def Tok.fits : List Tok → Text → Bool
  | [], s => s.isEmpty
  | .star :: p, s => s.tails.any (Tok.fits p)
  | .lit c :: p, d :: s => decide (c = d) && Tok.fits p s
  | .any :: p, _ :: s => Tok.fits p s
  | .set neg items :: p, d :: s => (inItems items d != neg) && Tok.fits p s
  | _ :: _, [] => false

/-- `fnmatch.fnmatchcase(name, pattern)`. -/
def fnmatch (pattern name : Text) : Bool := Tok.fits (parse pattern) name

/-- `glob.has_magic`: a part of the path that is a pattern. -/
def hasMagic (s : Text) : Bool := s.any fun c => decide (c = '*' ∨ c = '?' ∨ c = '[')

/-- A part of the path: a pattern stands for names in the directory, where names that begin with a
dot have to be asked for; other parts stand for themselves (`glob._glob1`, `glob._glob0`). -/
def partFits (pattern name : Text) : Bool :=
  if hasMagic pattern then (decide (pattern.head? = some '.') || decide (name.head? ≠ some '.')) && fnmatch pattern name
  else decide (pattern = name)

/-- A path: its parts, from the directory to the name of the file. -/
abbrev Path := List Text

/-- A path that `glob.glob` returns, if it is there. -/
def pathFits : Path → Path → Bool
  | [], [] => true
  | p :: ps, n :: ns => partFits p n && pathFits ps ns
  | _, _ => false

end Verif.Glob
