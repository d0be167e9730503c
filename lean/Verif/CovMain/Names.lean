import Verif.Laps.Model
import Mathlib.Data.Nat.Digits.Defs
import Mathlib.Data.Rat.Defs
import Mathlib.Algebra.Order.Field.Rat

/-!
# Model: `run_cov_integrals` looks for its input

`src/flowstab/scripts/run_cov_integrals.py:205-235`: the number of nodes is taken from the first
file that has one, and the intervals and the time scales are read from the names of all files in
the directory.  The names are those that `run_laplacians_transmats` wrote
(`src/flowstab/scripts/run_laplacians_transmats.py:290-298, 317-327`).

Simplified: names are lists of characters without `/`; digits are the ASCII digits and blanks are
the ASCII blanks; numbers are exact, so `float` keeps every digit that it reads.
-/

namespace Verif.CovMain

open Verif.Laps (What)

/-- A text. -/
abbrev Text := List Char

/-- `[0-9]` -/
def isDigit (c : Char) : Bool := decide (48 ≤ c.toNat) && decide (c.toNat ≤ 57)

/-- The number written with the given digits. -/
def number (s : Text) : Nat := s.foldl (fun a c => 10 * a + (c.toNat - 48)) 0

/-- Blanks, which `int` and `float` ignore at both ends. -/
def isBlank (c : Char) : Bool := c == ' ' || c == '\t' || c == '\n' || c == '\r' || c == '\x0b' || c == '\x0c'

/-- `str.strip` -/
def strip (s : Text) : Text := ((s.dropWhile isBlank).reverse.dropWhile isBlank).reverse

/-- A sign in front: whether it is a minus, and the rest. -/
def sign : Text → Bool × Text
  | '-' :: r => (true, r)
  | '+' :: r => (false, r)
  | r => (false, r)

/-- `int(s)` for a text without underscores; `none` is `ValueError`. -/
def pyInt (s : Text) : Option Int :=
  let r := sign (strip s)
  if r.2.isEmpty || !r.2.all isDigit then none
  else some (if r.1 then -(number r.2 : Int) else number r.2)

/-- What `float` returns: a number, or an infinity or `nan`. -/
inductive Val
  | num (q : ℚ)
  | special
  deriving DecidableEq

/-- Lower case of an ASCII letter. -/
def lower (c : Char) : Char := if 65 ≤ c.toNat ∧ c.toNat ≤ 90 then Char.ofNat (c.toNat + 32) else c

/-- `float(s)` for a text without underscores; `none` is `ValueError`. -/
def pyFloat (s : Text) : Option Val :=
  let r := sign (strip s)
  if r.2.map lower = "inf".toList ∨ r.2.map lower = "infinity".toList ∨ r.2.map lower = "nan".toList then some .special
  else
    let a := r.2.takeWhile isDigit
    let r1 := r.2.dropWhile isDigit
    let b := match r1 with
      | '.' :: r1 => (r1.takeWhile isDigit, r1.dropWhile isDigit)
      | _ => ([], r1)
    if a.isEmpty && b.1.isEmpty then none
    else
      let m : ℚ := (if r.1 then -1 else 1) * (number (a ++ b.1) : ℚ) / 10 ^ b.1.length
      match b.2 with
      | [] => some (.num m)
      | c :: r2 =>
        if c = 'e' ∨ c = 'E' then
          let x := sign r2
          if x.2.isEmpty || !x.2.all isDigit then none
          else some (.num (m * (10 : ℚ) ^ (if x.1 then -(number x.2 : Int) else number x.2)))
        else none

/-- `os.path.splitext(name)[0]`: what is before the last dot, unless there are only dots before it. -/
def stem (s : Text) : Text :=
  let p := ((s.reverse.dropWhile (· ≠ '.')).drop 1).reverse
  if p.any (· ≠ '.') then p else s

/-- `s.split("_")` -/
def split : Text → List Text
  | [] => [[]]
  | c :: s => if c = '_' then [] :: split s else match split s with
    | [] => [[c]]
    | p :: ps => (c :: p) :: ps

/-- `re.search("int[0-9]{6}", s)` -/
def hasInt (s : Text) : Bool :=
  s.tails.any fun t => decide (t.take 3 = "int".toList) && decide (((t.drop 3).take 6).length = 6) && ((t.drop 3).take 6).all isDigit

/-- One part of a name (run_cov_integrals.py:229-232): a new interval, a new time scale or nothing.
`none` is `ValueError`. -/
def scanPart (acc : List Int × List Val) (s : Text) : Option (List Int × List Val) :=
  if hasInt s then (pyInt (s.drop 3)).map fun k => (k :: acc.1, acc.2)
  else if s.head? = some 'w' then (pyFloat (s.drop 1)).map fun v => (acc.1, v :: acc.2)
  else some acc

/-- The intervals and time scales in the names of the files (run_cov_integrals.py:224-232).  The
lists stand for the sets. -/
def scan (files : List Text) : Option (List Int × List Val) :=
  files.foldlM (fun acc f => (split (stem f)).foldlM scanPart acc) ([], [])

/-- What a file holds: `none` if it is not a dictionary, otherwise the entry `num_nodes`. -/
abbrev Held := Option (Option Nat)

/-- The number of nodes (run_cov_integrals.py:208-219): the first file that has one; `none` is
`IndexError`. -/
def numNodes : List Held → Option Nat
  | [] => none
  | some (some n) :: _ => some n
  | _ :: r => numNodes r

/-- A decimal number with at least the given number of digits: `{:0wd}`. -/
def padded (w n : Nat) : Text :=
  List.replicate (w - (Nat.digits 10 n).length) '0' ++ ((Nat.digits 10 n).map fun d => Char.ofNat (48 + d)).reverse

/-- A number with four significant digits, `m * 10^(e-3)`. -/
structure Four where
  m : Nat
  e : Int
  four : m < 10000

/-- The number. -/
def Four.value (r : Four) : ℚ := (r.m : ℚ) * (10 : ℚ) ^ (r.e - 3)

/-- The text of a number with `{:.3e}`. -/
def Four.text (r : Four) : Text :=
  padded 1 (r.m / 1000) ++ '.' :: padded 3 (r.m % 1000) ++ 'e' :: (if r.e < 0 then '-' else '+') :: padded 2 r.e.natAbs

/-- The file of a waiting time and an interval, or of the static adjacency matrix of an interval,
with its extension. -/
inductive Entry
  | mats (tau : ℚ) (k : Nat) (what : What) (ext : Text)
  | adjacency (k : Nat)

/-- The name of the file (run_laplacians_transmats.py:290-298, 317-327), where `round` is the
rounding to four significant digits. -/
def Entry.name (net : Text) (round : ℚ → Four) : Entry → Text
  | .mats tau k what ext =>
    net ++ "_tau_w".toList ++ (round tau).text ++ "_int".toList ++ padded 6 k ++ "_".toList ++ what.suffix ++ ext
  | .adjacency k => net ++ "_static_adjacency_int".toList ++ padded 6 k ++ ".pickle".toList

end Verif.CovMain
