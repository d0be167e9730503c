import Verif.CovMain.Names
import Verif.Scripts.ClusterModel

/-!
# Model: `run_clusterings` chooses its files

`src/flowstab/scripts/run_clusterings.py:208-219`: the files of a directory whose integrals are to
be clustered are chosen by their names.  The names are those that `run_cov_integrals` wrote
(`src/flowstab/scripts/run_cov_integrals.py:322-335`); those of `run_laplacians_transmats` are in
`Verif.CovMain.Names`.  Names are lists of characters without `/`, as there.
-/

namespace Verif.ClustMain

open Verif.CovMain (Text padded stem split pyInt Four Entry)
open Verif.Scripts (Kind)

/-- `sub in s` -/
def has (sub s : Text) : Bool := s.tails.any fun t => sub.isPrefixOf t

/-- `files` (run_clusterings.py:208-219) for the names in the directory, `net_name`, `init_p1` and
`direction`; `none` is the `ValueError` of line 218. -/
def select (net : Text) (initP1 : Bool) (direction : Text) (dir : List Text) : Option (List Text) :=
  let files := dir.filter fun f => (net ++ "_tau_w".toList).isPrefixOf f && !has "temp_integration".toList f &&
    !has "pTpint".toList f
  if initP1 then
    if direction = "forward".toList then some (files.filter (has "PTforw".toList))
    else if direction = "backward".toList then some (files.filter (has "PTback".toList))
    else none
  else some files

/-- A file that one of the other two scripts writes: an integral, the state of an integration that
is not finished, or a file of `run_laplacians_transmats`. -/
inductive Out
  | integral (tau : ℚ) (k : Kind) (i j : Nat)
  | temp (tau : ℚ) (k : Kind) (i j : Nat)
  | laps (e : Entry)

/-- `lin_` in the names of the linear approximation. -/
def linPart : Kind → Text
  | .expm => []
  | .lin => "lin_".toList

/-- The name (run_cov_integrals.py:322-335), where `round` is the rounding to four significant
digits. -/
def Out.name (round : ℚ → Four) (net : Text) : Out → Text
  | .integral tau k i j => net ++ ("_tau_w".toList ++ ((round tau).text ++ ("_PT_".toList ++ (linPart k ++
      (padded 6 i ++ ("_to_".toList ++ (padded 6 j ++ ".pickle".toList)))))))
  | .temp tau k i j => net ++ ("_tau_w".toList ++ ((round tau).text ++ ("_temp_integration_".toList ++ (linPart k ++
      (padded 6 i ++ ("_to_".toList ++ (padded 6 j ++ ".pickle".toList)))))))
  | .laps e => e.name net round

/-- The names of the results and of the clusterings saved before the variation of information
(run_clusterings.py:653, 712, 865). -/
def resultName (file : Text) : Text := "clusters_".toList ++ file
/-- See `resultName`. -/
def tmpName (file : Text) : Text := "tmpclusters_".toList ++ file

/-- The file with the adjacency matrix of two points, in their order (run_clusterings.py:690-691). -/
def adjName (net : Text) (a b : Nat) : Text :=
  net ++ ("_static_A_".toList ++ (padded 6 a ++ ("_to_".toList ++ (padded 6 b ++ ".pickle".toList))))

/-- The file with the adjacency matrix that belongs to an integral (run_clusterings.py:684-691): the
two points are read from the name.  `none`: an exception, or points that are not natural numbers. -/
def wanted (net file : Text) : Option Text :=
  match (split (stem file)).reverse with
  | b :: _ :: a :: _ =>
    match pyInt a, pyInt b with
    | some (.ofNat a), some (.ofNat b) => some (adjName net (min a b) (max a b))
    | _, _ => none
  | _ => none

end Verif.ClustMain
