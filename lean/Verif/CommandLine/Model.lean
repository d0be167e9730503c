import Mathlib.Data.Rat.Defs
import Mathlib.Data.List.Basic

/-!
# Model of the command lines

`argparse.ArgumentParser` as far as the scripts use it (`src/flowstab/scripts/run_laplacians_transmats.py:50-161`,
`run_cov_integrals.py:68-152`, `run_clusterings.py:73-159`): options with two dashes, without positional
arguments, with abbreviations and with `--name=value`.  A parser that prints a message and leaves the program
returns nothing.  Simplifications: the word `--` alone and words that begin with `-h` (help) leave the program.
-/

set_option linter.dupNamespace false

namespace Verif.CommandLine

abbrev Text := List Char

/-- `type=int`, `type=float`, and `type=str` or none. -/
inductive Ty
  | int | float | str
  deriving DecidableEq

/-- What an option takes: one value, `nargs="+"`, `action="store_true"`, `action="store_false"`, `action="help"`. -/
inductive Kind
  | one (ty : Ty)
  | many (ty : Ty)
  | on
  | off
  | help
  deriving DecidableEq

/-- A setting after parsing: `None`, a flag, a value, a list of values. -/
inductive Setting (V : Type)
  | missing
  | flag (b : Bool)
  | one (v : V)
  | many (l : List V)
  deriving DecidableEq

/-- An option: its name with dashes, what it takes, and its default. -/
structure Opt (V : Type) where
  name : Text
  kind : Kind
  default : Setting V
  deriving DecidableEq

/-- Settings by the name of the option. -/
abbrev Env (V : Type) := Text → Setting V

variable {V : Type}

/-- Storing a setting. -/
def Env.set (e : Env V) (o : Opt V) (s : Setting V) : Env V := fun n => if n = o.name then s else e n

/-- A word of the command line: a value, an option (with the text after `=`), or neither. -/
inductive Word (V : Type)
  | value
  | option (o : Opt V) (explicit : Option Text)
  | bad

/-- The options of which a name or the beginning of a name is given. -/
def fitting (opts : List (Opt V)) (n : Text) : List (Opt V) := opts.filter fun o => n.isPrefixOf o.name

/-- A word without a fitting option: negative numbers (`neg`) and words with a space are values. -/
def noOption (neg : Text → Bool) (t : Text) : Word V := if neg t || t.contains ' ' then .value else .bad

/-- `_parse_optional` and `_get_option_tuples` of `argparse`. -/
def classify (opts : List (Opt V)) (neg : Text → Bool) (t : Text) : Word V :=
  match t with
  | '-' :: c :: r =>
    match opts.find? fun o => o.name = t with
    | some o => .option o none
    | none =>
      if c ≠ '-' then if c = 'h' then .bad else noOption neg t
      else if r = [] then .bad
      else
        let n := t.takeWhile (· ≠ '=')
        let ex := if t.contains '=' then some ((t.dropWhile (· ≠ '=')).drop 1) else none
        match opts.find? fun o => o.name = n with
        | some o => .option o ex
        | none =>
          match fitting opts n with
          | [] => noOption neg t
          | [o] => .option o ex
          | _ => .bad
  | _ => .value

/-- What the parser waits for: the next option, the value of an option, or further values of one. -/
inductive Mode (V : Type)
  | idle
  | one (o : Opt V) (ty : Ty)
  | many (o : Opt V) (ty : Ty) (sofar : List V)

/-- An option begins, or the command line ends. -/
def close (m : Mode V) (e : Env V) : Option (Env V) :=
  match m with
  | .idle => some e
  | .one _ _ => none
  | .many o _ l => if l.isEmpty then none else some (e.set o (.many l))

/-- An option is read (`consume_optional` of `argparse`). -/
def start (conv : Ty → Text → Option V) (o : Opt V) (ex : Option Text) (e : Env V) : Option (Mode V × Env V) :=
  match o.kind, ex with
  | .one ty, none => some (.one o ty, e)
  | .one ty, some x => (conv ty x).map fun v => (.idle, e.set o (.one v))
  | .many ty, none => some (.many o ty [], e)
  | .many ty, some x => (conv ty x).map fun v => (.idle, e.set o (.many [v]))
  | .on, none => some (.idle, e.set o (.flag true))
  | .off, none => some (.idle, e.set o (.flag false))
  | .on, some _ => none
  | .off, some _ => none
  | .help, _ => none

/-- The loop over the words. -/
def parseFrom (opts : List (Opt V)) (neg : Text → Bool) (conv : Ty → Text → Option V) :
    Mode V → Env V → List Text → Option (Env V)
  | m, e, [] => close m e
  | m, e, t :: ts =>
    match classify opts neg t with
    | .bad => none
    | .value =>
      match m with
      | .idle => none
      | .one o ty =>
        match conv ty t with
        | none => none
        | some v => parseFrom opts neg conv .idle (e.set o (.one v)) ts
      | .many o ty l =>
        match conv ty t with
        | none => none
        | some v => parseFrom opts neg conv (.many o ty (l ++ [v])) e ts
    | .option o ex =>
      match close m e with
      | none => none
      | some e' =>
        match start conv o ex e' with
        | none => none
        | some (m', e'') => parseFrom opts neg conv m' e'' ts

/-- The settings before the first word. -/
def defaults (opts : List (Opt V)) : Env V := fun n =>
  match opts.find? fun o => o.name = n with
  | some o => o.default
  | none => .missing

/-- `vars(ap.parse_args())` for the words after the name of the script. -/
def parse (opts : List (Opt V)) (neg : Text → Bool) (conv : Ty → Text → Option V) (words : List Text) : Option (Env V) :=
  parseFrom opts neg conv .idle (defaults opts) words

/-! ## The options of the scripts -/

/-- Values. -/
inductive Val
  | int (i : Int)
  | float (q : Rat)
  | text (s : Text)
  deriving DecidableEq

/-- An option with one value. -/
def opt1 (name : String) (ty : Ty) (d : Setting Val) : Opt Val := ⟨name.toList, .one ty, d⟩

/-- A flag that is false by default. -/
def optOn (name : String) : Opt Val := ⟨name.toList, .on, .flag false⟩

/-- A flag that is true by default. -/
def optOff (name : String) : Opt Val := ⟨name.toList, .off, .flag true⟩

/-- `--help`. -/
def optHelp : Opt Val := ⟨"--help".toList, .help, .missing⟩

def int (i : Int) : Setting Val := .one (.int i)

def text (s : String) : Setting Val := .one (.text s.toList)

/-- run_clusterings.py:82-156. -/
def clusteringsOpts : List (Opt Val) :=
  [optHelp, opt1 "--datadir" .str (text ""), opt1 "--savedir" .str (text ""), opt1 "--net_name" .str (text "synthtemp_heira_big"),
    opt1 "--nproc_files" .int (int 4), opt1 "--nproc_clustering" .int (int 1), opt1 "--num_repeat" .int (int 50),
    opt1 "--n_meta_iter_max" .int (int 100), opt1 "--n_sub_iter_max" .int (int 100), opt1 "--verbose" .int (int 0),
    opt1 "--clust_verbose" .int (int 0), optOn "--compute_static_clustering", optOn "--save_clustering_before_nvarinf",
    optOff "--not_compute_clustering", opt1 "--num_varinf_samples" .int .missing, optOn "--only_largest_comp",
    optOn "--separate_comps", optOn "--init_p1", opt1 "--direction" .str (text "forward"), optOn "--print_num_loops",
    opt1 "--integral_rtol" .float .missing, optOff "--not_normalize_cov_mat", opt1 "--num_norm_iter" .int (int 10)]

/-- run_cov_integrals.py:77-149. -/
def covOpts : List (Opt Val) :=
  [optHelp, opt1 "--datadir" .str (text ""), opt1 "--savedir" .str (text ""), opt1 "--ncpu" .int (int 4),
    opt1 "--net_name" .str (text "tempnet"), opt1 "--num_points" .int (int 50), opt1 "--int_length" .int .missing,
    ⟨"--int_list".toList, .many .int, .many []⟩, opt1 "--t_s" .float (int 10), opt1 "--tol" .float (.one (.float (1 / 10 ^ 8))),
    opt1 "--integral_rtol" .float .missing, opt1 "--time_direction" .str (text "both"), optOn "--only_expm_transmats",
    optOn "--only_lin_transmats", optOn "--only_from_start_and_finish", optOn "--only_from_start", optOn "--only_from_finish",
    optOn "--only_one_interval", optOn "--verbose", optOn "--verbose_sparse_matmul", optOn "--print_mem_usage",
    opt1 "--print_interval" .int (int 100), optOn "--save_intermediate"]

/-- run_laplacians_transmats.py:59-158.  Simplification: the three options that must be given have no default. -/
def lapOpts : List (Opt Val) :=
  [optHelp, opt1 "--datadir" .str .missing, opt1 "--net_filename" .str .missing, opt1 "--savedir" .str .missing,
    opt1 "--ncpu" .int (int 4), opt1 "--net_name" .str (text "tempnet"), opt1 "--t_s" .float (int 10),
    opt1 "--tol" .float (.one (.float (1 / 10 ^ 8))), opt1 "--num_slices" .int (int 50), opt1 "--slice_length" .float .missing,
    opt1 "--t0" .float .missing, opt1 "--tend" .float .missing, optOn "--verbose", opt1 "--batch_num" .int (int 0),
    opt1 "--total_num_batches" .int (int 1), ⟨"--tau_w_list".toList, .many .float, .many [.int 1]⟩, optOff "--not_expm_transmat",
    optOff "--not_lin_transmat", optOn "--save_slice_trans", optOn "--compress_slice_trans", optOn "--force_csr", optOn "--save_inter_T",
    optOn "--compress_inter_T", optOn "--save_delta_inter_T", optOff "--not_use_sparse_stoch", optOn "--use_dense_expm",
    optOn "--save_flow_int", optOn "--save_static_adjacencies", optOn "--time_slices_from_net_file",
    ⟨"--intervals_to_skip".toList, .many .int, .many []⟩]

end Verif.CommandLine
