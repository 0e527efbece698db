import Verif.Model.Mcmcloop
import Verif.Model.Prepcovars
import Verif.Model.Debug
/-!
# Model of `/repo/src/bartz/BART.py`

The class `gbart`. The arithmetic of responses is that of an arbitrary type `F`. The cutpoints of the
predictors are computed in exact arithmetic, in an ordered field `P`, with an infinity added. Functions
of external libraries are fields of the structure `Lib`.

Failures (exceptions, assertions) are represented by `none`.

Not modelled: conversion of pandas objects to arrays (a dataframe is represented by the matrix of its
values, already transposed, and the attribute `columns`); the name of the response series, which is
not used (BART.py:271-280); the printing of the log (see `Mcmcloop`).
-/

set_option autoImplicit false

namespace Jax

section
variable {F : Type} [Inhabited F] [Zero F] [Add F] [Sub F] [Mul F] [Div F] [NatCast F] [FltFun F]

/-- `jnp.mean` of a vector -/
def mean (y : List F) : F := Jax.sum y / (y.length : F)

/-- `jnp.var` of a vector -/
def var (y : List F) : F :=
  let m := mean y
  mean (y.map fun v => (v - m) * (v - m))

/-- `jnp.max` of a nonempty vector -/
def maxF : List F → F
  | [] => default
  | x :: xs => xs.foldl (fun a b => if FltFun.leb a b then b else a) x

/-- `jnp.min` of a nonempty vector -/
def minF : List F → F
  | [] => default
  | x :: xs => xs.foldl (fun a b => if FltFun.leb a b then a else b) x

/-- `jnp.mean` along axis 0 of a matrix with `n` columns -/
def meanAxis0 (n : Nat) (m : List (List F)) : List F :=
  vmap n fun j => mean (m.map fun row => row.getD j default)

end

end Jax

namespace Bartz
open Jax

/-- external functions used by the class -/
structure Lib (F P : Type) where
  /-- the value of a predictor -/
  exact : F → P
  /-- rounding error in `jnp.linspace`, see `Prepcovars` -/
  fl : ℚ → ℚ
  /-- `chisq`, `rank` in the output of `jnp.linalg.lstsq(a, b)`, `a` being stored by rows -/
  lstsq : List (List F) → List F → F × Nat
  /-- `jaxext.scipy.special.gammainccinv(a, y)` (jaxext.py:71-79) -/
  gammainccinv : F → F → F
  /-- `a ** b` -/
  pow : F → F → F
  /-- used in `evaluate_trace` to choose the batch sizes, see `Autobatch` -/
  isqrt : Nat → Nat
  /-- number of bytes of inputs and outputs for each tree in `evaluate_trace` given the number of
  datapoints -/
  nbytes : Nat → Nat
  nan : F

/-- attribute `columns` of a dataframe: a list of names with polars, an `Index` object with pandas. The identity
of the latter (`id(x.columns)`) is a number. -/
inductive Columns where
  | list (names : List String)
  | index (id : Nat) (names : List String)
  deriving DecidableEq

/-- the names -/
def Columns.names : Columns → List String
  | .list names => names
  | .index _ names => names

/-- `c1 is c2 or bool(c1 == c2)` as in the comparison of dictionaries (`BART.py:269`). Lists are compared as such.
The comparison of a pandas `Index` with another or with a list is elementwise and gives an array: it fails if the
lengths differ, and `bool(...)` of an array fails unless it has one element. -/
def Columns.eq : Columns → Columns → Option Bool
  | .list names1, .list names2 => some (decide (names1 = names2))
  | .index id1 names1, .index id2 names2 =>
    if id1 = id2 then some true else array_eq names1 names2
  | c1, c2 => array_eq c1.names c2.names
where
  /-- `bool(a1 == a2)` with one-dimensional arrays -/
  array_eq : List String → List String → Option Bool
    | [a], [b] => some (decide (a = b))
    | _, _ => none

/-- format of the predictors (BART.py:256-265) -/
inductive Format where
  | dataframe (columns : Columns)
  | array (num_covar : Nat)
  deriving DecidableEq

/-- predictors given by the user: matrix `(p, n)` stored by rows, with names if it is a dataframe -/
structure Predictors (F : Type) where
  x : List (List F)
  n : Nat
  columns : Option Columns

/-- arguments in `initkw` (BART.py:183, 358). Only the ones that are not set by `gbart` itself, plus
`min_points_per_leaf`; the batch sizes are already resolved as in `InitArgs`. -/
structure InitKw where
  min_points_per_leaf : Option (Option Nat)
  resid_batch_size : Option Nat
  count_batch_size : Option Nat
  save_ratios : Bool

/-- arguments of `gbart` (BART.py:164-184), but for `printevery` -/
structure GbartArgs (K F : Type) where
  x_train : Predictors F
  y_train : List F
  x_test : Option (Predictors F)
  usequants : Bool
  sigest : Option F
  sigdf : F
  sigquant : F
  k : F
  power : F
  base : F
  maxdepth : Nat
  lamda : Option F
  offset : Option F
  ntree : Nat
  numcut : Nat
  ndpost : Nat
  nskip : Nat
  keepevery : Nat
  /-- the random key, i.e., `seed` or `jax.random.key(seed)` (BART.py:363-366) -/
  key : K
  initkw : InitKw

/-- a value that is a number -/
def Value.float? {F : Type} : Value F → Option F
  | .float v => some v
  | _ => Option.none

/-- a value that is an integer -/
def Value.int? {F : Type} : Value F → Option Nat
  | .int v => some v
  | _ => Option.none

/-- a value that is an array of trees -/
def Value.floatTrees? {F : Type} : Value F → Option (List (List F))
  | .floatTrees v => some v
  | _ => Option.none

/-- a value that is an array of trees -/
def Value.intTrees? {F : Type} : Value F → Option (List (List Nat))
  | .intTrees v => some v
  | _ => Option.none

/-- output of `_determine_splits`; `bits` is the type of `max_split` -/
structure Splits (P : Type) where
  splits : List (List (WithTop P))
  max_split : List Nat
  bits : Nat

/-- the attributes of a `gbart` object (BART.py:207-224) -/
structure Gbart (F P : Type) where
  offset : F
  scale : F
  lamda : F
  sigest : Option F
  ntree : Nat
  maxdepth : Nat
  sigma : List F
  first_sigma : List F
  x_train_fmt : Format
  splits : List (List (WithTop P))
  main_trace : Trace F
  mcmc_state : State F
  yhat_test : Option (List (List F))
  yhat_test_mean : Option (List F)

/-- `_process_predictor_input` (BART.py:256-265), the format -/
def predictor_format {F : Type} (x : Predictors F) : Format :=
  match x.columns with
  | some columns => .dataframe columns
  | none => .array x.x.length

/-- `_check_compatible_formats` (BART.py:267-269). The assertion compares two dictionaries; the key `kind` is the
first compared, so formats of different kind are different without comparing the rest. Fails if the comparison fails
or if the formats are different. -/
def check_compatible_formats : Format → Format → Option Unit
  | .dataframe columns1, .dataframe columns2 => do
    let eq ← columns1.eq columns2
    guard (eq = true)
  | .array num_covar1, .array num_covar2 => guard (num_covar1 = num_covar2)
  | _, _ => none

section
variable {K F P : Type} [KeyLike K] [Inhabited F] [Zero F] [One F] [Add F] [Sub F] [Mul F] [Div F]
  [Neg F] [NatCast F] [FltFun F] [Field P] [LinearOrder P]

/-- `jaxext.scipy.stats.invgamma.ppf` (jaxext.py:81-86) -/
def invgamma_ppf (lib : Lib F P) (q a : F) : F := 1 / lib.gammainccinv a q

/-- `_process_offset_settings` (BART.py:311-318) -/
def process_offset_settings (y_train : List F) (offset : Option F) : F :=
  match offset with
  | some offset => offset
  | none => if y_train.length < 1 then 0 else mean y_train

/-- `_process_scale_settings` (BART.py:320-325) -/
def process_scale_settings (y_train : List F) (k : F) : F :=
  if y_train.length < 2 then 1 else (maxF y_train - minF y_train) / ((2 : Nat) * k)

/-- `x_train.T - x_train.mean(axis=1)` (BART.py:299), stored by rows, i.e., one row per datapoint -/
def center_predictors (x : List (List F)) (n : Nat) : List (List F) :=
  vmap n fun i => x.map fun row => row.getD i default - mean row

/-- `sigest2` in `_process_noise_variance_settings` (BART.py:292-305) -/
def process_sigest2 (lib : Lib F P) (x_train : List (List F)) (y_train : List F) (sigest : Option F)
    (offset : F) : F :=
  match sigest with
  | some sigest => sigest * sigest
  | none =>
    if y_train.length < 2 then 1
    else if y_train.length ≤ x_train.length then Jax.var (y_train.map fun v => v - offset)
    else
      let x_centered := center_predictors x_train y_train.length
      let y_centered := y_train.map fun v => v - mean y_train
      let (chisq, rank) := lib.lstsq x_centered y_centered
      let dof := y_train.length - rank
      chisq / (dof : F)

/-- `_process_noise_variance_settings` (BART.py:287-309) -/
def process_noise_variance_settings (lib : Lib F P) (x_train : List (List F)) (y_train : List F)
    (sigest : Option F) (sigdf sigquant : F) (lamda : Option F) (offset : F) : F × Option F :=
  match lamda with
  | some lamda => (lamda, none)
  | none =>
    let sigest2 := process_sigest2 lib x_train y_train sigest offset
    let alpha := sigdf / (2 : Nat)
    let invchi2 := invgamma_ppf lib sigquant alpha / (2 : Nat)
    let invchi2rid := invchi2 * sigdf
    (sigest2 / invchi2rid, some (FltFun.sqrt sigest2))

/-- the exact values of the predictors, ready to be compared with the cutpoints -/
def exact_matrix (lib : Lib F P) (x : List (List F)) : List (List (WithTop P)) :=
  x.map fun row => row.map fun v => ((lib.exact v : P) : WithTop P)

/-- `_determine_splits` (BART.py:327-332) -/
def determine_splits (lib : Lib F P) (x_train : List (List F)) (n : Nat) (usequants : Bool) (numcut : Nat) :
    Option (Splits P) :=
  if usequants then
    let out := quantilized_splits_from_matrix lib.fl (float_dtype P) (exact_matrix lib x_train) n (numcut + 1)
    some { splits := out.1, max_split := out.2
           bits := minimal_unsigned_dtype (((min (numcut + 1) n : Nat) : Int) - 1) }
  else do
    let out ← uniform_splits_from_matrix (x_train.map fun row => row.map lib.exact) (numcut + 1)
    some { splits := out.1.map fun row => row.map fun v : P => ((v : P) : WithTop P), max_split := out.2
           bits := minimal_unsigned_dtype (((numcut + 1 : Nat) : Int) - 1) }

/-- `_bin_predictors` (BART.py:334-336) -/
def gbart_bin_predictors (lib : Lib F P) (x : List (List F)) (splits : List (List (WithTop P))) :
    List (List Nat) :=
  bin_predictors (exact_matrix lib x) splits

/-- `_transform_input` (BART.py:338-340) -/
def transform_input (y : List F) (offset scale : F) : List F := y.map fun v => (v - offset) / scale

/-- the arguments passed to `mcmcstep.init` by `_setup_mcmc` (BART.py:342-359) -/
def setup_args (lib : Lib F P) (x_train : List (List Nat)) (y_train : List F) (max_split : List Nat)
    (split_bits : Nat) (lamda sigdf power base : F) (maxdepth ntree : Nat) (initkw : InitKw) : InitArgs F :=
  let p_nonterminal := (List.range (maxdepth - 1)).map fun depth =>
    base / lib.pow ((1 + depth : Nat) : F) power
  let sigma2_alpha := sigdf / (2 : Nat)
  let sigma2_beta := lamda * sigma2_alpha
  { X := x_train, y := y_train, max_split := max_split, split_bits := split_bits, num_trees := ntree
    p_nonterminal := p_nonterminal, sigma2_alpha := sigma2_alpha, sigma2_beta := sigma2_beta
    min_points_per_leaf := initkw.min_points_per_leaf.getD (some 5)
    resid_batch_size := initkw.resid_batch_size, count_batch_size := initkw.count_batch_size
    save_ratios := initkw.save_ratios, nan := lib.nan }

/-- `_transform_output` (BART.py:374-376), applied to a matrix -/
def transform_output (y : List (List F)) (offset scale : F) : List (List F) :=
  y.map fun row => row.map fun v => offset + scale * v

/-- `_extract_sigma` (BART.py:378-380) -/
def extract_sigma (trace : Trace F) (scale : F) : Option (List F) := do
  let sigma2 ← trace.lookup "sigma2"
  let sigma2 ← sigma2.mapM Value.float?
  return sigma2.map fun v => scale * FltFun.sqrt v

/-- `predict` (BART.py:236-254). The assertion is that on the formats. -/
def Gbart.predict (lib : Lib F P) (g : Gbart F P) (x_test : Predictors F) : Option (List (List F)) := do
  check_compatible_formats (predictor_format x_test) g.x_train_fmt
  let x := gbart_bin_predictors lib x_test.x g.splits
  let yhat_test ← evaluate_trace lib.isqrt (lib.nbytes x_test.n) x_test.n g.main_trace x
  return transform_output yhat_test g.offset g.scale

/-- `yhat_train` (BART.py:226-230) -/
def Gbart.yhat_train (lib : Lib F P) (g : Gbart F P) : Option (List (List F)) := do
  let x_train := g.mcmc_state.X
  let n := g.mcmc_state.y.length
  let yhat_train ← evaluate_trace lib.isqrt (lib.nbytes n) n g.main_trace x_train
  return transform_output yhat_train g.offset g.scale

/-- `yhat_train_mean` (BART.py:232-234) -/
def Gbart.yhat_train_mean (lib : Lib F P) (g : Gbart F P) : Option (List F) :=
  (g.yhat_train lib).map fun y => meanAxis0 g.mcmc_state.y.length y

/-- the settings determined from the data in `__init__` (BART.py:191-193, 199) -/
structure Settings (F : Type) where
  offset : F
  scale : F
  lamda : F
  sigest : Option F
  lamda_scaled : F

/-- BART.py:191-199 -/
def gbart_settings (lib : Lib F P) (a : GbartArgs K F) : Settings F :=
  let offset := process_offset_settings a.y_train a.offset
  let scale := process_scale_settings a.y_train a.k
  let (lamda, sigest) := process_noise_variance_settings lib a.x_train.x a.y_train a.sigest a.sigdf a.sigquant
    a.lamda offset
  { offset := offset, scale := scale, lamda := lamda, sigest := sigest
    lamda_scaled := lamda / (scale * scale) }

/-- BART.py:195-201: the initial state of the MCMC, as the arguments of `mcmcstep.init` -/
def gbart_init_args (lib : Lib F P) (a : GbartArgs K F) (sp : Splits P) : InitArgs F :=
  let s := gbart_settings lib a
  setup_args lib (gbart_bin_predictors lib a.x_train.x sp.splits)
    (transform_input a.y_train s.offset s.scale) sp.max_split sp.bits s.lamda_scaled a.sigdf a.power a.base
    a.maxdepth a.ntree a.initkw

/-- `gbart.__init__` (BART.py:164-224) -/
def gbart (lib : Lib F P) (rng : Rng K F) (a : GbartArgs K F) : Option (Gbart F P) := do
  let x_train_fmt := predictor_format a.x_train
  guard (a.x_train.n = a.y_train.length)
  let s := gbart_settings lib a
  let sp ← determine_splits lib a.x_train.x a.x_train.n a.usequants a.numcut
  let mcmc_state := init (gbart_init_args lib a sp)
  let run := run_mcmc rng mcmc_state a.nskip a.ndpost a.keepevery a.key
  let sigma ← extract_sigma run.main_trace s.scale
  let first_sigma ← extract_sigma run.burnin_trace s.scale
  let g : Gbart F P :=
    { offset := s.offset, scale := s.scale, lamda := s.lamda, sigest := s.sigest, ntree := a.ntree
      maxdepth := a.maxdepth, sigma := sigma, first_sigma := first_sigma, x_train_fmt := x_train_fmt
      splits := sp.splits, main_trace := run.main_trace, mcmc_state := run.bart
      yhat_test := none, yhat_test_mean := none }
  match a.x_test with
  | none => return g
  | some x_test => do
    let yhat_test ← g.predict lib x_test
    return { g with yhat_test := some yhat_test, yhat_test_mean := some (meanAxis0 x_test.n yhat_test) }

/-! ### Private methods for inspection -/

/-- `_sigma_harmonic_mean` (BART.py:391-402) -/
def Gbart.sigma_harmonic_mean (g : Gbart F P) (prior : Bool) : F :=
  let bart := g.mcmc_state
  let (alpha, beta) :=
    if prior then (bart.sigma2_alpha, bart.sigma2_beta)
    else
      let alpha := bart.sigma2_alpha + (bart.resid.length : F) / (2 : Nat)
      let norm2 := Jax.sum (bart.resid.map fun r => r * r)
      (alpha, bart.sigma2_beta + norm2 / (2 : Nat))
  FltFun.sqrt (beta / alpha) * g.scale

/-- `_compare_resid` (BART.py:404-409) -/
def Gbart.compare_resid (g : Gbart F P) : List F × List F :=
  let bart := g.mcmc_state
  let yhat := evaluate_forest bart.y.length bart.X bart.leaf_trees bart.var_trees bart.split_trees
  (bart.resid, List.zipWith (· - ·) bart.y yhat)

/-- a field of integers of a trace -/
def trace_ints (trace : Trace F) (field : String) : Option (List Nat) := do
  let v ← trace.lookup field
  v.mapM Value.int?

/-- `_avg_acc` (BART.py:411-417), as numerators and denominators -/
def Gbart.avg_acc (g : Gbart F P) : Option ((Nat × Nat) × (Nat × Nat)) := do
  let ga ← trace_ints g.main_trace "grow_acc_count"
  let gp ← trace_ints g.main_trace "grow_prop_count"
  let pa ← trace_ints g.main_trace "prune_acc_count"
  let pp ← trace_ints g.main_trace "prune_prop_count"
  return ((ga.sum, gp.sum), (pa.sum, pp.sum))

/-- `_avg_prop` (BART.py:419-426), as numerators and denominators -/
def Gbart.avg_prop (g : Gbart F P) : Option ((Nat × Nat) × (Nat × Nat)) := do
  let gp ← trace_ints g.main_trace "grow_prop_count"
  let pp ← trace_ints g.main_trace "prune_prop_count"
  let pgrow := gp.sum
  let pprune := pp.sum
  let total := pgrow + pprune
  return ((pgrow, total), (pprune, total))

/-- `_avg_move` (BART.py:428-431), as numerators and denominators -/
def Gbart.avg_move (g : Gbart F P) : Option ((Nat × Nat) × (Nat × Nat)) := do
  let (agrow, aprune) ← g.avg_acc
  let (pgrow, pprune) ← g.avg_prop
  return ((agrow.1 * pgrow.1, agrow.2 * pgrow.2), (aprune.1 * pprune.1, aprune.2 * pprune.2))

/-- arrays of trees in a trace -/
def trace_forests (trace : Trace F) :
    Option (List (List (List F)) × List (List (List Nat)) × List (List (List Nat))) := do
  let leaf ← trace.lookup "leaf_trees"
  let var ← trace.lookup "var_trees"
  let split ← trace.lookup "split_trees"
  let leaf ← leaf.mapM Value.floatTrees?
  let var ← var.mapM Value.intTrees?
  let split ← split.mapM Value.intTrees?
  return (leaf, var, split)

/-- `_show_tree` (BART.py:383-389), as the list of lines printed, for nonnegative indices -/
def Gbart.show_tree (g : Gbart F P) (i_sample i_tree : Nat) (print_all : Bool) : Option (List (Line F)) := do
  let (leaf, var, split) ← trace_forests g.main_trace
  let leaf_tree := gather (gather leaf i_sample) i_tree
  let var_tree := gather (gather var i_sample) i_tree
  let split_tree := gather (gather split i_sample) i_tree
  print_tree leaf_tree var_tree split_tree print_all

/-- `_depth_distr` (BART.py:433-437) -/
def Gbart.depth_distr (g : Gbart F P) : Option (List (List Nat)) := do
  let (_, _, split) ← trace_forests g.main_trace
  return trace_depth_distr (2 ^ (g.maxdepth - 1)) split

/-- `_points_per_leaf_distr` (BART.py:439-441) -/
def Gbart.points_per_leaf_distr (g : Gbart F P) : Option (List (List Nat)) := do
  let (_, var, split) ← trace_forests g.main_trace
  return trace_points_per_leaf_distr g.mcmc_state.y.length (var.zip split) g.mcmc_state.X

/-- the trees of a forest as arguments of `check_tree` -/
def forest_arrays (var_bits split_bits : Nat) (leaf : List (List F)) (var split : List (List Nat)) :
    List (TreeArrays F) :=
  vmap leaf.length fun t =>
    { leaf_tree := leaf.getD t [], var_tree := var.getD t [], var_bits := var_bits
      split_tree := split.getD t [], split_bits := split_bits }

/-- `_check_trees` (BART.py:443-445) -/
def Gbart.check_trees (g : Gbart F P) : Option (List (List Nat)) := do
  let (leaf, var, split) ← trace_forests g.main_trace
  let trees := vmap leaf.length fun k =>
    forest_arrays g.mcmc_state.var_bits g.mcmc_state.split_bits (leaf.getD k []) (var.getD k [])
      (split.getD k [])
  return check_trace trees { values := g.mcmc_state.max_split, bits := g.mcmc_state.split_bits }

/-- `_tree_goes_bad` (BART.py:447-450); `ntree` is the second dimension of the array -/
def Gbart.tree_goes_bad (g : Gbart F P) : Option (List (List Bool)) := do
  let check ← g.check_trees
  let bad := check.map fun row => row.map fun e => e != 0
  let bad_before := (List.replicate g.ntree false) :: bad.dropLast
  return List.zipWith (fun r r' => List.zipWith (fun b b' => b && !b') r r') bad bad_before

end

end Bartz
