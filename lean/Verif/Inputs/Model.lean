import Verif.Equations.Model
import Mathlib.Data.Finset.Lattice.Fold

/-
Model of the conversion of per-asset parameters, `src/skfolio/utils/tools.py` L357-503 and L704-726, and of its callers `_clean_input`
in `optimization/convex/_base.py` L615-657 and `optimization/cluster/hierarchical/_base.py` L234-277.

Names are lists of characters (as in `Verif/Equations`). A dictionary is the list of its items; `lookup` finds the first item with a key,
and the theorems assume distinct keys where it matters. The values are of any type `V`; `isNaN` is `np.isnan`. The texts of the
messages are not modelled: an exception is named after the line that raises it.
-/
set_option autoImplicit false

namespace Skfolio.Inputs

open Skfolio.Equations (Word)

/-- The `ValueError`s: `noNames` L399-403 and L486-490, `dim` L427-428, `nan` L430-431, `shape` L433-441, `duplicates` L479-480,
`missing` L496, `index` L500-501, `none` hierarchical `_base.py` L265-266. -/
inductive Err where
  | noNames
  | dim
  | nan
  | shape
  | duplicates
  | missing (name : Word)
  | index (i : Int)
  | none
  deriving DecidableEq, Repr

/-- What a caller may give for a per-asset parameter: a dictionary, or an array-like, which `np.asarray` (L425) turns into an array
of dimension 0, 1 or 2 (arrays of more dimensions are refused like those of dimension 2, ragged ones already by numpy). -/
inductive Items (V : Type) where
  | dict (kv : List (Word × V))
  | scalar (v : V)
  | array1 (xs : List V)
  | array2 (rows : List (List V))

section numbers
variable {V : Type}

/-- The last two checks of `input_to_array`, L430-442, for a 1D array and a `fill_value` that is a number. -/
def checkArray (isNaN : V → Bool) (n : Nat) (xs : List V) : Except Err (List V) :=
  if xs.any isNaN then .error .nan
  else if xs.length ≠ n then .error .shape
  else .ok xs

/-- `input_to_array(dim=1)`, L396-442. `names` is `assets_names`. -/
def inputToArray (isNaN : V → Bool) (items : Items V) (n : Nat) (fill : V) (names : Option (List Word)) : Except Err (List V) :=
  match items with
  | .dict kv =>
    match names with
    | none => .error .noNames
    | some names => checkArray isNaN n (names.map fun asset => (kv.lookup asset).getD fill)      -- L405
  | .scalar _ => .error .dim
  | .array1 xs => checkArray isNaN n xs
  | .array2 _ => .error .dim

/-- A cleaned parameter of a convex optimization: a number for all assets, or one number per asset. -/
inductive Cleaned (V : Type) where
  | number (v : V)
  | array (xs : List V)
  deriving DecidableEq, Repr

/-- `_clean_input` of convex/_base.py, L644-657. `value = none` is `None`. -/
def cleanInput (isNaN : V → Bool) (value : Option (Items V)) (n : Nat) (fill : V) (names : Option (List Word)) :
    Except Err (Cleaned V) :=
  match value with
  | none => .ok (.number fill)
  | some (.scalar v) => .ok (.number v)
  | some items =>
    match inputToArray isNaN items n fill names with
    | .error e => .error e
    | .ok xs => .ok (.array xs)

/-- `_clean_input` of hierarchical/_base.py, L265-277. -/
def cleanInputArray (isNaN : V → Bool) (value : Option (Items V)) (n : Nat) (fill : V) (names : Option (List Word)) :
    Except Err (List V) :=
  match value with
  | none => .error .none
  | some (.scalar v) => .ok (List.replicate n v)
  | some items => inputToArray isNaN items n fill names

end numbers

/-! ### groups, `input_to_array(dim=2)` with a dictionary -/

/-- The value of an asset in the dictionary of its groups. -/
inductive GroupItem where
  | none
  | one (g : Word)
  | many (gs : List Word)

/-- `elem`, L410-416. -/
def elems (kv : List (Word × GroupItem)) (asset : Word) : List Word :=
  match kv.lookup asset with
  | Option.none => [asset]
  | some .none => [asset]
  | some (.one g) => [asset, g]
  | some (.many gs) => asset :: gs

/-- Number of columns of the data frame of L419: the length of the longest row. -/
def width {n : Nat} (kv : List (Word × GroupItem)) (names : Fin n → Word) : Nat :=
  Finset.univ.sup fun j => (elems kv (names j)).length

/-- L408-423: `pd.DataFrame.from_dict(orient="index")` fills the short rows with `None`; `.loc[assets_names].to_numpy().T` has one row
per level and one column per asset. With repeated asset names `.loc` repeats the row of the data frame. The checks of L427-442 always
pass (the `fill_value` is a string). -/
def groupTable {n : Nat} (kv : List (Word × GroupItem)) (names : Fin n → Word) : List (Fin n → Option Word) :=
  (List.range (width kv names)).map fun l j => (elems kv (names j))[l]?

/-- The table as `equations_to_matrix` and `group_cardinalities_to_matrix` see it. In `Verif/Equations` the entries are words; `None` is
written as the empty word, which is no token of any constraint (`_split_equation_string` drops the empty ones). -/
def groupWords {n : Nat} (kv : List (Word × GroupItem)) (names : Fin n → Word) : List (Fin n → Word) :=
  (groupTable kv names).map fun row j => (row j).getD []

/-! ### lists of assets -/

/-- An asset given by name or by index. -/
inductive AssetRef where
  | name (a : Word)
  | index (i : Int)
  deriving DecidableEq, Repr

/-- One turn of the loop of `validate_input_list`, L484-502: the indices to append, or the exception. -/
def resolveItem (n : Nat) (names : Option (List Word)) (raiseIfMissing : Bool) : AssetRef → Except Err (List Nat)
  | .name a =>
    match names with
    | none => .error .noNames
    | some names =>
      match names.findIdx? fun b => decide (b = a) with
      | some i => .ok [i]                                            -- L491-493
      | none => if raiseIfMissing then .error (.missing a) else .ok []
  | .index i => if 0 ≤ i ∧ i < n then .ok [i.toNat] else .error (.index i)

/-- `validate_input_list`, L445-503. -/
def validateInputList (items : List AssetRef) (n : Nat) (names : Option (List Word)) (raiseIfMissing : Bool) : Except Err (List Nat) :=
  if ¬ items.Nodup then .error .duplicates
  else items.foldlM (fun res item => (resolveItem n names raiseIfMissing item).map (res ++ ·)) []

/-! ### names of columns -/

/-- `f"{col}_{cur_count}"`, L724. -/
def suffixed (col : Word) (k : Nat) : Word := col ++ '_' :: Nat.toDigits 10 k

/-- The loop of `deduplicate_names`, L721-726; `counts` is the dictionary of the counts (0 by default). -/
def dedupFrom (counts : Word → Nat) : List Word → List Word
  | [] => []
  | col :: names =>
    (if 0 < counts col then suffixed col (counts col) else col) :: dedupFrom (Function.update counts col (counts col + 1)) names

/-- `deduplicate_names`, L704-726. -/
def deduplicateNames (names : List Word) : List Word := dedupFrom (fun _ => 0) names

end Skfolio.Inputs
