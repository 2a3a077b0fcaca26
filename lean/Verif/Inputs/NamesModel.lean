import Verif.Inputs.Model
import Mathlib.Data.List.Dedup

/-!
# Names of assets and of measures (model)

Models `default_asset_names` and `get_feature_names` (`utils/tools.py` L688-701, L729-787) and `annualized_measure`, `non_annualized_measure` (`measures/_enums.py` L52-72).
-/
set_option autoImplicit false

namespace Skfolio.Inputs

open Skfolio.Equations (Word)

/-- `default_asset_names`, L688-701: `x0`, `x1`, ... -/
def defaultAssetNames (n : Nat) : List Word := (List.range n).map fun i => 'x' :: Nat.toDigits 10 i

/-- A Python type: its identity and its `__qualname__`. Two types may have the same. -/
structure PyType where
  id : Nat
  qualname : String
  deriving DecidableEq, Repr

/-- The type `str`. -/
def pyStr : PyType := ⟨0, "str"⟩

/-- The label of a column: its type and what distinguishes it. -/
structure Label where
  type : PyType
  text : Word
  deriving DecidableEq, Repr

/-- What `X` may be: a frame (pandas or by the protocol `__dataframe__`) with the labels of its columns, or anything else. -/
inductive Container
  | frame (columns : List Label)
  | other

/-- `get_feature_names`, L729-787; `none` is the result `None`, the error is the `TypeError`. That `types` is sorted plays no role. -/
def getFeatureNames : Container → Except Unit (Option (List Label))
  | .other => .ok none
  | .frame columns =>
    if columns.length = 0 then .ok none
    else
      let types := ((columns.map Label.type).dedup).map PyType.qualname
      if 1 < types.length ∧ "str" ∈ types then .error ()
      else if types = ["str"] then .ok (some columns)
      else .ok none

inductive EnumErr
  | valueError
  | attributeError
  deriving DecidableEq, Repr

/-- `is_annualized`, L52-54: `name[:10] == "ANNUALIZED"`. -/
def isAnnualized (name : Word) : Bool := name.take 10 == "ANNUALIZED".toList

/-- `annualized_measure`, L56-66, in an enumeration with the given members. -/
def annualizedMeasure (members : List Word) (name : Word) : Except EnumErr Word :=
  if isAnnualized name then .error .valueError
  else if "ANNUALIZED_".toList ++ name ∈ members then .ok ("ANNUALIZED_".toList ++ name) else .error .attributeError

/-- `non_annualized_measure`, L68-72: `getattr(self.__class__, self.name[11:])`. -/
def nonAnnualizedMeasure (members : List Word) (name : Word) : Except EnumErr Word :=
  if isAnnualized name then (if name.drop 11 ∈ members then .ok (name.drop 11) else .error .attributeError) else .error .valueError

/-- The members of the three enumerations with annualised measures, `measures/_enums.py` L88-90, L152-175, L289-312. -/
def perfMembers : List Word := ["MEAN", "ANNUALIZED_MEAN"].map String.toList
@[inherit_doc perfMembers]
def riskMembers : List Word :=
  ["VARIANCE", "ANNUALIZED_VARIANCE", "SEMI_VARIANCE", "ANNUALIZED_SEMI_VARIANCE", "STANDARD_DEVIATION", "ANNUALIZED_STANDARD_DEVIATION", "SEMI_DEVIATION", "ANNUALIZED_SEMI_DEVIATION",
    "MEAN_ABSOLUTE_DEVIATION", "CVAR", "EVAR", "WORST_REALIZATION", "CDAR", "MAX_DRAWDOWN", "AVERAGE_DRAWDOWN", "EDAR", "FIRST_LOWER_PARTIAL_MOMENT", "ULCER_INDEX", "GINI_MEAN_DIFFERENCE"].map String.toList
@[inherit_doc perfMembers]
def ratioMembers : List Word :=
  ["SHARPE_RATIO", "ANNUALIZED_SHARPE_RATIO", "SORTINO_RATIO", "ANNUALIZED_SORTINO_RATIO", "MEAN_ABSOLUTE_DEVIATION_RATIO", "FIRST_LOWER_PARTIAL_MOMENT_RATIO", "VALUE_AT_RISK_RATIO", "CVAR_RATIO",
    "ENTROPIC_RISK_MEASURE_RATIO", "EVAR_RATIO", "WORST_REALIZATION_RATIO", "DRAWDOWN_AT_RISK_RATIO", "CDAR_RATIO", "CALMAR_RATIO", "AVERAGE_DRAWDOWN_RATIO", "EDAR_RATIO", "ULCER_INDEX_RATIO",
    "GINI_MEAN_DIFFERENCE_RATIO"].map String.toList

end Skfolio.Inputs
