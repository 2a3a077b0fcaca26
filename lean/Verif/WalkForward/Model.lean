/-
Model of `src/skfolio/model_selection/_walk_forward.py`.

The generators are modelled by the list of (train indices, test indices) they yield.  A fuel argument bounds the number of
iterations of the `while True` loops; `none` means "still yielding when the fuel is used up".
-/
set_option autoImplicit false

namespace Skfolio.WalkForward

/-- Exceptions raised by the splitter. -/
inductive Err where
  | valueError
  deriving DecidableEq, Repr

/-- `l[a:b]` for non-negative bounds (Python slicing clips to the length of the list). -/
def slice {α : Type} (l : List α) (a b : Nat) : List α := (l.take b).drop a

/-- Parameters of `WalkForward.__init__` in observation mode (`freq is None`), _walk_forward.py L183-201.
Sizes are natural numbers (negative sizes, which the constructor does not reject, are outside the model). -/
structure Params where
  testSize : Nat
  trainSize : Nat
  purgedSize : Nat
  expendTrain : Bool
  reduceTest : Bool

/-- The `while True` loop of `_split_without_period`, _walk_forward.py L323-342. -/
def loop (p : Params) (n : Nat) : (fuel : Nat) → (testStart : Nat) → Option (List (List Nat × List Nat))
  | fuel, testStart =>
    if testStart ≥ n then some []                                   -- L324-325
    else
      let testEnd := testStart + p.testSize                         -- L326
      let trainEnd := testStart - p.purgedSize                      -- L327
      let trainStart := if p.expendTrain then 0 else trainEnd - p.trainSize  -- L328-331
      if testEnd > n ∧ p.reduceTest = false then some []            -- L333-335
      else
        let test := if testEnd > n then (List.range n).drop testStart   -- L336
          else slice (List.range n) testStart testEnd               -- L338
        let train := slice (List.range n) trainStart trainEnd       -- L339
        match fuel with
        | 0 => none
        | fuel + 1 => (loop p n fuel testEnd).map (fun rest => (train, test) :: rest)  -- L340-342

/-- `_split_without_period`, _walk_forward.py L305-342: the error of L313-318, otherwise the yielded splits. -/
def split (p : Params) (n fuel : Nat) : Except Err (Option (List (List Nat × List Nat))) :=
  if p.trainSize + p.purgedSize ≥ n then .error .valueError
  else .ok (loop p n fuel (p.trainSize + p.purgedSize))

/-- `get_n_splits`, _walk_forward.py L297-302 (Python `//` and `%` on possibly negative integers are floor division and
floor modulus). `train_size` is an integer here; `freq` is not looked at, as in the code. -/
def getNSplits (p : Params) (nSamples : Nat) : Int :=
  let n : Int := (nSamples : Int) - p.trainSize - p.purgedSize
  if p.reduceTest && decide (Int.fmod n p.testSize ≠ 0) then Int.fdiv n p.testSize + 1
  else Int.fdiv n p.testSize

/-! ### Period mode -/

/-- `np.arange(a, b)` on integers. -/
def arange (a b : Int) : List Int := (List.range (b - a).toNat).map (fun k : Nat => a + (k : Int))

/-- `ts_index.get_indexer([d], method="ffill")`: position of the last timestamp `≤ d`, `-1` if there is none.
Timestamps are integers (nanoseconds) and `ts` is increasing, so that position is the number of timestamps `≤ d` minus 1. -/
def ffill (ts : List Int) (d : Int) : Int := (ts.countP (fun t => decide (t ≤ d)) : Int) - 1

/-- `ts_index.get_indexer([d], method="bfill")`: position of the first timestamp `≥ d`, `-1` if there is none. -/
def bfill (ts : List Int) (d : Int) : Int :=
  if ts.countP (fun t => decide (t < d)) < ts.length then (ts.countP (fun t => decide (t < d)) : Int) else -1

/-- The `while True` loop of `_split_from_period_without_train_offset`, _walk_forward.py L367-389; `idx` is the array of
L366. -/
def periodLoop (p : Params) (nSamples : Nat) (idx : List Int) :
    (fuel : Nat) → (i : Nat) → Option (List (List Int × List Int))
  | fuel, i =>
    if i + p.trainSize ≥ idx.length then some []                                       -- L370-371
    else if i + p.trainSize + p.testSize ≥ idx.length ∧ p.reduceTest = false then some []  -- L373-375
    else
      let test := if i + p.trainSize + p.testSize ≥ idx.length
        then arange (idx.getD (i + p.trainSize) 0) nSamples                            -- L376
        else arange (idx.getD (i + p.trainSize) 0) (idx.getD (i + p.trainSize + p.testSize) 0)  -- L379-381
      let trainStart := if p.expendTrain then 0 else idx.getD i 0                      -- L382-385
      let train := arange trainStart (idx.getD (i + p.trainSize) 0 - p.purgedSize)     -- L386
      match fuel with
      | 0 => none
      | fuel + 1 => (periodLoop p nSamples idx fuel (i + p.testSize)).map (fun rest => (train, test) :: rest)

/-- `_split_from_period_without_train_offset`, _walk_forward.py L345-389.  `ts` is the date index of `X` and `calendar` is
`date_range` after the `freq_offset` has been added (L357-364): which dates pandas produces for a frequency is not modelled, the
theorems hold for every non-decreasing calendar. -/
def periodSplit (p : Params) (previous : Bool) (ts calendar : List Int) (fuel : Nat) :
    Option (List (List Int × List Int)) :=
  periodLoop p ts.length (calendar.map (if previous then ffill ts else bfill ts)) fuel 0

/-- The `while True` loop of `_split_from_period_with_train_offset`, _walk_forward.py L422-440. -/
def offsetLoop (p : Params) (nSamples : Nat) (idx trainIdx : List Int) :
    (fuel : Nat) → (i : Nat) → Option (List (List Int × List Int))
  | fuel, i =>
    if i ≥ idx.length then some []                                                     -- L423-424
    else if i + p.testSize ≥ idx.length ∧ p.reduceTest = false then some []            -- L426-428
    else
      let test := if i + p.testSize ≥ idx.length then arange (idx.getD i 0) nSamples   -- L429
        else arange (idx.getD i 0) (idx.getD (i + p.testSize) 0 - p.purgedSize)        -- L431
      let trainStart := if p.expendTrain then 0 else trainIdx.getD i 0                 -- L433-436
      let train := arange trainStart (idx.getD i 0)                                    -- L437
      match fuel with
      | 0 => none
      | fuel + 1 => (offsetLoop p nSamples idx trainIdx fuel (i + p.testSize)).map (fun rest => (train, test) :: rest)

/-- `_split_from_period_with_train_offset`, _walk_forward.py L392-440.  `trainCalendar` is `date_range - train_size` (L414).
`np.argmax(train_idx > -1)` (L421) is the first position with a non-negative entry; when there is none the generator
stops at once (L418-419). `p.trainSize` is not used in this mode. -/
def offsetSplit (p : Params) (previous : Bool) (ts calendar trainCalendar : List Int) (fuel : Nat) :
    Option (List (List Int × List Int)) :=
  let idx := calendar.map (if previous then ffill ts else bfill ts)
  let trainIdx := trainCalendar.map (ffill ts)
  if trainIdx.all (fun t => t == -1) then some []
  else offsetLoop p ts.length idx trainIdx fuel (trainIdx.findIdx (fun t => decide (t > -1)))

end Skfolio.WalkForward
