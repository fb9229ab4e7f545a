/-
Python language semantics used by the model: list indexing with negative indexes, `list.pop(i)`,
`list.insert(i, x)`, slices.  These are facts about CPython lists, not about itertree code.
-/
namespace ITree

/-- `lst[i]` for a Python integer `i` (negative counts from the end); `none` is IndexError. -/
def pyGet {α} (l : List α) (i : Int) : Option α :=
  if 0 ≤ i then l[i.toNat]? else
    if 0 ≤ i + l.length then l[(i + l.length).toNat]? else none

/-- The plain position denoted by a Python index, if it is in range. -/
def pyPos (len : Nat) (i : Int) : Option Nat :=
  if 0 ≤ i then (if i.toNat < len then some i.toNat else none) else
    if 0 ≤ i + len then some (i + len).toNat else none

/-- The position at which `list.insert(i, x)` puts `x` (CPython `ins1`: negative `i` is shifted by the length once and then
clamped to 0, too large `i` is clamped to the length). -/
def pyInsPos (len : Nat) (i : Int) : Nat :=
  if i < 0 then (i + len).toNat else min i.toNat len

/-- `list.insert(i, x)`. -/
def pyInsert {α} (l : List α) (i : Int) (x : α) : List α :=
  l.insertIdx (pyInsPos l.length i) x

/-- A Python slice `a:b:c`; `none` is an omitted part. -/
structure PySlice where
  start : Option Int
  stop : Option Int
  step : Option Int
  deriving DecidableEq, Repr, Inhabited

/-- clamp of CPython's `PySlice_AdjustIndices` -/
def clampIdx (len : Int) (lo hi : Int) (i : Int) : Int :=
  let i := if i < 0 then i + len else i
  if i < lo then lo else if hi < i then hi else i

/-- indexes `start, start+step, ...` strictly before `stop` for a positive step -/
def upFrom (fuel : Nat) (i stop step : Int) : List Int :=
  match fuel with
  | 0 => []
  | f + 1 => if i < stop then i :: upFrom f (i + step) stop step else []

/-- indexes for a negative step -/
def downFrom (fuel : Nat) (i stop step : Int) : List Int :=
  match fuel with
  | 0 => []
  | f + 1 => if stop < i then i :: downFrom f (i + step) stop step else []

/-- `slice.indices(len)` followed by `range(...)`; `none` is the ValueError of a zero step. -/
def PySlice.indices (s : PySlice) (len : Nat) : Option (List Int) :=
  let st := s.step.getD 1
  if st = 0 then none
  else if 0 < st then
    let a := match s.start with | none => 0 | some i => clampIdx len 0 len i
    let b := match s.stop with | none => (len : Int) | some i => clampIdx len 0 len i
    some (upFrom len a b st)
  else
    let a := match s.start with | none => (len : Int) - 1 | some i => clampIdx len (-1) (len - 1) i
    let b := match s.stop with | none => -1 | some i => clampIdx len (-1) (len - 1) i
    some (downFrom len a b st)

/-- `lst[a:b:c]` -/
def pySlice {α} (l : List α) (s : PySlice) : Option (List α) :=
  (s.indices l.length).map fun ix => ix.filterMap fun i => l[i.toNat]?

end ITree
