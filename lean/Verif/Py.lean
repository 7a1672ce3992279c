/-
Python run-time semantics that biggus relies on: exceptions as values, `slice.indices`, `range`,
and integer indexing of sequences.  (CPython semantics; part of the trusted base.)
-/
namespace Biggus

/-- The exception classes raised by the modelled code. -/
inductive PyErr
  | index | value | type | notImpl | key | axisSupport | assertion | runtime | attribute | other
deriving DecidableEq, Repr

/-- Result of a Python call: a value or a raised exception. -/
abbrev Res := Except PyErr

/-- A Python `slice` object with integer-or-None fields. -/
structure PySlice where
  start : Option Int
  stop  : Option Int
  step  : Option Int
deriving DecidableEq, Repr

/-- `slice(None)`. -/
def PySlice.full : PySlice := ⟨none, none, none⟩

/-- Clamp used by CPython's `slice.indices` for an explicit start/stop. -/
def clampIdx (x lower upper n : Int) : Int :=
  let x := if x < 0 then x + n else x
  if x < lower then lower else if upper < x then upper else x

/-- CPython `slice.indices(n)`: `(start, stop, step)`, `ValueError` on a zero step. -/
def PySlice.indices (s : PySlice) (n : Nat) : Res (Int × Int × Int) :=
  let step := s.step.getD 1
  if step = 0 then .error .value
  else
    let lower : Int := if step < 0 then -1 else 0
    let upper : Int := if step < 0 then (n : Int) - 1 else n
    let start := match s.start with
      | none => if step < 0 then upper else lower
      | some x => clampIdx x lower upper n
    let stop := match s.stop with
      | none => if step < 0 then lower else upper
      | some x => clampIdx x lower upper n
    .ok (start, stop, step)

/-- `len(range(start, stop, step))` for a non-zero step. -/
def rangeLen (start stop step : Int) : Nat :=
  if 0 < step then ((stop - start + step - 1) / step).toNat
  else ((start - stop + (-step) - 1) / (-step)).toNat

/-- `list(range(start, stop, step))` for a non-zero step. -/
def pyRange (start stop step : Int) : List Int :=
  (List.range (rangeLen start stop step)).map (fun (k : Nat) => start + (k : Int) * step)

/-- `range(*s.indices(n))` as a list of Python ints. -/
def PySlice.range (s : PySlice) (n : Nat) : Res (List Int) := do
  let (a, b, c) ← s.indices n
  return pyRange a b c

/-- Normalisation of an in-range Python index (`-n ≤ i < n`) into `0..n-1`. -/
def normIdx (i : Int) (n : Nat) : Nat := if i < 0 then (i + n).toNat else i.toNat

/-- Is `i` a legal Python index for a sequence of length `n`? -/
def inRange (i : Int) (n : Nat) : Bool := decide (-(n : Int) ≤ i) && decide (i < n)

/-- `seq[i]` for a Python sequence. -/
def pyGet {β : Type _} (l : List β) (i : Int) : Res β :=
  if inRange i l.length then
    match l[normIdx i l.length]? with
    | some x => .ok x
    | none => .error .index
  else .error .index

/-- `seq[slice]` for a Python sequence. -/
def pyGetSlice {β : Type _} (l : List β) (s : PySlice) : Res (List β) := do
  let r ← s.range l.length
  return r.filterMap (fun i => l[i.toNat]?)

end Biggus
