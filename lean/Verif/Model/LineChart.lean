/-!
# The ranges of the axes of the chart in the cache example

`example/src/utils/line_chart.rs:3-69`, of which lines 11-25 are modelled: they compute the ranges that line 33 hands to
`build_cartesian_2d`. All else in this file are calls of the crate `plotters`.
-/
namespace Parcom.LineChart

/-- `f64` as far as `f64::min` and `f64::max` look at it: not a number, or one of the others, in their order. A bijection of the
others with an interval of the integers that keeps the order exists, if `-0.0` and `0.0` count as one, as `min` and `max` may
return either for them. -/
inductive F64 where
  | nan
  | num (k : Int)
  deriving DecidableEq, Repr

/-- `0.0`. -/
def F64.zero : F64 := .num 0

/-- `f64::min` (std): if one argument is not a number, the other one is returned. -/
def F64.min : F64 → F64 → F64
  | .nan, y => y
  | x, .nan => x
  | .num j, .num k => .num (if j ≤ k then j else k)

/-- `f64::max` (std). -/
def F64.max : F64 → F64 → F64
  | .nan, y => y
  | x, .nan => x
  | .num j, .num k => .num (if j ≤ k then k else j)

/-- `(minx, miny, maxx, maxy)` (line_chart.rs:11). -/
structure Rect where
  minx : F64
  miny : F64
  maxx : F64
  maxy : F64
  deriving DecidableEq, Repr

/-- The inner closure (line_chart.rs:17-24). -/
def Rect.add (r : Rect) (sample : F64 × F64) : Rect :=
  { minx := r.minx.min sample.1, miny := r.miny.min sample.2, maxx := r.maxx.max sample.1, maxy := r.maxy.max sample.2 }

/-- The ranges for the series (line_chart.rs:11-25). The labels of the series are left out. -/
def ranges (series : List (List (F64 × F64))) : Rect :=
  series.foldl (fun rect samples => samples.foldl Rect.add rect) ⟨.zero, .zero, .zero, .zero⟩

end Parcom.LineChart
