import Verif.Spec.Writing
/-!
# What a loader and its buffer should do, in terms of what can be observed
-/
namespace Parcom.Spec
open Parcom
variable {T E : Type}

/-- The segments made visible so far. -/
def segmentsOf : List (Obs T E) → List (List T)
  | [] => []
  | .committed xs :: log => xs :: segmentsOf log
  | _ :: log => segmentsOf log

/-- The items made visible so far. -/
def committedOf (log : List (Obs T E)) : List T := (segmentsOf log).flatten

/-- The items the writers of successful loads accepted so far. -/
def acceptedOf : List (Obs T E) → List T
  | [] => []
  | .loaded told (some (.ok _)) :: log => told ++ acceptedOf log
  | _ :: log => acceptedOf log

/-- All items the writers accepted so far, also in loads that failed. -/
def writtenOf : List (Obs T E) → List T
  | [] => []
  | .loaded told _ :: log => told ++ writtenOf log
  | _ :: log => writtenOf log

/-- No load failed or was dropped. -/
def AllOk (log : List (Obs T E)) : Prop := ∀ told r, .loaded told r ∈ log → ∃ info, r = some (.ok info)

/-- The number of items skipped so far. -/
def consumedOf : List (Obs T E) → Nat
  | [] => 0
  | .advanced n r :: log => (n - r) + consumedOf log
  | _ :: log => consumedOf log

/-- The items yielded since `segments()` was last called. -/
def yieldedOf (log : List (Obs T E)) : List T :=
  log.foldl (fun ys o => match o with
    | .iterates => []
    | .yielded seg => ys ++ seg
    | _ => ys) []

/-- These segments without their first `n` items. A segment of which nothing is left is gone. -/
def skipSegments : Nat → List (List T) → List (List T)
  | _, [] => []
  | n, xs :: segs => if n < xs.length then xs.drop n :: segs else skipSegments (n - xs.length) segs

/-- The segments behind the position: those made visible, without what was skipped. -/
def aheadOf (log : List (Obs T E)) : List (List T) :=
  log.foldl (fun segs o => match o with
    | .committed xs => segs ++ [xs]
    | .advanced n _ => skipSegments n segs
    | _ => segs) []

/-- The segments yielded since `segments()` was last called. -/
def shownOf (log : List (Obs T E)) : List (List T) :=
  log.foldl (fun segs o => match o with
    | .iterates => []
    | .yielded seg => segs ++ [seg]
    | _ => segs) []

/-- The system gets here from its beginning. -/
def Reaches (b : Build) (ms : List (Move T E)) (s : Loading T E) : Prop := ∃ c, (Loading.init c).run b ms = Run.ret s

/-- The items loaded but not visible yet. -/
def Pending (s : Loading T E) (xs : List T) : Prop := Holds s.loader.buf xs

end Parcom.Spec
