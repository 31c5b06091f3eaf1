import Verif.Nway.Order
import Verif.AscGraph.Props
/-! The aligner in a form the kernel evaluates, for concrete cases. -/
set_option autoImplicit false
namespace Verif.Nway
open Verif.AscGraph

/-- `calcLoop` with the recursive call as a parameter (helper for concrete cases, not a model). -/
def loopWith (rec : Table → Coord → Option (Int × Table)) (trans : Coord → Coord → Int) (c : Coord) :
    List Coord → Table → Int → Option (Int × Table)
  | [], m, mincost => some (mincost, m)
  | p :: ps, m, mincost =>
    match (if m p = uncalculated then
        match rec m p with
        | none => none
        | some (v, m') => some (v, m'.put p v)
      else some (m p, m)) with
    | none => none
    | some (cost, m1) =>
      let t := cost + trans c p
      loopWith rec trans c ps m1 (if mincost = uncalculated then t else if t < mincost then t else mincost)

/-- `calcCost` by recursion on the fuel (helper for concrete cases, not a model). -/
def calc2 (prevs : Coord → List Coord) (trans : Coord → Coord → Int) : Nat → Table → Coord → Option (Int × Table)
  | 0, _, _ => none
  | fuel + 1, m, c =>
    match prevs c with
    | [] => some (0, m)
    | p :: ps => loopWith (calc2 prevs trans fuel) trans c (p :: ps) m uncalculated

theorem loop_eq (prevs : Coord → List Coord) (trans : Coord → Coord → Int) (fuel : Nat) (c : Coord) :
    ∀ (ps : List Coord) (m : Table) (mc : Int),
      calcLoop prevs trans fuel m c mc ps = loopWith (calcCost prevs trans fuel) trans c ps m mc
  | [], m, mc => by rw [calcLoop, loopWith]
  | p :: ps, m, mc => by
    rw [calcLoop, loopWith]
    generalize (if m p = uncalculated then
        match calcCost prevs trans fuel m p with
        | none => none
        | some (v, m') => some (v, Table.put m' p v)
      else some (m p, m)) = r
    cases r with
    | none => rfl
    | some r => exact loop_eq prevs trans fuel c ps _ _

theorem calc_eq (prevs : Coord → List Coord) (trans : Coord → Coord → Int) : ∀ fuel : Nat,
    calcCost prevs trans fuel = calc2 prevs trans fuel
  | 0 => by funext m c; rw [calcCost, calc2]
  | fuel + 1 => by
    funext m c
    rw [calcCost, calc2]
    cases prevs c with
    | nil => rfl
    | cons p ps => rw [← calc_eq prevs trans fuel]; exact loop_eq prevs trans fuel c (p :: ps) m _

/-- See `alignGen` (helper for concrete cases, not a model). -/
def fill2 (g : G) (fuel : Nat) : List Coord → Table → Option Table
  | [], m => some m
  | c :: cs, m =>
    if m c = uncalculated then
      match calc2 (genPrev g) (genTrans g) fuel m c with
      | none => none
      | some (v, m') => fill2 g fuel cs (m'.put c v)
    else fill2 g fuel cs m

theorem fill_eq (g : G) (fuel : Nat) : ∀ (cs : List Coord) (m : Table), fillGen g fuel m cs = fill2 g fuel cs m
  | [], m => by rw [fillGen, fill2]
  | c :: cs, m => by
    rw [fillGen, fill2, calc_eq, fill_eq g fuel cs m]
    split
    · cases calc2 (genPrev g) (genTrans g) fuel m c with
      | none => rfl
      | some r => exact fill_eq g fuel cs _
    · rfl

/-- See `alignGen` (helper for concrete cases, not a model). -/
def align2 (g : G) (fuel : Nat) : Option (Int × List Column) :=
  match fill2 g fuel (startingCoords g) (fun _ => uncalculated) with
  | none => none
  | some m =>
    match retrieveGen g m fuel with
    | none => none
    | some cols => some (bestCost m (-1) (startingCoords g), cols)

theorem align_eq (g : G) (fuel : Nat) : alignGen g fuel = align2 g fuel := by
  unfold alignGen align2
  rw [fill_eq]
  generalize fill2 g fuel (startingCoords g) (fun _ => uncalculated) = r
  cases r with
  | none => rfl
  | some m => rfl

end Verif.Nway
