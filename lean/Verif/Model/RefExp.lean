import Verif.Model.Compare
import Verif.Model.Template

/-! # The repository's own reference for `exp(MultiVector)`

`computeExp` and `check` of `test/test_g3func_exp.cpp`: the exponential by halving the argument,
summing the Taylor series and squaring.  The halving loop has no bound in the code; here it runs on
an allowance of steps, and `none` means that it has not left the loop within the allowance.
`std::size_t` counters are natural numbers. -/

namespace Engabra

variable {α : Type} [Dbl α]

/-- `sSmallMag`: `test_g3func_exp.cpp:53`. -/
def refTol (α : Type) [Dbl α] : α := Dbl.lit 8 * Dbl.epsilon α

/-- The halving loop `test_g3func_exp.cpp:82-86`: the reduced argument and `nHalves`. -/
def refHalve : ℕ → MultiVector α → ℕ → Option (MultiVector α × ℕ)
  | 0, _, _ => none
  | fuel + 1, tmpArg, nHalves =>
    if Dbl.lt (Dbl.lit (1 / 2)) (magnitude tmpArg) then
      refHalve fuel ((Dbl.lit (1 / 2) : α) * tmpArg) (nHalves + 1)
    else some (tmpArg, nHalves)

/-- The series loop `test_g3func_exp.cpp:104-135`, with at most `left` more rounds: `some` sum when it
converged, `none` when the rounds are used up. -/
def refSeries (tmpArg : MultiVector α) : ℕ → ℕ → MultiVector α → MultiVector α →
    Option (MultiVector α)
  | 0, _, _, _ => none
  | left + 1, seriesNdx, nextTerm, expSum =>
    let ndx := seriesNdx + 1
    let power := nextTerm * tmpArg
    let term := ((1 : α) / Dbl.lit (ndx : ℚ)) * power
    let taylorResid := expSum * term
    let sum := expSum + term
    if Dbl.lt (magnitude taylorResid / magnitude sum) (refTol α) then some sum
    else refSeries tmpArg left ndx term sum

/-- The squaring loop `test_g3func_exp.cpp:145-148`. -/
def refSquare : ℕ → MultiVector α → MultiVector α
  | 0, expSum => expSum
  | n + 1, expSum => refSquare n (expSum * expSum)

/-- From the reduced argument to the result: `test_g3func_exp.cpp:89-153`.  The loop makes a round,
counts it, and gives up when the count exceeds 55: at most 56 rounds. -/
def refFinish (tmpArg : MultiVector α) (nHalves : ℕ) : MultiVector α :=
  let sum0 : MultiVector α := gzero + gone
  match refSeries tmpArg 56 1 tmpArg (sum0 + tmpArg) with
  | some expSum => refSquare nHalves expSum
  | none => gnull Dbl.nan

/-- `computeExp(mvArg)`: `test_g3func_exp.cpp:55-157`, with `fuel` tests of the halving loop's
condition. -/
def refExp (fuel : ℕ) (mvArg : MultiVector α) : Option (MultiVector α) :=
  if isValid mvArg then (refHalve fuel mvArg 0).map fun p => refFinish p.1 p.2
  else some (gnull Dbl.nan)

/-- The verdict of `check(oss, mvSome, tname)`: `test_g3func_exp.cpp:202-224`. -/
def refCheck [LibM α] (fuel : ℕ) (mvSome : MultiVector α) : Option (Run Bool) :=
  (refExp fuel mvSome).map fun expVal => nearlyEquals (expMv mvSome) expVal (refTol α)

end Engabra
