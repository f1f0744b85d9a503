import Mathlib.Data.Int.Order.Basic
import Mathlib.Data.Finset.Card

/-!
# Model of `gen_seeds`, `/repo/tbplas/utils.py` 273-293

The random source is an argument: for every seed the bytes returned by `os.urandom` (one to four
of them, utils.py:281) and the byte order drawn (utils.py:282-283).
-/

namespace Verif

/-- One draw: the bytes and whether the order is `'big'`. -/
structure Draw where
  bytes : List (Fin 256)
  big : Bool
  len : 1 ≤ bytes.length ∧ bytes.length ≤ 4

/-- `int.from_bytes(bytes, byteorder, signed=True)`, utils.py:289-290: two's complement. -/
def fromBytes (d : Draw) : ℤ :=
  let digits := if d.big then d.bytes else d.bytes.reverse
  let v : ℕ := digits.foldl (fun (acc : ℕ) (b : Fin 256) => acc * 256 + b.val) 0
  if v < 2 ^ (8 * d.bytes.length - 1) then v else (v : ℤ) - 2 ^ (8 * d.bytes.length)

/-- `gen_seeds`, utils.py:273-293, for `num_seeds = draws.length`. -/
def genSeeds (draws : List Draw) : List ℤ :=
  draws.foldl (fun seeds d => if fromBytes d ∉ seeds then seeds ++ [fromBytes d] else seeds) []

end Verif
