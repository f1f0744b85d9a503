import Verif.Model.SlaterKoster
import Verif.Model.PyDict

/-!
# Model of the spin-orbit coupling classes

`/repo/tbplas/builder/advanced.py` 987-1123 (`AtomicOrbital`), 1126-1250 (`SOC`), 1253-1347 (`SOCTable`), 1350-1418
(`SOCTable2`).  Floating-point operations and square roots are exact, decimal literals have their decimal value.
-/

namespace Verif

/-- Spin labels: `"up"`, `"down"` and anything else. -/
inductive SpinLabel where
  | up | down | other
deriving DecidableEq, Repr

/-- The `operator` argument of `mtxel`: `"l+"`, `"l-"`, `"lz"` and anything else. -/
inductive LOp where
  | plus | minus | z | other
deriving DecidableEq, Repr

/-- `AtomicOrbital._coeff`, advanced.py:987-997: items `(l, m), coefficient` in insertion order. -/
abbrev AtOrb := PyDict (ℤ × ℤ) ℂ

namespace AtOrb

/-- The test of `_check_qn`, advanced.py:1020-1031. -/
def legal (key : ℤ × ℤ) : Bool := decide (-key.1 ≤ key.2) && decide (key.2 ≤ key.1)

/-- `__setitem__`, advanced.py:999-1008. -/
noncomputable def setItem (a : AtOrb) (kv : (ℤ × ℤ) × ℂ) : Except SkErr AtOrb :=
  if legal kv.1 then .ok (PyDict.set a kv.1 kv.2) else .error .value

/-- `__getitem__`, advanced.py:1010-1018.  The `defaultdict` also stores the zero it returns for a missing key; a stored
zero has no observable effect and is not modelled. -/
noncomputable def getItem (a : AtOrb) (key : ℤ × ℤ) : Except SkErr ℂ :=
  if legal key then .ok ((PyDict.get? a key).getD 0) else .error .value

/-- One round of the loop of `l_plus`, advanced.py:1044-1053. -/
noncomputable def plusStep (new : AtOrb) (kv : (ℤ × ℤ) × ℂ) : AtOrb :=
  if legal (kv.1.1, kv.1.2 + 1) then
    PyDict.set new (kv.1.1, kv.1.2 + 1) (kv.2 * (Real.sqrt (((kv.1.1 - kv.1.2) * (kv.1.1 + kv.1.2 + 1) : ℤ) : ℝ) : ℂ))
  else new

/-- `l_plus`, advanced.py:1033-1054. -/
noncomputable def lPlus (a : AtOrb) : AtOrb := a.foldl plusStep []

/-- One round of the loop of `l_minus`, advanced.py:1067-1076. -/
noncomputable def minusStep (new : AtOrb) (kv : (ℤ × ℤ) × ℂ) : AtOrb :=
  if legal (kv.1.1, kv.1.2 - 1) then
    PyDict.set new (kv.1.1, kv.1.2 - 1) (kv.2 * (Real.sqrt (((kv.1.1 + kv.1.2) * (kv.1.1 - kv.1.2 + 1) : ℤ) : ℝ) : ℂ))
  else new

/-- `l_minus`, advanced.py:1056-1077. -/
noncomputable def lMinus (a : AtOrb) : AtOrb := a.foldl minusStep []

/-- `l_z`, advanced.py:1079-1091. -/
noncomputable def lZ (a : AtOrb) : AtOrb := a.map fun kv => (kv.1, kv.2 * (kv.1.2 : ℂ))

/-- `product`, advanced.py:1093-1103. -/
noncomputable def product (bra ket : AtOrb) : Except SkErr ℂ :=
  bra.foldlM (fun acc kv => (getItem ket kv.1).map fun c => acc + star kv.2 * c) 0

/-- `mtxel`, advanced.py:1105-1123; the ket is copied. -/
noncomputable def mtxel (bra ket : AtOrb) : LOp → Except SkErr ℂ
  | .plus => product bra (lPlus ket)
  | .minus => product bra (lMinus ket)
  | .z => product bra (lZ ket)
  | .other => .error .value

/-- A new orbital followed by a sequence of assignments `orb[(l, m)] = c`. -/
noncomputable def assign (kvs : List ((ℤ × ℤ) × ℂ)) : Except SkErr AtOrb := kvs.foldlM setItem []

end AtOrb

namespace Soc
open OrbLabel

/-- `_orbital_labels`, advanced.py:1141-1142, 1310-1311, 1386-1387. -/
def labelOk : OrbLabel → Bool
  | s => true
  | p _ => true
  | d .x .y => true
  | dx2y2 => true
  | d .y .z => true
  | d .z .x => true
  | dz2 => true
  | _ => false

/-- `_spin_labels`, advanced.py:1143, 1312, 1388. -/
def spinOk : SpinLabel → Bool
  | .up => true
  | .down => true
  | .other => false

/-- The checks at the head of the three `eval` methods, advanced.py:1241-1246, 1330-1335, 1406-1411. -/
def check (li lj : OrbLabel) (si sj : SpinLabel) : Except SkErr Unit :=
  if !(labelOk li && labelOk lj) then .error .value
  else if !(spinOk si && spinOk sj) then .error .value
  else .ok ()

/-- `c = sqrt(0.5)`, advanced.py:1149. -/
noncomputable def c : ℂ := (Real.sqrt 0.5 : ℝ)

/-- `ci`, advanced.py:1150. -/
noncomputable def ci : ℂ := c * Complex.I

/-- The assignments to `_orbital_basis[label]`, advanced.py:1152-1171. -/
noncomputable def basis : OrbLabel → List ((ℤ × ℤ) × ℂ)
  | s => [((0, 0), 1)]
  | p .y => [((1, -1), ci), ((1, 1), ci)]
  | p .z => [((1, 0), 1)]
  | p .x => [((1, -1), c), ((1, 1), -c)]
  | d .x .y => [((2, -2), ci), ((2, 2), -ci)]
  | d .y .z => [((2, -1), ci), ((2, 1), ci)]
  | dz2 => [((2, 0), 1)]
  | d .z .x => [((2, -1), c), ((2, 1), -c)]
  | dx2y2 => [((2, -2), c), ((2, 2), c)]
  | _ => []

/-- `SOC._eval_soc`, advanced.py:1173-1203. -/
noncomputable def evalSoc (bra ket : AtOrb) (sb sk : SpinLabel) : Except SkErr ℂ :=
  if sb = .up ∧ sk = .up then (AtOrb.mtxel bra ket .z).map fun m => 0.5 * m
  else if sb = .up ∧ sk = .down then (AtOrb.mtxel bra ket .minus).map fun m => 0.5 * m
  else if sb = .down ∧ sk = .up then (AtOrb.mtxel bra ket .plus).map fun m => 0.5 * m
  else (AtOrb.mtxel bra ket .z).map fun m => -0.5 * m

/-- `SOC.eval`, advanced.py:1227-1250. -/
noncomputable def eval (li : OrbLabel) (si : SpinLabel) (lj : OrbLabel) (sj : SpinLabel) : Except SkErr ℂ := do
  check li lj si sj
  let bra ← AtOrb.assign (basis li)
  let ket ← AtOrb.assign (basis lj)
  evalSoc bra ket si sj

/-- `SOCTable._up_up`, advanced.py:1272-1277. -/
noncomputable def upUp : PyDict (OrbLabel × OrbLabel) ℂ :=
  [((p .x, p .y), -(0.5000000000000001 * Complex.I)),
   ((p .y, p .x), 0.5000000000000001 * Complex.I),
   ((d .x .y, dx2y2), 1.0000000000000002 * Complex.I),
   ((dx2y2, d .x .y), -(1.0000000000000002 * Complex.I)),
   ((d .y .z, d .z .x), 0.5000000000000001 * Complex.I),
   ((d .z .x, d .y .z), -(0.5000000000000001 * Complex.I))]

/-- `SOCTable._up_down`, advanced.py:1278-1293. -/
noncomputable def upDown : PyDict (OrbLabel × OrbLabel) ℂ :=
  [((p .x, p .z), 0.5000000000000001),
   ((p .y, p .z), -(0.5000000000000001 * Complex.I)),
   ((p .z, p .x), -0.5000000000000001),
   ((p .z, p .y), 0.5000000000000001 * Complex.I),
   ((d .x .y, d .y .z), 0.5000000000000001),
   ((d .x .y, d .z .x), -(0.5000000000000001 * Complex.I)),
   ((dx2y2, d .y .z), 0.5000000000000001 * Complex.I),
   ((dx2y2, d .z .x), 0.5000000000000001),
   ((d .y .z, d .x .y), -0.5000000000000001),
   ((d .y .z, dx2y2), -(0.5000000000000001 * Complex.I)),
   ((d .y .z, dz2), -(0.8660254037844386 * Complex.I)),
   ((d .z .x, d .x .y), 0.5000000000000001 * Complex.I),
   ((d .z .x, dx2y2), -0.5000000000000001),
   ((d .z .x, dz2), 0.8660254037844386),
   ((dz2, d .y .z), 0.8660254037844386 * Complex.I),
   ((dz2, d .z .x), -0.8660254037844386)]

/-- `SOCTable._down_up`, advanced.py:1294-1309. -/
noncomputable def downUp : PyDict (OrbLabel × OrbLabel) ℂ :=
  [((p .x, p .z), -0.5000000000000001),
   ((p .y, p .z), -(0.5000000000000001 * Complex.I)),
   ((p .z, p .x), 0.5000000000000001),
   ((p .z, p .y), 0.5000000000000001 * Complex.I),
   ((d .x .y, d .y .z), -0.5000000000000001),
   ((d .x .y, d .z .x), -(0.5000000000000001 * Complex.I)),
   ((dx2y2, d .y .z), 0.5000000000000001 * Complex.I),
   ((dx2y2, d .z .x), -0.5000000000000001),
   ((d .y .z, d .x .y), 0.5000000000000001),
   ((d .y .z, dx2y2), -(0.5000000000000001 * Complex.I)),
   ((d .y .z, dz2), -(0.8660254037844386 * Complex.I)),
   ((d .z .x, d .x .y), 0.5000000000000001 * Complex.I),
   ((d .z .x, dx2y2), 0.5000000000000001),
   ((d .z .x, dz2), -0.8660254037844386),
   ((dz2, d .y .z), 0.8660254037844386 * Complex.I),
   ((dz2, d .z .x), 0.8660254037844386)]

/-- `SOCTable.eval`, advanced.py:1314-1347. -/
noncomputable def evalTable (li : OrbLabel) (si : SpinLabel) (lj : OrbLabel) (sj : SpinLabel) : Except SkErr ℂ := do
  check li lj si sj
  let found :=
    if si = .up ∧ sj = .up then upUp.get? (li, lj)
    else if si = .up ∧ sj = .down then upDown.get? (li, lj)
    else if si = .down ∧ sj = .up then downUp.get? (li, lj)
    else (upUp.get? (li, lj)).map fun x => -1 * x
  pure (found.getD 0)

/-- `s_x`, advanced.py:1365. -/
noncomputable def sx : Matrix (Fin 2) (Fin 2) ℂ := !![0, 0.5 * 1; 0.5 * 1, 0]

/-- `s_y`, advanced.py:1366. -/
noncomputable def sy : Matrix (Fin 2) (Fin 2) ℂ := !![0, 0.5 * -Complex.I; 0.5 * Complex.I, 0]

/-- `s_z`, advanced.py:1367. -/
noncomputable def sz : Matrix (Fin 2) (Fin 2) ℂ := !![0.5 * 1, 0; 0, 0.5 * -1]

/-- The first assignment to `SOCTable2._data`, advanced.py:1368-1380. -/
noncomputable def data1 : PyDict (OrbLabel × OrbLabel) (Matrix (Fin 2) (Fin 2) ℂ) :=
  [((p .x, p .y), (-Complex.I) • sz),
   ((p .x, p .z), Complex.I • sy),
   ((p .y, p .z), (-Complex.I) • sx),
   ((d .x .y, dx2y2), (2 * Complex.I) • sz),
   ((d .x .y, d .z .x), (-Complex.I) • sx),
   ((d .x .y, d .y .z), Complex.I • sy),
   ((dx2y2, d .z .x), Complex.I • sy),
   ((dx2y2, d .y .z), Complex.I • sx),
   ((d .z .x, d .y .z), (-Complex.I) • sz),
   ((d .z .x, dz2), (Complex.I * (Real.sqrt 3 : ℝ)) • sy),
   ((d .y .z, dz2), (-Complex.I * (Real.sqrt 3 : ℝ)) • sx)]

/-- `data2`, advanced.py:1382-1384. -/
noncomputable def data2 : PyDict (OrbLabel × OrbLabel) (Matrix (Fin 2) (Fin 2) ℂ) :=
  data1.foldl (fun acc kv => PyDict.set acc (kv.1.2, kv.1.1) (-kv.2)) []

/-- `SOCTable2._data` after the update, advanced.py:1385. -/
noncomputable def data : PyDict (OrbLabel × OrbLabel) (Matrix (Fin 2) (Fin 2) ℂ) :=
  data2.foldl (fun acc kv => PyDict.set acc kv.1 kv.2) data1

/-- `SOCTable2.eval`, advanced.py:1390-1418. -/
noncomputable def evalTable2 (li : OrbLabel) (si : SpinLabel) (lj : OrbLabel) (sj : SpinLabel) : Except SkErr ℂ := do
  check li lj si sj
  let mat := (data.get? (li, lj)).getD 0
  let a : Fin 2 := if si = .up then 0 else 1
  let b : Fin 2 := if sj = .up then 0 else 1
  pure (mat a b)

end Soc
end Verif
