import Verif.Model.Bloch

/-!
# Model of `PrimitiveCell.print_hk`

`/repo/tbplas/builder/primitive.py` 24-50 (`f_dot_s`) and 754-809 (`print_hk`).

The printed text is a list of lines, a line is a list of tokens.  Simplified: blanks are left out; a number is
one token carrying its value, i.e. `str` of a float or complex is taken to be read back as the same number (a
sign or the parentheses of `str(complex)` belong to the token); the last line, which explains `exp_i`, is
constant and left out.
-/

namespace Verif.PrintHk

/-- Tokens of the printed text. -/
inductive Tok where
  | num (z : ℂ) | sym (x : Fin 3) | plus | minus | times | lpar | rpar | expi | nl

/-- Is it the character removed by `lstrip("+")`? -/
def Tok.isPlus : Tok → Bool
  | .plus => true
  | _ => false

/-- Is it the character removed by `rstrip("\n")`? -/
def Tok.isNl : Tok → Bool
  | .nl => true
  | _ => false

/-- Printed lines: `ham[i, j] = (...)` with the tokens right of the equality sign, and
`ham[j, i] = ham[i, j].conjugate()`. -/
inductive Line where
  | assign (p : Pair) (text : List Tok)
  | conj (target source : Pair)

/-- Default `eps` of `f_dot_s`, primitive.py:24. -/
noncomputable def hkEps : ℝ := 1e-5

open Classical in
/-- Body of the loop of `f_dot_s`, primitive.py:35-48: text added for one component. -/
noncomputable def signedTerm (f : Vec3 ℝ) (x : Fin 3) : List Tok :=
  if |f x| > hkEps then
    (if f x < 0 then .minus else .plus) ::
      (if |(|f x| - 1)| ≤ hkEps then [.sym x] else [.num ((|f x| : ℝ) : ℂ), .times, .sym x])
  else []

/-- `f_dot_s`, primitive.py:24-50, for the symbols `ka`, `kb`, `kc`. -/
noncomputable def fDotS (f : Vec3 ℝ) : List Tok :=
  (([0, 1, 2] : List (Fin 3)).foldl (fun acc x => acc ++ signedTerm f x) []).dropWhile Tok.isPlus

/-- `term` of `_add_hop`, primitive.py:772-775. -/
def hopText (e : ℂ) (kdr : List Tok) : List Tok :=
  if kdr.isEmpty then [.num e, .times, .num 1, .nl]
  else [.num e, .times, .expi, .lpar] ++ kdr ++ [.rpar, .nl]

/-- The dictionary `hk`. -/
abbrev Hk := PyDict Pair (List Tok)

/-- `_add_hop`, primitive.py:771-779. -/
def addText (hk : Hk) (p : Pair) (e : ℂ) (kdr : List Tok) : Hk :=
  match PyDict.get? hk p with
  | some ts => PyDict.set hk p (ts ++ .plus :: hopText e kdr)
  | none => PyDict.set hk p (hopText e kdr)

/-- Lines 782-784: on-site energies. -/
def onsiteText (eng : List ℝ) : Hk :=
  eng.zipIdx.foldl (fun hk q => PyDict.set hk ((q.2 : ℤ), (q.2 : ℤ)) [.num (q.1 : ℂ)]) []

/-- `dr[ih]`, line 787: `dr` (primitive.py:1080-1093) or the cell index. -/
noncomputable def hkDr (pos : ℤ → Vec3 ℝ) (conv : ℤ) (t : Cell × Pair × ℂ) : Vec3 ℝ :=
  let R : Vec3 ℝ := ![(t.1.1 : ℝ), (t.1.2.1 : ℝ), (t.1.2.2 : ℝ)]
  if conv = 1 then pos t.2.1.2 + R - pos t.2.1.1 else R

/-- Body of the loop over the hopping terms, lines 789-795. -/
noncomputable def addHopText (pos : ℤ → Vec3 ℝ) (conv : ℤ) (hk : Hk) (t : Cell × Pair × ℂ) : Hk :=
  let hk1 := addText hk t.2.1 t.2.2 (fDotS (hkDr pos conv t))
  addText hk1 (t.2.1.2, t.2.1.1) (star t.2.2) (fDotS (-hkDr pos conv t))

/-- Lines 782-795. -/
noncomputable def hkDict (pos : ℤ → Vec3 ℝ) (eng : List ℝ) (hops : List (Cell × Pair × ℂ)) (conv : ℤ) : Hk :=
  hops.foldl (addHopText pos conv) (onsiteText eng)

/-- Lines 801-802: the formula in parentheses. -/
def formula (ts : List Tok) : List Tok := .lpar :: (ts.reverse.dropWhile Tok.isNl).reverse ++ [.rpar]

/-- Lines 798-808. -/
def hkLines (hk : Hk) : List Line :=
  let reduced := hk.filter fun q => q.1.1 ≤ q.1.2
  reduced.map (fun q => .assign q.1 (formula q.2)) ++
    (reduced.filter fun q => q.1.1 ≠ q.1.2).map fun q => .conj (q.1.2, q.1.1) q.1

variable {Λ : Type*}

/-- `print_hk`, primitive.py:754-809. -/
noncomputable def printHk (H : HashFns ℝ ℂ Λ) (s : PrimCell ℝ ℂ Λ) (conv : ℤ) :
    PrimCell ℝ ℂ Λ × Except PCErr (List Line) :=
  let s1 := PrimCell.syncArray H s
  if s1.numOrb = 0 then (s1, .error .pcOrbEmpty)
  else if s1.hops.numHop = 0 then (s1, .error .pcHopEmpty)
  else if ¬ (conv = 1 ∨ conv = 2) then (s1, .error .value)
  else (s1, .ok (hkLines (hkDict s1.posAt s1.arrEng s1.hopRows conv)))

end Verif.PrintHk
