import Verif.Model.PrintHk

/-!
# Meaning of the text printed by `print_hk`

The text is read as Python reads it: a formula is a sum of products of signed atoms, an atom is a number, one
of `ka`, `kb`, `kc`, a formula in parentheses or `exp_i(formula)`; a line may be broken inside parentheses only.
-/

namespace Verif.PrintHk

/-- `exp_i(x) := cos(2 * pi * x) + 1j * sin(2 * pi * x)`, as the last printed line says. -/
noncomputable def expI (x : ℂ) : ℂ := Complex.cos (2 * Real.pi * x) + Complex.I * Complex.sin (2 * Real.pi * x)

/-- Line breaks inside parentheses are ignored. -/
def joinLines : ℕ → List Tok → List Tok
  | _, [] => []
  | d, .lpar :: r => .lpar :: joinLines (d + 1) r
  | d, .rpar :: r => .rpar :: joinLines (d - 1) r
  | 0, t :: r => t :: joinLines 0 r
  | d + 1, .nl :: r => joinLines (d + 1) r
  | d + 1, t :: r => t :: joinLines (d + 1) r

mutual
/-- A signed atom at the beginning of the text: its value and the rest of the text. -/
noncomputable def readAtom (k : Vec3 ℝ) : ℕ → List Tok → Option (ℂ × List Tok)
  | 0, _ => none
  | _ + 1, .num z :: r => some (z, r)
  | _ + 1, .sym x :: r => some ((k x : ℂ), r)
  | n + 1, .minus :: r => match readAtom k n r with
    | some (v, r') => some (-v, r')
    | none => none
  | n + 1, .lpar :: r => match readSum k n r with
    | some (v, .rpar :: r') => some (v, r')
    | _ => none
  | n + 1, .expi :: .lpar :: r => match readSum k n r with
    | some (v, .rpar :: r') => some (expI v, r')
    | _ => none
  | _ + 1, _ => none
/-- A product. -/
noncomputable def readProd (k : Vec3 ℝ) : ℕ → List Tok → Option (ℂ × List Tok)
  | 0, _ => none
  | n + 1, ts => match readAtom k n ts with
    | some (v, r) => readProdTail k n v r
    | none => none
/-- The further factors of a product. -/
noncomputable def readProdTail (k : Vec3 ℝ) : ℕ → ℂ → List Tok → Option (ℂ × List Tok)
  | 0, _, _ => none
  | n + 1, v, .times :: r => match readAtom k n r with
    | some (u, r') => readProdTail k n (v * u) r'
    | none => none
  | _ + 1, v, r => some (v, r)
/-- A sum. -/
noncomputable def readSum (k : Vec3 ℝ) : ℕ → List Tok → Option (ℂ × List Tok)
  | 0, _ => none
  | n + 1, ts => match readProd k n ts with
    | some (v, r) => readSumTail k n v r
    | none => none
/-- The further summands. -/
noncomputable def readSumTail (k : Vec3 ℝ) : ℕ → ℂ → List Tok → Option (ℂ × List Tok)
  | 0, _, _ => none
  | n + 1, v, .plus :: r => match readProd k n r with
    | some (u, r') => readSumTail k n (v + u) r'
    | none => none
  | n + 1, v, .minus :: r => match readProd k n r with
    | some (u, r') => readSumTail k n (v - u) r'
    | none => none
  | _ + 1, v, r => some (v, r)
end

/-- Value of a text for the k-point `k`; `none` for text that is not a formula.  The first argument of the
reader bounds the depth of its calls. -/
noncomputable def evalText (k : Vec3 ℝ) (ts : List Tok) : Option ℂ :=
  match readSum k (20 * ts.length + 20) (joinLines 0 ts) with
  | some (v, []) => some v
  | _ => none

/-- Effect of one printed line on the matrix `ham`. -/
noncomputable def runLine (k : Vec3 ℝ) (m : IMat) : Line → Option IMat
  | .assign p ts => (evalText k ts).map (m.put p.1 p.2)
  | .conj t s => some (m.put t.1 t.2 (star (m s.1 s.2)))

/-- The printed lines run one after the other, as a program, on the zero matrix. -/
noncomputable def runLines (k : Vec3 ℝ) (ls : List Line) : Option IMat := ls.foldlM (runLine k) IMat.zero

/-- The components of `f` are reproduced by the printed text: none is tiny but not zero, none is nearly but
not quite one. -/
def Legible (f : Vec3 ℝ) : Prop :=
  ∀ x, (f x = 0 ∨ 1e-5 < |f x|) ∧ (|f x| = 1 ∨ 1e-5 < |(|f x| - 1)|)

end Verif.PrintHk
