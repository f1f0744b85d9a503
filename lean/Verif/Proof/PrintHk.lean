import Verif.Spec.PrintHk
import Verif.Proof.Bloch

/-!
# Proofs about `print_hk`
-/

namespace Verif.PrintHk

open Verif

/-- The coefficient that is printed for `c`. -/
noncomputable def rd (c : ℝ) : ℝ :=
  if |c| > hkEps then (if |(|c| - 1)| ≤ hkEps then (if c < 0 then -1 else 1) else c) else 0

/-- A text after which a product is finished. -/
def Stops : List Tok → Prop
  | .times :: _ => False
  | _ => True

theorem prodTail_stop (k : Vec3 ℝ) (n : ℕ) (v : ℂ) {r : List Tok} (h : Stops r) :
    readProdTail k (n + 1) v r = some (v, r) := by
  unfold readProdTail
  split <;> simp_all [Stops]

/-- The text of one component without its sign. -/
noncomputable def unsigned (f : Vec3 ℝ) (x : Fin 3) : List Tok :=
  if |(|f x| - 1)| ≤ hkEps then [.sym x] else [.num ((|f x| : ℝ) : ℂ), .times, .sym x]

theorem signedTerm_eq (f : Vec3 ℝ) (x : Fin 3) : signedTerm f x =
    if |f x| > hkEps then (if f x < 0 then .minus else .plus) :: unsigned f x else [] := by
  unfold signedTerm unsigned; rfl

theorem readProd_unsigned (k : Vec3 ℝ) (f : Vec3 ℝ) (x : Fin 3) (n : ℕ) {r : List Tok} (h : Stops r) :
    readProd k (n + 4) (unsigned f x ++ r) =
      some ((((if |(|f x| - 1)| ≤ hkEps then 1 else |f x|) * k x : ℝ) : ℂ), r) := by
  unfold unsigned
  split_ifs with h1
  · simp only [List.singleton_append, readProd, readAtom, prodTail_stop k _ _ h]
    push_cast; simp
  · simp only [List.cons_append, List.nil_append, readProd, readAtom, readProdTail, prodTail_stop k _ _ h]
    push_cast; simp

theorem readProd_neg (k : Vec3 ℝ) (f : Vec3 ℝ) (x : Fin 3) (n : ℕ) {r : List Tok} (h : Stops r) :
    readProd k (n + 4) (.minus :: unsigned f x ++ r) =
      some (((-((if |(|f x| - 1)| ≤ hkEps then 1 else |f x|) * k x) : ℝ) : ℂ), r) := by
  unfold unsigned
  split_ifs with h1
  · simp only [List.cons_append, List.nil_append, readProd, readAtom, prodTail_stop k _ _ h]
    push_cast; simp
  · simp only [List.cons_append, List.nil_append, readProd, readAtom, readProdTail, prodTail_stop k _ _ h]
    push_cast; simp

theorem rd_pos (f : Vec3 ℝ) (x : Fin 3) (h : |f x| > hkEps) (h0 : ¬ f x < 0) :
    rd (f x) = if |(|f x| - 1)| ≤ hkEps then 1 else |f x| := by
  unfold rd; rw [if_pos h, if_neg h0, abs_of_nonneg (not_lt.1 h0)]

theorem rd_neg (f : Vec3 ℝ) (x : Fin 3) (h : |f x| > hkEps) (h0 : f x < 0) :
    rd (f x) = -if |(|f x| - 1)| ≤ hkEps then 1 else |f x| := by
  unfold rd; rw [if_pos h, if_pos h0, abs_of_neg h0]; split_ifs <;> ring

theorem stops_signed (f : Vec3 ℝ) (l : List (Fin 3)) {r : List Tok} (h : Stops r) :
    Stops (l.flatMap (signedTerm f) ++ r) := by
  induction l with
  | nil => simpa
  | cons x l ih =>
    rw [List.flatMap_cons, signedTerm_eq]
    split_ifs
    · simp [Stops]
    · simp [Stops]
    · simpa using ih

/-- The end of the list of summands. -/
def Ends : List Tok → Prop
  | .times :: _ => False
  | .plus :: _ => False
  | .minus :: _ => False
  | _ => True

theorem Ends.stops {r : List Tok} (h : Ends r) : Stops r := by
  unfold Ends at h; unfold Stops; split <;> simp_all

theorem sumTail_end (k : Vec3 ℝ) (n : ℕ) (v : ℂ) {r : List Tok} (h : Ends r) :
    readSumTail k (n + 1) v r = some (v, r) := by
  unfold readSumTail
  split <;> simp_all [Ends]

/-- The value of the printed linear form. -/
noncomputable def linVal (k f : Vec3 ℝ) (l : List (Fin 3)) : ℝ := (l.map fun x => rd (f x) * k x).sum

theorem readSumTail_signed (k f : Vec3 ℝ) (l : List (Fin 3)) (n : ℕ) (v : ℂ) {r : List Tok} (h : Ends r) :
    readSumTail k (n + l.length + 5) v (l.flatMap (signedTerm f) ++ r) = some (v + (linVal k f l : ℂ), r) := by
  induction l generalizing v n with
  | nil => simp [linVal, sumTail_end k _ v h]
  | cons x l ih =>
    have hs := stops_signed f l h.stops
    rw [List.flatMap_cons, signedTerm_eq]
    simp only [linVal, List.map_cons, List.sum_cons, List.length_cons]
    by_cases h1 : |f x| > hkEps
    · by_cases h2 : f x < 0
      · rw [if_pos h1, if_pos h2, rd_neg f x h1 h2]
        simp only [List.cons_append, List.append_assoc]
        rw [show n + (l.length + 1) + 5 = (n + l.length + 5) + 1 by omega, readSumTail,
          show n + l.length + 5 = (n + l.length + 1) + 4 by omega, readProd_unsigned k f x _ hs]
        simp only
        rw [show n + l.length + 1 + 4 = n + l.length + 5 by omega, ih]
        simp only [linVal]; push_cast; simp only [Option.some.injEq, Prod.mk.injEq, and_true]; ring
      · rw [if_pos h1, if_neg h2, rd_pos f x h1 h2]
        simp only [List.cons_append, List.append_assoc]
        rw [show n + (l.length + 1) + 5 = (n + l.length + 5) + 1 by omega, readSumTail,
          show n + l.length + 5 = (n + l.length + 1) + 4 by omega, readProd_unsigned k f x _ hs]
        simp only
        rw [show n + l.length + 1 + 4 = n + l.length + 5 by omega, ih]
        simp only [linVal]; push_cast; simp only [Option.some.injEq, Prod.mk.injEq, and_true]; ring
    · rw [if_neg h1, List.nil_append, show n + (l.length + 1) + 5 = (n + 1) + l.length + 5 by omega]
      have h0 : rd (f x) = 0 := by unfold rd; rw [if_neg h1]
      rw [ih, h0]; simp [linVal]

theorem unsigned_ne_plus (f : Vec3 ℝ) (x : Fin 3) (r : List Tok) :
    (unsigned f x ++ r).dropWhile Tok.isPlus = unsigned f x ++ r := by
  unfold unsigned; split_ifs <;> simp [Tok.isPlus]

theorem readSum_form (k f : Vec3 ℝ) (l : List (Fin 3)) (n : ℕ) {r : List Tok} (h : Ends r)
    (hne : l.flatMap (signedTerm f) ≠ []) :
    readSum k (n + l.length + 7) ((l.flatMap (signedTerm f)).dropWhile Tok.isPlus ++ r) =
      some ((linVal k f l : ℂ), r) := by
  induction l generalizing n with
  | nil => simp at hne
  | cons x l ih =>
    have hs := stops_signed f l h.stops
    rw [List.flatMap_cons, signedTerm_eq]
    simp only [linVal, List.map_cons, List.sum_cons, List.length_cons]
    by_cases h1 : |f x| > hkEps
    · rw [show n + (l.length + 1) + 7 = (n + l.length + 3) + 4 + 1 by omega]
      by_cases h2 : f x < 0
      · rw [if_pos h1, if_pos h2, rd_neg f x h1 h2, List.cons_append, List.dropWhile_cons_of_neg (by simp [Tok.isPlus]),
          readSum, ← List.cons_append, List.append_assoc, readProd_neg k f x _ hs]
        simp only
        rw [show n + l.length + 3 + 4 = (n + 2) + l.length + 5 by omega, readSumTail_signed k f l _ _ h]
        simp only [linVal]; push_cast; simp only [Option.some.injEq, Prod.mk.injEq, and_true]; ring
      · rw [if_pos h1, if_neg h2, rd_pos f x h1 h2, List.cons_append, List.dropWhile_cons_of_pos (by simp [Tok.isPlus]),
          unsigned_ne_plus, readSum, List.append_assoc, readProd_unsigned k f x _ hs]
        simp only
        rw [show n + l.length + 3 + 4 = (n + 2) + l.length + 5 by omega, readSumTail_signed k f l _ _ h]
        simp only [linVal]; push_cast; simp only [Option.some.injEq, Prod.mk.injEq, and_true]
    · have h0 : rd (f x) = 0 := by unfold rd; rw [if_neg h1]
      rw [if_neg h1, List.nil_append, show n + (l.length + 1) + 7 = (n + 1) + l.length + 7 by omega, ih]
      · rw [h0]; simp [linVal]
      · rw [List.flatMap_cons, signedTerm_eq, if_neg h1] at hne; simpa using hne

theorem fDotS_eq (f : Vec3 ℝ) : fDotS f = (([0, 1, 2] : List (Fin 3)).flatMap (signedTerm f)).dropWhile Tok.isPlus := by
  simp [fDotS]

theorem fDotS_nil (f : Vec3 ℝ) : (fDotS f).isEmpty = true ↔ ([0, 1, 2] : List (Fin 3)).flatMap (signedTerm f) = [] := by
  rw [fDotS_eq, List.isEmpty_iff]
  constructor
  · generalize ([0, 1, 2] : List (Fin 3)) = l
    induction l with
    | nil => simp
    | cons x l ih =>
      rw [List.flatMap_cons, signedTerm_eq]
      split_ifs with h1 h2
      · simp [Tok.isPlus]
      · rw [List.cons_append, List.dropWhile_cons_of_pos (by simp [Tok.isPlus]), unsigned_ne_plus]
        intro hh
        exfalso
        unfold unsigned at hh
        split_ifs at hh <;> simp at hh
      · simpa using ih
  · intro hh; rw [hh]; rfl

/-- The printed phase. -/
noncomputable def rdPhase (k f : Vec3 ℝ) : ℝ := rd (f 0) * k 0 + rd (f 1) * k 1 + rd (f 2) * k 2

theorem linVal_eq (k f : Vec3 ℝ) : linVal k f [0, 1, 2] = rdPhase k f := by
  simp [linVal, rdPhase]; ring

theorem rdPhase_empty (k f : Vec3 ℝ) (h : (fDotS f).isEmpty = true) : rdPhase k f = 0 := by
  rw [fDotS_nil] at h
  simp only [List.flatMap_cons, List.flatMap_nil, List.append_eq_nil_iff, and_true, signedTerm_eq] at h
  have key : ∀ x, (if |f x| > hkEps then (if f x < 0 then Tok.minus else Tok.plus) :: unsigned f x else []) = [] →
      rd (f x) = 0 := by
    intro x hx
    split_ifs at hx with h1
    unfold rd; rw [if_neg h1]
  rw [rdPhase, key 0 h.1, key 1 h.2.1, key 2 h.2.2]; ring

/-- `expI` of a real number. -/
theorem expI_real (x : ℝ) : expI (x : ℂ) = eiPhase (2 * Real.pi * x) := by
  simp [expI, eiPhase]

/-! ### Pieces of a formula -/

/-- Summands of a formula. -/
inductive Piece where
  | on (e : ℝ)
  | hop (e : ℂ) (f : Vec3 ℝ)

noncomputable def Piece.toks : Piece → List Tok
  | .on e => [.num (e : ℂ)]
  | .hop e f => hopText e (fDotS f)

noncomputable def Piece.clean : Piece → List Tok
  | .on e => [.num (e : ℂ)]
  | .hop e f => if (fDotS f).isEmpty then [.num e, .times, .num 1]
    else [.num e, .times, .expi, .lpar] ++ fDotS f ++ [.rpar]

noncomputable def Piece.val (k : Vec3 ℝ) : Piece → ℂ
  | .on e => (e : ℂ)
  | .hop e f => e * eiPhase (2 * Real.pi * rdPhase k f)

theorem readProd_piece (k : Vec3 ℝ) (p : Piece) (n : ℕ) {r : List Tok} (h : Stops r) :
    readProd k (n + 16) (p.clean ++ r) = some (p.val k, r) := by
  cases p with
  | on e => simp only [Piece.clean, Piece.val, List.singleton_append, readProd, readAtom, prodTail_stop k _ _ h]
  | hop e f =>
    unfold Piece.clean
    simp only
    split_ifs with h1
    · simp only [List.cons_append, List.nil_append, readProd, readAtom, readProdTail, prodTail_stop k _ _ h, Piece.val]
      rw [rdPhase_empty k f h1, mul_zero, eiPhase_zero]
    · have hne : ([0, 1, 2] : List (Fin 3)).flatMap (signedTerm f) ≠ [] := fun hh => h1 ((fDotS_nil f).2 hh)
      have hr := readSum_form k f [0, 1, 2] (n + 3) (r := .rpar :: r) (by simp [Ends]) hne
      simp only [List.length_cons, List.length_nil] at hr
      rw [← fDotS_eq, linVal_eq] at hr
      simp only [List.cons_append, List.nil_append, List.append_assoc, readProd, readAtom, readProdTail]
      rw [show n + 13 = n + 3 + (0 + 1 + 1 + 1) + 7 by omega, hr]
      simp only
      rw [show n + 14 = (n + 13) + 1 by omega, prodTail_stop k _ _ h, expI_real]; rfl

/-- Text of a list of summands. -/
noncomputable def textOf : List Piece → List Tok
  | [] => []
  | p :: ps => p.toks ++ ps.flatMap fun q => .plus :: q.toks

noncomputable def cleanOf : List Piece → List Tok
  | [] => []
  | p :: ps => p.clean ++ ps.flatMap fun q => .plus :: q.clean

theorem readSumTail_pieces (k : Vec3 ℝ) (ps : List Piece) (n : ℕ) (v : ℂ) {r : List Tok} (h : Ends r) :
    readSumTail k (n + ps.length + 17) v ((ps.flatMap fun q => .plus :: q.clean) ++ r) =
      some (v + (ps.map (Piece.val k)).sum, r) := by
  induction ps generalizing v n with
  | nil => simp [sumTail_end k _ v h]
  | cons p ps ih =>
    have hs : Stops ((ps.flatMap fun q => .plus :: q.clean) ++ r) := by
      cases ps with
      | nil => simpa using h.stops
      | cons q qs => simp [Stops]
    rw [List.flatMap_cons, List.length_cons, show n + (ps.length + 1) + 17 = (n + ps.length + 17) + 1 by omega]
    simp only [List.cons_append, List.append_assoc]
    rw [readSumTail, show n + ps.length + 17 = (n + ps.length + 1) + 16 by omega, readProd_piece k p _ hs]
    simp only
    rw [show n + ps.length + 1 + 16 = n + ps.length + 17 by omega, ih, List.map_cons, List.sum_cons, add_assoc]

theorem readSum_pieces (k : Vec3 ℝ) (p : Piece) (ps : List Piece) (n : ℕ) {r : List Tok} (h : Ends r) :
    readSum k (n + ps.length + 18) (cleanOf (p :: ps) ++ r) = some (((p :: ps).map (Piece.val k)).sum, r) := by
  have hs : Stops ((ps.flatMap fun q => .plus :: q.clean) ++ r) := by
    cases ps with
    | nil => simpa using h.stops
    | cons q qs => simp [Stops]
  rw [cleanOf, List.append_assoc, show n + ps.length + 18 = (n + ps.length + 17) + 1 by omega, readSum,
    show n + ps.length + 17 = (n + ps.length + 1) + 16 by omega, readProd_piece k p _ hs]
  simp only
  rw [show n + ps.length + 1 + 16 = n + ps.length + 17 by omega, readSumTail_pieces k ps n _ h, List.map_cons, List.sum_cons]

/-! ### Line breaks -/

/-- Joining the lines of `a` (inside parentheses) gives `a'`. -/
def J (a a' : List Tok) : Prop := ∀ d r, joinLines (d + 1) (a ++ r) = a' ++ joinLines (d + 1) r

theorem J.append {a a' b b' : List Tok} (ha : J a a') (hb : J b b') : J (a ++ b) (a' ++ b') := by
  intro d r; rw [List.append_assoc, ha, hb, List.append_assoc]

theorem J_nil : J [] [] := fun _ _ => rfl

/-- Tokens kept as they are. -/
def Tok.plain : Tok → Bool
  | .lpar => false
  | .rpar => false
  | .nl => false
  | _ => true

theorem J_plain (a : List Tok) (h : ∀ t ∈ a, t.plain = true) : J a a := by
  induction a with
  | nil => exact J_nil
  | cons t a ih =>
    intro d r
    have ht := h t (by simp)
    have := ih (fun t ht => h t (by simp [ht])) d r
    cases t <;> simp_all [Tok.plain, joinLines]

theorem J_nl : J [.nl] [] := by intro d r; simp [joinLines]

theorem signed_plain (f : Vec3 ℝ) (x : Fin 3) : ∀ t ∈ signedTerm f x, t.plain = true := by
  intro t ht
  unfold signedTerm at ht
  split_ifs at ht <;> simp_all <;> rcases ht with rfl | rfl | rfl | rfl <;> rfl

theorem fDotS_plain (f : Vec3 ℝ) : ∀ t ∈ fDotS f, t.plain = true := by
  intro t ht
  rw [fDotS_eq] at ht
  have := (List.dropWhile_sublist _).subset ht
  rw [List.mem_flatMap] at this
  obtain ⟨x, -, hx⟩ := this
  exact signed_plain f x t hx

theorem J_call (a : List Tok) (h : ∀ t ∈ a, t.plain = true) : J (.lpar :: a ++ [.rpar]) (.lpar :: a ++ [.rpar]) := by
  intro d r
  simp only [List.cons_append, List.append_assoc, List.nil_append, joinLines]
  rw [J_plain a h]
  simp [joinLines]

theorem clean_J (p : Piece) : J p.clean p.clean := by
  cases p with
  | on e => exact J_plain _ (by simp [Piece.clean, Tok.plain])
  | hop e f =>
    unfold Piece.clean
    simp only
    split_ifs
    · exact J_plain _ (by simp [Tok.plain])
    · have := (J_plain [.num e, .times, .expi] (by simp [Tok.plain])).append (J_call (fDotS f) (fDotS_plain f))
      simpa using this

theorem toks_clean (p : Piece) : p.toks = p.clean ∨ p.toks = p.clean ++ [.nl] := by
  cases p with
  | on e => exact Or.inl rfl
  | hop e f =>
    right
    unfold Piece.toks Piece.clean hopText
    simp only
    split_ifs <;> simp

theorem toks_J (p : Piece) : J p.toks p.clean := by
  rcases toks_clean p with h | h
  · rw [h]; exact clean_J p
  · rw [h]; simpa using (clean_J p).append J_nl

theorem strip_toks (a : List Tok) (p : Piece) :
    ((a ++ p.toks).reverse.dropWhile Tok.isNl).reverse = a ++ p.clean := by
  have hc : ((a ++ p.clean).reverse.dropWhile Tok.isNl).reverse = a ++ p.clean := by
    cases p with
    | on e => simp [Piece.clean, Tok.isNl]
    | hop e f =>
      unfold Piece.clean
      simp only
      split_ifs <;> simp [Tok.isNl]
  rcases toks_clean p with h | h
  · rw [h, hc]
  · rw [h, ← List.append_assoc, List.reverse_append, List.reverse_singleton, List.singleton_append,
      List.dropWhile_cons_of_pos (by rfl), hc]

theorem plus_J (ps : List Piece) : J (ps.flatMap fun q => .plus :: q.toks) (ps.flatMap fun q => .plus :: q.clean) := by
  induction ps with
  | nil => exact J_nil
  | cons p ps ih =>
    rw [List.flatMap_cons, List.flatMap_cons]
    have := (J_plain [.plus] (by simp [Tok.plain])).append (toks_J p)
    exact J.append (by simpa using this) ih

theorem textOf_J (ps : List Piece) : J (textOf ps) (cleanOf ps) := by
  cases ps with
  | nil => exact J_nil
  | cons p ps => exact (toks_J p).append (plus_J ps)

theorem textOf_snoc (ps : List Piece) (p : Piece) (h : ps ≠ []) : textOf (ps ++ [p]) = textOf ps ++ .plus :: p.toks := by
  cases ps with
  | nil => simp at h
  | cons q qs => simp [textOf]

theorem cleanOf_snoc (ps : List Piece) (p : Piece) (h : ps ≠ []) : cleanOf (ps ++ [p]) = cleanOf ps ++ .plus :: p.clean := by
  cases ps with
  | nil => simp at h
  | cons q qs => simp [cleanOf]

theorem joinLines_formula (ps : List Piece) (h : ps ≠ []) :
    joinLines 0 (formula (textOf ps)) = .lpar :: (cleanOf ps ++ [.rpar]) := by
  obtain ⟨qs, p, rfl⟩ : ∃ qs p, ps = qs ++ [p] := ⟨ps.dropLast, ps.getLast h, (List.dropLast_append_getLast h).symm⟩
  unfold formula
  by_cases hq : qs = []
  · subst hq
    have := strip_toks [] p
    simp only [List.nil_append, textOf, List.flatMap_nil, List.append_nil, cleanOf] at *
    rw [this]
    simp only [List.cons_append, joinLines]
    rw [clean_J p]; simp [joinLines]
  · rw [textOf_snoc _ _ hq, cleanOf_snoc _ _ hq, show textOf qs ++ .plus :: p.toks = (textOf qs ++ [.plus]) ++ p.toks by simp,
      strip_toks]
    simp only [List.cons_append, joinLines]
    have := ((textOf_J qs).append (J_plain [.plus] (by simp [Tok.plain]))).append (clean_J p) 0 [.rpar]
    simp only [zero_add] at this
    rw [this]; simp [joinLines]

theorem toks_length (p : Piece) : 1 ≤ p.clean.length := by
  cases p with
  | on e => simp [Piece.clean]
  | hop e f => unfold Piece.clean; simp only; split_ifs <;> simp

theorem flatMap_clean_length (ps : List Piece) : ps.length ≤ (ps.flatMap fun q => Tok.plus :: q.clean).length := by
  induction ps with
  | nil => simp
  | cons p ps ih => simp only [List.flatMap_cons, List.length_append, List.length_cons]; omega

theorem cleanOf_length (ps : List Piece) : ps.length ≤ (cleanOf ps).length := by
  cases ps with
  | nil => simp
  | cons p ps =>
    simp only [cleanOf, List.length_append, List.length_cons]
    have := flatMap_clean_length ps
    have := toks_length p
    omega

theorem joinLines_length (d : ℕ) (ts : List Tok) : (joinLines d ts).length ≤ ts.length := by
  fun_induction joinLines d ts <;> simp_all <;> omega

/-- The formula printed for a list of summands has the sum of their values. -/
theorem evalText_formula (k : Vec3 ℝ) (ps : List Piece) (h : ps ≠ []) :
    evalText k (formula (textOf ps)) = some (ps.map (Piece.val k)).sum := by
  have hl := joinLines_length 0 (formula (textOf ps))
  have hc := cleanOf_length ps
  rw [joinLines_formula ps h] at hl
  simp only [List.length_cons, List.length_append, List.length_nil] at hl
  unfold evalText
  rw [joinLines_formula ps h]
  generalize (formula (textOf ps)).length = N at *
  cases ps with
  | nil => simp at h
  | cons p ps =>
    simp only [List.length_cons] at hc
    obtain ⟨m, hm⟩ : ∃ m, 20 * N + 20 = (m + ps.length + 18) + 3 := ⟨20 * N + 20 - 3 - 18 - ps.length, by omega⟩
    rw [hm, readSum, readProd, readAtom, readSum_pieces k p ps m (by simp [Ends])]
    simp only
    rw [show m + ps.length + 18 + 1 = (m + ps.length + 18) + 1 by omega, prodTail_stop k _ _ (by simp [Stops])]
    simp only
    rw [sumTail_end k _ _ (by simp [Ends])]

/-! ### The dictionary -/

/-- The dictionary holds the texts of the summands `P`. -/
def Holds (hk : Hk) (P : Pair → List Piece) : Prop :=
  PyDict.WF hk ∧ ∀ p, PyDict.get? hk p = if P p = [] then none else some (textOf (P p))

open Classical in
theorem Holds.addText {hk : Hk} {P : Pair → List Piece} (h : Holds hk P) (p : Pair) (e : ℂ) (f : Vec3 ℝ) :
    Holds (addText hk p e (fDotS f)) (fun q => P q ++ if p = q then [.hop e f] else []) := by
  obtain ⟨hw, hg⟩ := h
  unfold PrintHk.addText
  have hp := hg p
  by_cases h0 : P p = []
  · rw [if_pos h0] at hp
    rw [hp]
    refine ⟨PyDict.WF_set hw _ _, fun q => ?_⟩
    by_cases hq : p = q
    · subst hq
      simp only [PyDict.get?_set_self, h0, List.nil_append, if_true, reduceCtorEq, if_false, List.cons_ne_nil]
      simp [textOf, Piece.toks]
    · simp only [PyDict.get?_set_of_ne hk _ (Ne.symm hq), if_neg hq, List.append_nil]
      exact hg q
  · rw [if_neg h0] at hp
    rw [hp]
    refine ⟨PyDict.WF_set hw _ _, fun q => ?_⟩
    by_cases hq : p = q
    · subst hq
      simp only [PyDict.get?_set_self, if_true]
      rw [if_neg (by simp), textOf_snoc _ _ h0]; rfl
    · simp only [PyDict.get?_set_of_ne hk _ (Ne.symm hq), if_neg hq, List.append_nil]
      exact hg q

open Classical in
/-- Summands of one hopping term in the element `p`. -/
noncomputable def hopPieces (pos : ℤ → Vec3 ℝ) (conv : ℤ) (t : Cell × Pair × ℂ) (p : Pair) : List Piece :=
  (if t.2.1 = p then [.hop t.2.2 (hkDr pos conv t)] else []) ++
    (if (t.2.1.2, t.2.1.1) = p then [.hop (star t.2.2) (-hkDr pos conv t)] else [])

theorem holds_hops (pos : ℤ → Vec3 ℝ) (conv : ℤ) (hops : List (Cell × Pair × ℂ)) {hk : Hk} {P : Pair → List Piece}
    (h : Holds hk P) :
    Holds (hops.foldl (addHopText pos conv) hk) (fun p => P p ++ hops.flatMap fun t => hopPieces pos conv t p) := by
  induction hops generalizing hk P with
  | nil => simpa using h
  | cons t hops ih =>
    rw [List.foldl_cons]
    have := ih ((h.addText t.2.1 t.2.2 (hkDr pos conv t)).addText (t.2.1.2, t.2.1.1) (star t.2.2) (-hkDr pos conv t))
    rw [show (fun p => P p ++ (t :: hops).flatMap fun t => hopPieces pos conv t p) = fun p => _ from by
      funext p; rw [List.flatMap_cons, hopPieces, ← List.append_assoc, ← List.append_assoc]]
    exact this

/-- Summands of the on-site energies. -/
noncomputable def onPieces (eng : List ℝ) (m : ℕ) (p : Pair) : List Piece :=
  (eng.zipIdx m).flatMap fun q => if p = ((q.2 : ℤ), (q.2 : ℤ)) then [.on q.1] else []

theorem holds_onsite (eng : List ℝ) (m : ℕ) {hk : Hk} {P : Pair → List Piece} (h : Holds hk P)
    (h0 : ∀ i : ℕ, m ≤ i → P ((i : ℤ), (i : ℤ)) = []) :
    Holds ((eng.zipIdx m).foldl (fun hk q => PyDict.set hk ((q.2 : ℤ), (q.2 : ℤ)) [.num (q.1 : ℂ)]) hk)
      (fun p => P p ++ onPieces eng m p) := by
  induction eng generalizing m hk P with
  | nil => simpa [onPieces] using h
  | cons e eng ih =>
    rw [List.zipIdx_cons, List.foldl_cons]
    have hs : Holds (PyDict.set hk ((m : ℤ), (m : ℤ)) [.num (e : ℂ)])
        (fun p => P p ++ if p = ((m : ℤ), (m : ℤ)) then [.on e] else []) := by
      refine ⟨PyDict.WF_set h.1 _ _, fun q => ?_⟩
      by_cases hq : q = ((m : ℤ), (m : ℤ))
      · subst hq
        simp [PyDict.get?_set_self, h0 m le_rfl, textOf, Piece.toks]
      · simp only [PyDict.get?_set_of_ne hk _ hq, if_neg hq, List.append_nil]
        exact h.2 q
    have := ih (m + 1) hs (fun i hi => by
      simp only [h0 i (by omega), List.nil_append]
      rw [if_neg]
      simp; omega)
    rw [show (fun p => P p ++ onPieces (e :: eng) m p) = fun p => _ from by
      funext p; rw [onPieces, List.zipIdx_cons, List.flatMap_cons, ← List.append_assoc]]
    exact this

/-- All summands of the element `p`. -/
noncomputable def pieces (pos : ℤ → Vec3 ℝ) (eng : List ℝ) (hops : List (Cell × Pair × ℂ)) (conv : ℤ) (p : Pair) : List Piece :=
  onPieces eng 0 p ++ hops.flatMap fun t => hopPieces pos conv t p

theorem holds_hkDict (pos : ℤ → Vec3 ℝ) (eng : List ℝ) (hops : List (Cell × Pair × ℂ)) (conv : ℤ) :
    Holds (hkDict pos eng hops conv) (pieces pos eng hops conv) := by
  have h0 : Holds [] (fun _ => []) := ⟨PyDict.WF_nil, by simp⟩
  have := holds_hops pos conv hops (holds_onsite eng 0 h0 (by simp))
  simp only [List.nil_append] at this
  exact this

/-! ### Running the lines -/

/-- Value of the element `p` of the printed matrix. -/
noncomputable def elem (k : Vec3 ℝ) (P : Pair → List Piece) (p : Pair) : ℂ := ((P p).map (Piece.val k)).sum

theorem run_assign (k : Vec3 ℝ) {P : Pair → List Piece} (l : Hk) (hl : ∀ q ∈ l, P q.1 ≠ [] ∧ q.2 = textOf (P q.1)) (m : IMat) :
    (l.map fun q => Line.assign q.1 (formula q.2)).foldlM (runLine k) m =
      some (fun a b => if (a, b) ∈ PyDict.keys l then elem k P (a, b) else m a b) := by
  induction l generalizing m with
  | nil => simp
  | cons q l ih =>
    obtain ⟨h1, h2⟩ := hl q (by simp)
    rw [List.map_cons, List.foldlM_cons, runLine, h2, evalText_formula k _ h1]
    simp only [Option.map_some, Option.bind_eq_bind, Option.bind_some]
    rw [ih (fun q hq => hl q (by simp [hq]))]
    congr 1
    funext a b
    obtain ⟨⟨i, j⟩, ts⟩ := q
    simp only [IMat.put, PyDict.keys_cons, List.mem_cons, Prod.mk.injEq]
    by_cases hm : (a, b) ∈ PyDict.keys l
    · simp [hm]
    · simp only [hm, if_false, or_false]
      by_cases hh : a = i ∧ b = j
      · obtain ⟨rfl, rfl⟩ := hh; simp [elem]
      · simp [hh]

theorem run_conj (k : Vec3 ℝ) (l : Hk) (hl : ∀ q ∈ l, q.1.1 < q.1.2) (m : IMat) :
    (l.map fun q => Line.conj (q.1.2, q.1.1) q.1).foldlM (runLine k) m =
      some (fun a b => if (b, a) ∈ PyDict.keys l then star (m b a) else m a b) := by
  induction l generalizing m with
  | nil => simp
  | cons q l ih =>
    have h1 := hl q (by simp)
    have hl' : ∀ q ∈ l, q.1.1 < q.1.2 := fun q hq => hl q (by simp [hq])
    rw [List.map_cons, List.foldlM_cons, runLine]
    simp only [Option.bind_eq_bind, Option.bind_some]
    rw [ih hl']
    congr 1
    funext a b
    obtain ⟨⟨i, j⟩, ts⟩ := q
    simp only at h1
    simp only [IMat.put, PyDict.keys_cons, List.mem_cons, Prod.mk.injEq]
    by_cases hm : (b, a) ∈ PyDict.keys l
    · have hba : b < a := by
        simp only [PyDict.keys, List.mem_map] at hm
        obtain ⟨q, hq, he⟩ := hm
        have := hl' q hq
        rw [he] at this; exact this
      have : ¬ (b = j ∧ a = i) := by rintro ⟨rfl, rfl⟩; omega
      simp [hm, this]
    · simp only [hm, if_false, or_false]
      by_cases hh : a = j ∧ b = i
      · obtain ⟨rfl, rfl⟩ := hh; simp
      · have : ¬ (b = i ∧ a = j) := fun h => hh ⟨h.2, h.1⟩
        simp [hh, this]

theorem mem_of_get {K V : Type*} [DecidableEq K] {d : PyDict K V} (hw : PyDict.WF d) (q : K × V) (h : q ∈ d) :
    PyDict.get? d q.1 = some q.2 := by
  induction d with
  | nil => simp at h
  | cons p d ih =>
    rw [PyDict.get?_cons]
    unfold PyDict.WF at hw
    rw [PyDict.keys_cons, List.nodup_cons] at hw
    rcases List.mem_cons.1 h with rfl | h
    · simp
    · have : p.1 ≠ q.1 := fun hh => hw.1 (by rw [hh]; exact List.mem_map_of_mem h)
      rw [if_neg this, ih hw.2 h]

theorem runLines_hk (k : Vec3 ℝ) {hk : Hk} {P : Pair → List Piece} (h : Holds hk P) :
    runLines k (hkLines hk) =
      some (fun a b => if a ≤ b then elem k P (a, b) else star (elem k P (b, a))) := by
  obtain ⟨hw, hg⟩ := h
  unfold runLines hkLines
  simp only
  rw [List.foldlM_append, run_assign k (P := P)]
  · simp only [Option.bind_eq_bind, Option.bind_some]
    rw [run_conj]
    · congr 1
      funext a b
      have hkey : ∀ a b : ℤ, (a, b) ∈ PyDict.keys hk ↔ P (a, b) ≠ [] := by
        intro a b
        rw [← PyDict.get?_isSome_iff, hg]
        by_cases h0 : P (a, b) = [] <;> simp [h0]
      have hred : ∀ a b : ℤ, (a, b) ∈ PyDict.keys (hk.filter fun q => decide (q.1.1 ≤ q.1.2)) ↔ P (a, b) ≠ [] ∧ a ≤ b := by
        intro a b
        rw [← hkey]
        simp only [PyDict.keys, List.mem_map, List.mem_filter, decide_eq_true_eq]
        constructor
        · rintro ⟨q, ⟨h1, h2⟩, h3⟩; rw [h3] at h2; exact ⟨⟨q, h1, h3⟩, h2⟩
        · rintro ⟨⟨q, h1, h3⟩, h2⟩; exact ⟨q, ⟨h1, by rw [h3]; exact h2⟩, h3⟩
      have hred2 : ∀ a b : ℤ, (a, b) ∈ PyDict.keys ((hk.filter fun q => decide (q.1.1 ≤ q.1.2)).filter
          fun q => decide (q.1.1 ≠ q.1.2)) ↔ P (a, b) ≠ [] ∧ a < b := by
        intro a b
        have := hred a b
        simp only [PyDict.keys, List.mem_map, List.mem_filter, decide_eq_true_eq] at this ⊢
        constructor
        · rintro ⟨q, ⟨h1, h2⟩, h3⟩
          have h4 := this.1 ⟨q, h1, h3⟩
          rw [h3] at h2
          exact ⟨h4.1, lt_of_le_of_ne h4.2 h2⟩
        · rintro ⟨h1, h2⟩
          obtain ⟨q, h3, h4⟩ := this.2 ⟨h1, h2.le⟩
          exact ⟨q, ⟨h3, by rw [h4]; exact h2.ne⟩, h4⟩
      simp only [hred, hred2]
      by_cases hab : a ≤ b
      · have hba : ¬ b < a := not_lt.2 hab
        simp only [hba, and_false, if_false, hab, and_true, if_true]
        by_cases h0 : P (a, b) = []
        · simp [h0, elem, IMat.zero]
        · simp [h0]
      · have hba : b < a := not_le.1 hab
        simp only [hba, and_true, hab, and_false, if_false, hba.le]
        by_cases h0 : P (b, a) = []
        · simp [h0, elem, IMat.zero]
        · simp [h0]
    · intro q hq
      simp only [List.mem_filter, decide_eq_true_eq] at hq
      exact lt_of_le_of_ne hq.1.2 hq.2
  · intro q hq
    have := mem_of_get hw q (List.mem_filter.1 hq).1
    rw [hg] at this
    split_ifs at this with h0
    exact ⟨h0, (Option.some.inj this).symm⟩

end Verif.PrintHk
