import Verif.Proof.TbpmKb
import Verif.Props.Csr

/-! # Current operators of a sample, means, energies of the DC conductivity -/

namespace Verif.Tbpm

open Matrix
open scoped Classical

variable {n : ℕ}

theorem mean_apply {K ι A : Type*} [Field K] [AddCommMonoid A] [Module K A] (N : ℕ) (seed : ℤ) (f : ℤ → ι → A) (i : ι) :
    meanSamples K N seed f i = meanSamples K N seed fun s => f s i := by
  unfold meanSamples
  rw [Pi.smul_apply, Finset.sum_apply]

theorem mean_fst {K A B : Type*} [Field K] [AddCommMonoid A] [Module K A] [AddCommMonoid B] [Module K B] (N : ℕ) (seed : ℤ)
    (f : ℤ → A × B) : (meanSamples K N seed f).1 = meanSamples K N seed fun s => (f s).1 := by
  unfold meanSamples
  rw [Prod.smul_fst, Prod.fst_sum]

theorem mean_snd {K A B : Type*} [Field K] [AddCommMonoid A] [Module K A] [AddCommMonoid B] [Module K B] (N : ℕ) (seed : ℤ)
    (f : ℤ → A × B) : (meanSamples K N seed f).2 = meanSamples K N seed fun s => (f s).2 := by
  unfold meanSamples
  rw [Prod.smul_snd, Prod.snd_sum]

theorem mean_const {K : Type*} [Field K] [CharZero K] (N : ℕ) (hN : N ≠ 0) (seed : ℤ) (c : K) :
    meanSamples K N seed (fun _ => c) = c := by
  unfold meanSamples
  rw [Finset.sum_const, Finset.card_range, nsmul_eq_mul, smul_eq_mul, ← mul_assoc, inv_mul_cancel₀ (by exact_mod_cast hN), one_mul]

theorem mean_congr {K A : Type*} [Field K] [AddCommMonoid A] [Module K A] (N : ℕ) (seed : ℤ) {f g : ℤ → A}
    (h : ∀ j < N, f (seed * (j + 1)) = g (seed * (j + 1))) : meanSamples K N seed f = meanSamples K N seed g := by
  unfold meanSamples
  congr 1
  exact Finset.sum_congr rfl fun j hj => h j (Finset.mem_range.1 hj)

theorem mean_sum {K ι A : Type*} [Field K] [AddCommMonoid A] [Module K A] (N : ℕ) (seed : ℤ) (S : Finset ι) (f : ℤ → ι → A) :
    ∑ i ∈ S, meanSamples K N seed (fun s => f s i) = meanSamples K N seed fun s => ∑ i ∈ S, f s i := by
  unfold meanSamples
  rw [← Finset.smul_sum, Finset.sum_comm]

theorem mean_nonneg (N : ℕ) (seed : ℤ) {f : ℤ → ℝ} (h : ∀ s, 0 ≤ f s) : 0 ≤ meanSamples ℝ N seed f := by
  unfold meanSamples
  rw [smul_eq_mul]
  exact mul_nonneg (by positivity) (Finset.sum_nonneg fun j _ => h _)

/-! ## The current operator -/

/-- The CSR arrays of a sample with the values of the current operator. -/
def curCsr (sel : CsrEnt ℝ ℂ → ℝ) (rescale : ℝ) (c : Csr ℝ ℂ) : Csr ℝ ℂ :=
  { c with ent := fun k => { c.ent k with v := (rescale * Complex.I) * (c.ent k).v * sel (c.ent k) } }

theorem curCsr_row (sel : CsrEnt ℝ ℂ → ℝ) (rescale : ℝ) (c : Csr ℝ ℂ) (r : ℤ) :
    (curCsr sel rescale c).row r = (c.row r).map fun e => { e with v := (rescale * Complex.I) * e.v * sel e } := by
  unfold Csr.row csrSlice curCsr
  simp [Function.comp_def]

theorem curCsr_valid (sel : CsrEnt ℝ ℂ → ℝ) (rescale : ℝ) {c : Csr ℝ ℂ} (hc : c.Valid n) : (curCsr sel rescale c).Valid n := by
  refine ⟨hc.zero, hc.mono, hc.writes, fun r hr e he => ?_⟩
  rw [curCsr_row] at he
  obtain ⟨e', he', rfl⟩ := List.mem_map.1 he
  exact hc.cols r hr e' he'

theorem current_entries (sel : CsrEnt ℝ ℂ → ℝ) (rescale : ℝ) {c : Csr ℝ ℂ} (hc : c.Valid n) (a b : Fin n) :
    ((FCsr.ofSample c).current (fun k => sel (c.ent k)) rescale).toMatrix n a b =
      (((c.row a).filter fun e => e.col = (b : ℤ)).map fun e => (rescale * Complex.I) * e.v * sel e).sum := by
  have h := ofSample_matrix (curCsr_valid sel rescale hc) a b
  have h2 : FCsr.ofSample (curCsr sel rescale c) = (FCsr.ofSample c).current (fun k => sel (c.ent k)) rescale := rfl
  rw [h2] at h
  rw [h]
  unfold Csr.mat
  rw [curCsr_row, List.filter_map, List.map_map]
  rfl

/-- Sum of hopping times displacement over the hopping terms from `a` to `b`. -/
theorem current_layout (d : Fin 2) (rescale : ℝ) (cutoff : ℝ) {eng : List ℝ} {hops : List (SCHop ℝ ℂ)} {row : List (CsrEnt ℝ ℂ)} {a : ℤ}
    (hp : row.Perm ((if cutoff ≤ |eng.getD a.toNat 0| then [⟨a, ((eng.getD a.toNat 0 : ℝ) : ℂ), 0, 0⟩] else []) ++
      hops.flatMap (fun h => (if h.i = a then [⟨h.j, h.v, h.dr 0, h.dr 1⟩] else []) ++
        (if h.j = a then [⟨h.i, star h.v, -h.dr 0, -h.dr 1⟩] else [])))) (b : ℤ) :
    ((row.filter fun e => e.col = b).map fun e => (rescale * Complex.I) * e.v * ((![e.dx, e.dy] d : ℝ) : ℂ)).sum =
      (rescale * Complex.I) * (((hops.filter fun h => h.i = a ∧ h.j = b).map fun h => h.v * ((h.dr (d.castLE (by omega)) : ℝ) : ℂ)).sum -
        ((hops.filter fun h => h.i = b ∧ h.j = a).map fun h => star h.v * ((h.dr (d.castLE (by omega)) : ℝ) : ℂ)).sum) := by
  rw [((hp.filter _).map _).sum_eq, List.filter_append, List.map_append, List.sum_append]
  have h1 : (((if cutoff ≤ |eng.getD a.toNat 0| then [(⟨a, ((eng.getD a.toNat 0 : ℝ) : ℂ), 0, 0⟩ : CsrEnt ℝ ℂ)] else []).filter
      fun e => e.col = b).map fun e => (rescale * Complex.I) * e.v * ((![e.dx, e.dy] d : ℝ) : ℂ)).sum = 0 := by
    split
    · rw [List.filter_cons]
      split
      · fin_cases d <;> simp
      · simp
    · simp
  rw [h1, zero_add]
  clear hp h1
  induction hops with
  | nil => simp
  | cons h hs ih =>
    rw [List.flatMap_cons, List.filter_append, List.map_append, List.sum_append, ih]
    have e1 : ((((if h.i = a then [(⟨h.j, h.v, h.dr 0, h.dr 1⟩ : CsrEnt ℝ ℂ)] else []) ++
        (if h.j = a then [(⟨h.i, star h.v, -h.dr 0, -h.dr 1⟩ : CsrEnt ℝ ℂ)] else [])).filter fun e : CsrEnt ℝ ℂ => e.col = b).map
        fun e : CsrEnt ℝ ℂ =>
          (rescale * Complex.I) * e.v * ((![e.dx, e.dy] d : ℝ) : ℂ)).sum =
        (rescale * Complex.I) * ((if h.i = a ∧ h.j = b then h.v * ((h.dr (d.castLE (by omega)) : ℝ) : ℂ) else 0) -
          (if h.i = b ∧ h.j = a then star h.v * ((h.dr (d.castLE (by omega)) : ℝ) : ℂ) else 0)) := by
      have hd0 : ((![h.dr 0, h.dr 1] d : ℝ)) = h.dr (d.castLE (by omega)) := by fin_cases d <;> rfl
      have hd1 : ((![-h.dr 0, -h.dr 1] d : ℝ)) = -h.dr (d.castLE (by omega)) := by fin_cases d <;> rfl
      rw [List.filter_append, List.map_append, List.sum_append, mul_sub, sub_eq_add_neg]
      congr 1
      · by_cases h1 : h.i = a
        · by_cases h2 : h.j = b
          · rw [if_pos h1, if_pos ⟨h1, h2⟩, List.filter_cons, if_pos (by simpa using h2)]
            simp only [List.filter_nil, List.map_cons, List.map_nil, List.sum_cons, List.sum_nil, hd0]
            ring
          · rw [if_pos h1, if_neg (fun hh => h2 hh.2), List.filter_cons, if_neg (by simpa using h2)]
            simp
        · rw [if_neg h1, if_neg (fun hh => h1 hh.1)]; simp
      · by_cases h1 : h.j = a
        · by_cases h2 : h.i = b
          · rw [if_pos h1, if_pos ⟨h2, h1⟩, List.filter_cons, if_pos (by simpa using h2)]
            simp only [List.filter_nil, List.map_cons, List.map_nil, List.sum_cons, List.sum_nil, hd1]
            push_cast
            ring
          · rw [if_pos h1, if_neg (fun hh => h2 hh.1), List.filter_cons, if_neg (by simpa using h2)]
            simp
        · rw [if_neg h1, if_neg (fun hh => h1 hh.2)]; simp
    have e2 : ∀ (P : SCHop ℝ ℂ → Prop) [DecidablePred P] (g : SCHop ℝ ℂ → ℂ),
        (((h :: hs).filter fun h => decide (P h)).map g).sum = (if P h then g h else 0) + ((hs.filter fun h => decide (P h)).map g).sum := by
      intro P _ g
      rw [List.filter_cons]
      by_cases hh : P h
      · simp [hh]
      · simp [hh]
    have e3 := e2 (fun h => h.i = a ∧ h.j = b) (fun h => h.v * ((h.dr (d.castLE (by omega)) : ℝ) : ℂ))
    have e4 := e2 (fun h => h.i = b ∧ h.j = a) (fun h => star h.v * ((h.dr (d.castLE (by omega)) : ℝ) : ℂ))
    simp only [e1]
    rw [e3, e4]
    ring

/-! ## Energies of the DC conductivity -/

theorem dc_selected (enRange lo hi : ℝ) (nt : ℕ) :
    ((dcIndices (dcEnergies enRange nt) lo hi).map fun k => (dcEnergies enRange nt).getD k 0) =
      ((List.range (2 * nt)).map fun k : ℕ => k * enRange / (2 * nt) - enRange / 2).filter
        fun E => decide (lo ≤ E ∧ E ≤ hi) := by
  have hl : (dcEnergies enRange nt).length = 2 * nt := by simp [dcEnergies, mul_comm]
  have hE : ∀ k ∈ List.range (2 * nt), (dcEnergies enRange nt).getD k 0 = k * enRange / (2 * nt) - enRange / 2 := by
    intro k hk
    have hk' : k < nt * 2 := by have := List.mem_range.1 hk; omega
    simp only [dcEnergies]
    rw [List.getD_eq_getElem?_getD, List.getElem?_map, List.getElem?_range hk']
    simp only [Option.map_some, Option.getD_some]
    by_cases h0 : (nt : ℝ) = 0
    · rw [h0]; simp
    · field_simp; norm_num; left; ring
  unfold dcIndices
  rw [hl, List.filter_map]
  have : ((List.range (2 * nt)).filter fun i => decide ((dcEnergies enRange nt).getD i 0 ≥ lo ∧ (dcEnergies enRange nt).getD i 0 ≤ hi)) =
      (List.range (2 * nt)).filter ((fun E : ℝ => decide (lo ≤ E ∧ E ≤ hi)) ∘ fun k : ℕ => k * enRange / (2 * nt) - enRange / 2) := by
    apply List.filter_congr
    intro k hk
    rw [hE k hk]
    rfl
  rw [this]
  apply List.map_congr_left
  intro k hk
  exact hE k (List.mem_of_mem_filter hk)

end Verif.Tbpm
