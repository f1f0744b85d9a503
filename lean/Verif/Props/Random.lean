import Verif.Model.Random
import Verif.Proof.SuperMod
import Mathlib.Data.Int.ModEq
import Mathlib.RingTheory.Coprime.Basic
import Mathlib.RingTheory.Coprime.Lemmas
import Mathlib.Algebra.Ring.Int.Parity

/-!
# Seeds of the random states (C119)
-/

namespace Verif.Props

open Verif.Random

/-- `2^32`. -/
abbrev W : ℤ := 4294967296

theorem i32_congr {x y : ℤ} (h : x ≡ y [ZMOD W]) : i32 x = i32 y := by
  unfold i32
  rw [← Int.emod_bmod (x := x), ← Int.emod_bmod (x := y)]
  rw [show ((2 ^ 32 : ℕ) : ℤ) = W by norm_num, h]

theorem i32_modEq (x : ℤ) : i32 x ≡ x [ZMOD W] := by
  unfold i32
  have := Int.bmod_emod (x := x) (m := 2 ^ 32)
  rw [show ((2 ^ 32 : ℕ) : ℤ) = W by norm_num] at this
  exact this

/-- Word `i` for the seed `s` is determined by `s * 49741 * 74231` modulo `2^32`. -/
theorem seedWords_eq (n : ℕ) (s : ℤ) : seedWords n s =
    (List.range' 1 n).map fun i : ℕ => i32 (i * (s * 49741 * 74231)) % 104717 := by
  unfold seedWords initSeed
  refine List.map_congr_left fun i _ => ?_
  rw [i32_congr (x := i32 (i * i32 (s * 49741)) * 74231) (y := i * (s * 49741 * 74231))]
  calc i32 (i * i32 (s * 49741)) * 74231 ≡ (i * i32 (s * 49741)) * 74231 [ZMOD W] := (i32_modEq _).mul_right _
    _ ≡ (i * (s * 49741)) * 74231 [ZMOD W] := ((i32_modEq _).mul_left _).mul_right _
    _ = i * (s * 49741 * 74231) := by ring

theorem sampleSeed_modEq (seed : ℤ) (ns rank i : ℕ) : sampleSeed32 seed ns rank i ≡ seed * (i + rank * ns) [ZMOD W] := by
  unfold sampleSeed32
  refine (i32_modEq _).trans (Int.ModEq.mul_left _ ((i32_modEq _).trans (Int.ModEq.add_left _ (i32_modEq _))))

/-- **C119 (partial).** The state is a function of the seed; the words put into the generator are `n` numbers between 0 and 104716.
Missing: different samples and seeds need not give different words (`C119_repeats`, `C119_seeds_repeat`). -/
theorem C119_words_partial (n : ℕ) (s : ℤ) : (seedWords n s).length = n ∧ ∀ x ∈ seedWords n s, 0 ≤ x ∧ x < 104717 := by
  constructor
  · simp [seedWords, initSeed]
  · intro x hx
    simp only [seedWords, initSeed, List.mem_map] at hx
    obtain ⟨i, -, rfl⟩ := hx
    exact ⟨Int.emod_nonneg _ (by norm_num), Int.emod_lt_of_pos _ (by norm_num)⟩

theorem odd_inverse (u : ℤ) (h : Odd u) : ∃ v : ℤ, 0 ≤ v ∧ v < W ∧ u * v ≡ 1 [ZMOD W] := by
  have hc : IsCoprime u W := by
    rw [show W = 2 ^ 32 by norm_num]
    refine IsCoprime.pow_right ?_
    obtain ⟨c, rfl⟩ := h
    exact ⟨1, -c, by ring⟩
  obtain ⟨a, b, hab⟩ := hc
  refine ⟨a % W, Int.emod_nonneg _ (by norm_num), Int.emod_lt_of_pos _ (by norm_num), ?_⟩
  refine ((Int.mod_modEq a W).mul_left u).trans ?_
  exact (Int.modEq_iff_dvd.2 ⟨b, by linarith⟩)

/-- The words for the sample `j` if `seed * j * 49741 * 74231` is the small number `c` modulo `2^32`. -/
theorem words_small (n : ℕ) (hn : n ≤ 20000) (seed : ℤ) (j : ℕ) (c : ℤ) (h0 : 0 ≤ c) (h1 : c ≤ 104718)
    (h : seed * j * 49741 * 74231 ≡ c [ZMOD W]) :
    seedWords n (sampleSeed32 seed 0 0 j) = (List.range' 1 n).map fun i : ℕ => (i * c) % 104717 := by
  rw [seedWords_eq]
  refine List.map_congr_left fun i hi => ?_
  have hi' : 1 ≤ i ∧ i < 1 + n := by simpa [List.mem_range'_1] using hi
  congr 1
  have hb : (i : ℤ) * c < 2 ^ 31 := by
    have : (i : ℤ) * c ≤ 20000 * 104718 := mul_le_mul (by omega) h1 h0 (by norm_num)
    omega
  rw [← i32_id (x := i * c) (by positivity) hb]
  refine i32_congr (Int.ModEq.mul_left _ ?_)
  refine Int.ModEq.trans ?_ h
  refine ((Int.ModEq.trans (sampleSeed_modEq seed 0 0 j) ?_).mul_right _).mul_right _
  simp

/-- **C119 fails.**  Whatever the seed, among the sample numbers up to `2^32` there are two different ones that get the same words, hence the same
random state (for every compiler with at most 20000 words). -/
theorem C119_repeats (n : ℕ) (hn : n ≤ 20000) (seed : ℤ) :
    ∃ i j : ℕ, i ≠ j ∧ i < 4294967296 ∧ j < 4294967296 ∧ seedWords n (sampleSeed32 seed 0 0 i) = seedWords n (sampleSeed32 seed 0 0 j) := by
  rcases Int.even_or_odd seed with he | ho
  · obtain ⟨c, rfl⟩ := he
    refine ⟨1, 2147483649, by norm_num, by norm_num, by norm_num, ?_⟩
    rw [seedWords_eq, seedWords_eq]
    refine List.map_congr_left fun i _ => ?_
    congr 1
    refine i32_congr (Int.ModEq.mul_left _ (Int.ModEq.mul_right _ (Int.ModEq.mul_right _ ?_)))
    refine (sampleSeed_modEq _ _ _ _).trans (Int.ModEq.trans ?_ (sampleSeed_modEq _ _ _ _).symm)
    exact Int.modEq_iff_dvd.2 ⟨c, by push_cast; ring⟩
  · have hodd : Odd (seed * (49741 * 74231)) := ho.mul (by decide)
    obtain ⟨v, hv0, hv1, hv⟩ := odd_inverse _ hodd
    have h0 := Int.emod_nonneg (104718 * v) (show W ≠ 0 by norm_num)
    have h1 := Int.emod_lt_of_pos (104718 * v) (show (0 : ℤ) < W by norm_num)
    have hm := Int.mod_modEq (104718 * v) W
    generalize (104718 * v) % W = u at h0 h1 hm
    have hu : seed * (49741 * 74231) * u ≡ 104718 [ZMOD W] := by
      refine (hm.mul_left _).trans ?_
      have := hv.mul_left 104718
      rw [mul_one] at this
      refine Int.ModEq.trans ?_ this
      rw [mul_left_comm]
    lift u to ℕ using h0
    lift v to ℕ using hv0
    refine ⟨v, u, ?_, by simp only [W] at hv1; omega, by simp only [W] at h1; omega, ?_⟩
    · rintro rfl
      have := hv.symm.trans hu
      exact absurd this (by decide)
    · rw [words_small n hn seed v 1 (by norm_num) (by norm_num) (by
          refine Int.ModEq.trans ?_ hv
          rw [show seed * (v : ℤ) * 49741 * 74231 = seed * (49741 * 74231) * v by ring]),
        words_small n hn seed u 104718 (by norm_num) (by norm_num) (by
          refine Int.ModEq.trans ?_ hu
          rw [show seed * (u : ℤ) * 49741 * 74231 = seed * (49741 * 74231) * u by ring])]
      refine List.map_congr_left fun i _ => ?_
      rw [mul_one, show (i : ℤ) * 104718 = i + 104717 * i by ring, Int.add_mul_emod_self_left]

/-- **C119 fails.**  Two different seeds give the same states, with the eight words of gfortran. -/
theorem C119_seeds_repeat : seedWords 8 1 = seedWords 8 675822 ∧ seedWords 8 1 ≠ seedWords 8 2 := by decide +kernel

/-- **C119 fails.**  With the default seed 1337 samples 5 and 329113 are the same. -/
theorem C119_default_repeats : seedWords 8 (sampleSeed32 1337 0 0 5) = seedWords 8 (sampleSeed32 1337 0 0 329113) := by decide +kernel

end Verif.Props
