import Verif.DataAssim.Update
import Mathlib.MeasureTheory.Integral.Bochner.Basic
import Mathlib.MeasureTheory.Measure.Dirac
import Mathlib.MeasureTheory.Measure.Typeclasses.Probability
import Mathlib.Probability.HasLawExists
import Mathlib.Probability.Independence.Integration
import Mathlib.Probability.Moments.Variance
import Mathlib.Probability.Distributions.Gaussian.Real
import Mathlib.Tactic.Module

/-!
# C117: perturbed observations

`DataAssimilator::fill_noise_vector`, `source/DataAssimilator.cc:633-670`, called for every member in `update_ensemble`, `:120-147`.
-/

namespace Verif.DataAssim

open Matrix MeasureTheory

variable {ne : ℕ}

/-- `dealii::SparsityPattern::bandwidth`: the largest distance of an entry from the diagonal (`:121`). -/
def bandwidth (pattern : List (ℕ × ℕ)) : ℕ := (pattern.map fun p => p.1 - p.2 + (p.2 - p.1)).foldr max 0

/-- `fill_noise_vector`, `DataAssimilator.cc:633-670`, with the draws `ξ` of the generator in their order; `chol` = `FullMatrix::cholesky`. -/
noncomputable def fillNoise (chol : Matrix (Fin ne) (Fin ne) ℝ → Matrix (Fin ne) (Fin ne) ℝ) (R : Matrix (Fin ne) (Fin ne) ℝ) (diagonal : Bool) (ξ : Fin ne → ℝ) : Fin ne → ℝ :=
  if diagonal then fun i => ξ i * Real.sqrt (R i i) else chol R *ᵥ ξ

/-- The noise vectors of `members` members, `:133-137`: the generator `z 0, z 1, …` is a member of the assimilator (`DataAssimilator.hh:280-286`); `pos` draws have been
taken before. -/
noncomputable def drawNoise (chol : Matrix (Fin ne) (Fin ne) ℝ → Matrix (Fin ne) (Fin ne) ℝ) (R : Matrix (Fin ne) (Fin ne) ℝ) (pattern : List (ℕ × ℕ)) (z : ℕ → ℝ) :
    ℕ → ℕ → List (Fin ne → ℝ)
  | _, 0 => []
  | pos, members + 1 => fillNoise chol R (bandwidth pattern == 0) (fun i => z (pos + i.val)) :: drawNoise chol R pattern z (pos + ne) members

/-- `drawNoise` as a function on the members. -/
noncomputable def noiseOf (chol : Matrix (Fin ne) (Fin ne) ℝ → Matrix (Fin ne) (Fin ne) ℝ) (R : Matrix (Fin ne) (Fin ne) ℝ) (pattern : List (ℕ × ℕ)) (z : ℕ → ℝ) (pos k : ℕ)
    (m : Fin k) : Fin ne → ℝ :=
  (drawNoise chol R pattern z pos k).getD m.val 0

/-! ## Specification -/

/-- `z 0, z 1, …` on a probability space: mean 0, variance 1, uncorrelated (as independent standard normal numbers are). -/
structure WhiteNoise {Ω : Type} [MeasurableSpace Ω] (μ : Measure Ω) (z : Ω → ℕ → ℝ) : Prop where
  integrable : ∀ i, Integrable (fun ω => z ω i) μ
  integrable_mul : ∀ i j, Integrable (fun ω => z ω i * z ω j) μ
  mean : ∀ i, ∫ ω, z ω i ∂μ = 0
  cov : ∀ i j, ∫ ω, z ω i * z ω j ∂μ = if i = j then 1 else 0

/-- The observation error covariance: symmetric positive semi-definite, stored with a pattern that contains its non-zero entries, and the contract of the Cholesky
factorisation for it. -/
structure ErrorCov (R : Matrix (Fin ne) (Fin ne) ℝ) (pattern : List (ℕ × ℕ)) (chol : Matrix (Fin ne) (Fin ne) ℝ → Matrix (Fin ne) (Fin ne) ℝ) : Prop where
  stored : ∀ i j : Fin ne, R i j ≠ 0 → (i.val, j.val) ∈ pattern
  diag : ∀ i : Fin ne, 0 ≤ R i i
  factor : chol R * (chol R)ᵀ = R

/-! ## Proof -/

theorem drawNoise_get (chol : Matrix (Fin ne) (Fin ne) ℝ → Matrix (Fin ne) (Fin ne) ℝ) (R : Matrix (Fin ne) (Fin ne) ℝ) (pattern : List (ℕ × ℕ)) (z : ℕ → ℝ) (k : ℕ) :
    ∀ (pos m : ℕ), m < k → (drawNoise chol R pattern z pos k).getD m 0 = fillNoise chol R (bandwidth pattern == 0) (fun i => z (pos + m * ne + i.val)) := by
  induction k with
  | zero => intro pos m h; omega
  | succ k ih =>
    intro pos m h
    cases m with
    | zero => simp [drawNoise]
    | succ m =>
      rw [drawNoise, List.getD_cons_succ, ih (pos + ne) m (by omega)]
      congr 1
      funext i
      congr 1
      ring

theorem le_bandwidth (pattern : List (ℕ × ℕ)) (p : ℕ × ℕ) (h : p ∈ pattern) : p.1 - p.2 + (p.2 - p.1) ≤ bandwidth pattern := by
  induction pattern with
  | nil => exact absurd h List.not_mem_nil
  | cons a l ih =>
    unfold bandwidth at *
    rw [List.map_cons, List.foldr_cons]
    rcases List.mem_cons.1 h with rfl | h
    · exact le_max_left _ _
    · exact (ih h).trans (le_max_right _ _)

/-- The factor applied to the draws: `L` with `L Lᵀ = R`. -/
theorem fillNoise_factor (chol : Matrix (Fin ne) (Fin ne) ℝ → Matrix (Fin ne) (Fin ne) ℝ) (R : Matrix (Fin ne) (Fin ne) ℝ) (pattern : List (ℕ × ℕ)) (hR : ErrorCov R pattern chol) :
    ∃ L : Matrix (Fin ne) (Fin ne) ℝ, L * Lᵀ = R ∧ ∀ ξ, fillNoise chol R (bandwidth pattern == 0) ξ = L *ᵥ ξ := by
  by_cases hb : bandwidth pattern = 0
  · refine ⟨Matrix.diagonal fun i => Real.sqrt (R i i), ?_, fun ξ => ?_⟩
    · rw [Matrix.diagonal_transpose, Matrix.diagonal_mul_diagonal]
      funext i j
      by_cases hij : i = j
      · subst hij
        rw [Matrix.diagonal_apply_eq, Real.mul_self_sqrt (hR.diag i)]
      · rw [Matrix.diagonal_apply_ne _ hij]
        by_contra h
        have := le_bandwidth pattern _ (hR.stored i j (Ne.symm h))
        dsimp only at this
        exact hij (Fin.ext (by omega))
    · rw [hb]
      funext i
      rw [Matrix.mulVec_diagonal]
      simp [fillNoise, mul_comm]
  · refine ⟨chol R, hR.factor, fun ξ => ?_⟩
    unfold fillNoise
    rw [if_neg (by simpa using hb)]

section Random

variable {Ω : Type} [MeasurableSpace Ω] {μ : Measure Ω}

/-- Moments of a linear combination of white noise. -/
theorem white_linear {z : Ω → ℕ → ℝ} (hz : WhiteNoise μ z) (f g : Fin ne → ℝ) (p q : ℕ) :
    Integrable (fun ω => ∑ i, f i * z ω (p + i.val)) μ ∧ ∫ ω, ∑ i, f i * z ω (p + i.val) ∂μ = 0 ∧
    Integrable (fun ω => (∑ i, f i * z ω (p + i.val)) * ∑ j, g j * z ω (q + j.val)) μ ∧
    ∫ ω, (∑ i, f i * z ω (p + i.val)) * ∑ j, g j * z ω (q + j.val) ∂μ = ∑ i, ∑ j, f i * g j * (if p + i.val = q + j.val then 1 else 0) := by
  have hprod : ∀ ω, (∑ i, f i * z ω (p + i.val)) * ∑ j, g j * z ω (q + j.val) = ∑ i, ∑ j, f i * g j * (z ω (p + i.val) * z ω (q + j.val)) := by
    intro ω
    rw [Finset.sum_mul_sum]
    exact Finset.sum_congr rfl fun i _ => Finset.sum_congr rfl fun j _ => by ring
  refine ⟨integrable_finsetSum _ fun i _ => (hz.integrable _).const_mul _, ?_, ?_, ?_⟩
  · rw [integral_finsetSum _ fun i _ => (hz.integrable _).const_mul _]
    exact Finset.sum_eq_zero fun i _ => by rw [integral_const_mul, hz.mean, mul_zero]
  · simp only [hprod]
    exact integrable_finsetSum _ fun i _ => integrable_finsetSum _ fun j _ => (hz.integrable_mul _ _).const_mul _
  · simp only [hprod]
    rw [integral_finsetSum _ fun i _ => integrable_finsetSum _ fun j _ => (hz.integrable_mul _ _).const_mul _]
    refine Finset.sum_congr rfl fun i _ => ?_
    rw [integral_finsetSum _ fun j _ => (hz.integrable_mul _ _).const_mul _]
    exact Finset.sum_congr rfl fun j _ => by rw [integral_const_mul, hz.cov]

/-- Everything used about the noise of an update: integrable, mean 0, covariance `R` within a member and 0 between members. -/
theorem noise_moments {z : Ω → ℕ → ℝ} (hz : WhiteNoise μ z) (chol : Matrix (Fin ne) (Fin ne) ℝ → Matrix (Fin ne) (Fin ne) ℝ) (R : Matrix (Fin ne) (Fin ne) ℝ)
    (pattern : List (ℕ × ℕ)) (hR : ErrorCov R pattern chol) (pos k : ℕ) (m l : Fin k) (i j : Fin ne) :
    Integrable (fun ω => noiseOf chol R pattern (z ω) pos k m i) μ ∧ ∫ ω, noiseOf chol R pattern (z ω) pos k m i ∂μ = 0 ∧
    Integrable (fun ω => noiseOf chol R pattern (z ω) pos k m i * noiseOf chol R pattern (z ω) pos k l j) μ ∧
    ∫ ω, noiseOf chol R pattern (z ω) pos k m i * noiseOf chol R pattern (z ω) pos k l j ∂μ = if m = l then R i j else 0 := by
  obtain ⟨L, hL, hf⟩ := fillNoise_factor chol R pattern hR
  have e : ∀ (ω : Ω) (m : Fin k) (i : Fin ne), noiseOf chol R pattern (z ω) pos k m i = ∑ a, L i a * z ω (pos + m.val * ne + a.val) := by
    intro ω m i
    unfold noiseOf
    rw [drawNoise_get chol R pattern (z ω) k pos m.val m.isLt, hf]
    rfl
  simp only [e]
  obtain ⟨h1, h2, h3, h4⟩ := white_linear hz (L i) (L j) (pos + m.val * ne) (pos + l.val * ne)
  refine ⟨h1, h2, h3, h4.trans ?_⟩
  by_cases hml : m = l
  · subst hml
    rw [if_pos rfl, ← hL, Matrix.mul_apply]
    refine Finset.sum_congr rfl fun a _ => ?_
    rw [Finset.sum_eq_single a]
    · rw [if_pos rfl, mul_one, Matrix.transpose_apply]
    · intro b _ hb
      rw [if_neg (fun h => hb (Fin.ext (by omega))), mul_zero]
    · intro h
      exact absurd (Finset.mem_univ a) h
  · rw [if_neg hml]
    refine Finset.sum_eq_zero fun a _ => Finset.sum_eq_zero fun b _ => ?_
    rw [if_neg, mul_zero]
    intro h
    apply hml
    apply Fin.ext
    have ha := a.isLt
    have hb := b.isLt
    have h' : m.val * ne + a.val = l.val * ne + b.val := by omega
    have e1 : (m.val * ne + a.val) / ne = m.val := by
      rw [Nat.mul_comm, Nat.mul_add_div (by omega), Nat.div_eq_of_lt ha, Nat.add_zero]
    have e2 : (l.val * ne + b.val) / ne = l.val := by
      rw [Nat.mul_comm, Nat.mul_add_div (by omega), Nat.div_eq_of_lt hb, Nat.add_zero]
    rw [← e1, h', e2]

/-- **C117**: the perturbations of the observations have mean 0 and the covariance `R`, and those of different members are uncorrelated; for every number of members and
observations, and wherever the generator stands. -/
theorem C117_noise {z : Ω → ℕ → ℝ} (hz : WhiteNoise μ z) (chol : Matrix (Fin ne) (Fin ne) ℝ → Matrix (Fin ne) (Fin ne) ℝ) (R : Matrix (Fin ne) (Fin ne) ℝ)
    (pattern : List (ℕ × ℕ)) (hR : ErrorCov R pattern chol) (pos k : ℕ) (m l : Fin k) (i j : Fin ne) :
    ∫ ω, noiseOf chol R pattern (z ω) pos k m i ∂μ = 0 ∧
    ∫ ω, noiseOf chol R pattern (z ω) pos k m i * noiseOf chol R pattern (z ω) pos k l j ∂μ = if m = l then R i j else 0 :=
  ⟨(noise_moments hz chol R pattern hR pos k m l i j).2.1, (noise_moments hz chol R pattern hR pos k m l i j).2.2.2⟩

end Random

/-! ## The updated ensemble -/

/-- Weights of the sample covariance as a bilinear form. -/
noncomputable def weight (n : ℕ) (k l : Fin n) : ℝ := ((if k = l then 1 else 0) - 1 / n) / (n - 1)

theorem sampleCov_bilinear {n : ℕ} {ι : Type} (hn : 2 ≤ n) (x : Fin n → ι → ℝ) (i j : ι) :
    sampleCov x i j = ∑ k, ∑ l, weight n k l * (x k i * x l j) := by
  have h2 : (2 : ℝ) ≤ n := by exact_mod_cast hn
  have hn0 : (n : ℝ) ≠ 0 := by linarith
  have hn1 : (n : ℝ) - 1 ≠ 0 := by linarith
  have e1 : ∑ k, (x k i - sampleMean x i) * (x k j - sampleMean x j) = (∑ k, x k i * x k j) - (∑ k, x k i) * (∑ k, x k j) / n := by
    have : ∀ k, (x k i - sampleMean x i) * (x k j - sampleMean x j) =
        x k i * x k j - sampleMean x i * x k j - x k i * sampleMean x j + sampleMean x i * sampleMean x j := fun k => by ring
    simp only [this, Finset.sum_add_distrib, Finset.sum_sub_distrib]
    rw [← Finset.mul_sum, ← Finset.sum_mul, Finset.sum_const, Finset.card_univ, Fintype.card_fin, nsmul_eq_mul]
    unfold sampleMean
    field_simp
    ring
  have e2 : ∀ k, ∑ l, weight n k l * (x k i * x l j) = (x k i * x k j - x k i * (∑ l, x l j) / n) / (n - 1) := by
    intro k
    have : ∀ l, weight n k l * (x k i * x l j) = ((if k = l then x k i * x l j else 0) - x k i * x l j / n) / (n - 1) := by
      intro l
      unfold weight
      by_cases h : k = l
      · rw [if_pos h, if_pos h]; ring
      · rw [if_neg h, if_neg h]; ring
    simp only [this]
    rw [← Finset.sum_div, Finset.sum_sub_distrib, Finset.sum_ite_eq, if_pos (Finset.mem_univ k), ← Finset.sum_div, ← Finset.mul_sum]
  unfold sampleCov
  rw [e1, Finset.sum_congr rfl fun k _ => e2 k, ← Finset.sum_div, Finset.sum_sub_distrib, ← Finset.sum_div, ← Finset.sum_mul]

theorem sum_weight_diag {n : ℕ} (hn : 2 ≤ n) : ∑ k : Fin n, weight n k k = 1 := by
  have h2 : (2 : ℝ) ≤ n := by exact_mod_cast hn
  have hn0 : (n : ℝ) ≠ 0 := by linarith
  have hn1 : (n : ℝ) - 1 ≠ 0 := by linarith
  simp only [weight, if_true, Finset.sum_const, Finset.card_univ, Fintype.card_fin, nsmul_eq_mul]
  field_simp

variable {A : Type} [Fintype A]

theorem sampleCov_linear {n : ℕ} (hn : 2 ≤ n) (x : Fin n → A → ℝ) (M : Matrix A A ℝ) (i j : A) :
    sampleCov (fun k => M *ᵥ x k) i j = (M * Matrix.of (sampleCov x) * Mᵀ) i j := by
  rw [sampleCov_bilinear hn]
  have e : (M * Matrix.of (sampleCov x) * Mᵀ) i j = ∑ b, (∑ a, M i a * sampleCov x a b) * M j b := rfl
  rw [e]
  simp only [sampleCov_bilinear hn x, Matrix.mulVec, dotProduct]
  have e1 : ∀ k l, weight n k l * ((∑ a, M i a * x k a) * ∑ b, M j b * x l b) = ∑ b, ∑ a, M i a * (weight n k l * (x k a * x l b)) * M j b := by
    intro k l
    rw [Finset.sum_mul_sum, Finset.sum_comm, Finset.mul_sum]
    refine Finset.sum_congr rfl fun b _ => ?_
    rw [Finset.mul_sum]
    exact Finset.sum_congr rfl fun a _ => by ring
  have e2 : ∀ b, (∑ a, M i a * ∑ k, ∑ l, weight n k l * (x k a * x l b)) * M j b = ∑ k, ∑ l, ∑ a, M i a * (weight n k l * (x k a * x l b)) * M j b := by
    intro b
    rw [Finset.sum_mul]
    have : ∀ a, M i a * (∑ k, ∑ l, weight n k l * (x k a * x l b)) * M j b = ∑ k, ∑ l, M i a * (weight n k l * (x k a * x l b)) * M j b := by
      intro a
      rw [Finset.mul_sum, Finset.sum_mul]
      refine Finset.sum_congr rfl fun k _ => ?_
      rw [Finset.mul_sum, Finset.sum_mul]
    rw [Finset.sum_congr rfl fun a _ => this a, Finset.sum_comm]
    refine Finset.sum_congr rfl fun k _ => ?_
    rw [Finset.sum_comm]
  rw [Finset.sum_congr rfl fun b _ => e2 b]
  simp only [e1]
  rw [Finset.sum_comm]
  rw [Finset.sum_congr rfl fun l _ => Finset.sum_comm, Finset.sum_comm]
  refine Finset.sum_congr rfl fun b _ => ?_
  rw [Finset.sum_comm]

section Random

variable {Ω : Type} [MeasurableSpace Ω] {μ : Measure Ω} [IsProbabilityMeasure μ] [DecidableEq A]

/-- Expected sample covariance of an ensemble `b k + K u k` with noise `u` of mean 0 and covariance `R`, uncorrelated between members. -/
theorem expected_cov {n : ℕ} (hn : 2 ≤ n) (R : Matrix (Fin ne) (Fin ne) ℝ) (K : Matrix A (Fin ne) ℝ) (base : Fin n → A → ℝ) (u : Ω → Fin n → Fin ne → ℝ)
    (hu : ∀ (m l : Fin n) (i j : Fin ne), Integrable (fun ω => u ω m i) μ ∧ ∫ ω, u ω m i ∂μ = 0 ∧ Integrable (fun ω => u ω m i * u ω l j) μ ∧
      ∫ ω, u ω m i * u ω l j ∂μ = if m = l then R i j else 0) (a b : A) :
    ∫ ω, sampleCov (fun m => base m + K *ᵥ u ω m) a b ∂μ = sampleCov base a b + (K * R * Kᵀ) a b := by
  have hw : ∀ (m l : Fin n) (a b : A), Integrable (fun ω => (K *ᵥ u ω m) a) μ ∧ ∫ ω, (K *ᵥ u ω m) a ∂μ = 0 ∧
      Integrable (fun ω => (K *ᵥ u ω m) a * (K *ᵥ u ω l) b) μ ∧ ∫ ω, (K *ᵥ u ω m) a * (K *ᵥ u ω l) b ∂μ = if m = l then (K * R * Kᵀ) a b else 0 := by
    intro m l a b
    have hprod : ∀ ω, (K *ᵥ u ω m) a * (K *ᵥ u ω l) b = ∑ i, ∑ j, K a i * K b j * (u ω m i * u ω l j) := by
      intro ω
      simp only [Matrix.mulVec, dotProduct]
      rw [Finset.sum_mul_sum]
      exact Finset.sum_congr rfl fun i _ => Finset.sum_congr rfl fun j _ => by ring
    refine ⟨?_, ?_, ?_, ?_⟩
    · simp only [Matrix.mulVec, dotProduct]
      exact integrable_finsetSum _ fun i _ => ((hu m l i i).1).const_mul _
    · simp only [Matrix.mulVec, dotProduct]
      rw [integral_finsetSum _ fun i _ => ((hu m l i i).1).const_mul _]
      exact Finset.sum_eq_zero fun i _ => by rw [integral_const_mul, (hu m l i i).2.1, mul_zero]
    · simp only [hprod]
      exact integrable_finsetSum _ fun i _ => integrable_finsetSum _ fun j _ => ((hu m l i j).2.2.1).const_mul _
    · simp only [hprod]
      rw [integral_finsetSum _ fun i _ => integrable_finsetSum _ fun j _ => ((hu m l i j).2.2.1).const_mul _]
      have e : ∀ i, ∫ ω, ∑ j, K a i * K b j * (u ω m i * u ω l j) ∂μ = ∑ j, K a i * K b j * (if m = l then R i j else 0) := by
        intro i
        rw [integral_finsetSum _ fun j _ => ((hu m l i j).2.2.1).const_mul _]
        exact Finset.sum_congr rfl fun j _ => by rw [integral_const_mul, (hu m l i j).2.2.2]
      rw [Finset.sum_congr rfl fun i _ => e i]
      by_cases hml : m = l
      · rw [if_pos hml]
        simp only [if_pos hml]
        rw [Matrix.mul_apply, Finset.sum_comm]
        refine Finset.sum_congr rfl fun j _ => ?_
        rw [Matrix.mul_apply, Matrix.transpose_apply, Finset.sum_mul]
        exact Finset.sum_congr rfl fun i _ => by ring
      · simp [if_neg hml]
  have hterm : ∀ ω, sampleCov (fun m => base m + K *ᵥ u ω m) a b =
      ∑ k, ∑ l, (weight n k l * (base k a * base l b) + weight n k l * base k a * (K *ᵥ u ω l) b + weight n k l * base l b * (K *ᵥ u ω k) a +
        weight n k l * ((K *ᵥ u ω k) a * (K *ᵥ u ω l) b)) := by
    intro ω
    rw [sampleCov_bilinear hn]
    refine Finset.sum_congr rfl fun k _ => Finset.sum_congr rfl fun l _ => ?_
    simp only [Pi.add_apply]
    ring
  have hint : ∀ k l, Integrable (fun ω => weight n k l * (base k a * base l b) + weight n k l * base k a * (K *ᵥ u ω l) b + weight n k l * base l b * (K *ᵥ u ω k) a +
        weight n k l * ((K *ᵥ u ω k) a * (K *ᵥ u ω l) b)) μ := fun k l =>
    (((integrable_const _).add ((hw l l b b).1.const_mul _)).add ((hw k k a a).1.const_mul _)).add ((hw k l a b).2.2.1.const_mul _)
  simp only [hterm]
  rw [integral_finsetSum _ fun k _ => integrable_finsetSum _ fun l _ => hint k l]
  have e : ∀ k, ∫ ω, ∑ l, (weight n k l * (base k a * base l b) + weight n k l * base k a * (K *ᵥ u ω l) b + weight n k l * base l b * (K *ᵥ u ω k) a +
        weight n k l * ((K *ᵥ u ω k) a * (K *ᵥ u ω l) b)) ∂μ =
      ∑ l, (weight n k l * (base k a * base l b) + weight n k l * (if k = l then (K * R * Kᵀ) a b else 0)) := by
    intro k
    rw [integral_finsetSum _ fun l _ => hint k l]
    refine Finset.sum_congr rfl fun l _ => ?_
    have i1 : Integrable (fun _ : Ω => weight n k l * (base k a * base l b)) μ := integrable_const _
    have i2 : Integrable (fun ω => weight n k l * base k a * (K *ᵥ u ω l) b) μ := (hw l l b b).1.const_mul _
    have i3 : Integrable (fun ω => weight n k l * base l b * (K *ᵥ u ω k) a) μ := (hw k k a a).1.const_mul _
    have i4 : Integrable (fun ω => weight n k l * ((K *ᵥ u ω k) a * (K *ᵥ u ω l) b)) μ := (hw k l a b).2.2.1.const_mul _
    have s12 : Integrable (fun ω => weight n k l * (base k a * base l b) + weight n k l * base k a * (K *ᵥ u ω l) b) μ := i1.add i2
    have s123 : Integrable (fun ω => weight n k l * (base k a * base l b) + weight n k l * base k a * (K *ᵥ u ω l) b + weight n k l * base l b * (K *ᵥ u ω k) a) μ := s12.add i3
    rw [integral_add s123 i4, integral_add s12 i3, integral_add i1 i2]
    simp only [integral_const_mul, (hw l l b b).2.1, (hw k k a a).2.1, (hw k l a b).2.2.2, integral_const, probReal_univ, one_smul, mul_zero, add_zero]
  rw [Finset.sum_congr rfl fun k _ => e k]
  simp only [Finset.sum_add_distrib, mul_ite, mul_zero, Finset.sum_ite_eq, Finset.mem_univ, if_true]
  rw [← sampleCov_bilinear hn, ← Finset.sum_mul, sum_weight_diag hn, one_mul]

theorem base_cov {n : ℕ} (hn : 2 ≤ n) (K : Matrix A (Fin ne) ℝ) (H : Matrix (Fin ne) A ℝ) (y : Fin ne → ℝ) (x : Fin n → A → ℝ) (a b : A) :
    sampleCov (fun m => x m + K *ᵥ (y - H *ᵥ x m)) a b = (((1 : Matrix A A ℝ) - K * H) * Matrix.of (sampleCov x) * ((1 : Matrix A A ℝ) - K * H)ᵀ) a b := by
  rw [← sampleCov_linear hn x (1 - K * H) a b, ← (C51_identical_and_shift (fun k => (1 - K * H) *ᵥ x k) hn a b).2 (K *ᵥ y)]
  congr 1
  funext m
  have : x m + K *ᵥ (y - H *ᵥ x m) = (1 - K * H) *ᵥ x m + K *ᵥ y := by
    rw [Matrix.mulVec_sub, Matrix.sub_mulVec, Matrix.one_mulVec, Matrix.mulVec_mulVec]
    module
  rw [this]
  rfl

/-- **C117**, any covariance matrix `P` used for the gain `K = P Hᵀ (H P Hᵀ + R)⁻¹` (with or without localisation): in expectation over the perturbations each member
moves to its own Kalman estimate, and the sample covariance of the updated ensemble is `(1 - K H) C (1 - K H)ᵀ + K R Kᵀ` with the sample covariance `C` before. -/
theorem C117_update {n : ℕ} (hn : 2 ≤ n) {z : Ω → ℕ → ℝ} (hz : WhiteNoise μ z) (chol : Matrix (Fin ne) (Fin ne) ℝ → Matrix (Fin ne) (Fin ne) ℝ)
    (R : Matrix (Fin ne) (Fin ne) ℝ) (pattern : List (ℕ × ℕ)) (hR : ErrorCov R pattern chol) (pos : ℕ)
    (solve : Matrix (Fin ne) (Fin ne) ℝ → (Fin ne → ℝ) → Fin ne → ℝ) (hs : IsSolver solve) (cov : (Fin n → A → ℝ) → Matrix A A ℝ) (H : Matrix (Fin ne) A ℝ)
    (y : Fin ne → ℝ) (x : Fin n → A → ℝ) (hM : IsUnit (H * cov x * Hᵀ + R).det) (x' : Ω → Fin n → A → ℝ)
    (hx : ∀ ω, updateEnsemble solve cov H R ne y (noiseOf chol R pattern (z ω) pos n) x = some (x' ω)) (K : Matrix A (Fin ne) ℝ)
    (hK : K = cov x * Hᵀ * (H * cov x * Hᵀ + R)⁻¹) :
    (∀ m a, ∫ ω, x' ω m a ∂μ = (x m + K *ᵥ (y - H *ᵥ x m)) a) ∧
    (∀ a b, ∫ ω, sampleCov (x' ω) a b ∂μ = (((1 : Matrix A A ℝ) - K * H) * Matrix.of (sampleCov x) * ((1 : Matrix A A ℝ) - K * H)ᵀ + K * R * Kᵀ) a b) := by
  have e : ∀ ω, x' ω = fun m => (x m + K *ᵥ (y - H *ᵥ x m)) + K *ᵥ noiseOf chol R pattern (z ω) pos n m := by
    intro ω
    have h := C53_gain solve hs cov H R y (noiseOf chol R pattern (z ω) pos n) x hM
    rw [Fintype.card_fin] at h
    rw [hx ω] at h
    rw [Option.some.inj h]
    funext m
    rw [← hK, add_assoc, ← Matrix.mulVec_add]
    congr 2
    module
  have hmom := noise_moments hz chol R pattern hR pos n
  constructor
  · intro m a
    simp only [e, Pi.add_apply]
    have hi : Integrable (fun ω => (K *ᵥ noiseOf chol R pattern (z ω) pos n m) a) μ := by
      simp only [Matrix.mulVec, dotProduct]
      exact integrable_finsetSum _ fun i _ => ((hmom m m i i).1).const_mul _
    rw [integral_add (integrable_const _) hi]
    have h0 : ∫ ω, (K *ᵥ noiseOf chol R pattern (z ω) pos n m) a ∂μ = 0 := by
      simp only [Matrix.mulVec, dotProduct]
      rw [integral_finsetSum _ fun i _ => ((hmom m m i i).1).const_mul _]
      exact Finset.sum_eq_zero fun i _ => by rw [integral_const_mul, (hmom m m i i).2.1, mul_zero]
    rw [h0, integral_const, probReal_univ, one_smul, add_zero]
  · intro a b
    simp only [e]
    rw [expected_cov hn R K _ _ hmom a b, base_cov hn]
    rfl

/-- **C117**: without localisation, the updated ensemble has in expectation the Kalman covariance `(1 - K H) C`, `K = C Hᵀ (H C Hᵀ + R)⁻¹`: neither the factor
`1/(n-1)` of the sample covariance nor the perturbations make it too small or too large, for any number of members. -/
theorem C117_kalman_covariance {n : ℕ} (hn : 2 ≤ n) {z : Ω → ℕ → ℝ} (hz : WhiteNoise μ z) (chol : Matrix (Fin ne) (Fin ne) ℝ → Matrix (Fin ne) (Fin ne) ℝ)
    (R : Matrix (Fin ne) (Fin ne) ℝ) (pattern : List (ℕ × ℕ)) (hR : ErrorCov R pattern chol) (pos : ℕ)
    (solve : Matrix (Fin ne) (Fin ne) ℝ → (Fin ne → ℝ) → Fin ne → ℝ) (hs : IsSolver solve) (H : Matrix (Fin ne) A ℝ) (y : Fin ne → ℝ) (x : Fin n → A → ℝ)
    (C : Matrix A A ℝ) (hC : C = Matrix.of (sampleCov x)) (hM : IsUnit (H * C * Hᵀ + R).det) (x' : Ω → Fin n → A → ℝ)
    (hx : ∀ ω, updateEnsemble solve (fun x => Matrix.of (sampleCov x)) H R ne y (noiseOf chol R pattern (z ω) pos n) x = some (x' ω)) (a b : A) :
    ∫ ω, sampleCov (x' ω) a b ∂μ = (((1 : Matrix A A ℝ) - (C * Hᵀ * (H * C * Hᵀ + R)⁻¹) * H) * C) a b := by
  set K := C * Hᵀ * (H * C * Hᵀ + R)⁻¹ with hK
  have h := (C117_update hn hz chol R pattern hR pos solve hs (fun x => Matrix.of (sampleCov x)) H y x (by rw [← hC]; exact hM) x' hx K (by rw [hK, hC])).2 a b
  rw [h, ← hC]
  have hKM : K * (H * C * Hᵀ + R) = C * Hᵀ := by
    rw [hK, Matrix.mul_assoc, Matrix.nonsing_inv_mul _ hM, Matrix.mul_one]
  have hcomb : (1 - K * H) * C * (1 - K * H)ᵀ + K * R * Kᵀ = (1 - K * H) * C - (C * Hᵀ - K * (H * C * Hᵀ + R)) * Kᵀ := by
    rw [Matrix.transpose_sub, Matrix.transpose_one, Matrix.transpose_mul]
    simp only [Matrix.mul_sub, Matrix.sub_mul, Matrix.mul_add, Matrix.add_mul, Matrix.one_mul, Matrix.mul_one, Matrix.mul_assoc]
    abel
  rw [hcomb, hKM, sub_self, Matrix.zero_mul, sub_zero]

end Random

/-! ## Independent standard normal numbers -/

open ProbabilityTheory

/-- Independent standard normal draws (what `std::normal_distribution<>` with mean 0 and standard deviation 1 promises) are white noise. -/
theorem normal_white {Ω : Type} [MeasurableSpace Ω] (μ : Measure Ω) (z : ℕ → Ω → ℝ) (hm : ∀ i, Measurable (z i)) (hlaw : ∀ i, HasLaw (z i) (gaussianReal 0 1) μ)
    (hind : iIndepFun z μ) : WhiteNoise μ fun ω i => z i ω := by
  have hL : ∀ i, MemLp (z i) 2 μ := by
    intro i
    have h : MemLp id 2 (μ.map (z i)) := by
      rw [(hlaw i).map_eq]
      exact memLp_id_gaussianReal' 2 (by norm_num)
    exact (memLp_map_measure_iff (by fun_prop) (hm i).aemeasurable).1 h
  have hmean : ∀ i, ∫ ω, z i ω ∂μ = 0 := fun i => by rw [(hlaw i).integral_eq, integral_id_gaussianReal]
  have : IsProbabilityMeasure μ := (hlaw 0).isProbabilityMeasure
  refine ⟨fun i => (hL i).integrable (by norm_num), fun i j => (hL i).integrable_mul (hL j), hmean, fun i j => ?_⟩
  by_cases hij : i = j
  · subst hij
    rw [if_pos rfl]
    have h1 := variance_of_integral_eq_zero (hm i).aemeasurable (hmean i)
    rw [(hlaw i).variance_eq] at h1
    have h2 : Var[id; gaussianReal 0 1] = ((1 : NNReal) : ℝ) := variance_id_gaussianReal
    rw [h2] at h1
    rw [show ((1 : NNReal) : ℝ) = 1 from rfl] at h1
    rw [h1]
    exact integral_congr_ae (Filter.Eventually.of_forall fun ω => by ring)
  · rw [if_neg hij, (hind.indepFun hij).integral_fun_mul_eq_mul_integral (hm i).aestronglyMeasurable (hm j).aestronglyMeasurable, hmean i, zero_mul]

/-- Such a generator exists. -/
theorem exists_white : ∃ (Ω : Type) (_ : MeasurableSpace Ω) (μ : Measure Ω) (z : Ω → ℕ → ℝ), IsProbabilityMeasure μ ∧ WhiteNoise μ z := by
  obtain ⟨Ω, mΩ, μ, X, h1, h2, h3, h4⟩ := exists_iid ℕ (gaussianReal 0 1)
  exact ⟨Ω, mΩ, μ, fun ω i => X i ω, h4, normal_white μ X h1 h2 h3⟩

/-- Two correlated observations. -/
def corr2 : Matrix (Fin 2) (Fin 2) ℝ := !![4, 2; 2, 2]

theorem corr2_cov : ErrorCov corr2 [(0, 0), (0, 1), (1, 0), (1, 1)] (fun _ => !![2, 0; 1, 1]) := by
  refine ⟨?_, ?_, ?_⟩
  · intro i j _
    fin_cases i <;> fin_cases j <;> simp
  · intro i
    fin_cases i <;> simp [corr2]
  · funext i j
    fin_cases i <;> fin_cases j <;> norm_num [corr2, Matrix.mul_apply, Fin.sum_univ_two]

/-- The matrix used by the driver, `R = r I` with a diagonal pattern (`application/adamantine.hh:2269-2287`), whatever the Cholesky routine would return for it being its
factor. -/
theorem scaled_identity_cov (r : ℝ) (hr : 0 ≤ r) : ErrorCov (r • (1 : Matrix (Fin ne) (Fin ne) ℝ)) ((List.range ne).map fun i => (i, i))
    (fun _ => Real.sqrt r • (1 : Matrix (Fin ne) (Fin ne) ℝ)) := by
  refine ⟨fun i j h => ?_, fun i => ?_, ?_⟩
  · have hij : i = j := by
      by_contra hne
      exact h (by simp [Matrix.one_apply_ne hne])
    subst hij
    exact List.mem_map.2 ⟨i.val, List.mem_range.2 i.isLt, rfl⟩
  · simpa using hr
  · rw [Matrix.transpose_smul, Matrix.transpose_one, Matrix.smul_mul, Matrix.mul_smul, Matrix.one_mul, smul_smul, Real.mul_self_sqrt hr]

/-- The covariance of the perturbations of the two correlated observations is `R`; the second member's are uncorrelated with the first one's. -/
example : ∃ (Ω : Type) (_ : MeasurableSpace Ω) (μ : Measure Ω) (z : Ω → ℕ → ℝ),
    (∫ ω, noiseOf (fun _ => !![2, 0; 1, 1]) corr2 [(0, 0), (0, 1), (1, 0), (1, 1)] (z ω) 6 3 1 0 *
      noiseOf (fun _ => !![2, 0; 1, 1]) corr2 [(0, 0), (0, 1), (1, 0), (1, 1)] (z ω) 6 3 1 1 ∂μ = 2) ∧
    (∫ ω, noiseOf (fun _ => !![2, 0; 1, 1]) corr2 [(0, 0), (0, 1), (1, 0), (1, 1)] (z ω) 6 3 1 0 *
      noiseOf (fun _ => !![2, 0; 1, 1]) corr2 [(0, 0), (0, 1), (1, 0), (1, 1)] (z ω) 6 3 2 1 ∂μ = 0) := by
  obtain ⟨Ω, mΩ, μ, z, _, hz⟩ := exists_white
  refine ⟨Ω, mΩ, μ, z, ?_, ?_⟩
  · rw [(C117_noise hz _ _ _ corr2_cov 6 3 1 1 0 1).2]
    simp [corr2]
  · rw [(C117_noise hz _ _ _ corr2_cov 6 3 1 2 0 1).2]
    simp

/-- One observed dof, two members at 0 and 2 (variance 2), observation variance 2: gain 1/2; in expectation the updated variance is the Kalman value 1. -/
example : ∃ (Ω : Type) (_ : MeasurableSpace Ω) (μ : Measure Ω) (x' : Ω → Fin 2 → Fin 1 → ℝ), ∫ ω, sampleCov (x' ω) 0 0 ∂μ = 1 := by
  obtain ⟨Ω, mΩ, μ, z, _, hz⟩ := exists_white
  let x : Fin 2 → Fin 1 → ℝ := fun k _ => 2 * k.val
  have hC : (2 : ℝ) • (1 : Matrix (Fin 1) (Fin 1) ℝ) = Matrix.of (sampleCov x) := by
    funext i j
    fin_cases i; fin_cases j
    simp [sampleCov, sampleMean, x, Fin.sum_univ_two]
    norm_num
  have hM : (1 : Matrix (Fin 1) (Fin 1) ℝ) * ((2 : ℝ) • (1 : Matrix (Fin 1) (Fin 1) ℝ)) * (1 : Matrix (Fin 1) (Fin 1) ℝ)ᵀ + (2 : ℝ) • (1 : Matrix (Fin 1) (Fin 1) ℝ) = (4 : ℝ) • 1 := by
    rw [Matrix.transpose_one, Matrix.one_mul, Matrix.mul_one, ← add_smul]
    norm_num
  have hdet : IsUnit ((1 : Matrix (Fin 1) (Fin 1) ℝ) * ((2 : ℝ) • (1 : Matrix (Fin 1) (Fin 1) ℝ)) * (1 : Matrix (Fin 1) (Fin 1) ℝ)ᵀ + (2 : ℝ) • (1 : Matrix (Fin 1) (Fin 1) ℝ)).det := by
    rw [hM]
    simp
  let solve : Matrix (Fin 1) (Fin 1) ℝ → (Fin 1 → ℝ) → Fin 1 → ℝ := fun M b => fun _ => b 0 / M 0 0
  have hs : IsSolver solve := by
    rintro M b ⟨w, rfl⟩
    funext i
    fin_cases i
    simp only [solve, Matrix.mulVec, dotProduct, Fin.sum_univ_one, Fin.zero_eta]
    by_cases h : M 0 0 = 0
    · rw [h]; ring
    · rw [mul_div_cancel₀ _ h]
  refine ⟨Ω, mΩ, μ, fun ω m => updateMember solve 1 (Matrix.of (sampleCov x)) ((2 : ℝ) • 1) 0
    (noiseOf (fun _ => Real.sqrt 2 • (1 : Matrix (Fin 1) (Fin 1) ℝ)) ((2 : ℝ) • 1) ((List.range 1).map fun i => (i, i)) (z ω) 0 2 m) (x m), ?_⟩
  rw [C117_kalman_covariance (ne := 1) (le_refl 2) hz (fun _ => Real.sqrt 2 • (1 : Matrix (Fin 1) (Fin 1) ℝ)) ((2 : ℝ) • 1) _ (scaled_identity_cov 2 (by norm_num)) 0 solve hs 1 0 x
    ((2 : ℝ) • 1) hC hdet _ (fun ω => by unfold updateEnsemble; rw [if_pos (Fintype.card_fin 1)]) 0 0]
  rw [hM]
  have hinv : ((4 : ℝ) • (1 : Matrix (Fin 1) (Fin 1) ℝ))⁻¹ = (1 / 4 : ℝ) • 1 := by
    apply Matrix.inv_eq_right_inv
    rw [Matrix.smul_mul, Matrix.mul_smul, Matrix.one_mul, smul_smul]
    norm_num
  rw [hinv]
  simp
  norm_num

/-- **C117 refuted** for restarted runs: the generator is not part of a checkpoint and starts with its default seed (`DataAssimilator.hh:280`), so the first assimilation after a restart does not
use the perturbations of the uninterrupted run but repeats those of the first assimilation of the run. -/
theorem C117_restart_refuted (chol : Matrix (Fin 1) (Fin 1) ℝ → Matrix (Fin 1) (Fin 1) ℝ) (r : ℝ) (hr : 0 < r) (z : ℕ → ℝ) (hz : Function.Injective z) (earlier n : ℕ) (he : 0 < earlier)
    (m : Fin n) :
    noiseOf chol (r • (1 : Matrix (Fin 1) (Fin 1) ℝ)) [(0, 0)] z 0 n m ≠ noiseOf chol (r • (1 : Matrix (Fin 1) (Fin 1) ℝ)) [(0, 0)] z (earlier * n) n m := by
  intro h
  have h0 := congrFun h 0
  unfold noiseOf at h0
  rw [drawNoise_get _ _ _ _ _ _ _ m.isLt, drawNoise_get _ _ _ _ _ _ _ m.isLt] at h0
  simp only [fillNoise, bandwidth, List.map_cons, List.map_nil, List.foldr_cons, List.foldr_nil] at h0
  simp at h0
  rcases h0 with h0 | h0
  · have := hz h0
    have hn := m.isLt
    have : 0 < earlier * n := Nat.mul_pos he (by omega)
    omega
  · exact absurd h0 (by positivity)

end Verif.DataAssim
