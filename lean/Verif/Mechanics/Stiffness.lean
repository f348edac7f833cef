import Verif.Mechanics.Plasticity
import Mathlib.Algebra.BigOperators.Ring.Finset
import Mathlib.Algebra.Order.BigOperators.Ring.Finset
import Mathlib.Algebra.BigOperators.Field
import Mathlib.Tactic.FinCases

/-!
# C47, C75: the elasticity matrix and the thermal load

Model of the cell workers of `MechanicalOperator::assemble_matrix` (`source/MechanicalOperator.cc:211-255`) and
`MechanicalOperator::assemble_rhs` (`source/MechanicalOperator.cc:357-413`).
-/

namespace Verif.Mechanics

open Matrix

/-- What the worker reads from `FEValues` on one cell: the vector component of each dof (`system_to_component_index`), the gradients of
the scalar shape functions and the weights `JxW`. -/
structure CellFE (d : ℕ) (I Q : Type) where
  comp : I → Fin d
  grad : Q → I → Fin d → ℝ
  JxW : Q → ℝ

variable {d : ℕ} {I Q : Type} [Fintype I] [Fintype Q]

/-- `cell_matrix(i, j)`, `MechanicalOperator.cc:229-254`, the three terms as written. -/
def cellMatrix (c : CellFE d I Q) (lambda mu : ℝ) (i j : I) : ℝ :=
  ∑ q, ((c.grad q i (c.comp i) * c.grad q j (c.comp j) * lambda) +
    (c.grad q i (c.comp j) * c.grad q j (c.comp i) * mu) +
    (if c.comp i = c.comp j then mu * ∑ k, c.grad q i k * c.grad q j k else 0)) * c.JxW q

/-- Gradient of the displacement with coefficients `u` at a quadrature point: `∂_b u_a`. -/
def gradU (c : CellFE d I Q) (u : I → ℝ) (q : Q) : Tens d :=
  fun a b => ∑ i, u i * (if c.comp i = a then c.grad q i b else 0)

/-- Specification: the strain tensor. -/
noncomputable def strain (G : Tens d) : Tens d := fun a b => (G a b + G b a) / 2

/-- Specification: the (linear elastic) stress of a strain. -/
noncomputable def hooke (lambda mu : ℝ) (e : Tens d) : Tens d := (lambda * trace e) • (1 : Tens d) + (2 * mu) • e

/-- Gradient of the vector shape function of dof `i`. -/
def gradShape (c : CellFE d I Q) (q : Q) (i : I) : Tens d := fun a b => if c.comp i = a then c.grad q i b else 0

theorem gradU_eq (c : CellFE d I Q) (u : I → ℝ) (q : Q) : gradU c u q = ∑ i, u i • gradShape c q i := by
  ext a b
  simp [gradU, gradShape, Matrix.sum_apply]

theorem trace_gradShape (c : CellFE d I Q) (q : Q) (i : I) : trace (gradShape c q i) = c.grad q i (c.comp i) := by
  simp [trace, gradShape]

/-- The integrand is stress of one shape function contracted with the strain of the other. -/
theorem integrand_eq (c : CellFE d I Q) (lambda mu : ℝ) (q : Q) (i j : I) :
    (c.grad q i (c.comp i) * c.grad q j (c.comp j) * lambda) + (c.grad q i (c.comp j) * c.grad q j (c.comp i) * mu) +
      (if c.comp i = c.comp j then mu * ∑ k, c.grad q i k * c.grad q j k else 0) =
    contract (hooke lambda mu (strain (gradShape c q i))) (strain (gradShape c q j)) := by
  have key : ∀ A B : Tens d, contract (hooke lambda mu (strain A)) (strain B) =
      lambda * trace A * trace B + mu * (∑ a, ∑ b, A a b * B a b) + mu * (∑ a, ∑ b, A a b * B b a) := by
    intro A B
    have htr : ∀ M : Tens d, trace (strain M) = trace M := by
      intro M; simp [trace, strain]
    have h1 : contract (hooke lambda mu (strain A)) (strain B) =
        lambda * trace A * trace B + 2 * mu * ∑ a, ∑ b, strain A a b * strain B a b := by
      unfold contract hooke
      simp only [Matrix.add_apply, Matrix.smul_apply, smul_eq_mul, add_mul, Finset.sum_add_distrib, htr]
      congr 1
      · have : ∀ a, ∑ b, lambda * trace A * (1 : Tens d) a b * strain B a b = lambda * trace A * strain B a a := by
          intro a
          rw [Finset.sum_eq_single a]
          · simp
          · intro b _ hb
            rw [Matrix.one_apply_ne (Ne.symm hb)]; ring
          · simp
        simp only [this]
        rw [← Finset.mul_sum]
        congr 1
        exact htr B
      · rw [Finset.mul_sum]
        refine Finset.sum_congr rfl fun a _ => ?_
        rw [Finset.mul_sum]
        exact Finset.sum_congr rfl fun b _ => by ring
    rw [h1]
    have h2 : ∑ a, ∑ b, strain A a b * strain B a b =
        (∑ a, ∑ b, A a b * B a b) / 2 + (∑ a, ∑ b, A a b * B b a) / 2 := by
      have e : ∀ a b, strain A a b * strain B a b =
          (A a b * B a b + A a b * B b a) / 4 + (A b a * B b a + A b a * B a b) / 4 := by
        intro a b; unfold strain; ring
      simp only [e, Finset.sum_add_distrib]
      have sw : ∑ a, ∑ b, (A b a * B b a + A b a * B a b) / 4 = ∑ a, ∑ b, (A a b * B a b + A a b * B b a) / 4 := by
        rw [Finset.sum_comm]
      rw [sw]
      have hs : ∑ a, ∑ b, (A a b * B a b + A a b * B b a) / 4 =
          ((∑ a, ∑ b, A a b * B a b) + (∑ a, ∑ b, A a b * B b a)) / 4 := by
        simp only [Finset.sum_div, Finset.sum_add_distrib, add_div]
      rw [hs]
      ring
    rw [h2]
    ring
  rw [key, trace_gradShape, trace_gradShape]
  have hA : ∑ a, ∑ b, gradShape c q i a b * gradShape c q j a b =
      if c.comp i = c.comp j then ∑ k, c.grad q i k * c.grad q j k else 0 := by
    rw [Finset.sum_eq_single (c.comp i)]
    · split_ifs with h
      · refine Finset.sum_congr rfl fun b _ => ?_
        simp [gradShape, h]
      · refine Finset.sum_eq_zero fun b _ => ?_
        simp [gradShape, Ne.symm h]
    · intro a _ ha
      refine Finset.sum_eq_zero fun b _ => ?_
      simp [gradShape, Ne.symm ha]
    · simp
  have hB : ∑ a, ∑ b, gradShape c q i a b * gradShape c q j b a = c.grad q i (c.comp j) * c.grad q j (c.comp i) := by
    rw [Finset.sum_eq_single (c.comp i)]
    · rw [Finset.sum_eq_single (c.comp j)]
      · simp [gradShape]
      · intro b _ hb
        simp [gradShape, Ne.symm hb]
      · simp
    · intro a _ ha
      refine Finset.sum_eq_zero fun b _ => ?_
      simp [gradShape, Ne.symm ha]
    · simp
  rw [hA, hB]
  split_ifs <;> ring

theorem contract_add_left (a b e : Tens d) : contract (a + b) e = contract a e + contract b e := by
  simp [contract, add_mul, Finset.sum_add_distrib]

theorem contract_sum_left {J : Type} [Fintype J] (f : J → Tens d) (e : Tens d) :
    contract (∑ i, f i) e = ∑ i, contract (f i) e := by
  unfold contract
  simp only [Matrix.sum_apply, Finset.sum_mul]
  have : ∀ a : Fin d, ∑ b, ∑ i, f i a b * e a b = ∑ i, ∑ b, f i a b * e a b := fun a => Finset.sum_comm
  simp only [this]
  exact Finset.sum_comm

theorem contract_comm (a b : Tens d) : contract a b = contract b a := by
  unfold contract
  exact Finset.sum_congr rfl fun i _ => Finset.sum_congr rfl fun j _ => mul_comm _ _

theorem contract_smul_left (x : ℝ) (a b : Tens d) : contract (x • a) b = x * contract a b := by
  unfold contract
  simp only [Matrix.smul_apply, smul_eq_mul, Finset.mul_sum]
  exact Finset.sum_congr rfl fun i _ => Finset.sum_congr rfl fun j _ => by ring

theorem strain_sum {J : Type} [Fintype J] (u : J → ℝ) (f : J → Tens d) :
    strain (∑ i, u i • f i) = ∑ i, u i • strain (f i) := by
  ext a b
  simp only [strain, Matrix.sum_apply, Matrix.smul_apply, smul_eq_mul]
  rw [← Finset.sum_add_distrib, Finset.sum_div]
  exact Finset.sum_congr rfl fun i _ => by ring

theorem hooke_sum {J : Type} [Fintype J] (lambda mu : ℝ) (u : J → ℝ) (f : J → Tens d) :
    hooke lambda mu (∑ i, u i • f i) = ∑ i, u i • hooke lambda mu (f i) := by
  ext a b
  unfold hooke
  rw [trace_sum]
  simp only [Matrix.add_apply, Matrix.sum_apply, Matrix.smul_apply, smul_eq_mul, trace_smul]
  rw [Finset.mul_sum, Finset.sum_mul, Finset.mul_sum, ← Finset.sum_add_distrib]
  exact Finset.sum_congr rfl fun i _ => by ring

/-- The bilinear form of the cell matrix is `∫ sigma(u) : eps(v)`. -/
theorem bilinear (c : CellFE d I Q) (lambda mu : ℝ) (u v : I → ℝ) :
    ∑ i, ∑ j, u i * cellMatrix c lambda mu i j * v j =
      ∑ q, contract (hooke lambda mu (strain (gradU c u q))) (strain (gradU c v q)) * c.JxW q := by
  have hR : ∀ q, contract (hooke lambda mu (strain (gradU c u q))) (strain (gradU c v q)) =
      ∑ i, ∑ j, u i * v j * contract (hooke lambda mu (strain (gradShape c q i))) (strain (gradShape c q j)) := by
    intro q
    rw [gradU_eq, gradU_eq, strain_sum, strain_sum, hooke_sum, contract_sum_left]
    refine Finset.sum_congr rfl fun i _ => ?_
    rw [contract_smul_left, contract_comm, contract_sum_left, Finset.mul_sum]
    refine Finset.sum_congr rfl fun j _ => ?_
    rw [contract_smul_left, contract_comm]
    ring
  simp only [hR, Finset.sum_mul]
  have : ∑ q, ∑ i, ∑ j, u i * v j * contract (hooke lambda mu (strain (gradShape c q i))) (strain (gradShape c q j)) * c.JxW q =
      ∑ i, ∑ q, ∑ j, u i * v j * contract (hooke lambda mu (strain (gradShape c q i))) (strain (gradShape c q j)) * c.JxW q :=
    Finset.sum_comm
  rw [this]
  refine Finset.sum_congr rfl fun i _ => ?_
  rw [Finset.sum_comm]
  refine Finset.sum_congr rfl fun j _ => ?_
  unfold cellMatrix
  simp only [integrand_eq]
  rw [Finset.mul_sum, Finset.sum_mul]
  exact Finset.sum_congr rfl fun q _ => by ring

/-- **C47**: the cell matrix is symmetric. -/
theorem C47_symmetric (c : CellFE d I Q) (lambda mu : ℝ) (i j : I) :
    cellMatrix c lambda mu i j = cellMatrix c lambda mu j i := by
  unfold cellMatrix
  refine Finset.sum_congr rfl fun q _ => ?_
  by_cases h : c.comp i = c.comp j
  · rw [if_pos h, if_pos h.symm]
    have : ∑ k, c.grad q i k * c.grad q j k = ∑ k, c.grad q j k * c.grad q i k :=
      Finset.sum_congr rfl fun k _ => mul_comm _ _
    rw [this]; ring
  · rw [if_neg h, if_neg (Ne.symm h)]; ring

/-- **C47**: the quadratic form is the elastic energy `∫ lambda (div u)² + 2 mu |eps(u)|²`. -/
theorem C47_energy (c : CellFE d I Q) (lambda mu : ℝ) (u : I → ℝ) :
    ∑ i, ∑ j, u i * cellMatrix c lambda mu i j * u j =
      ∑ q, (lambda * (∑ a, gradU c u q a a) ^ 2 +
        2 * mu * ∑ a, ∑ b, ((gradU c u q a b + gradU c u q b a) / 2) ^ 2) * c.JxW q := by
  rw [bilinear]
  refine Finset.sum_congr rfl fun q _ => ?_
  congr 1
  have htr : trace (strain (gradU c u q)) = ∑ a, gradU c u q a a := by simp [trace, strain]
  have h1 : contract (1 : Tens d) (strain (gradU c u q)) = ∑ a, gradU c u q a a := by
    rw [← htr]
    unfold contract
    refine Finset.sum_congr rfl fun a _ => ?_
    rw [Finset.sum_eq_single a]
    · simp
    · intro b _ hb
      rw [Matrix.one_apply_ne (Ne.symm hb)]; ring
    · simp
  unfold hooke
  rw [contract_add_left, contract_smul_left, contract_smul_left, h1, htr]
  congr 1
  · ring
  · congr 1
    exact Finset.sum_congr rfl fun a _ => Finset.sum_congr rfl fun b _ => by
      rw [show strain (gradU c u q) a b = (gradU c u q a b + gradU c u q b a) / 2 from rfl]; ring

/-- **C47**: positive semi-definite for non-negative Lamé parameters and weights. -/
theorem C47_nonneg (c : CellFE d I Q) (lambda mu : ℝ) (u : I → ℝ) (hl : 0 ≤ lambda) (hm : 0 ≤ mu) (hw : ∀ q, 0 ≤ c.JxW q) :
    0 ≤ ∑ i, ∑ j, u i * cellMatrix c lambda mu i j * u j := by
  rw [C47_energy]
  refine Finset.sum_nonneg fun q _ => mul_nonneg (add_nonneg (mul_nonneg hl (sq_nonneg _)) ?_) (hw q)
  exact mul_nonneg (by linarith) (Finset.sum_nonneg fun a _ => Finset.sum_nonneg fun b _ => sq_nonneg _)

/-- **C47**: zero energy exactly for displacements whose strain vanishes at every quadrature point (with positive `mu` and weights). -/
theorem C47_kernel (c : CellFE d I Q) (lambda mu : ℝ) (u : I → ℝ) (hl : 0 ≤ lambda) (hm : 0 < mu) (hw : ∀ q, 0 < c.JxW q) :
    ∑ i, ∑ j, u i * cellMatrix c lambda mu i j * u j = 0 ↔ ∀ q a b, gradU c u q a b = - gradU c u q b a := by
  rw [C47_energy]
  have hin : ∀ q, 0 ≤ lambda * (∑ a, gradU c u q a a) ^ 2 + 2 * mu * ∑ a, ∑ b, ((gradU c u q a b + gradU c u q b a) / 2) ^ 2 :=
    fun q => add_nonneg (mul_nonneg hl (sq_nonneg _)) (mul_nonneg (by linarith)
      (Finset.sum_nonneg fun a _ => Finset.sum_nonneg fun b _ => sq_nonneg _))
  rw [Finset.sum_eq_zero_iff_of_nonneg fun q _ => mul_nonneg (hin q) (hw q).le]
  constructor
  · intro h q a b
    have h1 := h q (Finset.mem_univ _)
    rcases mul_eq_zero.1 h1 with h2 | h2
    · have h3 : 0 ≤ lambda * (∑ a, gradU c u q a a) ^ 2 := mul_nonneg hl (sq_nonneg _)
      have hnn : 0 ≤ ∑ a, ∑ b, ((gradU c u q a b + gradU c u q b a) / 2) ^ 2 :=
        Finset.sum_nonneg fun a _ => Finset.sum_nonneg fun b _ => sq_nonneg _
      have h4 : ∑ a, ∑ b, ((gradU c u q a b + gradU c u q b a) / 2) ^ 2 = 0 := by nlinarith
      rw [Finset.sum_eq_zero_iff_of_nonneg fun a _ => Finset.sum_nonneg fun b _ => sq_nonneg _] at h4
      have h5 := h4 a (Finset.mem_univ _)
      rw [Finset.sum_eq_zero_iff_of_nonneg fun b _ => sq_nonneg _] at h5
      have h6 := h5 b (Finset.mem_univ _)
      rw [pow_eq_zero_iff two_ne_zero] at h6
      linarith
    · exact absurd h2 (hw q).ne'
  · intro h q _
    have h0 : ∑ a, gradU c u q a a = 0 := Finset.sum_eq_zero fun a _ => by have := h q a a; linarith
    have h1 : ∑ a, ∑ b, ((gradU c u q a b + gradU c u q b a) / 2) ^ 2 = 0 :=
      Finset.sum_eq_zero fun a _ => Finset.sum_eq_zero fun b _ => by rw [h q a b]; ring
    rw [h0, h1]; ring

/-- **C47**: rigid translations have zero energy: `comp_val a` is the translation in direction `a`; the only fact used about the shape
functions is that they sum to a constant in each component (`hpu`: their gradients sum to zero). -/
theorem C47_translation (c : CellFE d I Q) (lambda mu : ℝ) (t : Fin d → ℝ)
    (hpu : ∀ q a b, ∑ i, (if c.comp i = a then c.grad q i b else 0) = 0) :
    ∑ i, ∑ j, t (c.comp i) * cellMatrix c lambda mu i j * t (c.comp j) = 0 := by
  rw [C47_energy c lambda mu (fun i => t (c.comp i))]
  have hz : ∀ q a b, gradU c (fun i => t (c.comp i)) q a b = 0 := by
    intro q a b
    unfold gradU
    have : ∀ i, t (c.comp i) * (if c.comp i = a then c.grad q i b else 0) = t a * (if c.comp i = a then c.grad q i b else 0) := by
      intro i
      split_ifs with h
      · rw [h]
      · simp
    simp only [this]
    rw [← Finset.mul_sum, hpu, mul_zero]
  simp [hz]

/-- One-dimensional linear element: shape functions `1 - x`, `x` sum to one; weights positive. -/
example : ∃ c : CellFE 1 (Fin 2) (Fin 1), (∀ q, 0 < c.JxW q) ∧
    (∀ q a b, ∑ i, (if c.comp i = a then c.grad q i b else 0) = 0) ∧ cellMatrix c 1 1 0 0 = 3 ∧ cellMatrix c 1 1 0 1 = -3 := by
  refine ⟨⟨fun _ => 0, fun _ i _ => if i = 0 then -1 else 1, fun _ => 1⟩, ?_, ?_, ?_, ?_⟩
  · intro q; norm_num
  · intro q a b
    simp [Fin.sum_univ_two, Fin.fin_one_eq_zero]
  · simp [cellMatrix]; norm_num
  · simp [cellMatrix]; norm_num

/-! ## C75: thermal load -/

/-- `cell_rhs(i)` of the thermo-elastic worker, `MechanicalOperator.cc:393-412`: `dT q` is the temperature at the quadrature point minus the
reference temperature. -/
def thermalLoad (c : CellFE d I Q) (lambda mu alpha : ℝ) (dT : Q → ℝ) (i : I) : ℝ :=
  ∑ q, trace (gradShape c q i) * ((3 * lambda + 2 * mu) * alpha * dT q) * c.JxW q

/-- **C75**, the load: in three dimensions, whatever the cell, the displacement that has at each quadrature point exactly the thermal
strain `alpha ΔT I` is in equilibrium with the thermal load: free thermal expansion solves the assembled equations. -/
theorem C75_free_expansion (c : CellFE 3 I Q) (lambda mu alpha : ℝ) (dT : Q → ℝ) (u : I → ℝ)
    (hu : ∀ q, strain (gradU c u q) = (alpha * dT q) • (1 : Tens 3)) (i : I) :
    ∑ j, cellMatrix c lambda mu i j * u j = thermalLoad c lambda mu alpha dT i := by
  classical
  have hb := bilinear c lambda mu (fun k => if k = i then 1 else 0) u
  have hl : ∑ k, ∑ j, (if k = i then (1 : ℝ) else 0) * cellMatrix c lambda mu k j * u j = ∑ j, cellMatrix c lambda mu i j * u j := by
    rw [Finset.sum_eq_single i]
    · simp
    · intro k _ hk
      simp [hk]
    · simp
  rw [hl] at hb
  rw [hb]
  unfold thermalLoad
  refine Finset.sum_congr rfl fun q _ => ?_
  congr 1
  have hg : gradU c (fun k => if k = i then 1 else 0) q = gradShape c q i := by
    rw [gradU_eq, Finset.sum_eq_single i]
    · simp
    · intro k _ hk
      simp [hk]
    · simp
  rw [hg, hu q]
  have h2 : ∀ (e : Tens 3) (x : ℝ), contract (hooke lambda mu e) (x • 1) = (3 * lambda + 2 * mu) * x * trace e := by
    intro e x
    simp [contract, hooke, trace, Fin.sum_univ_three, Matrix.one_apply]
    ring
  rw [h2]
  have : trace (strain (gradShape c q i)) = trace (gradShape c q i) := by simp [trace, strain]
  rw [this]
  ring

/-- A cell and displacement meeting the hypothesis of `C75_free_expansion`: three dofs whose gradients are the unit vectors. -/
example : ∃ (c : CellFE 3 (Fin 3) (Fin 1)), ∀ (q : Fin 1), strain (gradU c (fun _ => (2 * 5 : ℝ)) q) = ((2 : ℝ) * 5) • (1 : Tens 3) := by
  refine ⟨⟨id, fun _ i b => if i = b then 1 else 0, fun _ => 1⟩, ?_⟩
  intro q
  ext a b
  fin_cases a <;> fin_cases b <;> simp [strain, gradU, Fin.sum_univ_three, Matrix.one_apply] <;> norm_num

/-- **C75 refuted** for the reported stress: `compute_stress` (`MechanicalPhysics.cc:585-594`) does not subtract the thermal strain, so a
free, uniform thermal expansion — the solution of the assembled equations by `C75_free_expansion` — of a stress-free, not yielding point is
reported with the hydrostatic stress `(3 lambda + 2 mu) alpha ΔT` instead of zero. -/
theorem C75_stress_refuted (lambda mu alpha dT kappa : ℝ) (hk : 0 < kappa) (m : Props) (hl : m.lambda = lambda) (hm : m.mu = mu) :
    ∃ p', stressUpdate m ⟨0, 0, kappa⟩ ((alpha * dT) • (1 : Tens 3)) = some p' ∧
      p'.stress = ((3 * lambda + 2 * mu) * alpha * dT) • (1 : Tens 3) := by
  have ht : trial m ⟨0, 0, kappa⟩ ((alpha * dT) • (1 : Tens 3)) = ((3 * lambda + 2 * mu) * alpha * dT) • (1 : Tens 3) := by
    unfold trial
    rw [hl, hm, trace_smul, trace_one, Fintype.card_fin, zero_add, smul_smul, ← add_smul]
    congr 1
    simp only [smul_eq_mul]
    push_cast
    ring
  obtain ⟨p', h1, h2, _⟩ := C44_elastic m ⟨0, 0, kappa⟩ ((alpha * dT) • (1 : Tens 3)) (by
    rw [ht]
    have : deviator (((3 * lambda + 2 * mu) * alpha * dT) • (1 : Tens 3)) - 0 = 0 := by
      unfold deviator
      rw [trace_smul, trace_one, Fintype.card_fin]
      ext a b
      simp
    rw [this]
    simpa [fnorm, contract] using hk)
  exact ⟨p', h1, by rw [h2, ht]⟩

/-- In two dimensions free expansion is not in equilibrium with the load: the load is the plane-strain one, `3 lambda + 2 mu`, while the
matrix gives `2 lambda + 2 mu` for the in-plane expansion. -/
theorem C75_two_dim (c : CellFE 2 I Q) (lambda mu alpha : ℝ) (dT : Q → ℝ) (u : I → ℝ)
    (hu : ∀ q, strain (gradU c u q) = (alpha * dT q) • (1 : Tens 2)) (i : I) :
    ∑ j, cellMatrix c lambda mu i j * u j = ∑ q, trace (gradShape c q i) * ((2 * lambda + 2 * mu) * alpha * dT q) * c.JxW q := by
  classical
  have hb := bilinear c lambda mu (fun k => if k = i then 1 else 0) u
  have hl : ∑ k, ∑ j, (if k = i then (1 : ℝ) else 0) * cellMatrix c lambda mu k j * u j = ∑ j, cellMatrix c lambda mu i j * u j := by
    rw [Finset.sum_eq_single i]
    · simp
    · intro k _ hk
      simp [hk]
    · simp
  rw [hl] at hb
  rw [hb]
  refine Finset.sum_congr rfl fun q _ => ?_
  congr 1
  have hg : gradU c (fun k => if k = i then 1 else 0) q = gradShape c q i := by
    rw [gradU_eq, Finset.sum_eq_single i]
    · simp
    · intro k _ hk
      simp [hk]
    · simp
  rw [hg, hu q]
  have h2 : ∀ (e : Tens 2) (x : ℝ), contract (hooke lambda mu e) (x • 1) = (2 * lambda + 2 * mu) * x * trace e := by
    intro e x
    simp [contract, hooke, trace, Fin.sum_univ_two, Matrix.one_apply]
    ring
  rw [h2]
  have : trace (strain (gradShape c q i)) = trace (gradShape c q i) := by simp [trace, strain]
  rw [this]
  ring

end Verif.Mechanics
