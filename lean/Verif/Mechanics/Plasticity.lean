import Mathlib.Data.Matrix.Mul
import Mathlib.LinearAlgebra.Matrix.Trace
import Mathlib.LinearAlgebra.Matrix.Notation
import Mathlib.LinearAlgebra.Matrix.Symmetric
import Mathlib.Analysis.SpecialFunctions.Pow.Real
import Mathlib.Tactic.Linarith
import Mathlib.Tactic.Ring
import Mathlib.Tactic.FieldSimp
import Mathlib.Tactic.Positivity

/-!
# C44, C45, C46: the stress update and the von Mises stress

Model of the body of the quadrature-point loop of `MechanicalPhysics::compute_stress`, `source/MechanicalPhysics.cc:558-623`, and of
`PostProcessor::get_von_mises_stress`, `source/PostProcessor.cc:92-137`.  A `SymmetricTensor<2,dim>` is a `d × d` matrix.
-/

namespace Verif.Mechanics

open Matrix

/-- Tensors of rank two. -/
abbrev Tens (d : ℕ) := Matrix (Fin d) (Fin d) ℝ

/-- `a : b`, the double contraction. -/
def contract {d : ℕ} (a b : Tens d) : ℝ := ∑ i, ∑ j, a i j * b i j

/-- `SymmetricTensor::norm()`: Frobenius norm. -/
noncomputable def fnorm {d : ℕ} (a : Tens d) : ℝ := Real.sqrt (contract a a)

/-- `dealii::deviator`: `a - tr(a)/dim I`. -/
noncomputable def deviator {d : ℕ} (a : Tens d) : Tens d := a - (trace a / d) • (1 : Tens d)

/-- Mechanical properties of a cell, `MechanicalPhysics.cc:573-584`. -/
structure Props where
  lambda : ℝ
  mu : ℝ
  plasticModulus : ℝ
  isoHardening : ℝ

/-- Data of a quadrature point: `_stress`, `_back_stress`, `_plastic_internal_variable`. -/
structure Pt (d : ℕ) where
  stress : Tens d
  back : Tens d
  kappa : ℝ

/-- The trial stress, lines 585-594: old stress plus stiffness tensor applied to the strain increment. -/
def trial {d : ℕ} (m : Props) (p : Pt d) (eps : Tens d) : Tens d := p.stress + ((m.lambda * trace eps) • 1 + (2 * m.mu) • eps)

/-- The effective stress, lines 596-597. -/
noncomputable def effective {d : ℕ} (m : Props) (p : Pt d) (eps : Tens d) : Tens d := deviator (trial m p eps) - p.back

open Classical in
/-- The update of one quadrature point, lines 591-621.  `none`: a division by zero (the C++ stores NaN or infinity).  The back stress is
updated with `plastic_modulus * plastic_modulus` (618-620), literally. -/
noncomputable def stressUpdate {d : ℕ} (m : Props) (p : Pt d) (eps : Tens d) : Option (Pt d) :=
  let el := trial m p eps;
  let xi := effective m p eps;
  let n := fnorm xi;
  if n < p.kappa then some { p with stress := el }
  else if n = 0 ∨ 2 * m.mu + m.plasticModulus = 0 then none
  else
    let dl := (n - p.kappa) / (2 * m.mu + m.plasticModulus);
    let dir := (1 / n) • xi;
    some ⟨el - (2 * m.mu * dl) • dir,
      p.back + ((1 - m.isoHardening) * m.plasticModulus * m.plasticModulus) • dir,
      p.kappa + m.isoHardening * m.plasticModulus * dl⟩

/-! ## Lemmas -/

theorem contract_smul {d : ℕ} (c : ℝ) (a : Tens d) : contract (c • a) (c • a) = c ^ 2 * contract a a := by
  unfold contract
  rw [Finset.mul_sum]
  refine Finset.sum_congr rfl fun i _ => ?_
  rw [Finset.mul_sum]
  exact Finset.sum_congr rfl fun j _ => by simp only [Matrix.smul_apply, smul_eq_mul]; ring

theorem contract_nonneg {d : ℕ} (a : Tens d) : 0 ≤ contract a a :=
  Finset.sum_nonneg fun i _ => Finset.sum_nonneg fun j _ => mul_self_nonneg (a i j)

theorem fnorm_smul {d : ℕ} (c : ℝ) (a : Tens d) : fnorm (c • a) = |c| * fnorm a := by
  unfold fnorm
  rw [contract_smul, Real.sqrt_mul (sq_nonneg c), Real.sqrt_sq_eq_abs]

theorem fnorm_nonneg {d : ℕ} (a : Tens d) : 0 ≤ fnorm a := Real.sqrt_nonneg _

theorem trace_deviator {d : ℕ} (hd : 0 < d) (a : Tens d) : trace (deviator a) = 0 := by
  unfold deviator
  rw [trace_sub, trace_smul, trace_one, Fintype.card_fin, smul_eq_mul]
  have : (d : ℝ) ≠ 0 := by positivity
  field_simp
  ring

theorem deviator_sub_traceless {d : ℕ} (a b : Tens d) (h : trace b = 0) (c : ℝ) : deviator (a - c • b) = deviator a - c • b := by
  unfold deviator
  rw [trace_sub, trace_smul, h, smul_zero, sub_zero]
  abel

theorem effective_traceless {d : ℕ} (hd : 0 < d) (m : Props) (p : Pt d) (hb : trace p.back = 0) (eps : Tens d) :
    trace (effective m p eps) = 0 := by
  unfold effective
  rw [trace_sub, trace_deviator hd, hb, sub_zero]

/-- The yield function: norm of the deviatoric stress relative to the back stress, minus the yield radius. -/
noncomputable def yieldFn {d : ℕ} (p : Pt d) : ℝ := fnorm (deviator p.stress - p.back) - p.kappa

theorem effective_is_trial {d : ℕ} (m : Props) (p : Pt d) (eps : Tens d) :
    deviator (trial m p eps) - p.back = effective m p eps := rfl

theorem plastic_excess {d : ℕ} (hd : 0 < d) (m : Props) (p p' : Pt d) (hb : trace p.back = 0) (eps : Tens d)
    (hy : p.kappa ≤ fnorm (effective m p eps)) (h : stressUpdate m p eps = some p') :
    fnorm (effective m p eps) ≠ 0 ∧ 2 * m.mu + m.plasticModulus ≠ 0 ∧
    (∃ dl, dl * (2 * m.mu + m.plasticModulus) = fnorm (effective m p eps) - p.kappa ∧
      p'.kappa = p.kappa + m.isoHardening * m.plasticModulus * dl ∧
      fnorm (deviator p'.stress - p'.back) =
        |p'.kappa + (1 - m.isoHardening) * m.plasticModulus * (dl - m.plasticModulus)|) := by
  unfold stressUpdate at h
  simp only at h
  rw [if_neg (not_lt.2 hy)] at h
  split_ifs at h with h0
  push Not at h0
  obtain ⟨hn, hm⟩ := h0
  refine ⟨hn, hm, (fnorm (effective m p eps) - p.kappa) / (2 * m.mu + m.plasticModulus), by field_simp, ?_, ?_⟩
  · rw [← Option.some.inj h]
  · rw [← Option.some.inj h]
    simp only
    set xi := effective m p eps with hxi
    set n := fnorm xi with hn'
    set dl := (n - p.kappa) / (2 * m.mu + m.plasticModulus) with hdl
    have hx : deviator (trial m p eps) - p.back = xi := rfl
    have htr : trace ((1 / n) • xi) = 0 := by
      rw [trace_smul, effective_traceless hd m p hb eps, smul_zero]
    rw [deviator_sub_traceless _ _ htr]
    have hstep : deviator (trial m p eps) - (2 * m.mu * dl) • (1 / n) • xi -
        (p.back + ((1 - m.isoHardening) * m.plasticModulus * m.plasticModulus) • (1 / n) • xi) =
        ((n - 2 * m.mu * dl - (1 - m.isoHardening) * m.plasticModulus * m.plasticModulus) / n) • xi := by
      rw [show deviator (trial m p eps) = xi + p.back from by rw [← hx]; abel]
      have e : (n - 2 * m.mu * dl - (1 - m.isoHardening) * m.plasticModulus * m.plasticModulus) / n =
          1 - 2 * m.mu * dl * (1 / n) - ((1 - m.isoHardening) * m.plasticModulus * m.plasticModulus) * (1 / n) := by
        field_simp
      rw [e, sub_smul, sub_smul, one_smul, smul_smul, smul_smul]
      abel
    rw [hstep, fnorm_smul, ← hn', abs_div, abs_of_nonneg (show 0 ≤ n from fnorm_nonneg xi)]
    rw [div_mul_cancel₀ _ hn]
    congr 1
    have hdl' : n = dl * (2 * m.mu + m.plasticModulus) + p.kappa := by
      rw [hdl]; field_simp; ring
    rw [hdl']
    ring

/-! ## C44 -/

/-- **C44**, elastic branch: the update is elastic exactly when the trial stress is strictly inside the yield surface; then the stress
is the trial stress and the new state is strictly inside. -/
theorem C44_elastic {d : ℕ} (m : Props) (p : Pt d) (eps : Tens d) (h : fnorm (deviator (trial m p eps) - p.back) < p.kappa) :
    ∃ p', stressUpdate m p eps = some p' ∧ p'.stress = trial m p eps ∧ p'.back = p.back ∧ p'.kappa = p.kappa ∧ yieldFn p' < 0 := by
  refine ⟨{ p with stress := trial m p eps }, ?_, rfl, rfl, rfl, ?_⟩
  · unfold stressUpdate
    simp only
    rw [if_pos (show fnorm (effective m p eps) < p.kappa from h)]
  · unfold yieldFn
    simp only
    linarith

/-- **C44 refuted**: with kinematic hardening the stress is not on the yield surface after a plastic step, because the back stress is
moved by `plastic_modulus²` instead of `plastic_modulus * plastic_strain_increment`.  Witness: `mu = 1`, plastic modulus 2, no isotropic
hardening, yield radius 2, unloaded point, strain increment with trial stress norm 4: the point ends at distance 1 from the centre
of a surface of radius 2. -/
theorem C44_refuted :
    ∃ p' : Pt 3, stressUpdate ⟨1, 1, 2, 0⟩ ⟨0, 0, 2⟩ !![0, 1, 1; 1, 0, 0; 1, 0, 0] = some p' ∧
      p'.kappa = 2 ∧ fnorm (deviator p'.stress - p'.back) = 1 ∧ yieldFn p' ≠ 0 := by
  have hxi : effective ⟨1, 1, 2, 0⟩ ⟨0, 0, 2⟩ !![0, 1, 1; 1, 0, 0; 1, 0, 0] = (!![0, 2, 2; 2, 0, 0; 2, 0, 0] : Tens 3) := by
    unfold effective trial deviator
    ext i j
    fin_cases i <;> fin_cases j <;> simp [trace, Fin.sum_univ_three]
  have hn : fnorm (effective ⟨1, 1, 2, 0⟩ ⟨0, 0, 2⟩ (!![0, 1, 1; 1, 0, 0; 1, 0, 0] : Tens 3)) = 4 := by
    rw [hxi]
    unfold fnorm contract
    rw [show (∑ i : Fin 3, ∑ j : Fin 3, (!![0, 2, 2; 2, 0, 0; 2, 0, 0] : Tens 3) i j * (!![0, 2, 2; 2, 0, 0; 2, 0, 0] : Tens 3) i j)
      = 4 ^ 2 from by simp [Fin.sum_univ_three]; norm_num]
    exact Real.sqrt_sq (by norm_num)
  have hsome : ∃ p', stressUpdate ⟨1, 1, 2, 0⟩ ⟨0, 0, 2⟩ (!![0, 1, 1; 1, 0, 0; 1, 0, 0] : Tens 3) = some p' := by
    unfold stressUpdate
    simp only [hn]
    rw [if_neg (by norm_num), if_neg (by norm_num)]
    exact ⟨_, rfl⟩
  obtain ⟨p', hp'⟩ := hsome
  obtain ⟨_, _, dl, h1, h2, h3⟩ := plastic_excess (by norm_num) _ _ p' (by simp) _ (by rw [hn]; norm_num) hp'
  rw [hn] at h1
  simp only at h1 h2 h3
  have hdl : dl = 1 / 2 := by linarith
  have hk : p'.kappa = 2 := by rw [h2]; ring
  have hf : fnorm (deviator p'.stress - p'.back) = 1 := by
    rw [h3, hk, hdl]
    norm_num
  refine ⟨p', hp', hk, hf, ?_⟩
  unfold yieldFn
  rw [hf, hk]
  norm_num

/-- **C44**, plastic branch.  For any non-negative yield radius and isotropic hardening, with a traceless back stress, the updated
stress is exactly on the updated yield surface if the hardening is purely isotropic (`isotropic_hardening = 1`), if there is no
hardening (`plastic_modulus = 0`), or if the plastic strain increment happens to equal the plastic modulus.  Missing: kinematic
hardening, see `C44_refuted`. -/
theorem C44_plastic_partial {d : ℕ} (hd : 0 < d) (m : Props) (p p' : Pt d) (hb : trace p.back = 0) (eps : Tens d)
    (hk : 0 ≤ p.kappa) (hH : 0 ≤ m.plasticModulus) (hbeta : 0 ≤ m.isoHardening) (hmu : 0 < 2 * m.mu + m.plasticModulus)
    (hcond : m.isoHardening = 1 ∨ m.plasticModulus = 0 ∨
      (fnorm (effective m p eps) - p.kappa) / (2 * m.mu + m.plasticModulus) = m.plasticModulus)
    (hy : p.kappa ≤ fnorm (deviator (trial m p eps) - p.back)) (h : stressUpdate m p eps = some p') : yieldFn p' = 0 := by
  obtain ⟨_, hm, dl, h1, h2, h3⟩ := plastic_excess hd m p p' hb eps hy h
  have hdl : dl = (fnorm (effective m p eps) - p.kappa) / (2 * m.mu + m.plasticModulus) := by
    rw [eq_div_iff hm]; exact h1
  have hz : (1 - m.isoHardening) * m.plasticModulus * (dl - m.plasticModulus) = 0 := by
    rcases hcond with hc | hc | hc
    · rw [hc]; ring
    · rw [hc]; ring
    · rw [hdl, hc]; ring
  have hy' : p.kappa ≤ fnorm (effective m p eps) := hy
  have hdl0 : 0 ≤ dl := by
    rw [hdl]
    exact div_nonneg (by linarith) hmu.le
  have hk' : 0 ≤ p'.kappa := by
    rw [h2]
    have := mul_nonneg (mul_nonneg hbeta hH) hdl0
    linarith
  unfold yieldFn
  rw [h3, hz, add_zero, abs_of_nonneg hk', sub_self]

/-- The plastic branch is reachable under the hypotheses of the theorem: the point of `C44_refuted` with isotropic hardening. -/
example : (2 : ℝ) ≤ fnorm (deviator (trial ⟨1, 1, 2, 1⟩ ⟨0, 0, 2⟩ !![0, 1, 1; 1, 0, 0; 1, 0, 0]) - (0 : Tens 3)) := by
  have : deviator (trial ⟨1, 1, 2, 1⟩ ⟨0, 0, 2⟩ !![0, 1, 1; 1, 0, 0; 1, 0, 0]) - 0 = (!![0, 2, 2; 2, 0, 0; 2, 0, 0] : Tens 3) := by
    unfold trial deviator
    ext i j
    fin_cases i <;> fin_cases j <;> simp [trace, Fin.sum_univ_three]
  rw [this]
  unfold fnorm contract
  rw [show (∑ i : Fin 3, ∑ j : Fin 3, (!![0, 2, 2; 2, 0, 0; 2, 0, 0] : Tens 3) i j * (!![0, 2, 2; 2, 0, 0; 2, 0, 0] : Tens 3) i j)
    = 4 ^ 2 from by simp [Fin.sum_univ_three]; norm_num]
  rw [Real.sqrt_sq (by norm_num)]
  norm_num

/-- **C44**: the update never fails for a positive yield radius and positive `2 mu + plastic_modulus`; with a yield radius of zero an
unloaded point gives 0/0. -/
theorem C44_defined {d : ℕ} (m : Props) (p : Pt d) (eps : Tens d) (hk : 0 < p.kappa) (hmu : 0 < 2 * m.mu + m.plasticModulus) :
    (∃ p', stressUpdate m p eps = some p') ∧ stressUpdate m (⟨0, 0, 0⟩ : Pt d) 0 = none := by
  constructor
  · unfold stressUpdate
    simp only
    split_ifs with h1 h2
    · exact ⟨_, rfl⟩
    · rcases h2 with h2 | h2
      · rw [h2] at h1; exact absurd hk h1
      · linarith
    · exact ⟨_, rfl⟩
  · have h0 : fnorm (effective m (⟨0, 0, 0⟩ : Pt d) 0) = 0 := by
      have : effective m (⟨0, 0, 0⟩ : Pt d) 0 = 0 := by
        unfold effective trial deviator
        simp
      rw [this]
      simp [fnorm, contract]
    unfold stressUpdate
    simp only [h0]
    simp

/-! ## C45 -/

/-- A loading history. -/
noncomputable def stressHistory {d : ℕ} (m : Props) : Pt d → List (Tens d) → Option (Pt d)
  | p, [] => some p
  | p, e :: es => (stressUpdate m p e).bind fun p' => stressHistory m p' es

theorem update_trace {d : ℕ} (hd : 0 < d) (m : Props) (p p' : Pt d) (hb : trace p.back = 0) (eps : Tens d)
    (h : stressUpdate m p eps = some p') : trace p'.stress = trace (trial m p eps) ∧ trace p'.back = 0 := by
  unfold stressUpdate at h
  simp only at h
  split_ifs at h with h1 h2
  · rw [← Option.some.inj h]
    exact ⟨rfl, hb⟩
  · rw [← Option.some.inj h]
    have := effective_traceless hd m p hb eps
    simp only [trace_sub, trace_add, trace_smul, this, smul_zero, sub_zero, hb, add_zero, and_self]

theorem update_kappa {d : ℕ} (m : Props) (p p' : Pt d) (eps : Tens d) (hH : 0 ≤ m.plasticModulus) (hbeta : 0 ≤ m.isoHardening)
    (hmu : 0 ≤ 2 * m.mu + m.plasticModulus) (h : stressUpdate m p eps = some p') : p.kappa ≤ p'.kappa := by
  unfold stressUpdate at h
  simp only at h
  split_ifs at h with h1 h2
  · rw [← Option.some.inj h]
  · rw [← Option.some.inj h]
    simp only
    have := mul_nonneg (mul_nonneg hbeta hH) (div_nonneg (sub_nonneg.2 (not_lt.1 h1)) hmu)
    linarith

/-- **C45** for one update: the plastic correction does not change the trace of the stress (it is that of the trial stress) and keeps
the back stress traceless, the yield radius never decreases, and inside the yield surface the internal variables are unchanged. -/
theorem C45_update {d : ℕ} (hd : 0 < d) (m : Props) (p p' : Pt d) (hb : trace p.back = 0) (eps : Tens d)
    (hH : 0 ≤ m.plasticModulus) (hbeta : 0 ≤ m.isoHardening) (hmu : 0 ≤ 2 * m.mu + m.plasticModulus)
    (h : stressUpdate m p eps = some p') :
    trace p'.stress = trace p.stress + (d * m.lambda + 2 * m.mu) * trace eps ∧ trace p'.back = 0 ∧ p.kappa ≤ p'.kappa ∧
    (fnorm (deviator (trial m p eps) - p.back) < p.kappa → p'.kappa = p.kappa ∧ p'.back = p.back) := by
  obtain ⟨h1, h2⟩ := update_trace hd m p p' hb eps h
  refine ⟨?_, h2, update_kappa m p p' eps hH hbeta hmu h, ?_⟩
  · rw [h1]
    unfold trial
    simp only [trace_add, trace_smul, trace_one, Fintype.card_fin, smul_eq_mul]
    ring
  · intro hel
    obtain ⟨q, e1, _, e3, e4, _⟩ := C44_elastic m p eps hel
    rw [h] at e1
    rw [Option.some.inj e1]
    exact ⟨e4, e3⟩

/-- **C45** for every history: the mean stress is that of a purely elastic material under the accumulated strain, whatever plastic
flow happened, the back stress stays traceless and the yield radius is at least the initial one. -/
theorem C45_history {d : ℕ} (hd : 0 < d) (m : Props) (hH : 0 ≤ m.plasticModulus) (hbeta : 0 ≤ m.isoHardening)
    (hmu : 0 ≤ 2 * m.mu + m.plasticModulus) (es : List (Tens d)) (p p' : Pt d) (hb : trace p.back = 0)
    (h : stressHistory m p es = some p') :
    trace p'.stress = trace p.stress + (d * m.lambda + 2 * m.mu) * (es.map trace).sum ∧ trace p'.back = 0 ∧ p.kappa ≤ p'.kappa := by
  induction es generalizing p with
  | nil =>
    simp only [stressHistory, Option.some.injEq] at h
    subst h
    simp [hb]
  | cons e es ih =>
    simp only [stressHistory, Option.bind_eq_some_iff] at h
    obtain ⟨q, h1, h2⟩ := h
    obtain ⟨u1, u2, u3, _⟩ := C45_update hd m p q hb e hH hbeta hmu h1
    obtain ⟨v1, v2, v3⟩ := ih q u2 h2
    refine ⟨?_, v2, le_trans u3 v3⟩
    rw [v1, u1, List.map_cons, List.sum_cons]
    ring

/-- With a positive elastic limit every history is defined. -/
theorem C45_history_defined {d : ℕ} (m : Props) (hH : 0 ≤ m.plasticModulus) (hbeta : 0 ≤ m.isoHardening)
    (hmu : 0 < 2 * m.mu + m.plasticModulus) (es : List (Tens d)) (p : Pt d) (hk : 0 < p.kappa) :
    ∃ p', stressHistory m p es = some p' := by
  induction es generalizing p with
  | nil => exact ⟨p, rfl⟩
  | cons e es ih =>
    obtain ⟨q, hq⟩ := (C44_defined m p e hk hmu).1
    have := update_kappa m p q e hH hbeta hmu.le hq
    obtain ⟨p', hp'⟩ := ih q (by linarith)
    exact ⟨p', by simp [stressHistory, hq, hp']⟩

/-! ## C46 -/

/-- The value at one quadrature point, `PostProcessor.cc:119-127`, literally: the shear terms are `[0][1]`, `[1][2]`, `[2][1]`. -/
noncomputable def reportedVonMises (t : Tens 3) : ℝ :=
  Real.sqrt (0.5 * ((t 0 0 - t 1 1) ^ 2 + (t 1 1 - t 2 2) ^ 2 + (t 2 2 - t 0 0) ^ 2 +
    6 * (t 0 1 ^ 2 + t 1 2 ^ 2 + t 2 1 ^ 2)))

/-- The value of a cell, lines 116-130: mean over the quadrature points. -/
noncomputable def cellVonMises {n : ℕ} (t : Fin n → Tens 3) : ℝ := (∑ q, reportedVonMises (t q)) / n

/-- Specification: `sqrt(3/2 dev(s) : dev(s))`. -/
noncomputable def vonMises (t : Tens 3) : ℝ := Real.sqrt (3 / 2 * contract (deviator t) (deviator t))

theorem contract_deviator (t : Tens 3) (hs : t.IsSymm) :
    3 / 2 * contract (deviator t) (deviator t) =
      0.5 * ((t 0 0 - t 1 1) ^ 2 + (t 1 1 - t 2 2) ^ 2 + (t 2 2 - t 0 0) ^ 2 + 6 * (t 0 1 ^ 2 + t 1 2 ^ 2 + t 0 2 ^ 2)) := by
  have h10 : t 1 0 = t 0 1 := hs.apply 0 1
  have h20 : t 2 0 = t 0 2 := hs.apply 0 2
  have h21 : t 2 1 = t 1 2 := hs.apply 1 2
  unfold contract deviator
  simp [trace, Fin.sum_univ_three, Matrix.one_apply, h10, h20, h21]
  ring

/-- **C46 refuted**: for a stress that is a pure `xz` shear of 1 the reported value is 0 while the von Mises stress is `sqrt 3`; for a
pure `yz` shear of 1 it is `sqrt 6` instead of `sqrt 3`. -/
theorem C46_refuted :
    (reportedVonMises !![0, 0, 1; 0, 0, 0; 1, 0, 0] = 0 ∧ vonMises !![0, 0, 1; 0, 0, 0; 1, 0, 0] = Real.sqrt 3) ∧
    (reportedVonMises !![0, 0, 0; 0, 0, 1; 0, 1, 0] = Real.sqrt 6 ∧ vonMises !![0, 0, 0; 0, 0, 1; 0, 1, 0] = Real.sqrt 3) := by
  refine ⟨⟨?_, ?_⟩, ?_, ?_⟩
  · simp [reportedVonMises]
  · unfold vonMises
    rw [contract_deviator _ (by ext i j; fin_cases i <;> fin_cases j <;> rfl)]
    congr 1
    simp
    norm_num
  · unfold reportedVonMises
    congr 1
    simp
    norm_num
  · unfold vonMises
    rw [contract_deviator _ (by ext i j; fin_cases i <;> fin_cases j <;> rfl)]
    congr 1
    simp
    norm_num

/-- **C46**, what holds: for a symmetric stress the reported value is the von Mises stress exactly when `xz` and `yz` shear have the same
magnitude; it never changes under hydrostatic shifts. -/
theorem C46_value_partial (t : Tens 3) (hs : t.IsSymm) :
    (reportedVonMises t = vonMises t ↔ t 0 2 ^ 2 = t 1 2 ^ 2) ∧ (∀ c : ℝ, reportedVonMises (t + c • 1) = reportedVonMises t) := by
  have h21 : t 2 1 = t 1 2 := hs.apply 1 2
  constructor
  · unfold reportedVonMises vonMises
    rw [contract_deviator t hs, h21]
    rw [Real.sqrt_inj (by positivity) (by positivity)]
    constructor
    · intro h
      nlinarith
    · intro h
      rw [h]
  · intro c
    unfold reportedVonMises
    congr 2
    simp [Matrix.one_apply]

/-- **C46**, the value of a cell: where the `xz` and `yz` shear of every quadrature point have the same magnitude it is the mean of the von
Mises stresses of the quadrature points; a uniform stress gives the value of one point; it always lies between the smallest and the
largest value at the points. -/
theorem C46_cell_partial {n : ℕ} (hn : 0 < n) (t : Fin n → Tens 3) :
    ((∀ q, (t q).IsSymm ∧ t q 0 2 ^ 2 = t q 1 2 ^ 2) → cellVonMises t = (∑ q, vonMises (t q)) / n) ∧
    (∀ s, (∀ q, t q = s) → cellVonMises t = reportedVonMises s) ∧
    (∀ lo hi : ℝ, (∀ q, lo ≤ reportedVonMises (t q) ∧ reportedVonMises (t q) ≤ hi) → lo ≤ cellVonMises t ∧ cellVonMises t ≤ hi) := by
  have hn' : (0 : ℝ) < n := by exact_mod_cast hn
  refine ⟨fun h => ?_, fun s h => ?_, fun lo hi h => ?_⟩
  · unfold cellVonMises
    rw [Finset.sum_congr rfl fun q _ => ((C46_value_partial (t q) (h q).1).1.2 (h q).2)]
  · unfold cellVonMises
    rw [Finset.sum_congr rfl fun q _ => by rw [h q]]
    rw [Finset.sum_const, Finset.card_univ, Fintype.card_fin, nsmul_eq_mul, mul_div_cancel_left₀ _ hn'.ne']
  · unfold cellVonMises
    rw [le_div_iff₀ hn', div_le_iff₀ hn']
    have e : ∀ c : ℝ, ∑ _q : Fin n, c = c * n := fun c => by
      rw [Finset.sum_const, Finset.card_univ, Fintype.card_fin, nsmul_eq_mul, mul_comm]
    rw [← e, ← e]
    exact ⟨Finset.sum_le_sum fun q _ => (h q).1, Finset.sum_le_sum fun q _ => (h q).2⟩

/-- The von Mises stress of the specification vanishes exactly for hydrostatic stress; the reported value vanishes exactly when the
normal stresses agree and the `xy` and `yz` shear vanish (the `xz` shear is ignored). -/
theorem C46_zero_partial (t : Tens 3) (hs : t.IsSymm) :
    (vonMises t = 0 ↔ ∃ c : ℝ, t = c • 1) ∧
    (reportedVonMises t = 0 ↔ t 0 0 = t 1 1 ∧ t 1 1 = t 2 2 ∧ t 0 1 = 0 ∧ t 1 2 = 0) := by
  have h10 : t 1 0 = t 0 1 := hs.apply 0 1
  have h20 : t 2 0 = t 0 2 := hs.apply 0 2
  have h21 : t 2 1 = t 1 2 := hs.apply 1 2
  constructor
  · unfold vonMises
    rw [contract_deviator t hs, Real.sqrt_eq_zero (by positivity)]
    constructor
    · intro h
      have e1 := sq_nonneg (t 0 0 - t 1 1); have e2 := sq_nonneg (t 1 1 - t 2 2); have e3 := sq_nonneg (t 2 2 - t 0 0)
      have e4 := sq_nonneg (t 0 1); have e5 := sq_nonneg (t 1 2); have e6 := sq_nonneg (t 0 2)
      norm_num at h
      have f1 : (t 0 0 - t 1 1) ^ 2 = 0 := by linarith
      have f2 : (t 1 1 - t 2 2) ^ 2 = 0 := by linarith
      have f4 : (t 0 1) ^ 2 = 0 := by linarith
      have f5 : (t 1 2) ^ 2 = 0 := by linarith
      have f6 : (t 0 2) ^ 2 = 0 := by linarith
      rw [pow_eq_zero_iff two_ne_zero] at f1 f2 f4 f5 f6
      refine ⟨t 0 0, ?_⟩
      ext i j
      fin_cases i <;> fin_cases j <;> simp [h10, h20, h21, f4, f5, f6] <;> linarith
    · rintro ⟨c, rfl⟩
      simp
  · unfold reportedVonMises
    rw [Real.sqrt_eq_zero (by positivity), h21]
    constructor
    · intro h
      have e1 := sq_nonneg (t 0 0 - t 1 1); have e2 := sq_nonneg (t 1 1 - t 2 2); have e3 := sq_nonneg (t 2 2 - t 0 0)
      have e4 := sq_nonneg (t 0 1); have e5 := sq_nonneg (t 1 2)
      norm_num at h
      have f1 : (t 0 0 - t 1 1) ^ 2 = 0 := by linarith
      have f2 : (t 1 1 - t 2 2) ^ 2 = 0 := by linarith
      have f4 : (t 0 1) ^ 2 = 0 := by linarith
      have f5 : (t 1 2) ^ 2 = 0 := by linarith
      rw [pow_eq_zero_iff two_ne_zero] at f1 f2 f4 f5
      exact ⟨by linarith, by linarith, f4, f5⟩
    · rintro ⟨a, b, c, e⟩
      rw [c, e, a, b]
      norm_num

/-- A symmetric, non-trivial stress. -/
example : (!![1, 2, 3; 2, 4, 5; 3, 5, 6] : Tens 3).IsSymm := by
  ext i j
  fin_cases i <;> fin_cases j <;> rfl

end Verif.Mechanics
