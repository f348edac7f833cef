import Verif.Mechanics.Plasticity
import Mathlib.Analysis.InnerProductSpace.PiL2
import Mathlib.Tactic.FinCases

/-!
# C128: plastic flow dissipates energy, does not amplify perturbations, and only happens under load

Consequences of `stressUpdate` (`MechanicalPhysics.cc:591-621`) over every loading history.  The plastic strain increment of an update
is the part of the strain increment that does not become stress: `(trial stress - new stress) / (2 mu)` (the plastic correction is
traceless, C45).
-/

namespace Verif.Mechanics

open Matrix

/-! ## Specification -/

/-- The plastic strain increment of an update from `p` to `p'`. -/
noncomputable def plasticStrain {d : ℕ} (m : Props) (p p' : Pt d) (eps : Tens d) : Tens d :=
  (1 / (2 * m.mu)) • (trial m p eps - p'.stress)

/-- A stress that the yield condition allows for the internal variables of `p`. -/
def Admissible {d : ℕ} (p : Pt d) (tau : Tens d) : Prop := fnorm (deviator tau - p.back) ≤ p.kappa

/-- Hardening that the code integrates consistently (C44): purely isotropic, or none. -/
def Isotropic (m : Props) : Prop := m.isoHardening = 1 ∨ m.plasticModulus = 0

/-- The distance of two states in the energy norm: that of the stresses, and of the yield radii weighted with `2 mu / H`. -/
noncomputable def energyDist {d : ℕ} (m : Props) (p q : Pt d) : ℝ :=
  contract (p.stress - q.stress) (p.stress - q.stress) + 2 * m.mu / m.plasticModulus * (p.kappa - q.kappa) ^ 2

/-- The work done by the stress on the plastic strain over a history (the back stress is not subtracted). -/
noncomputable def dissipated {d : ℕ} (m : Props) : Pt d → List (Tens d) → ℝ
  | _, [] => 0
  | p, e :: es =>
    match stressUpdate m p e with
    | none => 0
    | some p' => contract p'.stress (plasticStrain m p p' e) + dissipated m p' es

/-! ## Lemmas -/

theorem contract_comm {d : ℕ} (a b : Tens d) : contract a b = contract b a := by
  unfold contract
  exact Finset.sum_congr rfl fun i _ => Finset.sum_congr rfl fun j _ => mul_comm _ _

theorem contract_add_left {d : ℕ} (a b c : Tens d) : contract (a + b) c = contract a c + contract b c := by
  simp only [contract, Matrix.add_apply, add_mul, Finset.sum_add_distrib]

theorem contract_sub_left {d : ℕ} (a b c : Tens d) : contract (a - b) c = contract a c - contract b c := by
  simp only [contract, Matrix.sub_apply, sub_mul, Finset.sum_sub_distrib]

theorem contract_smul_left {d : ℕ} (k : ℝ) (a c : Tens d) : contract (k • a) c = k * contract a c := by
  simp only [contract, Matrix.smul_apply, smul_eq_mul, mul_assoc, Finset.mul_sum]

theorem contract_smul_right {d : ℕ} (k : ℝ) (a c : Tens d) : contract a (k • c) = k * contract a c := by
  rw [contract_comm, contract_smul_left, contract_comm]

theorem contract_add_right {d : ℕ} (a b c : Tens d) : contract c (a + b) = contract c a + contract c b := by
  rw [contract_comm, contract_add_left, contract_comm a, contract_comm b]

theorem contract_sub_right {d : ℕ} (a b c : Tens d) : contract c (a - b) = contract c a - contract c b := by
  rw [contract_comm, contract_sub_left, contract_comm a, contract_comm b]

theorem contract_one {d : ℕ} (a : Tens d) : contract 1 a = trace a := by
  simp [contract, Matrix.one_apply, trace]

theorem contract_dev {d : ℕ} (a b : Tens d) (h : trace b = 0) : contract (deviator a) b = contract a b := by
  unfold deviator
  rw [contract_sub_left, contract_smul_left, contract_one, h, mul_zero, sub_zero]

theorem fnorm_sq {d : ℕ} (a : Tens d) : fnorm a ^ 2 = contract a a := Real.sq_sqrt (contract_nonneg a)

/-- Cauchy-Schwarz. -/
theorem contract_le {d : ℕ} (a b : Tens d) : contract a b ≤ fnorm a * fnorm b := by
  have e : ∀ x y : Tens d, contract x y = ∑ p : Fin d × Fin d, x p.1 p.2 * y p.1 p.2 := by
    intro x y
    rw [contract, Fintype.sum_prod_type]
  have := Real.sum_mul_le_sqrt_mul_sqrt (Finset.univ : Finset (Fin d × Fin d)) (fun p => a p.1 p.2) (fun p => b p.1 p.2)
  unfold fnorm
  rw [e, e, e]
  simpa only [← pow_two] using this

/-- What every update does (Kuhn-Tucker conditions): there is a plastic multiplier `dl ≥ 0` and a traceless direction of norm at most one
(the normal of the yield surface) such that the stress is the trial stress minus `2 mu dl` times the direction, the yield radius grows by
`H dl`, the back stress is unchanged, the new stress is admissible, and there is no flow unless the stress is on the yield surface in that
direction. -/
theorem C128_kuhn_tucker {d : ℕ} (hd : 0 < d) (m : Props) (hi : Isotropic m) (hmu : 0 < m.mu) (hH : 0 ≤ m.plasticModulus) (p p' : Pt d)
    (hb : trace p.back = 0) (hk : 0 ≤ p.kappa) (eps : Tens d) (h : stressUpdate m p eps = some p') :
    ∃ (dl : ℝ) (dir : Tens d), 0 ≤ dl ∧ trace dir = 0 ∧ fnorm dir ≤ 1 ∧
      p'.stress = trial m p eps - (2 * m.mu * dl) • dir ∧ p'.kappa = p.kappa + m.plasticModulus * dl ∧ p'.back = p.back ∧
      Admissible p' p'.stress ∧ dl * (contract dir (deviator p'.stress - p'.back) - p'.kappa) = 0 := by
  have h0 := h
  unfold stressUpdate at h
  simp only at h
  split_ifs at h with h1 h2
  · refine ⟨0, 0, le_rfl, by simp, ?_, ?_, ?_, ?_, ?_, by simp⟩
    · have : fnorm (0 : Tens d) = 0 := by simp [fnorm, contract]
      rw [this]; exact zero_le_one
    · rw [← Option.some.inj h]; simp
    · rw [← Option.some.inj h]; simp
    · rw [← Option.some.inj h]
    · rw [← Option.some.inj h]
      unfold Admissible
      exact h1.le
  · push Not at h2
    obtain ⟨hn, hD⟩ := h2
    have hn0 : 0 < fnorm (effective m p eps) := lt_of_le_of_ne (fnorm_nonneg _) (Ne.symm hn)
    have hD0 : 0 < 2 * m.mu + m.plasticModulus := by linarith
    have hdl : 0 ≤ (fnorm (effective m p eps) - p.kappa) / (2 * m.mu + m.plasticModulus) :=
      div_nonneg (by linarith [not_lt.1 h1]) hD0.le
    generalize hE : (fnorm (effective m p eps) - p.kappa) / (2 * m.mu + m.plasticModulus) = dl at h hdl
    have hdlE : dl * (2 * m.mu + m.plasticModulus) = fnorm (effective m p eps) - p.kappa := by
      rw [← hE]; field_simp
    have ht := effective_traceless hd m p hb eps
    have hiso : m.isoHardening * m.plasticModulus * dl = m.plasticModulus * dl ∧
        (1 - m.isoHardening) * m.plasticModulus * m.plasticModulus = 0 := by
      rcases hi with hi | hi
      · rw [hi]; constructor <;> ring
      · rw [hi]; constructor <;> ring
    rw [hiso.1, hiso.2, zero_smul, add_zero] at h
    have hp := Option.some.inj h
    have htd : trace ((1 / fnorm (effective m p eps)) • effective m p eps) = 0 := by
      rw [trace_smul, ht, smul_zero]
    have hrel : deviator p'.stress - p'.back =
        ((fnorm (effective m p eps) - 2 * m.mu * dl) / fnorm (effective m p eps)) • effective m p eps := by
      rw [← hp]
      simp only
      rw [deviator_sub_traceless _ _ htd, sub_right_comm, effective_is_trial, smul_smul, ← one_smul ℝ (effective m p eps),
        smul_smul, smul_smul, ← sub_smul]
      congr 1
      rw [one_smul]
      field_simp
    have hk' : p'.kappa = p.kappa + m.plasticModulus * dl := by rw [← hp]
    have hr : fnorm (effective m p eps) - 2 * m.mu * dl = p'.kappa := by rw [hk']; linarith
    have hk0 : 0 ≤ p'.kappa := by
      rw [hk']
      have := mul_nonneg hH hdl
      linarith
    rw [hr] at hrel
    refine ⟨dl, (1 / fnorm (effective m p eps)) • effective m p eps, hdl, htd, ?_, ?_, hk', ?_, ?_, ?_⟩
    · rw [fnorm_smul, abs_of_pos (by positivity)]
      rw [one_div, inv_mul_cancel₀ hn]
    · rw [← hp]
    · rw [← hp]
    · unfold Admissible
      rw [hrel, fnorm_smul, abs_of_nonneg (div_nonneg hk0 hn0.le), div_mul_cancel₀ _ hn]
    · rw [hrel, contract_smul_left, contract_smul_right, ← fnorm_sq]
      field_simp
      ring

theorem flow_eq {d : ℕ} (m : Props) (hmu : 0 < m.mu) (p p' : Pt d) (eps : Tens d) (dl : ℝ) (dir : Tens d)
    (h : p'.stress = trial m p eps - (2 * m.mu * dl) • dir) : plasticStrain m p p' eps = dl • dir := by
  unfold plasticStrain
  rw [h, sub_sub_cancel, smul_smul]
  congr 1
  field_simp

/-! ## C128 -/

/-- **C128**, maximum dissipation.  For isotropic or no hardening, the plastic strain increment of every update does at least as much work
on the new stress as on any other stress the yield condition allows. -/
theorem C128_maximum_dissipation {d : ℕ} (hd : 0 < d) (m : Props) (hi : Isotropic m) (hmu : 0 < m.mu) (hH : 0 ≤ m.plasticModulus)
    (p p' : Pt d) (hb : trace p.back = 0) (hk : 0 ≤ p.kappa) (eps : Tens d) (h : stressUpdate m p eps = some p') (tau : Tens d)
    (ht : Admissible p' tau) : contract tau (plasticStrain m p p' eps) ≤ contract p'.stress (plasticStrain m p p' eps) := by
  obtain ⟨dl, dir, h0, htr, hn, hs, hkap, hbk, -, hc⟩ := C128_kuhn_tucker hd m hi hmu hH p p' hb hk eps h
  rw [flow_eq m hmu p p' eps dl dir hs, contract_smul_right, contract_smul_right]
  have e : ∀ x : Tens d, contract x dir = contract dir (deviator x - p'.back) + contract p'.back dir := by
    intro x
    rw [contract_sub_right, contract_comm dir (deviator x), contract_dev x dir htr, contract_comm dir p'.back]
    ring
  rw [e tau, e p'.stress]
  have h1 : contract dir (deviator tau - p'.back) ≤ p'.kappa := by
    refine (contract_le _ _).trans ?_
    calc fnorm dir * fnorm (deviator tau - p'.back) ≤ 1 * p'.kappa :=
          mul_le_mul hn ht (fnorm_nonneg _) zero_le_one
      _ = p'.kappa := one_mul _
  have h2 : dl * contract dir (deviator p'.stress - p'.back) = dl * p'.kappa := by linarith [hc]
  have h3 := mul_le_mul_of_nonneg_left h1 h0
  rw [mul_add, mul_add, h2]
  linarith

/-- **C128**, dissipation (isotropic or no hardening, no initial back stress): over every loading history the stress does non-negative
work on the plastic strain. -/
theorem C128_dissipation {d : ℕ} (hd : 0 < d) (m : Props) (hi : Isotropic m) (hmu : 0 < m.mu) (hH : 0 ≤ m.plasticModulus)
    (es : List (Tens d)) (p : Pt d) (hb : p.back = 0) (hk : 0 ≤ p.kappa) : 0 ≤ dissipated m p es := by
  induction es generalizing p with
  | nil => exact le_rfl
  | cons e es ih =>
    unfold dissipated
    cases h : stressUpdate m p e with
    | none => exact le_rfl
    | some p' =>
      have hb0 : trace p.back = 0 := by rw [hb]; simp
      obtain ⟨dl, dir, h0, htr, hn, hs, hkap, hbk, -, hc⟩ := C128_kuhn_tucker hd m hi hmu hH p p' hb0 hk e h
      have hk' : 0 ≤ p'.kappa := by
        rw [hkap]
        have := mul_nonneg hH h0
        linarith
      have hz : Admissible p' 0 := by
        unfold Admissible
        rw [hbk, hb]
        have : fnorm (deviator (0 : Tens d) - 0) = 0 := by simp [fnorm, contract, deviator]
        rw [this]
        exact hk'
      have h1 := C128_maximum_dissipation hd m hi hmu hH p p' hb0 hk e h 0 hz
      have h2 : contract (0 : Tens d) (plasticStrain m p p' e) = 0 := by simp [contract]
      have h3 := ih p' (by rw [hbk, hb]) hk'
      dsimp only
      linarith

theorem trial_sub {d : ℕ} (m : Props) (p q : Pt d) (eps : Tens d) : trial m p eps - trial m q eps = p.stress - q.stress := by
  unfold trial
  abel

theorem contract_self_add {d : ℕ} (a b : Tens d) : contract a a + 2 * contract b a ≤ contract (a + b) (a + b) := by
  rw [contract_add_left, contract_add_right, contract_add_right, contract_comm a b]
  have := contract_nonneg b
  linarith

/-- One update, two states with the same strain increment. -/
theorem contract_step {d : ℕ} (hd : 0 < d) (m : Props) (hi : Isotropic m) (hmu : 0 < m.mu) (hH : 0 ≤ m.plasticModulus)
    (p q p' q' : Pt d) (hback : p.back = q.back) (hb : trace p.back = 0) (hkp : 0 ≤ p.kappa) (hkq : 0 ≤ q.kappa)
    (hH0 : 0 < m.plasticModulus ∨ p.kappa = q.kappa) (eps : Tens d)
    (hp : stressUpdate m p eps = some p') (hq : stressUpdate m q eps = some q') :
    energyDist m p' q' ≤ energyDist m p q ∧ p'.back = q'.back ∧ trace p'.back = 0 ∧ 0 ≤ p'.kappa ∧ 0 ≤ q'.kappa ∧
      (0 < m.plasticModulus ∨ p'.kappa = q'.kappa) := by
  obtain ⟨a, x, a0, xt, xn, xs, xk, xb, xa, xc⟩ := C128_kuhn_tucker hd m hi hmu hH p p' hb hkp eps hp
  obtain ⟨b, y, b0, yt, yn, ys, yk, yb, ya, yc⟩ := C128_kuhn_tucker hd m hi hmu hH q q' (hback ▸ hb) hkq eps hq
  have hbk : p'.back = q'.back := by rw [xb, yb, hback]
  refine ⟨?_, hbk, by rw [xb, hb], ?_, ?_, ?_⟩
  · have hU : p.stress - q.stress = (p'.stress - q'.stress) + (2 * m.mu) • (a • x - b • y) := by
      rw [← trial_sub m p q eps, xs, ys, smul_sub, smul_smul, smul_smul]
      abel
    have hpair : ∀ (w : Tens d), trace w = 0 →
        contract w (p'.stress - q'.stress) = contract w (deviator p'.stress - p'.back) - contract w (deviator q'.stress - q'.back) := by
      intro w hw
      rw [contract_sub_right, contract_sub_right, contract_sub_right, hbk, contract_comm w (deviator p'.stress),
        contract_comm w (deviator q'.stress), contract_dev _ _ hw, contract_dev _ _ hw, contract_comm p'.stress,
        contract_comm q'.stress]
      ring
    have hle : ∀ (w : Tens d) (r : Pt d), fnorm w ≤ 1 → Admissible r r.stress → contract w (deviator r.stress - r.back) ≤ r.kappa := by
      intro w r hw hr
      refine (contract_le _ _).trans ?_
      calc fnorm w * fnorm (deviator r.stress - r.back) ≤ 1 * r.kappa := mul_le_mul hw hr (fnorm_nonneg _) zero_le_one
        _ = r.kappa := one_mul _
    have h1 : a * (p'.kappa - q'.kappa) ≤ a * contract x (p'.stress - q'.stress) := by
      rw [hpair x xt, mul_sub, mul_sub]
      have := mul_le_mul_of_nonneg_left (hle x q' xn ya) a0
      linarith
    have h2 : b * contract y (p'.stress - q'.stress) ≤ b * (p'.kappa - q'.kappa) := by
      rw [hpair y yt, mul_sub, mul_sub]
      have := mul_le_mul_of_nonneg_left (hle y p' yn xa) b0
      linarith
    have h3 := contract_self_add (p'.stress - q'.stress) ((2 * m.mu) • (a • x - b • y))
    rw [contract_smul_left, contract_sub_left (a • x) (b • y), contract_smul_left, contract_smul_left] at h3
    unfold energyDist
    rw [hU]
    have h4 : 2 * m.mu / m.plasticModulus * (p'.kappa - q'.kappa) ^ 2 - 4 * m.mu * ((a - b) * (p'.kappa - q'.kappa)) ≤
        2 * m.mu / m.plasticModulus * (p.kappa - q.kappa) ^ 2 := by
      rcases hH0 with hpos | heq
      · have e : p.kappa - q.kappa = (p'.kappa - q'.kappa) - m.plasticModulus * (a - b) := by rw [xk, yk]; ring
        rw [e]
        have : 2 * m.mu / m.plasticModulus * ((p'.kappa - q'.kappa) - m.plasticModulus * (a - b)) ^ 2 =
            2 * m.mu / m.plasticModulus * (p'.kappa - q'.kappa) ^ 2 - 4 * m.mu * ((a - b) * (p'.kappa - q'.kappa)) +
              2 * m.mu * m.plasticModulus * (a - b) ^ 2 := by
          field_simp
          ring
        rw [this]
        have : 0 ≤ 2 * m.mu * m.plasticModulus * (a - b) ^ 2 := by positivity
        linarith
      · rcases hH.lt_or_eq with hpos | hzero
        · have e : p'.kappa - q'.kappa = m.plasticModulus * (a - b) := by rw [xk, yk, heq]; ring
          rw [heq, e]
          have : 2 * m.mu / m.plasticModulus * (m.plasticModulus * (a - b)) ^ 2 = 2 * m.mu * m.plasticModulus * (a - b) ^ 2 := by
            field_simp
          rw [this]
          have : 0 ≤ 2 * m.mu * m.plasticModulus * (a - b) ^ 2 := by positivity
          have : 4 * m.mu * ((a - b) * (m.plasticModulus * (a - b))) = 2 * (2 * m.mu * m.plasticModulus * (a - b) ^ 2) := by ring
          rw [this]
          simp
          linarith
        · have : p'.kappa - q'.kappa = 0 := by rw [xk, yk, heq, ← hzero]; ring
          rw [this, ← hzero]
          simp
    have h5 : 0 ≤ m.mu * (a * contract x (p'.stress - q'.stress) - a * (p'.kappa - q'.kappa)) := mul_nonneg hmu.le (by linarith)
    have h6 : 0 ≤ m.mu * (b * (p'.kappa - q'.kappa) - b * contract y (p'.stress - q'.stress)) := mul_nonneg hmu.le (by linarith)
    linarith
  · rw [xk]
    have := mul_nonneg hH a0
    linarith
  · rw [yk]
    have := mul_nonneg hH b0
    linarith
  · rcases hH0 with hpos | heq
    · exact Or.inl hpos
    · rcases hH.lt_or_eq with hpos | hzero
      · exact Or.inl hpos
      · right
        rw [xk, yk, heq, ← hzero]
        ring

/-- **C128**, perturbations do not grow (isotropic hardening).  Two points that undergo the same strain increments, over any history,
never get further apart than they were at the start, in the energy norm of stress and yield radius. -/
theorem C128_contractive {d : ℕ} (hd : 0 < d) (m : Props) (hiso : m.isoHardening = 1) (hmu : 0 < m.mu) (hH : 0 < m.plasticModulus)
    (es : List (Tens d)) (p q p' q' : Pt d) (hback : p.back = q.back) (hb : trace p.back = 0) (hkp : 0 ≤ p.kappa) (hkq : 0 ≤ q.kappa)
    (hp : stressHistory m p es = some p') (hq : stressHistory m q es = some q') :
    contract (p'.stress - q'.stress) (p'.stress - q'.stress) + 2 * m.mu / m.plasticModulus * (p'.kappa - q'.kappa) ^ 2 ≤
      contract (p.stress - q.stress) (p.stress - q.stress) + 2 * m.mu / m.plasticModulus * (p.kappa - q.kappa) ^ 2 := by
  induction es generalizing p q with
  | nil => cases hp; cases hq; exact le_rfl
  | cons e es ih =>
    simp only [stressHistory, Option.bind_eq_some_iff] at hp hq
    obtain ⟨p1, hp1, hp2⟩ := hp
    obtain ⟨q1, hq1, hq2⟩ := hq
    obtain ⟨h1, h2, h3, h4, h5, -⟩ := contract_step hd m (Or.inl hiso) hmu hH.le p q p1 q1 hback hb hkp hkq (Or.inl hH) e hp1 hq1
    exact (ih p1 q1 h2 h3 h4 h5 hp2 hq2).trans h1

/-- **C128**, perturbations do not grow (no hardening): the stresses of two points with the same yield radius never get further apart
under the same strain increments. -/
theorem C128_contractive_perfect {d : ℕ} (hd : 0 < d) (m : Props) (hmu : 0 < m.mu) (hH : m.plasticModulus = 0)
    (es : List (Tens d)) (p q p' q' : Pt d) (hback : p.back = q.back) (hb : trace p.back = 0) (hk : p.kappa = q.kappa)
    (hkp : 0 ≤ p.kappa) (hp : stressHistory m p es = some p') (hq : stressHistory m q es = some q') :
    fnorm (p'.stress - q'.stress) ≤ fnorm (p.stress - q.stress) := by
  have key : ∀ (es : List (Tens d)) (p q : Pt d), p.back = q.back → trace p.back = 0 → p.kappa = q.kappa → 0 ≤ p.kappa →
      stressHistory m p es = some p' → stressHistory m q es = some q' → energyDist m p' q' ≤ energyDist m p q := by
    intro es
    induction es with
    | nil => intro p q _ _ _ _ hp hq; cases hp; cases hq; exact le_rfl
    | cons e es ih =>
      intro p q hback hb hk hkp hp hq
      simp only [stressHistory, Option.bind_eq_some_iff] at hp hq
      obtain ⟨p1, hp1, hp2⟩ := hp
      obtain ⟨q1, hq1, hq2⟩ := hq
      obtain ⟨h1, h2, h3, h4, h5, h6⟩ :=
        contract_step hd m (Or.inr hH) hmu hH.ge p q p1 q1 hback hb hkp (hk ▸ hkp) (Or.inr hk) e hp1 hq1
      have h7 : p1.kappa = q1.kappa := by
        rcases h6 with h6 | h6
        · rw [hH] at h6; exact absurd h6 (lt_irrefl 0)
        · exact h6
      exact (ih p1 q1 h2 h3 h7 h4 hp2 hq2).trans h1
  have := key es p q hback hb hk hkp hp hq
  unfold energyDist at this
  rw [hH, div_zero, zero_mul, zero_mul, add_zero, add_zero] at this
  exact Real.sqrt_le_sqrt this

theorem trial_zero {d : ℕ} (m : Props) (p : Pt d) : trial m p 0 = p.stress := by
  simp [trial]

/-- **C128**, at rest.  With isotropic or no hardening, a point whose stress the yield condition allows keeps its stress and internal
variables over any number of updates without strain. -/
theorem C128_rest {d : ℕ} (m : Props) (hi : Isotropic m) (hmu : 0 < m.mu) (hH : 0 ≤ m.plasticModulus) (p : Pt d) (hk : 0 < p.kappa)
    (ha : Admissible p p.stress) (k : ℕ) : stressHistory m p (List.replicate k 0) = some p := by
  have h1 : stressUpdate m p 0 = some p := by
    unfold stressUpdate
    simp only
    have he : effective m p 0 = deviator p.stress - p.back := by unfold effective; rw [trial_zero]
    rw [he, trial_zero]
    by_cases hn : fnorm (deviator p.stress - p.back) < p.kappa
    · rw [if_pos hn]
    · have e : fnorm (deviator p.stress - p.back) = p.kappa := le_antisymm ha (not_lt.1 hn)
      rw [if_neg hn, if_neg (by rw [e]; push Not; exact ⟨hk.ne', by positivity⟩), e]
      have hz : (1 - m.isoHardening) * m.plasticModulus * m.plasticModulus = 0 := by
        rcases hi with hi | hi <;> rw [hi] <;> ring
      rw [hz, sub_self, zero_div]
      simp
  induction k with
  | zero => rfl
  | succ k ih => rw [List.replicate_succ, stressHistory, h1, Option.bind_some, ih]

/-- **C128 is false with kinematic hardening.**  A point on the yield surface, at rest: the first update without strain adds
`(1 - beta) H²` to the back stress (a stress modulus squared; C44), and if that is more than twice the yield radius - in SI units it always
is - the second update without strain changes the stress. -/
theorem C128_rest_refuted {d : ℕ} (hd : 0 < d) (m : Props) (hmu : 0 < m.mu) (hH : 0 ≤ m.plasticModulus) (S : Tens d) (kappa : ℝ)
    (hk : 0 < kappa) (hS : fnorm (deviator S) = kappa) (hc : 2 * kappa < (1 - m.isoHardening) * m.plasticModulus ^ 2) :
    ∃ p2 : Pt d, stressHistory m ⟨S, 0, kappa⟩ [0, 0] = some p2 ∧
      p2.stress = S + (2 * m.mu * (((1 - m.isoHardening) * m.plasticModulus ^ 2 - 2 * kappa) / (2 * m.mu + m.plasticModulus)) / kappa) •
        deviator S ∧ p2.stress ≠ S := by
  have hD : 2 * m.mu + m.plasticModulus ≠ 0 := by positivity
  have h1 : stressUpdate m ⟨S, 0, kappa⟩ 0 =
      some ⟨S, ((1 - m.isoHardening) * m.plasticModulus ^ 2 / kappa) • deviator S, kappa⟩ := by
    unfold stressUpdate
    simp only
    have he : effective m ⟨S, 0, kappa⟩ 0 = deviator S := by unfold effective; rw [trial_zero, sub_zero]
    rw [he, trial_zero, hS, if_neg (lt_irrefl _), if_neg (by push Not; exact ⟨hk.ne', hD⟩), sub_self, zero_div]
    rw [mul_zero, zero_smul, sub_zero, mul_zero, add_zero, zero_add, smul_smul]
    congr 3
    field_simp
  generalize hC : (1 - m.isoHardening) * m.plasticModulus ^ 2 = c at *
  have he : effective m ⟨S, (c / kappa) • deviator S, kappa⟩ 0 = (1 - c / kappa) • deviator S := by
    unfold effective
    rw [trial_zero, sub_smul, one_smul]
  have hneg : 1 - c / kappa < 0 := by
    rw [sub_neg, lt_div_iff₀ hk]; linarith
  have hn : fnorm ((1 - c / kappa) • deviator S) = c - kappa := by
    rw [fnorm_smul, hS, abs_of_neg hneg]
    field_simp
    ring
  have hst : stressUpdate m ⟨S, (c / kappa) • deviator S, kappa⟩ 0 = some
      ⟨S - (2 * m.mu * ((c - kappa - kappa) / (2 * m.mu + m.plasticModulus))) • (1 / (c - kappa)) • (1 - c / kappa) • deviator S,
        (c / kappa) • deviator S + ((1 - m.isoHardening) * m.plasticModulus * m.plasticModulus) •
          (1 / (c - kappa)) • (1 - c / kappa) • deviator S,
        kappa + m.isoHardening * m.plasticModulus * ((c - kappa - kappa) / (2 * m.mu + m.plasticModulus))⟩ := by
    unfold stressUpdate
    simp only
    rw [he, trial_zero, hn, if_neg (by linarith), if_neg (by push Not; exact ⟨by linarith, hD⟩)]
  refine ⟨_, by rw [stressHistory, h1, Option.bind_some, stressHistory, hst, Option.bind_some, stressHistory], ?_, ?_⟩
  · have e : (2 * m.mu * ((c - kappa - kappa) / (2 * m.mu + m.plasticModulus))) * ((1 / (c - kappa)) * (1 - c / kappa)) =
        -(2 * m.mu * ((c - 2 * kappa) / (2 * m.mu + m.plasticModulus)) / kappa) := by
      have : c - kappa ≠ 0 := by linarith
      field_simp
      ring
    simp only [smul_smul]
    rw [e, neg_smul, sub_neg_eq_add]
  · intro hE
    have hz : ((2 * m.mu * ((c - kappa - kappa) / (2 * m.mu + m.plasticModulus))) • (1 / (c - kappa)) • (1 - c / kappa) • deviator S) = 0 := by
      simpa using hE
    have h0 : deviator S = 0 := by
      rw [smul_smul, smul_smul] at hz
      refine (smul_eq_zero.1 hz).resolve_left ?_
      have h1 : c - kappa ≠ 0 := by linarith
      have h2 : c - kappa - kappa ≠ 0 := by linarith
      have h3 := hneg.ne
      positivity
    rw [h0] at hS
    have : fnorm (0 : Tens d) = 0 := by simp [fnorm, contract]
    rw [this] at hS
    exact hk.ne hS

/-- The hypotheses of the refutation: `H = 4`, no isotropic part, a shear stress on the yield surface. -/
example : fnorm (deviator (!![0, 2, 2; 2, 0, 0; 2, 0, 0] : Tens 3)) = 4 ∧ 2 * (4 : ℝ) < (1 - 0) * 4 ^ 2 := by
  constructor
  · have : deviator (!![0, 2, 2; 2, 0, 0; 2, 0, 0] : Tens 3) = !![0, 2, 2; 2, 0, 0; 2, 0, 0] := by
      unfold deviator
      ext i j
      fin_cases i <;> fin_cases j <;> simp [trace, Fin.sum_univ_three]
    rw [this]
    unfold fnorm contract
    rw [show (∑ i : Fin 3, ∑ j : Fin 3, (!![0, 2, 2; 2, 0, 0; 2, 0, 0] : Tens 3) i j * (!![0, 2, 2; 2, 0, 0; 2, 0, 0] : Tens 3) i j)
      = 4 ^ 2 from by simp [Fin.sum_univ_three]; norm_num]
    rw [Real.sqrt_sq (by norm_num)]
  · norm_num

/-- Size of the stress and yield radius after loading by `a` from stress size `s` and yield radius `k`, for a fixed direction. -/
noncomputable def radial (m : Props) (s k a : ℝ) : ℝ × ℝ :=
  if s + 2 * m.mu * a < k then (s + 2 * m.mu * a, k)
  else (k + m.plasticModulus * ((s + 2 * m.mu * a - k) / (2 * m.mu + m.plasticModulus)),
    k + m.plasticModulus * ((s + 2 * m.mu * a - k) / (2 * m.mu + m.plasticModulus)))

theorem radial_update {d : ℕ} (m : Props) (hi : Isotropic m) (hmu : 0 < m.mu) (hH : 0 ≤ m.plasticModulus) (N : Tens d) (hN : fnorm N = 1)
    (ht : trace N = 0) (s k a : ℝ) (hs : 0 ≤ s) (hk : 0 < k) (ha : 0 ≤ a) :
    stressUpdate m ⟨s • N, 0, k⟩ (a • N) = some ⟨(radial m s k a).1 • N, 0, (radial m s k a).2⟩ := by
  have hD : 0 < 2 * m.mu + m.plasticModulus := by positivity
  have h0 : 0 ≤ s + 2 * m.mu * a := by positivity
  have htr : trial m ⟨s • N, 0, k⟩ (a • N) = (s + 2 * m.mu * a) • N := by
    unfold trial
    rw [trace_smul, ht, smul_zero, mul_zero, zero_smul, zero_add, smul_smul, ← add_smul]
  have he : effective m ⟨s • N, 0, k⟩ (a • N) = (s + 2 * m.mu * a) • N := by
    unfold effective
    rw [htr, sub_zero, deviator, trace_smul, ht, smul_zero, zero_div, zero_smul, sub_zero]
  have hn : fnorm ((s + 2 * m.mu * a) • N) = s + 2 * m.mu * a := by rw [fnorm_smul, hN, mul_one, abs_of_nonneg h0]
  unfold stressUpdate radial
  simp only
  rw [he, htr, hn]
  generalize s + 2 * m.mu * a = t at *
  by_cases hlt : t < k
  · rw [if_pos hlt, if_pos hlt]
  · have ht0 : t ≠ 0 := by linarith [not_lt.1 hlt]
    rw [if_neg hlt, if_neg hlt, if_neg (by push Not; exact ⟨ht0, hD.ne'⟩)]
    have hz : (1 - m.isoHardening) * m.plasticModulus * m.plasticModulus = 0 := by
      rcases hi with hi | hi <;> rw [hi] <;> ring
    have hb : m.isoHardening * m.plasticModulus = m.plasticModulus := by
      rcases hi with hi | hi <;> rw [hi] <;> ring
    rw [hz, hb, zero_smul, add_zero, smul_smul, smul_smul, ← sub_smul]
    congr 3
    field_simp
    ring

/-- **C128**, load steps.  For monotone loading in a fixed (traceless) direction with isotropic or no hardening, the result does not depend on
how the strain is divided into increments: any number of steps give what one step with the sum of the increments gives. -/
theorem C128_load_steps {d : ℕ} (m : Props) (hi : Isotropic m) (hmu : 0 < m.mu) (hH : 0 ≤ m.plasticModulus) (N : Tens d) (hN : fnorm N = 1)
    (ht : trace N = 0) (as : List ℝ) (a : ℝ) (ha : 0 ≤ a) (has : ∀ x ∈ as, 0 ≤ x) (s k : ℝ) (hs : 0 ≤ s) (hk : 0 < k) :
    stressHistory m ⟨s • N, 0, k⟩ ((a :: as).map fun x => x • N) = stressUpdate m ⟨s • N, 0, k⟩ ((a + as.sum) • N) := by
  have hD : 0 < 2 * m.mu + m.plasticModulus := by positivity
  induction as generalizing a s k with
  | nil =>
    rw [List.map_cons, List.map_nil, stressHistory, List.sum_nil, add_zero]
    cases stressUpdate m ⟨s • N, 0, k⟩ (a • N) <;> rfl
  | cons b as ih =>
    have hb := has b (by simp)
    have hrest : ∀ x ∈ as, 0 ≤ x := fun x hx => has x (by simp [hx])
    have hsum : 0 ≤ as.sum := List.sum_nonneg hrest
    have hr : 0 ≤ (radial m s k a).1 ∧ 0 < (radial m s k a).2 := by
      unfold radial
      by_cases hlt : s + 2 * m.mu * a < k
      · rw [if_pos hlt]
        exact ⟨by positivity, hk⟩
      · rw [if_neg hlt]
        have : 0 ≤ m.plasticModulus * ((s + 2 * m.mu * a - k) / (2 * m.mu + m.plasticModulus)) :=
          mul_nonneg hH (div_nonneg (by linarith [not_lt.1 hlt]) hD.le)
        constructor <;> simp only <;> linarith
    rw [List.map_cons, stressHistory, radial_update m hi hmu hH N hN ht s k a hs hk ha, Option.bind_some,
      ih b hb hrest _ _ hr.1 hr.2, radial_update m hi hmu hH N hN ht _ _ _ hr.1 hr.2 (by positivity),
      radial_update m hi hmu hH N hN ht s k _ hs hk (by rw [List.sum_cons]; positivity), List.sum_cons]
    have key : radial m (radial m s k a).1 (radial m s k a).2 (b + as.sum) = radial m s k (a + (b + as.sum)) := by
      have hc : 0 ≤ b + as.sum := by positivity
      generalize b + as.sum = c at hc
      have hc2 : 0 ≤ 2 * m.mu * c := by positivity
      by_cases hlt : s + 2 * m.mu * a < k
      · have e : radial m s k a = (s + 2 * m.mu * a, k) := by unfold radial; rw [if_pos hlt]
        rw [e]
        unfold radial
        simp only
        rw [show s + 2 * m.mu * (a + c) = s + 2 * m.mu * a + 2 * m.mu * c by ring]
      · have hge := not_lt.1 hlt
        have e : radial m s k a = (k + m.plasticModulus * ((s + 2 * m.mu * a - k) / (2 * m.mu + m.plasticModulus)),
            k + m.plasticModulus * ((s + 2 * m.mu * a - k) / (2 * m.mu + m.plasticModulus))) := by unfold radial; rw [if_neg hlt]
        rw [e]
        unfold radial
        simp only
        rw [if_neg (by linarith), if_neg (by rw [mul_add]; linarith)]
        have : k + m.plasticModulus * ((s + 2 * m.mu * a - k) / (2 * m.mu + m.plasticModulus)) +
            m.plasticModulus * ((k + m.plasticModulus * ((s + 2 * m.mu * a - k) / (2 * m.mu + m.plasticModulus)) + 2 * m.mu * c -
              (k + m.plasticModulus * ((s + 2 * m.mu * a - k) / (2 * m.mu + m.plasticModulus)))) / (2 * m.mu + m.plasticModulus)) =
            k + m.plasticModulus * ((s + 2 * m.mu * (a + c) - k) / (2 * m.mu + m.plasticModulus)) := by
          field_simp
          ring
        rw [this]
    rw [key]

end Verif.Mechanics
