import Verif.Thermal.ConvergenceMesh
import Mathlib.Analysis.Calculus.ContDiff.Basic
import Mathlib.Analysis.Calculus.ContDiff.Comp
import Mathlib.Analysis.Calculus.ContDiff.RCLike
import Mathlib.Analysis.Calculus.IteratedDeriv.Defs
import Mathlib.Topology.MetricSpace.Thickening
import Mathlib.Analysis.SpecialFunctions.Sqrt
import Mathlib.Analysis.Calculus.Deriv.Inv

/-!
# C115: the order of accuracy of the time steppers

The three time steppers of C40 (`source/ThermalPhysics.templates.hh:449-471, 859-888`) for a right-hand side that is a smooth
function of time and temperatures near the exact solution: the error of forward Euler is of first, that of the third-order
Runge-Kutta method of third and that of the fourth-order one of fourth order in the time step.
-/

namespace Verif.Assembly

open Verif.Thermal (Operator evolve steps rhs Method)
open Set

section Local

variable {E : Type*} [NormedAddCommGroup E] [NormedSpace ℝ E]

/-- Taylor's formula for a chain of derivatives `d 0, d 1, …, d n`. -/
theorem taylor_chain {V a b : ℝ} (n : ℕ) : ∀ (d : ℕ → ℝ → E)
    (_ : ∀ i < n, ∀ s ∈ Icc a b, HasDerivWithinAt (d i) (d (i + 1) s) (Icc a b) s) (_ : ∀ s ∈ Icc a b, ‖d n s‖ ≤ V),
    ∀ r ∈ Icc a b, ‖d 0 r - ∑ i ∈ Finset.range n, ((r - a) ^ i / i.factorial) • d i a‖ ≤ V * (r - a) ^ n := by
  induction n with
  | zero =>
    intro d _ hV r hr
    simpa using hV r hr
  | succ p ih =>
    intro d hd hV r hr
    have hsub : Icc a r ⊆ Icc a b := Icc_subset_Icc le_rfl hr.2
    have hV0 : 0 ≤ V := (norm_nonneg _).trans (hV r hr)
    have ih' := ih (fun i => d (i + 1)) (fun i hi => hd (i + 1) (by omega)) hV
    have key := norm_image_sub_le_of_norm_deriv_le_segment'
      (f := fun r => d 0 r - ∑ i ∈ Finset.range (p + 1), ((r - a) ^ i / i.factorial) • d i a)
      (f' := fun r => d 1 r - ∑ i ∈ Finset.range p, ((r - a) ^ i / i.factorial) • d (i + 1) a)
      (a := a) (b := r) (C := V * (r - a) ^ p) (by
        intro s hs
        have h1 := (hd 0 (by omega) s (hsub hs)).mono hsub
        have h2 : HasDerivWithinAt (fun r : ℝ => ∑ i ∈ Finset.range (p + 1), ((r - a) ^ i / i.factorial) • d i a)
            (∑ i ∈ Finset.range p, ((s - a) ^ i / i.factorial) • d (i + 1) a) (Icc a r) s := by
          have : HasDerivWithinAt (fun r : ℝ => ∑ i ∈ Finset.range (p + 1), ((r - a) ^ i / i.factorial) • d i a)
              (∑ i ∈ Finset.range (p + 1), ((i : ℝ) * (s - a) ^ (i - 1) * 1 / i.factorial) • d i a) (Icc a r) s := by
            refine HasDerivWithinAt.fun_sum fun i _ => ?_
            exact ((((hasDerivWithinAt_id s (Icc a r)).sub_const a).pow i).div_const _).smul_const _
          refine this.congr_deriv ?_
          rw [Finset.sum_range_succ']
          simp only [Nat.cast_zero, zero_mul, mul_one, zero_div, zero_smul, add_zero, Nat.add_sub_cancel]
          refine Finset.sum_congr rfl fun i _ => ?_
          congr 1
          rw [Nat.factorial_succ]
          push_cast
          field_simp
        exact h1.sub h2) (by
        intro s hs
        refine (ih' s (hsub ⟨hs.1, hs.2.le⟩)).trans ?_
        refine mul_le_mul_of_nonneg_left ?_ hV0
        exact pow_le_pow_left₀ (by linarith [hs.1]) (by linarith [hs.2]) p) r ⟨hr.1, le_rfl⟩
    have e0 : ∑ i ∈ Finset.range (p + 1), ((0 : ℝ) ^ i / (i.factorial : ℝ)) • d i a = d 0 a := by
      rw [Finset.sum_range_succ']
      simp
    simp only [sub_self, e0, sub_zero] at key
    exact key.trans (le_of_eq (by ring))

/-! ### Families of vectors of order `h^n` -/

/-- `v (s, h)` is of order `h^n`, uniformly on `D`. -/
def BO (D : Set (ℝ × ℝ)) (n : ℕ) (v : ℝ × ℝ → E) : Prop := ∃ C, 0 ≤ C ∧ ∀ p ∈ D, ‖v p‖ ≤ C * p.2 ^ n

variable {D : Set (ℝ × ℝ)} {n k : ℕ} {v w : ℝ × ℝ → E}

theorem BO.congr (hv : BO D n v) (h : ∀ p ∈ D, w p = v p) : BO D n w := by
  obtain ⟨C, hC, hb⟩ := hv
  exact ⟨C, hC, fun p hp => by rw [h p hp]; exact hb p hp⟩

theorem BO.add (hv : BO D n v) (hw : BO D n w) : BO D n (fun p => v p + w p) := by
  obtain ⟨C, hC, hb⟩ := hv
  obtain ⟨C', hC', hb'⟩ := hw
  refine ⟨C + C', by positivity, fun p hp => (norm_add_le _ _).trans ?_⟩
  rw [add_mul]
  exact add_le_add (hb p hp) (hb' p hp)

theorem BO.const (c : ℝ) (hv : BO D n v) : BO D n (fun p => c • v p) := by
  obtain ⟨C, hC, hb⟩ := hv
  refine ⟨|c| * C, by positivity, fun p hp => ?_⟩
  rw [norm_smul, Real.norm_eq_abs, mul_assoc]
  exact mul_le_mul_of_nonneg_left (hb p hp) (abs_nonneg c)

theorem BO.neg (hv : BO D n v) : BO D n (fun p => - v p) := by
  obtain ⟨C, hC, hb⟩ := hv
  exact ⟨C, hC, fun p hp => by rw [norm_neg]; exact hb p hp⟩

theorem BO.sub (hv : BO D n v) (hw : BO D n w) : BO D n (fun p => v p - w p) := by
  simpa only [sub_eq_add_neg] using hv.add hw.neg

/-- Multiplying by `h^k` raises the order by `k`. -/
theorem BO.hpow (hD : ∀ p ∈ D, 0 ≤ p.2) (k : ℕ) (hv : BO D n v) : BO D (n + k) (fun p => p.2 ^ k • v p) := by
  obtain ⟨C, hC, hb⟩ := hv
  refine ⟨C, hC, fun p hp => ?_⟩
  have h0 := hD p hp
  rw [norm_smul, Real.norm_of_nonneg (pow_nonneg h0 k), pow_add]
  have := mul_le_mul_of_nonneg_left (hb p hp) (pow_nonneg h0 k)
  linarith

/-- Lower orders are weaker. -/
theorem BO.mono (hD : ∀ p ∈ D, 0 ≤ p.2 ∧ p.2 ≤ 1) (hkn : k ≤ n) (hv : BO D n v) : BO D k v := by
  obtain ⟨C, hC, hb⟩ := hv
  refine ⟨C, hC, fun p hp => (hb p hp).trans (mul_le_mul_of_nonneg_left ?_ hC)⟩
  exact pow_le_pow_of_le_one (hD p hp).1 (hD p hp).2 hkn

/-- Applying a family of maps of order `h^k`. -/
theorem BO.clm {J : ℝ × ℝ → E →L[ℝ] E} (hJ : BO D k J) (hv : BO D n v) (hD : ∀ p ∈ D, 0 ≤ p.2) : BO D (k + n) (fun p => J p (v p)) := by
  obtain ⟨C, hC, hb⟩ := hv
  obtain ⟨M, hM, hm⟩ := hJ
  refine ⟨M * C, by positivity, fun p hp => ((J p).le_opNorm _).trans ?_⟩
  refine (mul_le_mul (hm p hp) (hb p hp) (norm_nonneg _) (mul_nonneg hM (pow_nonneg (hD p hp) k))).trans (le_of_eq ?_)
  rw [pow_add]; ring

/-- A quadratic remainder. -/
theorem BO.quad {K : ℝ} (hK : 0 ≤ K) (hv : BO D n v) (hq : ∀ p ∈ D, ‖w p‖ ≤ K * ‖v p‖ ^ 2) : BO D (2 * n) w := by
  obtain ⟨C, hC, hb⟩ := hv
  refine ⟨K * C ^ 2, by positivity, fun p hp => (hq p hp).trans ?_⟩
  have := pow_le_pow_left₀ (norm_nonneg _) (hb p hp) 2
  refine (mul_le_mul_of_nonneg_left this hK).trans (le_of_eq ?_)
  rw [mul_pow, ← pow_mul, mul_comm n 2, mul_assoc]

/-! ### Local errors -/

/-- The exact solution `d 0` has `n` derivatives `d 1, …, d n` on `[t, t + T]`, of which the last is bounded. -/
structure Chain (d : ℕ → ℝ → E) (n : ℕ) (t T : ℝ) : Prop where
  deriv : ∀ i < n, ∀ s ∈ Icc t (t + T), HasDerivWithinAt (d i) (d (i + 1) s) (Icc t (t + T)) s
  bound : ∀ i ≤ n, ∃ V, ∀ s ∈ Icc t (t + T), ‖d i s‖ ≤ V

/-- The steps within `[t, t + T]`: starting time and size. -/
def stepsIn (t T : ℝ) : Set (ℝ × ℝ) := {p | p.1 ∈ Icc t (t + T) ∧ p.1 + p.2 ∈ Icc t (t + T) ∧ 0 ≤ p.2 ∧ p.2 ≤ 1}

theorem stepsIn_nonneg {t T : ℝ} : ∀ p ∈ stepsIn t T, 0 ≤ p.2 := fun _ hp => hp.2.2.1

theorem stepsIn_unit {t T : ℝ} : ∀ p ∈ stepsIn t T, 0 ≤ p.2 ∧ p.2 ≤ 1 := fun _ hp => hp.2.2

/-- Taylor's formula at a fraction `θ` of a step, for the derivative of order `i` up to order `h^j`. -/
theorem Chain.taylor {d : ℕ → ℝ → E} {n : ℕ} {t T : ℝ} (hc : Chain d n t T) (i j : ℕ) (hij : i + j ≤ n) (θ : ℝ) (h0 : 0 ≤ θ)
    (h1 : θ ≤ 1) :
    BO (stepsIn t T) j (fun p => d i (p.1 + θ * p.2) - ∑ l ∈ Finset.range j, ((θ * p.2) ^ l / l.factorial) • d (i + l) p.1) := by
  obtain ⟨V, hV⟩ := hc.bound (i + j) hij
  refine ⟨|V|, abs_nonneg V, fun p hp => ?_⟩
  obtain ⟨hs, hsh, hp0, hp1⟩ := hp
  have hth : 0 ≤ θ * p.2 := by positivity
  have hth1 : θ * p.2 ≤ p.2 := by nlinarith
  have hsub : Icc p.1 (p.1 + p.2) ⊆ Icc t (t + T) := Icc_subset_Icc hs.1 hsh.2
  have key := taylor_chain (V := |V|) (a := p.1) (b := p.1 + p.2) j (fun l => d (i + l))
    (fun l hl s hs' => (hc.deriv (i + l) (by omega) s (hsub hs')).mono hsub)
    (fun s hs' => (hV s (hsub hs')).trans (le_abs_self V)) (p.1 + θ * p.2) ⟨by linarith, by linarith⟩
  simp only [add_sub_cancel_left, add_zero] at key
  refine key.trans (mul_le_mul_of_nonneg_left ?_ (abs_nonneg V))
  exact pow_le_pow_left₀ hth hth1 j

/-- `J s` is the linearisation of `f s` at the solution `d 0 s`, with a quadratic remainder; it is Lipschitz in `s`. -/
structure Linearised (f : ℝ → E → E) (d : ℕ → ℝ → E) (J : ℝ → E →L[ℝ] E) (t T : ℝ) : Prop where
  bound : ∃ M, ∀ s ∈ Icc t (t + T), ‖J s‖ ≤ M
  lip : ∃ M, ∀ s ∈ Icc t (t + T), ∀ r ∈ Icc t (t + T), s ≤ r → ‖J s - J r‖ ≤ M * (r - s)
  quad : ∃ K, ∀ s ∈ Icc t (t + T), ∀ e, ‖f s (d 0 s + e) - d 1 s - J s e‖ ≤ K * ‖e‖ ^ 2

variable {f : ℝ → E → E} {d : ℕ → ℝ → E} {J : ℝ → E →L[ℝ] E} {t T : ℝ}

theorem Linearised.at {θ : ℝ} (hl : Linearised f d J t T) (h0 : 0 ≤ θ) (h1 : θ ≤ 1) : BO (stepsIn t T) 0 (fun p => J (p.1 + θ * p.2)) := by
  obtain ⟨M, hM⟩ := hl.bound
  refine ⟨|M|, abs_nonneg M, fun p hp => ?_⟩
  obtain ⟨hs, hsh, hp0, hp1⟩ := hp
  rw [pow_zero, mul_one]
  exact (hM _ ⟨by nlinarith [hs.1, mul_nonneg h0 hp0], by nlinarith [hsh.2]⟩).trans (le_abs_self M)

theorem Linearised.diff (hl : Linearised f d J t T) :
    BO (stepsIn t T) 1 (fun p => J (p.1 + 1 / 2 * p.2) - J (p.1 + 1 * p.2)) := by
  obtain ⟨M, hM⟩ := hl.lip
  refine ⟨|M|, abs_nonneg M, fun p hp => ?_⟩
  obtain ⟨hs, hsh, hp0, hp1⟩ := hp
  refine (hM _ ⟨by linarith [hs.1], by linarith [hsh.2]⟩ _ ⟨by linarith [hs.1], by linarith [hsh.2]⟩ (by linarith)).trans ?_
  rw [pow_one]
  have : M * (p.1 + 1 * p.2 - (p.1 + 1 / 2 * p.2)) = M * (p.2 / 2) := by ring
  rw [this]
  have := mul_le_mul_of_nonneg_right (le_abs_self M) (show 0 ≤ p.2 / 2 by linarith)
  have := mul_nonneg (abs_nonneg M) hp0
  nlinarith

theorem Linearised.rem {θ : ℝ} (hl : Linearised f d J t T) (h0 : 0 ≤ θ) (h1 : θ ≤ 1) {y : ℝ × ℝ → E} {n : ℕ}
    (he : BO (stepsIn t T) n (fun p => y p - d 0 (p.1 + θ * p.2))) :
    BO (stepsIn t T) (2 * n) (fun p => f (p.1 + θ * p.2) (y p) - d 1 (p.1 + θ * p.2) -
      J (p.1 + θ * p.2) (y p - d 0 (p.1 + θ * p.2))) := by
  obtain ⟨K, hK⟩ := hl.quad
  refine BO.quad (K := |K|) (abs_nonneg K) he fun p hp => ?_
  obtain ⟨hs, hsh, hp0, hp1⟩ := hp
  have := hK (p.1 + θ * p.2) ⟨by nlinarith [hs.1, mul_nonneg h0 hp0], by nlinarith [hsh.2]⟩ (y p - d 0 (p.1 + θ * p.2))
  rw [add_sub_cancel] at this
  exact this.trans (mul_le_mul_of_nonneg_right (le_abs_self K) (by positivity))

/-- Forward Euler. -/
theorem local_euler (hc : Chain d 2 t T) (hd : ∀ s ∈ Icc t (t + T), d 1 s = f s (d 0 s)) :
    BO (stepsIn t T) 2 (fun p => d 0 (p.1 + p.2) - (d 0 p.1 + p.2 • incr f p.1 p.2 (d 0 p.1) .forwardEuler)) := by
  refine (hc.taylor 0 2 le_rfl 1 zero_le_one le_rfl).congr fun p hp => ?_
  simp only [incr, ← hd p.1 hp.1, Finset.sum_range_succ, Finset.sum_range_zero, Nat.factorial, one_mul]
  norm_num

/-- The third-order method. -/
theorem local_rk3 (hc : Chain d 4 t T) (hd : ∀ s ∈ Icc t (t + T), d 1 s = f s (d 0 s)) (hl : Linearised f d J t T) :
    BO (stepsIn t T) 4 (fun p => d 0 (p.1 + p.2) - (d 0 p.1 + p.2 • incr f p.1 p.2 (d 0 p.1) .rk3)) := by
  have hD := stepsIn_nonneg (t := t) (T := T)
  have hU := stepsIn_unit (t := t) (T := T)
  have hh0 : (0 : ℝ) ≤ 1 / 2 := by norm_num
  have hh1 : (1 / 2 : ℝ) ≤ 1 := by norm_num
  -- second stage
  set k2 : ℝ × ℝ → E := fun p => f (p.1 + 1 / 2 * p.2) (d 0 p.1 + (p.2 / 2) • d 1 p.1) with hk2
  set e2 : ℝ × ℝ → E := fun p => d 0 p.1 + (p.2 / 2) • d 1 p.1 - d 0 (p.1 + 1 / 2 * p.2) with he2
  have b2' : BO (stepsIn t T) 3 (fun p => e2 p + (p.2 ^ 2 / 8) • d 2 p.1) :=
    (hc.taylor 0 3 (by norm_num) (1 / 2) hh0 hh1).neg.congr fun p _ => by
      simp only [he2, Finset.sum_range_succ, Finset.sum_range_zero, Nat.factorial]
      norm_num
      module
  have b2 : BO (stepsIn t T) 2 e2 :=
    (hc.taylor 0 2 (by norm_num) (1 / 2) hh0 hh1).neg.congr fun p _ => by
      simp only [he2, Finset.sum_range_succ, Finset.sum_range_zero, Nat.factorial]
      norm_num
      module
  have q2 := hl.rem hh0 hh1 b2
  set Q2 : ℝ × ℝ → E := fun p => f (p.1 + 1 / 2 * p.2) (d 0 p.1 + (p.2 / 2) • d 1 p.1) - d 1 (p.1 + 1 / 2 * p.2) -
      J (p.1 + 1 / 2 * p.2) (e2 p) with hQ2
  have q2' : BO (stepsIn t T) 4 Q2 := q2
  have ek2 : ∀ p, k2 p = d 1 (p.1 + 1 / 2 * p.2) + J (p.1 + 1 / 2 * p.2) (e2 p) + Q2 p := fun p => by
    simp only [hk2, hQ2]; abel
  have jh := hl.at hh0 hh1
  have j1 := hl.at zero_le_one le_rfl
  -- third stage
  set k3 : ℝ × ℝ → E := fun p => f (p.1 + 1 * p.2) (d 0 p.1 + p.2 • ((2 : ℝ) • k2 p - d 1 p.1)) with hk3
  set e3 : ℝ × ℝ → E := fun p => d 0 p.1 + p.2 • ((2 : ℝ) • k2 p - d 1 p.1) - d 0 (p.1 + 1 * p.2) with he3
  have b3' : BO (stepsIn t T) 3 (fun p => e3 p - (p.2 ^ 2 / 2) • d 2 p.1) := by
    have a1 := ((hc.taylor 1 2 (by norm_num) (1 / 2) hh0 hh1).hpow hD 1).const 2
    have a2 := hc.taylor 0 3 (by norm_num) 1 zero_le_one le_rfl
    have a3 := (((jh.clm b2 hD).hpow hD 1).const 2)
    have a4 := (((q2'.mono hU (show 2 ≤ 4 by norm_num)).hpow hD 1).const 2)
    refine (((a1.sub a2).add a3).add a4).congr fun p _ => ?_
    simp only [he3, ek2, Finset.sum_range_succ, Finset.sum_range_zero, Nat.factorial]
    norm_num
    module
  have bd2 : BO (stepsIn t T) 2 (fun p => (p.2 ^ 2 / 2) • d 2 p.1) := by
    obtain ⟨V, hV⟩ := hc.bound 2 (by norm_num)
    have : BO (stepsIn t T) 0 (fun p => d 2 p.1) :=
      ⟨|V|, abs_nonneg V, fun p hp => by rw [pow_zero, mul_one]; exact (hV _ hp.1).trans (le_abs_self V)⟩
    refine ((this.hpow hD 2).const (1 / 2)).congr fun p _ => ?_
    module
  have b3 : BO (stepsIn t T) 2 e3 := ((b3'.mono hU (show 2 ≤ 3 by norm_num)).add bd2).congr fun p _ => by module
  have q3 := hl.rem zero_le_one le_rfl b3
  set Q3 : ℝ × ℝ → E := fun p => f (p.1 + 1 * p.2) (d 0 p.1 + p.2 • ((2 : ℝ) • k2 p - d 1 p.1)) - d 1 (p.1 + 1 * p.2) -
      J (p.1 + 1 * p.2) (e3 p) with hQ3
  have q3' : BO (stepsIn t T) 4 Q3 := q3
  have ek3 : ∀ p, k3 p = d 1 (p.1 + 1 * p.2) + J (p.1 + 1 * p.2) (e3 p) + Q3 p := fun p => by
    simp only [hk3, hQ3]; abel
  -- the terms with the linearisation cancel
  have bs : BO (stepsIn t T) 3 (fun p => (4 : ℝ) • e2 p + e3 p) := ((b2'.const 4).add b3').congr fun p _ => by module
  have bj : BO (stepsIn t T) 3 (fun p => (4 : ℝ) • J (p.1 + 1 / 2 * p.2) (e2 p) + J (p.1 + 1 * p.2) (e3 p)) := by
    have a1 := jh.clm bs hD
    have a2 := hl.diff.clm b3 hD
    refine (a1.mono (k := 3) hU (by norm_num)).sub (a2.mono (k := 3) hU (by norm_num)) |>.congr fun p _ => ?_
    simp only [map_add, map_smul, ContinuousLinearMap.sub_apply]
    module
  -- Simpson's rule
  have s1 := hc.taylor 0 4 (by norm_num) 1 zero_le_one le_rfl
  have s2 := ((hc.taylor 1 3 (by norm_num) (1 / 2) hh0 hh1).hpow hD 1).const (4 / 6)
  have s3 := ((hc.taylor 1 3 (by norm_num) 1 zero_le_one le_rfl).hpow hD 1).const (1 / 6)
  have s4 := (bj.hpow hD 1).const (1 / 6)
  have s5 := ((q2'.mono hU (show 3 ≤ 4 by norm_num)).hpow hD 1).const (4 / 6)
  have s6 := ((q3'.mono hU (show 3 ≤ 4 by norm_num)).hpow hD 1).const (1 / 6)
  refine (((((s1.sub s2).sub s3).sub s4).sub s5).sub s6).congr fun p hp => ?_
  have ei : incr f p.1 p.2 (d 0 p.1) .rk3 = (1 / 6 : ℝ) • (d 1 p.1 + (4 : ℝ) • k2 p + k3 p) := by
    have r1 : p.1 + p.2 / 2 = p.1 + 1 / 2 * p.2 := by ring
    have r2 : p.1 + p.2 = p.1 + 1 * p.2 := by ring
    simp only [incr, ← hd p.1 hp.1, hk3, hk2]
    rw [r1]
    conv_lhs => rw [r2]
  rw [ei, ek2, ek3]
  have r2 : p.1 + p.2 = p.1 + 1 * p.2 := by ring
  simp only [r2, Finset.sum_range_succ, Finset.sum_range_zero, Nat.factorial]
  norm_num
  module

/-- The fourth-order method. -/
theorem local_rk4 (hc : Chain d 5 t T) (hd : ∀ s ∈ Icc t (t + T), d 1 s = f s (d 0 s)) (hl : Linearised f d J t T) :
    BO (stepsIn t T) 5 (fun p => d 0 (p.1 + p.2) - (d 0 p.1 + p.2 • incr f p.1 p.2 (d 0 p.1) .rk4)) := by
  have hD := stepsIn_nonneg (t := t) (T := T)
  have hU := stepsIn_unit (t := t) (T := T)
  have hh0 : (0 : ℝ) ≤ 1 / 2 := by norm_num
  have hh1 : (1 / 2 : ℝ) ≤ 1 := by norm_num
  have jh := hl.at hh0 hh1
  have j1 := hl.at zero_le_one le_rfl
  have bd : ∀ i ≤ 5, BO (stepsIn t T) 0 (fun p => d i p.1) := fun i hi => by
    obtain ⟨V, hV⟩ := hc.bound i hi
    exact ⟨|V|, abs_nonneg V, fun p hp => by rw [pow_zero, mul_one]; exact (hV _ hp.1).trans (le_abs_self V)⟩
  -- second stage
  set k2 : ℝ × ℝ → E := fun p => f (p.1 + 1 / 2 * p.2) (d 0 p.1 + (p.2 / 2) • d 1 p.1) with hk2
  set e2 : ℝ × ℝ → E := fun p => d 0 p.1 + (p.2 / 2) • d 1 p.1 - d 0 (p.1 + 1 / 2 * p.2) with he2
  have b2' : BO (stepsIn t T) 4 (fun p => e2 p + (p.2 ^ 2 / 8) • d 2 p.1 + (p.2 ^ 3 / 48) • d 3 p.1) :=
    (hc.taylor 0 4 (by norm_num) (1 / 2) hh0 hh1).neg.congr fun p _ => by
      simp only [he2, Finset.sum_range_succ, Finset.sum_range_zero, Nat.factorial]
      norm_num
      module
  have b2 : BO (stepsIn t T) 2 e2 :=
    (hc.taylor 0 2 (by norm_num) (1 / 2) hh0 hh1).neg.congr fun p _ => by
      simp only [he2, Finset.sum_range_succ, Finset.sum_range_zero, Nat.factorial]
      norm_num
      module
  have q2 := hl.rem hh0 hh1 b2
  set Q2 : ℝ × ℝ → E := fun p => f (p.1 + 1 / 2 * p.2) (d 0 p.1 + (p.2 / 2) • d 1 p.1) - d 1 (p.1 + 1 / 2 * p.2) -
      J (p.1 + 1 / 2 * p.2) (e2 p) with hQ2
  have q2' : BO (stepsIn t T) 4 Q2 := q2
  have ek2 : ∀ p, k2 p = d 1 (p.1 + 1 / 2 * p.2) + J (p.1 + 1 / 2 * p.2) (e2 p) + Q2 p := fun p => by
    simp only [hk2, hQ2]; abel
  -- third stage
  set k3 : ℝ × ℝ → E := fun p => f (p.1 + 1 / 2 * p.2) (d 0 p.1 + (p.2 / 2) • k2 p) with hk3
  set e3 : ℝ × ℝ → E := fun p => d 0 p.1 + (p.2 / 2) • k2 p - d 0 (p.1 + 1 / 2 * p.2) with he3
  have b3' : BO (stepsIn t T) 4 (fun p => e3 p - (p.2 ^ 2 / 8) • d 2 p.1 - (p.2 ^ 3 / 24) • d 3 p.1 -
      (p.2 / 2) • J (p.1 + 1 / 2 * p.2) (e2 p)) := by
    have a1 := ((hc.taylor 1 3 (by norm_num) (1 / 2) hh0 hh1).hpow hD 1).const (1 / 2)
    have a2 := hc.taylor 0 4 (by norm_num) (1 / 2) hh0 hh1
    have a4 := (((q2'.mono hU (show 3 ≤ 4 by norm_num)).hpow hD 1).const (1 / 2))
    refine ((a1.sub a2).add a4).congr fun p _ => ?_
    simp only [he3, ek2, Finset.sum_range_succ, Finset.sum_range_zero, Nat.factorial]
    norm_num
    module
  have b3 : BO (stepsIn t T) 2 e3 := by
    have a1 := ((bd 2 (by norm_num)).hpow hD 2).const (1 / 8)
    have a2 := (((bd 3 (by norm_num)).hpow hD 3).const (1 / 24)).mono (k := 2) hU (by norm_num)
    have a3 := (((jh.clm b2 hD).hpow hD 1).const (1 / 2)).mono (k := 2) hU (by norm_num)
    refine ((((b3'.mono (k := 2) hU (by norm_num)).add a1).add a2).add a3).congr fun p _ => ?_
    module
  have q3 := hl.rem hh0 hh1 b3
  set Q3 : ℝ × ℝ → E := fun p => f (p.1 + 1 / 2 * p.2) (d 0 p.1 + (p.2 / 2) • k2 p) - d 1 (p.1 + 1 / 2 * p.2) -
      J (p.1 + 1 / 2 * p.2) (e3 p) with hQ3
  have q3' : BO (stepsIn t T) 4 Q3 := q3
  have ek3 : ∀ p, k3 p = d 1 (p.1 + 1 / 2 * p.2) + J (p.1 + 1 / 2 * p.2) (e3 p) + Q3 p := fun p => by
    simp only [hk3, hQ3]; abel
  -- fourth stage
  set k4 : ℝ × ℝ → E := fun p => f (p.1 + 1 * p.2) (d 0 p.1 + p.2 • k3 p) with hk4
  set e4 : ℝ × ℝ → E := fun p => d 0 p.1 + p.2 • k3 p - d 0 (p.1 + 1 * p.2) with he4
  have b4' : BO (stepsIn t T) 4 (fun p => e4 p + (p.2 ^ 3 / 24) • d 3 p.1 - p.2 • J (p.1 + 1 / 2 * p.2) (e3 p)) := by
    have a1 := (hc.taylor 1 3 (by norm_num) (1 / 2) hh0 hh1).hpow hD 1
    have a2 := hc.taylor 0 4 (by norm_num) 1 zero_le_one le_rfl
    have a4 := (q3'.mono hU (show 3 ≤ 4 by norm_num)).hpow hD 1
    refine ((a1.sub a2).add a4).congr fun p _ => ?_
    simp only [he4, ek3, Finset.sum_range_succ, Finset.sum_range_zero, Nat.factorial]
    norm_num
    module
  have b4 : BO (stepsIn t T) 2 e4 := by
    have a2 := (((bd 3 (by norm_num)).hpow hD 3).const (1 / 24)).mono (k := 2) hU (by norm_num)
    have a3 := ((jh.clm b3 hD).hpow hD 1).mono (k := 2) hU (by norm_num)
    refine (((b4'.mono (k := 2) hU (by norm_num)).sub a2).add a3).congr fun p _ => ?_
    module
  have q4 := hl.rem zero_le_one le_rfl b4
  set Q4 : ℝ × ℝ → E := fun p => f (p.1 + 1 * p.2) (d 0 p.1 + p.2 • k3 p) - d 1 (p.1 + 1 * p.2) -
      J (p.1 + 1 * p.2) (e4 p) with hQ4
  have q4' : BO (stepsIn t T) 4 Q4 := q4
  have ek4 : ∀ p, k4 p = d 1 (p.1 + 1 * p.2) + J (p.1 + 1 * p.2) (e4 p) + Q4 p := fun p => by
    simp only [hk4, hQ4]; abel
  -- the terms with the linearisation cancel
  have bs' : BO (stepsIn t T) 4 (fun p => e2 p + e3 p - (p.2 ^ 3 / 48) • d 3 p.1 - (p.2 / 2) • J (p.1 + 1 / 2 * p.2) (e2 p)) :=
    (b2'.add b3').congr fun p _ => by module
  have bs : BO (stepsIn t T) 3 (fun p => e2 p + e3 p) := by
    have a2 := ((bd 3 (by norm_num)).hpow hD 3).const (1 / 48)
    have a3 := (((jh.clm b2 hD).hpow hD 1).const (1 / 2)).mono (k := 3) hU (by norm_num)
    refine (((bs'.mono (k := 3) hU (by norm_num)).add (a2.mono (k := 3) hU (by norm_num))).add a3).congr fun p _ => ?_
    module
  have bj : BO (stepsIn t T) 4 (fun p => (2 : ℝ) • J (p.1 + 1 / 2 * p.2) (e2 p + e3 p) + J (p.1 + 1 * p.2) (e4 p)) := by
    have a1 := ((hl.diff.clm (bd 3 (by norm_num)) hD).hpow hD 3).const (1 / 24)
    have a2 := (jh.clm (jh.clm bs hD) hD).hpow hD 1
    have a3 := (hl.diff.clm (jh.clm b3 hD) hD).hpow hD 1
    have a4 := (jh.clm bs' hD).const 2
    have a5 := j1.clm b4' hD
    refine (((((a1.mono (k := 4) hU (by norm_num)).add (a2.mono (k := 4) hU (by norm_num))).sub
      (a3.mono (k := 4) hU (by norm_num))).add (a4.mono (k := 4) hU (by norm_num))).add
      (a5.mono (k := 4) hU (by norm_num))).congr fun p _ => ?_
    simp only [map_add, map_smul, map_sub, ContinuousLinearMap.sub_apply]
    module
  -- Simpson's rule
  have s1 := hc.taylor 0 5 (by norm_num) 1 zero_le_one le_rfl
  have s2 := ((hc.taylor 1 4 (by norm_num) (1 / 2) hh0 hh1).hpow hD 1).const (4 / 6)
  have s3 := ((hc.taylor 1 4 (by norm_num) 1 zero_le_one le_rfl).hpow hD 1).const (1 / 6)
  have s4 := (bj.hpow hD 1).const (1 / 6)
  have s5 := (q2'.hpow hD 1).const (2 / 6)
  have s6 := (q3'.hpow hD 1).const (2 / 6)
  have s7 := (q4'.hpow hD 1).const (1 / 6)
  refine ((((((s1.sub s2).sub s3).sub s4).sub s5).sub s6).sub s7).congr fun p hp => ?_
  have ei : incr f p.1 p.2 (d 0 p.1) .rk4 = (1 / 6 : ℝ) • (d 1 p.1 + (2 : ℝ) • k2 p + (2 : ℝ) • k3 p + k4 p) := by
    have r1 : p.1 + p.2 / 2 = p.1 + 1 / 2 * p.2 := by ring
    have r2 : p.1 + p.2 = p.1 + 1 * p.2 := by ring
    simp only [incr, ← hd p.1 hp.1, hk4, hk3, hk2]
    rw [r1]
    conv_lhs => rw [r2]
  rw [ei, ek2, ek3, ek4]
  have r2 : p.1 + p.2 = p.1 + 1 * p.2 := by ring
  simp only [r2, Finset.sum_range_succ, Finset.sum_range_zero, Nat.factorial, map_add]
  norm_num
  module


/-! ### From local to global errors -/

/-- The defect of one step. -/
noncomputable def defect (f : ℝ → E → E) (u : ℝ → E) (m : Method) (p : ℝ × ℝ) : E :=
  u (p.1 + p.2) - (u p.1 + p.2 • incr f p.1 p.2 (u p.1) m)

theorem run_order {f : ℝ → E → E} {u : ℝ → E} {L t T : ℝ} (hL : 0 ≤ L) (hlip : ∀ s y z, ‖f s y - f s z‖ ≤ L * ‖y - z‖) (m : Method)
    {n : ℕ} (hloc : BO (stepsIn t T) (n + 1) (defect f u m)) :
    ∃ C, 0 ≤ C ∧ ∀ dt, 0 < dt → dt ≤ 1 → ∀ k : ℕ, k * dt ≤ T → ‖run f m dt t (u t) k - u (t + k * dt)‖ ≤ C * dt ^ n := by
  obtain ⟨W, hW, hdef⟩ := hloc
  have hlam : 0 ≤ lam L := by unfold lam; positivity
  refine ⟨Real.exp (lam L * |T|) * (|T| * W), by positivity, fun dt h0 h1 k hk => ?_⟩
  have hk0 : (0 : ℝ) ≤ k * dt := by positivity
  have hT : T ≤ |T| := le_abs_self T
  set η := W * dt ^ (n + 1) with hη
  have hη0 : 0 ≤ η := by positivity
  have main : ∀ n : ℕ, n ≤ k → ‖run f m dt t (u t) n - u (t + n * dt)‖ ≤ (1 + lam L * dt) ^ n * (n * η) := by
    intro n
    induction n with
    | zero => intro _; simp [run]
    | succ n ih =>
      intro hn
      have ihn := ih (by omega)
      have hnk : ((n : ℝ) + 1) * dt ≤ k * dt := by
        refine mul_le_mul_of_nonneg_right ?_ h0.le
        exact_mod_cast hn
      have hn0 : (0 : ℝ) ≤ n * dt := by positivity
      have hs : t + n * dt ∈ Icc t (t + T) := ⟨by linarith, by linarith⟩
      have hsh : t + n * dt + dt ∈ Icc t (t + T) := ⟨by linarith, by linarith⟩
      have hloc := hdef (t + n * dt, dt) ⟨hs, hsh, h0.le, h1⟩
      simp only [defect] at hloc
      rw [← hη] at hloc
      have hl := incr_lip hL hlip (t + n * dt) h0.le h1 (run f m dt t (u t) n) (u (t + n * dt)) m
      have e1 : t + ((n + 1 : ℕ) : ℝ) * dt = t + n * dt + dt := by push_cast; ring
      rw [e1]
      have e2 : run f m dt t (u t) (n + 1) - u (t + n * dt + dt) =
          (run f m dt t (u t) n - u (t + n * dt)) +
          dt • (incr f (t + n * dt) dt (run f m dt t (u t) n) m - incr f (t + n * dt) dt (u (t + n * dt)) m) -
          (u (t + n * dt + dt) - (u (t + n * dt) + dt • incr f (t + n * dt) dt (u (t + n * dt)) m)) := by
        simp only [run, smul_sub]; abel
      rw [e2]
      have n1 := norm_sub_le ((run f m dt t (u t) n - u (t + n * dt)) +
          dt • (incr f (t + n * dt) dt (run f m dt t (u t) n) m - incr f (t + n * dt) dt (u (t + n * dt)) m))
          (u (t + n * dt + dt) - (u (t + n * dt) + dt • incr f (t + n * dt) dt (u (t + n * dt)) m))
      have n2 := norm_add_le (run f m dt t (u t) n - u (t + n * dt))
          (dt • (incr f (t + n * dt) dt (run f m dt t (u t) n) m - incr f (t + n * dt) dt (u (t + n * dt)) m))
      rw [norm_smul, Real.norm_of_nonneg h0.le] at n2
      have n3 := mul_le_mul_of_nonneg_left hl h0.le
      have hq : 1 ≤ 1 + lam L * dt := by nlinarith [mul_nonneg hlam h0.le]
      have n4 : (1 + lam L * dt) * ‖run f m dt t (u t) n - u (t + n * dt)‖ ≤ (1 + lam L * dt) ^ (n + 1) * (n * η) := by
        rw [pow_succ', mul_assoc]
        exact mul_le_mul_of_nonneg_left ihn (by linarith)
      have n5 : η ≤ (1 + lam L * dt) ^ (n + 1) * η := le_mul_of_one_le_left hη0 (one_le_pow₀ hq)
      push_cast
      nlinarith
  refine (main k le_rfl).trans ?_
  have hpow : (1 + lam L * dt) ^ k ≤ Real.exp (lam L * |T|) := by
    have h2 : 1 + lam L * dt ≤ Real.exp (lam L * dt) := by linarith [Real.add_one_le_exp (lam L * dt)]
    refine (pow_le_pow_left₀ (by positivity) h2 k).trans ?_
    rw [← Real.exp_nat_mul]
    refine Real.exp_le_exp.2 ?_
    nlinarith
  have e3 : (k : ℝ) * η ≤ |T| * W * dt ^ n := by
    rw [hη, pow_succ]
    have := mul_le_mul_of_nonneg_right (hk.trans hT) (show 0 ≤ W * dt ^ n by positivity)
    nlinarith
  refine (mul_le_mul hpow e3 (by positivity) (Real.exp_pos _).le).trans (le_of_eq (by ring))

/-- If all stages of a step with `g` stay where `f` and `g` agree, both make the same step. -/
theorem incr_agree_near {f g : ℝ → E → E} {K t h : ℝ} {y : E} (h0 : 0 ≤ h) (hK : ∀ r, t ≤ r → r ≤ t + h → ∀ z, ‖g r z‖ ≤ K)
    (hfg : ∀ r, t ≤ r → r ≤ t + h → ∀ z, ‖z - y‖ ≤ h * (3 * K) → f r z = g r z) (m : Method) : incr f t h y m = incr g t h y m := by
  have he1 : t ≤ t + h := by linarith
  have n1 := hK t le_rfl he1 y
  have hK0 : 0 ≤ K := (norm_nonneg _).trans n1
  have hst : ∀ (r c : ℝ) (a : E), t ≤ r → r ≤ t + h → 0 ≤ c → c ≤ h → ‖a‖ ≤ 3 * K → f r (y + c • a) = g r (y + c • a) := by
    intro r c a hr hr' hc hch ha
    refine hfg r hr hr' _ ?_
    rw [add_sub_cancel_left, norm_smul, Real.norm_of_nonneg hc]
    exact mul_le_mul hch ha (norm_nonneg _) h0
  have hm1 : t ≤ t + h / 2 := by linarith
  have hm2 : t + h / 2 ≤ t + h := by linarith
  have h20 : 0 ≤ h / 2 := by linarith
  have h2h : h / 2 ≤ h := by linarith
  have e1 : f t y = g t y := hfg t le_rfl he1 y (by rw [sub_self, norm_zero]; positivity)
  have e2 : f (t + h / 2) (y + (h / 2) • g t y) = g (t + h / 2) (y + (h / 2) • g t y) :=
    hst _ _ _ hm1 hm2 h20 h2h (by linarith)
  have n2 := hK (t + h / 2) hm1 hm2 (y + (h / 2) • g t y)
  cases m with
  | forwardEuler => exact e1
  | rk3 =>
    have ha : ‖(2 : ℝ) • g (t + h / 2) (y + (h / 2) • g t y) - g t y‖ ≤ 3 * K := by
      refine (norm_sub_le _ _).trans ?_
      rw [norm_smul, Real.norm_of_nonneg (by norm_num : (0 : ℝ) ≤ 2)]
      linarith
    have e3 := hst (t + h) h _ he1 le_rfl h0 le_rfl ha
    simp only [incr, e1, e2, e3]
  | rk4 =>
    have e3 : f (t + h / 2) (y + (h / 2) • g (t + h / 2) (y + (h / 2) • g t y)) =
        g (t + h / 2) (y + (h / 2) • g (t + h / 2) (y + (h / 2) • g t y)) := hst _ _ _ hm1 hm2 h20 h2h (by linarith)
    have n3 := hK (t + h / 2) hm1 hm2 (y + (h / 2) • g (t + h / 2) (y + (h / 2) • g t y))
    have e4 := hst (t + h) h _ he1 le_rfl h0 le_rfl (n3.trans (by linarith))
    simp only [incr, e1, e2, e3, e4]

/-! ### Smoothness -/

/-- The exact solution of a smooth equation has one derivative more than the right-hand side. -/
theorem solution_smooth {F : ℝ × E → E} {U : Set (ℝ × E)} {u : ℝ → E} {a b : ℝ} {q : ℕ} (hab : a < b) (hF : ContDiffOn ℝ q F U)
    (hm : ∀ s ∈ Icc a b, (s, u s) ∈ U) (hu : ∀ s ∈ Icc a b, HasDerivWithinAt u (F (s, u s)) (Icc a b) s) :
    ∀ n : ℕ, n ≤ q + 1 → ContDiffOn ℝ n u (Icc a b) := by
  intro n
  induction n with
  | zero =>
    intro _
    rw [Nat.cast_zero, contDiffOn_zero]
    exact fun s hs => (hu s hs).continuousWithinAt
  | succ n ih =>
    intro hn
    have hu' := uniqueDiffOn_Icc hab
    rw [Nat.cast_add, Nat.cast_one, contDiffOn_succ_iff_derivWithin hu']
    refine ⟨fun s hs => (hu s hs).differentiableWithinAt, by simp, ?_⟩
    have h1 : ContDiffOn ℝ n (fun s => F (s, u s)) (Icc a b) := by
      refine (hF.of_le ?_).comp (contDiffOn_id.prodMk (ih (by omega))) hm
      exact_mod_cast (show n ≤ q by omega)
    exact h1.congr fun s hs => (hu s hs).derivWithin (hu' s hs)

theorem chain_of_smooth {u : ℝ → E} {t T : ℝ} (hT : 0 < T) {n : ℕ} (hu : ContDiffOn ℝ n u (Icc t (t + T))) :
    Chain (fun i => iteratedDerivWithin i u (Icc t (t + T))) n t T := by
  have hud := uniqueDiffOn_Icc (show t < t + T by linarith)
  refine ⟨fun i hi s hs => ?_, fun i hi => ?_⟩
  · have := (hu.differentiableOn_iteratedDerivWithin (by exact_mod_cast hi) hud) s hs
    have h2 := this.hasDerivWithinAt
    rwa [← iteratedDerivWithin_succ] at h2
  · exact isCompact_Icc.exists_bound_of_continuousOn (hu.continuousOn_iteratedDerivWithin (by exact_mod_cast hi) hud)

/-- A function with one continuous derivative on a compact interval is Lipschitz. -/
theorem c1_lip {E' : Type*} [NormedAddCommGroup E'] [NormedSpace ℝ E'] {w : ℝ → E'} {a b : ℝ} (hab : a < b)
    (hw : ContDiffOn ℝ 1 w (Icc a b)) : ∃ M, ∀ s ∈ Icc a b, ∀ r ∈ Icc a b, s ≤ r → ‖w s - w r‖ ≤ M * (r - s) := by
  have hud := uniqueDiffOn_Icc hab
  obtain ⟨M, hM⟩ := isCompact_Icc.exists_bound_of_continuousOn (hw.continuousOn_derivWithin hud le_rfl)
  refine ⟨M, fun s hs r hr hsr => ?_⟩
  have hsub : Icc s r ⊆ Icc a b := Icc_subset_Icc hs.1 hr.2
  rw [norm_sub_rev]
  refine norm_image_sub_le_of_norm_deriv_le_segment' (f' := derivWithin w (Icc a b)) (fun x hx => ?_) (fun x hx => ?_) r ⟨hsr, le_rfl⟩
  · exact ((hw.differentiableOn one_ne_zero x (hsub hx)).hasDerivWithinAt).mono hsub
  · exact hM x (hsub ⟨hx.1, hx.2.le⟩)

/-- The derivative of a function with one continuous derivative is bounded on compact sets. -/
theorem fderiv_bound {X Y : Type*} [NormedAddCommGroup X] [NormedSpace ℝ X] [NormedAddCommGroup Y] [NormedSpace ℝ Y] {H : X → Y}
    {U K : Set X} (hU : IsOpen U) (hH : ContDiffOn ℝ 1 H U) (hK : IsCompact K) (hsub : K ⊆ U) : ∃ M, ∀ p ∈ K, ‖fderiv ℝ H p‖ ≤ M :=
  hK.exists_bound_of_continuousOn ((hH.fderiv_of_isOpen hU (m := 0) (by simp)).continuousOn.mono hsub)

/-- Around the graph of the solution there is a compact tube within the region of smoothness. -/
theorem exists_tube [FiniteDimensional ℝ E] {U : Set (ℝ × E)} (hU : IsOpen U) {u : ℝ → E} {a b : ℝ} (hu : ContinuousOn u (Icc a b))
    (hm : ∀ s ∈ Icc a b, (s, u s) ∈ U) :
    ∃ ρ, 0 < ρ ∧ IsCompact ((fun p : ℝ × E => (p.1, u p.1 + p.2)) '' (Icc a b ×ˢ Metric.closedBall 0 ρ)) ∧
      (fun p : ℝ × E => (p.1, u p.1 + p.2)) '' (Icc a b ×ˢ Metric.closedBall 0 ρ) ⊆ U := by
  have hg : IsCompact ((fun s => (s, u s)) '' Icc a b) := isCompact_Icc.image_of_continuousOn (continuousOn_id.prodMk hu)
  obtain ⟨ρ, hρ, hsub⟩ := hg.exists_cthickening_subset_open hU (by rintro _ ⟨s, hs, rfl⟩; exact hm s hs)
  refine ⟨ρ, hρ, ?_, ?_⟩
  · haveI : ProperSpace E := FiniteDimensional.proper ℝ E
    refine (isCompact_Icc.prod (isCompact_closedBall 0 ρ)).image_of_continuousOn ?_
    refine continuousOn_fst.prodMk (ContinuousOn.add (hu.comp continuousOn_fst fun p hp => hp.1) continuousOn_snd)
  · rintro _ ⟨⟨s, e⟩, ⟨hs, he⟩, rfl⟩
    refine hsub (Metric.mem_cthickening_of_dist_le _ (s, u s) ρ _ ⟨s, hs, rfl⟩ ?_)
    have he' : ‖e‖ ≤ ρ := by simpa using he
    simp only [Prod.dist_eq, dist_self, dist_self_add_left]
    exact max_le hρ.le he'

end Local


/-! ## Theorem about the time steppers -/

variable {ι : Type*} [Fintype ι]

/-- Near the solution the right-hand side is replaced by one that is Lipschitz everywhere. -/
noncomputable def tubeRhs (f : ℝ → (ι → ℝ) → ι → ℝ) (u : ℝ → ι → ℝ) (ρ a b : ℝ) (s : ℝ) (y : ι → ℝ) : ι → ℝ :=
  f (max a (min s b)) (u (max a (min s b)) + clamp (-ρ) ρ (y - u (max a (min s b))))

omit [Fintype ι] in
theorem inRange_of_norm [Fintype ι] {ρ : ℝ} {e : ι → ℝ} (he : ‖e‖ ≤ ρ) : InRange (-ρ) ρ e := fun i =>
  abs_le.1 ((norm_le_pi_norm e i).trans he)

theorem clamp_norm {ρ : ℝ} (hρ : 0 ≤ ρ) (e : ι → ℝ) : ‖clamp (-ρ) ρ e‖ ≤ ρ :=
  (pi_norm_le_iff_of_nonneg hρ).2 fun i => abs_le.2 (clamp_range (by linarith) e i)

omit [Fintype ι] in
theorem tubeRhs_in [Fintype ι] {f : ℝ → (ι → ℝ) → ι → ℝ} {u : ℝ → ι → ℝ} {ρ a b s : ℝ} (hs : s ∈ Icc a b) (y : ι → ℝ) :
    tubeRhs f u ρ a b s y = f s (u s + clamp (-ρ) ρ (y - u s)) := by
  have : max a (min s b) = s := by rw [min_eq_left hs.2, max_eq_right hs.1]
  rw [tubeRhs, this]

theorem tubeRhs_near {f : ℝ → (ι → ℝ) → ι → ℝ} {u : ℝ → ι → ℝ} {ρ a b s : ℝ} (hs : s ∈ Icc a b) {y : ι → ℝ} (hy : ‖y - u s‖ ≤ ρ) :
    tubeRhs f u ρ a b s y = f s y := by
  rw [tubeRhs_in hs, clamp_id (inRange_of_norm hy), add_sub_cancel]

/-- **C115**, order of accuracy.  Let the right-hand side of the semi-discrete heat equation be, on an open set of times and
temperatures that contains the exact solution, a function of time and temperatures with as many continuous derivatives as the order
of the method.  Then for all small enough time steps the temperatures computed with forward Euler, with the third-order and with
the fourth-order Runge-Kutta method differ from the exact ones, at all steps up to the end of the interval, by at most a constant
times the first, third and fourth power of the time step. -/
theorem C115_order (op : Operator ι) (m : Method) (U : Set (ℝ × (ι → ℝ))) (hU : IsOpen U)
    (hF : ContDiffOn ℝ (order m) (fun p : ℝ × (ι → ℝ) => rhs op p.1 p.2) U) (t T : ℝ) (u : ℝ → ι → ℝ)
    (hm : ∀ s ∈ Icc t (t + T), (s, u s) ∈ U) (hu : ∀ s ∈ Icc t (t + T), HasDerivWithinAt u (rhs op s (u s)) (Icc t (t + T)) s) :
    ∃ C, ∃ δ > 0, ∀ dt, 0 < dt → dt ≤ δ → ∀ k : ℕ, k * dt ≤ T →
      ∃ z op', steps (some m) dt k (t, u t, op) = some (t + k * dt, z, op') ∧ ∀ i, |z i - u (t + k * dt) i| ≤ C * powerOf dt m := by
  have hord : ∀ dt, powerOf dt m = dt ^ order m := fun dt => by
    cases m <;> simp [order, powerOf]
  by_cases hT : 0 < T
  swap
  · refine ⟨0, 1, one_pos, fun dt h0 _ k hk => ?_⟩
    have hk0 : (k : ℝ) * dt ≤ 0 := by linarith
    have : k = 0 := by
      by_contra hne
      have : (0 : ℝ) < k := by exact_mod_cast Nat.pos_of_ne_zero hne
      nlinarith [mul_pos this h0]
    subst this
    exact ⟨u t, op, by simp [steps], fun i => by simp⟩
  set f := rhs op with hf
  set F : ℝ × (ι → ℝ) → ι → ℝ := fun p => f p.1 p.2 with hFd
  have hab : t < t + T := by linarith
  have huc : ContinuousOn u (Icc t (t + T)) := fun s hs => (hu s hs).continuousWithinAt
  obtain ⟨ρ, hρ, hcomp, hsubU⟩ := exists_tube hU huc hm
  set tube := (fun p : ℝ × (ι → ℝ) => (p.1, u p.1 + p.2)) '' (Icc t (t + T) ×ˢ Metric.closedBall 0 ρ) with htube
  have hin : ∀ s ∈ Icc t (t + T), ∀ y, ‖y - u s‖ ≤ ρ → (s, y) ∈ tube := fun s hs y hy =>
    ⟨(s, y - u s), ⟨hs, by simpa using hy⟩, by simp⟩
  -- bounds on the tube
  obtain ⟨B, hB⟩ := hcomp.exists_bound_of_continuousOn (hF.continuousOn.mono hsubU)
  have h1ord : 1 ≤ order m := by cases m <;> simp [order]
  have hG : ContDiffOn ℝ ((order m - 1 : ℕ)) (fderiv ℝ F) U := hF.fderiv_of_isOpen hU (by
    exact_mod_cast (show order m - 1 + 1 ≤ order m by omega))
  set H : ℝ × (ι → ℝ) → (ι → ℝ) →L[ℝ] (ι → ℝ) := fun p => (fderiv ℝ F p).comp (ContinuousLinearMap.inr ℝ ℝ (ι → ℝ)) with hH
  have hHs : ContDiffOn ℝ ((order m - 1 : ℕ)) H U := hG.clm_comp contDiffOn_const
  obtain ⟨L0, hL0⟩ := hcomp.exists_bound_of_continuousOn (hHs.continuousOn.mono hsubU)
  set L := |L0| with hLd
  have hL : ∀ p ∈ tube, ‖H p‖ ≤ L := fun p hp => (hL0 p hp).trans (le_abs_self L0)
  have hLn : 0 ≤ L := abs_nonneg _
  have hdiffF : ∀ p ∈ U, HasFDerivAt F (fderiv ℝ F p) p := fun p hp =>
    ((hF.differentiableOn (by exact_mod_cast (show order m ≠ 0 by omega))).differentiableAt (hU.mem_nhds hp)).hasFDerivAt
  have hinr : ∀ (s : ℝ) (y : ι → ℝ), HasFDerivAt (fun y : ι → ℝ => (s, y)) (ContinuousLinearMap.inr ℝ ℝ (ι → ℝ)) y := fun s y =>
    hasFDerivAt_prodMk_right s y
  have hder : ∀ s ∈ Icc t (t + T), ∀ y ∈ Metric.closedBall (u s) ρ, HasFDerivAt (f s) (H (s, y)) y := by
    intro s hs y hy
    have hp : (s, y) ∈ U := hsubU (hin s hs y (by simpa [dist_eq_norm] using hy))
    exact (hdiffF (s, y) hp).comp y (hinr s y)
  have hlipf : ∀ s ∈ Icc t (t + T), ∀ y ∈ Metric.closedBall (u s) ρ, ∀ z ∈ Metric.closedBall (u s) ρ,
      ‖f s y - f s z‖ ≤ L * ‖y - z‖ := by
    intro s hs y hy z hz
    refine (convex_closedBall (u s) ρ).norm_image_sub_le_of_norm_hasFDerivWithin_le (f' := fun y => H (s, y))
      (fun x hx => (hder s hs x hx).hasFDerivWithinAt) (fun x hx => ?_) hz hy
    exact hL _ (hin s hs x (by simpa [dist_eq_norm] using hx))
  -- the truncated right-hand side
  set g := tubeRhs f u ρ t (t + T) with hg
  have hball : ∀ (s : ℝ) (e : ι → ℝ), u s + clamp (-ρ) ρ e ∈ Metric.closedBall (u s) ρ := fun s e => by
    simpa [dist_eq_norm] using clamp_norm hρ.le e
  have hσ : ∀ s, max t (min s (t + T)) ∈ Icc t (t + T) := fun s => ⟨le_max_left _ _, max_le hab.le (min_le_right _ _)⟩
  have hglip : ∀ s y z, ‖g s y - g s z‖ ≤ L * ‖y - z‖ := by
    intro s y z
    refine (hlipf _ (hσ s) _ (hball _ _) _ (hball _ _)).trans (mul_le_mul_of_nonneg_left ?_ hLn)
    rw [add_sub_add_left_eq_sub]
    refine (clamp_lip _ _ _ _).trans (le_of_eq ?_)
    rw [sub_sub_sub_cancel_right]
  have hgB : ∀ s y, ‖g s y‖ ≤ B := fun s y =>
    hB (_, _) (hin _ (hσ s) _ (by simpa [dist_eq_norm] using hball (max t (min s (t + T))) (y - u (max t (min s (t + T))))))
  have hgu : ∀ s ∈ Icc t (t + T), g s (u s) = f s (u s) := fun s hs => tubeRhs_near hs (by simpa using hρ.le)
  -- derivatives of the solution
  have hsm := solution_smooth (F := F) hab hF hm hu (order m + 1) le_rfl
  have hch := chain_of_smooth hT hsm
  set d : ℕ → ℝ → ι → ℝ := fun i => iteratedDerivWithin i u (Icc t (t + T)) with hd
  have hd0 : d 0 = u := iteratedDerivWithin_zero
  have hd1 : ∀ s ∈ Icc t (t + T), d 1 s = g s (d 0 s) := by
    intro s hs
    rw [hd0, hgu s hs, hd]
    simp only
    rw [iteratedDerivWithin_one]
    exact (hu s hs).derivWithin (uniqueDiffOn_Icc hab s hs)
  -- the linearisation
  have hlin : 2 ≤ order m → Linearised g d (fun s => H (s, u s)) t T := by
    intro h2
    have hgr : ContDiffOn ℝ 1 (fun s => (s, u s)) (Icc t (t + T)) :=
      contDiffOn_id.prodMk (hsm.of_le (by exact_mod_cast (show 1 ≤ order m + 1 by omega)))
    have hH1 : ContDiffOn ℝ 1 H U := hHs.of_le (by exact_mod_cast (show 1 ≤ order m - 1 by omega))
    refine ⟨⟨L, fun s hs => hL _ (hin s hs _ (by simpa using hρ.le))⟩, c1_lip hab (hH1.comp hgr hm), ?_⟩
    obtain ⟨M0, hM0⟩ := fderiv_bound hU hH1 hcomp hsubU
    set M := |M0| * ‖ContinuousLinearMap.inr ℝ ℝ (ι → ℝ)‖ with hM
    have hMn : 0 ≤ M := by positivity
    have hHl : ∀ s ∈ Icc t (t + T), ∀ y ∈ Metric.closedBall (u s) ρ, ‖H (s, y) - H (s, u s)‖ ≤ M * ‖y - u s‖ := by
      intro s hs y hy
      refine (convex_closedBall (u s) ρ).norm_image_sub_le_of_norm_hasFDerivWithin_le (f := fun y => H (s, y))
        (f' := fun y => (fderiv ℝ H (s, y)).comp (ContinuousLinearMap.inr ℝ ℝ (ι → ℝ))) (fun x hx => ?_) (fun x hx => ?_)
        (Metric.mem_closedBall_self hρ.le) hy
      · have hp : (s, x) ∈ U := hsubU (hin s hs x (by simpa [dist_eq_norm] using hx))
        have h1 : HasFDerivAt H (fderiv ℝ H (s, x)) (s, x) :=
          ((hH1.differentiableOn one_ne_zero).differentiableAt (hU.mem_nhds hp)).hasFDerivAt
        exact (h1.comp x (hinr s x)).hasFDerivWithinAt
      · refine (ContinuousLinearMap.opNorm_comp_le _ _).trans (mul_le_mul_of_nonneg_right ?_ (norm_nonneg _))
        exact (hM0 _ (hin s hs x (by simpa [dist_eq_norm] using hx))).trans (le_abs_self _)
    refine ⟨M + 2 * L / ρ, fun s hs e => ?_⟩
    rw [hd1 s hs, hd0, hgu s hs]
    by_cases he : ‖e‖ ≤ ρ
    · rw [hg, tubeRhs_near hs (by simpa using he)]
      have key := (convex_closedBall (u s) ‖e‖).norm_image_sub_le_of_norm_hasFDerivWithin_le' (f := f s) (f' := fun y => H (s, y))
        (φ := H (s, u s)) (C := M * ‖e‖) (x := u s) (y := u s + e)
        (fun x hx => (hder s hs x (Metric.closedBall_subset_closedBall he hx)).hasFDerivWithinAt)
        (fun x hx => (hHl s hs x (Metric.closedBall_subset_closedBall he hx)).trans
          (mul_le_mul_of_nonneg_left (by simpa [dist_eq_norm] using hx) hMn))
        (Metric.mem_closedBall_self (norm_nonneg e)) (by simp)
      rw [add_sub_cancel_left] at key
      refine key.trans ?_
      have : 0 ≤ 2 * L / ρ * ‖e‖ ^ 2 := by positivity
      nlinarith
    · have he' : ρ ≤ ‖e‖ := (not_le.1 he).le
      have a1 : ‖g s (u s + e) - f s (u s)‖ ≤ L * ‖e‖ := by
        have := hglip s (u s + e) (u s)
        rwa [hgu s hs, add_sub_cancel_left] at this
      have a2 : ‖H (s, u s) e‖ ≤ L * ‖e‖ :=
        ((H (s, u s)).le_opNorm e).trans (mul_le_mul_of_nonneg_right (hL _ (hin s hs _ (by simpa using hρ.le))) (norm_nonneg _))
      refine (norm_sub_le _ _).trans ((add_le_add a1 a2).trans ?_)
      have h3 : ‖e‖ ≤ ‖e‖ ^ 2 / ρ := by
        rw [le_div_iff₀ hρ]
        nlinarith [norm_nonneg e]
      have h4 := mul_le_mul_of_nonneg_left h3 (show 0 ≤ 2 * L by positivity)
      have h5 : 2 * L * (‖e‖ ^ 2 / ρ) = 2 * L / ρ * ‖e‖ ^ 2 := by ring
      have h6 : 0 ≤ M * ‖e‖ ^ 2 := by positivity
      nlinarith
  have hloc : BO (stepsIn t T) (order m + 1) (defect g u m) := by
    rw [← hd0]
    cases m with
    | forwardEuler => exact local_euler hch hd1
    | rk3 => exact local_rk3 hch hd1 (hlin (by simp [order]))
    | rk4 => exact local_rk4 hch hd1 (hlin (by simp [order]))
  obtain ⟨C, hC, hrun⟩ := run_order hLn hglip m hloc
  -- the steps with the original right-hand side are the same
  have hB0 : 0 ≤ B := (norm_nonneg _).trans (hgB t (u t))
  refine ⟨C, min 1 (min (ρ / (3 * (C + 1))) (ρ / (6 * (B + 1)))), by positivity, fun dt h0 hdt k hk => ?_⟩
  have d1 : dt ≤ 1 := hdt.trans (min_le_left _ _)
  have d2 : C * dt ≤ ρ / 3 := by
    have := hdt.trans ((min_le_right _ _).trans (min_le_left _ _))
    rw [le_div_iff₀ (by positivity)] at this
    nlinarith
  have d3 : dt * (4 * B) ≤ 2 * ρ / 3 := by
    have := hdt.trans ((min_le_right _ _).trans (min_le_right _ _))
    rw [le_div_iff₀ (by positivity)] at this
    nlinarith
  have hpow : dt ^ order m ≤ dt := by
    calc dt ^ order m ≤ dt ^ 1 := pow_le_pow_of_le_one h0.le d1 h1ord
      _ = dt := pow_one dt
  have hnear : ∀ n : ℕ, n ≤ k → ‖run g m dt t (u t) n - u (t + n * dt)‖ ≤ ρ / 3 := by
    intro n hn
    have hnk : (n : ℝ) * dt ≤ k * dt := mul_le_mul_of_nonneg_right (by exact_mod_cast hn) h0.le
    exact (hrun dt h0 d1 n (hnk.trans hk)).trans ((mul_le_mul_of_nonneg_left hpow hC).trans d2)
  have hrate : ∀ s ∈ Icc t (t + T), ∀ r ∈ Icc t (t + T), s ≤ r → ‖u r - u s‖ ≤ B * (r - s) := by
    intro s hs r hr hsr
    have hsub : Icc s r ⊆ Icc t (t + T) := Icc_subset_Icc hs.1 hr.2
    refine norm_image_sub_le_of_norm_deriv_le_segment' (f' := fun x => f x (u x)) (fun x hx => (hu x (hsub hx)).mono hsub)
      (fun x hx => ?_) r ⟨hsr, le_rfl⟩
    exact hB (x, u x) (hin x (hsub ⟨hx.1, hx.2.le⟩) _ (by simpa using hρ.le))
  have hsame : ∀ n : ℕ, n ≤ k → run f m dt t (u t) n = run g m dt t (u t) n := by
    intro n
    induction n with
    | zero => intro _; rfl
    | succ n ih =>
      intro hn
      rw [run, run, ih (by omega)]
      have hnk : ((n : ℝ) + 1) * dt ≤ k * dt := mul_le_mul_of_nonneg_right (by exact_mod_cast hn) h0.le
      have hn0 : (0 : ℝ) ≤ n * dt := by positivity
      have hs : t + n * dt ∈ Icc t (t + T) := ⟨by linarith, by linarith⟩
      have hy := hnear n (by omega)
      rw [incr_agree_near h0.le (fun r _ _ z => hgB r z) (fun r a b z hz => ?_) m]
      have hr : r ∈ Icc t (t + T) := ⟨hs.1.trans a, by linarith⟩
      refine (tubeRhs_near hr ?_).symm
      have h3 := hrate _ hs r hr a
      have e : z - u r = (z - run g m dt t (u t) n) + (run g m dt t (u t) n - u (t + n * dt)) - (u r - u (t + n * dt)) := by abel
      rw [e]
      refine (norm_sub_le _ _).trans ((add_le_add ((norm_add_le _ _).trans (add_le_add hz hy)) h3).trans ?_)
      have := mul_le_mul_of_nonneg_left (show r - (t + n * dt) ≤ dt by linarith) hB0
      nlinarith
  obtain ⟨op', h⟩ := steps_eq m dt k t (u t) op
  refine ⟨_, op', h, fun i => ?_⟩
  rw [runOf_run, ← hf, hsame k le_rfl, hord]
  exact le_trans (norm_le_pi_norm (run g m dt t (u t) k - u (t + k * dt)) i) (hrun dt h0 d1 k hk)

/-! ## The assembled operator -/

section Mesh

open Verif.Material Verif.Input

variable [DecidableEq ι]

/-- The material data have `n` continuous derivatives at the temperatures in `V`. -/
structure SmoothData (m : Mesh ι) (n : ℕ) (V : Set ℝ) : Prop where
  cell : ∀ c ∈ m.cells, c.fe = 0 → ∀ q, ContDiffOn ℝ n (fun T => (c.coef q T).invRhoCp) V ∧ ContDiffOn ℝ n (fun T => (c.coef q T).kx) V ∧
    ContDiffOn ℝ n (fun T => (c.coef q T).ky) V ∧ ContDiffOn ℝ n (fun T => (c.coef q T).kz) V
  face : ∀ f ∈ m.faces, f.Exposed → ∀ q, ContDiffOn ℝ n (fun T => (f.coef q T).invRhoCp) V ∧ ContDiffOn ℝ n (fun T => (f.coef q T).conv) V ∧
    ContDiffOn ℝ n (fun T => (f.coef q T).convTinf) V ∧ ContDiffOn ℝ n (fun T => (f.coef q T).emissivity) V ∧
    ContDiffOn ℝ n (fun T => (f.coef q T).radTinf) V

/-- The temperatures at all quadrature points of the cells with material and of the exposed faces are in `V`. -/
def TemperaturesIn (m : Mesh ι) (V : Set ℝ) (y : ι → ℝ) : Prop :=
  (∀ c ∈ m.cells, c.fe = 0 → ∀ q, c.temperature m.hanging y q ∈ V) ∧ (∀ f ∈ m.faces, f.Exposed → ∀ q, f.temperature m.hanging y q ∈ V)

theorem contDiffAt_list {X α : Type*} [NormedAddCommGroup X] [NormedSpace ℝ X] {n : ℕ} (l : List α) {f : α → X → ℝ} {x : X}
    (hf : ∀ a ∈ l, ContDiffAt ℝ n (f a) x) : ContDiffAt ℝ n (fun x => (l.map fun a => f a x).sum) x := by
  induction l with
  | nil => simpa using contDiffAt_const
  | cons a l ih =>
    simp only [List.map_cons, List.sum_cons]
    exact (hf a (by simp)).add (ih fun b hb => hf b (by simp [hb]))

theorem tensor_smooth {X : Type*} [NormedAddCommGroup X] [NormedSpace ℝ X] {n : ℕ} {x : X} {kx ky kz : X → ℝ}
    (hx : ContDiffAt ℝ n kx x) (hy : ContDiffAt ℝ n ky x) (hz : ContDiffAt ℝ n kz x) (c s : ℝ) (d e : Fin 3) :
    ContDiffAt ℝ n (fun x => conductivityTensor (kx x) (ky x) (kz x) c s d e) x := by
  simp only [conductivityTensor_eq]
  have hk : ∀ r : ℝ, ContDiffAt ℝ n (fun _ : X => r) x := fun r => contDiffAt_const
  have h1 : ContDiffAt ℝ n (fun x => kx x * c * c + ky x * s * s) x :=
    ((hx.mul (hk c)).mul (hk c)).add ((hy.mul (hk s)).mul (hk s))
  have h2 : ContDiffAt ℝ n (fun x => (kx x - ky x) * s * c) x := ((hx.sub hy).mul (hk s)).mul (hk c)
  have h3 : ContDiffAt ℝ n (fun x => kx x * s * s + ky x * c * c) x :=
    ((hx.mul (hk s)).mul (hk s)).add ((hy.mul (hk c)).mul (hk c))
  fin_cases d <;> fin_cases e
  · exact h1
  · exact h2
  · exact hk 0
  · exact h2
  · exact h3
  · exact hk 0
  · exact hk 0
  · exact hk 0
  · exact hz

theorem field_smooth (m : Mesh ι) {n : ℕ} {V : Set ℝ} (hV : IsOpen V) (hs : SmoothData m n V)
    (P : ℝ → {p // p ∈ m.points} → ℝ) (p : ℝ × (ι → ℝ)) (hp : TemperaturesIn m V p.2)
    (hP : ∀ z, ContDiffAt ℝ n (fun s => P s z) p.1) (g : ι) : ContDiffAt ℝ n (fun p : ℝ × (ι → ℝ) => m.field (p.2, P p.1) g) p := by
  have hk : ∀ r : ℝ, ContDiffAt ℝ n (fun _ : ℝ × (ι → ℝ) => r) p := fun r => contDiffAt_const
  have hco : ∀ g : ι, ContDiffAt ℝ n (fun p : ℝ × (ι → ℝ) => p.2 g) p := fun g =>
    (contDiff_pi.1 contDiff_snd g).contDiffAt
  have hlin : ∀ φ : ι → ℝ, ContDiffAt ℝ n (fun p : ℝ × (ι → ℝ) => ∑ g, p.2 g * φ g) p := fun φ =>
    ContDiffAt.sum fun g _ => (hco g).mul (hk _)
  have hden : ∀ z : Fin 3 → ℝ, ContDiffAt ℝ n (fun p : ℝ × (ι → ℝ) => densityOf m (P p.1) z) p := by
    intro z
    unfold densityOf
    by_cases h : z ∈ m.points
    · simp only [h, dite_true]
      exact (hP ⟨z, h⟩).comp p contDiff_fst.contDiffAt
    · simp only [h, dite_false]
      exact hk 0
  unfold Mesh.field
  refine (hk _).mul ((ContDiffAt.add ?_ ?_).add ?_)
  · refine contDiffAt_list _ fun c hc => ?_
    obtain ⟨hc1, hc2⟩ := (mem_material m c).1 hc
    unfold Cell.weak
    refine ContDiffAt.sum fun q _ => (hk _).mul ?_
    obtain ⟨l1, l2, l3, l4⟩ := hs.cell c hc1 hc2 q
    have hT : ContDiffAt ℝ n (fun p : ℝ × (ι → ℝ) => c.temperature m.hanging p.2 q) p := hlin _
    have hn := hV.mem_nhds (hp.1 c hc1 hc2 q)
    have k1 := (l1.contDiffAt hn).comp p hT
    have k2 := (l2.contDiffAt hn).comp p hT
    have k3 := (l3.contDiffAt hn).comp p hT
    have k4 := (l4.contDiffAt hn).comp p hT
    refine ContDiffAt.mul k1 (((hden _).mul (hk _)).sub ?_)
    refine ContDiffAt.sum fun d _ => ContDiffAt.sum fun e _ => ((hk _).mul ?_).mul (hlin _)
    exact tensor_smooth k2 k3 k4 _ _ d e
  · unfold Mesh.boundaryTerm
    refine contDiffAt_list _ fun f hf => ?_
    have hf' : f ∈ m.faces ∧ f.Exposed := by simpa using hf
    unfold Face.weak Face.outflow
    refine ContDiffAt.sum fun q _ => (hk _).mul (ContDiffAt.mul ?_ (hk _))
    obtain ⟨l1, l2, l3, l4, l5⟩ := hs.face f hf'.1 hf'.2 q
    have hT : ContDiffAt ℝ n (fun p : ℝ × (ι → ℝ) => f.temperature m.hanging p.2 q) p := hlin _
    have hn := hV.mem_nhds (hp.2 f hf'.1 hf'.2 q)
    have k1 := (l1.contDiffAt hn).comp p hT
    have k2 := (l2.contDiffAt hn).comp p hT
    have k3 := (l3.contDiffAt hn).comp p hT
    have k4 := (l4.contDiffAt hn).comp p hT
    have k5 := (l5.contDiffAt hn).comp p hT
    refine ContDiffAt.mul k1.neg (ContDiffAt.add ?_ ?_)
    · by_cases h : Has (getType m.types f.id) .convective
      · simp only [h, if_true]
        exact ContDiffAt.mul k2 (hT.sub k3)
      · simp only [h, if_false]
        exact hk 0
    · by_cases h : Has (getType m.types f.id) .radiative
      · simp only [h, if_true]
        exact (k4.mul (hk _)).mul ((hT.pow 4).sub (k5.pow 4))
      · simp only [h, if_false]
        exact hk 0
  · by_cases h : m.hanging.constrained g = true
    · simp only [h, if_true]
      exact hco g
    · simp only [h]
      exact hk 0

/-- **C115**, order of accuracy of the assembled operator.  Let the temperatures of the exact solution at all quadrature points stay
in an open set `V` on which the material data have as many continuous derivatives as the order of the method (for tables and
phase changes: without the nodes, the solidus and the liquidus), with radiating and convective surfaces as well, and let the power
densities of the beams at the quadrature points be smooth in time.  Then the temperatures computed with forward Euler, the third-order and the
fourth-order Runge-Kutta method differ from the exact ones by at most a constant times the first, third and fourth power of the time
step. -/
theorem C115_order_mesh (m : Mesh ι) (hp : PureAdiabatic m.types) (meth : Method) (V : Set ℝ) (hV : IsOpen V)
    (hs : SmoothData m (order meth) V) (beams : ℝ → List Beam) (hoff : ∀ t, OffIsZero (beams t)) (a b : ℝ)
    (hP : ∀ c ∈ m.cells, c.fe = 0 → ∀ q, ContDiffOn ℝ (order meth) (fun s => power (beams s) (c.point q)) (Ioo a b))
    (t0 t T : ℝ) (ha : a < t) (hb : t + T < b) (u : ℝ → ι → ℝ) (huV : ∀ s ∈ Icc t (t + T), TemperaturesIn m V (u s))
    (hud : ∀ s ∈ Icc t (t + T), HasDerivWithinAt u (m.evaluate beams s (u s)) (Icc t (t + T)) s) :
    ∃ C, ∃ δ > 0, ∀ dt, 0 < dt → dt ≤ δ → ∀ k : ℕ, k * dt ≤ T →
      ∃ z op, steps (some meth) dt k (t, u t, m.operator beams t0) = some (t + k * dt, z, op) ∧
        ∀ i, |z i - u (t + k * dt) i| ≤ C * powerOf dt meth := by
  have hev : ∀ s y, m.evaluate beams s y = rhs (m.operator beams t0) s y := fun s y => by
    funext g; exact (evaluate_operator m beams t0 s y g).symm
  simp only [hev] at hud
  have hopen : IsOpen {y : ι → ℝ | TemperaturesIn m V y} := by
    have hcont : ∀ φ : ι → ℝ, Continuous fun y : ι → ℝ => ∑ g, y g * φ g := fun φ =>
      continuous_finset_sum _ fun g _ => (continuous_apply g).mul continuous_const
    have e : {y : ι → ℝ | TemperaturesIn m V y} =
        (⋂ c ∈ {c | c ∈ m.cells}, {y : ι → ℝ | c.fe = 0 → ∀ q, c.temperature m.hanging y q ∈ V}) ∩
        (⋂ f ∈ {f | f ∈ m.faces}, {y : ι → ℝ | f.Exposed → ∀ q, f.temperature m.hanging y q ∈ V}) := by
      ext y
      simp [TemperaturesIn]
    rw [e]
    refine IsOpen.inter ?_ ?_
    · refine (List.finite_toSet m.cells).isOpen_biInter fun c _ => ?_
      by_cases hc : c.fe = 0
      · simp only [hc, forall_const, setOf_forall]
        exact isOpen_iInter_of_finite fun q => hV.preimage (hcont _)
      · simp [hc]
    · refine (List.finite_toSet m.faces).isOpen_biInter fun f _ => ?_
      by_cases hf : f.Exposed
      · simp only [hf, forall_const, setOf_forall]
        exact isOpen_iInter_of_finite fun q => hV.preimage (hcont _)
      · simp [hf]
  refine C115_order (m.operator beams t0) meth (Ioo a b ×ˢ {y : ι → ℝ | TemperaturesIn m V y}) (isOpen_Ioo.prod hopen) ?_ t T u
    (fun s hs => ⟨⟨ha.trans_le hs.1, hs.2.trans_lt hb⟩, huV s hs⟩) hud
  intro p hpm
  refine ContDiffAt.contDiffWithinAt ?_
  rw [contDiffAt_pi]
  intro g
  simp only [rhs_field m hp beams hoff t0]
  refine field_smooth m hV hs (fun s z => power (beams s) z.1) p hpm.2 (fun z => ?_) g
  obtain ⟨c, hc, hpc⟩ := List.mem_flatMap.1 z.2
  obtain ⟨hc1, hc2⟩ := (mem_material m c).1 hc
  obtain ⟨q, hq⟩ := List.mem_ofFn.1 hpc
  have := (hP c hc1 hc2 q).contDiffAt (isOpen_Ioo.mem_nhds hpm.1)
  rwa [hq] at this

end Mesh

/-! ## Non-vacuity -/

/-- The hypotheses of `C115_order` are met by a nonlinear, time-dependent equation: `y' = -2 s y²` with the solution
`1 / (1 + s²)`. -/
example (meth : Method) : ∃ C, ∃ δ > 0, ∀ dt : ℝ, 0 < dt → dt ≤ δ → ∀ k : ℕ, k * dt ≤ 3 → ∃ z op',
    steps (some meth) dt k (0, fun _ => (1 + (0 : ℝ) ^ 2)⁻¹, (⟨fun _ _ => 0, fun s y i => -(2 * s) * y i ^ 2, fun _ => 1, 0⟩ : Operator (Fin 1))) =
      some (0 + k * dt, z, op') ∧ ∀ i, |z i - (1 + (0 + k * dt) ^ 2)⁻¹| ≤ C * powerOf dt meth := by
  have hr : ∀ (s : ℝ) (y : Fin 1 → ℝ), rhs (⟨fun _ _ => 0, fun s y i => -(2 * s) * y i ^ 2, fun _ => 1, 0⟩ : Operator (Fin 1)) s y =
      fun i => -(2 * s) * y i ^ 2 := by
    intro s y; funext i; simp [rhs]
  refine C115_order _ meth univ isOpen_univ ?_ 0 3 (fun s _ => (1 + s ^ 2)⁻¹) (fun _ _ => mem_univ _) ?_
  · simp only [hr]
    refine ContDiff.contDiffOn (contDiff_pi.2 fun i => ?_)
    exact ((contDiff_const.mul contDiff_fst).neg).mul ((contDiff_pi.1 contDiff_snd i).pow 2)
  · intro s _
    rw [hr]
    refine (hasDerivAt_pi.2 fun i => ?_).hasDerivWithinAt
    have h0 : (1 + s ^ 2 : ℝ) ≠ 0 := by positivity
    have h1 : HasDerivAt (fun s : ℝ => 1 + s ^ 2) (2 * s) s := by
      simpa using ((hasDerivAt_id s).pow 2).const_add 1
    refine (h1.inv h0).congr_deriv ?_
    field_simp

/-- One cell with one node whose heat capacity is proportional to the temperature: `1/(ρ c_p) = 1/T`. -/
noncomputable def warmCell : Cell (Fin 1) where
  fe := 0
  n := 1
  nq := 1
  dof := fun _ => 0
  shape := fun _ _ => 1
  grad := fun _ _ _ => 0
  jxw := fun _ => 1
  point := fun _ _ => 0
  cos := fun _ => 1
  sin := fun _ => 0
  coef := fun _ T => ⟨T⁻¹, 1, 1, 1⟩
  mq := 1
  mshape := fun _ _ => 1
  mjxw := fun _ => 1

/-- The hypotheses of `C115_order_mesh` are met by that cell under a beam whose power grows in time: `y' = s / y` with the solution
`√(1 + s²)`. -/
example (meth : Method) : ∃ C, ∃ δ > 0, ∀ dt : ℝ, 0 < dt → dt ≤ δ → ∀ k : ℕ, k * dt ≤ 3 → ∃ z op',
    steps (some meth) dt k (0, fun _ => √(1 + (0 : ℝ) ^ 2),
      (⟨noHanging _, [warmCell], [], []⟩ : Mesh (Fin 1)).operator (fun s => [⟨true, fun _ => s, fun _ => s⟩]) 0) =
      some (0 + k * dt, z, op') ∧ ∀ i, |z i - √(1 + (0 + k * dt) ^ 2)| ≤ C * powerOf dt meth := by
  have hc : ∀ (g' g : Fin 1), (noHanging (Fin 1)).coef g' g = 1 := by
    intro g' g
    simp [Hanging.coef, noHanging, Subsingleton.elim g' g]
  have hT : ∀ (y : Fin 1 → ℝ) (q : Fin warmCell.nq), warmCell.temperature (noHanging _) y q = y 0 := by
    intro y q
    change ∑ g : Fin 1, y g * ∑ _i : Fin 1, (1 : ℝ) * (noHanging (Fin 1)).coef 0 g = y 0
    simp [hc]
  have hv : ∀ (y : Fin 1 → ℝ) (q : Fin warmCell.nq), warmCell.value (noHanging _) y q = y 0 := by
    intro y q
    change ∑ _i : Fin 1, (1 : ℝ) * Hanging.resolve (noHanging (Fin 1)) y 0 = y 0
    simp [Hanging.resolve, hc]
  have hmass : ∀ g, (⟨noHanging _, [warmCell], [], []⟩ : Mesh (Fin 1)).mass g = 1 := by
    intro g
    simp only [Mesh.mass, List.foldl_cons, List.foldl_nil, massApply, warmCell, if_true, Hanging.distribute, hc, Hanging.resolve]
    simp [noHanging]
  have hev : ∀ (s : ℝ) (y : Fin 1 → ℝ), (⟨noHanging _, [warmCell], [], []⟩ : Mesh (Fin 1)).evaluate
      (fun s => [⟨true, fun _ => s, fun _ => s⟩]) s y = fun _ => s * (y 0)⁻¹ := by
    intro s y
    funext g
    rw [Mesh.evaluate, Mesh.invMass, hmass]
    have e : adiabaticOnly ([] : List ℕ) = true := by decide
    have hs : ∀ q : Fin warmCell.nq, warmCell.source (noHanging _) [⟨true, fun _ => s, fun _ => s⟩] y q = s * (y 0)⁻¹ := by
      intro q
      simp only [Cell.source, hv]
      simp [warmCell]
    simp only [Mesh.vmultAdd, List.foldl_cons, List.foldl_nil, e, if_true]
    have hn : (noHanging (Fin 1)).constrained g = false := rfl
    have hf : warmCell.fe = 0 := rfl
    simp only [hn, cellApply, hf, if_true, Hanging.distribute, Cell.entry, sourcesOn, List.foldl_cons, List.foldl_nil, hs, hc]
    change (if false = true then _ else ((0 : ℝ) + ∑ _i : Fin 1, 1 * ∑ q : Fin 1, (s * (y 0)⁻¹ * 1 +
      ∑ d, warmCell.flux (noHanging (Fin 1)) y (show Fin warmCell.nq from q) d * 0) * 1)) * (1 / 1) = s * (y 0)⁻¹
    simp
  refine C115_order_mesh _ (by intro t ht; simp at ht) meth (Ioi 0) isOpen_Ioi ⟨?_, ?_⟩ _ ?_ (-1) 4 ?_ 0 0 3 (by norm_num) (by norm_num)
    (fun s _ => √(1 + s ^ 2)) ?_ ?_
  · intro c hcm _ q
    obtain rfl : c = warmCell := by simpa using hcm
    refine ⟨?_, contDiffOn_const, contDiffOn_const, contDiffOn_const⟩
    exact contDiffOn_id.inv fun x hx => (ne_of_gt hx)
  · intro f hf; simp at hf
  · intro t b hb hoff
    obtain rfl : b = ⟨true, fun _ => t, fun _ => t⟩ := by simpa using hb
    simp at hoff
  · intro c _ _ q
    simp only [power, List.map_cons, List.map_nil, List.sum_cons, List.sum_nil, add_zero]
    exact contDiffOn_id
  · intro s _
    refine ⟨fun c hcm _ q => ?_, fun f hf => by simp at hf⟩
    obtain rfl : c = warmCell := by simpa using hcm
    change warmCell.temperature (noHanging _) (fun _ => √(1 + s ^ 2)) q ∈ Ioi 0
    rw [hT]
    exact Real.sqrt_pos.2 (by positivity)
  · intro s _
    rw [hev]
    refine (hasDerivAt_pi.2 fun i => ?_).hasDerivWithinAt
    have h0 : (1 + s ^ 2 : ℝ) ≠ 0 := by positivity
    have h1 : HasDerivAt (fun s : ℝ => 1 + s ^ 2) (2 * s) s := by
      simpa using ((hasDerivAt_id s).pow 2).const_add 1
    refine (h1.sqrt h0).congr_deriv ?_
    have : √(1 + s ^ 2) ≠ 0 := (Real.sqrt_pos.2 (by positivity)).ne'
    field_simp

end Verif.Assembly
