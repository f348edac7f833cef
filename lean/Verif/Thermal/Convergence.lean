import Verif.Thermal.Energy
import Mathlib.Analysis.Calculus.MeanValue
import Mathlib.Analysis.Calculus.Deriv.Pow
import Mathlib.Analysis.SpecialFunctions.Exp
import Mathlib.Algebra.Order.Floor.Semiring
import Mathlib.Data.Real.Archimedean

/-!
# C115: the computed temperatures converge as the time step shrinks

The time steppers of C40 (`source/ThermalPhysics.templates.hh:449-471, 859-888`) against the exact solution of the
semi-discrete heat equation they integrate.
-/

namespace Verif.Assembly

open Verif.Thermal (Operator evolve steps rhs Method)
open Set

section Steps

variable {E : Type*} [NormedAddCommGroup E] [NormedSpace ℝ E]

/-- The slope a method steps with. -/
noncomputable def incr (f : ℝ → E → E) (t h : ℝ) (y : E) : Method → E
  | .forwardEuler => f t y
  | .rk3 =>
    let k1 := f t y
    let k2 := f (t + h / 2) (y + (h / 2) • k1)
    let k3 := f (t + h) (y + h • ((2 : ℝ) • k2 - k1))
    (1 / 6 : ℝ) • (k1 + (4 : ℝ) • k2 + k3)
  | .rk4 =>
    let k1 := f t y
    let k2 := f (t + h / 2) (y + (h / 2) • k1)
    let k3 := f (t + h / 2) (y + (h / 2) • k2)
    let k4 := f (t + h) (y + h • k3)
    (1 / 6 : ℝ) • (k1 + (2 : ℝ) • k2 + (2 : ℝ) • k3 + k4)

/-- Lipschitz constant of the slope of a step. -/
def lam (L : ℝ) : ℝ := L * (1 + 2 * L) ^ 3

theorem lip_stage {f : ℝ → E → E} {L : ℝ} (hL : 0 ≤ L) (hf : ∀ s y z, ‖f s y - f s z‖ ≤ L * ‖y - z‖) (s : ℝ) (y z a b : E) {h : ℝ}
    (h0 : 0 ≤ h) (h1 : h ≤ 1) {e d : ℝ} (he : ‖y - z‖ ≤ e) (hd : ‖a - b‖ ≤ d) :
    ‖f s (y + h • a) - f s (z + h • b)‖ ≤ L * (e + d) := by
  refine (hf _ _ _).trans (mul_le_mul_of_nonneg_left ?_ hL)
  have e1 : y + h • a - (z + h • b) = (y - z) + h • (a - b) := by
    rw [smul_sub]; abel
  rw [e1]
  refine (norm_add_le _ _).trans (add_le_add he ?_)
  rw [norm_smul, Real.norm_of_nonneg h0]
  have := norm_nonneg (a - b)
  nlinarith

theorem norm_mean3 (a b c : E) {M : ℝ} (ha : ‖a‖ ≤ M) (hb : ‖b‖ ≤ M) (hc : ‖c‖ ≤ M) : ‖(1 / 6 : ℝ) • (a + (4 : ℝ) • b + c)‖ ≤ M := by
  rw [norm_smul]
  have h1 : ‖a + (4 : ℝ) • b + c‖ ≤ ‖a‖ + 4 * ‖b‖ + ‖c‖ := by
    refine (norm_add_le _ _).trans (add_le_add ((norm_add_le _ _).trans (add_le_add le_rfl ?_)) le_rfl)
    rw [norm_smul]; norm_num
  rw [Real.norm_of_nonneg (by norm_num : (0 : ℝ) ≤ 1 / 6)]
  linarith

theorem norm_mean4 (a b c d : E) {M : ℝ} (ha : ‖a‖ ≤ M) (hb : ‖b‖ ≤ M) (hc : ‖c‖ ≤ M) (hd : ‖d‖ ≤ M) :
    ‖(1 / 6 : ℝ) • (a + (2 : ℝ) • b + (2 : ℝ) • c + d)‖ ≤ M := by
  rw [norm_smul]
  have h1 : ‖a + (2 : ℝ) • b + (2 : ℝ) • c + d‖ ≤ ‖a‖ + 2 * ‖b‖ + 2 * ‖c‖ + ‖d‖ := by
    refine (norm_add_le _ _).trans (add_le_add ((norm_add_le _ _).trans (add_le_add
      ((norm_add_le _ _).trans (add_le_add le_rfl ?_)) ?_)) le_rfl)
    · rw [norm_smul]; norm_num
    · rw [norm_smul]; norm_num
  rw [Real.norm_of_nonneg (by norm_num : (0 : ℝ) ≤ 1 / 6)]
  linarith

theorem incr_lip {f : ℝ → E → E} {L : ℝ} (hL : 0 ≤ L) (hf : ∀ s y z, ‖f s y - f s z‖ ≤ L * ‖y - z‖) (t : ℝ) {h : ℝ} (h0 : 0 ≤ h)
    (h1 : h ≤ 1) (y z : E) (m : Method) : ‖incr f t h y m - incr f t h z m‖ ≤ lam L * ‖y - z‖ := by
  have he : ‖y - z‖ ≤ ‖y - z‖ := le_rfl
  set e := ‖y - z‖ with hed
  have hen : 0 ≤ e := norm_nonneg _
  have g0 : 0 ≤ L * e := mul_nonneg hL hen
  have l1 : L * e ≤ lam L * e := by
    refine mul_le_mul_of_nonneg_right ?_ hen
    unfold lam
    have : (1 : ℝ) ≤ (1 + 2 * L) ^ 3 := one_le_pow₀ (by linarith)
    nlinarith
  have k1 := hf t y z
  rw [← hed] at k1
  have hh2 : h / 2 ≤ 1 := by linarith
  have hh0 : 0 ≤ h / 2 := by linarith
  have k2 := lip_stage hL hf (t + h / 2) y z _ _ hh0 hh2 he k1
  have l2 : L * (e + L * e) ≤ lam L * e := by
    have : lam L * e - L * (e + L * e) = e * L * (5 * L + 12 * L ^ 2 + 8 * L ^ 3) := by unfold lam; ring
    have : 0 ≤ e * L * (5 * L + 12 * L ^ 2 + 8 * L ^ 3) := by positivity
    linarith
  cases m with
  | forwardEuler => exact k1.trans l1
  | rk3 =>
    have k3 := lip_stage hL hf (t + h) y z ((2 : ℝ) • f (t + h / 2) (y + (h / 2) • f t y) - f t y)
      ((2 : ℝ) • f (t + h / 2) (z + (h / 2) • f t z) - f t z) h0 h1 he (d := 2 * (L * (e + L * e)) + L * e) (by
        have e1 : (2 : ℝ) • f (t + h / 2) (y + (h / 2) • f t y) - f t y - ((2 : ℝ) • f (t + h / 2) (z + (h / 2) • f t z) - f t z) =
            (2 : ℝ) • (f (t + h / 2) (y + (h / 2) • f t y) - f (t + h / 2) (z + (h / 2) • f t z)) - (f t y - f t z) := by
          rw [smul_sub]; abel
        rw [e1]
        refine (norm_sub_le _ _).trans (add_le_add ?_ k1)
        rw [norm_smul, Real.norm_of_nonneg (by norm_num : (0 : ℝ) ≤ 2)]
        linarith)
    have l3 : L * (e + (2 * (L * (e + L * e)) + L * e)) ≤ lam L * e := by
      have : lam L * e - L * (e + (2 * (L * (e + L * e)) + L * e)) = e * L * (3 * L + 10 * L ^ 2 + 8 * L ^ 3) := by unfold lam; ring
      have : 0 ≤ e * L * (3 * L + 10 * L ^ 2 + 8 * L ^ 3) := by positivity
      linarith
    have := norm_mean3 _ _ _ (k1.trans l1) (k2.trans l2) (k3.trans l3)
    refine le_trans (le_of_eq ?_) this
    congr 1
    simp only [incr, smul_add, smul_sub]
    abel
  | rk4 =>
    have k3 := lip_stage hL hf (t + h / 2) y z _ _ hh0 hh2 he k2
    have k4 := lip_stage hL hf (t + h) y z _ _ h0 h1 he k3
    have l3 : L * (e + L * (e + L * e)) ≤ lam L * e := by
      have : lam L * e - L * (e + L * (e + L * e)) = e * L * (5 * L + 11 * L ^ 2 + 8 * L ^ 3) := by unfold lam; ring
      have : 0 ≤ e * L * (5 * L + 11 * L ^ 2 + 8 * L ^ 3) := by positivity
      linarith
    have l4 : L * (e + L * (e + L * (e + L * e))) ≤ lam L * e := by
      have : lam L * e - L * (e + L * (e + L * (e + L * e))) = e * L * (5 * L + 11 * L ^ 2 + 7 * L ^ 3) := by unfold lam; ring
      have : 0 ≤ e * L * (5 * L + 11 * L ^ 2 + 7 * L ^ 3) := by positivity
      linarith
    have := norm_mean4 _ _ _ _ (k1.trans l1) (k2.trans l2) (k3.trans l3) (k4.trans l4)
    refine le_trans (le_of_eq ?_) this
    congr 1
    simp only [incr, smul_add, smul_sub]
    abel

/-- Constant of the consistency error. -/
def con (L B : ℝ) : ℝ := 3 * L * (L + 1) ^ 2 * B

theorem con_stage {f : ℝ → E → E} {L B ε : ℝ} (hL : 0 ≤ L) (hf : ∀ s y z, ‖f s y - f s z‖ ≤ L * ‖y - z‖) {t r : ℝ} {y : E}
    (hB : ‖f r y‖ ≤ B) (hε : ‖f r y - f t y‖ ≤ ε) (a : E) {h : ℝ} (h0 : 0 ≤ h) (h1 : h ≤ 1) {d : ℝ} (hd : ‖a‖ ≤ d) :
    ‖f r (y + h • a)‖ ≤ L * d + B ∧ ‖f r (y + h • a) - f t y‖ ≤ L * d * h + ε := by
  have k : ‖f r (y + h • a) - f r y‖ ≤ L * d * h := by
    refine (hf _ _ _).trans ?_
    rw [add_sub_cancel_left, norm_smul, Real.norm_of_nonneg h0]
    have := mul_le_mul_of_nonneg_left hd h0
    nlinarith
  have hd0 : 0 ≤ d := (norm_nonneg _).trans hd
  constructor
  · have e : f r (y + h • a) = (f r (y + h • a) - f r y) + f r y := by abel
    rw [e]
    refine (norm_add_le _ _).trans (add_le_add (k.trans ?_) hB)
    nlinarith [mul_nonneg hL hd0]
  · have e : f r (y + h • a) - f t y = (f r (y + h • a) - f r y) + (f r y - f t y) := by abel
    rw [e]
    exact (norm_add_le _ _).trans (add_le_add k hε)

theorem incr_con {f : ℝ → E → E} {L B ε : ℝ} (hL : 0 ≤ L) (hf : ∀ s y z, ‖f s y - f s z‖ ≤ L * ‖y - z‖) {t h : ℝ} (h0 : 0 ≤ h)
    (h1 : h ≤ 1) (y : E) (hB : ∀ r, t ≤ r → r ≤ t + h → ‖f r y‖ ≤ B) (hε : ∀ r, t ≤ r → r ≤ t + h → ‖f r y - f t y‖ ≤ ε)
    (m : Method) : ‖incr f t h y m - f t y‖ ≤ con L B * h + ε := by
  have k1 := hB t le_rfl (by linarith)
  have hB0 : 0 ≤ B := (norm_nonneg _).trans k1
  have hε0 : 0 ≤ ε := (norm_nonneg _).trans (hε t le_rfl (by linarith))
  have hh2 : h / 2 ≤ 1 := by linarith
  have hh0 : 0 ≤ h / 2 := by linarith
  have hm1 : t ≤ t + h / 2 := by linarith
  have hm2 : t + h / 2 ≤ t + h := by linarith
  have he1 : t ≤ t + h := by linarith
  have hc0 : 0 ≤ con L B := by unfold con; positivity
  have d1 : ‖f t y - f t y‖ ≤ con L B * h + ε := by
    rw [sub_self, norm_zero]; positivity
  obtain ⟨b2, d2⟩ := con_stage hL hf (hB _ hm1 hm2) (hε _ hm1 hm2) (f t y) hh0 hh2 k1
  have d2' : ‖f (t + h / 2) (y + (h / 2) • f t y) - f t y‖ ≤ con L B * h + ε := by
    refine d2.trans (add_le_add ?_ le_rfl)
    have : con L B * h - L * B * (h / 2) = L * B * h * (5 / 2 + 6 * L + 3 * L ^ 2) := by unfold con; ring
    have : 0 ≤ L * B * h * (5 / 2 + 6 * L + 3 * L ^ 2) := by positivity
    linarith
  cases m with
  | forwardEuler => exact d1
  | rk3 =>
    have ha : ‖(2 : ℝ) • f (t + h / 2) (y + (h / 2) • f t y) - f t y‖ ≤ 2 * (L * B + B) + B := by
      refine (norm_sub_le _ _).trans (add_le_add ?_ k1)
      rw [norm_smul, Real.norm_of_nonneg (by norm_num : (0 : ℝ) ≤ 2)]
      linarith
    obtain ⟨-, d3⟩ := con_stage hL hf (hB _ he1 le_rfl) (hε _ he1 le_rfl) _ h0 h1 ha
    have d3' := d3.trans (b := _) (c := con L B * h + ε) (add_le_add (by
      have : con L B * h - L * (2 * (L * B + B) + B) * h = L * B * h * (4 * L + 3 * L ^ 2) := by unfold con; ring
      have : 0 ≤ L * B * h * (4 * L + 3 * L ^ 2) := by positivity
      linarith) le_rfl)
    refine le_trans (le_of_eq ?_) (norm_mean3 _ _ _ d1 d2' d3')
    congr 1
    have e : f t y = (1 / 6 : ℝ) • (f t y + (4 : ℝ) • f t y + f t y) := by
      module
    conv_lhs => rw [e]
    simp only [incr]
    module
  | rk4 =>
    obtain ⟨b3, d3⟩ := con_stage hL hf (hB _ hm1 hm2) (hε _ hm1 hm2) _ hh0 hh2 b2
    obtain ⟨-, d4⟩ := con_stage hL hf (hB _ he1 le_rfl) (hε _ he1 le_rfl) _ h0 h1 b3
    have d3' := d3.trans (b := _) (c := con L B * h + ε) (add_le_add (by
      have : con L B * h - L * (L * B + B) * (h / 2) = L * B * h * (5 / 2 + (11 / 2) * L + 3 * L ^ 2) := by unfold con; ring
      have : 0 ≤ L * B * h * (5 / 2 + (11 / 2) * L + 3 * L ^ 2) := by positivity
      linarith) le_rfl)
    have d4' := d4.trans (b := _) (c := con L B * h + ε) (add_le_add (by
      have : con L B * h - L * (L * (L * B + B) + B) * h = L * B * h * (2 + 5 * L + 2 * L ^ 2) := by unfold con; ring
      have : 0 ≤ L * B * h * (2 + 5 * L + 2 * L ^ 2) := by positivity
      linarith) le_rfl)
    refine le_trans (le_of_eq ?_) (norm_mean4 _ _ _ _ d1 d2' d3' d4')
    congr 1
    simp only [incr]
    module

/-! ## Exact solutions -/

/-- `u` is an exact solution of `u' = f(s, u)` on `[t, t + T]` except at the finitely many times `J` (where the beams may be
switched), with rates bounded by `B`; `f` has Lipschitz constant `L` in the temperature. -/
structure Solution (f : ℝ → E → E) (J : Finset ℝ) (L B t T : ℝ) (u : ℝ → E) : Prop where
  nonneg : 0 ≤ L
  lip : ∀ s y z, ‖f s y - f s z‖ ≤ L * ‖y - z‖
  bound : ∀ s ∈ Icc t (t + T), ∀ r ∈ Icc t (t + T), ‖f r (u s)‖ ≤ B
  rate : ∀ s ∈ Icc t (t + T), ∀ r ∈ Icc t (t + T), s ≤ r → ‖u r - u s‖ ≤ B * (r - s)
  deriv : ∀ s ∈ Icc t (t + T), s ∉ J → HasDerivWithinAt u (f s (u s)) (Icc t (t + T)) s

/-- Between the switching times the right-hand side varies by at most `ε` in time `h`. -/
def Modulus (f : ℝ → E → E) (J : Finset ℝ) (t T : ℝ) (u : ℝ → E) (h ε : ℝ) : Prop :=
  ∀ s ∈ Icc t (t + T), ∀ r ∈ Icc t (t + T), s ≤ r → r ≤ s + h → (∀ j ∈ J, ¬ (s ≤ j ∧ j ≤ r)) → ‖f r (u s) - f s (u s)‖ ≤ ε

theorem local_error {f : ℝ → E → E} {J : Finset ℝ} {L B t T : ℝ} {u : ℝ → E} (hu : Solution f J L B t T u) {h ε : ℝ}
    (hm : Modulus f J t T u h ε) (h0 : 0 ≤ h) (h1 : h ≤ 1) {s : ℝ} (hs : s ∈ Icc t (t + T)) (hsh : s + h ∈ Icc t (t + T))
    (hj : ∀ j ∈ J, ¬ (s ≤ j ∧ j ≤ s + h)) (m : Method) :
    ‖u (s + h) - (u s + h • incr f s h (u s) m)‖ ≤ h * ((con L B + L * B) * h + 2 * ε) := by
  have hsub : ∀ r, s ≤ r → r ≤ s + h → r ∈ Icc t (t + T) := fun r a b => ⟨hs.1.trans a, b.trans hsh.2⟩
  have hB : ∀ r, s ≤ r → r ≤ s + h → ‖f r (u s)‖ ≤ B := fun r a b => hu.bound s hs r (hsub r a b)
  have hε : ∀ r, s ≤ r → r ≤ s + h → ‖f r (u s) - f s (u s)‖ ≤ ε := fun r a b =>
    hm s hs r (hsub r a b) a b fun j hjJ hjr => hj j hjJ ⟨hjr.1, hjr.2.trans b⟩
  have c1 := incr_con hu.nonneg hu.lip h0 h1 (u s) hB hε m
  have c2 : ‖u (s + h) - u s - h • f s (u s)‖ ≤ (L * B * h + ε) * h := by
    have key := norm_image_sub_le_of_norm_deriv_le_segment' (f := fun r => u r - (r - s) • f s (u s))
      (f' := fun r => f r (u r) - f s (u s)) (a := s) (b := s + h) (C := L * B * h + ε) (by
        intro r hr
        have hd := (hu.deriv r (hsub r hr.1 hr.2) fun hrJ => hj r hrJ ⟨hr.1, hr.2⟩).mono (Icc_subset_Icc hs.1 hsh.2)
        have hl : HasDerivWithinAt (fun r : ℝ => (r - s) • f s (u s)) (f s (u s)) (Icc s (s + h)) r := by
          have := ((hasDerivWithinAt_id r (Icc s (s + h))).sub_const s).smul_const (f s (u s))
          simpa using this
        exact hd.sub hl) (by
        intro r hr
        have hr' := hsub r hr.1 hr.2.le
        have a := hu.rate s hs r hr' hr.1
        have b := hu.lip r (u r) (u s)
        have c := hε r hr.1 hr.2.le
        have e : f r (u r) - f s (u s) = (f r (u r) - f r (u s)) + (f r (u s) - f s (u s)) := by abel
        rw [e]
        refine (norm_add_le _ _).trans (add_le_add (b.trans ?_) c)
        have hB0 : 0 ≤ B := (norm_nonneg _).trans (hB s le_rfl (by linarith))
        have : B * (r - s) ≤ B * h := mul_le_mul_of_nonneg_left (by linarith [hr.2]) hB0
        have := mul_le_mul_of_nonneg_left (a.trans this) hu.nonneg
        linarith) (s + h) ⟨by linarith, le_rfl⟩
    simp only [add_sub_cancel_left, sub_self, zero_smul, sub_zero] at key
    refine le_trans (le_of_eq ?_) key
    congr 1
    abel
  have e : u (s + h) - (u s + h • incr f s h (u s) m) =
      (u (s + h) - u s - h • f s (u s)) - h • (incr f s h (u s) m - f s (u s)) := by
    rw [smul_sub]; abel
  rw [e]
  refine (norm_sub_le _ _).trans ?_
  rw [norm_smul, Real.norm_of_nonneg h0]
  have := mul_le_mul_of_nonneg_left c1 h0
  nlinarith

theorem local_jump {f : ℝ → E → E} {J : Finset ℝ} {L B t T : ℝ} {u : ℝ → E} (hu : Solution f J L B t T u) {h : ℝ}
    (h0 : 0 ≤ h) (h1 : h ≤ 1) {s : ℝ} (hs : s ∈ Icc t (t + T)) (hsh : s + h ∈ Icc t (t + T)) (m : Method) :
    ‖u (s + h) - (u s + h • incr f s h (u s) m)‖ ≤ h * (con L B * h + 4 * B) := by
  have hsub : ∀ r, s ≤ r → r ≤ s + h → r ∈ Icc t (t + T) := fun r a b => ⟨hs.1.trans a, b.trans hsh.2⟩
  have hB : ∀ r, s ≤ r → r ≤ s + h → ‖f r (u s)‖ ≤ B := fun r a b => hu.bound s hs r (hsub r a b)
  have b0 := hB s le_rfl (by linarith)
  have hε : ∀ r, s ≤ r → r ≤ s + h → ‖f r (u s) - f s (u s)‖ ≤ 2 * B := fun r a b =>
    (norm_sub_le _ _).trans (by linarith [hB r a b])
  have c1 := incr_con hu.nonneg hu.lip h0 h1 (u s) hB hε m
  have c2 := hu.rate s hs (s + h) hsh (by linarith)
  have e : u (s + h) - (u s + h • incr f s h (u s) m) =
      (u (s + h) - u s) - h • ((incr f s h (u s) m - f s (u s)) + f s (u s)) := by
    rw [sub_add_cancel]; abel
  rw [e]
  refine (norm_sub_le _ _).trans ?_
  rw [norm_smul, Real.norm_of_nonneg h0]
  have c3 := (norm_add_le (incr f s h (u s) m - f s (u s)) (f s (u s)))
  have := mul_le_mul_of_nonneg_left (c3.trans (add_le_add c1 b0)) h0
  nlinarith

open Classical in
/-- The number of steps that touch a switching time. -/
theorem count_jumps (J : Finset ℝ) (t h : ℝ) (h0 : 0 < h) (k : ℕ) :
    ((Finset.range k).filter fun i : ℕ => ∃ j ∈ J, t + i * h ≤ j ∧ j ≤ t + i * h + h).card ≤ 2 * J.card := by
  have hsub : ((Finset.range k).filter fun i : ℕ => ∃ j ∈ J, t + i * h ≤ j ∧ j ≤ t + i * h + h) ⊆
      J.biUnion fun j => {⌊(j - t) / h⌋₊, ⌊(j - t) / h⌋₊ - 1} := by
    intro i hi
    obtain ⟨-, j, hj, h1, h2⟩ := Finset.mem_filter.1 hi
    refine Finset.mem_biUnion.2 ⟨j, hj, ?_⟩
    have a : (i : ℝ) ≤ (j - t) / h := by rw [le_div_iff₀ h0]; linarith
    have b : (j - t) / h ≤ i + 1 := by rw [div_le_iff₀ h0]; linarith
    have a' : i ≤ ⌊(j - t) / h⌋₊ := Nat.le_floor a
    have b' : ⌊(j - t) / h⌋₊ ≤ i + 1 := by
      have := Nat.floor_le_floor b
      rwa [show ((i : ℝ) + 1) = ((i + 1 : ℕ) : ℝ) by push_cast; ring, Nat.floor_natCast] at this
    simp only [Finset.mem_insert, Finset.mem_singleton]
    omega
  refine (Finset.card_le_card hsub).trans (Finset.card_biUnion_le.trans ?_)
  refine (Finset.sum_le_card_nsmul J _ 2 fun j _ => Finset.card_le_two).trans ?_
  rw [smul_eq_mul, mul_comm]

/-- `k` steps of a method. -/
noncomputable def run (f : ℝ → E → E) (m : Method) (h t : ℝ) (y : E) : ℕ → E
  | 0 => y
  | k + 1 => run f m h t y k + h • incr f (t + k * h) h (run f m h t y k) m

open Classical in
theorem run_error {f : ℝ → E → E} {J : Finset ℝ} {L B t T : ℝ} {u : ℝ → E} (hu : Solution f J L B t T u) {h ε : ℝ}
    (hm : Modulus f J t T u h ε) (hε : 0 ≤ ε) (h0 : 0 < h) (h1 : h ≤ 1) (m : Method) (k : ℕ) (hk : k * h ≤ T) :
    ‖run f m h t (u t) k - u (t + k * h)‖ ≤
      Real.exp (lam L * (k * h)) * (k * h * ((con L B + L * B) * h + 2 * ε) + 2 * J.card * (h * (con L B * h + 4 * B))) := by
  have hk0 : (0 : ℝ) ≤ k * h := by positivity
  have ht0 : t ∈ Icc t (t + T) := ⟨le_rfl, by linarith⟩
  have hB0 : 0 ≤ B := (norm_nonneg _).trans (hu.bound t ht0 t ht0)
  have hL := hu.nonneg
  have hc0 : 0 ≤ con L B := by unfold con; positivity
  have hlam : 0 ≤ lam L := by unfold lam; positivity
  set η := h * ((con L B + L * B) * h + 2 * ε) with hη
  set ζ := h * (con L B * h + 4 * B) with hζ
  have hη0 : 0 ≤ η := by positivity
  have hζ0 : 0 ≤ ζ := by positivity
  set P : ℕ → Prop := fun i => ∃ j ∈ J, t + i * h ≤ j ∧ j ≤ t + i * h + h with hP
  have main : ∀ n : ℕ, n ≤ k → ‖run f m h t (u t) n - u (t + n * h)‖ ≤
      (1 + lam L * h) ^ n * ∑ i ∈ Finset.range n, (η + if P i then ζ else 0) := by
    intro n
    induction n with
    | zero => intro _; simp [run]
    | succ n ih =>
      intro hn
      have ihn := ih (by omega)
      have hnk : ((n : ℝ) + 1) * h ≤ k * h := by
        refine mul_le_mul_of_nonneg_right ?_ h0.le
        exact_mod_cast hn
      have hs : t + n * h ∈ Icc t (t + T) := ⟨by nlinarith [Nat.cast_nonneg (α := ℝ) n], by nlinarith⟩
      have hsh : t + n * h + h ∈ Icc t (t + T) := ⟨by nlinarith [Nat.cast_nonneg (α := ℝ) n], by nlinarith⟩
      have hloc : ‖u (t + n * h + h) - (u (t + n * h) + h • incr f (t + n * h) h (u (t + n * h)) m)‖ ≤ η + if P n then ζ else 0 := by
        by_cases hp : P n
        · rw [if_pos hp]
          exact (local_jump hu h0.le h1 hs hsh m).trans (by linarith)
        · rw [if_neg hp, add_zero]
          refine local_error hu hm h0.le h1 hs hsh (fun j hj hjr => hp ⟨j, hj, hjr.1, hjr.2⟩) m
      have hl := incr_lip hL hu.lip (t + n * h) h0.le h1 (run f m h t (u t) n) (u (t + n * h)) m
      have e1 : t + ((n + 1 : ℕ) : ℝ) * h = t + n * h + h := by push_cast; ring
      rw [e1]
      have e2 : run f m h t (u t) (n + 1) - u (t + n * h + h) =
          (run f m h t (u t) n - u (t + n * h)) +
          h • (incr f (t + n * h) h (run f m h t (u t) n) m - incr f (t + n * h) h (u (t + n * h)) m) -
          (u (t + n * h + h) - (u (t + n * h) + h • incr f (t + n * h) h (u (t + n * h)) m)) := by
        simp only [run, smul_sub]; abel
      rw [e2]
      have n1 := norm_sub_le ((run f m h t (u t) n - u (t + n * h)) +
          h • (incr f (t + n * h) h (run f m h t (u t) n) m - incr f (t + n * h) h (u (t + n * h)) m))
          (u (t + n * h + h) - (u (t + n * h) + h • incr f (t + n * h) h (u (t + n * h)) m))
      have n2 := norm_add_le (run f m h t (u t) n - u (t + n * h))
          (h • (incr f (t + n * h) h (run f m h t (u t) n) m - incr f (t + n * h) h (u (t + n * h)) m))
      rw [norm_smul, Real.norm_of_nonneg h0.le] at n2
      have n3 := mul_le_mul_of_nonneg_left hl h0.le
      have hq : 1 ≤ 1 + lam L * h := by nlinarith [mul_nonneg hlam h0.le]
      have n4 : (1 + lam L * h) * ‖run f m h t (u t) n - u (t + n * h)‖ ≤
          (1 + lam L * h) ^ (n + 1) * ∑ i ∈ Finset.range n, (η + if P i then ζ else 0) := by
        rw [pow_succ', mul_assoc]
        exact mul_le_mul_of_nonneg_left ihn (by linarith)
      have hloc0 : 0 ≤ η + if P n then ζ else 0 := by split_ifs <;> positivity
      have n5 : η + (if P n then ζ else 0) ≤ (1 + lam L * h) ^ (n + 1) * (η + if P n then ζ else 0) :=
        le_mul_of_one_le_left hloc0 (one_le_pow₀ hq)
      rw [Finset.sum_range_succ, mul_add]
      nlinarith
  refine (main k le_rfl).trans ?_
  have hsum : ∑ i ∈ Finset.range k, (η + if P i then ζ else 0) ≤ k * η + 2 * J.card * ζ := by
    rw [Finset.sum_add_distrib, Finset.sum_const, Finset.card_range, nsmul_eq_mul, ← Finset.sum_filter, Finset.sum_const, nsmul_eq_mul]
    refine add_le_add le_rfl (mul_le_mul_of_nonneg_right ?_ hζ0)
    have := count_jumps J t h h0 k
    exact_mod_cast this
  have hpow : (1 + lam L * h) ^ k ≤ Real.exp (lam L * (k * h)) := by
    have h2 : 1 + lam L * h ≤ Real.exp (lam L * h) := by linarith [Real.add_one_le_exp (lam L * h)]
    refine (pow_le_pow_left₀ (by positivity) h2 k).trans (le_of_eq ?_)
    rw [← Real.exp_nat_mul]
    congr 1
    ring
  have hnn : 0 ≤ ∑ i ∈ Finset.range k, (η + if P i then ζ else 0) :=
    Finset.sum_nonneg fun i _ => by split_ifs <;> positivity
  refine (mul_le_mul hpow hsum hnn (Real.exp_pos _).le).trans (le_of_eq ?_)
  rw [hη]
  ring

end Steps

/-! ## Theorems about the time steppers -/

variable {ι : Type*} [Fintype ι]

omit [Fintype ι] in
theorem stepOf_incr (f : ℝ → (ι → ℝ) → ι → ℝ) (t dt : ℝ) (y : ι → ℝ) (m : Method) [Fintype ι] :
    stepOf f t dt y m = y + dt • incr f t dt y m := by
  cases m with
  | forwardEuler => funext i; simp [stepOf, incr]
  | rk3 =>
    have e1 : (fun i => y i + dt / 2 * f t y i) = y + (dt / 2) • f t y := by funext i; simp
    have e2 : ∀ a b : ι → ℝ, (fun i => y i + dt * (2 * a i - b i)) = y + dt • ((2 : ℝ) • a - b) := by
      intro a b; funext i; simp
    funext i
    simp only [stepOf, incr, e1, e2, Pi.add_apply, Pi.smul_apply, smul_eq_mul]
    ring
  | rk4 =>
    have e1 : ∀ (c : ℝ) (a : ι → ℝ), (fun i => y i + c * a i) = y + c • a := by
      intro c a; funext i; simp
    funext i
    simp only [stepOf, incr, e1, Pi.add_apply, Pi.smul_apply, smul_eq_mul]
    ring

theorem runOf_run (f : ℝ → (ι → ℝ) → ι → ℝ) (m : Method) (dt : ℝ) (k : ℕ) (t : ℝ) (y : ι → ℝ) :
    runOf f m dt k t y = run f m dt t y k := by
  have hsucc : ∀ (k : ℕ) (t : ℝ) (y : ι → ℝ), runOf f m dt (k + 1) t y = stepOf f (t + k * dt) dt (runOf f m dt k t y) m := by
    intro k
    induction k with
    | zero => intro t y; simp [runOf]
    | succ k ih =>
      intro t y
      rw [runOf, ih, runOf]
      congr 1
      push_cast; ring
  induction k with
  | zero => rfl
  | succ k ih => rw [hsucc, ih, stepOf_incr, run]

/-- **C115**, error bound: the time stepper started at an exact solution of the semi-discrete heat equation (with beams that are
switched at the times `J`) is at every later step within an explicit distance of it, which is of the order of the step size and
of the variation of the right-hand side within a step. -/
theorem C115_error_bound (op : Operator ι) (J : Finset ℝ) (L B t T : ℝ) (u : ℝ → ι → ℝ) (hu : Solution (rhs op) J L B t T u)
    (m : Method) (dt ε : ℝ) (hε : 0 ≤ ε) (h0 : 0 < dt) (h1 : dt ≤ 1) (hm : Modulus (rhs op) J t T u dt ε) (k : ℕ)
    (hk : k * dt ≤ T) :
    ∃ z op', steps (some m) dt k (t, u t, op) = some (t + k * dt, z, op') ∧ ∀ i, |z i - u (t + k * dt) i| ≤
      Real.exp (L * (1 + 2 * L) ^ 3 * T) *
        (T * ((3 * L * (L + 1) ^ 2 * B + L * B) * dt + 2 * ε) + 2 * J.card * (dt * (3 * L * (L + 1) ^ 2 * B * dt + 4 * B))) := by
  obtain ⟨op', h⟩ := steps_eq m dt k t (u t) op
  refine ⟨_, op', h, fun i => ?_⟩
  rw [runOf_run]
  have h2 := run_error hu hm hε h0 h1 m k hk
  refine (le_trans ?_ h2).trans ?_
  · exact norm_le_pi_norm (run (rhs op) m dt t (u t) k - u (t + k * dt)) i
  have hk0 : (0 : ℝ) ≤ k * dt := by positivity
  have ht0 : t ∈ Icc t (t + T) := ⟨le_rfl, by linarith⟩
  have hB0 : 0 ≤ B := (norm_nonneg _).trans (hu.bound t ht0 t ht0)
  have hL := hu.nonneg
  have hc0 : 0 ≤ 3 * L * (L + 1) ^ 2 * B := by positivity
  have hlam : 0 ≤ L * (1 + 2 * L) ^ 3 := by positivity
  unfold lam con
  refine mul_le_mul ?_ ?_ (by positivity) (Real.exp_pos _).le
  · exact Real.exp_le_exp.2 (mul_le_mul_of_nonneg_left hk hlam)
  · refine add_le_add (mul_le_mul_of_nonneg_right hk (by positivity)) le_rfl

omit [Fintype ι] in
theorem Modulus.mono [Fintype ι] {f : ℝ → (ι → ℝ) → ι → ℝ} {J : Finset ℝ} {t T : ℝ} {u : ℝ → ι → ℝ} {h h' ε : ℝ} (hh : h' ≤ h)
    (hm : Modulus f J t T u h ε) : Modulus f J t T u h' ε :=
  fun s hs r hr a b c => hm s hs r hr a (by linarith) c

/-- **C115**, convergence: if between the switching times the right-hand side is uniformly continuous in time, the computed
temperatures at all steps up to the end of the interval are arbitrarily close to the exact ones for all small enough time steps, with
each of the three methods. -/
theorem C115_convergence (op : Operator ι) (J : Finset ℝ) (L B t T : ℝ) (u : ℝ → ι → ℝ) (hu : Solution (rhs op) J L B t T u)
    (hmod : ∀ ε > 0, ∃ δ > 0, Modulus (rhs op) J t T u δ ε) (m : Method) (ε : ℝ) (hε : 0 < ε) :
    ∃ δ > 0, ∀ dt, 0 < dt → dt ≤ δ → ∀ k : ℕ, k * dt ≤ T →
      ∃ z op', steps (some m) dt k (t, u t, op) = some (t + k * dt, z, op') ∧ ∀ i, |z i - u (t + k * dt) i| ≤ ε := by
  by_cases hT : 0 ≤ T
  swap
  · refine ⟨1, one_pos, fun dt h0 _ k hk => ?_⟩
    have : (0 : ℝ) ≤ k * dt := by positivity
    linarith
  have ht0 : t ∈ Icc t (t + T) := ⟨le_rfl, by linarith⟩
  have hB0 : 0 ≤ B := (norm_nonneg _).trans (hu.bound t ht0 t ht0)
  have hL := hu.nonneg
  set c := 3 * L * (L + 1) ^ 2 * B with hc
  have hc0 : 0 ≤ c := by positivity
  set M := Real.exp (L * (1 + 2 * L) ^ 3 * T) with hM
  have hM0 : 0 < M := Real.exp_pos _
  obtain ⟨δ, hδ, hmδ⟩ := hmod (ε / (4 * M * (T + 1))) (by positivity)
  set D := T * (c + L * B) + 2 * J.card * (c + 4 * B) + 1 with hD
  have hD0 : 0 < D := by positivity
  refine ⟨min (min δ 1) (ε / (2 * M * D)), lt_min (lt_min hδ one_pos) (by positivity), fun dt h0 hdt k hk => ?_⟩
  have d1 : dt ≤ δ := hdt.trans ((min_le_left _ _).trans (min_le_left _ _))
  have d2 : dt ≤ 1 := hdt.trans ((min_le_left _ _).trans (min_le_right _ _))
  have d3 : dt ≤ ε / (2 * M * D) := hdt.trans (min_le_right _ _)
  obtain ⟨z, op', h, hz⟩ := C115_error_bound op J L B t T u hu m dt _ (by positivity) h0 d2 (hmδ.mono d1) k hk
  refine ⟨z, op', h, fun i => (hz i).trans ?_⟩
  rw [← hc, ← hM]
  have e1 : T * ((c + L * B) * dt + 2 * (ε / (4 * M * (T + 1)))) + 2 * J.card * (dt * (c * dt + 4 * B)) ≤
      dt * D + 2 * T * (ε / (4 * M * (T + 1))) := by
    have : (J.card : ℝ) * (dt * (c * dt)) ≤ J.card * (dt * c) := by
      refine mul_le_mul_of_nonneg_left (mul_le_mul_of_nonneg_left ?_ h0.le) (Nat.cast_nonneg _)
      nlinarith
    rw [hD]
    nlinarith
  refine (mul_le_mul_of_nonneg_left e1 hM0.le).trans ?_
  have e2 : M * (dt * D) ≤ ε / 2 := by
    have := mul_le_mul_of_nonneg_right d3 (mul_pos hM0 hD0).le
    have e : ε / (2 * M * D) * (M * D) = ε / 2 := by field_simp
    rw [e] at this
    linarith
  have e3 : M * (2 * T * (ε / (4 * M * (T + 1)))) ≤ ε / 2 := by
    have e : M * (2 * T * (ε / (4 * M * (T + 1)))) = ε / 2 * (T / (T + 1)) := by field_simp; ring
    rw [e]
    have : T / (T + 1) ≤ 1 := by rw [div_le_one (by linarith)]; linarith
    nlinarith
  linarith

/-- **C115**, rate: if between the switching times the right-hand side is Lipschitz in time, the error is at most proportional to
the time step, beams being switched or not. -/
theorem C115_first_order (op : Operator ι) (J : Finset ℝ) (L B K t T : ℝ) (u : ℝ → ι → ℝ) (hu : Solution (rhs op) J L B t T u)
    (hK : 0 ≤ K) (hmod : ∀ h, 0 < h → h ≤ 1 → Modulus (rhs op) J t T u h (K * h)) (m : Method) :
    ∃ C, ∀ dt, 0 < dt → dt ≤ 1 → ∀ k : ℕ, k * dt ≤ T →
      ∃ z op', steps (some m) dt k (t, u t, op) = some (t + k * dt, z, op') ∧ ∀ i, |z i - u (t + k * dt) i| ≤ C * dt := by
  refine ⟨Real.exp (L * (1 + 2 * L) ^ 3 * T) * (T * (3 * L * (L + 1) ^ 2 * B + L * B + 2 * K) +
    2 * J.card * (3 * L * (L + 1) ^ 2 * B + 4 * B)), fun dt h0 h1 k hk => ?_⟩
  obtain ⟨z, op', h, hz⟩ := C115_error_bound op J L B t T u hu m dt (K * dt) (by positivity) h0 h1 (hmod dt h0 h1) k hk
  refine ⟨z, op', h, fun i => (hz i).trans ?_⟩
  have hk0 : (0 : ℝ) ≤ k * dt := by positivity
  have ht0 : t ∈ Icc t (t + T) := ⟨le_rfl, by linarith⟩
  have hB0 : 0 ≤ B := (norm_nonneg _).trans (hu.bound t ht0 t ht0)
  have hL := hu.nonneg
  have hc0 : 0 ≤ 3 * L * (L + 1) ^ 2 * B := by positivity
  set c := 3 * L * (L + 1) ^ 2 * B with hc
  rw [mul_assoc (Real.exp _)]
  refine mul_le_mul_of_nonneg_left ?_ (Real.exp_pos _).le
  have : (J.card : ℝ) * (dt * (c * dt)) ≤ J.card * (dt * c) := by
    refine mul_le_mul_of_nonneg_left (mul_le_mul_of_nonneg_left ?_ h0.le) (Nat.cast_nonneg _)
    nlinarith
  nlinarith

/-! ## Order of accuracy -/

section Order

variable {E : Type*} [NormedAddCommGroup E] [NormedSpace ℝ E]

/-- The order of a method. -/
def order : Method → ℕ
  | .forwardEuler => 1
  | .rk3 => 3
  | .rk4 => 4

/-- The slope of a method for `y' = A y + q`: the truncated exponential series. -/
theorem incr_linear (A : E →L[ℝ] E) (q : E) (t h : ℝ) (y : E) (m : Method) :
    incr (fun _ y => A y + q) t h y m =
      ∑ i ∈ Finset.range (order m), (h ^ i / (i + 1).factorial) • (A^[i]) (A y + q) := by
  cases m with
  | forwardEuler => simp [incr, order]
  | rk3 =>
    simp only [incr, order, Finset.sum_range_succ, Finset.sum_range_zero, Function.iterate_succ_apply, Function.iterate_zero, id,
      map_add, map_smul, map_sub, Nat.factorial]
    norm_num
    module
  | rk4 =>
    simp only [incr, order, Finset.sum_range_succ, Finset.sum_range_zero, Function.iterate_succ_apply, Function.iterate_zero, id,
      map_add, map_smul, map_sub, Nat.factorial]
    norm_num
    module

/-- Taylor's formula for solutions of `w' = A w`. -/
theorem taylor_linear (A : E →L[ℝ] E) {L V a b : ℝ} (hL : ∀ y, ‖A y‖ ≤ L * ‖y‖) (hL0 : 0 ≤ L) {w : ℝ → E}
    (hw : ∀ s ∈ Icc a b, HasDerivWithinAt w (A (w s)) (Icc a b) s) (hV : ∀ s ∈ Icc a b, ‖w s‖ ≤ V) (p : ℕ) :
    ∀ r ∈ Icc a b, ‖w r - ∑ i ∈ Finset.range p, ((r - a) ^ i / i.factorial) • (A^[i]) (w a)‖ ≤ L ^ p * V * (r - a) ^ p := by
  induction p with
  | zero =>
    intro r hr
    simpa using hV r hr
  | succ p ih =>
    intro r hr
    have hsub : Icc a r ⊆ Icc a b := Icc_subset_Icc le_rfl hr.2
    have hV0 : 0 ≤ V := (norm_nonneg _).trans (hV r hr)
    have key := norm_image_sub_le_of_norm_deriv_le_segment'
      (f := fun r => w r - ∑ i ∈ Finset.range (p + 1), ((r - a) ^ i / i.factorial) • (A^[i]) (w a))
      (f' := fun r => A (w r - ∑ i ∈ Finset.range p, ((r - a) ^ i / i.factorial) • (A^[i]) (w a)))
      (a := a) (b := r) (C := L * (L ^ p * V * (r - a) ^ p)) (by
        intro s hs
        have h1 := (hw s (hsub hs)).mono hsub
        have h2 : HasDerivWithinAt (fun r : ℝ => ∑ i ∈ Finset.range (p + 1), ((r - a) ^ i / i.factorial) • (A^[i]) (w a))
            (∑ i ∈ Finset.range p, ((s - a) ^ i / i.factorial) • (A^[i + 1]) (w a)) (Icc a r) s := by
          have : HasDerivWithinAt (fun r : ℝ => ∑ i ∈ Finset.range (p + 1), ((r - a) ^ i / i.factorial) • (A^[i]) (w a))
              (∑ i ∈ Finset.range (p + 1), ((i : ℝ) * (s - a) ^ (i - 1) * 1 / i.factorial) • (A^[i]) (w a)) (Icc a r) s := by
            refine HasDerivWithinAt.fun_sum fun i _ => ?_
            exact ((((hasDerivWithinAt_id s (Icc a r)).sub_const a).pow i).div_const _).smul_const _
          refine this.congr_deriv ?_
          rw [Finset.sum_range_succ']
          simp only [Nat.cast_zero, zero_mul, mul_one, zero_div, zero_smul, add_zero, Nat.add_sub_cancel]
          refine Finset.sum_congr rfl fun i _ => ?_
          congr 1
          rw [Nat.factorial_succ]
          push_cast
          field_simp
        refine (h1.sub h2).congr_deriv ?_
        rw [map_sub, map_sum]
        congr 1
        refine Finset.sum_congr rfl fun i _ => ?_
        rw [map_smul, Function.iterate_succ_apply']) (by
        intro s hs
        refine (hL _).trans (mul_le_mul_of_nonneg_left ((ih s (hsub ⟨hs.1, hs.2.le⟩)).trans ?_) hL0)
        refine mul_le_mul_of_nonneg_left ?_ (by positivity)
        exact pow_le_pow_left₀ (by linarith [hs.1]) (by linarith [hs.2]) p) r ⟨hr.1, le_rfl⟩
    have e0 : ∑ i ∈ Finset.range (p + 1), ((0 : ℝ) ^ i / (i.factorial : ℝ)) • (A^[i]) (w a) = w a := by
      rw [Finset.sum_range_succ']
      simp
    simp only [sub_self, e0, sub_zero] at key
    exact key.trans (le_of_eq (by ring))

theorem local_linear (A : E →L[ℝ] E) (q : E) {V a b : ℝ} {u : ℝ → E}
    (hu : ∀ s ∈ Icc a b, HasDerivWithinAt u (A (u s) + q) (Icc a b) s) (hV : ∀ s ∈ Icc a b, ‖A (u s) + q‖ ≤ V) (s h : ℝ) (hs : s ∈ Icc a b)
    (h0 : 0 ≤ h) (hsh : s + h ∈ Icc a b) (m : Method) :
    ‖u (s + h) - (u s + h • incr (fun _ y => A y + q) s h (u s) m)‖ ≤ ‖A‖ ^ order m * V * h ^ order m * h := by
  have hsub : Icc s (s + h) ⊆ Icc a b := Icc_subset_Icc hs.1 hsh.2
  have hV0 : 0 ≤ V := (norm_nonneg _).trans (hV s hs)
  set p := order m with hp
  have hv : ∀ r ∈ Icc s (s + h), HasDerivWithinAt (fun r => A (u r) + q) (A (A (u r) + q)) (Icc s (s + h)) r := by
    intro r hr
    have h1 := (hu r (hsub hr)).mono hsub
    exact (A.hasFDerivAt.comp_hasDerivWithinAt r h1).add_const q
  have ht := taylor_linear A (L := ‖A‖) (V := V) (fun y => A.le_opNorm y) (norm_nonneg _) hv (fun r hr => hV r (hsub hr)) p
  have key := norm_image_sub_le_of_norm_deriv_le_segment'
    (f := fun r => u r - ∑ i ∈ Finset.range p, ((r - s) ^ (i + 1) / ((i + 1).factorial : ℝ)) • (A^[i]) (A (u s) + q))
    (f' := fun r => (A (u r) + q) - ∑ i ∈ Finset.range p, ((r - s) ^ i / (i.factorial : ℝ)) • (A^[i]) (A (u s) + q))
    (a := s) (b := s + h) (C := ‖A‖ ^ p * V * h ^ p) (by
      intro r hr
      have h1 := (hu r (hsub hr)).mono hsub
      refine h1.sub ?_
      have : HasDerivWithinAt (fun r : ℝ => ∑ i ∈ Finset.range p, ((r - s) ^ (i + 1) / ((i + 1).factorial : ℝ)) • (A^[i]) (A (u s) + q))
          (∑ i ∈ Finset.range p, (((i + 1 : ℕ) : ℝ) * (r - s) ^ (i + 1 - 1) * 1 / ((i + 1).factorial : ℝ)) • (A^[i]) (A (u s) + q))
          (Icc s (s + h)) r := by
        refine HasDerivWithinAt.fun_sum fun i _ => ?_
        exact ((((hasDerivWithinAt_id r (Icc s (s + h))).sub_const s).pow (i + 1)).div_const _).smul_const _
      refine this.congr_deriv (Finset.sum_congr rfl fun i _ => ?_)
      congr 1
      rw [Nat.factorial_succ, Nat.add_sub_cancel]
      push_cast
      field_simp) (by
      intro r hr
      refine (ht r ⟨hr.1, hr.2.le⟩).trans (mul_le_mul_of_nonneg_left ?_ (by positivity))
      exact pow_le_pow_left₀ (by linarith [hr.1]) (by linarith [hr.2]) p) (s + h) ⟨by linarith, le_rfl⟩
  have e0 : ∑ i ∈ Finset.range p, ((0 : ℝ) ^ (i + 1) / ((i + 1).factorial : ℝ)) • (A^[i]) (A (u s) + q) = 0 := by
    refine Finset.sum_eq_zero fun i _ => ?_
    rw [zero_pow (Nat.succ_ne_zero i), zero_div, zero_smul]
  simp only [sub_self, e0, sub_zero, add_sub_cancel_left] at key
  refine le_trans (le_of_eq ?_) key
  congr 1
  rw [incr_linear, ← hp, Finset.smul_sum]
  have e1 : ∑ i ∈ Finset.range p, h • (h ^ i / ((i + 1).factorial : ℝ)) • (A^[i]) (A (u s) + q) =
      ∑ i ∈ Finset.range p, (h ^ (i + 1) / ((i + 1).factorial : ℝ)) • (A^[i]) (A (u s) + q) := by
    refine Finset.sum_congr rfl fun i _ => ?_
    rw [smul_smul]
    congr 1
    rw [pow_succ]; ring
  rw [e1]
  abel

end Order

/-- The accuracy a method is named for. -/
def powerOf (dt : ℝ) : Method → ℝ
  | .forwardEuler => dt
  | .rk3 => dt ^ 3
  | .rk4 => dt ^ 4

/-- **C115**, order of accuracy: for temperature-independent material data and a steady beam (the right-hand side is `A y + q`),
the error of forward Euler is of first order in the time step, that of the third-order Runge-Kutta method of third and that of
the fourth-order one of fourth order. -/
theorem C115_order_linear (op : Operator ι) (A : (ι → ℝ) →L[ℝ] (ι → ℝ)) (q : ι → ℝ) (hop : rhs op = fun _ y => A y + q) (t T : ℝ)
    (u : ℝ → ι → ℝ) (hu : ∀ s ∈ Icc t (t + T), HasDerivWithinAt u (A (u s) + q) (Icc t (t + T)) s) (m : Method) :
    ∃ C, ∀ dt, 0 < dt → dt ≤ 1 → ∀ k : ℕ, k * dt ≤ T → ∃ z op', steps (some m) dt k (t, u t, op) = some (t + k * dt, z, op') ∧
      ∀ i, |z i - u (t + k * dt) i| ≤
        C * powerOf dt m := by
  have hcont : ContinuousOn (fun s => A (u s) + q) (Icc t (t + T)) :=
    (A.continuous.comp_continuousOn fun s hs => (hu s hs).continuousWithinAt).add continuousOn_const
  obtain ⟨V, hV⟩ := isCompact_Icc.exists_bound_of_continuousOn hcont
  refine ⟨Real.exp (lam ‖A‖ * T) * (T * (‖A‖ ^ order m * V)), fun dt h0 h1 k hk => ?_⟩
  obtain ⟨op', h⟩ := steps_eq m dt k t (u t) op
  refine ⟨_, op', h, fun i => ?_⟩
  rw [runOf_run]
  refine le_trans (norm_le_pi_norm (run (rhs op) m dt t (u t) k - u (t + k * dt)) i) ?_
  have hord : powerOf dt m = dt ^ order m := by
    cases m <;> simp [order, powerOf]
  rw [hord, hop]
  have hk0 : (0 : ℝ) ≤ k * dt := by positivity
  have hV0 : 0 ≤ V := (norm_nonneg _).trans (hV t ⟨le_rfl, by linarith⟩)
  have hlam : 0 ≤ lam ‖A‖ := by unfold lam; positivity
  set η := ‖A‖ ^ order m * V * dt ^ order m * dt with hη
  have hη0 : 0 ≤ η := by positivity
  have hlip : ∀ (s : ℝ) (y z : ι → ℝ), ‖(fun (_ : ℝ) y => A y + q) s y - (fun (_ : ℝ) y => A y + q) s z‖ ≤ ‖A‖ * ‖y - z‖ := by
    intro s y z
    have : A y + q - (A z + q) = A (y - z) := by rw [map_sub]; abel
    simp only [this]
    exact A.le_opNorm _
  have main : ∀ n : ℕ, n ≤ k → ‖run (fun _ y => A y + q) m dt t (u t) n - u (t + n * dt)‖ ≤ (1 + lam ‖A‖ * dt) ^ n * (n * η) := by
    intro n
    induction n with
    | zero => intro _; simp [run]
    | succ n ih =>
      intro hn
      have ihn := ih (by omega)
      have hnk : ((n : ℝ) + 1) * dt ≤ k * dt := by
        refine mul_le_mul_of_nonneg_right ?_ h0.le
        exact_mod_cast hn
      have hn0 : (0 : ℝ) ≤ n * dt := by positivity
      have hs : t + n * dt ∈ Icc t (t + T) := ⟨by linarith, by linarith⟩
      have hsh : t + n * dt + dt ∈ Icc t (t + T) := ⟨by linarith, by linarith⟩
      have hloc := local_linear A q hu hV (t + n * dt) dt hs h0.le hsh m
      rw [← hη] at hloc
      have hl := incr_lip (norm_nonneg A) hlip (t + n * dt) h0.le h1 (run (fun _ y => A y + q) m dt t (u t) n) (u (t + n * dt)) m
      have e1 : t + ((n + 1 : ℕ) : ℝ) * dt = t + n * dt + dt := by push_cast; ring
      rw [e1]
      set f : ℝ → (ι → ℝ) → ι → ℝ := fun _ y => A y + q with hf
      have e2 : run f m dt t (u t) (n + 1) - u (t + n * dt + dt) =
          (run f m dt t (u t) n - u (t + n * dt)) +
          dt • (incr f (t + n * dt) dt (run f m dt t (u t) n) m - incr f (t + n * dt) dt (u (t + n * dt)) m) -
          (u (t + n * dt + dt) - (u (t + n * dt) + dt • incr f (t + n * dt) dt (u (t + n * dt)) m)) := by
        simp only [run, smul_sub]; abel
      rw [e2]
      have n1 := norm_sub_le ((run f m dt t (u t) n - u (t + n * dt)) +
          dt • (incr f (t + n * dt) dt (run f m dt t (u t) n) m - incr f (t + n * dt) dt (u (t + n * dt)) m))
          (u (t + n * dt + dt) - (u (t + n * dt) + dt • incr f (t + n * dt) dt (u (t + n * dt)) m))
      have n2 := norm_add_le (run f m dt t (u t) n - u (t + n * dt))
          (dt • (incr f (t + n * dt) dt (run f m dt t (u t) n) m - incr f (t + n * dt) dt (u (t + n * dt)) m))
      rw [norm_smul, Real.norm_of_nonneg h0.le] at n2
      have n3 := mul_le_mul_of_nonneg_left hl h0.le
      have hq : 1 ≤ 1 + lam ‖A‖ * dt := by nlinarith [mul_nonneg hlam h0.le]
      have n4 : (1 + lam ‖A‖ * dt) * ‖run f m dt t (u t) n - u (t + n * dt)‖ ≤ (1 + lam ‖A‖ * dt) ^ (n + 1) * (n * η) := by
        rw [pow_succ', mul_assoc]
        exact mul_le_mul_of_nonneg_left ihn (by linarith)
      have n5 : η ≤ (1 + lam ‖A‖ * dt) ^ (n + 1) * η := le_mul_of_one_le_left hη0 (one_le_pow₀ hq)
      push_cast
      nlinarith
  refine (main k le_rfl).trans ?_
  have hpow : (1 + lam ‖A‖ * dt) ^ k ≤ Real.exp (lam ‖A‖ * T) := by
    have h2 : 1 + lam ‖A‖ * dt ≤ Real.exp (lam ‖A‖ * dt) := by linarith [Real.add_one_le_exp (lam ‖A‖ * dt)]
    refine (pow_le_pow_left₀ (by positivity) h2 k).trans ?_
    rw [← Real.exp_nat_mul]
    refine Real.exp_le_exp.2 ?_
    nlinarith
  have e3 : (k : ℝ) * η ≤ T * (‖A‖ ^ order m * V) * dt ^ order m := by
    rw [hη]
    have := mul_le_mul_of_nonneg_right hk (show 0 ≤ ‖A‖ ^ order m * V * dt ^ order m by positivity)
    nlinarith
  refine (mul_le_mul hpow e3 (by positivity) (Real.exp_pos _).le).trans (le_of_eq (by ring))

/-! ## Material data that is Lipschitz on a range of temperatures only -/

/-- All temperatures are in `[lo, hi]`. -/
def InRange (lo hi : ℝ) (y : ι → ℝ) : Prop := ∀ i, lo ≤ y i ∧ y i ≤ hi

/-- `u` is an exact solution of `u' = f(s, u)` on `[t, t + T]` except at the finitely many times `J`, with rates bounded by `B`; it
keeps a distance `ρ` from the ends of a range of temperatures `[lo, hi]` on which `f` has Lipschitz constant `L`. -/
structure LocalSolution (f : ℝ → (ι → ℝ) → ι → ℝ) (J : Finset ℝ) (lo hi ρ L B t T : ℝ) (u : ℝ → ι → ℝ) : Prop where
  pos : 0 < ρ
  nonneg : 0 ≤ L
  range : ∀ s ∈ Icc t (t + T), InRange (lo + ρ) (hi - ρ) (u s)
  lip : ∀ s y z, InRange lo hi y → InRange lo hi z → ‖f s y - f s z‖ ≤ L * ‖y - z‖
  bound : ∀ s ∈ Icc t (t + T), ∀ r ∈ Icc t (t + T), ‖f r (u s)‖ ≤ B
  rate : ∀ s ∈ Icc t (t + T), ∀ r ∈ Icc t (t + T), s ≤ r → ‖u r - u s‖ ≤ B * (r - s)
  deriv : ∀ s ∈ Icc t (t + T), s ∉ J → HasDerivWithinAt u (f s (u s)) (Icc t (t + T)) s

/-- Temperatures cut off at the ends of the range. -/
noncomputable def clamp (lo hi : ℝ) (y : ι → ℝ) (i : ι) : ℝ := max lo (min (y i) hi)

theorem clamp_lip (lo hi : ℝ) (y z : ι → ℝ) : ‖clamp lo hi y - clamp lo hi z‖ ≤ ‖y - z‖ := by
  refine (pi_norm_le_iff_of_nonneg (norm_nonneg _)).2 fun i => ?_
  refine le_trans ?_ (norm_le_pi_norm (y - z) i)
  simp only [clamp, Pi.sub_apply, Real.norm_eq_abs]
  rw [max_comm lo, max_comm lo]
  refine (abs_max_sub_max_le_abs _ _ _).trans ?_
  exact abs_min_sub_min_le_max _ _ _ _ |>.trans (by simp)

omit [Fintype ι] in
theorem clamp_range {lo hi : ℝ} (h : lo ≤ hi) (y : ι → ℝ) : InRange lo hi (clamp lo hi y) := fun i =>
  ⟨le_max_left _ _, max_le h (min_le_right _ _)⟩

omit [Fintype ι] in
theorem clamp_id {lo hi : ℝ} {y : ι → ℝ} (h : InRange lo hi y) : clamp lo hi y = y := by
  funext i
  obtain ⟨a, b⟩ := h i
  rw [clamp, min_eq_left b, max_eq_right a]

theorem range_near {lo hi ρ : ℝ} {y z : ι → ℝ} (h : InRange (lo + ρ) (hi - ρ) y) (hz : ‖z - y‖ ≤ ρ) : InRange lo hi z := by
  intro i
  have := (norm_le_pi_norm (z - y) i).trans hz
  rw [Pi.sub_apply, Real.norm_eq_abs, abs_le] at this
  obtain ⟨a, b⟩ := h i
  exact ⟨by linarith, by linarith⟩

/-- If all stages of a step with `g` stay where `f` and `g` agree, both make the same step. -/
theorem incr_agree {f g : ℝ → (ι → ℝ) → ι → ℝ} {lo hi K ρ t h : ℝ} {y : ι → ℝ} (h0 : 0 ≤ h) (hy : InRange (lo + ρ) (hi - ρ) y)
    (hρ : 0 ≤ ρ) (hK : ∀ r, t ≤ r → r ≤ t + h → ∀ z, ‖g r z‖ ≤ K) (hh : h * (3 * K) ≤ ρ)
    (hfg : ∀ r z, InRange lo hi z → f r z = g r z) (m : Method) : incr f t h y m = incr g t h y m := by
  have hK0 : 0 ≤ K := (norm_nonneg _).trans (hK t le_rfl (by linarith) 0)
  have hst : ∀ (c : ℝ) (a : ι → ℝ), 0 ≤ c → c ≤ h → ‖a‖ ≤ 3 * K → InRange lo hi (y + c • a) := by
    intro c a hc hch ha
    refine range_near hy ?_
    rw [add_sub_cancel_left, norm_smul, Real.norm_of_nonneg hc]
    refine (mul_le_mul hch ha (norm_nonneg _) h0).trans hh
  have hm1 : t ≤ t + h / 2 := by linarith
  have hm2 : t + h / 2 ≤ t + h := by linarith
  have he1 : t ≤ t + h := by linarith
  have h20 : 0 ≤ h / 2 := by linarith
  have h2h : h / 2 ≤ h := by linarith
  have y0 : InRange lo hi y := range_near hy (by simpa using hρ)
  have e1 : f t y = g t y := hfg t y y0
  have n1 := hK t le_rfl he1 y
  have e2 : f (t + h / 2) (y + (h / 2) • g t y) = g (t + h / 2) (y + (h / 2) • g t y) :=
    hfg _ _ (hst _ _ h20 h2h (by linarith))
  have n2 := hK (t + h / 2) hm1 hm2 (y + (h / 2) • g t y)
  cases m with
  | forwardEuler => exact e1
  | rk3 =>
    have ha : ‖(2 : ℝ) • g (t + h / 2) (y + (h / 2) • g t y) - g t y‖ ≤ 3 * K := by
      refine (norm_sub_le _ _).trans ?_
      rw [norm_smul, Real.norm_of_nonneg (by norm_num : (0 : ℝ) ≤ 2)]
      linarith
    have e3 := hfg (t + h) _ (hst h _ h0 le_rfl ha)
    simp only [incr, e1, e2, e3]
  | rk4 =>
    have e3 : f (t + h / 2) (y + (h / 2) • g (t + h / 2) (y + (h / 2) • g t y)) =
        g (t + h / 2) (y + (h / 2) • g (t + h / 2) (y + (h / 2) • g t y)) := hfg _ _ (hst _ _ h20 h2h (by linarith))
    have n3 := hK (t + h / 2) hm1 hm2 (y + (h / 2) • g (t + h / 2) (y + (h / 2) • g t y))
    have e4 := hfg (t + h) _ (hst h _ h0 le_rfl (n3.trans (by linarith)))
    simp only [incr, e1, e2, e3, e4]

/-- **C115**, convergence for material data that is Lipschitz on the range of temperatures that occurs only (radiation,
temperature-dependent properties): the computed temperatures at all steps up to the end of the interval are arbitrarily close to
the exact ones for all small enough time steps, with each of the three methods. -/
theorem C115_convergence_local (op : Operator ι) (J : Finset ℝ) (lo hi ρ L B t T : ℝ) (u : ℝ → ι → ℝ)
    (hu : LocalSolution (rhs op) J lo hi ρ L B t T u) (hmod : ∀ ε > 0, ∃ δ > 0, Modulus (rhs op) J t T u δ ε) (m : Method)
    (ε : ℝ) (hε : 0 < ε) :
    ∃ δ > 0, ∀ dt, 0 < dt → dt ≤ δ → ∀ k : ℕ, k * dt ≤ T →
      ∃ z op', steps (some m) dt k (t, u t, op) = some (t + k * dt, z, op') ∧ ∀ i, |z i - u (t + k * dt) i| ≤ ε := by
  by_cases hT : 0 ≤ T
  swap
  · refine ⟨1, one_pos, fun dt h0 _ k hk => ?_⟩
    have : (0 : ℝ) ≤ k * dt := by positivity
    linarith
  by_cases hι : Nonempty ι
  swap
  · refine ⟨1, one_pos, fun dt h0 _ k hk => ?_⟩
    obtain ⟨op', h⟩ := steps_eq m dt k t (u t) op
    exact ⟨_, op', h, fun i => absurd ⟨i⟩ hι⟩
  obtain ⟨i0⟩ := hι
  have ht0 : t ∈ Icc t (t + T) := ⟨le_rfl, by linarith⟩
  have hρ := hu.pos
  have hL := hu.nonneg
  have hlh : lo ≤ hi := by have := hu.range t ht0 i0; linarith
  have hr0 : ∀ s ∈ Icc t (t + T), InRange lo hi (u s) := fun s hs => range_near (hu.range s hs) (by simpa using hρ.le)
  have hB0 : 0 ≤ B := (norm_nonneg _).trans (hu.bound t ht0 t ht0)
  set g : ℝ → (ι → ℝ) → ι → ℝ := fun s y => rhs op s (clamp lo hi y) with hg
  have hfg : ∀ r z, InRange lo hi z → rhs op r z = g r z := fun r z hz => by rw [hg]; simp only [clamp_id hz]
  have hgu : Solution g J L B t T u := by
    refine ⟨hL, fun s y z => ?_, fun s hs r hr => ?_, hu.rate, fun s hs hj => ?_⟩
    · exact (hu.lip s _ _ (clamp_range hlh y) (clamp_range hlh z)).trans (mul_le_mul_of_nonneg_left (clamp_lip lo hi y z) hL)
    · rw [← hfg r _ (hr0 s hs)]; exact hu.bound s hs r hr
    · rw [← hfg s _ (hr0 s hs)]; exact hu.deriv s hs hj
  have hgm : ∀ ε > 0, ∃ δ > 0, Modulus g J t T u δ ε := by
    intro ε hε
    obtain ⟨δ, hδ, h⟩ := hmod ε hε
    refine ⟨δ, hδ, fun s hs r hr a b c => ?_⟩
    rw [← hfg r _ (hr0 s hs), ← hfg s _ (hr0 s hs)]
    exact h s hs r hr a b c
  -- an operator with the cut-off right-hand side
  let op1 : Operator ι := ⟨fun _ _ => 0, g, fun _ => 1, t⟩
  have hop1 : rhs op1 = g := by
    funext s y i
    simp [rhs, op1]
  obtain ⟨δ, hδ, hconv⟩ := C115_convergence op1 J L B t T u (hop1 ▸ hgu) (hop1 ▸ hgm) m (min ε (ρ / 2)) (lt_min hε (by positivity))
  set K := B + L * (hi - lo) with hKd
  have hK0 : 0 ≤ K := by
    have : 0 ≤ L * (hi - lo) := mul_nonneg hL (by linarith)
    linarith
  have hKb : ∀ r ∈ Icc t (t + T), ∀ z, ‖g r z‖ ≤ K := by
    intro r hr z
    have a := hu.lip r (clamp lo hi z) (u t) (clamp_range hlh z) (hr0 t ht0)
    have b := hu.bound t ht0 r hr
    have c : ‖clamp lo hi z - u t‖ ≤ hi - lo := by
      refine (pi_norm_le_iff_of_nonneg (by linarith)).2 fun i => ?_
      obtain ⟨p, q⟩ := clamp_range hlh z i
      obtain ⟨p', q'⟩ := hr0 t ht0 i
      rw [Pi.sub_apply, Real.norm_eq_abs, abs_le]
      exact ⟨by linarith, by linarith⟩
    have d := mul_le_mul_of_nonneg_left c hL
    have e : g r z = (rhs op r (clamp lo hi z) - rhs op r (u t)) + rhs op r (u t) := by rw [sub_add_cancel]
    rw [e]
    exact (norm_add_le _ _).trans (by linarith)
  refine ⟨min δ (ρ / (2 * (3 * K + 1))), lt_min hδ (by positivity), fun dt h0 hdt k hk => ?_⟩
  have d1 : dt ≤ δ := hdt.trans (min_le_left _ _)
  have d2 : dt * (3 * K) ≤ ρ / 2 := by
    have := hdt.trans (min_le_right _ _)
    rw [le_div_iff₀ (by positivity)] at this
    nlinarith
  -- the two operators make the same steps
  have hnear : ∀ n : ℕ, n ≤ k → ‖run g m dt t (u t) n - u (t + n * dt)‖ ≤ min ε (ρ / 2) := by
    intro n hn
    have hnk : (n : ℝ) * dt ≤ k * dt := mul_le_mul_of_nonneg_right (by exact_mod_cast hn) h0.le
    obtain ⟨z, op', hz1, hz2⟩ := hconv dt h0 d1 n (hnk.trans hk)
    obtain ⟨op'', hz3⟩ := steps_eq m dt n t (u t) op1
    rw [hz1, hop1, runOf_run] at hz3
    simp only [Option.some.injEq, Prod.mk.injEq] at hz3
    rw [← hz3.2.1]
    refine (pi_norm_le_iff_of_nonneg (le_min hε.le (by positivity))).2 fun i => hz2 i
  have hsame : ∀ n : ℕ, n ≤ k → run (rhs op) m dt t (u t) n = run g m dt t (u t) n := by
    intro n
    induction n with
    | zero => intro _; rfl
    | succ n ih =>
      intro hn
      rw [run, run, ih (by omega)]
      have hnk : ((n : ℝ) + 1) * dt ≤ k * dt := mul_le_mul_of_nonneg_right (by exact_mod_cast hn) h0.le
      have hn0 : (0 : ℝ) ≤ n * dt := by positivity
      have hs : t + n * dt ∈ Icc t (t + T) := ⟨by linarith, by linarith⟩
      have hy : InRange (lo + ρ / 2) (hi - ρ / 2) (run g m dt t (u t) n) := by
        have := (hnear n (by omega)).trans (min_le_right _ _)
        refine range_near (ρ := ρ / 2) (y := u (t + n * dt)) ?_ this
        intro i
        obtain ⟨a, b⟩ := hu.range _ hs i
        exact ⟨by linarith, by linarith⟩
      rw [incr_agree h0.le hy (by positivity) (fun r a b => hKb r ⟨hs.1.trans a, by linarith⟩) d2 hfg m]
  obtain ⟨op', h⟩ := steps_eq m dt k t (u t) op
  refine ⟨_, op', h, fun i => ?_⟩
  rw [runOf_run, hsame k le_rfl]
  refine le_trans (norm_le_pi_norm (run g m dt t (u t) k - u (t + k * dt)) i) ?_
  exact (hnear k le_rfl).trans (min_le_left _ _)

end Verif.Assembly
