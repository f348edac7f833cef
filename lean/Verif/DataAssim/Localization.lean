import Mathlib.Analysis.Calculus.Deriv.MeanValue
import Mathlib.Analysis.Calculus.Deriv.Pow
import Mathlib.Analysis.Calculus.Deriv.Inv
import Mathlib.Tactic.Linarith
import Mathlib.Tactic.Ring
import Mathlib.Tactic.FieldSimp
import Mathlib.Tactic.Positivity

/-!
# C50: localisation functions

`DataAssimilator::gaspari_cohn_function`, `source/DataAssimilator.cc:672-688`, and the localisation of
`DataAssimilator::calc_sample_covariance_sparse`, `:729-745`.
-/

namespace Verif.DataAssim

open Set

/-- First branch, `DataAssimilator.cc:676-677`. -/
noncomputable def gc1 (r : ℝ) : ℝ := 1 - 5 / 3 * r ^ 2 + 5 / 8 * r ^ 3 + 0.5 * r ^ 4 - 0.25 * r ^ 5

/-- Second branch, lines 681-682. -/
noncomputable def gc2 (r : ℝ) : ℝ :=
  4 - 5 * r + 5 / 3 * r ^ 2 + 5 / 8 * r ^ 3 - 0.5 * r ^ 4 + 1 / 12 * r ^ 5 - 2 / (3 * r)

open Classical in
/-- `gaspari_cohn_function`, lines 672-688. -/
noncomputable def gaspariCohn (r : ℝ) : ℝ := if r < 1 then gc1 r else if r < 2 then gc2 r else 0

/-- `LocalizationCutoff`, `DataAssimilator.hh`. -/
inductive Cutoff where
  | gaspariCohn
  | stepFunction
  | none
deriving DecidableEq

open Classical in
/-- The scaling of an entry between two simulation dofs, `DataAssimilator.cc:730-744`. -/
noncomputable def localization (c : Cutoff) (cutoff dist : ℝ) : ℝ :=
  match c with
  | Cutoff.gaspariCohn => gaspariCohn (2 * dist / cutoff)
  | Cutoff.stepFunction => if cutoff < dist then 0 else 1
  | Cutoff.none => 1

/-! ## Calculus -/

theorem gc_match_one : gc1 1 = gc2 1 := by unfold gc1 gc2; norm_num

theorem gc_match_two : gc2 2 = 0 := by unfold gc2; norm_num

theorem hasDerivAt_gc1 (r : ℝ) : HasDerivAt gc1 (r * (-10 / 3 + 15 / 8 * r + 2 * r ^ 2 - 5 / 4 * r ^ 3)) r := by
  have h := ((((hasDerivAt_const r (1 : ℝ)).sub ((hasDerivAt_pow 2 r).const_mul (5 / 3))).add
    ((hasDerivAt_pow 3 r).const_mul (5 / 8))).add ((hasDerivAt_pow 4 r).const_mul 0.5)).sub
    ((hasDerivAt_pow 5 r).const_mul 0.25)
  refine (h.congr_deriv ?_)
  norm_num
  ring

theorem hasDerivAt_gc2 (r : ℝ) (hr : r ≠ 0) :
    HasDerivAt gc2 ((r - 2) ^ 3 * (10 * r ^ 3 + 12 * r ^ 2 - 3 * r - 2) / (24 * r ^ 2)) r := by
  have hi : HasDerivAt (fun x : ℝ => 2 / (3 * x)) (-2 / (3 * r ^ 2)) r := by
    have h0 : HasDerivAt (fun x : ℝ => 2 / 3 * x⁻¹) (2 / 3 * -(r ^ 2)⁻¹) r := (hasDerivAt_inv hr).const_mul (2 / 3)
    have e : (fun x : ℝ => 2 / (3 * x)) = fun x : ℝ => 2 / 3 * x⁻¹ := by
      funext x
      rw [div_mul_eq_div_div, div_eq_mul_inv]
    rw [e]
    refine h0.congr_deriv ?_
    field_simp
  have h := ((((((hasDerivAt_const r (4 : ℝ)).sub ((hasDerivAt_id r).const_mul 5)).add
    ((hasDerivAt_pow 2 r).const_mul (5 / 3))).add ((hasDerivAt_pow 3 r).const_mul (5 / 8))).sub
    ((hasDerivAt_pow 4 r).const_mul 0.5)).add ((hasDerivAt_pow 5 r).const_mul (1 / 12))).sub hi
  refine (h.congr_deriv ?_)
  field_simp
  norm_num
  ring

theorem gc1_antitone : AntitoneOn gc1 (Icc 0 1) := by
  apply antitoneOn_of_deriv_nonpos (convex_Icc 0 1)
  · exact fun x _ => (hasDerivAt_gc1 x).continuousAt.continuousWithinAt
  · exact fun x _ => (hasDerivAt_gc1 x).differentiableAt.differentiableWithinAt
  · intro x hx
    rw [interior_Icc] at hx
    obtain ⟨h0, h1⟩ := hx
    rw [(hasDerivAt_gc1 x).deriv]
    apply mul_nonpos_of_nonneg_of_nonpos h0.le
    nlinarith [mul_nonneg h0.le (sub_nonneg.2 h1.le), mul_nonneg (mul_nonneg h0.le h0.le) (sub_nonneg.2 h1.le)]

theorem gc2_antitone : AntitoneOn gc2 (Icc 1 2) := by
  have hne : ∀ x ∈ Icc (1 : ℝ) 2, x ≠ 0 := fun x hx => by have := hx.1; intro h; rw [h] at this; norm_num at this
  apply antitoneOn_of_deriv_nonpos (convex_Icc 1 2)
  · exact fun x hx => (hasDerivAt_gc2 x (hne x hx)).continuousAt.continuousWithinAt
  · exact fun x hx => (hasDerivAt_gc2 x (hne x (interior_subset hx))).differentiableAt.differentiableWithinAt
  · intro x hx
    have hx' := interior_subset hx
    rw [(hasDerivAt_gc2 x (hne x hx')).deriv]
    obtain ⟨h1, h2⟩ := hx'
    apply div_nonpos_of_nonpos_of_nonneg
    · apply mul_nonpos_of_nonpos_of_nonneg
      · have : (2 - x) ^ 3 ≥ 0 := pow_nonneg (by linarith) 3
        nlinarith
      · nlinarith [mul_nonneg (sub_nonneg.2 h1) (sub_nonneg.2 h1), sq_nonneg x]
    · positivity

/-! ## C50 -/

theorem gc_of_le_one {r : ℝ} (h : r ≤ 1) : gaspariCohn r = gc1 r := by
  unfold gaspariCohn
  rcases h.lt_or_eq with h | h
  · rw [if_pos h]
  · subst h
    rw [if_neg (lt_irrefl _), if_pos (by norm_num), gc_match_one]

theorem gc_of_mid {r : ℝ} (h1 : 1 ≤ r) (h2 : r ≤ 2) : gaspariCohn r = gc2 r := by
  unfold gaspariCohn
  rw [if_neg (not_lt.2 h1)]
  rcases h2.lt_or_eq with h | h
  · rw [if_pos h]
  · subst h
    rw [if_neg (lt_irrefl _), gc_match_two]

theorem gc_of_ge_two {r : ℝ} (h : 2 ≤ r) : gaspariCohn r = 0 := by
  unfold gaspariCohn
  rw [if_neg (by linarith), if_neg (by linarith)]

/-- **C50**: the Gaspari–Cohn function is non-increasing on all non-negative arguments, … -/
theorem C50_gaspari_cohn_antitone : AntitoneOn gaspariCohn (Ici 0) := by
  intro s hs r _ hsr
  have hs0 : (0 : ℝ) ≤ s := hs
  have a1 : ∀ {a b : ℝ}, 0 ≤ a → a ≤ b → b ≤ 1 → gaspariCohn b ≤ gaspariCohn a := fun {a b} h0 h h1 => by
    rw [gc_of_le_one h1, gc_of_le_one (h.trans h1)]
    exact gc1_antitone ⟨h0, h.trans h1⟩ ⟨h0.trans h, h1⟩ h
  have a2 : ∀ {a b : ℝ}, 1 ≤ a → a ≤ b → b ≤ 2 → gaspariCohn b ≤ gaspariCohn a := fun {a b} h0 h h1 => by
    rw [gc_of_mid (h0.trans h) h1, gc_of_mid h0 (h.trans h1)]
    exact gc2_antitone ⟨h0, h.trans h1⟩ ⟨h0.trans h, h1⟩ h
  have a3 : ∀ {a b : ℝ}, 2 ≤ a → a ≤ b → gaspariCohn b ≤ gaspariCohn a := fun {a b} h0 h => by
    rw [gc_of_ge_two h0, gc_of_ge_two (h0.trans h)]
  rcases le_total r 1 with hr1 | hr1
  · exact a1 hs0 hsr hr1
  rcases le_total r 2 with hr2 | hr2
  · rcases le_total s 1 with hs1 | hs1
    · exact (a2 le_rfl hr1 hr2).trans (a1 hs0 hs1 le_rfl)
    · exact a2 hs1 hsr hr2
  · have h2 : gaspariCohn r ≤ gaspariCohn 2 := a3 le_rfl hr2
    rcases le_total s 1 with hs1 | hs1
    · exact h2.trans ((a2 le_rfl (by norm_num) le_rfl).trans (a1 hs0 hs1 le_rfl))
    · rcases le_total s 2 with hs2 | hs2
      · exact h2.trans (a2 hs1 hs2 le_rfl)
      · exact a3 hs2 hsr

/-- … continuous for non-negative arguments, … -/
theorem C50_gaspari_cohn_continuous : ContinuousOn gaspariCohn (Ici 0) := by
  have h1 : ContinuousOn gaspariCohn (Icc 0 1) :=
    (show ContinuousOn gc1 (Icc 0 1) from fun x _ => (hasDerivAt_gc1 x).continuousAt.continuousWithinAt).congr
      fun x hx => gc_of_le_one hx.2
  have h2 : ContinuousOn gaspariCohn (Icc 1 2) :=
    (show ContinuousOn gc2 (Icc 1 2) from fun x hx => (hasDerivAt_gc2 x (by
      intro h; have := hx.1; rw [h] at this; norm_num at this)).continuousAt.continuousWithinAt).congr
      fun x hx => gc_of_mid hx.1 hx.2
  have h3 : ContinuousOn gaspariCohn (Ici 2) :=
    (continuousOn_const (c := (0 : ℝ))).congr fun x hx => gc_of_ge_two hx
  have h12 := h1.union_of_isClosed h2 isClosed_Icc isClosed_Icc
  have h123 := h12.union_of_isClosed h3 (isClosed_Icc.union isClosed_Icc) isClosed_Ici
  refine h123.mono ?_
  intro x hx
  rcases le_total x 1 with h | h
  · exact Or.inl (Or.inl ⟨hx, h⟩)
  · rcases le_total x 2 with h' | h'
    · exact Or.inl (Or.inr ⟨h, h'⟩)
    · exact Or.inr h'

/-- … 1 at distance 0, 0 from the cutoff on, and between 0 and 1 everywhere. -/
theorem C50_gaspari_cohn_values :
    gaspariCohn 0 = 1 ∧ (∀ r, 2 ≤ r → gaspariCohn r = 0) ∧ (∀ r, 0 ≤ r → 0 ≤ gaspariCohn r ∧ gaspariCohn r ≤ 1) := by
  have h0 : gaspariCohn 0 = 1 := by
    rw [gc_of_le_one (by norm_num)]; unfold gc1; norm_num
  refine ⟨h0, fun r hr => gc_of_ge_two hr, fun r hr => ⟨?_, ?_⟩⟩
  · rcases le_total r 2 with h | h
    · rw [← gc_of_ge_two (le_refl 2)]
      exact C50_gaspari_cohn_antitone hr (show (0 : ℝ) ≤ 2 by norm_num) h
    · rw [gc_of_ge_two h]
  · rw [← h0]
    exact C50_gaspari_cohn_antitone (le_refl (0 : ℝ)) hr hr

/-- **C50** for the scaling actually applied, with a positive cutoff distance: a taper for every choice of the localisation function. -/
theorem C50_taper (c : Cutoff) (cutoff : ℝ) (hc : 0 < cutoff) :
    localization c cutoff 0 = 1 ∧ (∀ dist, 0 ≤ dist → 0 ≤ localization c cutoff dist ∧ localization c cutoff dist ≤ 1) ∧
    (∀ a b, 0 ≤ a → a ≤ b → localization c cutoff b ≤ localization c cutoff a) ∧
    (c ≠ Cutoff.none → ∀ dist, cutoff < dist → localization c cutoff dist = 0) ∧
    (c = Cutoff.stepFunction → ∀ dist, dist ≤ cutoff → localization c cutoff dist = 1) := by
  cases c with
  | gaspariCohn =>
    refine ⟨?_, ?_, ?_, ?_, by simp⟩
    · simp only [localization, mul_zero, zero_div]; exact C50_gaspari_cohn_values.1
    · intro dist hd
      exact C50_gaspari_cohn_values.2.2 _ (by positivity)
    · intro a b ha hab
      exact C50_gaspari_cohn_antitone (show (0 : ℝ) ≤ 2 * a / cutoff by positivity)
        (show (0 : ℝ) ≤ 2 * b / cutoff by have := ha.trans hab; positivity)
        ((div_le_div_iff_of_pos_right hc).2 (by linarith))
    · intro _ dist hd
      apply gc_of_ge_two
      rw [le_div_iff₀ hc]
      linarith
  | stepFunction =>
    refine ⟨?_, ?_, ?_, ?_, ?_⟩
    · simp only [localization, if_neg (not_lt.2 hc.le)]
    · intro dist _
      simp only [localization]
      split_ifs <;> norm_num
    · intro a b _ hab
      simp only [localization]
      split_ifs with h1 h2 h2
      · exact le_refl _
      · norm_num
      · linarith
      · exact le_refl _
    · intro _ dist hd
      simp only [localization, if_pos hd]
    · intro _ dist hd
      simp only [localization, if_neg (not_lt.2 hd)]
  | none => exact ⟨rfl, fun _ _ => ⟨by simp [localization], by simp [localization]⟩, fun _ _ _ _ => le_refl _, by simp, by simp⟩

/-- A value strictly between 0 and 1: half way to the cutoff. -/
example : localization Cutoff.gaspariCohn 10 5 = 5 / 24 := by
  have h : gaspariCohn 1 = 5 / 24 := by rw [gc_of_le_one le_rfl]; unfold gc1; norm_num
  simp only [localization]
  norm_num
  exact h

end Verif.DataAssim
