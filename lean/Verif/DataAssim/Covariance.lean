import Verif.DataAssim.Localization
import Mathlib.Algebra.BigOperators.Field
import Mathlib.Algebra.Order.BigOperators.Ring.Finset
import Mathlib.Algebra.BigOperators.Ring.Finset
import Mathlib.Algebra.BigOperators.Fin
import Mathlib.Data.Fintype.BigOperators
import Mathlib.Data.Fintype.Sum
import Mathlib.Data.Real.Sqrt
import Mathlib.Data.Fin.VecNotation
import Mathlib.Tactic.NormNum

/-!
# C51, C78: the sample covariance

`DataAssimilator::calc_sample_covariance_sparse`, `source/DataAssimilator.cc:690-752`, and the sparsity pattern of
`DataAssimilator::update_covariance_sparsity_pattern`, `:512-612`.
-/

namespace Verif.DataAssim

variable {n : ℕ} {ι : Type}

/-- `mean`, `DataAssimilator.cc:697-709` (`vec_ensemble` = `x`, `n` members). -/
noncomputable def sampleMean (x : Fin n → ι → ℝ) (i : ι) : ℝ := (∑ k, x k i) / n

/-- `element_value` before localisation, lines 719-727. With one member it is `0/0` (NaN in C++, see `sampleCov?`). -/
noncomputable def sampleCov (x : Fin n → ι → ℝ) (i j : ι) : ℝ :=
  (∑ k, (x k i - sampleMean x i) * (x k j - sampleMean x j)) / (n - 1)

open Classical in
/-- The computation with its failures: no member (`vec_ensemble[0]` out of bounds) or a division by `n - 1.0 = 0`. -/
noncomputable def sampleCov? (x : Fin n → ι → ℝ) (i j : ι) : Option ℝ :=
  if n = 0 ∨ ((n : ℝ) - 1 = 0) then none else some (sampleCov x i j)

/-! ## C51 -/

/-- **C51**: with at least two members the value is the unbiased covariance, characterised without the mean: the sum over all pairs of members of
the products of differences, divided by `2 n (n-1)`; a single member gives no finite value. -/
theorem C51_unbiased (x : Fin n → ι → ℝ) (i j : ι) :
    (2 ≤ n → sampleCov? x i j = some ((∑ k, ∑ l, (x k i - x l i) * (x k j - x l j)) / (2 * n * (n - 1)))) ∧
    (n ≤ 1 → sampleCov? x i j = none) := by
  constructor
  · intro hn
    have h2 : (2 : ℝ) ≤ n := by exact_mod_cast hn
    unfold sampleCov?
    rw [if_neg (by
      rintro (h | h)
      · omega
      · linarith)]
    congr 1
    have hn0 : (n : ℝ) ≠ 0 := by linarith
    have hn1 : (n : ℝ) - 1 ≠ 0 := by linarith
    have e1 : ∑ k, (x k i - sampleMean x i) * (x k j - sampleMean x j) =
        (∑ k, x k i * x k j) - (∑ k, x k i) * (∑ k, x k j) / n := by
      have : ∀ k, (x k i - sampleMean x i) * (x k j - sampleMean x j) =
          x k i * x k j - sampleMean x i * x k j - x k i * sampleMean x j + sampleMean x i * sampleMean x j := fun k => by ring
      simp only [this, Finset.sum_add_distrib, Finset.sum_sub_distrib]
      rw [← Finset.mul_sum, ← Finset.sum_mul, Finset.sum_const, Finset.card_univ, Fintype.card_fin, nsmul_eq_mul]
      unfold sampleMean
      field_simp
      ring
    have e2 : ∑ k, ∑ l, (x k i - x l i) * (x k j - x l j) =
        2 * n * (∑ k, x k i * x k j) - 2 * ((∑ k, x k i) * (∑ k, x k j)) := by
      have : ∀ k l, (x k i - x l i) * (x k j - x l j) = x k i * x k j - x l i * x k j - x k i * x l j + x l i * x l j :=
        fun k l => by ring
      simp only [this, Finset.sum_add_distrib, Finset.sum_sub_distrib]
      simp only [← Finset.mul_sum, ← Finset.sum_mul, Finset.sum_const, Finset.card_univ, Fintype.card_fin, nsmul_eq_mul]
      have e3 : ∑ k, x k i * (n : ℝ) * x k j = n * ∑ k, x k i * x k j := by
        rw [Finset.mul_sum]
        exact Finset.sum_congr rfl fun k _ => by ring
      have e4 : ∑ k, (n : ℝ) * (x k i * x k j) = n * ∑ k, x k i * x k j := by rw [Finset.mul_sum]
      try rw [e4]
      ring_nf
      ring_nf at e3
      rw [e3]
      ring
    unfold sampleCov
    rw [e1, e2]
    field_simp
  · intro hn
    unfold sampleCov?
    rw [if_pos]
    rcases Nat.le_one_iff_eq_zero_or_eq_one.1 hn with h | h
    · exact Or.inl h
    · right; rw [h]; norm_num

/-- **C51**: symmetric. -/
theorem C51_symmetric (x : Fin n → ι → ℝ) (i j : ι) : sampleCov x i j = sampleCov x j i := by
  unfold sampleCov
  congr 1
  exact Finset.sum_congr rfl fun k _ => mul_comm _ _

theorem cov_quadratic [Fintype ι] (x : Fin n → ι → ℝ) (a : ι → ℝ) :
    ∑ i, ∑ j, a i * sampleCov x i j * a j = (∑ k, (∑ i, a i * (x k i - sampleMean x i)) ^ 2) / (n - 1) := by
  unfold sampleCov
  rw [Finset.sum_div]
  have h : ∀ k, (∑ i, a i * (x k i - sampleMean x i)) ^ 2 / ((n : ℝ) - 1) =
      ∑ i, ∑ j, a i * ((x k i - sampleMean x i) * (x k j - sampleMean x j) / (n - 1)) * a j := by
    intro k
    rw [sq, Finset.sum_mul_sum, Finset.sum_div]
    refine Finset.sum_congr rfl fun i _ => ?_
    rw [Finset.sum_div]
    exact Finset.sum_congr rfl fun j _ => by ring
  simp only [h]
  symm
  rw [Finset.sum_comm]
  refine Finset.sum_congr rfl fun i _ => ?_
  rw [Finset.sum_comm]
  refine Finset.sum_congr rfl fun j _ => ?_
  rw [Finset.sum_div, Finset.mul_sum, Finset.sum_mul]

/-- **C51**: positive semi-definite. -/
theorem C51_nonneg [Fintype ι] (x : Fin n → ι → ℝ) (hn : 2 ≤ n) (a : ι → ℝ) : 0 ≤ ∑ i, ∑ j, a i * sampleCov x i j * a j := by
  rw [cov_quadratic]
  have h2 : (2 : ℝ) ≤ n := by exact_mod_cast hn
  exact div_nonneg (Finset.sum_nonneg fun k _ => sq_nonneg _) (by linarith)

/-- **C51**: identical members have zero covariance, and a shift common to all members changes nothing. -/
theorem C51_identical_and_shift (x : Fin n → ι → ℝ) (hn : 2 ≤ n) (i j : ι) :
    ((∀ k l, x k i = x l i) → sampleCov x i j = 0) ∧
    (∀ s : ι → ℝ, sampleCov (fun k m => x k m + s m) i j = sampleCov x i j) := by
  have hn0 : (n : ℝ) ≠ 0 := by
    have : (2 : ℝ) ≤ n := by exact_mod_cast hn
    linarith
  constructor
  · intro h
    have hm : ∀ k, x k i = sampleMean x i := by
      intro k
      unfold sampleMean
      rw [Finset.sum_congr rfl fun l _ => h l k, Finset.sum_const, Finset.card_univ, Fintype.card_fin, nsmul_eq_mul]
      field_simp
    unfold sampleCov
    rw [Finset.sum_eq_zero fun k _ => by rw [hm k]; ring, zero_div]
  · intro s
    have hm : ∀ m, sampleMean (fun k m => x k m + s m) m = sampleMean x m + s m := by
      intro m
      unfold sampleMean
      rw [Finset.sum_add_distrib, Finset.sum_const, Finset.card_univ, Fintype.card_fin, nsmul_eq_mul]
      field_simp
    unfold sampleCov
    congr 1
    refine Finset.sum_congr rfl fun k _ => ?_
    rw [hm, hm]
    ring

/-- Two members, two entries. -/
example : sampleCov? (n := 2) (ι := Fin 2) (fun k i => if k = 0 then 1 else (3 + i.val)) 0 1 = some 3 := by
  rw [(C51_unbiased _ 0 1).1 (by norm_num)]
  simp [Fin.sum_univ_two]
  norm_num

/-! ## C78: the localised covariance -/

variable {S Q : Type}

open Classical in
/-- The matrix used by the filter.  `S`: simulation dofs, `Q`: parameters appended to the state.  Entries between two dofs exist only if the support
points are within the cutoff distance (sphere query, `:527-539`, `:581-584`) and are scaled by the localisation; all entries with a parameter are kept
unscaled (`:590-605`, `:731`). -/
noncomputable def localCov (c : Cutoff) (cutoff : ℝ) (dist : S → S → ℝ) (x : Fin n → (S ⊕ Q) → ℝ) : S ⊕ Q → S ⊕ Q → ℝ
  | Sum.inl i, Sum.inl j => if dist i j ≤ cutoff then sampleCov x (Sum.inl i) (Sum.inl j) * localization c cutoff (dist i j) else 0
  | a, b => sampleCov x a b

/-- **C78**: the localised covariance is symmetric if distances are. -/
theorem C78_symmetric_partial (c : Cutoff) (cutoff : ℝ) (dist : S → S → ℝ) (hd : ∀ i j, dist i j = dist j i) (x : Fin n → (S ⊕ Q) → ℝ) (a b : S ⊕ Q) :
    localCov c cutoff dist x a b = localCov c cutoff dist x b a := by
  rcases a with i | p <;> rcases b with j | q <;> simp only [localCov]
  · rw [hd i j, C51_symmetric]
  · exact C51_symmetric _ _ _
  · exact C51_symmetric _ _ _
  · exact C51_symmetric _ _ _

/-- **C78**: variances are not changed by the localisation. -/
theorem C78_variance_partial (c : Cutoff) (cutoff : ℝ) (hc : 0 < cutoff) (dist : S → S → ℝ) (hd : ∀ i, dist i i = 0) (x : Fin n → (S ⊕ Q) → ℝ) (a : S ⊕ Q) :
    localCov c cutoff dist x a a = sampleCov x a a := by
  rcases a with i | p
  · simp only [localCov, hd, if_pos hc.le, (C50_taper c cutoff hc).1, mul_one]
  · rfl

/-- **C78**: without localisation function, and with a cutoff distance at least the diameter of the mesh (the default), it is the sample covariance and
positive semi-definite. -/
theorem C78_none_partial [Fintype S] [Fintype Q] (cutoff : ℝ) (dist : S → S → ℝ) (h : ∀ i j, dist i j ≤ cutoff) (x : Fin n → (S ⊕ Q) → ℝ) (hn : 2 ≤ n) :
    (∀ a b, localCov Cutoff.none cutoff dist x a b = sampleCov x a b) ∧
    ∀ v : S ⊕ Q → ℝ, 0 ≤ ∑ a, ∑ b, v a * localCov Cutoff.none cutoff dist x a b * v b := by
  have h1 : ∀ a b, localCov Cutoff.none cutoff dist x a b = sampleCov x a b := by
    intro a b
    rcases a with i | p <;> rcases b with j | q <;> simp [localCov, localization, h]
  refine ⟨h1, fun v => ?_⟩
  simp only [h1]
  exact C51_nonneg x hn v

example : ∀ i j : Fin 3, (fun i j : Fin 3 => |(i.val : ℝ) - j.val|) i j ≤ 2 := by
  intro i j
  fin_cases i <;> fin_cases j <;> norm_num

/-- **C78**: the option `none` together with a cutoff distance localises like the step function. -/
theorem C78_none_with_cutoff_refuted (cutoff : ℝ) (dist : S → S → ℝ) (x : Fin n → (S ⊕ Q) → ℝ) :
    localCov Cutoff.none cutoff dist x = localCov Cutoff.stepFunction cutoff dist x := by
  funext a b
  rcases a with i | p <;> rcases b with j | q <;> simp only [localCov, localization]
  split_ifs with h1 h2
  · linarith
  · rfl
  · rfl

/-- Two members that differ by 1 in every entry: every covariance is 1/2. -/
noncomputable def perfectly (S Q : Type) : Fin 2 → (S ⊕ Q) → ℝ := fun k _ => k.val

theorem perfectly_cov (a b : S ⊕ Q) : sampleCov (perfectly S Q) a b = 1 / 2 := by
  simp [sampleCov, sampleMean, perfectly, Fin.sum_univ_two]
  norm_num

/-- **C78 refuted**, step function: three dofs on a line at distance 1, cutoff 1, two ensemble members: the matrix is not positive semi-definite. -/
theorem C78_step_refuted :
    ∃ v : Fin 3 ⊕ Fin 0 → ℝ,
      ∑ a, ∑ b, v a * localCov Cutoff.stepFunction 1 (fun i j : Fin 3 => |(i.val : ℝ) - j.val|) (perfectly (Fin 3) (Fin 0)) a b * v b < 0 := by
  refine ⟨Sum.elim ![1, -1.4, 1] (fun _ => 0), ?_⟩
  simp only [Sum.elim_inl, Sum.elim_inr, Fintype.sum_sum_type, Fin.sum_univ_three, localCov, perfectly_cov, localization]
  norm_num [show (![1, -(7 / 5), 1] : Fin 3 → ℝ) 2 = 1 from rfl]

/-- **C78 refuted**, Gaspari–Cohn with an estimated parameter: two dofs beyond the cutoff, one parameter: the entries between dofs are damped, those
with the parameter are not, and the matrix is not positive semi-definite (so it is no covariance of any random vector). -/
theorem C78_parameter_refuted :
    ∃ v : Fin 2 ⊕ Fin 1 → ℝ,
      ∑ a, ∑ b, v a * localCov Cutoff.gaspariCohn 1 (fun i j : Fin 2 => 5 * |(i.val : ℝ) - j.val|) (perfectly (Fin 2) (Fin 1)) a b * v b < 0 := by
  have h0 := (C50_gaspari_cohn_values).1
  refine ⟨Sum.elim (fun _ => 1) (fun _ => -1), ?_⟩
  simp only [Fintype.sum_sum_type, Fin.sum_univ_two, Fin.sum_univ_one, localCov, perfectly_cov, localization]
  norm_num [h0]

/-! ## C80: distances -/

/-- The distance map, `DataAssimilator.cc:565-584`, on one rank: `order` is the list of dofs in the order in which `get_dof_to_support_mapping` visits them
(`experimental_data_utils.cc:42-63`), `pos d` the support point of dof `d`, `owned` the sorted list of owned dofs.  The query works on positions in the list of
support points; rows and columns are `nth_index_in_set(position)`.  Entry for positions `p`, `q`: ((row, column), distance). -/
def distanceEntry {P : Type} (d : P → P → ℝ) (pos : ℕ → P) (order owned : List ℕ) (p q : ℕ) : Option ((ℕ × ℕ) × ℝ) := do
  let r ← owned[p]?
  let c ← owned[q]?
  let a ← order[p]?
  let b ← order[q]?
  return ((r, c), d (pos a) (pos b))

/-- **C80**: if the dofs are visited in increasing order, every entry of the distance map is the distance between the support points of its two dofs. -/
theorem C80_distance_partial {P : Type} (d : P → P → ℝ) (pos : ℕ → P) (order owned : List ℕ) (h : order = owned) (p q : ℕ) (e : (ℕ × ℕ) × ℝ)
    (he : distanceEntry d pos order owned p q = some e) : e.2 = d (pos e.1.1) (pos e.1.2) := by
  subst h
  unfold distanceEntry at he
  simp only [Option.bind_eq_bind, Option.pure_def, Option.bind_eq_some_iff, Option.some.injEq] at he
  obtain ⟨r, hr, c, hc, a, ha, b, hb, rfl⟩ := he
  rw [hr] at ha; rw [hc] at hb
  cases ha; cases hb
  rfl

/-- Visiting order matters: `nth_index_in_set` is used instead of `dof_indices`. -/
theorem C80_order_matters_refuted : ∃ e, distanceEntry (fun a b : ℝ => |a - b|) (fun n : ℕ => ((n : ℝ)) ^ 2) [2, 0, 1] [0, 1, 2] 0 1 = some e ∧
    e = ((0, 1), 4) ∧ |((0 : ℕ) : ℝ) ^ 2 - ((1 : ℕ) : ℝ) ^ 2| = 1 := by
  refine ⟨_, rfl, ?_, ?_⟩ <;> norm_num

end Verif.DataAssim
