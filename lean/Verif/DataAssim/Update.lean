import Verif.DataAssim.Covariance
import Verif.Mechanics.Cells
import Mathlib.LinearAlgebra.Matrix.NonsingularInverse
import Mathlib.LinearAlgebra.Matrix.ToLin
import Mathlib.LinearAlgebra.Matrix.FiniteDimensional
import Mathlib.LinearAlgebra.Matrix.Notation

/-!
# C52, C53, C56, C79, C81: observation operator and ensemble update

`DataAssimilator::calc_H`, `calc_Hx`, `update_ensemble`, `apply_kalman_gain`, `source/DataAssimilator.cc:95-189`, `:403-510`, `:614-628`, and
`get_expt_to_dof_mapping`, `set_with_experimental_data`, `source/experimental_data_utils.cc:68-138`.
-/

namespace Verif.DataAssim

open Matrix Verif.Mechanics

/-! ## C52 -/

/-- The mapping: pairs (observation index, dof index), i.e. `_expt_to_dof_mapping.first[i]`, `.second[i]`. -/
abbrev Mapping := List (ℕ × ℕ)

/-- Entry of the observation matrix, `DataAssimilator.cc:478-502`: `H.add(expt, sim, 1.0)` for every pair. -/
noncomputable def calcH (m : Mapping) (e s : ℕ) : ℝ := (m.map fun p => if p.1 = e ∧ p.2 = s then (1 : ℝ) else 0).sum

/-- `calc_Hx`, lines 614-628: a zero vector, then `out(expt) = x(sim)` for every pair. -/
noncomputable def calcHx (m : Mapping) (x : ℕ → ℝ) : ℕ → ℝ := writes (m.map fun p => (p.1, x p.2)) fun _ => 0

theorem calcH_apply (m : Mapping) (N : ℕ) (hN : ∀ p ∈ m, p.2 < N) (x : ℕ → ℝ) (e : ℕ) :
    ∑ s ∈ Finset.range N, calcH m e s * x s = (m.map fun p => if p.1 = e then x p.2 else 0).sum := by
  induction m with
  | nil => simp [calcH]
  | cons a as ih =>
    have h1 : ∀ s, calcH (a :: as) e s = (if a.1 = e ∧ a.2 = s then 1 else 0) + calcH as e s := fun s => by
      simp [calcH]
    simp only [h1, add_mul, Finset.sum_add_distrib, List.map_cons, List.sum_cons]
    rw [ih fun p hp => hN p (List.mem_cons_of_mem _ hp)]
    congr 1
    by_cases ha : a.1 = e
    · simp only [ha, true_and, if_true, ite_mul, one_mul, zero_mul]
      rw [Finset.sum_ite_eq (Finset.range N) a.2 x, if_pos (Finset.mem_range.2 (hN a List.mem_cons_self))]
    · simp [ha]

/-- **C52**: for every mapping in which no observation occurs twice, with dof indices inside the state, applying the observation matrix to a
state gives what `calc_Hx` computes; and that is, for each pair, the state at the dof the observation is mapped to. -/
theorem C52_observation (m : Mapping) (hnd : (m.map Prod.fst).Nodup) (N : ℕ) (hN : ∀ p ∈ m, p.2 < N) (x : ℕ → ℝ) :
    (∀ e, ∑ s ∈ Finset.range N, calcH m e s * x s = calcHx m x e) ∧ (∀ p ∈ m, calcHx m x p.1 = x p.2) := by
  have h2 : ∀ p ∈ m, calcHx m x p.1 = x p.2 := by
    intro p hp
    unfold calcHx
    apply writes_mem
    · exact List.mem_map.2 ⟨p, hp, rfl⟩
    · intro w hw hx
      obtain ⟨q, hq, rfl⟩ := List.mem_map.1 hw
      have hqp := List.inj_on_of_nodup_map hnd hq hp hx
      rw [hqp]
  refine ⟨fun e => ?_, h2⟩
  rw [calcH_apply m N hN]
  by_cases he : ∃ p ∈ m, p.1 = e
  · obtain ⟨p, hp, rfl⟩ := he
    rw [h2 p hp]
    clear h2 hN
    induction m with
    | nil => simp at hp
    | cons a as ih =>
      rw [List.map_cons, List.nodup_cons] at hnd
      rw [List.map_cons, List.sum_cons]
      rcases List.mem_cons.1 hp with rfl | hp
      · rw [if_pos rfl]
        have : ∀ q ∈ as, q.1 ≠ p.1 := fun q hq h => hnd.1 (h ▸ List.mem_map.2 ⟨q, hq, rfl⟩)
        have hz : (as.map fun q => if q.1 = p.1 then x q.2 else 0).sum = 0 := by
          apply List.sum_eq_zero
          intro y hy
          obtain ⟨q, hq, rfl⟩ := List.mem_map.1 hy
          rw [if_neg (this q hq)]
        rw [hz, add_zero]
      · rw [if_neg (fun h : a.1 = p.1 => hnd.1 (by rw [h]; exact List.mem_map.2 ⟨p, hp, rfl⟩)), zero_add]
        exact ih hnd.2 hp
  · push Not at he
    have h0 : calcHx m x e = 0 := by
      unfold calcHx
      rw [writes_not_mem]
      intro w hw
      obtain ⟨q, hq, rfl⟩ := List.mem_map.1 hw
      exact he q hq
    rw [h0]
    apply List.sum_eq_zero
    intro y hy
    obtain ⟨q, hq, rfl⟩ := List.mem_map.1 hy
    rw [if_neg (he q hq)]

/-- **C52** in matrix form, for an augmented state with `N` entries: the product used in the Kalman gain (`apply_kalman_gain`) and the prediction used in the innovation
(`calc_Hx`) are the same. -/
theorem C52_matrix (m : Mapping) (hnd : (m.map Prod.fst).Nodup) (nE N : ℕ) (hN : ∀ p ∈ m, p.2 < N) (x : ℕ → ℝ) (e : Fin nE) :
    ((Matrix.of fun (e : Fin nE) (s : Fin N) => calcH m e s) *ᵥ fun s : Fin N => x s) e = calcHx m x e := by
  rw [← (C52_observation m hnd N hN x).1 e, Finset.sum_range]
  rfl

/-- Two observations at the same dof, in another order than the dofs. -/
example : (([(0, 5), (1, 2), (2, 5)] : Mapping).map Prod.fst).Nodup ∧ ∀ p ∈ ([(0, 5), (1, 2), (2, 5)] : Mapping), p.2 < 6 := by decide

/-- The hypothesis is needed: with a repeated observation index the matrix adds the values while `calc_Hx` keeps the last. -/
theorem C52_needs_nodup :
    calcHx [(0, 1), (0, 2)] (fun s => s) 0 = 2 ∧ ∑ s ∈ Finset.range 3, calcH [(0, 1), (0, 2)] 0 s * (s : ℝ) = 3 := by
  constructor
  · simp [calcHx, writes]
  · simp [calcH, Finset.sum_range_succ]; norm_num

/-! ## the mapping -/

/-- What rank `r` stores for a query whose nearest support point is the `q.1`-th of rank `q.2`, `experimental_data_utils.cc:96-105`. -/
def rankEntry (dofs : ℕ → List ℕ) (r : ℕ) (q : ℕ × ℕ) : ℤ :=
  if q.2 = r then ((dofs r)[q.1]?.elim (-1) fun d => (d : ℤ)) else -1

/-- The maximum over the ranks, line 107. All values are at least -1, so -1 is neutral. -/
def globalEntry (dofs : ℕ → List ℕ) (nRanks : ℕ) (q : ℕ × ℕ) : ℤ :=
  (List.range nRanks).foldr (fun r acc => max (rankEntry dofs r q) acc) (-1)

/-- The mapping for a list of query results (each query has exactly one nearest point). -/
def exptMapping (dofs : ℕ → List ℕ) (nRanks : ℕ) (queries : List (ℕ × ℕ)) : List (ℕ × ℤ) :=
  queries.zipIdx.map fun p => (p.2, globalEntry dofs nRanks p.1)

theorem globalEntry_eq (dofs : ℕ → List ℕ) (nRanks : ℕ) (q : ℕ × ℕ) (d : ℕ) (hr : q.2 < nRanks) (hd : (dofs q.2)[q.1]? = some d) :
    globalEntry dofs nRanks q = d := by
  have key : ∀ l : List ℕ, l.foldr (fun r acc => max (rankEntry dofs r q) acc) (-1 : ℤ) = if q.2 ∈ l then (d : ℤ) else -1 := by
    intro l
    induction l with
    | nil => simp
    | cons a as ih =>
      rw [List.foldr_cons, ih]
      by_cases ha : q.2 = a
      · have h1 : rankEntry dofs a q = d := by
          subst ha
          simp [rankEntry, hd]
        rw [h1, if_pos (show q.2 ∈ a :: as by rw [ha]; exact List.mem_cons_self)]
        split_ifs
        · exact max_self _
        · exact max_eq_left (by omega)
      · have h1 : rankEntry dofs a q = -1 := by simp [rankEntry, ha]
        rw [h1]
        by_cases has : q.2 ∈ as
        · rw [if_pos has, if_pos (List.mem_cons_of_mem _ has)]; omega
        · rw [if_neg has, if_neg (by simp [ha, has])]; simp
  unfold globalEntry
  rw [key, if_pos (List.mem_range.2 hr)]

/-- **C52**: the mapping computed from the search: observation `i` is mapped to the global index of the support point nearest to it, whichever rank owns it, and
the observation indices are `0, 1, 2, …` in order (so the hypothesis of `C52_observation` holds). -/
theorem C52_mapping (dofs : ℕ → List ℕ) (nRanks : ℕ) (queries : List (ℕ × ℕ)) (i : ℕ) (q : ℕ × ℕ) (d : ℕ) (hq : queries[i]? = some q) (hr : q.2 < nRanks)
    (hd : (dofs q.2)[q.1]? = some d) :
    (exptMapping dofs nRanks queries)[i]? = some (i, (d : ℤ)) ∧ (exptMapping dofs nRanks queries).map Prod.fst = List.range queries.length := by
  constructor
  · unfold exptMapping
    simp [hq, globalEntry_eq dofs nRanks q d hr hd]
  · unfold exptMapping
    rw [List.map_map]
    apply List.ext_getElem?
    intro k
    by_cases hk : k < queries.length
    · simp [hk]
    · simp [hk]

example : exptMapping (fun r => if r = 0 then [4, 7] else [9, 3]) 2 [(1, 1), (0, 0), (0, 1)] = [(0, 3), (1, 4), (2, 9)] := by decide

/-! ## C56 -/

/-- `set_with_experimental_data`, `experimental_data_utils.cc:129-135`, on a rank owning the dofs in `owned`: the values of the observations written to the dofs they
are mapped to. -/
def setExperimental (owned : ℕ → Bool) (dofOf : List ℕ) (values : List ℝ) (t : ℕ → ℝ) : ℕ → ℝ :=
  writes (((dofOf.zip values).filter fun p => owned p.1)) t

/-- **C56**: exactly the owned entries some observation is mapped to are changed; each of them gets the value of the last observation mapped to it, so in
particular an observed value. -/
theorem C56_set (owned : ℕ → Bool) (dofOf : List ℕ) (values : List ℝ) (t : ℕ → ℝ) (d : ℕ) :
    ((owned d = false ∨ ∀ (i : ℕ) (v : ℝ), (dofOf.zip values)[i]? ≠ some (d, v)) → setExperimental owned dofOf values t d = t d) ∧
    (∀ (i : ℕ) (v : ℝ), owned d = true → (dofOf.zip values)[i]? = some (d, v) → (∀ (j : ℕ) (w : ℝ), i < j → (dofOf.zip values)[j]? ≠ some (d, w)) →
      setExperimental owned dofOf values t d = v) ∧
    (owned d = true → (∃ (i : ℕ) (v : ℝ), (dofOf.zip values)[i]? = some (d, v)) → ∃ (i : ℕ) (v : ℝ), (dofOf.zip values)[i]? = some (d, v) ∧ setExperimental owned dofOf values t d = v) := by
  unfold setExperimental
  generalize dofOf.zip values = l
  have last : ∀ (l : List (ℕ × ℝ)) (i : ℕ) (v : ℝ), owned d = true → l[i]? = some (d, v) → (∀ (j : ℕ) (w : ℝ), i < j → l[j]? ≠ some (d, w)) →
      writes (l.filter fun p => owned p.1) t d = v := by
    intro l i v ho h1 h2
    have hsplit : l = l.take i ++ (d, v) :: l.drop (i + 1) := by
      obtain ⟨hlt, he⟩ := List.getElem?_eq_some_iff.1 h1
      conv_lhs => rw [← List.take_append_drop i l]
      rw [List.drop_eq_getElem_cons hlt, he]
    rw [hsplit, List.filter_append, writes_append, List.filter_cons, if_pos ho]
    change writes (List.filter (fun p => owned p.1) (l.drop (i + 1))) (Function.update _ d v) d = v
    rw [writes_not_mem]
    · simp
    · intro w hw hx
      obtain ⟨k, hk⟩ := List.getElem?_of_mem (List.mem_filter.1 hw).1
      rw [List.getElem?_drop] at hk
      exact h2 (i + 1 + k) w.2 (by omega) (by rw [hk, ← hx])
  refine ⟨?_, last l, ?_⟩
  · intro h
    apply writes_not_mem
    intro w hw hx
    obtain ⟨hm, ho⟩ := List.mem_filter.1 hw
    rcases h with h | h
    · rw [hx, h] at ho; exact absurd ho (by simp)
    · obtain ⟨k, hk⟩ := List.getElem?_of_mem hm
      exact h k w.2 (by rw [hk, ← hx])
  · intro ho hex
    have : ∀ (l : List (ℕ × ℝ)), (∃ (i : ℕ) (v : ℝ), l[i]? = some (d, v)) → ∃ (i : ℕ) (v : ℝ), l[i]? = some (d, v) ∧ ∀ (j : ℕ) (w : ℝ), i < j → l[j]? ≠ some (d, w) := by
      intro l
      induction l with
      | nil => rintro ⟨i, v, h⟩; simp at h
      | cons a as ih =>
        rintro ⟨i, v, h⟩
        by_cases has : ∃ (i : ℕ) (v : ℝ), as[i]? = some (d, v)
        · obtain ⟨k, u, h1, h2⟩ := ih has
          refine ⟨k + 1, u, by simpa using h1, ?_⟩
          intro j w hj
          obtain ⟨j', rfl⟩ : ∃ j', j = j' + 1 := ⟨j - 1, by omega⟩
          rw [List.getElem?_cons_succ]
          exact h2 j' w (by omega)
        · push Not at has
          cases i with
          | zero =>
            refine ⟨0, v, h, ?_⟩
            intro j w hj
            obtain ⟨j', rfl⟩ : ∃ j', j = j' + 1 := ⟨j - 1, by omega⟩
            rw [List.getElem?_cons_succ]
            exact has j' w
          | succ i =>
            rw [List.getElem?_cons_succ] at h
            exact absurd h (has i v)
    obtain ⟨i, v, h1, h2⟩ := this l hex
    exact ⟨i, v, h1, last l i v ho h1 h2⟩

example : setExperimental (fun _ => true) [4, 2, 4] [10, 20, 30] (fun _ => 0) 4 = 30 := by
  simp [setExperimental, writes]

/-! ## C53 -/

variable {E A : Type} [Fintype E] [Fintype A] [DecidableEq E]

/-- `perturbed_innovation` of a member, `DataAssimilator.cc:138-146`, with the observed values `y`, the noise `u` and the state `x` (`calc_Hx` is `H x` by
`C52_observation`). -/
def innovation (H : Matrix E A ℝ) (y u : E → ℝ) (x : A → ℝ) : E → ℝ := fun e => u e + (y e - (H *ᵥ x) e)

/-- `apply_kalman_gain` and the update of a member, `:431-460` and `:178`: `solve` is the GMRES solver for `H P Hᵀ + R`. -/
def updateMember (solve : Matrix E E ℝ → (E → ℝ) → E → ℝ) (H : Matrix E A ℝ) (P : Matrix A A ℝ) (R : Matrix E E ℝ) (y u : E → ℝ)
    (x : A → ℝ) : A → ℝ :=
  x + P *ᵥ (Hᵀ *ᵥ solve (H * P * Hᵀ + R) (innovation H y u x))

/-- `update_ensemble`, `:95-189`, on the gathered ensemble; `none`: "Unexpected experiment vector size" (`:117`).  The covariance is computed
once, from the members before the update (`cov`). -/
def updateEnsemble {k : ℕ} (solve : Matrix E E ℝ → (E → ℝ) → E → ℝ) (cov : (Fin k → A → ℝ) → Matrix A A ℝ) (H : Matrix E A ℝ)
    (R : Matrix E E ℝ) (nData : ℕ) (y : E → ℝ) (u : Fin k → E → ℝ) (x : Fin k → A → ℝ) : Option (Fin k → A → ℝ) :=
  if Fintype.card E = nData then some fun m => updateMember solve H (cov x) R y (u m) (x m) else none

/-- Contract of the linear solver: it returns a solution of every solvable system. -/
def IsSolver (solve : Matrix E E ℝ → (E → ℝ) → E → ℝ) : Prop := ∀ M b, (∃ z, M *ᵥ z = b) → M *ᵥ solve M b = b

theorem solve_inv (solve : Matrix E E ℝ → (E → ℝ) → E → ℝ) (hs : IsSolver solve) (M : Matrix E E ℝ) (hM : IsUnit M.det) (b : E → ℝ) :
    solve M b = M⁻¹ *ᵥ b := by
  have h1 : M *ᵥ (M⁻¹ *ᵥ b) = b := by rw [mulVec_mulVec, mul_nonsing_inv M hM, one_mulVec]
  have h2 := hs M b ⟨_, h1⟩
  calc solve M b = M⁻¹ *ᵥ (M *ᵥ solve M b) := by rw [mulVec_mulVec, nonsing_inv_mul M hM, one_mulVec]
    _ = M⁻¹ *ᵥ b := by rw [h2]

/-- **C53**: each member moves by the Kalman gain `P Hᵀ (H P Hᵀ + R)⁻¹` applied to its own (perturbed) innovation, with the covariance of the ensemble before the
update. -/
theorem C53_gain {k : ℕ} (solve : Matrix E E ℝ → (E → ℝ) → E → ℝ) (hs : IsSolver solve) (cov : (Fin k → A → ℝ) → Matrix A A ℝ) (H : Matrix E A ℝ)
    (R : Matrix E E ℝ) (y : E → ℝ) (u : Fin k → E → ℝ) (x : Fin k → A → ℝ) (hM : IsUnit (H * cov x * Hᵀ + R).det) :
    updateEnsemble solve cov H R (Fintype.card E) y u x =
      some fun m => x m + (cov x * Hᵀ * (H * cov x * Hᵀ + R)⁻¹) *ᵥ (u m + y - H *ᵥ x m) := by
  unfold updateEnsemble
  rw [if_pos rfl]
  congr 1
  funext m
  unfold updateMember
  rw [solve_inv solve hs _ hM, mulVec_mulVec, mulVec_mulVec]
  congr 2
  funext e
  simp only [innovation, Pi.add_apply, Pi.sub_apply]
  ring

/-- **C53**: a wrong number of observed values is rejected. -/
theorem C53_length {k : ℕ} (solve : Matrix E E ℝ → (E → ℝ) → E → ℝ) (cov : (Fin k → A → ℝ) → Matrix A A ℝ) (H : Matrix E A ℝ)
    (R : Matrix E E ℝ) (nData : ℕ) (y : E → ℝ) (u : Fin k → E → ℝ) (x : Fin k → A → ℝ) (h : nData ≠ Fintype.card E) :
    updateEnsemble solve cov H R nData y u x = none := by
  unfold updateEnsemble
  rw [if_neg (Ne.symm h)]

/-- **C53**: a member whose prediction equals the (perturbed) observation is not changed, whatever the other members do. -/
theorem C53_zero_innovation {k : ℕ} (solve : Matrix E E ℝ → (E → ℝ) → E → ℝ) (hs : IsSolver solve) (cov : (Fin k → A → ℝ) → Matrix A A ℝ)
    (H : Matrix E A ℝ) (R : Matrix E E ℝ) (y : E → ℝ) (u : Fin k → E → ℝ) (x : Fin k → A → ℝ) (hM : IsUnit (H * cov x * Hᵀ + R).det)
    (m : Fin k) (hm : u m + y = H *ᵥ x m) (x' : Fin k → A → ℝ) (h : updateEnsemble solve cov H R (Fintype.card E) y u x = some x') : x' m = x m := by
  rw [C53_gain solve hs cov H R y u x hM] at h
  rw [← Option.some.inj h]
  simp [hm]

/-- **C53**: entries without covariance with the observed ones are not changed, in particular a parameter that is the same in all members. -/
theorem C53_uncorrelated {k : ℕ} (solve : Matrix E E ℝ → (E → ℝ) → E → ℝ) (cov : (Fin k → A → ℝ) → Matrix A A ℝ) (H : Matrix E A ℝ)
    (R : Matrix E E ℝ) (y : E → ℝ) (u : Fin k → E → ℝ) (x : Fin k → A → ℝ) (a : A) (ha : ∀ b, cov x a b = 0) (x' : Fin k → A → ℝ)
    (h : updateEnsemble solve cov H R (Fintype.card E) y u x = some x') (m : Fin k) : x' m a = x m a := by
  unfold updateEnsemble at h
  rw [if_pos rfl] at h
  rw [← Option.some.inj h]
  simp only [updateMember, Pi.add_apply, add_eq_left, mulVec, dotProduct, ha, zero_mul, Finset.sum_const_zero]

/-- **C53**: the ensemble mean moves by the gain applied to the mean innovation. -/
theorem C53_mean {k : ℕ} (solve : Matrix E E ℝ → (E → ℝ) → E → ℝ) (hs : IsSolver solve) (cov : (Fin k → A → ℝ) → Matrix A A ℝ)
    (H : Matrix E A ℝ) (R : Matrix E E ℝ) (y : E → ℝ) (u : Fin k → E → ℝ) (x : Fin k → A → ℝ) (hM : IsUnit (H * cov x * Hᵀ + R).det)
    (x' : Fin k → A → ℝ) (h : updateEnsemble solve cov H R (Fintype.card E) y u x = some x') :
    ∑ m, x' m = ∑ m, x m + (cov x * Hᵀ * (H * cov x * Hᵀ + R)⁻¹) *ᵥ (∑ m, (u m + y - H *ᵥ x m)) := by
  rw [C53_gain solve hs cov H R y u x hM] at h
  rw [← Option.some.inj h, Finset.sum_add_distrib, Matrix.mulVec_sum]

/-! ## C81, C79: positive observation variance -/

/-- Positive semi-definite (as a quadratic form). -/
def PSD {B : Type} [Fintype B] (P : Matrix B B ℝ) : Prop := ∀ v : B → ℝ, 0 ≤ v ⬝ᵥ (P *ᵥ v)

theorem psd_congr (H : Matrix E A ℝ) (P : Matrix A A ℝ) (hP : PSD P) : PSD (H * P * Hᵀ) := by
  intro v
  have : v ⬝ᵥ ((H * P * Hᵀ) *ᵥ v) = (Hᵀ *ᵥ v) ⬝ᵥ (P *ᵥ (Hᵀ *ᵥ v)) := by
    rw [← mulVec_mulVec, ← mulVec_mulVec, dotProduct_mulVec, ← mulVec_transpose]
  rw [this]
  exact hP _

theorem dot_self_nonneg (v : E → ℝ) : 0 ≤ v ⬝ᵥ v := Finset.sum_nonneg fun i _ => mul_self_nonneg (v i)

/-- **C81**: with a positive estimated uncertainty (`R = r I`, `r > 0`, `adamantine.hh:2269-2287`) and a positive semi-definite covariance the system solved for the gain is regular, for
every number and location of observations. -/
theorem C81_regular_partial (H : Matrix E A ℝ) (P : Matrix A A ℝ) (hP : PSD P) (r : ℝ) (hr : 0 < r) : IsUnit (H * P * Hᵀ + r • (1 : Matrix E E ℝ)).det := by
  rw [← Matrix.isUnit_iff_isUnit_det, ← Matrix.mulVec_injective_iff_isUnit]
  intro v w hvw
  have hz : (H * P * Hᵀ + r • (1 : Matrix E E ℝ)) *ᵥ (v - w) = 0 := by
    rw [mulVec_sub]
    exact sub_eq_zero.2 hvw
  have h1 := psd_congr H P hP (v - w)
  have h2 : (v - w) ⬝ᵥ ((H * P * Hᵀ + r • (1 : Matrix E E ℝ)) *ᵥ (v - w)) = 0 := by rw [hz, dotProduct_zero]
  rw [add_mulVec, dotProduct_add, smul_mulVec, one_mulVec, dotProduct_smul, smul_eq_mul] at h2
  have h3 := dot_self_nonneg (v - w)
  have h4 : (v - w) ⬝ᵥ (v - w) = 0 := by nlinarith
  have h5 : v - w = 0 := by
    funext i
    have h6 := (Finset.sum_eq_zero_iff_of_nonneg fun i _ => mul_self_nonneg ((v - w) i)).1 h4 i (Finset.mem_univ i)
    exact mul_self_eq_zero.1 h6
  exact sub_eq_zero.1 h5

/-- **C81 refuted** for the default uncertainty 0 (`adamantine.hh:2269`): if two observations are mapped to the same dof (equal rows of `H`) and their
innovations differ, the system has no solution, whatever the covariance, and the solver cannot succeed. -/
theorem C81_default_refuted (H : Matrix E A ℝ) (P : Matrix A A ℝ) (e e' : E) (hrow : ∀ a, H e a = H e' a) (d : E → ℝ) (hd : d e ≠ d e') :
    ¬ ∃ z, (H * P * Hᵀ + (0 : ℝ) • (1 : Matrix E E ℝ)) *ᵥ z = d := by
  rintro ⟨z, hz⟩
  apply hd
  rw [← hz, zero_smul, add_zero, Matrix.mul_assoc, ← mulVec_mulVec]
  simp only [mulVec, dotProduct, hrow]

example : ∃ (H : Matrix (Fin 2) (Fin 3) ℝ), ∀ a, H 0 a = H 1 a := ⟨!![0, 1, 0; 0, 1, 0], fun a => by fin_cases a <;> rfl⟩

/-- **C79**, what holds: with `R = r I`, `r > 0`, and a positive semi-definite covariance, the update never moves a member's prediction away from its (perturbed)
observation: the distance (sum of squares) does not grow. -/
theorem C79_closer_partial (solve : Matrix E E ℝ → (E → ℝ) → E → ℝ) (hs : IsSolver solve) (H : Matrix E A ℝ) (P : Matrix A A ℝ) (hP : PSD P) (r : ℝ) (hr : 0 < r)
    (y u : E → ℝ) (x : A → ℝ) :
    ∑ e, ((y + u - H *ᵥ updateMember solve H P (r • 1) y u x) e) ^ 2 ≤ ∑ e, ((y + u - H *ᵥ x) e) ^ 2 := by
  set M := H * P * Hᵀ with hMdef
  set d := innovation H y u x with hd
  have hde : y + u - H *ᵥ x = d := by
    funext e; simp only [hd, innovation, Pi.sub_apply, Pi.add_apply]; ring
  have hU := C81_regular_partial H P hP r hr
  set z := solve (M + r • 1) d with hz
  have hsol : (M + r • (1 : Matrix E E ℝ)) *ᵥ z = d := by
    apply hs
    exact ⟨(M + r • (1 : Matrix E E ℝ))⁻¹ *ᵥ d, by rw [mulVec_mulVec, mul_nonsing_inv _ hU, one_mulVec]⟩
  have hpost : y + u - H *ᵥ updateMember solve H P (r • 1) y u x = r • z := by
    unfold updateMember
    rw [mulVec_add]
    have h1 : H *ᵥ (P *ᵥ (Hᵀ *ᵥ z)) = M *ᵥ z := by rw [mulVec_mulVec, mulVec_mulVec, hMdef, Matrix.mul_assoc]
    have h2 : d = M *ᵥ z + r • z := by rw [← hsol, add_mulVec, smul_mulVec, one_mulVec]
    rw [h1, ← sub_sub, hde, h2]
    abel
  rw [hpost, hde, ← hsol, add_mulVec, smul_mulVec, one_mulVec]
  have hps := psd_congr H P hP z
  have hexp : ∑ e, ((M *ᵥ z + r • z) e) ^ 2 = (∑ e, ((M *ᵥ z) e) ^ 2) + 2 * r * (z ⬝ᵥ (M *ᵥ z)) + ∑ e, ((r • z) e) ^ 2 := by
    simp only [dotProduct, Finset.mul_sum, ← Finset.sum_add_distrib]
    refine Finset.sum_congr rfl fun e _ => ?_
    simp only [Pi.add_apply, Pi.smul_apply, smul_eq_mul]
    ring
  rw [hexp]
  have h1 : 0 ≤ ∑ e, ((M *ᵥ z) e) ^ 2 := Finset.sum_nonneg fun e _ => sq_nonneg _
  have h2 : 0 ≤ 2 * r * (z ⬝ᵥ (M *ᵥ z)) := mul_nonneg (by linarith) hps
  linarith

/-- The sample covariance without localisation is positive semi-definite, so the two theorems apply to it. -/
theorem C79_applies_partial {k : ℕ} (hk : 2 ≤ k) (x : Fin k → A → ℝ) : PSD (Matrix.of fun i j => sampleCov x i j) := by
  intro v
  have := C51_nonneg x hk v
  refine le_of_le_of_eq this ?_
  simp only [dotProduct, mulVec, Matrix.of_apply, Finset.mul_sum]
  exact Finset.sum_congr rfl fun i _ => Finset.sum_congr rfl fun j _ => by ring

/-- **C79 refuted** with the step function: the localised covariance of `C78_step_refuted` (three dofs, all observed, two members), `R = 0.2 I`: an innovation of
norm 0.02 grows to a residual of more than 0.39. -/
theorem C79_step_refuted (solve : Matrix (Fin 3) (Fin 3) ℝ → (Fin 3 → ℝ) → Fin 3 → ℝ) (hs : IsSolver solve) :
    let P : Matrix (Fin 3) (Fin 3) ℝ := Matrix.of fun i j =>
      localCov Cutoff.stepFunction 1 (fun i j : Fin 3 => |(i.val : ℝ) - j.val|) (perfectly (Fin 3) (Fin 0)) (Sum.inl i) (Sum.inl j)
    let y : Fin 3 → ℝ := ![0, 0.02, 0]
    ∑ e, (y - updateMember solve 1 P ((0.2 : ℝ) • 1) y 0 0) e ^ 2 > 300 * ∑ e, (y e) ^ 2 := by
  intro P y
  have hPe : P = !![1 / 2, 1 / 2, 0; 1 / 2, 1 / 2, 1 / 2; 0, 1 / 2, 1 / 2] := by
    ext i j
    fin_cases i <;> fin_cases j <;> simp only [P, Matrix.of_apply, localCov, perfectly_cov, localization] <;> norm_num [Matrix.cons_val_two]
  have hM : (1 : Matrix (Fin 3) (Fin 3) ℝ) * P * (1 : Matrix (Fin 3) (Fin 3) ℝ)ᵀ + (0.2 : ℝ) • 1 =
      !![0.7, 1 / 2, 0; 1 / 2, 0.7, 1 / 2; 0, 1 / 2, 0.7] := by
    rw [hPe, Matrix.transpose_one, Matrix.one_mul, Matrix.mul_one]
    ext i j
    fin_cases i <;> fin_cases j <;> simp [Matrix.one_apply] <;> norm_num
  have hin : innovation (1 : Matrix (Fin 3) (Fin 3) ℝ) y 0 0 = y := by
    funext e; simp [innovation]
  set M : Matrix (Fin 3) (Fin 3) ℝ := !![0.7, 1 / 2, 0; 1 / 2, 0.7, 1 / 2; 0, 1 / 2, 0.7] with hMM
  have hsolz : M *ᵥ solve M y = y := by
    apply hs
    refine ⟨![1, -1.4, 1], ?_⟩
    funext e
    fin_cases e <;> simp [hMM, y, mulVec, dotProduct, Fin.sum_univ_three] <;> norm_num
  set z := solve M y with hz
  have e0 := congrFun hsolz 0
  have e1 := congrFun hsolz 1
  have e2 := congrFun hsolz 2
  simp [hMM, y, mulVec, dotProduct, Fin.sum_univ_three] at e0 e1 e2
  norm_num at e0 e1 e2
  have z1 : z 1 = -1.4 := by norm_num; linarith
  have z0 : z 0 = 1 := by rw [z1] at e0; norm_num at e0; linarith
  have z2 : z 2 = 1 := by rw [z1] at e2; norm_num at e2; linarith
  have hup : updateMember solve 1 P ((0.2 : ℝ) • 1) y 0 0 = ![-0.2, 0.3, -0.2] := by
    unfold updateMember
    rw [hM, hin, zero_add, Matrix.transpose_one, one_mulVec, ← hz, hPe]
    funext e
    fin_cases e <;> simp [mulVec, dotProduct, Fin.sum_univ_three, z0, z1, z2] <;> norm_num
  rw [hup]
  simp only [Fin.sum_univ_three, Pi.sub_apply, y]
  simp
  norm_num

end Verif.DataAssim
