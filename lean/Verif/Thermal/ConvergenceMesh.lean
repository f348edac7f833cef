import Verif.Thermal.Convergence
import Mathlib.Topology.Algebra.MetricSpace.Lipschitz
import Mathlib.Analysis.Calculus.ContDiff.RCLike
import Mathlib.Analysis.Calculus.ContDiff.Operations
import Mathlib.Analysis.Calculus.Deriv.Prod
import Mathlib.Analysis.SpecialFunctions.ExpDeriv
import Mathlib.Analysis.Calculus.Deriv.MeanValue

/-!
# C115 for the assembled thermal operator

The convergence theorem of `Convergence` for the operator of C93, `source/ThermalOperator.templates.hh`, with any
temperature-dependent material data that is locally Lipschitz, radiating and convective surfaces and moving beams.
-/

namespace Verif.Assembly

open Verif.Thermal (Operator evolve steps rhs Method)
open Verif.Material Verif.Input Set

/-! ## Locally Lipschitz functions -/

section LL

variable {X : Type*} [PseudoMetricSpace X]

theorem LL.mul {f g : X → ℝ} (hf : LocallyLipschitz f) (hg : LocallyLipschitz g) : LocallyLipschitz fun x => f x * g x :=
  (((contDiff_fst (𝕜 := ℝ) (E := ℝ) (F := ℝ) (n := 1)).mul contDiff_snd).locallyLipschitz).comp (hf.prodMk hg)

theorem LL.pow {f : X → ℝ} (hf : LocallyLipschitz f) : ∀ n : ℕ, LocallyLipschitz fun x => f x ^ n
  | 0 => by simpa using LocallyLipschitz.const 1
  | n + 1 => by simpa only [pow_succ] using LL.mul (LL.pow hf n) hf

theorem LL.sum {α : Type*} (s : Finset α) {f : α → X → ℝ} (hf : ∀ a ∈ s, LocallyLipschitz (f a)) :
    LocallyLipschitz fun x => ∑ a ∈ s, f a x := by
  classical
  induction s using Finset.induction_on with
  | empty => simpa using LocallyLipschitz.const 0
  | insert a s ha ih =>
    simp only [Finset.sum_insert ha]
    exact (hf a (by simp)).add (ih fun b hb => hf b (by simp [hb]))

theorem LL.list {α : Type*} (l : List α) {f : α → X → ℝ} (hf : ∀ a ∈ l, LocallyLipschitz (f a)) :
    LocallyLipschitz fun x => (l.map fun a => f a x).sum := by
  induction l with
  | nil => simpa using LocallyLipschitz.const 0
  | cons a l ih =>
    simp only [List.map_cons, List.sum_cons]
    exact (hf a (by simp)).add (ih fun b hb => hf b (by simp [hb]))

theorem LL.constMul {f : X → ℝ} (c : ℝ) (hf : LocallyLipschitz f) : LocallyLipschitz fun x => c * f x :=
  LL.mul (LocallyLipschitz.const c) hf

theorem LL.mulConst {f : X → ℝ} (c : ℝ) (hf : LocallyLipschitz f) : LocallyLipschitz fun x => f x * c :=
  LL.mul hf (LocallyLipschitz.const c)

theorem LL.neg {f : X → ℝ} (hf : LocallyLipschitz f) : LocallyLipschitz fun x => -f x := by
  have := LL.constMul (-1) hf
  simpa using this

theorem LL.sub {f g : X → ℝ} (hf : LocallyLipschitz f) (hg : LocallyLipschitz g) : LocallyLipschitz fun x => f x - g x := by
  simpa only [sub_eq_add_neg] using hf.add (LL.neg hg)

end LL

/-! ## The right-hand side is locally Lipschitz in the temperatures and the power densities -/

variable {ι : Type*} [Fintype ι] [DecidableEq ι]

/-- The material data are locally Lipschitz functions of the temperature (constants, polynomials, tables; not the jump of the heat
capacity at the ends of the mushy zone). -/
structure LipschitzData (m : Mesh ι) : Prop where
  cell : ∀ c ∈ m.cells, c.fe = 0 → ∀ q, LocallyLipschitz (fun T => (c.coef q T).invRhoCp) ∧ LocallyLipschitz (fun T => (c.coef q T).kx) ∧
    LocallyLipschitz (fun T => (c.coef q T).ky) ∧ LocallyLipschitz (fun T => (c.coef q T).kz)
  face : ∀ f ∈ m.faces, f.Exposed → ∀ q, LocallyLipschitz (fun T => (f.coef q T).invRhoCp) ∧ LocallyLipschitz (fun T => (f.coef q T).conv) ∧
    LocallyLipschitz (fun T => (f.coef q T).convTinf) ∧ LocallyLipschitz (fun T => (f.coef q T).emissivity) ∧
    LocallyLipschitz (fun T => (f.coef q T).radTinf)

/-- The quadrature points of the cells with material. -/
def Mesh.points (m : Mesh ι) : List (Fin 3 → ℝ) := m.material.flatMap fun c => List.ofFn c.point

/-- Power densities given at the quadrature points. -/
noncomputable def densityOf (m : Mesh ι) (v : {p // p ∈ m.points} → ℝ) (p : Fin 3 → ℝ) : ℝ := by
  classical exact if h : p ∈ m.points then v ⟨p, h⟩ else 0

/-- The right-hand side as a function of the temperatures and the power densities. -/
noncomputable def Mesh.field (m : Mesh ι) (x : (ι → ℝ) × ({p // p ∈ m.points} → ℝ)) (g : ι) : ℝ :=
  m.invMass g * ((m.material.map fun c => c.weak m.hanging (densityOf m x.2) x.1 g).sum + m.boundaryTerm x.1 g +
    (if m.hanging.constrained g then x.1 g else 0))

omit [DecidableEq ι] in
theorem LL.coord {Y : Type*} [PseudoMetricSpace Y] (g : ι) : LocallyLipschitz fun x : (ι → ℝ) × Y => x.1 g := by
  have h : LipschitzWith 1 fun x : (ι → ℝ) × Y => x.1 g := by
    have := (LipschitzWith.eval (α := fun _ : ι => ℝ) g).comp (LipschitzWith.prod_fst (α := ι → ℝ) (β := Y))
    rw [mul_one] at this
    exact this
  exact h.locallyLipschitz

theorem LL.linear {Y : Type*} [PseudoMetricSpace Y] (φ : ι → ℝ) : LocallyLipschitz fun x : (ι → ℝ) × Y => ∑ g, x.1 g * φ g :=
  LL.sum _ fun g _ => LL.mulConst _ (LL.coord g)

theorem tensor_LL {Y : Type*} [PseudoMetricSpace Y] {kx ky kz : Y → ℝ} (hx : LocallyLipschitz kx) (hy : LocallyLipschitz ky)
    (hz : LocallyLipschitz kz) (c s : ℝ) (d e : Fin 3) : LocallyLipschitz fun x => conductivityTensor (kx x) (ky x) (kz x) c s d e := by
  simp only [conductivityTensor_eq]
  have h1 : LocallyLipschitz fun x => kx x * c * c + ky x * s * s :=
    (LL.mulConst c (LL.mulConst c hx)).add (LL.mulConst s (LL.mulConst s hy))
  have h2 : LocallyLipschitz fun x => (kx x - ky x) * s * c := LL.mulConst c (LL.mulConst s (LL.sub hx hy))
  have h3 : LocallyLipschitz fun x => kx x * s * s + ky x * c * c :=
    (LL.mulConst s (LL.mulConst s hx)).add (LL.mulConst c (LL.mulConst c hy))
  have h0 : LocallyLipschitz fun _ : Y => (0 : ℝ) := LocallyLipschitz.const 0
  fin_cases d <;> fin_cases e
  · exact h1
  · exact h2
  · exact h0
  · exact h2
  · exact h3
  · exact h0
  · exact h0
  · exact h0
  · exact hz

theorem density_LL (m : Mesh ι) (p : Fin 3 → ℝ) [Fintype {p // p ∈ m.points}] :
    LocallyLipschitz fun x : (ι → ℝ) × ({p // p ∈ m.points} → ℝ) => densityOf m x.2 p := by
  unfold densityOf
  by_cases h : p ∈ m.points
  · simp only [h, dite_true]
    have hl : LipschitzWith 1 fun x : (ι → ℝ) × ({p // p ∈ m.points} → ℝ) => x.2 ⟨p, h⟩ := by
      have := (LipschitzWith.eval (α := fun _ : {p // p ∈ m.points} => ℝ) ⟨p, h⟩).comp
        (LipschitzWith.prod_snd (α := ι → ℝ) (β := {p // p ∈ m.points} → ℝ))
      rw [mul_one] at this
      exact this
    exact hl.locallyLipschitz
  · simp only [h, dite_false]
    exact LocallyLipschitz.const 0

theorem field_LL (m : Mesh ι) (hl : LipschitzData m) [Fintype {p // p ∈ m.points}] (g : ι) :
    LocallyLipschitz fun x : (ι → ℝ) × ({p // p ∈ m.points} → ℝ) => m.field x g := by
  unfold Mesh.field
  refine LL.constMul _ ((LocallyLipschitz.add ?_ ?_).add ?_)
  · refine LL.list _ fun c hc => ?_
    obtain ⟨hc1, hc2⟩ := (mem_material m c).1 hc
    unfold Cell.weak
    refine LL.sum _ fun q _ => LL.constMul _ ?_
    obtain ⟨l1, l2, l3, l4⟩ := hl.cell c hc1 hc2 q
    have hT : LocallyLipschitz fun x : (ι → ℝ) × ({p // p ∈ m.points} → ℝ) => c.temperature m.hanging x.1 q := LL.linear _
    refine LL.mul (l1.comp hT) (LL.sub (LL.mulConst _ (density_LL m _)) ?_)
    refine LL.sum _ fun d _ => LL.sum _ fun e _ => LL.mul (LL.constMul _ ?_) (LL.linear _)
    exact tensor_LL (l2.comp hT) (l3.comp hT) (l4.comp hT) _ _ d e
  · unfold Mesh.boundaryTerm
    refine LL.list _ fun f hf => ?_
    have hf' : f ∈ m.faces ∧ f.Exposed := by simpa using hf
    unfold Face.weak Face.outflow
    refine LL.sum _ fun q _ => LL.constMul _ (LL.mulConst _ ?_)
    obtain ⟨l1, l2, l3, l4, l5⟩ := hl.face f hf'.1 hf'.2 q
    have hT : LocallyLipschitz fun x : (ι → ℝ) × ({p // p ∈ m.points} → ℝ) => f.temperature m.hanging x.1 q := LL.linear _
    refine LL.mul (LL.neg (l1.comp hT)) (LocallyLipschitz.add ?_ ?_)
    · by_cases h : Has (getType m.types f.id) .convective
      · simp only [h, if_true]
        exact LL.mul (l2.comp hT) (LL.sub hT (l3.comp hT))
      · simp only [h, if_false]
        exact LocallyLipschitz.const 0
    · by_cases h : Has (getType m.types f.id) .radiative
      · simp only [h, if_true]
        exact LL.mul (LL.mulConst _ (l4.comp hT)) (LL.sub (LL.pow hT 4) (LL.pow (l5.comp hT) 4))
      · simp only [h, if_false]
        exact LocallyLipschitz.const 0
  · by_cases h : m.hanging.constrained g = true
    · simp only [h, if_true]
      exact LL.coord g
    · simp only [h]
      exact LocallyLipschitz.const 0

theorem rhs_field (m : Mesh ι) (hp : PureAdiabatic m.types) (beams : ℝ → List Beam) (hoff : ∀ t, OffIsZero (beams t)) (t0 t : ℝ)
    (y : ι → ℝ) : rhs (m.operator beams t0) t y = m.field (y, fun p => power (beams t) p.1) := by
  funext g
  rw [rhs_operator, Mesh.vmult, vmultAdd_eq m (beams t) (hoff t) hp, Mesh.field, zero_add]
  congr 3
  unfold Mesh.bulkTerm
  refine list_sum_congr _ _ _ fun c hc => ?_
  have hc' : c ∈ m.material := hc
  unfold Cell.weak
  refine Finset.sum_congr rfl fun q _ => ?_
  have : densityOf m (fun p => power (beams t) p.1) (c.point q) = power (beams t) (c.point q) := by
    unfold densityOf
    have : c.point q ∈ m.points := List.mem_flatMap.2 ⟨c, hc', List.mem_ofFn.2 ⟨q, rfl⟩⟩
    simp [this]
  rw [this]

/-! ## Rates -/

/-- A continuous function whose derivative is bounded except at finitely many points changes at most at that rate. -/
theorem rate_of_deriv {v v' : ℝ → ℝ} {B a b : ℝ} (J : Finset ℝ) (hab : a ≤ b) (hc : ContinuousOn v (Icc a b))
    (hd : ∀ s ∈ Ioo a b, s ∉ J → HasDerivAt v (v' s) s) (hB : ∀ s ∈ Icc a b, |v' s| ≤ B) : |v b - v a| ≤ B * (b - a) := by
  classical
  induction J using Finset.induction_on generalizing a b with
  | empty =>
    rcases hab.eq_or_lt with rfl | hlt
    · simp
    obtain ⟨c, hc1, hc2⟩ := exists_hasDerivAt_eq_slope v v' hlt hc fun s hs => hd s hs (by simp)
    have := hB c ⟨hc1.1.le, hc1.2.le⟩
    rw [hc2, abs_div, abs_of_pos (show 0 < b - a by linarith), div_le_iff₀ (by linarith)] at this
    exact this
  | insert j J hj ih =>
    by_cases hin : j ∈ Ioo a b
    · have h1 := ih hin.1.le (hc.mono (Icc_subset_Icc le_rfl hin.2.le))
        (fun s hs hsJ => hd s ⟨hs.1, hs.2.trans hin.2⟩ (by simp [hs.2.ne, hsJ]))
        (fun s hs => hB s ⟨hs.1, hs.2.trans hin.2.le⟩)
      have h2 := ih hin.2.le (hc.mono (Icc_subset_Icc hin.1.le le_rfl))
        (fun s hs hsJ => hd s ⟨hin.1.trans hs.1, hs.2⟩ (by simp [hs.1.ne', hsJ]))
        (fun s hs => hB s ⟨hin.1.le.trans hs.1, hs.2⟩)
      have e : v b - v a = (v b - v j) + (v j - v a) := by ring
      rw [e]
      refine (abs_add_le _ _).trans ?_
      nlinarith
    · refine ih hab hc (fun s hs hsJ => hd s hs ?_) hB
      simp only [Finset.mem_insert, not_or]
      refine ⟨?_, hsJ⟩
      rintro rfl
      exact hin hs

/-! ## Convergence -/

/-- **C115** for the assembled operator.  Let the material data be locally Lipschitz functions of the temperature, the power
densities of the beams at the quadrature points be bounded and, between finitely many switching times, uniformly continuous in time.
If `u` is a continuous function that satisfies the semi-discrete heat equation except at the switching times, the temperatures
computed from `u` at the start are, at all steps up to the end of the interval, arbitrarily close to `u` for all small enough time
steps, with each of the three methods.  Missing: the jump of the heat capacity at the ends of the mushy zone, and states that change
during the interval (fractions, deposited cells, remeshing). -/
theorem C115_mesh_partial (m : Mesh ι) (hp : PureAdiabatic m.types) (hl : LipschitzData m) (beams : ℝ → List Beam)
    (hoff : ∀ t, OffIsZero (beams t)) (J : Finset ℝ) (Q : ℝ)
    (hQ : ∀ s, ∀ c ∈ m.cells, c.fe = 0 → ∀ q, |power (beams s) (c.point q)| ≤ Q)
    (hcont : ∀ ε > 0, ∃ δ > 0, ∀ s r, s ≤ r → r ≤ s + δ → (∀ j ∈ J, ¬ (s ≤ j ∧ j ≤ r)) →
      ∀ c ∈ m.cells, c.fe = 0 → ∀ q, |power (beams r) (c.point q) - power (beams s) (c.point q)| ≤ ε)
    (t0 t T : ℝ) (u : ℝ → ι → ℝ) (huc : ContinuousOn u (Icc t (t + T)))
    (hud : ∀ s ∈ Icc t (t + T), s ∉ J → HasDerivWithinAt u (m.evaluate beams s (u s)) (Icc t (t + T)) s)
    (meth : Method) (ε : ℝ) (hε : 0 < ε) :
    ∃ δ > 0, ∀ dt, 0 < dt → dt ≤ δ → ∀ k : ℕ, k * dt ≤ T →
      ∃ z op, steps (some meth) dt k (t, u t, m.operator beams t0) = some (t + k * dt, z, op) ∧
        ∀ i, |z i - u (t + k * dt) i| ≤ ε := by
  classical
  by_cases hT : 0 ≤ T
  swap
  · refine ⟨1, one_pos, fun dt h0 _ k hk => ?_⟩
    have : (0 : ℝ) ≤ k * dt := by positivity
    linarith
  have ht0 : t ∈ Icc t (t + T) := ⟨le_rfl, by linarith⟩
  haveI : Fintype {p // p ∈ m.points} := Fintype.subtype m.points.toFinset (by simp)
  -- a range of temperatures
  obtain ⟨R, hR⟩ := isCompact_Icc.exists_bound_of_continuousOn huc
  have hpt : ∀ p : {p // p ∈ m.points}, ∃ c ∈ m.cells, c.fe = 0 ∧ ∃ q, c.point q = p.1 := by
    rintro ⟨p, hpm⟩
    obtain ⟨c, hc, hpc⟩ := List.mem_flatMap.1 hpm
    obtain ⟨hc1, hc2⟩ := (mem_material m c).1 hc
    obtain ⟨q, hq⟩ := List.mem_ofFn.1 hpc
    exact ⟨c, hc1, hc2, q, hq⟩
  set P : ℝ → {p // p ∈ m.points} → ℝ := fun s p => power (beams s) p.1 with hP
  have hPQ : ∀ s p, |P s p| ≤ |Q| := by
    intro s p
    obtain ⟨c, hc1, hc2, q, hq⟩ := hpt p
    rw [hP]
    simp only [← hq]
    exact (hQ s c hc1 hc2 q).trans (le_abs_self Q)
  set lo := -(R + 1) with hlo
  set hi := R + 1 with hhi
  set S : Set ((ι → ℝ) × ({p // p ∈ m.points} → ℝ)) := Icc (fun _ => lo) (fun _ => hi) ×ˢ Icc (fun _ => -|Q|) (fun _ => |Q|) with hS
  have hScomp : IsCompact S := isCompact_Icc.prod isCompact_Icc
  have hLL : LocallyLipschitz m.field := by
    intro x
    have h := fun g => field_LL m hl g x
    choose K U hU hK using h
    refine ⟨∑ g, K g, ⋂ g, U g, Filter.iInter_mem.2 hU, ?_⟩
    intro y hy z hz
    rw [edist_pi_le_iff]
    intro g
    refine (hK g (mem_iInter.1 hy g) (mem_iInter.1 hz g)).trans ?_
    gcongr
    exact_mod_cast Finset.single_le_sum (f := K) (fun _ _ => zero_le) (Finset.mem_univ g)
  obtain ⟨K, hK⟩ := (hLL.locallyLipschitzOn (s := S)).exists_lipschitzOnWith_of_compact hScomp
  obtain ⟨B, hB⟩ := hScomp.exists_bound_of_continuousOn (hLL.continuous.continuousOn)
  have hmemP : ∀ s, P s ∈ Icc (fun _ : {p // p ∈ m.points} => -|Q|) (fun _ => |Q|) := fun s =>
    ⟨fun p => (abs_le.1 (hPQ s p)).1, fun p => (abs_le.1 (hPQ s p)).2⟩
  have hmem : ∀ y s, InRange lo hi y → (y, P s) ∈ S := fun y s hy => ⟨⟨fun i => (hy i).1, fun i => (hy i).2⟩, hmemP s⟩
  have hrange : ∀ s ∈ Icc t (t + T), InRange (lo + 1) (hi - 1) (u s) := by
    intro s hs i
    have := (norm_le_pi_norm (u s) i).trans (hR s hs)
    rw [Real.norm_eq_abs, abs_le] at this
    exact ⟨by rw [hlo]; linarith [this.1], by rw [hhi]; linarith [this.2]⟩
  have hrange' : ∀ s ∈ Icc t (t + T), InRange lo hi (u s) := fun s hs => range_near (hrange s hs) (by simp)
  have hrhs := rhs_field m hp beams hoff t0
  have hbound : ∀ s ∈ Icc t (t + T), ∀ r ∈ Icc t (t + T), ‖rhs (m.operator beams t0) r (u s)‖ ≤ B := by
    intro s hs r _
    rw [hrhs]
    exact hB _ (hmem _ r (hrange' s hs))
  have hev : ∀ s y, m.evaluate beams s y = rhs (m.operator beams t0) s y := fun s y => by
    funext g; exact (evaluate_operator m beams t0 s y g).symm
  simp only [hev] at hud
  have hB0 : 0 ≤ B := (norm_nonneg _).trans (hbound t ht0 t ht0)
  refine C115_convergence_local (m.operator beams t0) J lo hi 1 K B t T u ?_ ?_ meth ε hε
  · refine ⟨one_pos, K.2, hrange, fun s y z hy hz => ?_, hbound, fun s hs r hr hsr => ?_, hud⟩
    · have := hK.dist_le_mul _ (hmem y s hy) _ (hmem z s hz)
      rw [dist_eq_norm, ← hrhs, ← hrhs] at this
      refine this.trans (mul_le_mul_of_nonneg_left ?_ K.2)
      rw [Prod.dist_eq]
      simp [dist_eq_norm]
    · refine (pi_norm_le_iff_of_nonneg (mul_nonneg hB0 (by linarith))).2 fun i => ?_
      rw [Pi.sub_apply, Real.norm_eq_abs]
      refine rate_of_deriv (v := fun s => u s i) (v' := fun s => rhs (m.operator beams t0) s (u s) i) J hsr ?_ ?_ ?_
      · exact (continuous_apply i).comp_continuousOn (huc.mono (Icc_subset_Icc hs.1 hr.2))
      · intro x hx hxJ
        have hx' : x ∈ Icc t (t + T) := ⟨hs.1.trans hx.1.le, hx.2.le.trans hr.2⟩
        have h1 := hasDerivWithinAt_pi.1 (hud x hx' hxJ) i
        exact h1.hasDerivAt (Icc_mem_nhds (hs.1.trans_lt hx.1) (hx.2.trans_le hr.2))
      · intro x hx
        have hx' : x ∈ Icc t (t + T) := ⟨hs.1.trans hx.1, hx.2.trans hr.2⟩
        exact (norm_le_pi_norm _ i).trans (hbound x hx' x hx')
  · intro η hη
    obtain ⟨δ, hδ, h⟩ := hcont (η / (K + 1)) (by positivity)
    refine ⟨δ, hδ, fun s hs r hr a b c => ?_⟩
    have h1 := hK.dist_le_mul _ (hmem (u s) r (hrange' s hs)) _ (hmem (u s) s (hrange' s hs))
    rw [dist_eq_norm, ← hrhs, ← hrhs] at h1
    refine h1.trans ?_
    have h2 : dist (u s, P r) (u s, P s) ≤ η / (K + 1) := by
      rw [Prod.dist_eq, dist_self]
      refine max_le (by positivity) ?_
      rw [dist_pi_le_iff (by positivity)]
      intro p
      obtain ⟨c', hc1, hc2, q, hq⟩ := hpt p
      rw [Real.dist_eq]
      simp only [hP, ← hq]
      exact h s r a b c c' hc1 hc2 q
    refine (mul_le_mul_of_nonneg_left h2 K.2).trans ?_
    have hK1 : (0 : ℝ) ≤ K := K.2
    change (K : ℝ) * (η / ((K : ℝ) + 1)) ≤ η
    rw [mul_div_assoc', div_le_iff₀ (by positivity)]
    linarith

/-- The hypotheses of `C115_mesh_partial` are met by the mesh with a hanging node and a convective face, in equilibrium at 300 K with
the beam off (the stored entry of the hanging node being zero). -/
example (meth : Method) : ∃ δ > 0, ∀ dt : ℝ, 0 < dt → dt ≤ δ → ∀ k : ℕ, k * dt ≤ 2 →
    ∃ z op, steps (some meth) dt k (0, ![300, 300, 0], hangingMesh.operator (fun _ => []) 0) = some (0 + k * dt, z, op) ∧
      ∀ i, |z i - (![300, 300, 0] : Fin 3 → ℝ) i| ≤ 1 / 1000 := by
  obtain ⟨hcons, hpure, hamb, hhang⟩ := hangingMesh_consistent
  have hcells : ∀ c ∈ hangingMesh.cells, ∃ (a b : Fin 3) (len r : ℝ) (fe : ℕ), c = { lineCell a b len r 0 with fe := fe } := by
    intro c hc
    simp only [hangingMesh, List.mem_cons, List.not_mem_nil, or_false] at hc
    rcases hc with rfl | rfl | rfl
    · exact ⟨_, _, _, _, 0, rfl⟩
    · exact ⟨_, _, _, _, 0, rfl⟩
    · exact ⟨_, _, _, _, 1, rfl⟩
  refine C115_mesh_partial hangingMesh hpure ⟨?_, ?_⟩ (fun _ => []) (fun _ => offNil) ∅ 0 ?_ ?_ 0 0 2 (fun _ => ![300, 300, 0])
    continuousOn_const ?_ meth (1 / 1000) (by norm_num)
  · intro c hc _ q
    obtain ⟨a, b, len, r, fe, rfl⟩ := hcells c hc
    exact ⟨LocallyLipschitz.const _, LocallyLipschitz.const _, LocallyLipschitz.const _, LocallyLipschitz.const _⟩
  · intro f hf _ q
    simp only [hangingMesh, List.mem_cons, List.not_mem_nil, or_false] at hf
    subst hf
    exact ⟨LocallyLipschitz.const _, LocallyLipschitz.const _, LocallyLipschitz.const _, LocallyLipschitz.const _,
      LocallyLipschitz.const _⟩
  · intro s c _ _ q
    simp [power]
  · intro ε hε
    exact ⟨1, one_pos, fun s r _ _ _ c _ _ q => by simpa [power] using hε.le⟩
  · intro s _ _
    refine (hasDerivWithinAt_const s _ _).congr_deriv ?_
    funext g
    have hy : ∀ g, hangingMesh.hanging.constrained g = false → (![300, 300, 0] : Fin 3 → ℝ) g = 300 := by
      intro g hg
      fin_cases g <;> simp [hangingMesh] at hg ⊢
    rw [← evaluate_operator hangingMesh (fun _ => []) 0, rhs_operator]
    by_cases hg : hangingMesh.hanging.constrained g = false
    · rw [vmult_const hangingMesh hcons hpure 300 hamb [] (by simp) _ hy g hg, mul_zero]; rfl
    · have hg' : hangingMesh.hanging.constrained g = true := by simpa using hg
      rw [vmult_constrained hangingMesh [] _ g hg']
      have : g = 2 := by simpa [hangingMesh] using hg'
      subst this
      simp

/-- The hypotheses of `C115_order_linear` are met by two nodes that exchange heat, `y₀' = y₁ - y₀`, `y₁' = y₀ - y₁`. -/
example (meth : Method) : ∃ C, ∀ dt : ℝ, 0 < dt → dt ≤ 1 → ∀ k : ℕ, k * dt ≤ 3 → ∃ z op',
    steps (some meth) dt k (0, ![301, 299], (⟨fun y i => y (1 - i) - y i, fun _ _ _ => 0, fun _ => 1, 0⟩ : Operator (Fin 2))) =
      some (0 + k * dt, z, op') ∧ |z 0 - (300 + Real.exp (-2 * (0 + k * dt)))| ≤ C * powerOf dt meth := by
  let A : (Fin 2 → ℝ) →L[ℝ] (Fin 2 → ℝ) :=
    ContinuousLinearMap.pi fun i => ContinuousLinearMap.proj (R := ℝ) (φ := fun _ : Fin 2 => ℝ) (1 - i) - ContinuousLinearMap.proj i
  have hA : ∀ y i, A y i = y (1 - i) - y i := fun y i => by simp [A]
  obtain ⟨C, hC⟩ := C115_order_linear (⟨fun y i => y (1 - i) - y i, fun _ _ _ => 0, fun _ => 1, 0⟩ : Operator (Fin 2)) A 0
    (by funext s y i; simp [rhs, hA]) 0 3 (fun s => ![300 + Real.exp (-2 * s), 300 - Real.exp (-2 * s)]) (by
      intro s _
      have h1 : HasDerivAt (fun s : ℝ => Real.exp (-2 * s)) (-2 * Real.exp (-2 * s)) s := by
        have := ((hasDerivAt_id s).const_mul (-2)).exp
        simpa [mul_comm] using this
      refine (hasDerivAt_pi.2 fun i => ?_).hasDerivWithinAt
      fin_cases i
      · refine (h1.const_add 300).congr_deriv ?_
        simp [hA]; ring
      · refine (h1.const_sub 300).congr_deriv ?_
        simp [hA]; ring) meth
  refine ⟨C, fun dt h0 h1 k hk => ?_⟩
  obtain ⟨z, op', h, hz⟩ := hC dt h0 h1 k hk
  refine ⟨z, op', ?_, hz 0⟩
  rw [← h]
  congr 2
  norm_num

/-- The hypotheses of `C115_first_order` are met by a beam that is switched on at time `1`: `y' = 0` before and `y' = 1` after. -/
example (meth : Method) : ∃ C, ∀ dt : ℝ, 0 < dt → dt ≤ 1 → ∀ k : ℕ, k * dt ≤ 3 → ∃ z op',
    steps (some meth) dt k (0, fun _ => max 0 (0 - 1), (⟨fun _ _ => 0, fun t _ _ => if t < 1 then 0 else 1, fun _ => 1, 0⟩ : Operator (Fin 1))) =
      some (0 + k * dt, z, op') ∧ ∀ i, |z i - max 0 (0 + k * dt - 1)| ≤ C * dt := by
  have hr : rhs (⟨fun _ _ => 0, fun t _ _ => if t < 1 then 0 else 1, fun _ => 1, 0⟩ : Operator (Fin 1)) =
      fun t _ _ => if t < 1 then 0 else 1 := by
    funext t y i; simp [rhs]
  refine C115_first_order _ {1} 0 1 0 0 3 (fun s _ => max 0 (s - 1)) ?_ le_rfl ?_ meth
  · rw [hr]
    refine ⟨le_rfl, fun s y z => by simp, fun s _ r _ => ?_, fun s _ r _ hsr => ?_, fun s _ hs1 => ?_⟩
    · refine (pi_norm_le_iff_of_nonneg zero_le_one).2 fun _ => ?_
      split_ifs <;> simp
    · refine (pi_norm_le_iff_of_nonneg (by linarith)).2 fun _ => ?_
      simp only [Pi.sub_apply, Real.norm_eq_abs, one_mul]
      rw [abs_le]
      constructor <;> rcases le_total 0 (r - 1) with h1 | h1 <;> rcases le_total 0 (s - 1) with h2 | h2 <;> simp [h1, h2] <;> linarith
    · refine HasDerivAt.hasDerivWithinAt (hasDerivAt_pi.2 fun _ => ?_)
      have hne : s ≠ 1 := by simpa using hs1
      rcases lt_or_gt_of_ne hne with h | h
      · rw [if_pos h]
        refine (hasDerivAt_const s (0 : ℝ)).congr_of_eventuallyEq ?_
        filter_upwards [Iio_mem_nhds h] with x hx
        exact max_eq_left (by have : x < 1 := hx; linarith)
      · rw [if_neg (not_lt.2 h.le)]
        refine ((hasDerivAt_id s).sub_const 1).congr_of_eventuallyEq ?_
        filter_upwards [Ioi_mem_nhds h] with x hx
        exact max_eq_right (by have : 1 < x := hx; simp; linarith)
  · intro h _ _ s _ r _ hsr _ hj
    rw [hr]
    have hj1 := hj 1 (by simp)
    dsimp only
    have : (if r < 1 then (0 : ℝ) else 1) = if s < 1 then 0 else 1 := by
      by_cases h1 : s < 1
      · have : r < 1 := by by_contra h2; exact hj1 ⟨h1.le, not_lt.1 h2⟩
        simp [h1, this]
      · have : ¬ r < 1 := by linarith [not_lt.1 h1]
        simp [h1, this]
    rw [this]
    simp

end Verif.Assembly
