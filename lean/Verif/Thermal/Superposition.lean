import Verif.Thermal.Stability

/-!
# C131: superposition

With material data that do not depend on the temperature and without radiation, the temperatures computed are an affine function of the
initial temperatures and of the power density of the sources; for every method, every time step and every number of steps, stable or
not.  Without that restriction they still depend on the sources only through the total power density.
-/

namespace Verif.Assembly

open Verif.Material Verif.Input
open Verif.Thermal (Operator evolve steps rhs Method)

variable {ι : Type*} [Fintype ι] [DecidableEq ι]

/-! ## Lemmas -/

section
variable {κ : Type*} [Fintype κ]

omit [Fintype ι] [DecidableEq ι] in
theorem list_combination {α : Type*} (l : List α) (a : κ → ℝ) (φ : κ → α → ℝ) :
    (l.map fun i => ∑ k, a k * φ k i).sum = ∑ k, a k * (l.map (φ k)).sum := by
  induction l with
  | nil => simp
  | cons x l ih => simp only [List.map_cons, List.sum_cons, ih, mul_add, Finset.sum_add_distrib]

omit [DecidableEq ι] in
theorem sum_combination (a : κ → ℝ) (y : κ → ι → ℝ) (φ : ι → ℝ) :
    ∑ g, (∑ k, a k * y k g) * φ g = ∑ k, a k * ∑ g, y k g * φ g := by
  simp only [Finset.sum_mul, Finset.mul_sum]
  rw [Finset.sum_comm]
  exact Finset.sum_congr rfl fun _ _ => Finset.sum_congr rfl fun _ _ => by ring

/-- The right-hand side is an affine function of temperatures and sources together. -/
theorem vmult_combination (m : Mesh ι) (hp : PureAdiabatic m.types) (hc : ConstantData m) (a : κ → ℝ) (h1 : ∑ k, a k = 1)
    (B : List Beam) (b : κ → List Beam) (hB : OffIsZero B) (hb : ∀ k, OffIsZero (b k))
    (hpow : ∀ p, power B p = ∑ k, a k * power (b k) p) (y : κ → ι → ℝ) (g : ι) :
    m.vmult B (fun i => ∑ k, a k * y k i) g = ∑ k, a k * m.vmult (b k) (y k) g := by
  have hbulk : m.bulkTerm B (fun i => ∑ k, a k * y k i) g = ∑ k, a k * m.bulkTerm (b k) (y k) g := by
    unfold Mesh.bulkTerm
    rw [← list_combination]
    refine congrArg List.sum (List.map_congr_left fun e he => ?_)
    have he' := (mem_material m e).1 he
    unfold Cell.weak
    have hg : ∀ q d, e.gradT m.hanging (fun i => ∑ k, a k * y k i) q d = ∑ k, a k * e.gradT m.hanging (y k) q d :=
      fun q d => sum_combination a y _
    simp only [Finset.mul_sum _ _ (a _)]
    rw [Finset.sum_comm]
    refine Finset.sum_congr rfl fun q _ => ?_
    rw [hc.cell e he'.1 he'.2 q _ 0]
    have hk : ∀ k, a k * (e.jxw q * ((e.coef q (e.temperature m.hanging (y k) q)).invRhoCp * (power (b k) (e.point q) * e.phi m.hanging g q -
        ∑ d, ∑ f, e.dphi m.hanging g q d * conductivityTensor (e.coef q (e.temperature m.hanging (y k) q)).kx
          (e.coef q (e.temperature m.hanging (y k) q)).ky (e.coef q (e.temperature m.hanging (y k) q)).kz (e.cos q) (e.sin q) d f *
            e.gradT m.hanging (y k) q f))) =
        e.jxw q * (e.coef q 0).invRhoCp * e.phi m.hanging g q * (a k * power (b k) (e.point q)) -
        ∑ f, (∑ d, e.jxw q * (e.coef q 0).invRhoCp * e.dphi m.hanging g q d *
          conductivityTensor (e.coef q 0).kx (e.coef q 0).ky (e.coef q 0).kz (e.cos q) (e.sin q) d f) *
            (a k * e.gradT m.hanging (y k) q f) := by
      intro k
      rw [hc.cell e he'.1 he'.2 q (e.temperature m.hanging (y k) q) 0]
      simp only [Fin.sum_univ_three]
      ring
    have hs : ∀ G : Fin 3 → ℝ, ∑ k, ∑ f, G f * (a k * e.gradT m.hanging (y k) q f) =
        ∑ f, G f * e.gradT m.hanging (fun i => ∑ k, a k * y k i) q f := by
      intro G
      rw [Finset.sum_comm]
      exact Finset.sum_congr rfl fun f _ => by rw [hg, Finset.mul_sum]
    refine Eq.trans ?_ (Finset.sum_congr rfl fun k _ => hk k).symm
    rw [Finset.sum_sub_distrib, ← Finset.mul_sum, ← hpow, hs]
    simp only [Fin.sum_univ_three]
    ring
  have hbd : m.boundaryTerm (fun i => ∑ k, a k * y k i) g = ∑ k, a k * m.boundaryTerm (y k) g := by
    unfold Mesh.boundaryTerm
    rw [← list_combination]
    refine congrArg List.sum (List.map_congr_left fun f hf => ?_)
    have hf' := (mem_surface m f).1 hf
    unfold Face.weak
    simp only [Finset.mul_sum]
    rw [Finset.sum_comm]
    refine Finset.sum_congr rfl fun q _ => ?_
    have ht : f.temperature m.hanging (fun i => ∑ k, a k * y k i) q = ∑ k, a k * f.temperature m.hanging (y k) q :=
      sum_combination a y _
    have hr := hc.noRadiation f hf'.1 hf'.2
    have hk : ∀ k, a k * (f.jxw q * (-(f.coef q (f.temperature m.hanging (y k) q)).invRhoCp *
        f.outflow m.types (f.temperature m.hanging (y k) q) q * f.phi m.hanging g q)) =
        f.jxw q * (-(f.coef q 0).invRhoCp) * f.phi m.hanging g q *
          (a k * f.outflow m.types (f.temperature m.hanging (y k) q) q) := by
      intro k
      rw [hc.face f hf'.1 hf'.2 q (f.temperature m.hanging (y k) q) 0]
      ring
    rw [Finset.sum_congr rfl fun k _ => hk k, ← Finset.mul_sum, hc.face f hf'.1 hf'.2 q _ 0, ht]
    have ho : f.outflow m.types (∑ k, a k * f.temperature m.hanging (y k) q) q =
        ∑ k, a k * f.outflow m.types (f.temperature m.hanging (y k) q) q := by
      unfold Face.outflow
      simp only [hr, if_false, add_zero]
      rw [hc.face f hf'.1 hf'.2 q _ 0]
      have hcf : ∀ k, f.coef q (f.temperature m.hanging (y k) q) = f.coef q 0 := fun k => hc.face f hf'.1 hf'.2 q _ 0
      simp only [hcf]
      by_cases hcv : Has (getType m.types f.id) .convective
      · simp only [hcv, if_true]
        have : ∀ k, a k * ((f.coef q 0).conv * (f.temperature m.hanging (y k) q - (f.coef q 0).convTinf)) =
            (f.coef q 0).conv * (a k * f.temperature m.hanging (y k) q) - (f.coef q 0).conv * (f.coef q 0).convTinf * a k := by
          intro k; ring
        rw [Finset.sum_congr rfl fun k _ => this k, Finset.sum_sub_distrib, ← Finset.mul_sum, ← Finset.mul_sum, h1]
        ring
      · simp [hcv]
    rw [ho]; ring
  by_cases hg : m.hanging.constrained g = true
  · simp only [vmult_constrained m _ _ g hg]
  · have hg' : m.hanging.constrained g = false := by simpa using hg
    simp only [vmult_free m _ hB hp _ g hg', vmult_free m _ (hb _) hp _ g hg', hbulk, hbd, mul_add, Finset.sum_add_distrib]

omit [Fintype ι] [DecidableEq ι] in
/-- A step of each of the methods preserves affine combinations. -/
theorem step_combination (F : ℝ → (ι → ℝ) → ι → ℝ) (f : κ → ℝ → (ι → ℝ) → ι → ℝ) (a : κ → ℝ)
    (h : ∀ t (y : κ → ι → ℝ) i, F t (fun i => ∑ k, a k * y k i) i = ∑ k, a k * f k t (y k) i)
    (t dt : ℝ) (y : κ → ι → ℝ) (meth : Method) :
    stepOf F t dt (fun i => ∑ k, a k * y k i) meth = fun i => ∑ k, a k * stepOf (f k) t dt (y k) meth i := by
  have hF : ∀ t (y : κ → ι → ℝ), F t (fun i => ∑ k, a k * y k i) = fun i => ∑ k, a k * f k t (y k) i :=
    fun t y => funext fun i => h t y i
  have add1 : ∀ (c : ℝ) (u v : κ → ι → ℝ), (fun i => (∑ k, a k * u k i) + c * ∑ k, a k * v k i) =
      fun i => ∑ k, a k * (u k i + c * v k i) := by
    intro c u v
    funext i
    rw [Finset.mul_sum, ← Finset.sum_add_distrib]
    exact Finset.sum_congr rfl fun _ _ => by ring
  have add2 : ∀ (c : ℝ) (u v w : κ → ι → ℝ), (fun i => (∑ k, a k * u k i) + c * (2 * (∑ k, a k * v k i) - ∑ k, a k * w k i)) =
      fun i => ∑ k, a k * (u k i + c * (2 * v k i - w k i)) := by
    intro c u v w
    funext i
    rw [Finset.mul_sum, ← Finset.sum_sub_distrib, Finset.mul_sum, ← Finset.sum_add_distrib]
    exact Finset.sum_congr rfl fun _ _ => by ring
  cases meth with
  | forwardEuler =>
    simp only [stepOf]
    funext i
    rw [h, ← congrFun (add1 dt y fun k => f k t (y k)) i]
  | rk3 =>
    simp only [stepOf, hF, add1, add2]
    funext i
    rw [Finset.mul_sum, ← Finset.sum_add_distrib, ← Finset.sum_add_distrib, Finset.mul_sum, Finset.sum_div, ← Finset.sum_add_distrib]
    exact Finset.sum_congr rfl fun _ _ => by ring
  | rk4 =>
    simp only [stepOf, hF, add1]
    funext i
    rw [Finset.mul_sum, Finset.mul_sum, ← Finset.sum_add_distrib, ← Finset.sum_add_distrib, ← Finset.sum_add_distrib, Finset.mul_sum,
      Finset.sum_div, ← Finset.sum_add_distrib]
    exact Finset.sum_congr rfl fun _ _ => by ring

omit [Fintype ι] [DecidableEq ι] in
theorem run_combination (F : ℝ → (ι → ℝ) → ι → ℝ) (f : κ → ℝ → (ι → ℝ) → ι → ℝ) (a : κ → ℝ)
    (h : ∀ t (y : κ → ι → ℝ) i, F t (fun i => ∑ k, a k * y k i) i = ∑ k, a k * f k t (y k) i)
    (dt : ℝ) (meth : Method) (n : ℕ) (t : ℝ) (y : κ → ι → ℝ) :
    runOf F meth dt n t (fun i => ∑ k, a k * y k i) = fun i => ∑ k, a k * runOf (f k) meth dt n t (y k) i := by
  induction n generalizing t y with
  | zero => rfl
  | succ n ih =>
    simp only [runOf]
    rw [step_combination F f a h, ih]

end

/-! ## Theorems -/

/-- **C131**, the general form: take any number of runs on the same mesh with the same method, time step and number of steps, each with
its own sources and initial temperatures.  A run whose initial temperatures and, at all times, power densities are the combination of
theirs with the weights `a k`, `∑ a k = 1`, ends with the combination of their temperatures. -/
theorem C131_combination {κ : Type*} [Fintype κ] (m : Mesh ι) (hp : PureAdiabatic m.types) (hc : ConstantData m) (a : κ → ℝ)
    (h1 : ∑ k, a k = 1) (B : ℝ → List Beam) (b : κ → ℝ → List Beam) (hB : ∀ t, OffIsZero (B t)) (hb : ∀ k t, OffIsZero (b k t))
    (hpow : ∀ t p, power (B t) p = ∑ k, a k * power (b k t) p) (meth : Method) (dt : ℝ) (n : ℕ) (t0 t : ℝ) (y : κ → ι → ℝ) :
    ∃ (z : κ → ι → ℝ) (op : κ → Operator ι) (op' : Operator ι),
      (∀ k, steps (some meth) dt n (t, y k, m.operator (b k) t0) = some (t + n * dt, z k, op k)) ∧
      steps (some meth) dt n (t, fun i => ∑ k, a k * y k i, m.operator B t0) = some (t + n * dt, fun i => ∑ k, a k * z k i, op') := by
  choose op hop using fun k => steps_eq meth dt n t (y k) (m.operator (b k) t0)
  obtain ⟨op', h'⟩ := steps_eq meth dt n t (fun i => ∑ k, a k * y k i) (m.operator B t0)
  refine ⟨_, op, op', hop, ?_⟩
  rw [h', run_combination _ (fun k => rhs (m.operator (b k) t0)) a]
  intro s y i
  simp only [rhs_operator]
  rw [vmult_combination m hp hc a h1 (B s) (fun k => b k s) (hB s) (fun k => hb k s) (hpow s), Finset.mul_sum]
  exact Finset.sum_congr rfl fun _ _ => by ring

/-- **C131**, two sets of sources: the temperature rise they cause together is the sum of the rises each of them causes alone.  All
four runs start from the same temperatures; the rise is over the run without sources. -/
theorem C131_superposition (m : Mesh ι) (hp : PureAdiabatic m.types) (hc : ConstantData m) (A B : ℝ → List Beam)
    (hA : ∀ t, OffIsZero (A t)) (hB : ∀ t, OffIsZero (B t)) (meth : Method) (dt : ℝ) (n : ℕ) (t0 t : ℝ) (y : ι → ℝ) :
    ∃ (both first second none : ι → ℝ) (o1 o2 o3 o4 : Operator ι),
      steps (some meth) dt n (t, y, m.operator (fun s => A s ++ B s) t0) = some (t + n * dt, both, o1) ∧
      steps (some meth) dt n (t, y, m.operator A t0) = some (t + n * dt, first, o2) ∧
      steps (some meth) dt n (t, y, m.operator B t0) = some (t + n * dt, second, o3) ∧
      steps (some meth) dt n (t, y, m.operator (fun _ => []) t0) = some (t + n * dt, none, o4) ∧
      ∀ i, both i - none i = (first i - none i) + (second i - none i) := by
  have hoff : ∀ t, OffIsZero (A t ++ B t) := fun t b hb => (List.mem_append.1 hb).elim (hA t b) (hB t b)
  obtain ⟨z, op, op', h, h'⟩ := C131_combination m hp hc ![1, 1, -1] (by simp [Fin.sum_univ_three]) (fun s => A s ++ B s)
    ![A, B, fun _ => []] hoff (by intro k t; fin_cases k; exacts [hA t, hB t, offNil])
    (by intro t p; simp [Fin.sum_univ_three, power]) meth dt n t0 t (fun _ => y)
  refine ⟨fun i => ∑ k, ![1, 1, -1] k * z k i, z 0, z 1, z 2, op', op 0, op 1, op 2, ?_, h 0, h 1, h 2, ?_⟩
  · have hy : (fun i => ∑ k, ![1, 1, -1] k * y i) = y := funext fun i => by simp [Fin.sum_univ_three]
    rwa [hy] at h'
  · intro i
    simp [Fin.sum_univ_three]
    ring

/-- **C131**, proportionality: multiplying the power density of the sources by `s` multiplies the temperature rise by `s`. -/
theorem C131_proportional (m : Mesh ι) (hp : PureAdiabatic m.types) (hc : ConstantData m) (s : ℝ) (A A' : ℝ → List Beam)
    (hA : ∀ t, OffIsZero (A t)) (hA' : ∀ t, OffIsZero (A' t)) (hs : ∀ t p, power (A' t) p = s * power (A t) p)
    (meth : Method) (dt : ℝ) (n : ℕ) (t0 t : ℝ) (y : ι → ℝ) :
    ∃ (scaled one none : ι → ℝ) (o1 o2 o3 : Operator ι),
      steps (some meth) dt n (t, y, m.operator A' t0) = some (t + n * dt, scaled, o1) ∧
      steps (some meth) dt n (t, y, m.operator A t0) = some (t + n * dt, one, o2) ∧
      steps (some meth) dt n (t, y, m.operator (fun _ => []) t0) = some (t + n * dt, none, o3) ∧
      ∀ i, scaled i - none i = s * (one i - none i) := by
  obtain ⟨z, op, op', h, h'⟩ := C131_combination m hp hc ![s, 1 - s] (by simp [Fin.sum_univ_two]) A'
    ![A, fun _ => []] hA' (by intro k t; fin_cases k; exacts [hA t, offNil])
    (by intro t p; rw [hs]; simp [Fin.sum_univ_two, show power [] p = 0 from rfl]) meth dt n t0 t (fun _ => y)
  have hy : (fun i => ∑ k, ![s, 1 - s] k * y i) = y := funext fun i => by simp [Fin.sum_univ_two]; ring
  rw [hy] at h'
  refine ⟨fun i => ∑ k, ![s, 1 - s] k * z k i, z 0, z 1, op', op 0, op 1, h', h 0, h 1, ?_⟩
  intro i
  simp [Fin.sum_univ_two]
  ring

/-- **C131**, initial temperatures: without sources the difference of two runs is proportional to the difference of their initial
temperatures, and so are the differences of any two runs with the same sources. -/
theorem C131_initial (m : Mesh ι) (hp : PureAdiabatic m.types) (hc : ConstantData m) (s : ℝ) (A : ℝ → List Beam)
    (hA : ∀ t, OffIsZero (A t)) (meth : Method) (dt : ℝ) (n : ℕ) (t0 t : ℝ) (x y : ι → ℝ) :
    ∃ (zx zy z : ι → ℝ) (o1 o2 o3 : Operator ι),
      steps (some meth) dt n (t, x, m.operator A t0) = some (t + n * dt, zx, o1) ∧
      steps (some meth) dt n (t, y, m.operator A t0) = some (t + n * dt, zy, o2) ∧
      steps (some meth) dt n (t, fun i => x i + s * (y i - x i), m.operator A t0) = some (t + n * dt, z, o3) ∧
      ∀ i, z i - zx i = s * (zy i - zx i) := by
  obtain ⟨z, op, op', h, h'⟩ := C131_combination m hp hc ![1 - s, s] (by simp [Fin.sum_univ_two]) A
    (fun _ => A) hA (fun _ => hA) (by intro t p; simp [Fin.sum_univ_two]; ring) meth dt n t0 t ![x, y]
  have hy : (fun i => ∑ k, ![1 - s, s] k * (![x, y] : Fin 2 → ι → ℝ) k i) = fun i => x i + s * (y i - x i) :=
    funext fun i => by simp [Fin.sum_univ_two]; ring
  rw [hy] at h'
  refine ⟨z 0, z 1, fun i => ∑ k, ![1 - s, s] k * z k i, op 0, op 1, op', h 0, h 1, h', ?_⟩
  intro i
  simp [Fin.sum_univ_two]
  ring

/-- **C131**, only the total counts (any material data, any boundary): two sets of sources with the same total power density at all
times, such as the same sources in another order or one source split in two, give the same temperatures. -/
theorem C131_total_power (m : Mesh ι) (hp : PureAdiabatic m.types) (A B : ℝ → List Beam)
    (hA : ∀ t, OffIsZero (A t)) (hB : ∀ t, OffIsZero (B t)) (hs : ∀ t p, power (A t) p = power (B t) p)
    (meth : Method) (dt : ℝ) (n : ℕ) (t0 t : ℝ) (y : ι → ℝ) :
    ∃ (z : ι → ℝ) (o1 o2 : Operator ι), steps (some meth) dt n (t, y, m.operator A t0) = some (t + n * dt, z, o1) ∧
      steps (some meth) dt n (t, y, m.operator B t0) = some (t + n * dt, z, o2) := by
  obtain ⟨o1, h1⟩ := steps_eq meth dt n t y (m.operator A t0)
  obtain ⟨o2, h2⟩ := steps_eq meth dt n t y (m.operator B t0)
  have hr : rhs (m.operator A t0) = rhs (m.operator B t0) := by
    funext s x g
    simp only [rhs_operator]
    congr 1
    by_cases hg : m.hanging.constrained g = true
    · simp only [vmult_constrained m _ _ g hg]
    · have hg' : m.hanging.constrained g = false := by simpa using hg
      rw [vmult_free m _ (hA s) hp _ g hg', vmult_free m _ (hB s) hp _ g hg']
      unfold Mesh.bulkTerm
      rw [show power (A s) = power (B s) from funext (hs s)]
  refine ⟨_, o1, o2, h1, ?_⟩
  rw [h2, hr]

/-- **C131**, the order in which the input lists the beams does not matter. -/
theorem C131_order (m : Mesh ι) (hp : PureAdiabatic m.types) (A B : ℝ → List Beam) (hA : ∀ t, OffIsZero (A t))
    (hperm : ∀ t, (A t).Perm (B t)) (meth : Method) (dt : ℝ) (n : ℕ) (t0 t : ℝ) (y : ι → ℝ) :
    ∃ (z : ι → ℝ) (o1 o2 : Operator ι), steps (some meth) dt n (t, y, m.operator A t0) = some (t + n * dt, z, o1) ∧
      steps (some meth) dt n (t, y, m.operator B t0) = some (t + n * dt, z, o2) :=
  C131_total_power m hp A B hA (fun t b hb => hA t b ((hperm t).mem_iff.2 hb))
    (fun t _ => ((hperm t).map _).sum_eq) meth dt n t0 t y

/-! ## Runs on changing meshes -/

/-- One leg of a run: the temperatures are carried to a new mesh, where `n` steps of size `dt` follow.  A value on the new mesh is an
interpolation of old values (`w`, refinement, `application/adamantine.hh:337-470`) plus a given temperature (`c`, added material,
`source/ThermalPhysics.templates.hh:600-779`)
(`ι`: all degrees of freedom the meshes of the run have). -/
structure Leg (ι : Type*) where
  mesh : Mesh ι
  w : ι → ι → ℝ
  c : ι → ℝ
  dt : ℝ
  n : ℕ

/-- The temperatures on the new mesh. -/
def Leg.carry (l : Leg ι) (y : ι → ℝ) (i : ι) : ℝ := l.c i + ∑ j, l.w i j * y j

/-- A run on changing meshes. -/
noncomputable def travel (meth : Method) (beams : ℝ → List Beam) (t0 : ℝ) : List (Leg ι) → ℝ × (ι → ℝ) → Option (ℝ × (ι → ℝ))
  | [], s => some s
  | l :: ls, s => (steps (some meth) l.dt l.n (s.1, l.carry s.2, l.mesh.operator beams t0)).bind fun r =>
      travel meth beams t0 ls (r.1, r.2.1)

/-- **C131** with refinement and added material between the steps: the same combination as in `C131_combination`. -/
theorem C131_changing_mesh {κ : Type*} [Fintype κ] (legs : List (Leg ι)) (hp : ∀ l ∈ legs, PureAdiabatic l.mesh.types)
    (hc : ∀ l ∈ legs, ConstantData l.mesh) (a : κ → ℝ)
    (h1 : ∑ k, a k = 1) (B : ℝ → List Beam) (b : κ → ℝ → List Beam) (hB : ∀ t, OffIsZero (B t)) (hb : ∀ k t, OffIsZero (b k t))
    (hpow : ∀ t p, power (B t) p = ∑ k, a k * power (b k t) p) (meth : Method) (t0 t : ℝ) (y : κ → ι → ℝ) :
    ∃ (e : ℝ) (z : κ → ι → ℝ), (∀ k, travel meth (b k) t0 legs (t, y k) = some (e, z k)) ∧
      travel meth B t0 legs (t, fun i => ∑ k, a k * y k i) = some (e, fun i => ∑ k, a k * z k i) := by
  induction legs generalizing t y with
  | nil => exact ⟨t, y, fun _ => rfl, rfl⟩
  | cons l ls ih =>
    obtain ⟨z, op, op', h, h'⟩ := C131_combination l.mesh (hp l (by simp)) (hc l (by simp)) a h1 B b hB hb hpow meth l.dt l.n t0 t
      (fun k => l.carry (y k))
    obtain ⟨e, z', g, g'⟩ := ih (fun l' hl => hp l' (by simp [hl])) (fun l' hl => hc l' (by simp [hl])) (t + l.n * l.dt) z
    refine ⟨e, z', fun k => ?_, ?_⟩
    · simp only [travel, h k, Option.bind_some, g k]
    · have hcar : l.carry (fun i => ∑ k, a k * y k i) = fun i => ∑ k, a k * l.carry (y k) i := by
        funext i
        have hs := sum_combination a y (l.w i)
        simp only [Leg.carry, mul_add, Finset.sum_add_distrib, ← Finset.sum_mul, h1, one_mul]
        congr 1
        simp only [mul_comm (l.w i _)]
        exact hs
      simp only [travel, hcar, h', Option.bind_some, g']

/-! ## Examples -/

/-- The rod with a convective end of C116 and a constant source meet the hypotheses: two such sources heat it twice as much as one. -/
example (meth : Method) (dt : ℝ) (n : ℕ) (y : Fin 2 → ℝ) :
    ∃ (both first none : Fin 2 → ℝ) (o1 o2 o3 : Operator (Fin 2)),
      steps (some meth) dt n (0, y, (endRod 1 1 [4, 4]).operator (fun _ => [cubeBeam0] ++ [cubeBeam0]) 0) = some (0 + n * dt, both, o1) ∧
      steps (some meth) dt n (0, y, (endRod 1 1 [4, 4]).operator (fun _ => [cubeBeam0]) 0) = some (0 + n * dt, first, o2) ∧
      steps (some meth) dt n (0, y, (endRod 1 1 [4, 4]).operator (fun _ => []) 0) = some (0 + n * dt, none, o3) ∧
      ∀ i, both i - none i = 2 * (first i - none i) := by
  obtain ⟨hp, _, _, hc, _⟩ := endRod_limit
  have hoff : OffIsZero [cubeBeam0] := by
    intro b hb hon
    simp only [List.mem_cons, List.not_mem_nil, or_false] at hb
    subst hb
    simp [cubeBeam0] at hon
  obtain ⟨both, first, second, none, o1, o2, o3, o4, h1, h2, h3, h4, h⟩ := C131_superposition (endRod 1 1 [4, 4]) hp hc
    (fun _ => [cubeBeam0]) (fun _ => [cubeBeam0]) (fun _ => hoff) (fun _ => hoff) meth dt n 0 0 y
  refine ⟨both, first, none, o1, o2, o4, h1, h2, h4, fun i => ?_⟩
  have : first = second := by
    rw [h2] at h3
    simp only [Option.some.injEq, Prod.mk.injEq] at h3
    exact h3.2.1
  rw [h i, this]; ring

/-- One cell with one degree of freedom whose `1/(ρ c_p)` is 1 below 302 K and 1/2 from there on. -/
noncomputable def switch : Mesh (Fin 1) where
  hanging := noHanging _
  cells := [⟨0, 1, 1, fun _ => 0, fun _ _ => 1, fun _ _ _ => 0, fun _ => 1, fun _ => 0, fun _ => 1, fun _ => 0,
    fun _ T => ⟨if T < 302 then 1 else 1 / 2, 1, 1, 1⟩, 1, fun _ _ => 1, fun _ => 1⟩]
  faces := []
  types := []

theorem switch_rhs (beams : List Beam) (hoff : OffIsZero beams) (y : Fin 1 → ℝ) :
    switch.invMass 0 * switch.vmult beams y 0 = (if y 0 < 302 then 1 else 1 / 2) * power beams 0 := by
  have hp : PureAdiabatic switch.types := fun t ht => by simp [switch] at ht
  have h1 : switch.mass 0 = 1 := by
    simp [Mesh.mass, switch, massApply, noHanging, Hanging.distribute, Hanging.resolve, Hanging.coef]
  rw [Mesh.invMass, h1, vmult_free switch beams hoff hp y 0 rfl]
  simp [Mesh.bulkTerm, Mesh.boundaryTerm, switch, Cell.weak, Cell.temperature, Cell.phi, Cell.dphi, noHanging, Hanging.coef]

/-- The restriction to constant data is needed: from 300 K two steps of one second with a source of 1 and 2 K/s end at 302 K and
303 K, not 304 K. -/
theorem superposition_needs_constant_data :
    runOf (rhs (switch.operator (fun _ => [cubeBeam0]) 0)) .forwardEuler 1 2 0 (fun _ => 300) 0 = 302 ∧
    runOf (rhs (switch.operator (fun _ => [cubeBeam0, cubeBeam0]) 0)) .forwardEuler 1 2 0 (fun _ => 300) 0 = 303 ∧
    runOf (rhs (switch.operator (fun _ => []) 0)) .forwardEuler 1 2 0 (fun _ => 300) 0 = 300 := by
  have hoff1 : OffIsZero [cubeBeam0] := by
    intro b hb hon
    simp only [List.mem_cons, List.not_mem_nil, or_false] at hb
    subst hb
    simp [cubeBeam0] at hon
  have hoff2 : OffIsZero [cubeBeam0, cubeBeam0] := by
    intro b hb hon
    simp only [List.mem_cons, List.not_mem_nil, or_false, or_self] at hb
    subst hb
    simp [cubeBeam0] at hon
  refine ⟨?_, ?_, ?_⟩
  · simp only [runOf, stepOf, rhs_operator, switch_rhs _ hoff1]
    norm_num [power, cubeBeam0]
  · simp only [runOf, stepOf, rhs_operator, switch_rhs _ hoff2]
    norm_num [power, cubeBeam0]
  · simp only [runOf, stepOf, rhs_operator, switch_rhs _ offNil]
    norm_num [power]

end Verif.Assembly
