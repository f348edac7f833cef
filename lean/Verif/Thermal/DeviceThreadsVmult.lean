import Verif.Thermal.Device
import Verif.Thermal.DeviceThreads

/-!
# C140 and C107: the threads compute `vmult`

The cells of a mesh of `Thermal/Assembly` as cells of the cell loop of `Thermal/DeviceThreads`,
`source/ThermalOperatorDevice.templates.hh:452-505`, `:636-668`.
-/

namespace Verif.Device

open Verif.Material Verif.Assembly

variable {N : ℕ}

/-- The submitted gradient with the loaded value `v` of `_inv_rho_cp[pos]`, `source/ThermalOperatorDevice.templates.hh:350-397`.
Simplification: the conductivities are those of the coefficients of the cell, as in C107. -/
noncomputable def fluxWith (c : Cell (Fin N)) (h : Hanging (Fin N)) (y : Fin N → ℝ) (v : ℝ) (q : Fin c.nq) : Fin 3 → ℝ :=
  let k := c.coef q (c.value h y q);
  let g := c.gradient h y q;
  fun d => -v * (![(k.kx * c.cos q * c.cos q + k.ky * c.sin q * c.sin q) * g 0 + ((k.kx - k.ky) * c.sin q * c.cos q) * g 1,
    ((k.kx - k.ky) * c.sin q * c.cos q) * g 0 + (k.kx * c.sin q * c.sin q + k.ky * c.cos q * c.cos q) * g 1, k.kz * g 2] d)

/-- A cell of the mesh as a cell of the loop: `integrate(gradients)` and `distribute_local_to_global`. -/
noncomputable def ofCell (h : Hanging (Fin N)) (y : Fin N → ℝ) (pos : (c : Cell (Fin N)) → Fin c.nq → ℕ)
    (melt : (c : Cell (Fin N)) → Fin c.nq → Melt) (c : Cell (Fin N)) : DCell where
  points := (List.finRange c.nq).map fun q => ⟨pos c q, melt c q, c.value h y q⟩
  integrate rs := (List.finRange N).map fun g => (g.val, ∑ i, h.coef (c.dof i) g *
    ∑ q, (∑ d, fluxWith c h y ((rs.map Prod.snd).getD q.val 0) q d * c.grad i q d) * c.jxw q)

theorem filter_entry (f : Fin N → ℝ) (g : Fin N) :
    ((((List.finRange N).map fun g => (g.val, f g)).filter fun e => e.1 = g.val).map Prod.snd).sum = f g := by
  have : ∀ l : List (Fin N), l.Nodup → (((l.map fun g => (g.val, f g)).filter fun e => e.1 = g.val).map Prod.snd).sum =
      if g ∈ l then f g else 0 := by
    intro l
    induction l with
    | nil => simp
    | cons a l ih =>
      intro hn
      rw [List.nodup_cons] at hn
      rw [List.map_cons]
      by_cases e : a = g
      · subst e
        have hl := ih hn.2
        rw [if_neg hn.1] at hl
        simp only [List.filter_cons, decide_true, if_true, List.map_cons, List.sum_cons, hl, add_zero, List.mem_cons, true_or]
      · have e' : ¬ a.val = g.val := fun h => e (Fin.ext h)
        simp only [List.filter_cons, e', decide_false, Bool.false_eq_true, if_false, ih hn.2, List.mem_cons]
        have : ¬ g = a := fun h => e h.symm
        simp [this]
  rw [this _ (List.nodup_finRange N), if_pos (List.mem_finRange g)]

/-- **C140, the rate.**  If the heat capacity that the loop stores at a point (from the new fractions there) is that of the coefficients
of the cell, then in every schedule the cell loop, followed by the copy of the constrained values, gives the `vmult` of C107. -/
theorem C140_vmult (m : Mesh (Fin N)) (y : Fin N → ℝ) (k : Kind) (inv : Point → Ratios → ℝ)
    (pos : (c : Cell (Fin N)) → Fin c.nq → ℕ) (melt : (c : Cell (Fin N)) → Fin c.nq → Melt) (mem : Memory)
    (h0 : ∀ g, mem (.dst g) = 0)
    (hinv : ∀ c ∈ m.cells, c.fe = 0 → ∀ q : Fin c.nq,
      inv ⟨pos c q, melt c q, c.value m.hanging y q⟩
        (newRatios k (mem (.powder (pos c q))) ⟨pos c q, melt c q, c.value m.hanging y q⟩) =
      (c.coef q (c.value m.hanging y q)).invRhoCp)
    (hpos : OwnPositions ((m.cells.filter fun c => c.fe = 0).map (ofCell m.hanging y pos melt)))
    (schedule : List (Fin ((m.cells.filter fun c => c.fe = 0).map (ofCell m.hanging y pos melt)).length))
    (he : Ended (execute (· + ·) (launch k inv ((m.cells.filter fun c => c.fe = 0).map (ofCell m.hanging y pos melt))) mem
      schedule).1) (g : Fin N) :
    (if m.hanging.constrained g then y g else (execute (· + ·) (launch k inv
        ((m.cells.filter fun c => c.fe = 0).map (ofCell m.hanging y pos melt))) mem schedule).2 (.dst g.val)) =
      m.deviceVmult y g := by
  unfold Mesh.deviceVmult
  rw [C140_exact k inv _ hpos mem schedule he g.val, h0, zero_add]
  refine if_congr Iff.rfl rfl ?_
  rw [foldl_add _ _ (deviceCellApply_eq m.hanging y), zero_add, sum_filter_ite, List.map_map]
  congr 1
  refine List.map_congr_left fun c hc => ?_
  obtain ⟨hc1, hc2⟩ := List.mem_filter.1 hc
  have hfe : c.fe = 0 := by simpa using hc2
  refine (filter_entry (fun g => ∑ i, m.hanging.coef (c.dof i) g * ∑ q, (∑ d, fluxWith c m.hanging y
    (((submitted k inv (fun i => mem (.powder i)) (ofCell m.hanging y pos melt c)).map Prod.snd).getD q.val 0) q d * c.grad i q d) *
      c.jxw q) g).trans ?_
  refine Finset.sum_congr rfl fun i _ => congrArg _ (Finset.sum_congr rfl fun q _ => ?_)
  have hval : ((submitted k inv (fun i => mem (.powder i)) (ofCell m.hanging y pos melt c)).map Prod.snd).getD q.val 0 =
      (c.coef q (c.value m.hanging y q)).invRhoCp := by
    have hq : (List.finRange c.nq)[q.val]? = some q := by
      rw [List.getElem?_eq_getElem (by simp)]
      simp
    simp only [submitted, ofCell, List.map_map, List.getD_eq_getElem?_getD, List.getElem?_map, hq, Option.map_some,
      Option.getD_some, Function.comp_apply]
    exact hinv c hc1 hfe q
  rw [hval]
  congr 1
  refine Finset.sum_congr rfl fun d _ => ?_
  rw [← deviceFlux_eq]
  rfl

/-- The hypotheses are met: the insulated rod of C107, one cell with one point. -/
example (L A r : ℝ) (y : Fin 2 → ℝ) (g : Fin 2) : ∃ schedule,
    (execute (· + ·) (launch .solid (fun _ _ => r) (((rod L A r).cells.filter fun c => c.fe = 0).map
      (ofCell (rod L A r).hanging y (fun _ q => q.val) fun _ _ => ⟨1, 2⟩))) (fun _ => 0) schedule).2 (.dst g.val) =
      (rod L A r).deviceVmult y g := by
  obtain ⟨σ, h⟩ := C140_can_end (· + ·) (launch .solid (fun _ _ => r) (((rod L A r).cells.filter fun c => c.fe = 0).map
      (ofCell (rod L A r).hanging y (fun _ q => q.val) fun _ _ => ⟨1, 2⟩))) (fun _ => 0) []
  refine ⟨σ, ?_⟩
  have := C140_vmult (rod L A r) y .solid (fun _ _ => r) (fun _ q => q.val) (fun _ _ => ⟨1, 2⟩) (fun _ => 0) (fun _ => rfl)
    (by
      intro c hc _ q
      have : c = rodCell L A r := by simpa [rod] using hc
      subst this
      rfl)
    (by
      have : ((rod L A r).cells.filter fun c => c.fe = 0) = [rodCell L A r] := by simp [rod, rodCell]
      rw [this]
      exact List.nodup_singleton 0)
    σ h g
  rwa [if_neg (by simp [rod, noHanging])] at this

end Verif.Device
