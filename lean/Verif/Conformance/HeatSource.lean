import Verif.Conformance.ScanPath
import Verif.HeatSource.Model

/-!
# The heat source tests of the project, on the model

`/repo/tests/test_heat_source.cc`, `heat_source_value_2d` and `heat_source_value_3d`, with the scan path of
`/repo/tests/data/scan_path.txt`.  Tests of the model, not proofs of properties.
-/

namespace Verif.Conformance

open Verif.Quat Verif.ScanPath Verif.HeatSource

/-- The beam of the tests: depth 0.1, efficiency 0.1, diameter 1, power 10. -/
noncomputable def testBeam (k : Kind) : Source :=
  .new k (.ofDatabase 1 1 (1 / 10) (1 / 10) 1 10) (scanPath 0)

/-- The beam at time `t` has power factor `m` and is at `c`. -/
noncomputable def beamOf (k : Kind) (i : ℕ) (m : ℝ) (c : Answer (Pt3 ℝ)) : Source where
  kind := k
  props := .ofDatabase 1 1 (1 / 10) (1 / 10) 1 10
  path := scanPath i
  fiveAxis := false
  sourceOn := decide (m > 0)
  center := c
  quat := .value ⟨1, 0, 0, 0⟩
  alpha := coefficient k (.ofDatabase 1 1 (1 / 10) (1 / 10) 1 10) m
  depth := 1 / 10
  radiusSq := 1 / 4

theorem test_beam_first (k : Kind) (t : ℝ) (h0 : 0 ≤ t) (h : t ≤ 1 / 1000000) :
    (testBeam k).updateTime t = some (beamOf k 0 0 (.value ⟨0, 1 / 10, 1 / 10⟩)) := by
  have hs : search scanPathSegments t 0 = some 0 := by
    rw [search]
    have : ¬ t > 1 / 1000000 := not_lt.2 h
    simp only [scanPathSegments, List.length_cons, List.getElem_cons_zero]
    simp
    intro hh
    exact absurd hh (by simpa using this)
  have hlast : ¬ t > 1 / 1000000 + 2 / 1000 / (8 / 10) := by
    norm_num
    linarith
  have hp : powerModifier (scanPath 0) t = (.value 0, scanPath 0) := by
    simp only [powerModifier, scanPath, current, hs]
    simp only [scanPathSegments, List.getLast?_cons_cons, List.getLast?_singleton, if_neg hlast]
    rfl
  have hv : value (scanPath 0) t true = (.value ⟨0, 1 / 10, 1 / 10⟩, scanPath 0) := by
    simp only [value, scanPath, current, hs]
    simp only [scanPathSegments, List.getLast?_cons_cons, List.getLast?_singleton, if_neg hlast]
    norm_num [segStart, lerp, Path.save]
  simp only [Source.updateTime, testBeam, Source.new, hp, hv]
  norm_num [beamOf, scanPath, quaternion, BeamProps.ofDatabase]

theorem test_beam_second (k : Kind) :
    (testBeam k).updateTime (1001 / 1000000) = some (beamOf k 1 1 (.value ⟨8 / 10000, 1 / 10, 1 / 10⟩)) := by
  have hs : search scanPathSegments (1001 / 1000000) 0 = some 1 := by
    rw [search, search]
    norm_num [scanPathSegments]
  have hs1 : search scanPathSegments (1001 / 1000000) 1 = some 1 := by
    rw [search]
    norm_num [scanPathSegments]
  have hp : powerModifier (scanPath 0) (1001 / 1000000) = (.value 1, scanPath 1) := by
    simp only [powerModifier, scanPath, current, hs]
    norm_num [scanPathSegments, Path.save]
  have hv : value (scanPath 1) (1001 / 1000000) true = (.value ⟨8 / 10000, 1 / 10, 1 / 10⟩, scanPath 1) := by
    simp only [value, scanPath, current, hs1]
    norm_num [scanPathSegments, segStart, lerp, Path.save]
  simp only [Source.updateTime, testBeam, Source.new, hp, hv]
  norm_num [beamOf, scanPath, quaternion, BeamProps.ofDatabase]

theorem test_beam_after (k : Kind) : (testBeam k).updateTime 100 = some (beamOf k 0 0 .outOfDomain) := by
  have hp : powerModifier (scanPath 0) 100 = (.value 0, scanPath 0) := by
    norm_num [powerModifier, scanPath, scanPathSegments]
  have hv : value (scanPath 0) 100 true = (.outOfDomain, scanPath 0) := by
    norm_num [value, scanPath, scanPathSegments]
  simp only [Source.updateTime, testBeam, Source.new, hp, hv]
  norm_num [beamOf, scanPath, quaternion, BeamProps.ofDatabase]

/-- `tests/test_heat_source.cc`, `heat_source_value_3d`: no power in the first segment, the beam centre in the second one, slightly off the
centre, and (`heat_source_value_2d`) after the end. -/
theorem conformance_goldak_3d :
    ((testBeam .goldak).updateTime (1 / 10000000)).bind (fun s => s.value3 ⟨0, 0, 5 / 100⟩) = some 0 ∧
    ((testBeam .goldak).updateTime (5 / 10000000)).bind (fun s => s.value3 ⟨10, 0, 0⟩) = some 0 ∧
    ((testBeam .goldak).updateTime (1001 / 1000000)).bind (fun s => s.value3 ⟨8 / 10000, 1 / 10, 1 / 10⟩) =
      some (2 * (1 / 10) * 10 / (1 / 2 * (1 / 2) * (1 / 10) * (Real.pi / 3) ^ (3 / 2 : ℝ))) ∧
    ((testBeam .goldak).updateTime (1001 / 1000000)).bind (fun s => s.value3 ⟨7 / 10000, 1 / 10, 9 / 100⟩) =
      some (2 * (1 / 10) * 10 / (1 / 2 * (1 / 2) * (1 / 10) * (Real.pi / 3) ^ (3 / 2 : ℝ)) *
        Real.exp (-3 * (1 / 10000) * (1 / 10000) / (1 / 4) - 3 * (1 / 100) * (1 / 100) / (1 / 10) / (1 / 10))) ∧
    ((testBeam .goldak).updateTime 100).bind (fun s => s.value3 ⟨7 / 10000, 1 / 10, 9 / 100⟩) = some 0 := by
  rw [test_beam_first _ _ (by norm_num) (by norm_num), test_beam_first _ _ (by norm_num) (by norm_num), test_beam_second, test_beam_after]
  refine ⟨?_, ?_, ?_, ?_, ?_⟩
  · simp [beamOf, Source.value3, Source.inFrame, Source.scalarAt, coefficient]
  · simp [beamOf, Source.value3, Source.inFrame, Source.scalarAt, coefficient]
  · norm_num [beamOf, Source.value3, Source.inFrame, Source.scalarAt, coefficient, rho2In3D, Source.cutoffRadiusSq, profile, BeamProps.ofDatabase]
  · norm_num [beamOf, Source.value3, Source.inFrame, Source.scalarAt, coefficient, rho2In3D, Source.cutoffRadiusSq, profile, BeamProps.ofDatabase]
  · simp [beamOf, Source.value3, Source.inFrame]

/-- The same for the electron beam. -/
theorem conformance_electron_3d :
    ((testBeam .electronBeam).updateTime (1 / 10000000)).bind (fun s => s.value3 ⟨0, 0, 5 / 100⟩) = some 0 ∧
    ((testBeam .electronBeam).updateTime (5 / 10000000)).bind (fun s => s.value3 ⟨10, 0, 0⟩) = some 0 ∧
    ((testBeam .electronBeam).updateTime (1001 / 1000000)).bind (fun s => s.value3 ⟨8 / 10000, 1 / 10, 1 / 10⟩) =
      some (-(1 / 10) * 10 * 1 * Real.log (1 / 10) / (Real.pi * (1 / 2) * (1 / 2) * (1 / 10))) ∧
    ((testBeam .electronBeam).updateTime (1001 / 1000000)).bind (fun s => s.value3 ⟨7 / 10000, 1 / 10, 9 / 100⟩) =
      some (-(1 / 10) * 10 * 1 * Real.log (1 / 10) / (Real.pi * (1 / 2) * (1 / 2) * (1 / 10)) *
        Real.exp (Real.log (1 / 10) * (1 / 10000) * (1 / 10000) / (1 / 4)) *
        (-3 * (1 / 100) * (1 / 100) / (1 / 10) / (1 / 10) + 2 * (1 / 100) / (1 / 10) + 1)) := by
  rw [test_beam_first _ _ (by norm_num) (by norm_num), test_beam_first _ _ (by norm_num) (by norm_num), test_beam_second]
  refine ⟨?_, ?_, ?_, ?_⟩
  · simp [beamOf, Source.value3, Source.inFrame, Source.scalarAt, coefficient]
  · simp [beamOf, Source.value3, Source.inFrame, Source.scalarAt, coefficient]
  · norm_num [beamOf, Source.value3, Source.inFrame, Source.scalarAt, coefficient, rho2In3D, Source.cutoffRadiusSq, profile, BeamProps.ofDatabase]
    ring
  · norm_num [beamOf, Source.value3, Source.inFrame, Source.scalarAt, coefficient, rho2In3D, Source.cutoffRadiusSq, profile, BeamProps.ofDatabase]
    ring_nf

/-- `heat_source_value_2d`: the height of the beam is the second coordinate of the path. -/
theorem conformance_goldak_2d :
    ((testBeam .goldak).updateTime (1001 / 1000000)).bind (fun s => s.value2 (8 / 10000) (1 / 10)) =
      some (2 * (1 / 10) * 10 / (1 / 2 * (1 / 2) * (1 / 10) * (Real.pi / 3) ^ (3 / 2 : ℝ))) ∧
    ((testBeam .goldak).updateTime 100).bind (fun s => s.value2 (7 / 10000) (9 / 100)) = some 0 := by
  rw [test_beam_second, test_beam_after]
  refine ⟨?_, ?_⟩
  · norm_num [beamOf, Source.value2, Source.scalarAt, coefficient, Source.cutoffRadiusSq, profile, BeamProps.ofDatabase]
  · simp [beamOf, Source.value2]

end Verif.Conformance
