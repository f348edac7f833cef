import Verif.Conformance.ScanPath
import Verif.Deposition.Model
import Mathlib.Tactic.Linarith

/-!
# The deposition tests of the project, on the model

`/repo/tests/test_material_deposition.cc`, `deposition_from_scan_path_2d` and `deposition_from_scan_path_3d`: the boxes along the scan path
of `/repo/tests/data/scan_path.txt`.  Tests of the model, not proofs of properties.
-/

namespace Verif.Conformance

open Verif.Quat Verif.ScanPath Verif.Deposition

/-- The parameters of the tests. -/
noncomputable def testParams : Params := ⟨5 / 10000, 1 / 10, 1 / 10, 0⟩

/-- The powered segment. -/
noncomputable def testCtx : SegCtx :=
  ⟨1 / 1000000, ⟨0, 1 / 10, 1 / 10⟩, ⟨0, 1 / 10, 1 / 10⟩,
    ⟨1 / 1000000 + 2 / 1000 / (8 / 10), 1, ⟨2 / 1000, 1 / 10, 1 / 10⟩, none⟩⟩

theorem dist_x (a b y z : ℝ) : distance ⟨a, y, z⟩ ⟨b, y, z⟩ = |a - b| := by
  rw [distance]
  rw [show (a - b) ^ 2 + (y - y) ^ 2 + (z - z) ^ 2 = (a - b) ^ 2 by ring]
  exact Real.sqrt_sq_eq_abs _

theorem test_len : testCtx.len = 2 / 1000 := by
  rw [SegCtx.len, testCtx, dist_x]
  norm_num [abs_of_pos]

theorem test_cos : testCtx.cos = 1 := by
  rw [SegCtx.cos, test_len]
  norm_num [testCtx]

theorem test_sin : testCtx.sin = 0 := by
  rw [SegCtx.sin, test_len]
  norm_num [testCtx]

/-- The states of the loop. -/
noncomputable def testState (n : ℕ) : LoopState := ⟨⟨n * (5 / 10000), 1 / 10, 1 / 10⟩, 5 / 10000⟩

theorem test_dist (n : ℕ) : testCtx.dist (testState n) = n * (5 / 10000) := by
  rw [SegCtx.dist, testState, testCtx, dist_x, sub_zero, abs_of_nonneg]
  positivity

theorem test_next {n : ℕ} (h : n < 4) : testCtx.next testParams (testState n) = testState (n + 1) := by
  have h4 : (n : ℝ) + 1 ≤ 4 := by exact_mod_cast h
  have hd : ¬ testCtx.dist (testState n) + testParams.length > testCtx.len := by
    rw [test_dist, test_len, testParams]
    intro hh
    dsimp only at hh
    nlinarith
  rw [SegCtx.next, SegCtx.increment, if_neg hd, if_neg hd, test_cos, test_sin]
  simp only [testState, testCtx, testParams]
  congr 2
  · push_cast; ring
  · ring

theorem test_state {n : ℕ} (h : n ≤ 4) : testCtx.state testParams n = testState n := by
  induction n with
  | zero => simp [SegCtx.state, testState, testCtx, testParams]
  | succ k ih => rw [SegCtx.state, ih (by omega), test_next (by omega)]

theorem test_stops {n : ℕ} (h : n ≤ 4) : testCtx.stops (testCtx.state testParams n) ↔ n = 4 := by
  rw [SegCtx.stops, test_state h, test_dist, test_len, eps]
  constructor
  · intro hh
    by_contra hn
    have h3 : (n : ℝ) ≤ 3 := by exact_mod_cast (show n ≤ 3 by omega)
    norm_num at hh
    linarith
  · rintro rfl
    norm_num

theorem test_last (h : ∃ n, testCtx.stops (testCtx.state testParams n)) : testCtx.lastIndex testParams h = 4 := by
  classical
  rw [SegCtx.lastIndex, Nat.find_eq_iff]
  refine ⟨(test_stops le_rfl).2 rfl, fun m hm hs => ?_⟩
  exact absurd ((test_stops hm.le).1 hs) hm.ne

theorem test_time (n : ℕ) : testCtx.pushTime testParams (n * (5 / 10000)) = some (1 / 1000000 + (n : ℝ) * (625 / 1000000)) := by
  have he : testCtx.seg.endTime - testCtx.startTime = 25 / 10000 := by norm_num [testCtx]
  have ht : testCtx.timeTo (n * (5 / 10000)) = some ((n : ℝ) * (625 / 1000000)) := by
    rw [SegCtx.timeTo, he, test_len]
    norm_num
    ring
  rw [SegCtx.pushTime, ht, Option.map_some]
  congr 1
  rw [max_eq_left]
  · simp [testCtx, testParams]
  · have : (0 : ℝ) ≤ n := n.cast_nonneg
    simp only [testCtx, testParams, eps]
    norm_num
    linarith

/-- The rows a dimension gives: the five states in order. -/
theorem test_along {β : Type} (mk : Params → SegCtx → LoopState → Option β) (f : LoopState → β)
    (hmk : ∀ s, mk testParams testCtx s = some (f s)) :
    alongScanPath mk testParams scanPathSegments = .ok ⟨[f (testState 0), f (testState 1), f (testState 2), f (testState 3), f (testState 4)],
      [some (1 / 1000000), some (626 / 1000000), some (1251 / 1000000), some (1876 / 1000000), some (2501 / 1000000)],
      [1, 1, 1, 1, 1], [0, 0, 0, 0, 0]⟩ := by
  have hex : ∃ n, testCtx.stops (testCtx.state testParams n) := ⟨4, (test_stops le_rfl).2 rfl⟩
  have hstates : (List.range (testCtx.lastIndex testParams hex + 1)).map (testCtx.state testParams) =
      [testState 0, testState 1, testState 2, testState 3, testState 4] := by
    rw [test_last]
    simp [List.range_succ, test_state]
  have hrun : runSegment mk testParams testCtx Lists.empty = .ok ⟨[f (testState 0), f (testState 1), f (testState 2), f (testState 3), f (testState 4)],
      [some (1 / 1000000), some (626 / 1000000), some (1251 / 1000000), some (1876 / 1000000), some (2501 / 1000000)],
      [1, 1, 1, 1, 1], [0, 0, 0, 0, 0]⟩ := by
    rw [runSegment, hmk, if_neg (by simp), dif_pos hex, hstates]
    simp only [pushAll, hmk, push, Lists.empty, test_dist, test_time, test_cos, test_sin]
    norm_num
  have hctx : (⟨1 / 1000000, ⟨0, 1 / 10, 1 / 10⟩, ⟨0, 1 / 10, 1 / 10⟩,
    ⟨1 / 1000000 + 2 / 1000 / (8 / 10), 1, ⟨2 / 1000, 1 / 10, 1 / 10⟩, none⟩⟩ : SegCtx) = testCtx := rfl
  simp only [alongScanPath, scanPathSegments, runSegments, buildRef]
  rw [if_neg (by norm_num [eps]), if_pos (by norm_num [eps]), hctx, hrun]

/-- `tests/test_material_deposition.cc`, `deposition_from_scan_path_3d`: five boxes; the first and the last one, all times, cosines and
sines. -/
theorem conformance_deposition_3d : ∃ l : Lists (Box 3), alongScanPath box3 testParams scanPathSegments = .ok l ∧ l.boxes.length = 5 ∧
    l.boxes[0]? = some ⟨![-25 / 100000, 5 / 100, 0], ![25 / 100000, 15 / 100, 1 / 10]⟩ ∧
    l.boxes[4]? = some ⟨![2 / 1000 - 25 / 100000, 5 / 100, 0], ![2 / 1000 + 25 / 100000, 15 / 100, 1 / 10]⟩ ∧
    l.times = [some (1 / 1000000), some (626 / 1000000), some (1251 / 1000000), some (1876 / 1000000), some (2501 / 1000000)] ∧
    l.cosines = [1, 1, 1, 1, 1] ∧ l.sines = [0, 0, 0, 0, 0] := by
  refine ⟨_, test_along box3 (planarBox3 testParams testCtx) (fun s => rfl), rfl, ?_, ?_, rfl, rfl, rfl⟩
  · simp only [planarBox3, test_cos, test_sin, testState, testParams]
    norm_num
  · simp only [planarBox3, test_cos, test_sin, testState, testParams]
    norm_num

/-- `tests/test_material_deposition.cc`, `deposition_from_scan_path_2d`. -/
theorem conformance_deposition_2d : ∃ l : Lists (Box 2), alongScanPath box2 testParams scanPathSegments = .ok l ∧ l.boxes.length = 5 ∧
    l.boxes[0]? = some ⟨![-25 / 100000, 0], ![25 / 100000, 1 / 10]⟩ ∧
    l.boxes[4]? = some ⟨![2 / 1000 - 25 / 100000, 0], ![2 / 1000 + 25 / 100000, 1 / 10]⟩ ∧
    l.times = [some (1 / 1000000), some (626 / 1000000), some (1251 / 1000000), some (1876 / 1000000), some (2501 / 1000000)] ∧
    l.cosines = [1, 1, 1, 1, 1] ∧ l.sines = [0, 0, 0, 0, 0] := by
  refine ⟨_, test_along box2 (fun s => ⟨![s.center.x - 0.5 * s.nbl, s.center.y - testParams.height], ![s.center.x + 0.5 * s.nbl, s.center.y]⟩)
    (fun s => rfl), rfl, ?_, ?_, rfl, rfl, rfl⟩
  · simp only [testState, testParams]
    norm_num
  · simp only [testState, testParams]
    norm_num

end Verif.Conformance
