import Verif.ExpData.Timestamps
import Mathlib.Tactic.NormNum

/-!
# The time stamp test of the project, on the model

`/repo/tests/test_experimental_data.cc`, `timestamp`, with the log `/repo/tests/data/experiment_log_test.txt` (every line ends with
a comma, hence the empty last field).  Tests of the model, not proofs of properties.
-/

namespace Verif.Conformance

open Verif.ExpData

/-- `experiment_log_test.txt`. -/
noncomputable def logTest : List LogLine := [
  ⟨some 0, [.num 0.0005, .num 0.0006, .empty]⟩,
  ⟨some 1, [.num 0.0105, .num 0.0106, .empty]⟩,
  ⟨some 2, [.num 0.0240, .num 0.0242, .empty]⟩,
  ⟨some 3, [.num 0.0450, .num 0.0454, .empty]⟩,
  ⟨some 4, [.num 0.0480, .num 0.0481, .empty]⟩]

theorem test_timestamp : readTimestamps 0.1 1 3 2 logTest =
    .ok [[0.1105, 0.124, 0.145], [0.1106, 0.1242, 0.1454]] := by
  norm_num [List.replicate_succ, readTimestamps, logTest, readLines, readLine, readStamps, pushAt, toUnsigned, uintMax]

end Verif.Conformance
