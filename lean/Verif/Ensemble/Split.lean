import Mathlib.Data.Nat.Basic
import Mathlib.Data.Nat.Count
import Mathlib.Algebra.BigOperators.Group.Finset.Basic
import Mathlib.Algebra.Order.BigOperators.Group.Finset
import Mathlib.Data.Finset.Range
import Mathlib.Order.Interval.Finset.Nat
import Mathlib.Algebra.Order.Group.Nat
import Mathlib.Algebra.BigOperators.GroupWithZero.Action
import Mathlib.Tactic.Ring
import Mathlib.Tactic.Linarith
import Std.Data.String.ToNat

/-!
# C24, C25: distribution of the ensemble members over the MPI ranks

`split_global_communicator`, `application/adamantine.hh:1443-1490`, and the file names of the ensemble checkpoints,
lines 1737-1738 and 2385-2392.
-/

namespace Verif.Ensemble

/-- Result for one rank: `my_color`, `local_ensemble_size`, `first_local_member`. -/
@[ext] structure Split where
  color : ℕ
  size : ℕ
  first : ℕ
  deriving DecidableEq

/-- `split_global_communicator` for rank `rank` of `n` with `e` members. `none`: the exception of lines 1464-1468.
The comparisons of the doubles `n/e` are those of the rationals (`n/e > 1` iff `n > e`, integral iff `e ∣ n`). -/
def split (n e rank : ℕ) : Option Split :=
  if n > e then                                     -- 1459
    if e ∣ n then some ⟨rank / (n / e), 1, rank / (n / e)⟩ else none -- 1461-1473
  else
    let membersPerProc := e / n                     -- 1479
    let leftover := e - n * membersPerProc          -- 1480-1481
    if rank = 0 then some ⟨rank, membersPerProc + leftover, 0⟩ -- 1485-1488
    else some ⟨rank, membersPerProc, rank * membersPerProc + leftover⟩ -- 1491-1493

/-- Rank `r` simulates member `g`. -/
def Simulates (n e r g : ℕ) : Prop := ∃ s, split n e r = some s ∧ s.first ≤ g ∧ g < s.first + s.size

/-- C25: combinations are rejected on every rank exactly when there are more ranks than members and their number is not
a multiple. -/
theorem C25_rejected_iff (n e r : ℕ) : split n e r = none ↔ (e < n ∧ ¬ e ∣ n) := by
  unfold split
  split
  · rename_i h
    split
    · rename_i h2; simp [h2]
    · rename_i h2; exact ⟨fun _ => ⟨h, h2⟩, fun _ => rfl⟩
  · rename_i h
    have : ¬ (e < n ∧ ¬ e ∣ n) := fun h' => h h'.1
    simp only [this, iff_false]
    split <;> simp

theorem split_many {n e r : ℕ} (h : n > e) (hd : e ∣ n) : split n e r = some ⟨r / (n / e), 1, r / (n / e)⟩ := by
  simp [split, h, hd]

theorem split_few {n e r : ℕ} (h : ¬ n > e) : split n e r = some
    (if r = 0 then ⟨0, e / n + (e - n * (e / n)), 0⟩ else ⟨r, e / n, r * (e / n) + (e - n * (e / n))⟩) := by
  unfold split
  rw [if_neg h]
  simp only
  split <;> simp_all

/-- C25: every member is simulated by some rank, all members of a rank exist, and all ranks that simulate a member form
one group (same colour, hence same communicator) and agree on their members. -/
theorem C25_partition (n e : ℕ) (hn : 0 < n) (he : 0 < e) (hacc : n ≤ e ∨ e ∣ n) :
    (∀ g < e, ∃ r < n, Simulates n e r g) ∧
    (∀ r < n, ∀ g, Simulates n e r g → g < e) ∧
    (∀ g r r' s s', r < n → r' < n → split n e r = some s → split n e r' = some s' →
      s.first ≤ g → g < s.first + s.size → s'.first ≤ g → g < s'.first + s'.size → s = s') := by
  rcases Nat.lt_or_ge e n with h | h
  · have hd : e ∣ n := hacc.resolve_left (by omega)
    obtain ⟨q, rfl⟩ := hd
    have hq : 0 < q := by
      rcases Nat.eq_zero_or_pos q with h0 | h0
      · subst h0; simp at hn
      · exact h0
    have hqe : e * q / e = q := Nat.mul_div_cancel_left q he
    refine ⟨fun g hg => ⟨g * q, ?_, ⟨g * q / q, 1, g * q / q⟩, ?_, ?_⟩, ?_, ?_⟩
    · exact Nat.mul_lt_mul_of_pos_right hg hq
    · rw [split_many h (Dvd.intro q rfl), hqe]
    · simp only [Nat.mul_div_cancel g hq]; omega
    · rintro r hr g ⟨s, hs, h1, h2⟩
      rw [split_many h (Dvd.intro q rfl), hqe] at hs
      cases hs
      simp only at h1 h2
      have : r / q < e := Nat.div_lt_of_lt_mul (by rw [Nat.mul_comm]; exact hr)
      omega
    · intro g r r' s s' _ _ hs hs' h1 h2 h3 h4
      rw [split_many h (Dvd.intro q rfl), hqe] at hs hs'
      cases hs; cases hs'
      simp only at h1 h2 h3 h4
      have : r / q = r' / q := by omega
      simp [this]
  · have hnot : ¬ n > e := by omega
    have hm : n * (e / n) ≤ e := Nat.mul_div_le e n
    obtain ⟨q, hq⟩ : ∃ q, e / n = q := ⟨_, rfl⟩
    have hl : e - n * q < n := by
      have := Nat.div_add_mod e n
      have := Nat.mod_lt e hn
      rw [hq] at *; omega
    rw [hq] at hm
    obtain ⟨l, hl'⟩ : ∃ l, e - n * q = l := ⟨_, rfl⟩
    have hq1 : 0 < q := by rw [← hq]; exact Nat.div_pos h hn
    have hspl : ∀ r, split n e r = some (if r = 0 then ⟨0, q + l, 0⟩ else ⟨r, q, r * q + l⟩) := by
      intro r; rw [split_few hnot, hq, hl']
    refine ⟨fun g hg => ?_, ?_, ?_⟩
    · by_cases hgl : g < q + l
      · exact ⟨0, hn, _, hspl 0, by simp, by simpa using hgl⟩
      · refine ⟨(g - l) / q, ?_, _, hspl _, ?_⟩
        · apply Nat.div_lt_of_lt_mul
          rw [Nat.mul_comm]; omega
        · have h1 : 1 ≤ (g - l) / q := (Nat.le_div_iff_mul_le hq1).mpr (by omega)
          rw [if_neg (by omega)]
          simp only
          have h2 := Nat.div_mul_le_self (g - l) q
          have h3 := Nat.lt_div_mul_add (a := g - l) hq1
          omega
    · rintro r hr g ⟨s, hs, h1, h2⟩
      rw [hspl] at hs
      cases hs
      have hb : (r + 1) * q ≤ n * q := Nat.mul_le_mul_right q hr
      have : (r + 1) * q = r * q + q := by ring
      by_cases hr0 : r = 0
      · subst hr0; simp at h2; omega
      · rw [if_neg hr0] at h1 h2; simp only at h1 h2; omega
    · intro g r r' s s' _ _ hs hs' h1 h2 h3 h4
      rw [hspl] at hs hs'
      cases hs; cases hs'
      -- ranks with a common member are equal
      have key : ∀ a b, (if a = 0 then (⟨0, q + l, 0⟩ : Split) else ⟨a, q, a * q + l⟩).first ≤ g →
          g < (if b = 0 then (⟨0, q + l, 0⟩ : Split) else ⟨b, q, b * q + l⟩).first +
            (if b = 0 then (⟨0, q + l, 0⟩ : Split) else ⟨b, q, b * q + l⟩).size → a ≤ b := by
        intro a b ha hb
        by_contra hcon
        have hab : b + 1 ≤ a := by omega
        have hmul := Nat.mul_le_mul_right q hab
        have e1 : (b + 1) * q = b * q + q := by ring
        rw [if_neg (by omega)] at ha
        simp only at ha
        by_cases hb0 : b = 0
        · subst hb0; simp at hb; simp at e1; omega
        · rw [if_neg hb0] at hb; simp only at hb; omega
      have : r = r' := le_antisymm (key r r' h1 h4) (key r' r h3 h2)
      rw [this]

/-- C25: with more ranks than members every group consists of exactly `n / e` ranks. -/
theorem C25_equal_groups (n e : ℕ) (he : 0 < e) (h : e < n) (hd : e ∣ n) (c : ℕ) (hc : c < e) :
    ((Finset.range n).filter (fun r => ∃ s, split n e r = some s ∧ s.color = c)).card = n / e := by
  obtain ⟨q, rfl⟩ := hd
  have hq : 0 < q := by
    rcases Nat.eq_zero_or_pos q with h0 | h0
    · subst h0; simp at h
    · exact h0
  have hqe : e * q / e = q := Nat.mul_div_cancel_left q he
  rw [hqe]
  have : (Finset.range (e * q)).filter (fun r => ∃ s, split (e * q) e r = some s ∧ s.color = c) =
      Finset.Ico (c * q) ((c + 1) * q) := by
    ext r
    simp only [Finset.mem_filter, Finset.mem_range, Finset.mem_Ico]
    rw [split_many h (Dvd.intro q rfl), hqe]
    constructor
    · rintro ⟨hr, s, hs, hcol⟩
      cases hs
      simp only at hcol
      subst hcol
      exact ⟨Nat.div_mul_le_self r q, by
        have := Nat.lt_div_mul_add (a := r) hq
        rw [Nat.add_mul]; omega⟩
    · rintro ⟨h1, h2⟩
      refine ⟨lt_of_lt_of_le h2 (Nat.mul_le_mul_right q hc), _, rfl, ?_⟩
      simp only
      exact Nat.div_eq_of_lt_le h1 h2
  rw [this, Nat.card_Ico]
  have : (c + 1) * q = c * q + q := by ring
  omega

/-- Number of members of the group with a given colour (as its ranks compute it). -/
def groupSize (n e c : ℕ) : ℕ := if n > e then 1 else if c = 0 then e / n + (e - n * (e / n)) else e / n

/-- `groupSize` is the size every rank of the group works with. -/
theorem groupSize_eq {n e r : ℕ} {s : Split} (h : split n e r = some s) : s.size = groupSize n e s.color := by
  unfold split at h
  unfold groupSize
  split at h
  · rename_i hne
    split at h
    · cases h; simp [hne]
    · cases h
  · rename_i hne
    simp only at h
    split at h
    · cases h; simp_all
    · cases h; simp_all

/-- C25: the first local member index is the number of members in the groups of lower colour. -/
theorem C25_first_local_member (n e r : ℕ) (s : Split) (h : split n e r = some s) :
    s.first = ∑ c ∈ Finset.range s.color, groupSize n e c := by
  unfold split at h
  split at h
  · rename_i hne
    split at h
    · cases h; simp [groupSize, hne]
    · cases h
  · rename_i hne
    simp only at h
    split at h
    · rename_i h0
      cases h; subst h0; simp
    · rename_i h0
      cases h
      obtain ⟨k, rfl⟩ : ∃ k, r = k + 1 := ⟨r - 1, by omega⟩
      simp only
      rw [Finset.sum_range_succ']
      simp only [groupSize, if_neg hne, if_true, Nat.add_eq_zero_iff, one_ne_zero, and_false, if_false,
        Finset.sum_const, Finset.card_range, smul_eq_mul]
      ring

/-- 6 ranks for 3 members, 3 ranks for 8 members and the rejected 4 ranks for 3 members. -/
example : (3 ∣ 6 ∧ 3 < 6) ∧ (3 ≤ 8) ∧ split 4 3 0 = none ∧ split 3 8 2 = some ⟨2, 2, 6⟩ := by
  refine ⟨⟨by decide, by decide⟩, by decide, by decide, by decide⟩

/-! ## C24 -/

/-- File a member is saved to, `adamantine.hh:2385-2392` (`filename_prefix` already includes the step number when files are
not overwritten). -/
def savedTo (pre : String) (s : Split) (member : ℕ) : String := pre ++ "_" ++ toString (s.first + member)

/-- File a member is loaded from on restart, `adamantine.hh:1737-1738`. -/
def loadedFrom (pre : String) (_s : Split) (member : ℕ) : String := pre ++ "_" ++ toString member

theorem name_inj {pre : String} {a b : ℕ} (h : pre ++ "_" ++ toString a = pre ++ "_" ++ toString b) : a = b := by
  have h2 := congrArg String.toList h
  simp only [String.toList_append, List.append_cancel_left_eq] at h2
  exact Nat.repr_injective (String.toList_inj.mp h2)

/-- C24 (partial: groups whose first member is member 0, for instance runs with one rank or one member): every local
member is loaded from the file it was saved to. -/
theorem C24_own_checkpoint_partial (pre : String) (s : Split) (h : s.first = 0) (member : ℕ) :
    loadedFrom pre s member = savedTo pre s member := by
  simp [loadedFrom, savedTo, h]

/-- C24 is false on every other group: each of its members is loaded from the file of another member. -/
theorem C24_own_checkpoint_refuted (pre : String) (s : Split) (h : s.first ≠ 0) (member : ℕ) :
    loadedFrom pre s member ≠ savedTo pre s member ∧
      ∀ t : Split, t.first = 0 → loadedFrom pre s member = savedTo pre t member := by
  constructor
  · intro he
    have := name_inj he
    omega
  · intro t ht; simp [loadedFrom, savedTo, ht]

/-- C24: such groups exist in every accepted run with more than one rank and more than one member. -/
theorem C24_affected_groups_exist (n e : ℕ) (hn : 1 < n) (he : 1 < e) (hacc : n ≤ e ∨ e ∣ n) :
    ∃ r < n, ∃ s, split n e r = some s ∧ s.first ≠ 0 := by
  obtain ⟨hex, -, -⟩ := C25_partition n e (by omega) (by omega) hacc
  rcases Nat.lt_or_ge e n with h | h
  · obtain ⟨r, hr, s, hs, h1, h2⟩ := hex 1 he
    refine ⟨r, hr, s, hs, ?_⟩
    have hsz : s.size = 1 := by
      rw [groupSize_eq hs]; simp [groupSize, h]
    omega
  · refine ⟨1, hn, _, split_few (by omega), ?_⟩
    have : 0 < e / n := Nat.div_pos h (by omega)
    simp; omega

end Verif.Ensemble
