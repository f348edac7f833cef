import Mathlib.Data.Int.Log
import Mathlib.Data.Rat.Floor
import Mathlib.Algebra.Order.Round
import Mathlib.Tactic.Linarith
import Mathlib.Tactic.Ring
import Mathlib.Tactic.FieldSimp
import Mathlib.Tactic.NormNum

/-!
# Floating-point arithmetic

What C129 uses of the `double` arithmetic of the C++ program.  `Rounding` lists four properties of IEEE 754 rounding to nearest;
`binary p` is the format with `p` significant bits, rounding to nearest, ties to even, and is shown to have them.  Simplification: the
exponent is unbounded, so overflow, subnormal numbers, infinities, NaN and signed zeros are not part of the model (sums and differences of
doubles never lose bits by underflow, so the additions and subtractions of the time loop are exact copies of IEEE as long as nothing
overflows).
-/

namespace Verif.Float

/-- A rounding of exact results to a floating-point format; the numbers of the format are the fixed points of `rd`. -/
structure Rounding (K : Type*) [Field K] [LinearOrder K] where
  rd : K → K
  /-- the unit roundoff -/
  u : K
  mono : Monotone rd
  idem : ∀ x, rd (rd x) = rd x
  /-- Sterbenz: the difference of two close numbers of the format is exact -/
  sterbenz : ∀ x y, rd x = x → rd y = y → x ≤ 2 * y → y ≤ 2 * x → rd (x - y) = x - y
  u_lt : u < 1
  rel : ∀ x, |rd x - x| ≤ u * |x|

/-- Exact arithmetic as a rounding. -/
def Rounding.exact (K : Type*) [Field K] [LinearOrder K] [IsStrictOrderedRing K] : Rounding K where
  rd := id
  u := 0
  mono := monotone_id
  idem _ := rfl
  sterbenz _ _ _ _ _ _ := rfl
  u_lt := zero_lt_one
  rel x := by simp

/-! ## The binary format with `p` significant bits -/

variable {K : Type*} [Field K] [LinearOrder K] [IsStrictOrderedRing K] [FloorRing K]

/-- Rounding to the nearest integer, ties to the even one. -/
def nearestEven (x : K) : ℤ :=
  if x - ⌊x⌋ < 1 / 2 then ⌊x⌋ else if 1 / 2 < x - ⌊x⌋ then ⌊x⌋ + 1 else if ⌊x⌋ % 2 = 0 then ⌊x⌋ else ⌊x⌋ + 1

theorem nearestEven_err (x : K) : |(nearestEven x : K) - x| ≤ 1 / 2 := by
  have h0 := Int.floor_le x
  have h1 := Int.lt_floor_add_one x
  unfold nearestEven
  rw [abs_le]
  split_ifs <;> push_cast <;> constructor <;> linarith

theorem nearestEven_int (n : ℤ) : nearestEven (n : K) = n := by
  unfold nearestEven
  rw [Int.floor_intCast, sub_self, if_pos (by norm_num)]

theorem nearestEven_floor (x : K) : ⌊x⌋ ≤ nearestEven x ∧ nearestEven x ≤ ⌊x⌋ + 1 := by
  unfold nearestEven
  split_ifs <;> constructor <;> omega

theorem nearestEven_mono : Monotone (nearestEven : K → ℤ) := by
  intro x y h
  rcases lt_or_eq_of_le (Int.floor_mono h) with hf | hf
  · have := (nearestEven_floor x).2
    have := (nearestEven_floor y).1
    omega
  · unfold nearestEven
    rw [hf]
    split_ifs <;> first | omega | (exfalso; linarith)

/-- The distance of neighbouring numbers with `p` bits around `x > 0`. -/
def spacing (p : ℕ) (x : K) : K := 2 ^ (Int.log 2 x - p + 1)

/-- Rounding a positive number to `p` significant bits. -/
def roundPos (p : ℕ) (x : K) : K := nearestEven (x / spacing p x) * spacing p x

/-- Rounding to `p` significant bits, to nearest, ties to even (IEEE 754 `roundTiesToEven`; binary64 has `p = 53`). -/
def round (p : ℕ) (x : K) : K := if 0 < x then roundPos p x else if x < 0 then -roundPos p (-x) else 0

theorem spacing_pos (p : ℕ) (x : K) : 0 < spacing p x := by unfold spacing; exact zpow_pos (by norm_num) _

theorem two_zpow (a b : ℤ) : (2 : K) ^ a * 2 ^ b = 2 ^ (a + b) := (zpow_add₀ (by norm_num) a b).symm

/-- The significand of a positive number has exactly `p` bits. -/
theorem significand (p : ℕ) (hp : 1 ≤ p) (x : K) (hx : 0 < x) :
    (2 : K) ^ (p - 1) ≤ x / spacing p x ∧ x / spacing p x < 2 ^ p := by
  have h1 := Int.zpow_log_le_self (b := 2) (by norm_num) hx
  have h2 := Int.lt_zpow_succ_log_self (b := 2) (by norm_num) x
  push_cast at h1 h2
  rw [le_div_iff₀ (spacing_pos p x), div_lt_iff₀ (spacing_pos p x)]
  unfold spacing
  have e1 : (2 : K) ^ (p - 1) = 2 ^ ((p : ℤ) - 1) := by
    rw [← zpow_natCast]; congr 1; omega
  have e2 : (2 : K) ^ p = 2 ^ (p : ℤ) := (zpow_natCast 2 p).symm
  rw [e1, e2, two_zpow, two_zpow]
  constructor
  · rwa [show (p : ℤ) - 1 + (Int.log 2 x - p + 1) = Int.log 2 x by ring]
  · rwa [show (p : ℤ) + (Int.log 2 x - p + 1) = Int.log 2 x + 1 by ring]

theorem roundPos_bounds (p : ℕ) (hp : 1 ≤ p) (x : K) (hx : 0 < x) :
    (2 : K) ^ Int.log 2 x ≤ roundPos p x ∧ roundPos p x ≤ 2 ^ (Int.log 2 x + 1) := by
  obtain ⟨h1, h2⟩ := significand p hp x hx
  have m1 : (2 : ℤ) ^ (p - 1) ≤ nearestEven (x / spacing p x) := by
    have := nearestEven_mono (show (((2 : ℤ) ^ (p - 1) : ℤ) : K) ≤ x / spacing p x by push_cast; exact h1)
    rwa [nearestEven_int] at this
  have m2 : nearestEven (x / spacing p x) ≤ (2 : ℤ) ^ p := by
    have := nearestEven_mono (show x / spacing p x ≤ (((2 : ℤ) ^ p : ℤ) : K) by push_cast; exact h2.le)
    rwa [nearestEven_int] at this
  have m1' : (2 : K) ^ (p - 1) ≤ nearestEven (x / spacing p x) := by exact_mod_cast m1
  have m2' : (nearestEven (x / spacing p x) : K) ≤ 2 ^ p := by exact_mod_cast m2
  have e1 : (2 : K) ^ (p - 1) * spacing p x = 2 ^ Int.log 2 x := by
    unfold spacing
    rw [show (2 : K) ^ (p - 1) = 2 ^ ((p : ℤ) - 1) by rw [← zpow_natCast]; congr 1; omega, two_zpow]
    congr 1; ring
  have e2 : (2 : K) ^ p * spacing p x = 2 ^ (Int.log 2 x + 1) := by
    unfold spacing
    rw [show (2 : K) ^ p = 2 ^ (p : ℤ) from (zpow_natCast 2 p).symm, two_zpow]
    congr 1; ring
  unfold roundPos
  rw [← e1, ← e2]
  exact ⟨mul_le_mul_of_nonneg_right m1' (spacing_pos p x).le, mul_le_mul_of_nonneg_right m2' (spacing_pos p x).le⟩

theorem roundPos_pos (p : ℕ) (hp : 1 ≤ p) (x : K) (hx : 0 < x) : 0 < roundPos p x :=
  lt_of_lt_of_le (zpow_pos (by norm_num) _) (roundPos_bounds p hp x hx).1

theorem roundPos_mono (p : ℕ) (hp : 1 ≤ p) (x y : K) (hx : 0 < x) (h : x ≤ y) : roundPos p x ≤ roundPos p y := by
  have hy := lt_of_lt_of_le hx h
  rcases lt_or_eq_of_le (Int.log_mono_right (b := 2) hx h) with hl | hl
  · refine le_trans (roundPos_bounds p hp x hx).2 (le_trans ?_ (roundPos_bounds p hp y hy).1)
    exact zpow_le_zpow_right₀ (by norm_num) (by omega)
  · have hs : spacing p x = spacing p y := by unfold spacing; rw [hl]
    unfold roundPos
    rw [hs]
    refine mul_le_mul_of_nonneg_right ?_ (spacing_pos p y).le
    exact_mod_cast nearestEven_mono (div_le_div_of_nonneg_right h (spacing_pos p y).le)

/-- Numbers with at most `p` significant bits. -/
def Representable (p : ℕ) (x : K) : Prop := ∃ m e : ℤ, |m| ≤ 2 ^ p ∧ x = m * 2 ^ e

theorem roundPos_fixed (p : ℕ) (hp : 1 ≤ p) (x : K) (hx : 0 < x) (h : Representable p x) : roundPos p x = x := by
  obtain ⟨m, e, hm, hxd⟩ := h
  have he : (0 : K) < 2 ^ e := zpow_pos (by norm_num) _
  have hm0 : 0 < m := by
    have : (0 : K) < m := by
      by_contra hc
      rw [hxd] at hx
      exact absurd hx (not_lt.2 (mul_nonpos_of_nonpos_of_nonneg (not_lt.1 hc) he.le))
    exact_mod_cast this
  rw [abs_of_pos hm0] at hm
  -- the exponent of the format is at most `e`, or the significand is a power of two
  have hint : ∃ n : ℤ, x / spacing p x = n := by
    have h2 := Int.lt_zpow_succ_log_self (b := 2) (by norm_num) x
    have h1 := Int.zpow_log_le_self (b := 2) (by norm_num) hx
    push_cast at h1 h2
    by_cases hs : Int.log 2 x - p + 1 ≤ e
    · refine ⟨m * 2 ^ (e - (Int.log 2 x - p + 1)).toNat, ?_⟩
      rw [div_eq_iff (spacing_pos p x).ne']
      push_cast
      rw [mul_assoc]
      refine hxd.trans ?_
      congr 1
      unfold spacing
      rw [← zpow_natCast, Int.toNat_of_nonneg (by omega), two_zpow]
      congr 1; ring
    · push Not at hs
      -- then `m ≥ 2 ^ p`, so `m = 2 ^ p`
      have hge : (2 : K) ^ (p : ℤ) ≤ m := by
        have : (2 : K) ^ (p : ℤ) * 2 ^ e ≤ m * 2 ^ e := by
          rw [← hxd]
          refine le_trans ?_ h1
          rw [two_zpow]
          exact zpow_le_zpow_right₀ (by norm_num) (by omega)
        exact le_of_mul_le_mul_right this he
      have hm' : (m : K) = 2 ^ (p : ℤ) := by
        refine le_antisymm ?_ hge
        rw [zpow_natCast]
        exact_mod_cast hm
      have hx' : x = 2 ^ ((p : ℤ) + e) := by rw [hxd, hm', two_zpow]
      have hl : Int.log 2 x = (p : ℤ) + e := by
        rw [hx']
        exact_mod_cast Int.log_zpow (R := K) (b := 2) (by norm_num) ((p : ℤ) + e)
      refine ⟨2 ^ (p - 1), ?_⟩
      rw [div_eq_iff (spacing_pos p x).ne']
      unfold spacing
      rw [hl, hx']
      push_cast
      rw [show (2 : K) ^ (p - 1) = 2 ^ ((p : ℤ) - 1) by rw [← zpow_natCast]; congr 1; omega, two_zpow]
      congr 1; ring
  obtain ⟨n, hn⟩ := hint
  unfold roundPos
  rw [hn, nearestEven_int, ← hn]
  exact div_mul_cancel₀ _ (spacing_pos p x).ne'

theorem roundPos_representable (p : ℕ) (hp : 1 ≤ p) (x : K) (hx : 0 < x) : Representable p (roundPos p x) := by
  obtain ⟨-, h2⟩ := significand p hp x hx
  refine ⟨nearestEven (x / spacing p x), Int.log 2 x - p + 1, ?_, rfl⟩
  have m2 : nearestEven (x / spacing p x) ≤ (2 : ℤ) ^ p := by
    have := nearestEven_mono (show x / spacing p x ≤ (((2 : ℤ) ^ p : ℤ) : K) by push_cast; exact h2.le)
    rwa [nearestEven_int] at this
  have m0 : 0 ≤ nearestEven (x / spacing p x) := by
    have := nearestEven_mono (show ((0 : ℤ) : K) ≤ x / spacing p x by push_cast; exact div_nonneg hx.le (spacing_pos p x).le)
    rwa [nearestEven_int] at this
  rw [abs_of_nonneg m0]
  exact m2

theorem Representable.neg {p : ℕ} {x : K} (h : Representable p x) : Representable p (-x) := by
  obtain ⟨m, e, hm, rfl⟩ := h
  exact ⟨-m, e, by rwa [abs_neg], by push_cast; ring⟩

theorem round_neg (p : ℕ) (x : K) : round p (-x) = -round p x := by
  unfold round
  rcases lt_trichotomy x 0 with h | h | h
  · rw [if_pos (by linarith), if_neg (by linarith), if_pos h, neg_neg]
  · subst h; simp
  · rw [if_neg (by linarith), if_pos (by linarith), if_pos h, neg_neg]

theorem round_of_pos (p : ℕ) (x : K) (h : 0 < x) : round p x = roundPos p x := if_pos h

theorem round_zero (p : ℕ) : round p (0 : K) = 0 := by simp [round]

theorem round_fixed (p : ℕ) (hp : 1 ≤ p) (x : K) (h : Representable p x) : round p x = x := by
  rcases lt_trichotomy x 0 with hx | hx | hx
  · have := roundPos_fixed p hp (-x) (by linarith) h.neg
    rw [show x = - -x by ring, round_neg, round_of_pos p (-x) (by linarith), this]
  · subst hx; exact round_zero p
  · rw [round_of_pos p x hx, roundPos_fixed p hp x hx h]

theorem round_representable (p : ℕ) (hp : 1 ≤ p) (x : K) : Representable p (round p x) := by
  rcases lt_trichotomy x 0 with hx | hx | hx
  · rw [show x = - -x by ring, round_neg, round_of_pos p (-x) (by linarith)]
    exact (roundPos_representable p hp (-x) (by linarith)).neg
  · subst hx; rw [round_zero]; exact ⟨0, 0, by positivity, by simp⟩
  · rw [round_of_pos p x hx]; exact roundPos_representable p hp x hx

theorem fixed_iff (p : ℕ) (hp : 1 ≤ p) (x : K) : round p x = x ↔ Representable p x :=
  ⟨fun h => h ▸ round_representable p hp x, round_fixed p hp x⟩

theorem round_mono (p : ℕ) (hp : 1 ≤ p) : Monotone (round p : K → K) := by
  have nonneg : ∀ z : K, 0 ≤ z → 0 ≤ round p z := by
    intro z hz
    rcases lt_or_eq_of_le hz with h | h
    · rw [round_of_pos p z h]; exact (roundPos_pos p hp z h).le
    · rw [← h, round_zero]
  have pos : ∀ x y : K, 0 ≤ x → x ≤ y → round p x ≤ round p y := by
    intro x y hx h
    rcases lt_or_eq_of_le hx with h0 | h0
    · rw [round_of_pos p x h0, round_of_pos p y (by linarith)]
      exact roundPos_mono p hp x y h0 h
    · rw [← h0, round_zero]
      exact nonneg y (by linarith)
  intro x y h
  by_cases hx : 0 ≤ x
  · exact pos x y hx h
  · push Not at hx
    by_cases hy : 0 ≤ y
    · have h1 := nonneg (-x) (by linarith)
      rw [round_neg] at h1
      have h2 := nonneg y hy
      linarith
    · push Not at hy
      have := pos (-y) (-x) (by linarith) (by linarith)
      rw [round_neg, round_neg] at this
      linarith

theorem round_rel (p : ℕ) (hp : 1 ≤ p) (x : K) : |round p x - x| ≤ 1 / 2 ^ p * |x| := by
  have pos : ∀ z : K, 0 < z → |roundPos p z - z| ≤ 1 / 2 ^ p * z := by
    intro z hz
    have hs := spacing_pos p z
    have h1 := (significand p hp z hz).1
    have he := nearestEven_err (z / spacing p z)
    have : roundPos p z - z = (nearestEven (z / spacing p z) - z / spacing p z) * spacing p z := by
      unfold roundPos
      rw [sub_mul, div_mul_cancel₀ _ hs.ne']
    rw [this, abs_mul, abs_of_pos hs]
    rw [le_div_iff₀ hs] at h1
    have hp2 : (2 : K) ^ p = 2 * 2 ^ (p - 1) := by rw [← pow_succ']; congr 1; omega
    calc _ ≤ 1 / 2 * spacing p z := mul_le_mul_of_nonneg_right he hs.le
      _ = 1 / 2 ^ p * (2 ^ (p - 1) * spacing p z) := by rw [hp2]; field_simp
      _ ≤ _ := mul_le_mul_of_nonneg_left h1 (by positivity)
  rcases lt_trichotomy x 0 with hx | hx | hx
  · have := pos (-x) (by linarith)
    rw [show x = - -x by ring, round_neg, round_of_pos p (-x) (by linarith), abs_neg (-x), abs_of_pos (show 0 < -x by linarith)]
    rwa [← abs_neg, show -(-roundPos p (-x) - - -x) = roundPos p (-x) - -x by ring]
  · subst hx; simp [round_zero]
  · rw [round_of_pos p x hx, abs_of_pos hx]; exact pos x hx

/-- Sterbenz' lemma. -/
theorem sterbenz (p : ℕ) (x y : K) (hx : Representable p x) (hy : Representable p y) (h1 : x ≤ 2 * y) (h2 : y ≤ 2 * x) :
    Representable p (x - y) := by
  have hx0 : 0 ≤ x := by linarith
  have hy0 : 0 ≤ y := by linarith
  have key : ∀ a b : K, 0 ≤ a → Representable p a → Representable p b → |a - b| ≤ a → |a - b| ≤ b →
      (∃ (m n e f : ℤ), |m| ≤ 2 ^ p ∧ a = m * 2 ^ e ∧ b = n * 2 ^ f ∧ e ≤ f) → Representable p (a - b) := by
    rintro a b ha - - hab - ⟨m, n, e, f, hm, rfl, rfl, hef⟩
    have he : (0 : K) < 2 ^ e := zpow_pos (by norm_num) _
    have eq : (m : K) * 2 ^ e - n * 2 ^ f = ((m - n * 2 ^ (f - e).toNat : ℤ) : K) * 2 ^ e := by
      push_cast
      rw [sub_mul, mul_assoc (n : K), ← zpow_natCast, Int.toNat_of_nonneg (by omega), two_zpow]
      congr 3; ring
    refine ⟨m - n * 2 ^ (f - e).toNat, e, ?_, eq⟩
    rw [eq, abs_mul, abs_of_pos he] at hab
    have h3 : |((m - n * 2 ^ (f - e).toNat : ℤ) : K)| ≤ m := le_of_mul_le_mul_right hab he
    have h4 : |m - n * 2 ^ (f - e).toNat| ≤ m := by exact_mod_cast h3
    exact le_trans h4 (le_trans (le_abs_self m) hm)
  have hax : |x - y| ≤ x := abs_le.2 ⟨by linarith, by linarith⟩
  have hay : |x - y| ≤ y := abs_le.2 ⟨by linarith, by linarith⟩
  obtain ⟨m, e, hm, rx⟩ := id hx
  obtain ⟨n, f, hn, ry⟩ := id hy
  rcases le_total e f with hef | hef
  · exact key x y hx0 hx hy hax hay ⟨m, n, e, f, hm, rx, ry, hef⟩
  · have := key y x hy0 hy hx (by rwa [abs_sub_comm]) (by rwa [abs_sub_comm]) ⟨n, m, f, e, hn, ry, rx, hef⟩
    have h := this.neg
    rwa [neg_sub] at h

/-- The binary format with `p` significant bits. -/
def binary (p : ℕ) (hp : 1 ≤ p) : Rounding K where
  rd := round p
  u := 1 / 2 ^ p
  mono := round_mono p hp
  idem x := round_fixed p hp _ (round_representable p hp x)
  sterbenz x y hx hy h1 h2 :=
    round_fixed p hp _ (sterbenz p x y ((fixed_iff p hp x).1 hx) ((fixed_iff p hp y).1 hy) h1 h2)
  u_lt := by
    rw [div_lt_one (by positivity)]
    exact one_lt_pow₀ (by norm_num) (by omega)
  rel := round_rel p hp

/-- `double`: IEEE 754 binary64 (without its bounds on the exponent). -/
def double : Rounding ℚ := binary 53 (by norm_num)

/-- How to evaluate a rounding: `x` is between `2 ^ e` and `2 ^ (e + 1)` and `m` is the integer nearest to `x` in units of the last place. -/
theorem round_eval (p : ℕ) (x : K) (e m : ℤ) (h1 : (2 : K) ^ e ≤ x) (h2 : x < 2 ^ (e + 1))
    (h3 : nearestEven (x / 2 ^ (e - p + 1)) = m) : round p x = m * 2 ^ (e - p + 1) := by
  have hx : 0 < x := lt_of_lt_of_le (zpow_pos (by norm_num) _) h1
  have hl : Int.log 2 x = e := by
    have a1 : e ≤ Int.log 2 x := (Int.zpow_le_iff_le_log (b := 2) (by norm_num) hx).1 (by exact_mod_cast h1)
    have a2 : Int.log 2 x < e + 1 := (Int.lt_zpow_iff_log_lt (b := 2) (by norm_num) hx).1 (by exact_mod_cast h2)
    omega
  rw [round_of_pos p x hx]
  unfold roundPos spacing
  rw [hl, h3]

/-- `0.1` as a `double`. -/
example : double.rd (1 / 10) = 3602879701896397 / 2 ^ 55 := by
  change round 53 (1 / 10) = _
  rw [round_eval 53 (1 / 10) (-4) 7205759403792794 (by norm_num) (by norm_num) (by norm_num [nearestEven])]
  norm_num

end Verif.Float
