import Verif.Float.Format
import Mathlib.Algebra.Order.BigOperators.Group.List
import Mathlib.Algebra.BigOperators.Group.List.Lemmas

/-!
# C130: the phase fractions in floating-point arithmetic

The update of the phase fractions of a point (`ThermalOperator.templates.hh:285-316`, `MaterialProperty.templates.hh:303-352`) and the cell
averages stored by `set_state` (`MaterialProperty.templates.hh:588-619`) for materials with powder, with every operation rounded.
`Verif.Material.Phase` is the same code in exact arithmetic.
-/

namespace Verif.Float

variable {K : Type*} [Field K] [LinearOrder K] [IsStrictOrderedRing K]

/-! ## Model -/

/-- The liquid fraction, `ThermalOperator.templates.hh:296-304`, rounded.  `none`: division by zero. -/
def liquidR (R : Rounding K) (solidus liquidus T : K) : Option K :=
  if T < solidus then some 0
  else if T > liquidus then some 1
  else if R.rd (liquidus - solidus) = 0 then none
  else some (R.rd (R.rd (T - solidus) / R.rd (liquidus - solidus)))

/-- The fractions of a point of a material with powder. -/
@[ext] structure Fractions (K : Type*) where
  solid : K
  liquid : K
  powder : K

/-- The update of a point, `ThermalOperator.templates.hh:305-311`: `std::min(1. - liquid, powder)`, `1. - liquid - powder`. -/
def updateR (R : Rounding K) (powder l : K) : Fractions K :=
  let p := min (R.rd (1 - l)) powder
  ⟨R.rd (R.rd (1 - l) - p), l, p⟩

/-- A point over a history of temperatures. -/
def historyR (R : Rounding K) (solidus liquidus : K) (f : Fractions K) : List K → Option (Fractions K)
  | [] => some f
  | T :: Ts => (liquidR R solidus liquidus T).bind fun l => historyR R solidus liquidus (updateR R f.powder l) Ts

/-- The rounded sum of a list, in order (`MaterialProperty.templates.hh:602-612`). -/
def sumR (R : Rounding K) (s : K) : List K → K
  | [] => s
  | x :: xs => sumR R (R.rd (s + x)) xs

/-- The fractions stored for a cell with the points `fs`, `MaterialProperty.templates.hh:602-617`. -/
def averageR (R : Rounding K) (fs : List (Fractions K)) : Fractions K :=
  let l := R.rd (sumR R 0 (fs.map Fractions.liquid) / (fs.length : K))
  let p := R.rd (sumR R 0 (fs.map Fractions.powder) / (fs.length : K))
  ⟨R.rd (R.rd (1 - l) - p), l, p⟩

/-! ## Specification -/

/-- All three fractions are between zero and one. -/
structure InRange (f : Fractions K) : Prop where
  solid : 0 ≤ f.solid ∧ f.solid ≤ 1
  liquid : 0 ≤ f.liquid ∧ f.liquid ≤ 1
  powder : 0 ≤ f.powder ∧ f.powder ≤ 1

/-! ## Lemmas -/

section
variable (R : Rounding K)

theorem rd0 : R.rd 0 = 0 := by
  have := R.rel 0
  rw [abs_zero, mul_zero, sub_zero] at this
  exact abs_eq_zero.1 (le_antisymm this (abs_nonneg _))

theorem u_nonneg : 0 ≤ R.u := by
  have h1 := R.rel 1
  rw [abs_one, mul_one] at h1
  exact le_trans (abs_nonneg _) h1

theorem rd_ge0 {x : K} (h : 0 ≤ x) : 0 ≤ R.rd x := by
  have := R.mono h
  rwa [rd0 R] at this

theorem rd_gt0 {x : K} (h : 0 < x) : 0 < R.rd x := by
  have h1 := R.rel x
  rw [abs_of_pos h] at h1
  have h2 := (abs_le.1 h1).1
  have h3 := mul_lt_mul_of_pos_right R.u_lt h
  linarith

theorem rd_le1 (h1 : R.rd 1 = 1) {x : K} (h : x ≤ 1) : R.rd x ≤ 1 := by
  have := R.mono h
  rwa [h1] at this

theorem rd_err {x b : K} (h0 : 0 ≤ x) (hb : x ≤ b) : |R.rd x - x| ≤ R.u * b := by
  refine le_trans (R.rel x) (mul_le_mul_of_nonneg_left ?_ (u_nonneg R))
  rwa [abs_of_nonneg h0]

theorem liquidR_range (h1 : R.rd 1 = 1) {s l T x : K} (hsl : s < l) (h : liquidR R s l T = some x) : 0 ≤ x ∧ x ≤ 1 ∧ R.rd x = x := by
  unfold liquidR at h
  by_cases ha : T < s
  · rw [if_pos ha] at h; cases h; exact ⟨le_rfl, zero_le_one, rd0 R⟩
  rw [if_neg ha] at h
  by_cases hb : T > l
  · rw [if_pos hb] at h; cases h; exact ⟨zero_le_one, le_rfl, h1⟩
  rw [if_neg hb] at h
  have hd : 0 < R.rd (l - s) := rd_gt0 R (by linarith)
  rw [if_neg hd.ne'] at h
  cases h
  have hn : 0 ≤ R.rd (T - s) := rd_ge0 R (by linarith)
  exact ⟨rd_ge0 R (div_nonneg hn hd.le), rd_le1 R h1 ((div_le_one hd).2 (R.mono (by linarith))), R.idem _⟩

theorem updateR_range (h1 : R.rd 1 = 1) {p l : K} (hp : 0 ≤ p) (hl : 0 ≤ l ∧ l ≤ 1) : InRange (updateR R p l) := by
  have a : 0 ≤ R.rd (1 - l) := rd_ge0 R (by linarith)
  have b : R.rd (1 - l) ≤ 1 := rd_le1 R h1 (by linarith)
  unfold updateR
  refine ⟨⟨rd_ge0 R (sub_nonneg.2 (min_le_left _ _)), rd_le1 R h1 ?_⟩, hl, le_min a hp, le_trans (min_le_left _ _) b⟩
  have : 0 ≤ min (R.rd (1 - l)) p := le_min a hp
  linarith

theorem updateR_sum (h1 : R.rd 1 = 1) {p l : K} (hp : 0 ≤ p) (hl : 0 ≤ l ∧ l ≤ 1) :
    |(updateR R p l).solid + (updateR R p l).liquid + (updateR R p l).powder - 1| ≤ 2 * R.u := by
  have a : 0 ≤ R.rd (1 - l) := rd_ge0 R (by linarith)
  have b : R.rd (1 - l) ≤ 1 := rd_le1 R h1 (by linarith)
  have hm : 0 ≤ min (R.rd (1 - l)) p := le_min a hp
  have e1 := abs_le.1 (rd_err R (x := 1 - l) (b := 1) (by linarith) (by linarith))
  have e2 := abs_le.1 (rd_err R (x := R.rd (1 - l) - min (R.rd (1 - l)) p) (b := 1) (sub_nonneg.2 (min_le_left _ _)) (by linarith))
  change |R.rd (R.rd (1 - l) - min (R.rd (1 - l)) p) + l + min (R.rd (1 - l)) p - 1| ≤ _
  rw [abs_le]
  constructor <;> linarith [e1.1, e1.2, e2.1, e2.2]

/-! ## Theorems -/

/-- C130: the liquid fraction of a point is exactly 0 up to the solidus and 1 from the liquidus on, never decreases with the temperature,
and is defined whenever the solidus is below the liquidus, also in floating-point arithmetic. -/
theorem C130_liquid (h1 : R.rd 1 = 1) (s l : K) (hsl : s < l) :
    ∃ f : K → K, (∀ T, liquidR R s l T = some (f T)) ∧ Monotone f ∧ (∀ T, T ≤ s → f T = 0) ∧ (∀ T, l ≤ T → f T = 1) := by
  have hd : 0 < R.rd (l - s) := rd_gt0 R (by linarith)
  refine ⟨fun T => if T < s then 0 else if T > l then 1 else R.rd (R.rd (T - s) / R.rd (l - s)), ?_, ?_, ?_, ?_⟩
  · intro T
    unfold liquidR
    by_cases ha : T < s
    · simp [ha]
    · by_cases hb : T > l
      · simp [ha, hb]
      · simp [ha, hb, hd.ne']
  · intro T T' h
    have mid : ∀ t, s ≤ t → t ≤ l → 0 ≤ R.rd (R.rd (t - s) / R.rd (l - s)) ∧ R.rd (R.rd (t - s) / R.rd (l - s)) ≤ 1 := by
      intro t ht ht'
      exact ⟨rd_ge0 R (div_nonneg (rd_ge0 R (by linarith)) hd.le),
        rd_le1 R h1 ((div_le_one hd).2 (R.mono (by linarith)))⟩
    dsimp only
    by_cases ha : T < s
    · rw [if_pos ha]
      by_cases ha' : T' < s
      · rw [if_pos ha']
      · rw [if_neg ha']
        by_cases hb' : T' > l
        · rw [if_pos hb']; exact zero_le_one
        · rw [if_neg hb']; exact (mid T' (not_lt.1 ha') (not_lt.1 hb')).1
    · rw [if_neg ha, if_neg (show ¬ T' < s by linarith)]
      by_cases hb : T > l
      · rw [if_pos hb, if_pos (show T' > l by linarith)]
      · rw [if_neg hb]
        by_cases hb' : T' > l
        · rw [if_pos hb']; exact (mid T (not_lt.1 ha) (not_lt.1 hb)).2
        · rw [if_neg hb']
          exact R.mono (div_le_div_of_nonneg_right (R.mono (by linarith)) hd.le)
  · intro T hT
    rcases lt_or_eq_of_le hT with h | h
    · simp [h]
    · subst h
      simp [not_lt.2 hsl.le, rd0 R]
  · intro T hT
    rcases lt_or_eq_of_le hT with h | h
    · simp [h, not_lt.2 (le_trans hsl.le hT)]
    · subst h
      simp [not_lt.2 hsl.le, div_self hd.ne', h1]

/-- C130: over every history of temperatures the three fractions of a point stay between zero and one and add up to one up to two rounding
errors, the powder fraction never increases, and it is zero, exactly, once the point has been at the liquidus or above. -/
theorem C130_point (h1 : R.rd 1 = 1) (s l : K) (hsl : s < l) (Ts : List K) (f g : Fractions K) (hf : InRange f)
    (hg : historyR R s l f Ts = some g) :
    InRange g ∧ (Ts ≠ [] → |g.solid + g.liquid + g.powder - 1| ≤ 2 * R.u) ∧ g.powder ≤ f.powder ∧
      ((∃ T ∈ Ts, l ≤ T) → g.powder = 0) := by
  induction Ts generalizing f with
  | nil =>
    cases hg
    exact ⟨hf, fun h => absurd rfl h, le_rfl, fun ⟨T, hT, _⟩ => by cases hT⟩
  | cons T Ts ih =>
    rw [historyR, Option.bind_eq_some_iff] at hg
    obtain ⟨x, hx, hg⟩ := hg
    have hr := liquidR_range R h1 hsl hx
    have hu := updateR_range R h1 hf.powder.1 ⟨hr.1, hr.2.1⟩
    obtain ⟨a, b, c, d⟩ := ih (updateR R f.powder x) hu hg
    refine ⟨a, fun _ => ?_, le_trans c (min_le_right _ _), fun ⟨T', hT', hl⟩ => ?_⟩
    · cases Ts with
      | nil => cases hg; exact updateR_sum R h1 hf.powder.1 ⟨hr.1, hr.2.1⟩
      | cons T2 Ts2 => exact b (by simp)
    · rcases List.mem_cons.1 hT' with h | h
      · subst h
        obtain ⟨F, hF, -, -, hF1⟩ := C130_liquid R h1 s l hsl
        rw [hF T', hF1 T' hl] at hx
        have hx1 : x = 1 := (Option.some.inj hx).symm
        have h0 : (updateR R f.powder x).powder = 0 := by
          rw [hx1]
          change min (R.rd (1 - 1)) f.powder = 0
          rw [sub_self, rd0 R, min_eq_left hf.powder.1]
        rw [h0] at c
        exact le_antisymm c a.powder.1
      · exact d ⟨T', h, hl⟩

theorem sumR_bounds (n : ℕ) (hn : ∀ k : ℕ, k ≤ n → R.rd (k : K) = k) (xs : List K) (hx : ∀ x ∈ xs, 0 ≤ x ∧ x ≤ 1) (s : K) (j : ℕ)
    (hs : 0 ≤ s ∧ s ≤ j) (hj : j + xs.length ≤ n) :
    (0 ≤ sumR R s xs ∧ sumR R s xs ≤ ((j + xs.length : ℕ) : K)) ∧ |sumR R s xs - (s + xs.sum)| ≤ (xs.length : K) * (R.u * n) := by
  induction xs generalizing s j with
  | nil => simpa [sumR] using hs
  | cons x xs ih =>
    have hx0 := hx x (by simp)
    have hj' : j + 1 + xs.length ≤ n := by rw [List.length_cons] at hj; omega
    have hb : s + x ≤ ((j + 1 : ℕ) : K) := by push_cast; linarith [hx0.2, hs.2]
    have hs' : 0 ≤ R.rd (s + x) ∧ R.rd (s + x) ≤ ((j + 1 : ℕ) : K) := by
      refine ⟨rd_ge0 R (by linarith [hx0.1, hs.1]), ?_⟩
      have := R.mono hb
      rwa [hn (j + 1) (by omega)] at this
    obtain ⟨⟨a, b⟩, c⟩ := ih (fun y hy => hx y (by simp [hy])) (R.rd (s + x)) (j + 1) hs' hj'
    refine ⟨⟨a, ?_⟩, ?_⟩
    · rw [List.length_cons, show j + (xs.length + 1) = j + 1 + xs.length by omega]; exact b
    · have hjn : ((j + 1 : ℕ) : K) ≤ n := by exact_mod_cast (by omega : j + 1 ≤ n)
      have e := abs_le.1 (rd_err R (x := s + x) (b := n) (by linarith [hx0.1, hs.1]) (by linarith))
      have c' := abs_le.1 c
      rw [sumR, List.sum_cons, List.length_cons, abs_le]
      push_cast
      constructor <;> linarith [e.1, e.2, c'.1, c'.2]

/-- C130: the liquid and powder fractions stored for a cell are between zero and one, the solid fraction is at most one, and it is negative
by at most a few rounding errors per quadrature point. -/
theorem C130_cell_partial (n : ℕ) (hn0 : 0 < n) (hn : ∀ k : ℕ, k ≤ n → R.rd (k : K) = k) (fs : List (Fractions K)) (hlen : fs.length = n)
    (hfs : ∀ f ∈ fs, InRange f ∧ f.powder ≤ R.rd (1 - f.liquid)) :
    (0 ≤ (averageR R fs).liquid ∧ (averageR R fs).liquid ≤ 1) ∧ (0 ≤ (averageR R fs).powder ∧ (averageR R fs).powder ≤ 1) ∧
    -(2 * (2 * (n : K) + 4) * R.u) ≤ (averageR R fs).solid ∧ (averageR R fs).solid ≤ 1 := by
  have h1 : R.rd 1 = 1 := by simpa using hn 1 (by omega)
  have hn' : (0 : K) < n := by exact_mod_cast hn0
  have hu := u_nonneg R
  obtain ⟨⟨l0, l1⟩, l2⟩ := sumR_bounds R n hn (fs.map Fractions.liquid)
    (fun x hx => by obtain ⟨f, hf, rfl⟩ := List.mem_map.1 hx; exact (hfs f hf).1.liquid) 0 0 ⟨le_rfl, by simp⟩ (by simp [hlen])
  obtain ⟨⟨p0, p1⟩, p2⟩ := sumR_bounds R n hn (fs.map Fractions.powder)
    (fun x hx => by obtain ⟨f, hf, rfl⟩ := List.mem_map.1 hx; exact (hfs f hf).1.powder) 0 0 ⟨le_rfl, by simp⟩ (by simp [hlen])
  rw [List.length_map, hlen, zero_add] at l1 l2 p1 p2
  set sl := sumR R 0 (fs.map Fractions.liquid) with hsl
  set sp := sumR R 0 (fs.map Fractions.powder) with hsp
  have ql : 0 ≤ sl / n ∧ sl / n ≤ 1 := ⟨div_nonneg l0 hn'.le, (div_le_one hn').2 l1⟩
  have qp : 0 ≤ sp / n ∧ sp / n ≤ 1 := ⟨div_nonneg p0 hn'.le, (div_le_one hn').2 p1⟩
  have hL : (averageR R fs).liquid = R.rd (sl / n) := by simp only [averageR, hlen, hsl]
  have hP : (averageR R fs).powder = R.rd (sp / n) := by simp only [averageR, hlen, hsp]
  have hS : (averageR R fs).solid = R.rd (R.rd (1 - R.rd (sl / n)) - R.rd (sp / n)) := by simp only [averageR, hlen, hsl, hsp]
  have bl : 0 ≤ R.rd (sl / n) ∧ R.rd (sl / n) ≤ 1 := ⟨rd_ge0 R ql.1, rd_le1 R h1 ql.2⟩
  have bp : 0 ≤ R.rd (sp / n) ∧ R.rd (sp / n) ≤ 1 := ⟨rd_ge0 R qp.1, rd_le1 R h1 qp.2⟩
  refine ⟨by rw [hL]; exact bl, by rw [hP]; exact bp, ?_, ?_⟩
  · -- the means add up to at most `1 + u`
    have hsum : (fs.map Fractions.liquid).sum + (fs.map Fractions.powder).sum ≤ (n : K) * (1 + R.u) := by
      rw [← hlen]
      clear hL hP hS l0 l1 l2 p0 p1 p2 ql qp bl bp hlen
      clear_value sl sp
      clear hsl hsp
      induction fs with
      | nil => simp
      | cons f fs ih =>
        have h := ih (fun g hg => hfs g (by simp [hg]))
        obtain ⟨hr, hp⟩ := hfs f (by simp)
        have e := (abs_le.1 (rd_err R (x := 1 - f.liquid) (b := 1) (by linarith [hr.liquid.2]) (by linarith [hr.liquid.1]))).2
        simp only [List.map_cons, List.sum_cons, List.length_cons]
        push_cast
        linarith
    have el : sl / n ≤ (fs.map Fractions.liquid).sum / n + R.u * n := by
      rw [div_add' _ _ _ hn'.ne']
      refine div_le_div_of_nonneg_right ?_ hn'.le
      have := (abs_le.1 l2).2
      linarith
    have ep : sp / n ≤ (fs.map Fractions.powder).sum / n + R.u * n := by
      rw [div_add' _ _ _ hn'.ne']
      refine div_le_div_of_nonneg_right ?_ hn'.le
      have := (abs_le.1 p2).2
      linarith
    have em : (fs.map Fractions.liquid).sum / n + (fs.map Fractions.powder).sum / n ≤ 1 + R.u := by
      rw [← add_div, div_le_iff₀ hn']
      linarith
    have r1 := (abs_le.1 (rd_err R (x := sl / n) (b := 1) ql.1 ql.2)).2
    have r2 := (abs_le.1 (rd_err R (x := sp / n) (b := 1) qp.1 qp.2)).2
    have r3 := (abs_le.1 (rd_err R (x := 1 - R.rd (sl / n)) (b := 1) (by linarith [bl.2]) (by linarith [bl.1]))).1
    have hlow : -((2 * (n : K) + 4) * R.u) ≤ R.rd (1 - R.rd (sl / n)) - R.rd (sp / n) := by linarith
    have hpos : 0 ≤ (2 * (n : K) + 4) * R.u := mul_nonneg (by linarith) hu
    rw [hS]
    have hm := R.mono hlow
    have r4 := (abs_le.1 (R.rel (-((2 * (n : K) + 4) * R.u)))).1
    rw [abs_neg, abs_of_nonneg hpos] at r4
    have r5 : R.u * ((2 * (n : K) + 4) * R.u) ≤ 1 * ((2 * (n : K) + 4) * R.u) := mul_le_mul_of_nonneg_right R.u_lt.le hpos
    linarith
  · rw [hS]
    refine rd_le1 R h1 ?_
    have := rd_le1 R h1 (show 1 - R.rd (sl / n) ≤ 1 by linarith [bl.1])
    linarith [bp.1]

end

/-! ## Concrete cases in `double` -/

theorem double_nat (k : ℕ) (hk : k ≤ 2 ^ 53) : double.rd (k : ℚ) = k :=
  round_fixed 53 (by norm_num) _ ⟨k, 0, by rw [abs_of_nonneg (by positivity)]; exact_mod_cast hk, by simp⟩

/-- The hypotheses of the theorems above are met in `double` by powder that is heated into the mushy zone, melts and solidifies. -/
example : double.rd 1 = 1 ∧ (∀ k : ℕ, k ≤ 8 → double.rd (k : ℚ) = k) ∧ InRange (⟨0, 0, 1⟩ : Fractions ℚ) ∧
    (⟨0, 0, 1⟩ : Fractions ℚ).powder ≤ double.rd (1 - (⟨0, 0, 1⟩ : Fractions ℚ).liquid) ∧
    historyR double 1600 1700 ⟨0, 0, 1⟩ [1500, 1800, 300] = some ⟨1, 0, 0⟩ := by
  have h1 : double.rd 1 = 1 := by simpa using double_nat 1 (by norm_num)
  have h0 : double.rd 0 = 0 := rd0 double
  refine ⟨h1, fun k hk => double_nat k (le_trans hk (by norm_num)), ⟨by norm_num, by norm_num, by norm_num⟩, ?_, ?_⟩
  · norm_num [h1]
  · norm_num [historyR, liquidR, updateR, h1, h0]

/-- C130: the solid fraction stored for a cell can be negative: powder of a material with solidus 1600 and liquidus 1700 at 1602, eight
quadrature points (trilinear elements).  Every point has fractions between zero and one, the cell gets a solid fraction of `-2 ^ -52`. -/
theorem C130_cell_refuted :
    let f : Fractions ℚ := ⟨0, 5764607523034235 / 288230376151711744, 2206763817411543 / 2251799813685248⟩
    historyR double 1600 1700 ⟨0, 0, 1⟩ [1602] = some f ∧ (averageR double (List.replicate 8 f)).solid = -(1 / 2 ^ 52) := by
  intro f
  have c2 : double.rd 2 = 2 := by simpa using double_nat 2 (by norm_num)
  have c100 : double.rd 100 = 100 := by simpa using double_nat 100 (by norm_num)
  have hl : double.rd (2 / 100) = 5764607523034235 / 288230376151711744 := by
    change round 53 _ = _
    rw [round_eval 53 _ (-6) 5764607523034235 (by norm_num) (by norm_num) (by norm_num [nearestEven])]
    norm_num
  have hp : double.rd (1 - 5764607523034235 / 288230376151711744) = 2206763817411543 / 2251799813685248 := by
    change round 53 _ = _
    rw [round_eval 53 _ (-1) 8827055269646172 (by norm_num) (by norm_num) (by norm_num [nearestEven])]
    norm_num
  have l0 : double.rd (0 + 5764607523034235 / 288230376151711744) = 5764607523034235 / 288230376151711744 := by
    change round 53 _ = _
    rw [round_eval 53 _ (-6) 5764607523034235 (by norm_num) (by norm_num) (by norm_num [nearestEven])]
    norm_num
  have l1 : double.rd (5764607523034235 / 288230376151711744 + 5764607523034235 / 288230376151711744) = 5764607523034235 / 144115188075855872 := by
    change round 53 _ = _
    rw [round_eval 53 _ (-5) 5764607523034235 (by norm_num) (by norm_num) (by norm_num [nearestEven])]
    norm_num
  have l2 : double.rd (5764607523034235 / 144115188075855872 + 5764607523034235 / 288230376151711744) = 1080863910568919 / 18014398509481984 := by
    change round 53 _ = _
    rw [round_eval 53 _ (-5) 8646911284551352 (by norm_num) (by norm_num) (by norm_num [nearestEven])]
    norm_num
  have l3 : double.rd (1080863910568919 / 18014398509481984 + 5764607523034235 / 288230376151711744) = 5764607523034235 / 72057594037927936 := by
    change round 53 _ = _
    rw [round_eval 53 _ (-4) 5764607523034235 (by norm_num) (by norm_num) (by norm_num [nearestEven])]
    norm_num
  have l4 : double.rd (5764607523034235 / 72057594037927936 + 5764607523034235 / 288230376151711744) = 3602879701896397 / 36028797018963968 := by
    change round 53 _ = _
    rw [round_eval 53 _ (-4) 7205759403792794 (by norm_num) (by norm_num) (by norm_num [nearestEven])]
    norm_num
  have l5 : double.rd (3602879701896397 / 36028797018963968 + 5764607523034235 / 288230376151711744) = 8646911284551353 / 72057594037927936 := by
    change round 53 _ = _
    rw [round_eval 53 _ (-4) 8646911284551353 (by norm_num) (by norm_num) (by norm_num [nearestEven])]
    norm_num
  have l6 : double.rd (8646911284551353 / 72057594037927936 + 5764607523034235 / 288230376151711744) = 1261007895663739 / 9007199254740992 := by
    change round 53 _ = _
    rw [round_eval 53 _ (-3) 5044031582654956 (by norm_num) (by norm_num) (by norm_num [nearestEven])]
    norm_num
  have l7 : double.rd (1261007895663739 / 9007199254740992 + 5764607523034235 / 288230376151711744) = 5764607523034235 / 36028797018963968 := by
    change round 53 _ = _
    rw [round_eval 53 _ (-3) 5764607523034235 (by norm_num) (by norm_num) (by norm_num [nearestEven])]
    norm_num
  have p0 : double.rd (0 + 2206763817411543 / 2251799813685248) = 2206763817411543 / 2251799813685248 := by
    change round 53 _ = _
    rw [round_eval 53 _ (-1) 8827055269646172 (by norm_num) (by norm_num) (by norm_num [nearestEven])]
    norm_num
  have p1 : double.rd (2206763817411543 / 2251799813685248 + 2206763817411543 / 2251799813685248) = 2206763817411543 / 1125899906842624 := by
    change round 53 _ = _
    rw [round_eval 53 _ (0) 8827055269646172 (by norm_num) (by norm_num) (by norm_num [nearestEven])]
    norm_num
  have p2 : double.rd (2206763817411543 / 1125899906842624 + 2206763817411543 / 2251799813685248) = 6620291452234629 / 2251799813685248 := by
    change round 53 _ = _
    rw [round_eval 53 _ (1) 6620291452234629 (by norm_num) (by norm_num) (by norm_num [nearestEven])]
    norm_num
  have p3 : double.rd (6620291452234629 / 2251799813685248 + 2206763817411543 / 2251799813685248) = 2206763817411543 / 562949953421312 := by
    change round 53 _ = _
    rw [round_eval 53 _ (1) 8827055269646172 (by norm_num) (by norm_num) (by norm_num [nearestEven])]
    norm_num
  have p4 : double.rd (2206763817411543 / 562949953421312 + 2206763817411543 / 2251799813685248) = 2758454771764429 / 562949953421312 := by
    change round 53 _ = _
    rw [round_eval 53 _ (2) 5516909543528858 (by norm_num) (by norm_num) (by norm_num [nearestEven])]
    norm_num
  have p5 : double.rd (2758454771764429 / 562949953421312 + 2206763817411543 / 2251799813685248) = 3310145726117315 / 562949953421312 := by
    change round 53 _ = _
    rw [round_eval 53 _ (2) 6620291452234630 (by norm_num) (by norm_num) (by norm_num [nearestEven])]
    norm_num
  have p6 : double.rd (3310145726117315 / 562949953421312 + 2206763817411543 / 2251799813685248) = 3861836680470201 / 562949953421312 := by
    change round 53 _ = _
    rw [round_eval 53 _ (2) 7723673360940402 (by norm_num) (by norm_num) (by norm_num [nearestEven])]
    norm_num
  have p7 : double.rd (3861836680470201 / 562949953421312 + 2206763817411543 / 2251799813685248) = 4413527634823087 / 562949953421312 := by
    change round 53 _ = _
    rw [round_eval 53 _ (2) 8827055269646174 (by norm_num) (by norm_num) (by norm_num [nearestEven])]
    norm_num
  have al : double.rd (5764607523034235 / 36028797018963968 / 8) = 5764607523034235 / 288230376151711744 := by
    change round 53 _ = _
    rw [round_eval 53 _ (-6) 5764607523034235 (by norm_num) (by norm_num) (by norm_num [nearestEven])]
    norm_num
  have ap : double.rd (4413527634823087 / 562949953421312 / 8) = 4413527634823087 / 4503599627370496 := by
    change round 53 _ = _
    rw [round_eval 53 _ (-1) 8827055269646174 (by norm_num) (by norm_num) (by norm_num [nearestEven])]
    norm_num
  have b : double.rd (1 - 5764607523034235 / 288230376151711744) = 2206763817411543 / 2251799813685248 := by
    change round 53 _ = _
    rw [round_eval 53 _ (-1) 8827055269646172 (by norm_num) (by norm_num) (by norm_num [nearestEven])]
    norm_num
  have fin : double.rd (2206763817411543 / 2251799813685248 - 4413527634823087 / 4503599627370496) = -(1 / 2 ^ 52) := by
    have e : (2206763817411543 / 2251799813685248 - 4413527634823087 / 4503599627370496 : ℚ) = -(1 / 2 ^ 52) := by norm_num
    rw [e]
    exact round_fixed 53 (by norm_num) _ ⟨-1, -52, by norm_num, by norm_num⟩
  constructor
  · have hq : liquidR double 1600 1700 1602 = some (5764607523034235 / 288230376151711744) := by
      unfold liquidR
      rw [if_neg (by norm_num), if_neg (by norm_num), show (1700 - 1600 : ℚ) = 100 by norm_num, c100, if_neg (by norm_num),
        show (1602 - 1600 : ℚ) = 2 by norm_num, c2, hl]
    have z : double.rd (2206763817411543 / 2251799813685248 - 2206763817411543 / 2251799813685248) = 0 := by rw [sub_self]; exact rd0 double
    simp only [historyR, hq, Option.bind_some, updateR, f]
    rw [hp, min_eq_left (by norm_num), z]
  · change double.rd (double.rd (1 - double.rd (sumR double 0 (List.replicate 8 (5764607523034235 / 288230376151711744 : ℚ)) / ((8 : ℕ) : ℚ))) -
      double.rd (sumR double 0 (List.replicate 8 (2206763817411543 / 2251799813685248 : ℚ)) / ((8 : ℕ) : ℚ))) = _
    simp only [List.replicate, sumR]
    rw [l0, l1, l2, l3, l4, l5, l6, l7, p0, p1, p2, p3, p4, p5, p6, p7, show ((8 : ℕ) : ℚ) = 8 by norm_num, al, ap, b, fin]

end Verif.Float
