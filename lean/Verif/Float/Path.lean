import Verif.Float.Phases
import Verif.ScanPath.Model
import Verif.ScanPath.QueryLemmas

/-!
# C132: the scan path in floating-point arithmetic

`ScanPath::load_segment_scan_path` (`source/ScanPath.cc:58-141`), `update_current_segment_info` (`:197-226`), `value` (`:228-257`) and
`get_power_modifier` (`:259-275`) with every operation rounded, for a path object on which no query has been saved (what saved queries
change is C06, which only depends on comparisons).  Division of a `dealii::Tensor` by a number divides each component.  Not
rounded here: `Point::distance`, a parameter `dist`.  `Verif.ScanPath.Model` is the same code in exact arithmetic.
-/

namespace Verif.Float

open Verif.ScanPath (Answer)

variable {K : Type} [Field K] [LinearOrder K] [IsStrictOrderedRing K]

/-! ## Model -/

/-- `struct ScanPathSegment`, `ScanPath.hh:40-48`, without the orientation. -/
structure SegR (K : Type) where
  endTime : K
  power : K
  endPoint : Pt3 K

/-- A line of a segment file: mode 0 (`line`) or 1, position, power, speed or dwell time. -/
structure RecR (K : Type) where
  line : Bool
  pos : Pt3 K
  power : K
  param : K

/-- `std::stod(split_line[1..3]) * _distance_scaling`, `ScanPath.cc:109-111`. -/
def scaleR (R : Rounding K) (s : K) (p : Pt3 K) : Pt3 K := ⟨R.rd (p.x * s), R.rd (p.y * s), R.rd (p.z * s)⟩

/-- `load_segment_scan_path`, `ScanPath.cc:74-139`; the first argument is `_segment_list.back()`.  `none`: a path that starts with a line
(exception), or a speed zero (infinite end time). -/
def loadR (R : Rounding K) (dist : Pt3 K → Pt3 K → K) (ds vs : K) : Option (SegR K) → List (RecR K) → Option (List (SegR K))
  | _, [] => some []
  | prev, r :: rest =>
    let p := scaleR R ds r.pos
    if r.line then
      match prev with
      | none => none
      | some b =>
        if R.rd (r.param * vs) = 0 then none
        else
          let s : SegR K := ⟨R.rd (b.endTime + |R.rd (dist p b.endPoint / R.rd (r.param * vs))|), r.power, p⟩
          (loadR R dist ds vs (some s) rest).map (s :: ·)
    else
      let s : SegR K := ⟨match prev with | none => r.param | some b => R.rd (b.endTime + r.param), r.power, p⟩
      (loadR R dist ds vs (some s) rest).map (s :: ·)

/-- `update_current_segment_info`, `ScanPath.cc:203-220`, from the first segment: the segment at `t` and the one before it. -/
def seekR (t : K) : Option (SegR K) → List (SegR K) → Option (Option (SegR K) × SegR K)
  | _, [] => none
  | prev, s :: rest => if t > s.endTime then seekR t (some s) rest else some (prev, s)

/-- The interpolation of one coordinate, `ScanPath.cc:250-254`. -/
def lerpR (R : Rounding K) (a b t0 t1 t : K) : K := R.rd (a + R.rd (R.rd (R.rd (b - a) / R.rd (t1 - t0)) * R.rd (t - t0)))

/-- Start time and point of a segment, `ScanPath.cc:209-220`. -/
def startR (prev : Option (SegR K)) (s : SegR K) : K × Pt3 K :=
  match prev with
  | none => (0, s.endPoint)
  | some p => (p.endTime, p.endPoint)

/-- `ScanPath::value`, `ScanPath.cc:228-257`. -/
def valueR (R : Rounding K) (segs : List (SegR K)) (t : K) : Answer (Pt3 K) :=
  match segs.getLast? with
  | none => .ub
  | some l =>
    if t > l.endTime then .outOfDomain
    else
      match seekR t none segs with
      | none => .ub
      | some (prev, s) =>
        let b := startR prev s
        if R.rd (s.endTime - b.1) = 0 then .nan
        else .value ⟨lerpR R b.2.x s.endPoint.x b.1 s.endTime t, lerpR R b.2.y s.endPoint.y b.1 s.endTime t,
          lerpR R b.2.z s.endPoint.z b.1 s.endTime t⟩

/-- `ScanPath::get_power_modifier`, `ScanPath.cc:259-275`. -/
def powerR (segs : List (SegR K)) (t : K) : Answer K :=
  match segs.getLast? with
  | none => .ub
  | some l =>
    if t > l.endTime then .value 0
    else
      match seekR t none segs with
      | none => .ub
      | some (_, s) => .value s.power

/-! ## Specification -/

/-- How long the records of a file last, as computed from their positions: a point its dwell time, a line its length over its speed. -/
def durations (R : Rounding K) (dist : Pt3 K → Pt3 K → K) (ds vs : K) : Option (Pt3 K) → List (RecR K) → List K
  | _, [] => []
  | prev, r :: rest =>
    (if r.line then |R.rd (dist (scaleR R ds r.pos) (prev.getD (scaleR R ds r.pos)) / R.rd (r.param * vs))| else r.param) ::
      durations R dist ds vs (some (scaleR R ds r.pos)) rest

/-- The end times do not decrease. -/
def Ordered (segs : List (SegR K)) : Prop := segs.Pairwise fun a b => a.endTime ≤ b.endTime

/-! ## Lemmas -/

section
variable (R : Rounding K)

theorem le_rd' {x y : K} (hx : R.rd x = x) (h : x ≤ y) : x ≤ R.rd y := by
  have := R.mono h
  rwa [hx] at this

theorem rd_le' {x y : K} (hy : R.rd y = y) (h : x ≤ y) : R.rd x ≤ y := by
  have := R.mono h
  rwa [hy] at this

/-- Rounding a non-negative number. -/
theorem rd_between {x : K} (h : 0 ≤ x) : (1 - R.u) * x ≤ R.rd x ∧ R.rd x ≤ (1 + R.u) * x := by
  have := R.rel x
  rw [abs_of_nonneg h] at this
  obtain ⟨h1, h2⟩ := abs_le.1 this
  constructor <;> linarith

variable {R}
variable {dist : Pt3 K → Pt3 K → K} {ds vs : K}

theorem loadR_spec (b : SegR K) (hb : 0 ≤ b.endTime) (hrb : R.rd b.endTime = b.endTime) (recs : List (RecR K))
    (hdwell : ∀ r ∈ recs, r.line = false → 0 ≤ r.param) (hspeed : ∀ r ∈ recs, r.line = true → R.rd (r.param * vs) ≠ 0)
    (S : K) (k : ℕ) (hS : (1 - R.u) ^ k * S ≤ b.endTime ∧ b.endTime ≤ (1 + R.u) ^ k * S) (hS0 : 0 ≤ S) :
    ∃ segs, loadR R dist ds vs (some b) recs = some segs ∧ segs.length = recs.length ∧
      (∀ s ∈ segs, b.endTime ≤ s.endTime ∧ R.rd s.endTime = s.endTime) ∧ Ordered segs ∧
      ∀ i r, recs[i]? = some r → ∃ s, segs[i]? = some s ∧ s.power = r.power ∧ s.endPoint = scaleR R ds r.pos ∧
        let T := S + ((durations R dist ds vs (some b.endPoint) recs).take (i + 1)).sum
        (1 - R.u) ^ (k + (i + 1)) * T ≤ s.endTime ∧ s.endTime ≤ (1 + R.u) ^ (k + (i + 1)) * T := by
  have hu0 := u_nonneg R
  have hu1 := R.u_lt
  induction recs generalizing b S k with
  | nil => exact ⟨[], rfl, rfl, by simp, List.Pairwise.nil, by simp⟩
  | cons r recs ih =>
    set d : K := if r.line then |R.rd (dist (scaleR R ds r.pos) b.endPoint / R.rd (r.param * vs))| else r.param with hd
    have hd0 : 0 ≤ d := by
      rw [hd]
      by_cases hl : r.line = true
      · rw [if_pos hl]; exact abs_nonneg _
      · rw [if_neg hl]; exact hdwell r (by simp) (by simpa using hl)
    let s : SegR K := ⟨R.rd (b.endTime + d), r.power, scaleR R ds r.pos⟩
    have hs : loadR R dist ds vs (some b) (r :: recs) = (loadR R dist ds vs (some s) recs).map (s :: ·) := by
      rw [loadR]
      by_cases hl : r.line = true
      · have h0 := hspeed r (by simp) hl
        simp only [hl, if_true, if_neg h0, s, hd]
      · simp only [hl, s, hd]
        simp
    have hbs : b.endTime ≤ s.endTime := le_rd' R hrb (by linarith)
    have hbt := rd_between R (show 0 ≤ b.endTime + d by linarith)
    have hS' : (1 - R.u) ^ (k + 1) * (S + d) ≤ s.endTime ∧ s.endTime ≤ (1 + R.u) ^ (k + 1) * (S + d) := by
      have p1 : (1 - R.u) ^ k ≤ 1 := pow_le_one₀ (by linarith) (by linarith)
      have p2 : 1 ≤ (1 + R.u) ^ k := one_le_pow₀ (by linarith)
      have q1 : (1 - R.u) ^ k * d ≤ d := by nlinarith
      have q2 : d ≤ (1 + R.u) ^ k * d := by nlinarith
      constructor
      · refine le_trans ?_ hbt.1
        rw [pow_succ', mul_assoc]
        exact mul_le_mul_of_nonneg_left (by rw [mul_add]; linarith [hS.1]) (by linarith)
      · refine le_trans hbt.2 ?_
        rw [pow_succ', mul_assoc]
        exact mul_le_mul_of_nonneg_left (by rw [mul_add]; linarith [hS.2]) (by linarith)
    obtain ⟨segs, h1, h2, h3, h4, h5⟩ := ih s (by linarith) (R.idem _) (fun r hr => hdwell r (by simp [hr]))
      (fun r hr => hspeed r (by simp [hr])) (S + d) (k + 1) hS' (by linarith)
    have hdur : durations R dist ds vs (some b.endPoint) (r :: recs) = d :: durations R dist ds vs (some s.endPoint) recs := by
      rw [durations]; rfl
    refine ⟨s :: segs, by rw [hs, h1]; rfl, by simp [h2], ?_, ?_, ?_⟩
    · intro s' hs'
      rcases List.mem_cons.1 hs' with rfl | h
      · exact ⟨hbs, R.idem _⟩
      · exact ⟨le_trans hbs (h3 s' h).1, (h3 s' h).2⟩
    · exact List.Pairwise.cons (fun s' h => (h3 s' h).1) h4
    · intro i r' hi
      rw [hdur]
      cases i with
      | zero =>
        simp only [List.getElem?_cons_zero, Option.some.injEq] at hi
        subst hi
        refine ⟨s, rfl, rfl, rfl, ?_⟩
        simpa using hS'
      | succ i =>
        simp only [List.getElem?_cons_succ] at hi
        obtain ⟨s', a1, a2, a3, a4, a5⟩ := h5 i r' hi
        refine ⟨s', by simpa using a1, a2, a3, ?_⟩
        simp only [List.take_succ_cons, List.sum_cons]
        rw [show k + (i + 1 + 1) = k + 1 + (i + 1) by ring, ← add_assoc S]
        exact ⟨a4, a5⟩

theorem seekR_at (segs : List (SegR K)) (h : Ordered segs) (t : K) (prev : Option (SegR K)) (i : ℕ) (s : SegR K)
    (hi : segs[i]? = some s) (h1 : t ≤ s.endTime) (h0 : ∀ j, j + 1 = i → ∀ p, segs[j]? = some p → p.endTime < t) :
    seekR t prev segs = some (if i = 0 then prev else segs[i - 1]?, s) := by
  induction segs generalizing prev i with
  | nil => simp at hi
  | cons s0 rest ih =>
    cases i with
    | zero =>
      simp only [List.getElem?_cons_zero, Option.some.injEq] at hi
      subst hi
      simp only [seekR, if_neg (not_lt.2 h1), if_true]
    | succ i =>
      simp only [List.getElem?_cons_succ] at hi
      obtain ⟨ha, hb⟩ := List.pairwise_cons.1 h
      have hlt : s0.endTime < t := by
        cases i with
        | zero => exact h0 0 rfl s0 (by simp)
        | succ i =>
          obtain ⟨hlen, hget⟩ := List.getElem?_eq_some_iff.1 hi
          have hj : rest[i]? = some rest[i] := List.getElem?_eq_getElem (by omega)
          have := h0 (i + 1) rfl rest[i] (by simpa using hj)
          exact lt_of_le_of_lt (ha _ (List.getElem_mem _)) this
      simp only [seekR, if_pos hlt]
      rw [ih hb (some s0) i hi (fun j hj p hp => h0 (j + 1) (by omega) p (by simpa using hp))]
      cases i with
      | zero => simp
      | succ i => simp

theorem last_ge (segs : List (SegR K)) (h : Ordered segs) (i : ℕ) (s : SegR K) (hi : segs[i]? = some s) :
    ∃ l, segs.getLast? = some l ∧ s.endTime ≤ l.endTime := by
  have hne : segs ≠ [] := by rintro rfl; simp at hi
  refine ⟨segs.getLast hne, List.getLast?_eq_some_getLast hne, ?_⟩
  obtain ⟨hlen, rfl⟩ := List.getElem?_eq_some_iff.1 hi
  rw [List.getLast_eq_getElem]
  rcases Nat.lt_or_ge i (segs.length - 1) with h1 | h1
  · exact List.pairwise_iff_getElem.1 h i (segs.length - 1) hlen (by omega) h1
  · have : i = segs.length - 1 := by omega
    simp only [this, le_refl]

/-! ### Interpolation -/

theorem rd_rel (x : K) : ∃ e, |e| ≤ R.u ∧ R.rd x = x * (1 + e) := by
  by_cases hx : x = 0
  · exact ⟨0, by rw [abs_zero]; exact u_nonneg R, by rw [hx, rd0 R]; ring⟩
  · refine ⟨(R.rd x - x) / x, ?_, by field_simp; ring⟩
    rw [abs_div, div_le_iff₀ (abs_pos.2 hx)]
    exact R.rel x

theorem factor_step {x e u al : K} (hu : 0 ≤ u) (hu' : u ≤ 1 / 16) (he : |e| ≤ u) (h : |x - 1| ≤ al) :
    |x * (1 + e) - 1| ≤ al * (17 / 16) + u := by
  have h1 : x * (1 + e) - 1 = (x - 1) * (1 + e) + e := by ring
  have h2 : |1 + e| ≤ 17 / 16 := by
    obtain ⟨a, b⟩ := abs_le.1 he
    rw [abs_le]; constructor <;> linarith
  rw [h1]
  refine le_trans (abs_add_le _ _) (add_le_add ?_ he)
  rw [abs_mul]
  exact mul_le_mul h h2 (abs_nonneg _) (le_trans (abs_nonneg _) h)

theorem lerpR_err (hu : R.u ≤ 1 / 16) {a b t0 t1 t M : K} (h01 : t0 < t1) (h0 : t0 ≤ t) (h1 : t ≤ t1) (ha : |a| ≤ M) (hb : |b| ≤ M) :
    |lerpR R a b t0 t1 t - (a + (b - a) * ((t - t0) / (t1 - t0)))| ≤ 14 * R.u * M := by
  have hu0 := u_nonneg R
  obtain ⟨e1, b1, r1⟩ := rd_rel (R := R) (b - a)
  obtain ⟨e2, b2, r2⟩ := rd_rel (R := R) (t1 - t0)
  obtain ⟨e3, b3, r3⟩ := rd_rel (R := R) (t - t0)
  obtain ⟨e4, b4, r4⟩ := rd_rel (R := R) (R.rd (b - a) / R.rd (t1 - t0))
  obtain ⟨e5, b5, r5⟩ := rd_rel (R := R) (R.rd (R.rd (b - a) / R.rd (t1 - t0)) * R.rd (t - t0))
  obtain ⟨e6, b6, r6⟩ := rd_rel (R := R) (a + R.rd (R.rd (R.rd (b - a) / R.rd (t1 - t0)) * R.rd (t - t0)))
  have hw : 0 < t1 - t0 := by linarith
  set f := (t - t0) / (t1 - t0) with hf
  have hf0 : 0 ≤ f := div_nonneg (by linarith) hw.le
  have hf1 : f ≤ 1 := (div_le_one hw).2 (by linarith)
  have he2 : (15 / 16 : K) ≤ 1 + e2 := by
    have := (abs_le.1 b2).1
    linarith
  have he2' : 1 + e2 ≠ 0 := by
    have : (0 : K) < 15 / 16 := by norm_num
    linarith
  set N := (1 + e1) * (1 + e3) * (1 + e4) * (1 + e5) with hN
  have hP : R.rd (R.rd (R.rd (b - a) / R.rd (t1 - t0)) * R.rd (t - t0)) = (b - a) * f * (N / (1 + e2)) := by
    rw [r5, r4, r3, r2, r1, hf, hN]
    field_simp
  have hN1 : |N - 1| ≤ 9 / 2 * R.u := by
    have s1 : |(1 + e1) - 1| ≤ R.u := by rwa [add_sub_cancel_left]
    have s2 := factor_step hu0 hu b3 s1
    have s3 := factor_step hu0 hu b4 s2
    have s4 := factor_step hu0 hu b5 s3
    rw [hN]
    linarith
  have hF : |N / (1 + e2) - 1| ≤ 6 * R.u := by
    have : N / (1 + e2) - 1 = (N - 1 - e2) / (1 + e2) := by field_simp; ring
    have hpos : (0 : K) < 1 + e2 := by
      have : (0 : K) < 15 / 16 := by norm_num
      linarith
    rw [this, abs_div, abs_of_pos hpos, div_le_iff₀ hpos]
    have h2 : |N - 1 - e2| ≤ 9 / 2 * R.u + R.u := le_trans (abs_sub _ _) (add_le_add hN1 b2)
    have h3 := mul_le_mul_of_nonneg_left he2 (show 0 ≤ 6 * R.u by linarith)
    linarith
  have hM : 0 ≤ M := le_trans (abs_nonneg _) ha
  have hba : |b - a| ≤ 2 * M := by
    have := abs_sub b a
    linarith
  have hmid : |a + (b - a) * f| ≤ M := by
    have : a + (b - a) * f = a * (1 - f) + b * f := by ring
    rw [this]
    refine le_trans (abs_add_le _ _) ?_
    rw [abs_mul, abs_mul, abs_of_nonneg hf0, abs_of_nonneg (by linarith : 0 ≤ 1 - f)]
    have q1 := mul_le_mul_of_nonneg_right ha (by linarith : 0 ≤ 1 - f)
    have q2 := mul_le_mul_of_nonneg_right hb hf0
    linarith
  have hdiff : |(b - a) * f * (N / (1 + e2)) - (b - a) * f| ≤ 12 * R.u * M := by
    have : (b - a) * f * (N / (1 + e2)) - (b - a) * f = (b - a) * f * (N / (1 + e2) - 1) := by ring
    rw [this, abs_mul, abs_mul, abs_of_nonneg hf0]
    have q1 : |b - a| * f ≤ 2 * M := by
      have := mul_le_mul hba hf1 hf0 (by linarith)
      linarith
    have := mul_le_mul q1 hF (abs_nonneg _) (by linarith)
    linarith
  unfold lerpR
  rw [r6, hP]
  set P := (b - a) * f * (N / (1 + e2)) with hPd
  have hsum : |a + P| ≤ M + 12 * R.u * M := by
    have : a + P = (a + (b - a) * f) + (P - (b - a) * f) := by ring
    rw [this]
    exact le_trans (abs_add_le _ _) (add_le_add hmid hdiff)
  have hfin : (a + P) * (1 + e6) - (a + (b - a) * f) = (P - (b - a) * f) + (a + P) * e6 := by ring
  rw [hfin]
  refine le_trans (abs_add_le _ _) ?_
  rw [abs_mul]
  have h7 : |a + P| * |e6| ≤ (M + 12 * R.u * M) * R.u := mul_le_mul hsum b6 (abs_nonneg _) (by
    have := mul_nonneg hu0 hM
    linarith)
  have h8 : (M + 12 * R.u * M) * R.u ≤ 2 * R.u * M := by
    have h9 : 12 * R.u * (R.u * M) ≤ 12 / 16 * (R.u * M) := by
      have := mul_le_mul_of_nonneg_right hu (mul_nonneg hu0 hM)
      linarith
    have := mul_nonneg hu0 hM
    nlinarith
  linarith

theorem lerpR_mono {a b t0 t1 s t : K} (h01 : t0 < t1) (hab : a ≤ b) (hst : s ≤ t) : lerpR R a b t0 t1 s ≤ lerpR R a b t0 t1 t := by
  have h1 : 0 ≤ R.rd (R.rd (b - a) / R.rd (t1 - t0)) :=
    rd_ge0 R (div_nonneg (rd_ge0 R (by linarith)) (rd_ge0 R (by linarith)))
  exact R.mono (add_le_add_right (R.mono (mul_le_mul_of_nonneg_left (R.mono (by linarith)) h1)) _)

theorem lerpR_anti {a b t0 t1 s t : K} (h01 : t0 < t1) (hab : b ≤ a) (hst : s ≤ t) : lerpR R a b t0 t1 t ≤ lerpR R a b t0 t1 s := by
  have hneg : R.rd (b - a) ≤ 0 := by
    have := R.mono (show b - a ≤ 0 by linarith)
    rwa [rd0 R] at this
  have h1 : R.rd (R.rd (b - a) / R.rd (t1 - t0)) ≤ 0 := by
    have := R.mono (div_nonpos_of_nonpos_of_nonneg hneg (rd_ge0 R (show 0 ≤ t1 - t0 by linarith)))
    rwa [rd0 R] at this
  exact R.mono (add_le_add_right (R.mono (mul_le_mul_of_nonpos_left (R.mono (by linarith)) h1)) _)

theorem lerpR_start {a b t0 t1 : K} (ha : R.rd a = a) : lerpR R a b t0 t1 t0 = a := by
  unfold lerpR
  rw [sub_self, rd0 R, mul_zero, rd0 R, add_zero, ha]

theorem lerpR_rest {a t0 t1 t : K} (ha : R.rd a = a) : lerpR R a a t0 t1 t = a := by
  unfold lerpR
  rw [sub_self, rd0 R, zero_div, rd0 R, zero_mul, rd0 R, add_zero, ha]

end

/-! ## Without rounding -/

/-- A segment of `Verif.ScanPath.Model`. -/
def SegR.of (s : ScanPath.Segment) : SegR ℝ := ⟨s.endTime, s.power, s.endPoint⟩

theorem seekR_search (pre rest : List ScanPath.Segment) (t : ℝ) :
    seekR t (pre.getLast?.map SegR.of) (rest.map SegR.of) =
      (ScanPath.search (pre ++ rest) t pre.length).bind fun i => (pre ++ rest)[i]?.map fun s =>
        (if i = 0 then none else (pre ++ rest)[i - 1]?.map SegR.of, SegR.of s) := by
  induction rest generalizing pre with
  | nil =>
    rw [ScanPath.search, dif_neg (by simp)]
    rfl
  | cons s rest ih =>
    have hlen : pre.length < (pre ++ s :: rest).length := by simp
    have hget : (pre ++ s :: rest)[pre.length] = s := by simp
    rw [ScanPath.search, dif_pos hlen, hget]
    simp only [List.map_cons, seekR]
    by_cases h : t > s.endTime
    · have h' : t > (SegR.of s).endTime := h
      rw [if_pos h, if_pos h']
      have := ih (pre ++ [s])
      rw [List.append_assoc, List.singleton_append, List.length_append, List.length_singleton, List.getLast?_append] at this
      simpa using this
    · have h' : ¬ t > (SegR.of s).endTime := h
      rw [if_neg h, if_neg h']
      simp only [Option.bind_some, List.getElem?_eq_getElem hlen, hget, Option.map_some, Option.some.injEq, Prod.mk.injEq, and_true]
      cases hp : pre.length with
      | zero =>
        have : pre = [] := List.length_eq_zero_iff.1 hp
        subst this
        simp
      | succ n =>
        rw [if_neg (by omega), List.getElem?_append_left (by omega), List.getLast?_eq_getElem?, hp]

/-- Without rounding this is the position of `Verif.ScanPath.Model`. -/
theorem valueR_exact (segs : List ScanPath.Segment) (five b : Bool) (t : ℝ) :
    valueR (Rounding.exact ℝ) (segs.map SegR.of) t = (ScanPath.value (ScanPath.fresh segs five) t b).1 := by
  have h := seekR_search [] segs t
  simp only [List.getLast?_nil, Option.map_none, List.nil_append, List.length_nil] at h
  unfold valueR ScanPath.value ScanPath.current
  rw [h, List.getLast?_map]
  simp only [ScanPath.fresh]
  cases hl : segs.getLast? with
  | none => rfl
  | some l =>
    simp only [Option.map_some]
    by_cases ht : t > l.endTime
    · have ht' : t > (SegR.of l).endTime := ht
      rw [if_pos ht, if_pos ht']
    · have ht' : ¬ t > (SegR.of l).endTime := ht
      rw [if_neg ht, if_neg ht']
      cases hs : ScanPath.search segs t 0 with
      | none => rfl
      | some i =>
        simp only [Option.bind_some]
        cases hi : segs[i]? with
        | none => rfl
        | some s =>
          simp only [Option.map_some]
          have hst : startR (if i = 0 then none else segs[i - 1]?.map SegR.of) (SegR.of s) =
              ((ScanPath.segStart segs i s).1, (ScanPath.segStart segs i s).2.1) := by
            cases i with
            | zero => rfl
            | succ j =>
              simp only [ScanPath.segStart, Nat.add_sub_cancel]
              rw [if_neg (by omega)]
              cases segs[j]? <;> rfl
          rw [hst]
          by_cases h0 : s.endTime - (ScanPath.segStart segs i s).1 = 0
          · have h0' : (Rounding.exact ℝ).rd ((SegR.of s).endTime - (ScanPath.segStart segs i s).1) = 0 := h0
            refine (if_pos h0').trans (Eq.symm ?_)
            exact (congrArg Prod.fst (if_pos h0)).trans rfl
          · have h0' : ¬ (Rounding.exact ℝ).rd ((SegR.of s).endTime - (ScanPath.segStart segs i s).1) = 0 := h0
            refine (if_neg h0').trans (Eq.symm ?_)
            exact (congrArg Prod.fst (if_neg h0)).trans rfl

/-! ## Theorems -/

section
variable (R : Rounding K) (dist : Pt3 K → Pt3 K → K) (ds vs : K)

/-- **C132**, loading: a segment file that starts with a point, has no negative dwell time and no speed zero loads into one segment per
record, in order, with the power of the record and its scaled position; the end times are numbers of the format, not negative and in
order, and the `i`-th differs from the sum of the durations of the records by at most `i` rounding errors. -/
theorem C132_load (r0 : RecR K) (rest : List (RecR K)) (hp : r0.line = false) (h0 : R.rd r0.param = r0.param)
    (hdwell : ∀ r ∈ r0 :: rest, r.line = false → 0 ≤ r.param)
    (hspeed : ∀ r ∈ r0 :: rest, r.line = true → R.rd (r.param * vs) ≠ 0) :
    ∃ segs, loadR R dist ds vs none (r0 :: rest) = some segs ∧ segs.length = (r0 :: rest).length ∧ Ordered segs ∧
      (∀ s ∈ segs, 0 ≤ s.endTime ∧ R.rd s.endTime = s.endTime) ∧
      ∀ i r, (r0 :: rest)[i]? = some r → ∃ s, segs[i]? = some s ∧ s.power = r.power ∧
        s.endPoint = ⟨R.rd (r.pos.x * ds), R.rd (r.pos.y * ds), R.rd (r.pos.z * ds)⟩ ∧
        let T := ((durations R dist ds vs none (r0 :: rest)).take (i + 1)).sum
        (1 - R.u) ^ i * T ≤ s.endTime ∧ s.endTime ≤ (1 + R.u) ^ i * T := by
  let s : SegR K := ⟨r0.param, r0.power, scaleR R ds r0.pos⟩
  have hr0 : 0 ≤ r0.param := hdwell r0 (by simp) hp
  have hs : loadR R dist ds vs none (r0 :: rest) = (loadR R dist ds vs (some s) rest).map (s :: ·) := by
    rw [loadR]
    simp [hp, s]
  have hdur : durations R dist ds vs none (r0 :: rest) = r0.param :: durations R dist ds vs (some s.endPoint) rest := by
    rw [durations]; simp [hp, s]
  obtain ⟨segs, h1, h2, h3, h4, h5⟩ := loadR_spec (R := R) (dist := dist) (ds := ds) (vs := vs) s hr0 h0 rest
    (fun r hr => hdwell r (by simp [hr])) (fun r hr => hspeed r (by simp [hr])) r0.param 0 (by simp [s]) hr0
  refine ⟨s :: segs, by rw [hs, h1]; rfl, by simp [h2], List.Pairwise.cons (fun s' h => (h3 s' h).1) h4, ?_, ?_⟩
  · intro s' hs'
    rcases List.mem_cons.1 hs' with rfl | h
    · exact ⟨hr0, h0⟩
    · exact ⟨le_trans hr0 (h3 s' h).1, (h3 s' h).2⟩
  · intro i r hi
    rw [hdur]
    cases i with
    | zero =>
      simp only [List.getElem?_cons_zero, Option.some.injEq] at hi
      subst hi
      exact ⟨s, rfl, rfl, rfl, by simp [s]⟩
    | succ i =>
      simp only [List.getElem?_cons_succ] at hi
      obtain ⟨s', a1, a2, a3, a4, a5⟩ := h5 i r hi
      refine ⟨s', by simpa using a1, a2, a3, ?_⟩
      simp only [List.take_succ_cons, List.sum_cons]
      rw [zero_add] at a4 a5
      exact ⟨a4, a5⟩

/-- One coordinate `x` of the computed position on the way from `a` to `b`, of which the fraction `f` is done. -/
structure Coordinate (u a b f x : K) : Prop where
  /-- close to the exact position -/
  near : |x - (a + (b - a) * f)| ≤ 14 * u * max |a| |b|
  /-- not before the start -/
  up : a ≤ b → a ≤ x
  down : b ≤ a → x ≤ a
  /-- a coordinate that does not change stays the same to the last bit -/
  rest : a = b → x = a

/-- **C132**, position and power on the segment from record `i` to record `i + 1`: the power is that of record `i + 1`; every coordinate
is within 14 rounding errors of the exact position, not before the start of the segment, and exact if it does not change; there is no
division by zero. -/
theorem C132_position (segs : List (SegR K)) (ho : Ordered segs) (hu : R.u ≤ 1 / 16) (i : ℕ) (p s : SegR K)
    (hp : segs[i]? = some p) (hs : segs[i + 1]? = some s)
    (hpt : R.rd p.endPoint.x = p.endPoint.x ∧ R.rd p.endPoint.y = p.endPoint.y ∧ R.rd p.endPoint.z = p.endPoint.z)
    (t : K) (h0 : p.endTime < t) (h1 : t ≤ s.endTime) :
    powerR segs t = .value s.power ∧
    ∃ q, valueR R segs t = .value q ∧
      let f := (t - p.endTime) / (s.endTime - p.endTime)
      Coordinate R.u p.endPoint.x s.endPoint.x f q.x ∧ Coordinate R.u p.endPoint.y s.endPoint.y f q.y ∧
      Coordinate R.u p.endPoint.z s.endPoint.z f q.z := by
  have hseek := seekR_at segs ho t none (i + 1) s hs h1 (by
    intro j hj p' hp'
    have : j = i := by omega
    subst this
    rw [hp] at hp'
    cases hp'
    exact h0)
  rw [if_neg (by omega), Nat.add_sub_cancel, hp] at hseek
  obtain ⟨l, hl, hle⟩ := last_ge segs ho (i + 1) s hs
  have hnl : ¬ t > l.endTime := not_lt.2 (le_trans h1 hle)
  have h01 : p.endTime < s.endTime := lt_of_lt_of_le h0 h1
  have hne : R.rd (s.endTime - p.endTime) ≠ 0 := (rd_gt0 R (by linarith)).ne'
  constructor
  · unfold powerR
    rw [hl]
    simp only [if_neg hnl, hseek]
  · refine ⟨_, by unfold valueR; rw [hl]; simp only [if_neg hnl, hseek, startR]; exact if_neg hne, ?_⟩
    have coord : ∀ a b : K, R.rd a = a → Coordinate R.u a b ((t - p.endTime) / (s.endTime - p.endTime))
        (lerpR R a b p.endTime s.endTime t) := by
      intro a b ha
      refine ⟨lerpR_err hu h01 h0.le h1 (le_max_left _ _) (le_max_right _ _), fun h => ?_, fun h => ?_, fun h => ?_⟩
      · have := lerpR_mono (R := R) h01 h h0.le
        rwa [lerpR_start ha] at this
      · have := lerpR_anti (R := R) h01 h h0.le
        rwa [lerpR_start ha] at this
      · rw [← h]; exact lerpR_rest ha
    exact ⟨coord _ _ hpt.1, coord _ _ hpt.2.1, coord _ _ hpt.2.2⟩

/-- **C132**, no step back: within a segment no coordinate of the computed position ever moves against the direction of the segment. -/
theorem C132_forward (segs : List (SegR K)) (ho : Ordered segs) (i : ℕ) (p s : SegR K)
    (hp : segs[i]? = some p) (hs : segs[i + 1]? = some s) (t t' : K) (h0 : p.endTime < t) (htt : t ≤ t') (h1 : t' ≤ s.endTime) :
    ∃ q q', valueR R segs t = .value q ∧ valueR R segs t' = .value q' ∧
      (p.endPoint.x ≤ s.endPoint.x → q.x ≤ q'.x) ∧ (s.endPoint.x ≤ p.endPoint.x → q'.x ≤ q.x) ∧
      (p.endPoint.y ≤ s.endPoint.y → q.y ≤ q'.y) ∧ (s.endPoint.y ≤ p.endPoint.y → q'.y ≤ q.y) ∧
      (p.endPoint.z ≤ s.endPoint.z → q.z ≤ q'.z) ∧ (s.endPoint.z ≤ p.endPoint.z → q'.z ≤ q.z) := by
  have h01 : p.endTime < s.endTime := by linarith
  have hne : R.rd (s.endTime - p.endTime) ≠ 0 := (rd_gt0 R (by linarith)).ne'
  obtain ⟨l, hl, hle⟩ := last_ge segs ho (i + 1) s hs
  have hval : ∀ t, p.endTime < t → t ≤ s.endTime → valueR R segs t = .value
      ⟨lerpR R p.endPoint.x s.endPoint.x p.endTime s.endTime t, lerpR R p.endPoint.y s.endPoint.y p.endTime s.endTime t,
        lerpR R p.endPoint.z s.endPoint.z p.endTime s.endTime t⟩ := by
    intro t h0 h1
    have hseek := seekR_at segs ho t none (i + 1) s hs h1 (by
      intro j hj p' hp'
      have : j = i := by omega
      subst this
      rw [hp] at hp'
      cases hp'
      exact h0)
    rw [if_neg (by omega), Nat.add_sub_cancel, hp] at hseek
    have hnl : ¬ t > l.endTime := not_lt.2 (le_trans h1 hle)
    unfold valueR
    rw [hl]
    simp only [if_neg hnl, hseek, startR]
    exact if_neg hne
  exact ⟨_, _, hval t h0 (by linarith), hval t' (by linarith) h1, fun h => lerpR_mono h01 h htt, fun h => lerpR_anti h01 h htt,
    fun h => lerpR_mono h01 h htt, fun h => lerpR_anti h01 h htt, fun h => lerpR_mono h01 h htt, fun h => lerpR_anti h01 h htt⟩

/-- **C132**, before and after: up to the end of the first record the beam is exactly at its point, with its power; after the last record
it is out of the domain with power zero. -/
theorem C132_ends (segs : List (SegR K)) (ho : Ordered segs) (s l : SegR K) (hs : segs[0]? = some s) (hl : segs.getLast? = some l)
    (hpt : R.rd s.endPoint.x = s.endPoint.x ∧ R.rd s.endPoint.y = s.endPoint.y ∧ R.rd s.endPoint.z = s.endPoint.z)
    (hs0 : 0 < s.endTime) (t : K) :
    (t ≤ s.endTime → valueR R segs t = .value s.endPoint ∧ powerR segs t = .value s.power) ∧
    (l.endTime < t → valueR R segs t = .outOfDomain ∧ powerR segs t = .value 0) := by
  constructor
  · intro h1
    have hseek := seekR_at segs ho t none 0 s hs h1 (by intro j hj; omega)
    rw [if_pos rfl] at hseek
    obtain ⟨l', hl', hle⟩ := last_ge segs ho 0 s hs
    have hnl : ¬ t > l'.endTime := not_lt.2 (le_trans h1 hle)
    have hne : R.rd (s.endTime - 0) ≠ 0 := (rd_gt0 R (by linarith)).ne'
    unfold valueR powerR
    rw [hl']
    simp only [if_neg hnl, hseek, startR, if_neg hne, lerpR_rest hpt.1, lerpR_rest hpt.2.1, lerpR_rest hpt.2.2, and_self]
  · intro h
    unfold valueR powerR
    rw [hl]
    simp only [if_pos h, and_self]

end

/-! ## Examples and refutations -/

/-- From the origin to `x = b` in `w` seconds after one second of dwelling. -/
def straight (b w : ℚ) : List (SegR ℚ) := [⟨1, 0, ⟨0, 0, 0⟩⟩, ⟨1 + w, 1, ⟨b, 0, 0⟩⟩]

/-- Such a path meets the hypotheses of `C132_position`, `C132_forward` and `C132_ends`. -/
example : Ordered (straight 7 25) ∧ double.u ≤ 1 / 16 ∧ double.rd 0 = 0 ∧ (straight 7 25)[0]? = some ⟨1, 0, ⟨0, 0, 0⟩⟩ ∧
    (straight 7 25)[1]? = some ⟨1 + 25, 1, ⟨7, 0, 0⟩⟩ := by
  refine ⟨?_, by norm_num [double, binary], rd0 double, rfl, rfl⟩
  simp [Ordered, straight]

/-- A file that meets the hypotheses of `C132_load`. -/
example : let r0 : RecR ℚ := ⟨false, ⟨0, 0, 0⟩, 0, 1⟩
    let rest : List (RecR ℚ) := [⟨true, ⟨7, 0, 0⟩, 1, 1 / 4⟩]
    r0.line = false ∧ double.rd r0.param = r0.param ∧ (∀ r ∈ r0 :: rest, r.line = false → 0 ≤ r.param) ∧
      ∀ r ∈ r0 :: rest, r.line = true → double.rd (r.param * 1) ≠ 0 := by
  intro r0 rest
  refine ⟨rfl, round_fixed 53 (by norm_num) (1 : ℚ) ⟨1, 0, by norm_num, by norm_num⟩, ?_, ?_⟩
  · intro r hr _
    simp only [r0, rest, List.mem_cons, List.not_mem_nil, or_false] at hr
    rcases hr with rfl | rfl <;> norm_num
  · intro r hr hl
    simp only [r0, rest, List.mem_cons, List.not_mem_nil, or_false] at hr
    rcases hr with rfl | rfl
    · cases hl
    · exact (rd_gt0 double (by norm_num)).ne'

theorem straight_end (b w q x : ℚ) (hw : 0 < w) (hrw : double.rd w = w) (hb : double.rd b = b) (hq : double.rd (b / w) = q)
    (hx : double.rd (q * w) = x) : valueR double (straight b w) (1 + w) = .value ⟨x, 0, 0⟩ := by
  have hl : (straight b w).getLast? = some ⟨1 + w, 1, ⟨b, 0, 0⟩⟩ := rfl
  have hseek : seekR (1 + w) none (straight b w) = some (some ⟨1, 0, ⟨0, 0, 0⟩⟩, ⟨1 + w, 1, ⟨b, 0, 0⟩⟩) := by
    simp only [straight, seekR]
    rw [if_pos (by linarith), if_neg (lt_irrefl _)]
  unfold valueR
  rw [hl]
  simp only [if_neg (lt_irrefl (1 + w)), hseek, startR, lerpR, add_sub_cancel_left, hrw, if_neg hw.ne', sub_zero, hb, hq, hx, sub_self,
    rd0 double, zero_div, zero_mul, zero_add, Answer.value.injEq, Pt3.mk.injEq, and_true]
  rw [← hx, double.idem]

/-- **C132** is false at the ends: in double arithmetic a beam sent from 0 to 7 m in 25 s ends behind its goal, at `7 + 2^-50` m. -/
theorem C132_overshoot_refuted : valueR double (straight 7 25) 26 = .value ⟨7 + 1 / 2 ^ 50, 0, 0⟩ := by
  have hq : double.rd ((7 : ℚ) / 25) = 5044031582654956 / 2 ^ 54 := by
    change round 53 _ = _
    rw [round_eval 53 _ (-2) 5044031582654956 (by norm_num) (by norm_num) (by norm_num [nearestEven])]
    norm_num
  have hx : double.rd (5044031582654956 / 2 ^ 54 * 25) = 7 + 1 / 2 ^ 50 := by
    change round 53 _ = _
    rw [round_eval 53 _ 2 7881299347898369 (by norm_num) (by norm_num) (by norm_num [nearestEven])]
    norm_num
  have := straight_end 7 25 _ _ (by norm_num) (round_fixed 53 (by norm_num) (25 : ℚ) ⟨25, 0, by norm_num, by norm_num⟩)
    (round_fixed 53 (by norm_num) (7 : ℚ) ⟨7, 0, by norm_num, by norm_num⟩) hq hx
  rwa [show (1 : ℚ) + 25 = 26 by norm_num] at this

/-- **C132** is false at the ends: a beam sent from 0 to 1 m in 49 s never gets there; at the end it is at `1 - 2^-53` m, from where the next
segment makes it jump. -/
theorem C132_end_refuted : valueR double (straight 1 49) 50 = .value ⟨1 - 1 / 2 ^ 53, 0, 0⟩ := by
  have hq : double.rd ((1 : ℚ) / 49) = 5882252574524729 / 2 ^ 58 := by
    change round 53 _ = _
    rw [round_eval 53 _ (-6) 5882252574524729 (by norm_num) (by norm_num) (by norm_num [nearestEven])]
    norm_num
  have hx : double.rd (5882252574524729 / 2 ^ 58 * 49) = 1 - 1 / 2 ^ 53 := by
    change round 53 _ = _
    rw [round_eval 53 _ (-1) 9007199254740991 (by norm_num) (by norm_num) (by norm_num [nearestEven])]
    norm_num
  have := straight_end 1 49 _ _ (by norm_num) (round_fixed 53 (by norm_num) (49 : ℚ) ⟨49, 0, by norm_num, by norm_num⟩)
    (round_fixed 53 (by norm_num) (1 : ℚ) ⟨1, 0, by norm_num, by norm_num⟩) hq hx
  rwa [show (1 : ℚ) + 49 = 50 by norm_num] at this

end Verif.Float
