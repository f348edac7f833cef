import Verif.HeatSource.Model
import Verif.ScanPath.QueryLemmas

/-!
# What `update_time` stores
-/

namespace Verif.HeatSource

open Verif.Quat Verif.ScanPath

/-- Two path objects that answer queries at time `t` in the same way. -/
structure SameAt (P P' : Path) (t : ℝ) : Prop where
  segs : P'.segs = P.segs
  five : P'.fiveAxis = P.fiveAxis
  cur : current P' t = current P t

theorem SameAt.refl (P : Path) (t : ℝ) : SameAt P P t := ⟨rfl, rfl, rfl⟩

theorem SameAt.trans {P P' P'' : Path} {t : ℝ} (h : SameAt P P' t) (h' : SameAt P' P'' t) : SameAt P P'' t :=
  ⟨h'.segs.trans h.segs, h'.five.trans h.five, h'.cur.trans h.cur⟩

theorem sameAt_save {P : Path} {t : ℝ} {i : ℕ} {s : Segment} (h : current P t = some (i, s)) (b : Bool) :
    SameAt P (P.save b i) t := by
  cases b with
  | false => exact SameAt.refl P t
  | true =>
    refine ⟨rfl, rfl, ?_⟩
    obtain ⟨hs, hg⟩ := current_some h
    obtain ⟨_, hk, ht, _⟩ := search_some hs
    have : search P.segs t i = some i := search_intro le_rfl hk ht (by intro j hj hj1 hj2; omega)
    rw [h]
    unfold current
    show (match search P.segs t i with | none => none | some i => (P.segs[i]?).map fun s => (i, s)) = _
    rw [this]
    simp [hg]

theorem SameAt.value {P P' : Path} {t : ℝ} (h : SameAt P P' t) (b b' : Bool) :
    (ScanPath.value P' t b').1 = (ScanPath.value P t b).1 := by
  unfold ScanPath.value
  rw [h.segs, h.cur]
  cases P.segs.getLast? with
  | none => rfl
  | some l =>
    simp only
    split
    · rfl
    · cases current P t with
      | none => rfl
      | some x =>
        obtain ⟨i, s⟩ := x
        simp only
        split <;> rfl

theorem SameAt.quaternion {P P' : Path} {t : ℝ} (h : SameAt P P' t) :
    ScanPath.quaternion P' t = ScanPath.quaternion P t := by
  unfold ScanPath.quaternion
  rw [h.segs, h.cur, h.five]

theorem SameAt.rotatePoint {P P' : Path} {t : ℝ} (h : SameAt P P' t) (p : Pt3 ℝ) :
    ScanPath.rotatePoint P' t p = ScanPath.rotatePoint P t p := by
  unfold ScanPath.rotatePoint
  rw [h.segs, h.quaternion]

theorem sameAt_value (P : Path) (t : ℝ) (b : Bool) : SameAt P (ScanPath.value P t b).2 t := by
  unfold ScanPath.value
  cases P.segs.getLast? with
  | none => exact SameAt.refl P t
  | some l =>
    simp only
    split
    · exact SameAt.refl P t
    · cases hc : current P t with
      | none => exact SameAt.refl P t
      | some x =>
        obtain ⟨i, s⟩ := x
        simp only
        split <;> exact sameAt_save hc b

theorem sameAt_power (P : Path) (t : ℝ) : SameAt P (powerModifier P t).2 t := by
  unfold powerModifier
  cases P.segs.getLast? with
  | none => exact SameAt.refl P t
  | some l =>
    simp only
    split
    · exact SameAt.refl P t
    · cases hc : current P t with
      | none => exact SameAt.refl P t
      | some x =>
        obtain ⟨i, s⟩ := x
        exact sameAt_save hc true

/-- What a successful `update_time` stores, in terms of the queries on the path before the call. -/
theorem updateTime_spec {s s' : Source} {t : ℝ} (h : s.updateTime t = some s') :
    ∃ m : ℝ, (powerModifier s.path t).1 = .value m ∧ s'.kind = s.kind ∧ s'.props = s.props ∧
      s'.fiveAxis = s.fiveAxis ∧ (s'.sourceOn = true ↔ 0 < m) ∧
      s'.center = (ScanPath.value s.path t false).1 ∧ s'.quat = ScanPath.quaternion s.path t ∧
      s'.alpha = coefficient s.kind s.props m ∧ s'.depth = s.props.depth ∧ s'.radiusSq = s.props.radiusSq ∧
      SameAt s.path s'.path t := by
  unfold Source.updateTime at h
  cases hp : powerModifier s.path t with
  | mk a path1 =>
    rw [hp] at h
    cases a with
    | value m =>
      simp only [Option.some.injEq] at h
      subst h
      have h1 : SameAt s.path path1 t := by
        have := sameAt_power s.path t
        rw [hp] at this
        exact this
      have h2 := h1.trans (sameAt_value path1 t true)
      exact ⟨m, rfl, rfl, rfl, rfl, by simp, h1.value false true, h2.quaternion, rfl, rfl, rfl, h2⟩
    | outOfDomain => exact absurd h (by simp)
    | nan => exact absurd h (by simp)
    | ub => exact absurd h (by simp)

/-- The power of a query is non-negative if every record's power is, and zero after the end. -/
theorem power_nonneg {P : Path} {t m : ℝ} (hp : ∀ g ∈ P.segs, 0 ≤ g.power)
    (h : (powerModifier P t).1 = .value m) : 0 ≤ m := by
  unfold powerModifier at h
  cases hl : P.segs.getLast? with
  | none => rw [hl] at h; cases h
  | some l =>
    rw [hl] at h
    simp only at h
    split at h
    · injection h with h; exact h.le
    · cases hc : current P t with
      | none => rw [hc] at h; cases h
      | some x =>
        obtain ⟨i, g⟩ := x
        rw [hc] at h
        injection h with h
        rw [← h]
        apply hp
        exact List.mem_of_getElem? (current_some hc).2

end Verif.HeatSource
