import Verif.ScanPath.Spec
import Mathlib.Tactic.Linarith
import Mathlib.Tactic.Ring
import Mathlib.Tactic.NormNum
import Mathlib.Tactic.FieldSimp
import Mathlib.Data.List.Basic

/-! Helper lemmas about the segment search and the cached index. -/

namespace Verif.ScanPath

open Verif.Quat

/-- What the `while` loop finds. -/
theorem search_some {segs : List Segment} {t : ℝ} {i k : ℕ} (h : search segs t i = some k) :
    i ≤ k ∧ ∃ hk : k < segs.length, t ≤ segs[k].endTime ∧
      ∀ j (hj : j < segs.length), i ≤ j → j < k → segs[j].endTime < t := by
  fun_induction search segs t i with
  | case1 i hi ht ih =>
    obtain ⟨h1, hk, h2, h3⟩ := ih h
    refine ⟨by omega, hk, h2, fun j hj hij hjk => ?_⟩
    rcases Nat.eq_or_lt_of_le hij with rfl | h'
    · exact ht
    · exact h3 j hj (by omega) hjk
  | case2 i hi ht =>
    cases h
    exact ⟨le_refl _, hi, not_lt.mp ht, fun j hj h1 h2 => by omega⟩
  | case3 i hi => cases h

theorem search_intro {segs : List Segment} {t : ℝ} {i k : ℕ} (hik : i ≤ k) (hk : k < segs.length)
    (ht : t ≤ segs[k].endTime) (hb : ∀ j (hj : j < segs.length), i ≤ j → j < k → segs[j].endTime < t) :
    search segs t i = some k := by
  fun_induction search segs t i with
  | case1 i hi hti ih =>
    rcases Nat.eq_or_lt_of_le hik with rfl | h'
    · exact absurd ht (not_le.mpr hti)
    · exact ih (by omega) (fun j hj h1 h2 => hb j hj (by omega) h2)
  | case2 i hi hti =>
    rcases Nat.eq_or_lt_of_le hik with rfl | h'
    · rfl
    · exact absurd (hb i hi (le_refl _) h') hti
  | case3 i hi => omega

/-- The search succeeds whenever some later segment ends at or after `t`. -/
theorem search_exists {segs : List Segment} {t : ℝ} {i k : ℕ} (hik : i ≤ k) (hk : k < segs.length)
    (ht : t ≤ segs[k].endTime) : ∃ m, search segs t i = some m := by
  fun_induction search segs t i with
  | case1 i hi hti ih =>
    rcases Nat.eq_or_lt_of_le hik with rfl | h'
    · exact absurd ht (not_le.mpr hti)
    · exact ih (by omega)
  | case2 i hi hti => exact ⟨_, rfl⟩
  | case3 i hi => omega

/-- Starting the search later does not matter if all skipped segments end before `t`. -/
theorem search_skip {segs : List Segment} {t : ℝ} {i : ℕ}
    (hb : ∀ j (hj : j < segs.length), j < i → segs[j].endTime < t) :
    search segs t i = search segs t 0 := by
  cases h : search segs t i with
  | some k =>
    obtain ⟨h1, hk, h2, h3⟩ := search_some h
    symm
    refine search_intro (Nat.zero_le _) hk h2 fun j hj _ hjk => ?_
    rcases Nat.lt_or_ge j i with h' | h'
    · exact hb j hj h'
    · exact h3 j hj h' hjk
  | none =>
    cases h0 : search segs t 0 with
    | none => rfl
    | some k =>
      obtain ⟨-, hk, h2, -⟩ := search_some h0
      rcases Nat.lt_or_ge k i with h' | h'
      · exact absurd (hb k hk h') (not_lt.mpr h2)
      · obtain ⟨m, hm⟩ := search_exists h' hk h2
        rw [h] at hm; cases hm

/-- The cached index is valid and every segment before it ended before `T`. -/
def CacheOk (P : Path) (T : ℝ) : Prop :=
  P.old ≤ P.segs.length ∧ (P.segs ≠ [] → P.old < P.segs.length) ∧
    ∀ j (hj : j < P.segs.length), j < P.old → P.segs[j].endTime < T

theorem cacheOk_fresh (segs : List Segment) (five : Bool) (T : ℝ) : CacheOk (fresh segs five) T :=
  ⟨Nat.zero_le _, fun h => List.length_pos_iff.mpr h, fun j _ hj => by simp [fresh] at hj⟩

theorem CacheOk.mono {P : Path} {S T : ℝ} (h : CacheOk P S) (hST : S ≤ T) : CacheOk P T :=
  ⟨h.1, h.2.1, fun j hj hlt => lt_of_lt_of_le (h.2.2 j hj hlt) hST⟩

/-- The cached index is valid (no claim about times). -/
def IndexOk (P : Path) : Prop := P.segs ≠ [] → P.old < P.segs.length

theorem current_some {P : Path} {t : ℝ} {i : ℕ} {s : Segment} (h : current P t = some (i, s)) :
    search P.segs t P.old = some i ∧ P.segs[i]? = some s := by
  unfold current at h
  cases hs : search P.segs t P.old with
  | none => rw [hs] at h; cases h
  | some k =>
    rw [hs] at h
    simp only [Option.map_eq_some_iff] at h
    obtain ⟨s', h1, h2⟩ := h
    cases h2
    exact ⟨rfl, h1⟩

theorem value_state (P : Path) (t : ℝ) (b : Bool) :
    (value P t b).2 = P ∨ (b = true ∧ ∃ i, search P.segs t P.old = some i ∧ (value P t b).2 = { P with old := i }) := by
  unfold value
  split
  · exact Or.inl rfl
  · split
    · exact Or.inl rfl
    · split
      · exact Or.inl rfl
      · rename_i i s hc
        have hs := (current_some hc).1
        cases b with
        | false => left; simp only; split <;> simp [Path.save]
        | true =>
          right; refine ⟨rfl, i, hs, ?_⟩
          simp only; split <;> simp [Path.save]

theorem power_state (P : Path) (t : ℝ) :
    (powerModifier P t).2 = P ∨ ∃ i, search P.segs t P.old = some i ∧ (powerModifier P t).2 = { P with old := i } := by
  unfold powerModifier
  split
  · exact Or.inl rfl
  · split
    · exact Or.inl rfl
    · split
      · exact Or.inl rfl
      · rename_i i s hc
        exact Or.inr ⟨i, (current_some hc).1, by simp [Path.save]⟩

theorem cacheOk_search {P : Path} {t T : ℝ} {i : ℕ} (h : CacheOk P T) (hs : search P.segs t P.old = some i)
    (htT : t ≤ T) : CacheOk { P with old := i } T := by
  obtain ⟨h1, hk, h2, h3⟩ := search_some hs
  refine ⟨le_of_lt hk, fun _ => hk, fun j hj hlt => ?_⟩
  rcases Nat.lt_or_ge j P.old with h' | h'
  · exact h.2.2 j hj h'
  · exact lt_of_lt_of_le (h3 j hj h' hlt) htT

theorem step_segs_query {P : Path} {c : Call} (hc : c.isQuery) : (step P c).segs = P.segs ∧
    (step P c).fiveAxis = P.fiveAxis := by
  cases c with
  | value t b => rcases value_state P t b with h | ⟨-, i, -, h⟩ <;> simp [step, h]
  | power t => rcases power_state P t with h | ⟨i, -, h⟩ <;> simp [step, h]
  | quaternion t => simp [step]
  | reread s => exact absurd hc (by simp [Call.isQuery])

theorem step_cacheOk {P : Path} {c : Call} {T : ℝ} (h : CacheOk P T)
    (hgrow : ∀ s, c = .reread s → P.segs <+: s) (ht : ∀ s, c.savedTime = some s → s ≤ T) :
    CacheOk (step P c) T := by
  cases c with
  | value t b =>
    rcases value_state P t b with h' | ⟨hb, i, hs, h'⟩
    · simpa [step, h'] using h
    · simp only [step, h']
      exact cacheOk_search h hs (ht t (by simp [Call.savedTime, hb]))
  | power t =>
    rcases power_state P t with h' | ⟨i, hs, h'⟩
    · simpa [step, h'] using h
    · simp only [step, h']
      exact cacheOk_search h hs (ht t (by simp [Call.savedTime]))
  | quaternion t => simpa [step] using h
  | reread s =>
    have hp := hgrow s rfl
    have hlen := hp.length_le
    refine ⟨?_, ?_, ?_⟩
    · simp only [step]; exact le_trans h.1 hlen
    · intro hne
      simp only [step]
      rcases List.eq_nil_or_concat P.segs with he | ⟨l, a, he⟩
      · have : P.old = 0 := by have := h.1; rw [he] at this; simpa using this
        rw [this]; exact List.length_pos_iff.mpr hne
      · have := h.2.1 (by rw [he]; simp)
        omega
    · intro j hj hlt
      simp only [step] at hj hlt ⊢
      have hj' : j < P.segs.length := lt_of_lt_of_le hlt h.1
      have := h.2.2 j hj' hlt
      rwa [hp.getElem hj'] at this

/-- Queries give the same answers in two states with the same list if the cache is fine at the query time. -/
theorem current_eq_fresh {P : Path} {t : ℝ} (h : CacheOk P t) :
    current P t = current (fresh P.segs P.fiveAxis) t := by
  unfold current
  rw [search_skip h.2.2]
  rfl

theorem value_eq_fresh {P : Path} {t : ℝ} (h : CacheOk P t) (b : Bool) :
    (value P t b).1 = (value (fresh P.segs P.fiveAxis) t b).1 := by
  have hc := current_eq_fresh h
  obtain ⟨segs, five, old⟩ := P
  unfold value
  rw [hc]
  change (match segs.getLast? with | none => _ | some l => _ : Answer (Pt3 ℝ) × Path).1 =
    (match segs.getLast? with | none => _ | some l => _ : Answer (Pt3 ℝ) × Path).1
  cases segs.getLast? with
  | none => rfl
  | some l =>
    by_cases hl : t > l.endTime
    · simp only [hl, if_true]
    · simp only [hl, if_false]
      cases current (fresh segs five) t with
      | none => rfl
      | some is =>
        obtain ⟨i, s⟩ := is
        change (if s.endTime - (segStart segs i s).1 = 0 then _ else _ : Answer (Pt3 ℝ) × Path).1 =
          (if s.endTime - (segStart segs i s).1 = 0 then _ else _ : Answer (Pt3 ℝ) × Path).1
        by_cases h0 : s.endTime - (segStart segs i s).1 = 0
        · simp only [h0, if_true]
        · simp only [h0, if_false]; rfl

theorem power_eq_fresh {P : Path} {t : ℝ} (h : CacheOk P t) :
    (powerModifier P t).1 = (powerModifier (fresh P.segs P.fiveAxis) t).1 := by
  unfold powerModifier
  rw [current_eq_fresh h]
  simp only [fresh]
  split
  · rfl
  · split
    · rfl
    · split <;> rfl

theorem quaternion_eq_fresh {P : Path} {t : ℝ} (h : CacheOk P t) :
    quaternion P t = quaternion (fresh P.segs P.fiveAxis) t := by
  unfold quaternion
  rw [current_eq_fresh h]
  rfl

theorem after_cacheOk {P : Path} {calls : List Call} {T : ℝ} (h : CacheOk P T)
    (hgrow : Growing P.segs calls) (ht : ∀ c ∈ calls, ∀ s, c.savedTime = some s → s ≤ T) :
    CacheOk (after P calls) T ∧ (after P calls).segs = listAfter P.segs calls ∧
      (after P calls).fiveAxis = P.fiveAxis := by
  induction calls generalizing P with
  | nil => exact ⟨h, rfl, rfl⟩
  | cons c rest ih =>
    have hs : CacheOk (step P c) T := by
      refine step_cacheOk h (fun s hc => ?_) (ht c (by simp))
      subst hc; exact hgrow.1
    have hrest := fun c' (hc' : c' ∈ rest) => ht c' (by simp [hc'])
    have e : after P (c :: rest) = after (step P c) rest := rfl
    rw [e]
    cases c with
    | reread s =>
      have := ih hs hgrow.2 hrest
      simpa [listAfter, step] using this
    | value t b =>
      have hq := step_segs_query (P := P) (c := .value t b) trivial
      have := ih hs (by rw [hq.1]; exact hgrow) hrest
      rw [hq.1, hq.2] at this; exact this
    | power t =>
      have hq := step_segs_query (P := P) (c := .power t) trivial
      have := ih hs (by rw [hq.1]; exact hgrow) hrest
      rw [hq.1, hq.2] at this; exact this
    | quaternion t =>
      have hq := step_segs_query (P := P) (c := .quaternion t) trivial
      have := ih hs (by rw [hq.1]; exact hgrow) hrest
      rw [hq.1, hq.2] at this; exact this

theorem growing_of_queries (segs : List Segment) (calls : List Call) (h : ∀ c ∈ calls, c.isQuery) :
    Growing segs calls ∧ listAfter segs calls = segs := by
  induction calls with
  | nil => exact ⟨trivial, rfl⟩
  | cons c rest ih =>
    have hc := h c (by simp)
    have := ih fun c' h' => h c' (by simp [h'])
    cases c with
    | reread s => exact absurd hc (by simp [Call.isQuery])
    | value t b => exact this
    | power t => exact this
    | quaternion t => exact this

/-- Index validity is kept by arbitrary queries and growing re-reads (no condition on the times). -/
theorem after_indexOk {P : Path} {calls : List Call} (h : P.old ≤ P.segs.length ∧ IndexOk P)
    (hgrow : Growing P.segs calls) :
    ((after P calls).old ≤ (after P calls).segs.length ∧ IndexOk (after P calls)) ∧
      (after P calls).segs = listAfter P.segs calls := by
  induction calls generalizing P with
  | nil => exact ⟨h, rfl⟩
  | cons c rest ih =>
    have e : after P (c :: rest) = after (step P c) rest := rfl
    rw [e]
    have upd : ∀ {t i}, search P.segs t P.old = some i →
        (({ P with old := i } : Path).old ≤ ({ P with old := i } : Path).segs.length ∧ IndexOk { P with old := i }) := by
      intro t i hs
      obtain ⟨_, hk, _, _⟩ := search_some hs
      exact ⟨le_of_lt hk, fun _ => hk⟩
    cases c with
    | reread s =>
      have hp := hgrow.1.length_le
      refine ih (P := step P (.reread s)) ⟨le_trans h.1 hp, fun hne => ?_⟩ hgrow.2
      simp only [step] at hne ⊢
      by_cases he : P.segs = []
      · have : P.old = 0 := by have := h.1; rw [he] at this; simpa using this
        rw [this]; exact List.length_pos_iff.mpr hne
      · exact lt_of_lt_of_le (h.2 he) hp
    | value t b =>
      rcases value_state P t b with h' | ⟨-, i, hs, h'⟩
      · simp only [step, h']; exact ih h hgrow
      · simp only [step, h']; exact ih (P := { P with old := i }) (upd hs) hgrow
    | power t =>
      rcases power_state P t with h' | ⟨i, hs, h'⟩
      · simp only [step, h']; exact ih h hgrow
      · simp only [step, h']; exact ih (P := { P with old := i }) (upd hs) hgrow
    | quaternion t =>
      exact ih (P := P) h hgrow

/-- With a valid cache and a non-empty list a query inside the path finds its segment. -/
theorem current_isSome {P : Path} {t : ℝ} (h : IndexOk P) {l : Segment} (hl : P.segs.getLast? = some l)
    (ht : t ≤ l.endTime) : ∃ i s, current P t = some (i, s) := by
  have hne : P.segs ≠ [] := by intro he; rw [he] at hl; cases hl
  have hlen := List.length_pos_iff.mpr hne
  have hlast : P.segs[P.segs.length - 1]'(by omega) = l := by
    rw [List.getLast?_eq_getElem?] at hl
    rw [List.getElem?_eq_getElem (by omega)] at hl
    exact Option.some.inj hl
  have hold := h hne
  obtain ⟨m, hm⟩ := search_exists (segs := P.segs) (t := t) (i := P.old) (k := P.segs.length - 1) (by omega)
    (by omega) (by rw [hlast]; exact ht)
  obtain ⟨_, hk, _, _⟩ := search_some hm
  exact ⟨m, P.segs[m], by simp [current, hm, hk]⟩

end Verif.ScanPath
