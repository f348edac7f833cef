import Verif.Material.Phase
import Verif.Float.Format
import Mathlib.Data.List.Perm.Basic
import Mathlib.Data.List.FinRange
import Mathlib.Algebra.BigOperators.Group.List.Basic
import Mathlib.Data.Real.Archimedean
import Mathlib.Tactic.FinCases

/-!
# C140: the thermal operator on the threads of the device

Model of the cell loop of `ThermalOperatorDevice::vmult_add`, `source/ThermalOperatorDevice.templates.hh:650-668`, with
`LocalThermalOperatorDevice::operator()` (`:452-505`) and `ThermalOperatorQuad::operator()` (`:323-398`), one memory access at a time.

Simplifications: the threads of one cell are one thread (they touch different entries and are joined before the integration); the
gather of `src`, the evaluation and the integration of deal.II read data that the loop does not write and are functions; what is
modelled of `distribute_local_to_global` is its contract without colouring, which is what `AdditionalData` of adamantine selects: one atomic
addition per entry of `dst`.
-/

namespace Verif.Device

open Verif.Material

/-! ## Threads with private entries and atomic sums -/

/-- The views written by the loop, by position of the quadrature point, and the destination vector, by degree of freedom. -/
inductive Loc where
  | powder (pos : ℕ)
  | liquid (pos : ℕ)
  | invRhoCp (pos : ℕ)
  | dst (g : ℕ)
  deriving DecidableEq

/-- The shared memory. -/
abbrev Memory := Loc → ℝ

/-- The accesses of a thread in the order of the statements; `add` is `Kokkos::atomic_add`. -/
inductive Code (α : Type) where
  | ret (a : α)
  | read (l : Loc) (k : ℝ → Code α)
  | write (l : Loc) (v : ℝ) (k : Code α)
  | add (l : Loc) (v : ℝ) (k : Code α)

/-- One statement after the other. -/
def Code.bind {α β : Type} : Code α → (α → Code β) → Code β
  | .ret a, f => f a
  | .read l k, f => .read l fun v => (k v).bind f
  | .write l v k, f => .write l v (k.bind f)
  | .add l v k, f => .add l v (k.bind f)

variable (plus : ℝ → ℝ → ℝ)

/-- Running a program alone; `plus` is the addition of the machine. -/
def Code.run {α : Type} : Code α → Memory → α × Memory
  | .ret a, m => (a, m)
  | .read l k, m => (k (m l)).run m
  | .write l v k, m => k.run (Function.update m l v)
  | .add l v k, m => k.run (Function.update m l (plus (m l) v))

/-- One access. -/
def Code.step {α : Type} : Code α → Memory → Code α × Memory
  | .ret a, m => (.ret a, m)
  | .read l k, m => (k (m l), m)
  | .write l v k, m => (k, Function.update m l v)
  | .add l v k, m => (k, Function.update m l (plus (m l) v))

/-- What is left of each thread. -/
abbrev Pool (n : ℕ) := Fin n → Code Unit

/-- The scheduler lets thread `i` make one access. -/
def turn {n : ℕ} (s : Pool n × Memory) (i : Fin n) : Pool n × Memory :=
  (Function.update s.1 i ((s.1 i).step plus s.2).1, ((s.1 i).step plus s.2).2)

/-- The loop under a schedule. -/
def execute {n : ℕ} (p : Pool n) (m : Memory) (schedule : List (Fin n)) : Pool n × Memory := schedule.foldl (turn plus) (p, m)

/-- All threads have ended. -/
def Ended {n : ℕ} (p : Pool n) : Prop := ∀ i, p i = .ret ()

/-! ## The cell loop -/

/-- What the loop needs to know of the point `q` of a cell: its position, its material and its temperature, interpolated from
`src`. -/
structure Point where
  pos : ℕ
  melt : Melt
  temperature : ℝ

/-- The liquid ratio at a point, `source/ThermalOperatorDevice.templates.hh:184-195`, `:211-216`. -/
noncomputable def liquidAt (p : Point) : ℝ :=
  if p.temperature < p.melt.solidus then 0
  else if p.melt.liquidus < p.temperature then 1
  else (p.temperature - p.melt.solidus) / (p.melt.liquidus - p.melt.solidus)

/-- `update_state_ratios`, `source/ThermalOperatorDevice.templates.hh:152-233`. -/
noncomputable def ratioCode (k : Kind) (p : Point) : Code Ratios :=
  match k with
  | .solid => .ret ⟨1, 0, 0⟩
  | .solidLiquid => .write (.liquid p.pos) (liquidAt p) (.ret ⟨1 - liquidAt p, liquidAt p, 0⟩)
  | .solidLiquidPowder => .read (.powder p.pos) fun w =>
      .write (.powder p.pos) (if 1 - liquidAt p < w then 1 - liquidAt p else w)
        (.write (.liquid p.pos) (liquidAt p) (.ret ⟨1 - liquidAt p - (if 1 - liquidAt p < w then 1 - liquidAt p else w), liquidAt p,
          if 1 - liquidAt p < w then 1 - liquidAt p else w⟩))

/-- One quadrature point, `source/ThermalOperatorDevice.templates.hh:330-397`: the ratios, then `get_inv_rho_cp` (`:235-276`), which stores
`inv ratios T`, then the load of `_inv_rho_cp[pos]` for `submit_gradient`. -/
noncomputable def pointCode (k : Kind) (inv : Point → Ratios → ℝ) (p : Point) : Code (Ratios × ℝ) :=
  (ratioCode k p).bind fun r => .write (.invRhoCp p.pos) (inv p r) (.read (.invRhoCp p.pos) fun v => .ret (r, v))

/-- The loop over the quadrature points. -/
noncomputable def pointsCode (k : Kind) (inv : Point → Ratios → ℝ) : List Point → Code (List (Ratios × ℝ))
  | [] => .ret []
  | p :: ps => (pointCode k inv p).bind fun r => (pointsCode k inv ps).bind fun rs => .ret (r :: rs)

/-- `distribute_local_to_global`: one atomic addition per entry. -/
def addCode : List (ℕ × ℝ) → Code Unit
  | [] => .ret ()
  | (g, v) :: l => .add (.dst g) v (addCode l)

/-- A cell: its points and what the integration makes of the submitted values, an entry of `dst` and a number for each degree of
freedom. -/
structure DCell where
  points : List Point
  integrate : List (Ratios × ℝ) → List (ℕ × ℝ)

/-- `LocalThermalOperatorDevice::operator()`, `source/ThermalOperatorDevice.templates.hh:476-504`. -/
noncomputable def cellCode (k : Kind) (inv : Point → Ratios → ℝ) (c : DCell) : Code Unit :=
  (pointsCode k inv c.points).bind fun rs => addCode (c.integrate rs)

/-- `cell_loop`, `source/ThermalOperatorDevice.templates.hh:666`. -/
noncomputable def launch (k : Kind) (inv : Point → Ratios → ℝ) (cells : List DCell) : Pool cells.length := fun i =>
  cellCode k inv (cells.get i)

/-! ## Specification -/

/-- The fractions at a point with old powder fraction `w`: the rule of C30-C32, whose NaN (solidus = liquidus = temperature) is here the
0 that `ℝ` gives to `0 / 0`. -/
noncomputable def newRatios (k : Kind) (w : ℝ) (p : Point) : Ratios :=
  phase k w ((liquidRatio p.melt p.temperature).getD 0)

theorem liquidAt_eq (p : Point) : liquidAt p = (liquidRatio p.melt p.temperature).getD 0 := by
  unfold liquidAt liquidRatio
  split_ifs with h1 h2 h3
  · rfl
  · rfl
  · rw [h3, div_zero]; rfl
  · rfl

/-- What a cell submits if the powder fractions are `old`. -/
noncomputable def submitted (k : Kind) (inv : Point → Ratios → ℝ) (old : ℕ → ℝ) (c : DCell) : List (Ratios × ℝ) :=
  c.points.map fun p => (newRatios k (old p.pos) p, inv p (newRatios k (old p.pos) p))

/-- The numbers that a cell adds to entry `g`. -/
noncomputable def contributions (k : Kind) (inv : Point → Ratios → ℝ) (old : ℕ → ℝ) (g : ℕ) (c : DCell) : List ℝ :=
  ((c.integrate (submitted k inv old c)).filter fun e => e.1 = g).map Prod.snd

/-- `local_q_point_id`: points have different positions, within a cell and in different cells. -/
def OwnPositions (cells : List DCell) : Prop :=
  (cells.flatMap fun c => c.points.map Point.pos).Nodup

/-! ## Proofs: private entries and sums -/

/-- Reads and writes are in `S`, additions go to entries of `dst`. -/
def Code.Within {α : Type} (S : Loc → Prop) : Code α → Prop
  | .ret _ => True
  | .read l k => S l ∧ ∀ v, (k v).Within S
  | .write l _ k => S l ∧ k.Within S
  | .add l _ k => (∃ g, l = .dst g) ∧ k.Within S

/-- What a program that runs alone adds to `l`. -/
def Code.added {α : Type} (l : Loc) : Code α → Memory → List ℝ
  | .ret _, _ => []
  | .read l' k, m => (k (m l')).added l m
  | .write l' v k, m => k.added l (Function.update m l' v)
  | .add l' v k, m => if l' = l then v :: k.added l m else k.added l m

theorem within_bind {α β : Type} (S : Loc → Prop) (p : Code α) (f : α → Code β) (hp : p.Within S) (hf : ∀ a, (f a).Within S) :
    (p.bind f).Within S := by
  induction p with
  | ret a => exact hf a
  | read l k ih => exact ⟨hp.1, fun v => ih v (hp.2 v)⟩
  | write l v k ih => exact ⟨hp.1, ih hp.2⟩
  | add l v k ih => exact ⟨hp.1, ih hp.2⟩

theorem run_bind {α β : Type} (p : Code α) (f : α → Code β) (m : Memory) :
    (p.bind f).run plus m = (f (p.run plus m).1).run plus (p.run plus m).2 := by
  induction p generalizing m with
  | ret a => rfl
  | read l k ih => exact ih _ _
  | write l v k ih => exact ih _
  | add l v k ih => exact ih _

/-- Two memories that agree on `S`, which has no entry of `dst`. -/
theorem run_congr {α : Type} (S : Loc → Prop) (hS : ∀ g, ¬ S (.dst g)) (p : Code α) (hp : p.Within S) (m m' : Memory)
    (h : ∀ l, S l → m l = m' l) :
    (p.run plus m).1 = (p.run plus m').1 ∧ (∀ l, S l → (p.run plus m).2 l = (p.run plus m').2 l) ∧
      ∀ g, p.added (.dst g) m = p.added (.dst g) m' := by
  induction p generalizing m m' with
  | ret a => exact ⟨rfl, h, fun _ => rfl⟩
  | read l k ih =>
    simp only [Code.run, Code.added]
    rw [h l hp.1]
    exact ih _ (hp.2 _) m m' h
  | write l v k ih =>
    refine ih hp.2 _ _ fun l' hl' => ?_
    by_cases e : l' = l
    · subst e; simp
    · rw [Function.update_of_ne e, Function.update_of_ne e, h l' hl']
  | add l v k ih =>
    obtain ⟨⟨g', rfl⟩, hk⟩ := hp
    have hne : ∀ l', S l' → l' ≠ .dst g' := fun l' hl' e => hS g' (e ▸ hl')
    obtain ⟨a1, a2, -⟩ := ih hk (Function.update m (.dst g') (plus (m (.dst g')) v))
      (Function.update m' (.dst g') (plus (m' (.dst g')) v)) fun l' hl' => by
        rw [Function.update_of_ne (hne l' hl'), Function.update_of_ne (hne l' hl'), h l' hl']
    obtain ⟨-, -, a3⟩ := ih hk m m' h
    refine ⟨a1, a2, fun g => ?_⟩
    simp only [Code.added, a3 g]

theorem step_spec {α : Type} (S : Loc → Prop) (hS : ∀ g, ¬ S (.dst g)) (p : Code α) (hp : p.Within S) (m : Memory) :
    (p.step plus m).1.Within S ∧ (∀ l, ¬ S l → (∀ g, l ≠ .dst g) → (p.step plus m).2 l = m l) ∧
    ∀ g, ∃ d : List ℝ, (p.step plus m).2 (.dst g) = d.foldl plus (m (.dst g)) ∧
      p.added (.dst g) m = d ++ (p.step plus m).1.added (.dst g) (p.step plus m).2 := by
  cases p with
  | ret a => exact ⟨trivial, fun _ _ _ => rfl, fun g => ⟨[], rfl, rfl⟩⟩
  | read l k => exact ⟨hp.2 _, fun _ _ _ => rfl, fun g => ⟨[], rfl, rfl⟩⟩
  | write l v k =>
    have hd : ∀ g, Loc.dst g ≠ l := fun g e => hS g (by rw [e]; exact hp.1)
    exact ⟨hp.2, fun l' h _ => Function.update_of_ne (fun e => h (by rw [e]; exact hp.1)) _ _, fun g =>
      ⟨[], by simp [Code.step, Function.update_of_ne (hd g)], by simp [Code.step, Code.added]⟩⟩
  | add l v k =>
    obtain ⟨⟨g', rfl⟩, hk⟩ := hp
    refine ⟨hk, fun l' h h' => Function.update_of_ne (h' g') _ _, fun g => ?_⟩
    have hc : k.added (.dst g) (Function.update m (.dst g') (plus (m (.dst g')) v)) = k.added (.dst g) m :=
      (run_congr plus S hS k hk _ _ fun l' hl' => Function.update_of_ne (fun e => hS g' (by rw [← e]; exact hl')) _ _).2.2 g
    by_cases e : g' = g
    · subst e
      exact ⟨[v], by simp [Code.step], by simp [Code.step, Code.added, hc]⟩
    · refine ⟨[], ?_, ?_⟩
      · simp only [Code.step, List.foldl_nil]
        rw [Function.update_of_ne (by simpa using fun h => e h.symm)]
      · simp only [Code.step, Code.added, List.nil_append, hc]
        rw [if_neg (by simpa using e)]

theorem run_step {α : Type} (p : Code α) (m : Memory) : (p.step plus m).1.run plus (p.step plus m).2 = p.run plus m := by
  cases p <;> rfl

theorem flatMap_perm {α : Type} [DecidableEq α] (f f' : α → List ℝ) (j : α) (d : List ℝ) (hj : f j = d ++ f' j)
    (ho : ∀ i, i ≠ j → f i = f' i) (l : List α) (hl : l.Nodup) (hm : j ∈ l) : List.Perm (l.flatMap f) (d ++ l.flatMap f') := by
  induction l with
  | nil => simp at hm
  | cons a l ih =>
    rw [List.nodup_cons] at hl
    rw [List.flatMap_cons, List.flatMap_cons]
    by_cases e : a = j
    · subst e
      have : l.flatMap f = l.flatMap f' := by
        rw [List.flatMap_def, List.flatMap_def]
        congr 1
        exact List.map_congr_left fun i hi => ho i fun e => hl.1 (e ▸ hi)
      rw [hj, this, List.append_assoc]
    · rw [ho a e]
      have h := ih hl.2 (by
        rcases List.mem_cons.1 hm with h | h
        · exact absurd h.symm e
        · exact h)
      refine (List.Perm.append_left _ h).trans ?_
      rw [← List.append_assoc, ← List.append_assoc]
      exact List.Perm.append_right _ List.perm_append_comm

/-- The invariant of a schedule. -/
theorem execute_inv {n : ℕ} (S : Fin n → Loc → Prop) (hS : ∀ i j l, S i l → S j l → i = j) (hd : ∀ i g, ¬ S i (.dst g))
    (schedule : List (Fin n)) : ∀ (p : Pool n) (m : Memory), (∀ i, (p i).Within (S i)) →
      (∀ i l, S i l → (((execute plus p m schedule).1 i).run plus (execute plus p m schedule).2).2 l = ((p i).run plus m).2 l) ∧
      (∀ l, (∀ i, ¬ S i l) → (∀ g, l ≠ .dst g) → (execute plus p m schedule).2 l = m l) ∧
      (∀ g, ∃ done : List ℝ, (execute plus p m schedule).2 (.dst g) = done.foldl plus (m (.dst g)) ∧
        List.Perm ((List.finRange n).flatMap fun i => (p i).added (.dst g) m)
          (done ++ (List.finRange n).flatMap fun i =>
            ((execute plus p m schedule).1 i).added (.dst g) (execute plus p m schedule).2)) := by
  induction schedule with
  | nil => exact fun p m h => ⟨fun _ _ _ => rfl, fun _ _ _ => rfl, fun g => ⟨[], rfl, List.Perm.refl _⟩⟩
  | cons j σ ih =>
    intro p m h
    obtain ⟨s1, s2, s3⟩ := step_spec plus (S j) (hd j) (p j) (h j) m
    have hw : ∀ i, ((turn plus (p, m) j).1 i).Within (S i) := by
      intro i
      by_cases e : i = j
      · subst e; simpa [turn] using s1
      · simpa [turn, Function.update_of_ne e] using h i
    have hkeep : ∀ i, i ≠ j → ∀ l, S i l → (turn plus (p, m) j).2 l = m l := fun i e l hl =>
      s2 l (fun hl' => e (hS i j l hl hl')) fun g e' => hd i g (e' ▸ hl)
    obtain ⟨h2, h3, h4⟩ := ih (turn plus (p, m) j).1 (turn plus (p, m) j).2 hw
    refine ⟨fun i l hl => (h2 i l hl).trans ?_, fun l hl hg => (h3 l hl hg).trans (s2 l (hl j) hg), fun g => ?_⟩
    · by_cases e : i = j
      · subst e
        simp only [turn, Function.update_self]
        rw [run_step]
      · have := (run_congr plus (S i) (hd i) (p i) (h i) _ _ (hkeep i e)).2.1 l hl
        simpa only [turn, Function.update_of_ne e] using this
    · obtain ⟨d, d1, d2⟩ := s3 g
      obtain ⟨done, e1, e2⟩ := h4 g
      refine ⟨d ++ done, ?_, ?_⟩
      · rw [List.foldl_append, ← d1]
        exact e1
      · refine (flatMap_perm _ (fun i => ((turn plus (p, m) j).1 i).added (.dst g) (turn plus (p, m) j).2) j d ?_ ?_ _
          (List.nodup_finRange n) (List.mem_finRange j)).trans ?_
        · simpa only [turn, Function.update_self] using d2
        · intro i e
          have := (run_congr plus (S i) (hd i) (p i) (h i) _ _ (hkeep i e)).2.2 g
          simpa only [turn, Function.update_of_ne e] using this.symm
        · rw [List.append_assoc]
          exact List.Perm.append_left _ e2

/-- The entries of its own points end as if a thread had run alone; an entry of `dst` ends as the sum, in some order, of what the
threads add to it when they run alone. -/
theorem execute_spec {n : ℕ} (S : Fin n → Loc → Prop) (hS : ∀ i j l, S i l → S j l → i = j) (hd : ∀ i g, ¬ S i (.dst g))
    (p : Pool n) (hp : ∀ i, (p i).Within (S i)) (m : Memory) (schedule : List (Fin n)) (he : Ended (execute plus p m schedule).1) :
    (∀ i l, S i l → (execute plus p m schedule).2 l = ((p i).run plus m).2 l) ∧
    ∀ g, ∃ order : List ℝ, List.Perm order ((List.finRange n).flatMap fun i => (p i).added (.dst g) m) ∧
      (execute plus p m schedule).2 (.dst g) = order.foldl plus (m (.dst g)) := by
  obtain ⟨h2, -, h4⟩ := execute_inv plus S hS hd schedule p m hp
  refine ⟨fun i l hl => ?_, fun g => ?_⟩
  · have := h2 i l hl
    rw [he i] at this
    exact this
  · obtain ⟨done, e1, e2⟩ := h4 g
    refine ⟨done, ?_, e1⟩
    have : ((List.finRange n).flatMap fun i => ((execute plus p m schedule).1 i).added (.dst g) (execute plus p m schedule).2) = [] := by
      rw [List.flatMap_eq_nil_iff]
      intro i _
      rw [he i]
      rfl
    rw [this, List.append_nil] at e2
    exact e2.symm

/-! ## Proofs: the cell loop -/

/-- The entries of the points `ps`. -/
def atPoints (ps : List ℕ) : Loc → Prop
  | .powder i => i ∈ ps
  | .liquid i => i ∈ ps
  | .invRhoCp i => i ∈ ps
  | .dst _ => False

theorem pointCode_within (k : Kind) (inv : Point → Ratios → ℝ) (p : Point) (ps : List ℕ) (h : p.pos ∈ ps) :
    (pointCode k inv p).Within (atPoints ps) := by
  refine within_bind _ _ _ ?_ fun r => ⟨h, h, fun _ => trivial⟩
  cases k with
  | solid => trivial
  | solidLiquid => exact ⟨h, trivial⟩
  | solidLiquidPowder => exact ⟨h, fun w => ⟨h, h, trivial⟩⟩

theorem pointsCode_within (k : Kind) (inv : Point → Ratios → ℝ) (ps : List ℕ) (l : List Point) (h : ∀ p ∈ l, p.pos ∈ ps) :
    (pointsCode k inv l).Within (atPoints ps) := by
  induction l with
  | nil => trivial
  | cons p l ih =>
    exact within_bind _ _ _ (pointCode_within k inv p ps (h p (by simp))) fun r =>
      within_bind _ _ _ (ih fun q hq => h q (by simp [hq])) fun rs => trivial

theorem addCode_within (S : Loc → Prop) (l : List (ℕ × ℝ)) : (addCode l).Within S := by
  induction l with
  | nil => trivial
  | cons a l ih => exact ⟨⟨a.1, rfl⟩, ih⟩

theorem cellCode_within (k : Kind) (inv : Point → Ratios → ℝ) (c : DCell) :
    (cellCode k inv c).Within (atPoints (c.points.map Point.pos)) :=
  within_bind _ _ _ (pointsCode_within k inv _ _ fun p hp => List.mem_map_of_mem hp) fun _ => addCode_within _ _

theorem pointCode_run (k : Kind) (inv : Point → Ratios → ℝ) (p : Point) (m : Memory) :
    ((pointCode k inv p).run plus m).1 = (newRatios k (m (.powder p.pos)) p, inv p (newRatios k (m (.powder p.pos)) p)) ∧
    ((pointCode k inv p).run plus m).2 (.invRhoCp p.pos) = inv p (newRatios k (m (.powder p.pos)) p) ∧
    (k ≠ .solid → ((pointCode k inv p).run plus m).2 (.liquid p.pos) = (newRatios k (m (.powder p.pos)) p).liquid) ∧
    (k = .solidLiquidPowder → ((pointCode k inv p).run plus m).2 (.powder p.pos) = (newRatios k (m (.powder p.pos)) p).powder) ∧
    ∀ l, ¬ atPoints [p.pos] l → ((pointCode k inv p).run plus m).2 l = m l := by
  have hmin : ∀ a b : ℝ, (if a < b then a else b) = min a b := by
    intro a b
    rcases lt_or_ge a b with h | h
    · rw [if_pos h, min_eq_left h.le]
    · rw [if_neg (not_lt.2 h), min_eq_right h]
  have hne : ∀ l, ¬ atPoints [p.pos] l → l ≠ .powder p.pos ∧ l ≠ .liquid p.pos ∧ l ≠ .invRhoCp p.pos := by
    intro l hl
    refine ⟨?_, ?_, ?_⟩ <;> rintro rfl <;> exact hl (by simp [atPoints])
  cases k with
  | solid =>
    simp only [pointCode, ratioCode, Code.bind, Code.run, newRatios, phase, ← liquidAt_eq]
    refine ⟨by simp, by simp, by simp, by simp, fun l hl => ?_⟩
    rw [Function.update_of_ne (hne l hl).2.2]
  | solidLiquid =>
    simp only [pointCode, ratioCode, Code.bind, Code.run, newRatios, phase, ← liquidAt_eq]
    refine ⟨by simp, by simp, by simp, by simp, fun l hl => ?_⟩
    rw [Function.update_of_ne (hne l hl).2.2, Function.update_of_ne (hne l hl).2.1]
  | solidLiquidPowder =>
    simp only [pointCode, ratioCode, Code.bind, Code.run, newRatios, phase, hmin, ← liquidAt_eq]
    refine ⟨by simp, by simp, by simp, by simp, fun l hl => ?_⟩
    rw [Function.update_of_ne (hne l hl).2.2, Function.update_of_ne (hne l hl).2.1, Function.update_of_ne (hne l hl).1]

theorem pointsCode_run (k : Kind) (inv : Point → Ratios → ℝ) (l : List Point) : (l.map Point.pos).Nodup → ∀ m : Memory,
    ((pointsCode k inv l).run plus m).1 =
      l.map (fun p => (newRatios k (m (.powder p.pos)) p, inv p (newRatios k (m (.powder p.pos)) p))) ∧
    (∀ p ∈ l, ((pointsCode k inv l).run plus m).2 (.invRhoCp p.pos) = inv p (newRatios k (m (.powder p.pos)) p) ∧
      (k ≠ .solid → ((pointsCode k inv l).run plus m).2 (.liquid p.pos) = (newRatios k (m (.powder p.pos)) p).liquid) ∧
      (k = .solidLiquidPowder →
        ((pointsCode k inv l).run plus m).2 (.powder p.pos) = (newRatios k (m (.powder p.pos)) p).powder)) ∧
    ∀ x, ¬ atPoints (l.map Point.pos) x → ((pointsCode k inv l).run plus m).2 x = m x := by
  induction l with
  | nil => exact fun _ m => ⟨rfl, by simp, fun _ _ => rfl⟩
  | cons p l ih =>
    intro hn m
    rw [List.map_cons, List.nodup_cons] at hn
    obtain ⟨r1, r2, r3, r4, r5⟩ := pointCode_run plus k inv p m
    simp only [pointsCode, run_bind, Code.run]
    generalize ((pointCode k inv p).run plus m).2 = m1 at r2 r3 r4 r5 ⊢
    obtain ⟨i1, i2, i3⟩ := ih hn.2 m1
    have hother : ∀ q ∈ l, m1 (.powder q.pos) = m (.powder q.pos) := fun q hq =>
      r5 _ fun h => hn.1 (by rw [← List.mem_singleton.1 h]; exact List.mem_map_of_mem hq)
    refine ⟨?_, ?_, ?_⟩
    · rw [r1, i1, List.map_cons]
      congr 1
      exact List.map_congr_left fun q hq => by rw [hother q hq]
    · intro q hq
      rcases List.mem_cons.1 hq with rfl | hq
      · exact ⟨(i3 (.invRhoCp q.pos) hn.1).trans r2, fun h => (i3 (.liquid q.pos) hn.1).trans (r3 h),
          fun h => (i3 (.powder q.pos) hn.1).trans (r4 h)⟩
      · rw [← hother q hq]
        exact i2 q hq
    · intro x hx
      rw [i3 x, r5 x]
      · intro h
        apply hx
        cases x <;> simp_all [atPoints]
      · intro h
        apply hx
        cases x <;> simp_all [atPoints]

theorem addCode_run (l : List (ℕ × ℝ)) (m : Memory) (x : Loc) (hx : ∀ g, x ≠ .dst g) : ((addCode l).run plus m).2 x = m x := by
  induction l generalizing m with
  | nil => rfl
  | cons a l ih =>
    simp only [addCode, Code.run]
    rw [ih, Function.update_of_ne (hx a.1)]

theorem addCode_added (l : List (ℕ × ℝ)) (m : Memory) (g : ℕ) :
    (addCode l).added (.dst g) m = (l.filter fun e => e.1 = g).map Prod.snd := by
  induction l with
  | nil => rfl
  | cons a l ih =>
    simp only [addCode, Code.added, Loc.dst.injEq]
    by_cases e : a.1 = g
    · simp [e, ih]
    · simp [e, ih]

/-- Programs without additions. -/
def Code.NoAdd {α : Type} : Code α → Prop
  | .ret _ => True
  | .read _ k => ∀ v, (k v).NoAdd
  | .write _ _ k => k.NoAdd
  | .add _ _ _ => False

theorem noAdd_bind {α β : Type} (p : Code α) (f : α → Code β) (hp : p.NoAdd) (hf : ∀ a, (f a).NoAdd) : (p.bind f).NoAdd := by
  induction p with
  | ret a => exact hf a
  | read l k ih => exact fun v => ih v (hp v)
  | write l v k ih => exact ih hp
  | add l v k ih => exact hp.elim

theorem added_bind {α β : Type} (l : Loc) (p : Code α) (f : α → Code β) (hp : p.NoAdd) (m : Memory) :
    (p.bind f).added l m = (f (p.run plus m).1).added l (p.run plus m).2 := by
  induction p generalizing m with
  | ret a => rfl
  | read l k ih => exact ih _ (hp _) m
  | write l v k ih => exact ih hp _
  | add l v k ih => exact hp.elim

theorem pointsCode_noAdd (k : Kind) (inv : Point → Ratios → ℝ) (l : List Point) : (pointsCode k inv l).NoAdd := by
  induction l with
  | nil => trivial
  | cons p l ih =>
    refine noAdd_bind _ _ (noAdd_bind _ _ ?_ fun r => fun v => trivial) fun r => noAdd_bind _ _ ih fun rs => trivial
    cases k with
    | solid => trivial
    | solidLiquid => trivial
    | solidLiquidPowder => exact fun w => trivial

/-! ## C140 -/

/-- **C140, every schedule.**  Whatever the order in which the threads of the cell loop make their accesses, and whatever the addition of
the machine, when all have ended every quadrature point has the fractions and the `1 / (rho c_p)` that its own old powder fraction and
temperature determine, and every entry of `dst` is its old value plus the contributions of the cells, each once, added in some order. -/
theorem C140_every_schedule (k : Kind) (inv : Point → Ratios → ℝ) (cells : List DCell) (hpos : OwnPositions cells) (m : Memory)
    (schedule : List (Fin cells.length)) (he : Ended (execute plus (launch k inv cells) m schedule).1) :
    (∀ c ∈ cells, ∀ p ∈ c.points,
      (execute plus (launch k inv cells) m schedule).2 (.invRhoCp p.pos) = inv p (newRatios k (m (.powder p.pos)) p) ∧
      (k ≠ .solid → (execute plus (launch k inv cells) m schedule).2 (.liquid p.pos) = (newRatios k (m (.powder p.pos)) p).liquid) ∧
      (k = .solidLiquidPowder →
        (execute plus (launch k inv cells) m schedule).2 (.powder p.pos) = (newRatios k (m (.powder p.pos)) p).powder)) ∧
    ∀ g, ∃ order : List ℝ, List.Perm order (cells.flatMap fun c => contributions k inv (fun i => m (.powder i)) g c) ∧
      (execute plus (launch k inv cells) m schedule).2 (.dst g) = order.foldl plus (m (.dst g)) := by
  unfold OwnPositions at hpos
  rw [List.nodup_flatMap] at hpos
  obtain ⟨hin, hpair⟩ := hpos
  have hdis : ∀ i j l, atPoints ((cells.get i).points.map Point.pos) l → atPoints ((cells.get j).points.map Point.pos) l → i = j := by
    have key : ∀ (i j : Fin cells.length) (x : ℕ), x ∈ (cells.get i).points.map Point.pos → x ∈ (cells.get j).points.map Point.pos →
        i = j := by
      intro i j x hi hj
      rcases lt_trichotomy i j with h | h | h
      · exact absurd hj (List.disjoint_left.1 (List.pairwise_iff_get.1 hpair i j h) hi)
      · exact h
      · exact absurd hi (List.disjoint_left.1 (List.pairwise_iff_get.1 hpair j i h) hj)
    intro i j l hi hj
    cases l with
    | powder x => exact key i j x hi hj
    | liquid x => exact key i j x hi hj
    | invRhoCp x => exact key i j x hi hj
    | dst g => exact hi.elim
  obtain ⟨h1, h2⟩ := execute_spec plus (fun i => atPoints ((cells.get i).points.map Point.pos)) hdis (fun _ _ h => h)
    (launch k inv cells) (fun i => cellCode_within k inv (cells.get i)) m schedule he
  refine ⟨fun c hc p hp => ?_, fun g => ?_⟩
  · obtain ⟨i, hi⟩ := List.mem_iff_get.1 hc
    have hp' : p.pos ∈ c.points.map Point.pos := List.mem_map_of_mem hp
    obtain ⟨-, r2, -⟩ := pointsCode_run plus k inv c.points (hin c hc) m
    have hrun : ∀ x, (∀ g, x ≠ .dst g) → ((launch k inv cells i).run plus m).2 x = ((pointsCode k inv c.points).run plus m).2 x := by
      intro x hx
      simp only [launch, cellCode, run_bind, hi]
      exact addCode_run plus _ _ x hx
    have a := h1 i
    simp only [hi] at a
    rw [a (.invRhoCp p.pos) hp', a (.liquid p.pos) hp', a (.powder p.pos) hp', hrun _ (by simp), hrun _ (by simp), hrun _ (by simp)]
    exact r2 p hp
  · obtain ⟨order, o1, o2⟩ := h2 g
    refine ⟨order, o1.trans (List.Perm.of_eq ?_), o2⟩
    have hth : ∀ i : Fin cells.length, (launch k inv cells i).added (.dst g) m =
        contributions k inv (fun i => m (.powder i)) g (cells.get i) := by
      intro i
      obtain ⟨r1, -, -⟩ := pointsCode_run plus k inv (cells.get i).points (hin _ (List.get_mem _ _)) m
      simp only [launch, cellCode]
      rw [added_bind plus _ _ _ (pointsCode_noAdd k inv _), addCode_added, r1]
      rfl
    simp only [hth]
    rw [List.flatMap_def, List.flatMap_def]
    congr 1
    conv_rhs => rw [← List.map_get_finRange cells]
    rw [List.map_map]
    rfl

/-- **C140, exact arithmetic.**  The result does not depend on the schedule: it is the sum of the contributions. -/
theorem C140_exact (k : Kind) (inv : Point → Ratios → ℝ) (cells : List DCell) (hpos : OwnPositions cells) (m : Memory)
    (schedule : List (Fin cells.length)) (he : Ended (execute (· + ·) (launch k inv cells) m schedule).1) (g : ℕ) :
    (execute (· + ·) (launch k inv cells) m schedule).2 (.dst g) =
      m (.dst g) + (cells.map fun c => (contributions k inv (fun i => m (.powder i)) g c).sum).sum := by
  obtain ⟨-, h⟩ := C140_every_schedule (· + ·) k inv cells hpos m schedule he
  obtain ⟨order, hp, e⟩ := h g
  have hsum : ∀ (l : List ℝ) (a : ℝ), l.foldl (· + ·) a = a + l.sum := by
    intro l
    induction l with
    | nil => simp
    | cons x l ih => intro a; rw [List.foldl_cons, ih, List.sum_cons, add_assoc]
  rw [e, hsum, hp.sum_eq, List.flatMap_def, List.sum_flatten, List.map_map]
  rfl

theorem finish_one {n : ℕ} (i : Fin n) (q : Code Unit) : ∀ (p : Pool n) (m : Memory), p i = q →
    ∃ k m', execute plus p m (List.replicate k i) = (Function.update p i (.ret ()), m') := by
  induction q with
  | ret a =>
    intro p m hq
    refine ⟨0, m, ?_⟩
    have : Function.update p i (.ret ()) = p := by
      rw [show (Code.ret () : Code Unit) = p i by rw [hq]]
      exact Function.update_eq_self i p
    simp only [execute, List.replicate_zero, List.foldl_nil, this]
  | read l c ih =>
    intro p m hq
    obtain ⟨k, m', hk⟩ := ih (m l) (Function.update p i (c (m l))) m (by simp)
    refine ⟨k + 1, m', ?_⟩
    rw [List.replicate_succ]
    simp only [execute, List.foldl_cons, turn, hq, Code.step] at hk ⊢
    rw [hk, Function.update_idem]
  | write l v c ih =>
    intro p m hq
    obtain ⟨k, m', hk⟩ := ih (Function.update p i c) (Function.update m l v) (by simp)
    refine ⟨k + 1, m', ?_⟩
    rw [List.replicate_succ]
    simp only [execute, List.foldl_cons, turn, hq, Code.step] at hk ⊢
    rw [hk, Function.update_idem]
  | add l v c ih =>
    intro p m hq
    obtain ⟨k, m', hk⟩ := ih (Function.update p i c) (Function.update m l (plus (m l) v)) (by simp)
    refine ⟨k + 1, m', ?_⟩
    rw [List.replicate_succ]
    simp only [execute, List.foldl_cons, turn, hq, Code.step] at hk ⊢
    rw [hk, Function.update_idem]

/-- **C140, no deadlock.**  Whatever the threads have done so far, they can all end. -/
theorem C140_can_end {n : ℕ} (p : Pool n) (m : Memory) (before : List (Fin n)) :
    ∃ after, Ended (execute plus p m (before ++ after)).1 := by
  have : ∀ (todo : List (Fin n)) (p : Pool n) (m : Memory), (∀ i, i ∉ todo → p i = .ret ()) →
      ∃ schedule, Ended (execute plus p m schedule).1 := by
    intro todo
    induction todo with
    | nil => exact fun p m h => ⟨[], fun i => h i (by simp)⟩
    | cons j t ih =>
      intro p m h
      obtain ⟨k, m', hk⟩ := finish_one plus j (p j) p m rfl
      obtain ⟨σ, hσ⟩ := ih (Function.update p j (.ret ())) m' (by
        intro i hi
        by_cases e : i = j
        · subst e; simp
        · rw [Function.update_of_ne e]; exact h i (by simp [e, hi]))
      refine ⟨List.replicate k j ++ σ, ?_⟩
      unfold execute at hk hσ ⊢
      rw [List.foldl_append, hk]
      exact hσ
  obtain ⟨σ, h⟩ := this (List.finRange n) (execute plus p m before).1 (execute plus p m before).2
    fun i hi => absurd (List.mem_finRange i) hi
  refine ⟨σ, ?_⟩
  unfold execute at h ⊢
  rw [List.foldl_append]
  exact h

/-- The hypotheses are met: two cells with one point each, at positions 1 and 0, that both add to entry 5; the powder of the first melts,
and each adds its `1 / (rho c_p)`, here the solid fraction. -/
example : ∃ schedule, Ended (execute (· + ·) (launch .solidLiquidPowder (fun _ r => r.solid)
      [⟨[⟨1, ⟨10, 20⟩, 25⟩], fun l => [(5, (l.map Prod.snd).sum)]⟩, ⟨[⟨0, ⟨10, 20⟩, 5⟩], fun l => [(5, (l.map Prod.snd).sum)]⟩])
      (fun _ => 1 / 4) schedule).1 ∧
    (execute (· + ·) (launch .solidLiquidPowder (fun _ r => r.solid)
      [⟨[⟨1, ⟨10, 20⟩, 25⟩], fun l => [(5, (l.map Prod.snd).sum)]⟩, ⟨[⟨0, ⟨10, 20⟩, 5⟩], fun l => [(5, (l.map Prod.snd).sum)]⟩])
      (fun _ => 1 / 4) schedule).2 (.dst 5) = 1 := by
  obtain ⟨σ, h⟩ := C140_can_end (· + ·) (launch .solidLiquidPowder (fun _ r => r.solid)
      [⟨[⟨1, ⟨10, 20⟩, 25⟩], fun l => [(5, (l.map Prod.snd).sum)]⟩, ⟨[⟨0, ⟨10, 20⟩, 5⟩], fun l => [(5, (l.map Prod.snd).sum)]⟩])
      (fun _ => 1 / 4) []
  refine ⟨σ, h, ?_⟩
  rw [C140_exact _ _ _ (by simp [OwnPositions]) _ σ h]
  norm_num [contributions, submitted, newRatios, phase, liquidRatio, min_def]

/-! ## Rounding -/

open Verif.Float

/-- The rounded sum. -/
theorem foldl_rounded (R : Rounding ℝ) (hu : 0 ≤ R.u) (l : List ℝ) : ∀ a : ℝ,
    |l.foldl (fun a b => R.rd (a + b)) a - (a + l.sum)| ≤ ((1 + R.u) ^ l.length - 1) * (|a| + (l.map abs).sum) := by
  induction l with
  | nil => intro a; simp
  | cons x l ih =>
    intro a
    rw [List.foldl_cons, List.sum_cons, List.map_cons, List.sum_cons, List.length_cons, pow_succ]
    have h := ih (R.rd (a + x))
    have hr := R.rel (a + x)
    have ht := abs_add_le a x
    generalize R.rd (a + x) = a' at h hr ⊢
    generalize l.foldl (fun a b => R.rd (a + b)) a' = F at h ⊢
    have hL : 0 ≤ (l.map abs).sum := List.sum_nonneg (by simp)
    generalize (l.map abs).sum = L at h hL ⊢
    have hp : 1 ≤ (1 + R.u) ^ l.length := one_le_pow₀ (by linarith)
    generalize (1 + R.u) ^ l.length = P at h hp ⊢
    have hA : 0 ≤ |a| + |x| := by positivity
    have h1 : |a' - (a + x)| ≤ R.u * (|a| + |x|) := hr.trans (mul_le_mul_of_nonneg_left ht hu)
    have h2 : |a'| ≤ (1 + R.u) * (|a| + |x|) := by
      have := abs_add_le (a' - (a + x)) (a + x)
      rw [sub_add_cancel] at this
      linarith
    have h3 : |F - (a' + l.sum)| ≤ (P - 1) * ((1 + R.u) * (|a| + |x|) + L) :=
      h.trans (mul_le_mul_of_nonneg_left (by linarith) (by linarith))
    have h4 := abs_add_le (F - (a' + l.sum)) (a' - (a + x))
    have h5 : F - (a' + l.sum) + (a' - (a + x)) = F - (a + (x + l.sum)) := by ring
    rw [h5] at h4
    have h6 : 0 ≤ P * R.u * L := by positivity
    nlinarith

/-- **C140, rounding.**  In floating-point arithmetic the results of all schedules are within the bound
`((1 + u)^n - 1) (|old| + sum |contributions|)` of the exact result, `n` the number of contributions. -/
theorem C140_rounded (R : Rounding ℝ) (hu : 0 ≤ R.u) (k : Kind) (inv : Point → Ratios → ℝ) (cells : List DCell)
    (hpos : OwnPositions cells) (m : Memory) (schedule : List (Fin cells.length))
    (he : Ended (execute (fun a b => R.rd (a + b)) (launch k inv cells) m schedule).1) (g : ℕ) :
    let all := cells.flatMap fun c => contributions k inv (fun i => m (.powder i)) g c
    |(execute (fun a b => R.rd (a + b)) (launch k inv cells) m schedule).2 (.dst g) - (m (.dst g) + all.sum)| ≤
      ((1 + R.u) ^ all.length - 1) * (|m (.dst g)| + (all.map abs).sum) := by
  intro all
  obtain ⟨-, h⟩ := C140_every_schedule (fun a b => R.rd (a + b)) k inv cells hpos m schedule he
  obtain ⟨order, hp, e⟩ := h g
  rw [e, ← hp.sum_eq, ← hp.length_eq, ← (hp.map abs).sum_eq]
  exact foldl_rounded R hu order _

/-- Cells without points that add `v` to entry 0. -/
def adds (v : ℝ) : DCell := ⟨[], fun _ => [(0, v)]⟩

/-- **C140 holds only in exact arithmetic.**  With `double`s the result depends on the schedule: three cells that contribute `2^53`, 1
and 1 to the same degree of freedom give `2^53` or `2^53 + 2`. -/
theorem C140_reproducible_refuted : ∃ (cells : List DCell) (m : Memory) (s s' : List (Fin cells.length)), OwnPositions cells ∧
    let run := execute (fun a b => (binary 53 (by norm_num) : Rounding ℝ).rd (a + b)) (launch .solid (fun _ _ => 1) cells) m
    Ended (run s).1 ∧ Ended (run s').1 ∧ (run s).2 (.dst 0) = 2 ^ 53 ∧ (run s').2 (.dst 0) = 2 ^ 53 + 2 := by
  have f1 : Verif.Float.round 53 (1 : ℝ) = 1 := round_fixed 53 (by norm_num) 1 ⟨1, 0, by norm_num, by norm_num⟩
  have f2 : Verif.Float.round 53 (2 : ℝ) = 2 := round_fixed 53 (by norm_num) 2 ⟨2, 0, by norm_num, by norm_num⟩
  have f3 : Verif.Float.round 53 (2 ^ 53 : ℝ) = 2 ^ 53 := round_fixed 53 (by norm_num) _ ⟨1, 53, by norm_num, by norm_num⟩
  have f4 : Verif.Float.round 53 (2 ^ 53 + 2 : ℝ) = 2 ^ 53 + 2 := round_fixed 53 (by norm_num) _ ⟨2 ^ 52 + 1, 1, by norm_num, by norm_num⟩
  have f5 : Verif.Float.round 53 (2 ^ 53 + 1 : ℝ) = 2 ^ 53 := by
    rw [round_eval 53 _ 53 (2 ^ 52) (by norm_num) (by norm_num) ?_]
    · norm_num
    · have hf : ⌊((2 ^ 53 + 1 : ℝ)) / 2 ^ ((53 : ℤ) - (53 : ℕ) + 1)⌋ = 2 ^ 52 := by
        rw [Int.floor_eq_iff]
        norm_num
      unfold nearestEven
      rw [hf]
      norm_num
  refine ⟨[adds (2 ^ 53), adds 1, adds 1], fun _ => 0, [0, 1, 2], [1, 2, 0], by simp [OwnPositions, adds], ?_, ?_, ?_, ?_⟩
  · intro i
    fin_cases i <;> rfl
  · intro i
    fin_cases i <;> rfl
  · change Verif.Float.round 53 (Verif.Float.round 53 (Verif.Float.round 53 (0 + 2 ^ 53) + 1) + 1) = 2 ^ 53
    rw [zero_add, f3, f5, f5]
  · change Verif.Float.round 53 (Verif.Float.round 53 (Verif.Float.round 53 (0 + 1) + 1) + 2 ^ 53) = 2 ^ 53 + 2
    rw [zero_add, f1, show (1 + 1 : ℝ) = 2 by norm_num, f2, add_comm, f4]

end Verif.Device
