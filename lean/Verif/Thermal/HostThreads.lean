import Mathlib.Data.List.Basic
import Mathlib.Data.List.FinRange
import Mathlib.Data.List.Nodup
import Mathlib.Data.Real.Basic
import Mathlib.Data.Real.Archimedean
import Mathlib.Logic.Function.Basic
import Mathlib.Tactic.NormNum

/-!
# C142: the thermal operator on the threads of the host

Model of `MatrixFree::cell_loop` with `ThermalOperator::cell_local_apply` (`source/ThermalOperator.templates.hh:45-46`, `:202`, `:481-611`)
under the threads of deal.II, one memory access at a time.

Simplifications: what is modelled of `partition_color` is its contract: the ranges of cell batches are arranged in phases that run one after
the other; the ranges of one phase may run at the same time and share no degree of freedom.  The values read from `src`, which the
loop does not write, and the local variables of a range (`fe_eval`, `state_ratios`, `temperature_powers`, `:494-505`) are functions.  For
the material states without powder the rule returns the powder it is given.
-/

namespace Verif.HostThreads

/-- The values of the lanes of a batch. -/
abbrev Lanes := ℕ → ℝ

/-- `_liquid_ratio(cell, q)` and `_powder_ratio(cell, q)` (mutable, `ThermalOperator.hh:215-220`) and the entries of `dst`. -/
inductive Loc where
  | liquid (batch q : ℕ)
  | powder (batch q : ℕ)
  | dst (g : ℕ)
  deriving DecidableEq

/-- What is stored there. -/
@[reducible] def Loc.Value : Loc → Type
  | .liquid _ _ => Lanes
  | .powder _ _ => Lanes
  | .dst _ => ℝ

/-- The shared memory. -/
abbrev Memory := (l : Loc) → l.Value

/-- The accesses of a range in the order of its statements. No access is atomic. -/
inductive Code where
  | ret
  | read (l : Loc) (k : l.Value → Code)
  | write (l : Loc) (v : l.Value) (k : Code)

/-- Running alone. -/
def Code.run : Code → Memory → Memory
  | .ret, m => m
  | .read l k, m => (k (m l)).run m
  | .write l v k, m => k.run (Function.update m l v)

/-- One access. -/
def Code.step : Code → Memory → Code × Memory
  | .ret, m => (.ret, m)
  | .read l k, m => (k (m l), m)
  | .write l v k, m => (k, Function.update m l v)

/-- The scheduler lets range `i` make one access. -/
def turn {n : ℕ} (s : (Fin n → Code) × Memory) (i : Fin n) : (Fin n → Code) × Memory :=
  (Function.update s.1 i ((s.1 i).step s.2).1, ((s.1 i).step s.2).2)

/-- A phase under a schedule. -/
def execute {n : ℕ} (p : Fin n → Code) (m : Memory) (schedule : List (Fin n)) : (Fin n → Code) × Memory := schedule.foldl turn (p, m)

/-- A batch of cells: its number, its quadrature points, its degrees of freedom; the new liquid and powder fractions at a point for the old
powder fractions (`update_state_ratios`, `:226-325`), and what the integration makes of the fractions, an entry of `dst` and a number for
each degree of freedom. -/
structure Batch where
  index : ℕ
  points : List ℕ
  dofs : List ℕ
  rule : ℕ → Lanes → Lanes × Lanes
  integrate : List (Lanes × Lanes) → List (ℕ × ℝ)
  local_dofs : ∀ r e, e ∈ integrate r → e.1 ∈ dofs

/-- The loop over the quadrature points, `:522-605`: the old powder is read, both fractions are stored (`:323-324`); `k` is what follows. -/
def pointsCode (b : Batch) (k : List (Lanes × Lanes) → Code) : List ℕ → List (Lanes × Lanes) → Code
  | [], acc => k acc
  | q :: qs, acc => .read (.powder b.index q) fun w => .write (.liquid b.index q) (b.rule q w).1
      (.write (.powder b.index q) (b.rule q w).2 (pointsCode b k qs (acc ++ [b.rule q w])))

/-- `distribute_local_to_global`, `:609`: read, add, write, for each entry; `plus` is the addition of the machine. -/
def addCode (plus : ℝ → ℝ → ℝ) (k : Code) : List (ℕ × ℝ) → Code
  | [] => k
  | (g, v) :: l => .read (.dst g) fun x => .write (.dst g) (plus x v) (addCode plus k l)

/-- `cell_local_apply` on a range of batches, `:509-610`. -/
def rangeCode (plus : ℝ → ℝ → ℝ) : List Batch → Code
  | [] => .ret
  | b :: bs => pointsCode b (fun rs => addCode plus (rangeCode plus bs) (b.integrate rs)) b.points []

/-- A range of batches. -/
abbrev Range := List Batch

/-- The loop from memory `m` can end in memory `m'`: each phase runs under some schedule until all its ranges have ended, then the next
phase starts. -/
inductive Runs (plus : ℝ → ℝ → ℝ) : List (List Range) → Memory → Memory → Prop
  | done (m : Memory) : Runs plus [] m m
  | phase (ph : List Range) (rest : List (List Range)) (m m' : Memory) (schedule : List (Fin ph.length))
      (ended : ∀ i, (execute (fun i => rangeCode plus (ph.get i)) m schedule).1 i = .ret)
      (next : Runs plus rest (execute (fun i => rangeCode plus (ph.get i)) m schedule).2 m') : Runs plus (ph :: rest) m m'

/-! ## Specification -/

/-- The contract of the colouring: two ranges of a phase share neither batches nor degrees of freedom. -/
def Coloured (ph : List Range) : Prop :=
  ∀ i j : Fin ph.length, i ≠ j → ∀ b ∈ ph.get i, ∀ c ∈ ph.get j, b.index ≠ c.index ∧ ∀ g ∈ b.dofs, g ∉ c.dofs

/-- The numbers that a batch adds to entry `g` if its old powder fractions are `old`. -/
def contributions (old : ℕ → ℕ → Lanes) (g : ℕ) (b : Batch) : List ℝ :=
  ((b.integrate (b.points.map fun q => b.rule q (old b.index q))).filter fun e => e.1 = g).map Prod.snd

/-! ## Proofs -/

/-- All accesses are in `S`. -/
def Code.Within (S : Loc → Prop) : Code → Prop
  | .ret => True
  | .read l k => S l ∧ ∀ v, (k v).Within S
  | .write l _ k => S l ∧ k.Within S

theorem run_outside (S : Loc → Prop) (p : Code) (hp : p.Within S) (m : Memory) (l : Loc) (hl : ¬ S l) : p.run m l = m l := by
  induction p generalizing m with
  | ret => rfl
  | read l' k ih => exact ih _ (hp.2 _) m
  | write l' v k ih =>
    refine (ih hp.2 _).trans (Function.update_of_ne (fun e => hl ?_) _ _)
    rw [e]; exact hp.1

theorem run_congr (S : Loc → Prop) (p : Code) (hp : p.Within S) (m m' : Memory) (h : ∀ l, S l → m l = m' l) (l : Loc) (hl : S l) :
    p.run m l = p.run m' l := by
  induction p generalizing m m' with
  | ret => exact h l hl
  | read l' k ih =>
    simp only [Code.run]
    rw [h l' hp.1]
    exact ih _ (hp.2 _) m m' h
  | write l' v k ih =>
    refine ih hp.2 _ _ fun x hx => ?_
    by_cases e : x = l'
    · subst e; simp
    · rw [Function.update_of_ne e, Function.update_of_ne e, h x hx]

theorem step_within (S : Loc → Prop) (p : Code) (hp : p.Within S) (m : Memory) :
    (p.step m).1.Within S ∧ ∀ l, ¬ S l → (p.step m).2 l = m l := by
  cases p with
  | ret => exact ⟨trivial, fun _ _ => rfl⟩
  | read l k => exact ⟨hp.2 _, fun _ _ => rfl⟩
  | write l v k =>
    exact ⟨hp.2, fun x hx => Function.update_of_ne (fun e => hx (by rw [e]; exact hp.1)) _ _⟩

theorem run_step (p : Code) (m : Memory) : (p.step m).1.run (p.step m).2 = p.run m := by
  cases p <;> rfl

theorem execute_inv {n : ℕ} (S : Fin n → Loc → Prop) (hS : ∀ i j l, S i l → S j l → i = j) (schedule : List (Fin n)) :
    ∀ (p : Fin n → Code) (m : Memory), (∀ i, (p i).Within (S i)) →
      (∀ i l, S i l → ((execute p m schedule).1 i).run (execute p m schedule).2 l = (p i).run m l) ∧
      (∀ l, (∀ i, ¬ S i l) → (execute p m schedule).2 l = m l) := by
  induction schedule with
  | nil => exact fun p m h => ⟨fun _ _ _ => rfl, fun _ _ => rfl⟩
  | cons j σ ih =>
    intro p m h
    obtain ⟨s1, s2⟩ := step_within (S j) (p j) (h j) m
    have hw : ∀ i, ((turn (p, m) j).1 i).Within (S i) := by
      intro i
      by_cases e : i = j
      · subst e; simpa [turn] using s1
      · simpa [turn, Function.update_of_ne e] using h i
    obtain ⟨h2, h3⟩ := ih (turn (p, m) j).1 (turn (p, m) j).2 hw
    refine ⟨fun i l hl => (h2 i l hl).trans ?_, fun l hl => (h3 l hl).trans (s2 l (hl j))⟩
    by_cases e : i = j
    · subst e
      simp only [turn, Function.update_self]
      rw [run_step]
    · have := run_congr (S i) (p i) (h i) (turn (p, m) j).2 m (fun x hx => s2 x fun hx' => e (hS i j x hx hx')) l hl
      simpa only [turn, Function.update_of_ne e] using this

theorem sequence_inv {n : ℕ} (S : Fin n → Loc → Prop) (hS : ∀ i j l, S i l → S j l → i = j) (p : Fin n → Code)
    (hp : ∀ i, (p i).Within (S i)) (order : List (Fin n)) (hn : order.Nodup) (m : Memory) :
    (∀ i ∈ order, ∀ l, S i l → order.foldl (fun m i => (p i).run m) m l = (p i).run m l) ∧
    (∀ l, (∀ i ∈ order, ¬ S i l) → order.foldl (fun m i => (p i).run m) m l = m l) := by
  induction order generalizing m with
  | nil => exact ⟨fun i hi => by simp at hi, fun _ _ => rfl⟩
  | cons j order ih =>
    rw [List.nodup_cons] at hn
    obtain ⟨h1, h2⟩ := ih hn.2 ((p j).run m)
    refine ⟨fun i hi l hl => ?_, fun l hl => ?_⟩
    · rw [List.foldl_cons]
      by_cases e : i = j
      · subst e
        exact h2 l fun x hx hx' => hn.1 (hS i x l hl hx' ▸ hx)
      · have hi' : i ∈ order := by
          rcases List.mem_cons.1 hi with h | h
          · exact absurd h e
          · exact h
        rw [h1 i hi' l hl]
        exact run_congr (S i) (p i) (hp i) _ _ (fun x hx => run_outside (S j) (p j) (hp j) m x fun hx' => e (hS i j x hx hx')) l hl
    · rw [List.foldl_cons, h2 l fun x hx => hl x (List.mem_cons_of_mem _ hx)]
      exact run_outside (S j) (p j) (hp j) m l (hl j List.mem_cons_self)

/-- Programs that share no location: every schedule ends in the memory of running them one after the other. -/
theorem execute_sequence {n : ℕ} (S : Fin n → Loc → Prop) (hS : ∀ i j l, S i l → S j l → i = j) (p : Fin n → Code)
    (hp : ∀ i, (p i).Within (S i)) (m : Memory) (schedule : List (Fin n)) (he : ∀ i, (execute p m schedule).1 i = .ret) :
    (execute p m schedule).2 = (List.finRange n).foldl (fun m i => (p i).run m) m := by
  obtain ⟨h1, h2⟩ := execute_inv S hS schedule p m hp
  obtain ⟨h3, h4⟩ := sequence_inv S hS p hp (List.finRange n) (List.nodup_finRange n) m
  funext l
  by_cases hl : ∃ i, S i l
  · obtain ⟨i, hi⟩ := hl
    rw [h3 i (List.mem_finRange i) l hi, ← h1 i l hi, he i]
    rfl
  · rw [h2 l fun i hi => hl ⟨i, hi⟩, h4 l fun i _ hi => hl ⟨i, hi⟩]

/-- The locations of a range. -/
def Own (r : Range) : Loc → Prop
  | .liquid b _ => ∃ c ∈ r, c.index = b
  | .powder b _ => ∃ c ∈ r, c.index = b
  | .dst g => ∃ c ∈ r, g ∈ c.dofs

theorem within_add (plus : ℝ → ℝ → ℝ) (S : Loc → Prop) (k : Code) (hk : k.Within S) (l : List (ℕ × ℝ)) (hl : ∀ e ∈ l, S (.dst e.1)) :
    (addCode plus k l).Within S := by
  induction l with
  | nil => exact hk
  | cons e l ih =>
    have h := ih fun e he => hl e (List.mem_cons_of_mem _ he)
    have h0 := hl e List.mem_cons_self
    exact ⟨h0, fun v => ⟨h0, h⟩⟩

theorem within_points (S : Loc → Prop) (b : Batch) (k : List (Lanes × Lanes) → Code) (hk : ∀ r, (k r).Within S)
    (h1 : ∀ q, S (.liquid b.index q)) (h2 : ∀ q, S (.powder b.index q)) (qs : List ℕ) (acc : List (Lanes × Lanes)) :
    (pointsCode b k qs acc).Within S := by
  induction qs generalizing acc with
  | nil => exact hk acc
  | cons q qs ih => exact ⟨h2 q, fun v => ⟨h1 q, h2 q, ih _⟩⟩

theorem within_range (plus : ℝ → ℝ → ℝ) (S : Loc → Prop) (r : Range) (h : ∀ l, Own r l → S l) : (rangeCode plus r).Within S := by
  induction r with
  | nil => trivial
  | cons b bs ih =>
    refine within_points S b _ (fun rs => ?_) (fun q => h _ ⟨b, List.mem_cons_self, rfl⟩) (fun q => h _ ⟨b, List.mem_cons_self, rfl⟩) _ _
    refine within_add plus S _ (ih fun l hl => h l ?_) _ fun e he => h _ ⟨b, List.mem_cons_self, b.local_dofs _ e he⟩
    cases l with
    | liquid b' q => obtain ⟨c, hc, e⟩ := hl; exact ⟨c, List.mem_cons_of_mem _ hc, e⟩
    | powder b' q => obtain ⟨c, hc, e⟩ := hl; exact ⟨c, List.mem_cons_of_mem _ hc, e⟩
    | dst g => obtain ⟨c, hc, e⟩ := hl; exact ⟨c, List.mem_cons_of_mem _ hc, e⟩

theorem run_add (plus : ℝ → ℝ → ℝ) (k : Code) (l : List (ℕ × ℝ)) (m : Memory) :
    (addCode plus k l).run m = k.run ((addCode plus .ret l).run m) := by
  induction l generalizing m with
  | nil => rfl
  | cons e l ih => exact ih _

/-- The memory after a batch. -/
def afterBatch (plus : ℝ → ℝ → ℝ) (m : Memory) (b : Batch) : Memory
  | .liquid c q => if c = b.index ∧ q ∈ b.points then (b.rule q (m (.powder c q))).1 else m (.liquid c q)
  | .powder c q => if c = b.index ∧ q ∈ b.points then (b.rule q (m (.powder c q))).2 else m (.powder c q)
  | .dst g => (contributions (fun c q => m (.powder c q)) g b).foldl plus (m (.dst g))

theorem run_add_spec (plus : ℝ → ℝ → ℝ) (l : List (ℕ × ℝ)) (m : Memory) :
    (∀ g, (addCode plus .ret l).run m (.dst g) = ((l.filter fun e => e.1 = g).map Prod.snd).foldl plus (m (.dst g))) ∧
    (∀ c q, (addCode plus .ret l).run m (.liquid c q) = m (.liquid c q)) ∧
    (∀ c q, (addCode plus .ret l).run m (.powder c q) = m (.powder c q)) := by
  induction l generalizing m with
  | nil => exact ⟨fun _ => rfl, fun _ _ => rfl, fun _ _ => rfl⟩
  | cons e l ih =>
    obtain ⟨g', v⟩ := e
    obtain ⟨h1, h2, h3⟩ := ih (Function.update m (.dst g') (plus (m (.dst g')) v))
    refine ⟨fun g => (h1 g).trans ?_, fun c q => (h2 c q).trans ?_, fun c q => (h3 c q).trans ?_⟩
    · by_cases e : g' = g
      · subst e; simp
      · rw [List.filter_cons, if_neg (by simpa using e), Function.update_of_ne (by simpa using fun h => e h.symm)]
    · rw [Function.update_of_ne (by simp)]
    · rw [Function.update_of_ne (by simp)]

/-- The memory after the points `qs` of a batch. -/
def afterPoints (m : Memory) (b : Batch) (qs : List ℕ) : Memory
  | .liquid c q => if c = b.index ∧ q ∈ qs then (b.rule q (m (.powder c q))).1 else m (.liquid c q)
  | .powder c q => if c = b.index ∧ q ∈ qs then (b.rule q (m (.powder c q))).2 else m (.powder c q)
  | .dst g => m (.dst g)

theorem run_points (b : Batch) (k : List (Lanes × Lanes) → Code) (qs : List ℕ) (hq : qs.Nodup) (acc : List (Lanes × Lanes)) (m : Memory) :
    (pointsCode b k qs acc).run m = (k (acc ++ qs.map fun q => b.rule q (m (.powder b.index q)))).run (afterPoints m b qs) := by
  induction qs generalizing acc m with
  | nil =>
    simp only [pointsCode, List.map_nil, List.append_nil]
    congr 1
    funext l
    cases l <;> simp [afterPoints]
  | cons q qs ih =>
    rw [List.nodup_cons] at hq
    simp only [pointsCode, Code.run]
    rw [ih hq.2]
    have hp : ∀ q' ∈ qs, (Function.update (Function.update m (.liquid b.index q) (b.rule q (m (.powder b.index q))).1) (.powder b.index q)
        (b.rule q (m (.powder b.index q))).2) (.powder b.index q') = m (.powder b.index q') := by
      intro q' hq'
      have : q' ≠ q := fun e => hq.1 (e ▸ hq')
      rw [Function.update_of_ne (by simpa using this), Function.update_of_ne (by simp)]
    congr 1
    · rw [List.append_assoc, List.map_cons]
      congr 2
      rw [List.singleton_append, List.cons.injEq]
      exact ⟨rfl, List.map_congr_left fun q' hq' => by rw [hp q' hq']⟩
    · funext l
      cases l with
      | dst g =>
        simp only [afterPoints]
        rw [Function.update_of_ne (by simp), Function.update_of_ne (by simp)]
      | liquid c x =>
        simp only [afterPoints, List.mem_cons]
        by_cases hc : c = b.index
        · subst hc
          by_cases hx : x = q
          · subst hx
            rw [if_neg (fun h => hq.1 h.2), if_pos ⟨rfl, Or.inl rfl⟩, Function.update_of_ne (by simp), Function.update_self]
          · by_cases hm : x ∈ qs
            · rw [if_pos ⟨rfl, hm⟩, if_pos ⟨rfl, Or.inr hm⟩, hp x hm]
            · rw [if_neg (fun h => hm h.2), if_neg (fun h => h.2.elim hx hm), Function.update_of_ne (by simp),
                Function.update_of_ne (by simpa using hx)]
        · rw [if_neg (fun h => hc h.1), if_neg (fun h => hc h.1), Function.update_of_ne (by simp),
            Function.update_of_ne (by simpa using fun h => absurd h hc)]
      | powder c x =>
        simp only [afterPoints, List.mem_cons]
        by_cases hc : c = b.index
        · subst hc
          by_cases hx : x = q
          · subst hx
            rw [if_neg (fun h => hq.1 h.2), if_pos ⟨rfl, Or.inl rfl⟩, Function.update_self]
          · by_cases hm : x ∈ qs
            · rw [if_pos ⟨rfl, hm⟩, if_pos ⟨rfl, Or.inr hm⟩, hp x hm]
            · rw [if_neg (fun h => hm h.2), if_neg (fun h => h.2.elim hx hm), Function.update_of_ne (by simpa using hx),
                Function.update_of_ne (by simp)]
        · rw [if_neg (fun h => hc h.1), if_neg (fun h => hc h.1), Function.update_of_ne (by simpa using fun h => absurd h hc),
            Function.update_of_ne (by simp)]

theorem run_range (plus : ℝ → ℝ → ℝ) (r : Range) (hq : ∀ b ∈ r, b.points.Nodup) (m : Memory) :
    (rangeCode plus r).run m = r.foldl (afterBatch plus) m := by
  induction r generalizing m with
  | nil => rfl
  | cons b bs ih =>
    rw [rangeCode, run_points b _ _ (hq b List.mem_cons_self), run_add, ih fun c hc => hq c (List.mem_cons_of_mem _ hc), List.foldl_cons]
    congr 1
    obtain ⟨h1, h2, h3⟩ := run_add_spec plus (b.integrate ([] ++ b.points.map fun q => b.rule q (m (.powder b.index q))))
      (afterPoints m b b.points)
    funext l
    cases l with
    | dst g => exact h1 g
    | liquid c q => exact h2 c q
    | powder c q => exact h3 c q

theorem phase_sequence (plus : ℝ → ℝ → ℝ) (ph : List Range) (hc : Coloured ph) (hq : ∀ r ∈ ph, ∀ b ∈ r, b.points.Nodup) (m : Memory)
    (schedule : List (Fin ph.length)) (he : ∀ i, (execute (fun i => rangeCode plus (ph.get i)) m schedule).1 i = .ret) :
    (execute (fun i => rangeCode plus (ph.get i)) m schedule).2 = ph.flatten.foldl (afterBatch plus) m := by
  rw [execute_sequence (fun i => Own (ph.get i)) ?_ _ (fun i => within_range plus _ _ fun _ h => h) m schedule he]
  · have h1 : ∀ (l : List (Fin ph.length)) (m : Memory), l.foldl (fun m i => (rangeCode plus (ph.get i)).run m) m =
        (l.map ph.get).flatten.foldl (afterBatch plus) m := by
      intro l
      induction l with
      | nil => intro m; rfl
      | cons i l ih =>
        intro m
        rw [List.foldl_cons, ih, List.map_cons, List.flatten_cons, List.foldl_append, run_range plus _ (hq _ (List.get_mem ph i))]
    rw [h1]
    congr 2
    exact List.map_get_finRange ph
  · intro i j l h1 h2
    by_contra hij
    cases l with
    | liquid c q =>
      obtain ⟨b, hb, rfl⟩ := h1
      obtain ⟨b', hb', e⟩ := h2
      exact (hc i j hij b hb b' hb').1 e.symm
    | powder c q =>
      obtain ⟨b, hb, rfl⟩ := h1
      obtain ⟨b', hb', e⟩ := h2
      exact (hc i j hij b hb b' hb').1 e.symm
    | dst g =>
      obtain ⟨b, hb, h1⟩ := h1
      obtain ⟨b', hb', h2⟩ := h2
      exact (hc i j hij b hb b' hb').2 g h1 h2

theorem runs_sequence (plus : ℝ → ℝ → ℝ) (phases : List (List Range)) (hc : ∀ ph ∈ phases, Coloured ph)
    (hq : ∀ ph ∈ phases, ∀ r ∈ ph, ∀ b ∈ r, b.points.Nodup) (m m' : Memory) (h : Runs plus phases m m') :
    m' = phases.flatten.flatten.foldl (afterBatch plus) m := by
  induction h with
  | done m => rfl
  | phase ph rest m m' schedule ended next ih =>
    rw [List.flatten_cons, List.flatten_append, List.foldl_append,
      ← phase_sequence plus ph (hc ph List.mem_cons_self) (hq ph List.mem_cons_self) m schedule ended]
    exact ih (fun p hp => hc p (List.mem_cons_of_mem _ hp)) fun p hp => hq p (List.mem_cons_of_mem _ hp)

theorem batches_spec (plus : ℝ → ℝ → ℝ) (bs : List Batch) (hn : (bs.map Batch.index).Nodup) (m : Memory) :
    (∀ b ∈ bs, ∀ q ∈ b.points, bs.foldl (afterBatch plus) m (.liquid b.index q) = (b.rule q (m (.powder b.index q))).1 ∧
      bs.foldl (afterBatch plus) m (.powder b.index q) = (b.rule q (m (.powder b.index q))).2) ∧
    (∀ c q, (∀ b ∈ bs, b.index = c → q ∉ b.points) → bs.foldl (afterBatch plus) m (.liquid c q) = m (.liquid c q) ∧
      bs.foldl (afterBatch plus) m (.powder c q) = m (.powder c q)) ∧
    (∀ g, bs.foldl (afterBatch plus) m (.dst g) =
      (bs.flatMap (contributions (fun c q => m (.powder c q)) g)).foldl plus (m (.dst g))) := by
  induction bs generalizing m with
  | nil => exact ⟨fun b hb => by simp at hb, fun _ _ _ => ⟨rfl, rfl⟩, fun _ => rfl⟩
  | cons a bs ih =>
    rw [List.map_cons, List.nodup_cons] at hn
    obtain ⟨h1, h2, h3⟩ := ih hn.2 (afterBatch plus m a)
    have hne : ∀ b ∈ bs, b.index ≠ a.index := fun b hb e => hn.1 (by rw [← e]; exact List.mem_map_of_mem hb)
    have hp : ∀ b ∈ bs, ∀ q, afterBatch plus m a (.powder b.index q) = m (.powder b.index q) := fun b hb q => by
      simp only [afterBatch]
      rw [if_neg fun h => hne b hb h.1]
    refine ⟨fun b hb q hq => ?_, fun c q hc => ?_, fun g => ?_⟩
    · rw [List.foldl_cons]
      rcases List.mem_cons.1 hb with rfl | hb
      · obtain ⟨e1, e2⟩ := h2 b.index q fun b' hb' e => absurd e (hne b' hb')
        rw [e1, e2]
        simp only [afterBatch]
        rw [if_pos ⟨trivial, hq⟩, if_pos ⟨trivial, hq⟩]
        exact ⟨rfl, rfl⟩
      · obtain ⟨e1, e2⟩ := h1 b hb q hq
        rw [e1, e2, hp b hb]
        exact ⟨rfl, rfl⟩
    · rw [List.foldl_cons]
      obtain ⟨e1, e2⟩ := h2 c q fun b hb => hc b (List.mem_cons_of_mem _ hb)
      rw [e1, e2]
      have := hc a List.mem_cons_self
      simp only [afterBatch]
      rw [if_neg fun h => this h.1.symm h.2, if_neg fun h => this h.1.symm h.2]
      exact ⟨rfl, rfl⟩
    · rw [List.foldl_cons, h3 g, List.flatMap_cons, List.foldl_append]
      have hf : bs.flatMap (contributions (fun c q => afterBatch plus m a (.powder c q)) g) =
          bs.flatMap (contributions (fun c q => m (.powder c q)) g) := by
        rw [List.flatMap_def, List.flatMap_def]
        congr 1
        refine List.map_congr_left fun b hb => ?_
        unfold contributions
        congr 3
        exact List.map_congr_left fun q _ => by beta_reduce; rw [hp b hb]
      rw [hf]
      rfl

/-! ## C142 -/

/-- **C142**. Every way in which the loop can run, on any number of threads, ends with the same memory, to the last digit: each point of each
batch has the fractions that its own old powder and temperature determine, whatever is not visited keeps its value, and each entry of
`dst` is its old value and then the contributions of the batches added in the fixed order of the phases, ranges and batches. -/
theorem C142_every_schedule (plus : ℝ → ℝ → ℝ) (phases : List (List Range)) (hc : ∀ ph ∈ phases, Coloured ph)
    (hq : ∀ ph ∈ phases, ∀ r ∈ ph, ∀ b ∈ r, b.points.Nodup) (hn : (phases.flatten.flatten.map Batch.index).Nodup) (m m' : Memory)
    (h : Runs plus phases m m') :
    (∀ b ∈ phases.flatten.flatten, ∀ q ∈ b.points, m' (.liquid b.index q) = (b.rule q (m (.powder b.index q))).1 ∧
      m' (.powder b.index q) = (b.rule q (m (.powder b.index q))).2) ∧
    (∀ c q, (∀ b ∈ phases.flatten.flatten, b.index = c → q ∉ b.points) → m' (.liquid c q) = m (.liquid c q) ∧
      m' (.powder c q) = m (.powder c q)) ∧
    (∀ g, m' (.dst g) = (phases.flatten.flatten.flatMap (contributions (fun c q => m (.powder c q)) g)).foldl plus (m (.dst g))) := by
  rw [runs_sequence plus phases hc hq m m' h]
  exact batches_spec plus _ hn m

/-- **C142**: two runs end with the same memory, whatever the rounding. -/
theorem C142_reproducible (plus : ℝ → ℝ → ℝ) (phases : List (List Range)) (hc : ∀ ph ∈ phases, Coloured ph)
    (hq : ∀ ph ∈ phases, ∀ r ∈ ph, ∀ b ∈ r, b.points.Nodup) (m m' m'' : Memory) (h' : Runs plus phases m m') (h'' : Runs plus phases m m'') :
    m' = m'' := by
  rw [runs_sequence plus phases hc hq m m' h', runs_sequence plus phases hc hq m m'' h'']

theorem finish_one {n : ℕ} (i : Fin n) (c : Code) : ∀ (p : Fin n → Code) (m : Memory), p i = c →
    ∃ l, (execute p m l).1 = Function.update p i .ret := by
  induction c with
  | ret => exact fun p m h => ⟨[], by rw [← h, Function.update_eq_self]; rfl⟩
  | read l k ih =>
    intro p m h
    obtain ⟨σ, hσ⟩ := ih (m l) (Function.update p i (k (m l))) m (Function.update_self ..)
    refine ⟨i :: σ, ?_⟩
    have : turn (p, m) i = (Function.update p i (k (m l)), m) := by simp [turn, h, Code.step]
    change (σ.foldl turn (turn (p, m) i)).1 = _
    rw [this]
    exact hσ.trans (Function.update_idem ..)
  | write l v k ih =>
    intro p m h
    obtain ⟨σ, hσ⟩ := ih (Function.update p i k) (Function.update m l v) (Function.update_self ..)
    refine ⟨i :: σ, ?_⟩
    have : turn (p, m) i = (Function.update p i k, Function.update m l v) := by simp [turn, h, Code.step]
    change (σ.foldl turn (turn (p, m) i)).1 = _
    rw [this]
    exact hσ.trans (Function.update_idem ..)

theorem finish_all {n : ℕ} (order : List (Fin n)) : ∀ (p : Fin n → Code) (m : Memory),
    ∃ l, ∀ i, (i ∈ order ∨ p i = .ret) → (execute p m l).1 i = .ret := by
  induction order with
  | nil => exact fun p m => ⟨[], fun i h => h.elim (fun h => by simp at h) id⟩
  | cons j order ih =>
    intro p m
    obtain ⟨l, hl⟩ := finish_one j (p j) p m rfl
    obtain ⟨l', hl'⟩ := ih (execute p m l).1 (execute p m l).2
    refine ⟨l ++ l', fun i hi => ?_⟩
    have e : execute p m (l ++ l') = execute (execute p m l).1 (execute p m l).2 l' := by
      unfold execute; rw [List.foldl_append]
    rw [e]
    apply hl'
    by_cases hij : i = j
    · right; rw [hl, hij, Function.update_self]
    · rcases hi with hi | hi
      · rcases List.mem_cons.1 hi with h | h
        · exact absurd h hij
        · exact Or.inl h
      · right; rw [hl, Function.update_of_ne hij]; exact hi

/-- **C142**: the loop can always end. -/
theorem C142_can_end (plus : ℝ → ℝ → ℝ) (phases : List (List Range)) (m : Memory) : ∃ m', Runs plus phases m m' := by
  induction phases generalizing m with
  | nil => exact ⟨m, .done m⟩
  | cons ph rest ih =>
    obtain ⟨l, hl⟩ := finish_all (List.finRange ph.length) (fun i => rangeCode plus (ph.get i)) m
    obtain ⟨m', h⟩ := ih (execute (fun i => rangeCode plus (ph.get i)) m l).2
    exact ⟨m', .phase ph rest m m' l (fun i => hl i (Or.inl (List.mem_finRange i))) h⟩

/-- A batch that adds one to entry 0. -/
def addOne (i : ℕ) : Batch := ⟨i, [], [0], fun _ w => (w, w), fun _ => [(0, 1)], fun _ e h => by simp_all⟩

/-- **C142**: the colouring is needed: two batches with a common degree of freedom in the same phase lose a contribution under some schedule. -/
theorem C142_needs_colours (m : Memory) : ∃ m', Runs (· + ·) [[[addOne 0], [addOne 1]]] m m' ∧ m' (.dst 0) = m (.dst 0) + 1 := by
  refine ⟨_, .phase _ _ _ _ [0, 1, 0, 1] ?_ (.done _), ?_⟩
  · intro i
    match i with
    | ⟨0, _⟩ => rfl
    | ⟨1, _⟩ => rfl
  · rfl

/-- Two phases of two ranges, which share no degree of freedom within a phase, and each of the batches 0 and 2 shares one with the next
phase: the hypotheses are met. -/
def quad (i g : ℕ) : Batch := ⟨i, [0, 1], [g, g + 1], fun _ w => (fun n => 1 - w n, w), fun r => [(g, r.length), (g + 1, 1)], fun _ e h => by
  rcases List.mem_cons.1 h with rfl | h
  · simp
  · simp_all⟩

example : (∀ ph ∈ [[[quad 0 0], [quad 2 4]], [[quad 1 1], [quad 3 5]]], Coloured ph) ∧
    ([[[quad 0 0], [quad 2 4]], [[quad 1 1], [quad 3 5]]].flatten.flatten.map Batch.index).Nodup := by
  constructor
  · intro ph hph
    simp only [List.mem_cons, List.not_mem_nil, or_false] at hph
    rcases hph with rfl | rfl
    · intro i j hij b hb c hc
      match i, j with
      | ⟨0, _⟩, ⟨0, _⟩ => exact absurd rfl hij
      | ⟨1, _⟩, ⟨1, _⟩ => exact absurd rfl hij
      | ⟨0, _⟩, ⟨1, _⟩ => simp at hb hc; subst hb hc; simp [quad]
      | ⟨1, _⟩, ⟨0, _⟩ => simp at hb hc; subst hb hc; simp [quad]
    · intro i j hij b hb c hc
      match i, j with
      | ⟨0, _⟩, ⟨0, _⟩ => exact absurd rfl hij
      | ⟨1, _⟩, ⟨1, _⟩ => exact absurd rfl hij
      | ⟨0, _⟩, ⟨1, _⟩ => simp at hb hc; subst hb hc; simp [quad]
      | ⟨1, _⟩, ⟨0, _⟩ => simp at hb hc; subst hb hc; simp [quad]
  · simp [quad]

end Verif.HostThreads
