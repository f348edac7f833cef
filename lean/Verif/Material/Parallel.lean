import Verif.Material.Update
import Verif.Material.CellState

/-!
# C139: the material update on many threads

Model of the kernel `adamantine::update_material_properties` launched by `MaterialProperty::update`,
`source/MaterialProperty.templates.hh:262-444`, and of the kernels `adamantine::set_state_device` (`:693-730`) and
`adamantine::set_initial_state` (`:788-793`), one memory access at a time.  `Kokkos::parallel_for` gives one thread per locally owned
cell and says nothing about their order; the threads share the views `_state`, `_property_values` and the vector of average temperatures.
The material data (`properties`, the tables and the polynomials) are never written by the kernel and are therefore values.
-/

namespace Verif.Material.Parallel

open Verif.Material Verif.Material.Fill

/-! ## Threads with a shared memory -/

/-- The arrays that the kernel reads and writes: `_state(j, d)`, `_property_values(j, d)` and `temperature_average[d]`,
`source/MaterialProperty.templates.hh:256-260`, `:283-293`. -/
inductive Loc where
  | state (j d : ℕ)
  | value (j d : ℕ)
  | temperature (d : ℕ)
  deriving DecidableEq

/-- The column of an entry: the index `dof` of the kernel. -/
def Loc.column : Loc → ℕ
  | .state _ d => d
  | .value _ d => d
  | .temperature d => d

/-- The shared memory. -/
abbrev Memory := Loc → ℝ

/-- A program: the accesses to the shared memory in the order of the C++ statements; what happens between them is in the
continuation. -/
inductive Code (α : Type) where
  | ret (a : α)
  | read (l : Loc) (k : ℝ → Code α)
  | write (l : Loc) (v : ℝ) (k : Code α)

/-- One statement after the other. -/
def Code.bind {α β : Type} : Code α → (α → Code β) → Code β
  | .ret a, f => f a
  | .read l k, f => .read l fun v => (k v).bind f
  | .write l v k, f => .write l v (k.bind f)

/-- `for (a : l) f(a);` -/
def Code.forEach {α : Type} (f : α → Code Unit) : List α → Code Unit
  | [] => .ret ()
  | a :: l => (f a).bind fun _ => forEach f l

/-- Running a program alone. -/
def Code.run {α : Type} : Code α → Memory → α × Memory
  | .ret a, m => (a, m)
  | .read l k, m => (k (m l)).run m
  | .write l v k, m => k.run (Function.update m l v)

/-- One access of a program. -/
def Code.step {α : Type} : Code α → Memory → Code α × Memory
  | .ret a, m => (.ret a, m)
  | .read l k, m => (k (m l), m)
  | .write l v k, m => (k, Function.update m l v)

/-- What is left of each of the `n` threads. -/
abbrev Pool (n : ℕ) := Fin n → Code Unit

/-- The scheduler lets thread `i` make one access. -/
def turn {n : ℕ} (s : Pool n × Memory) (i : Fin n) : Pool n × Memory :=
  (Function.update s.1 i ((s.1 i).step s.2).1, ((s.1 i).step s.2).2)

/-- `Kokkos::parallel_for` under a schedule: who makes the next access. -/
def execute {n : ℕ} (p : Pool n) (m : Memory) (schedule : List (Fin n)) : Pool n × Memory := schedule.foldl turn (p, m)

/-- All threads have ended: the fence after the kernel. -/
def Ended {n : ℕ} (p : Pool n) : Prop := ∀ i, p i = .ret ()

/-! ## The kernel -/

/-- `values(p, d) += state(st, d) * g(T[d])`: the three loads and the store,
`source/MaterialProperty.templates.hh:365-370`, `:385-390`. -/
def accumulate (p st d : ℕ) (g : ℝ → ℝ → ℝ) : Code Unit :=
  .read (.state st d) fun s => .read (.temperature d) fun T => .read (.value p d) fun v => .write (.value p d) (v + g s T) (.ret ())

/-- The liquid ratio, `source/MaterialProperty.templates.hh:322-329`; a NaN is whatever the division gives. -/
noncomputable def liquidCode (solidus liquidus : ℝ) (d : ℕ) : Code ℝ :=
  .read (.temperature d) fun T =>
    if T < solidus then .ret 0
    else .read (.temperature d) fun T' =>
      if liquidus < T' then .ret 1
      else .read (.temperature d) fun T'' => .ret ((T'' - solidus) / (liquidus - solidus))

/-- The ratios and their stores, `source/MaterialProperty.templates.hh:315-355`; the result is the liquid ratio, which is still
needed. -/
noncomputable def ratioCode (k : Kind) (solidus liquidus : ℝ) (d : ℕ) : Code ℝ :=
  match k with
  | .solid => .write (.state 0 d) 1 (.ret 0)
  | .solidLiquid => (liquidCode solidus liquidus d).bind fun l => .write (.state 1 d) l (.write (.state 0 d) (1 - l) (.ret l))
  | .solidLiquidPowder => (liquidCode solidus liquidus d).bind fun l => .read (.state 2 d) fun p =>
      .write (.state 2 d) (min (1 - l) p) (.write (.state 1 d) l (.write (.state 0 d) (1 - l - min (1 - l) p) (.ret l)))

/-- The loops over the properties, the states and the coefficients, `source/MaterialProperty.templates.hh:357-397`. -/
noncomputable def propertyCode (first : ℕ) (c : Config) (r : Filled) (mat d : ℕ) : Code Unit :=
  Code.forEach (fun p => Code.forEach (fun st =>
    if r.useTable then accumulate p st d fun s T => s * lookup c.tableSize (r.store.table mat p st) T
    else Code.forEach (fun i => accumulate p st d fun s T => s * r.store.poly mat p st i * T ^ i) (List.range (c.pOrder + 1)))
    (List.range c.nStates)) ((List.range nThermal).drop first)

open Classical in
/-- The latent heat, `source/MaterialProperty.templates.hh:399-420`. -/
noncomputable def latentCode (c : Config) (k : Kind) (r : Filled) (mat d : ℕ) (l : ℝ) : Code Unit :=
  if k ≠ .solid ∧ 0 < l ∧ l < 1 then
    Code.forEach (fun st => .read (.state st d) fun s => .read (.value 1 d) fun v =>
      .write (.value 1 d) (v + s * r.constant mat 2 / (r.constant mat 0 - r.constant mat 1)) (.ret ())) (List.range c.nStates)
  else .ret ()

open Classical in
/-- The radiative coefficient, `source/MaterialProperty.templates.hh:422-443`. -/
noncomputable def radiationCode (c : Config) (r : Filled) (mat d : ℕ) : Code Unit :=
  if r.constant mat 3 ≠ c.maxDouble then
    .read (.temperature d) fun T => .read (.value 5 d) fun e => .write (.value 6 d) (radiativeCoef e T (r.constant mat 3)) (.ret ())
  else .ret ()

/-- The body of the kernel for a cell of material `mat` whose column is `d`, `source/MaterialProperty.templates.hh:294-444`. -/
noncomputable def kernel (c : Config) (k : Kind) (r : Filled) (mat d : ℕ) : Code Unit :=
  (ratioCode k (r.constant mat 1) (r.constant mat 0) d).bind fun l =>
    (propertyCode 0 c r mat d).bind fun _ => (latentCode c k r mat d l).bind fun _ => radiationCode c r mat d

/-- `_property_values = Kokkos::View(...)`: a new view, which is zero, `source/MaterialProperty.templates.hh:257-260`. -/
def newValues (m : Memory) : Memory
  | .value _ _ => 0
  | .state j d => m (.state j d)
  | .temperature d => m (.temperature d)

/-- The kernel is launched over the locally owned cells in the order of the iterators; `mp_dofs(i)` is
`_dofs_map.at(mp_dof[0])`, `source/MaterialProperty.templates.hh:262-293`. -/
noncomputable def launch {κ : Type} (c : Config) (k : Kind) (r : Filled) (dof material : κ → ℕ) (cells : List κ) :
    Pool cells.length := fun i =>
  kernel c k r (material (cells.get i)) ((CellState.getDofIndex dof cells (cells.get i)).getD 0)

/-! ## Threads that do not share entries -/

/-- All accesses are in `S`. -/
def Code.Within {α : Type} (S : Loc → Prop) : Code α → Prop
  | .ret _ => True
  | .read l k => S l ∧ ∀ v, (k v).Within S
  | .write l _ k => S l ∧ k.Within S

theorem within_bind {α β : Type} (S : Loc → Prop) (p : Code α) (f : α → Code β) (hp : p.Within S) (hf : ∀ a, (f a).Within S) :
    (p.bind f).Within S := by
  induction p with
  | ret a => exact hf a
  | read l k ih => exact ⟨hp.1, fun v => ih v (hp.2 v)⟩
  | write l v k ih => exact ⟨hp.1, ih hp.2⟩

theorem within_forEach {α : Type} (S : Loc → Prop) (f : α → Code Unit) (hf : ∀ a, (f a).Within S) (l : List α) :
    (Code.forEach f l).Within S := by
  induction l with
  | nil => trivial
  | cons a l ih => exact within_bind S _ _ (hf a) fun _ => ih

theorem run_bind {α β : Type} (p : Code α) (f : α → Code β) (m : Memory) :
    (p.bind f).run m = (f (p.run m).1).run (p.run m).2 := by
  induction p generalizing m with
  | ret a => rfl
  | read l k ih => exact ih _ _
  | write l v k ih => exact ih _

theorem run_step {α : Type} (p : Code α) (m : Memory) : (p.step m).1.run (p.step m).2 = p.run m := by cases p <;> rfl

theorem step_within {α : Type} (S : Loc → Prop) (p : Code α) (hp : p.Within S) (m : Memory) :
    (p.step m).1.Within S ∧ ∀ l, ¬ S l → (p.step m).2 l = m l := by
  cases p with
  | ret a => exact ⟨trivial, fun _ _ => rfl⟩
  | read l k => exact ⟨hp.2 _, fun _ _ => rfl⟩
  | write l v k => exact ⟨hp.2, fun l' h => Function.update_of_ne (fun e => h (by rw [e]; exact hp.1)) _ _⟩

/-- What a program does to its region depends only on its region. -/
theorem run_congr {α : Type} (S : Loc → Prop) (p : Code α) (hp : p.Within S) (m m' : Memory) (h : ∀ l, S l → m l = m' l) :
    ∀ l, S l → (p.run m).2 l = (p.run m').2 l := by
  induction p generalizing m m' with
  | ret a => exact h
  | read l k ih =>
    simp only [Code.run]
    rw [h l hp.1]
    exact ih _ (hp.2 _) m m' h
  | write l v k ih =>
    refine ih hp.2 _ _ fun l' hl' => ?_
    by_cases e : l' = l
    · subst e; simp
    · rw [Function.update_of_ne e, Function.update_of_ne e, h l' hl']

theorem run_frame {α : Type} (S : Loc → Prop) (p : Code α) (hp : p.Within S) (m : Memory) :
    ∀ l, ¬ S l → (p.run m).2 l = m l := by
  induction p generalizing m with
  | ret a => exact fun _ _ => rfl
  | read l k ih => exact ih _ (hp.2 _) m
  | write l v k ih =>
    intro l' hl'
    rw [show (Code.run (.write l v k) m).2 l' = (k.run (Function.update m l v)).2 l' from rfl, ih hp.2 _ l' hl',
      Function.update_of_ne fun e => hl' (by rw [e]; exact hp.1)]

/-- The invariant of a schedule. -/
theorem execute_inv {n : ℕ} (S : Fin n → Loc → Prop) (hS : ∀ i j l, S i l → S j l → i = j) (schedule : List (Fin n)) :
    ∀ (p : Pool n) (m : Memory), (∀ i, (p i).Within (S i)) →
      (∀ i, ((execute p m schedule).1 i).Within (S i)) ∧
      (∀ i l, S i l → (((execute p m schedule).1 i).run (execute p m schedule).2).2 l = ((p i).run m).2 l) ∧
      (∀ l, (∀ i, ¬ S i l) → (execute p m schedule).2 l = m l) := by
  induction schedule with
  | nil => exact fun p m h => ⟨h, fun _ _ _ => rfl, fun _ _ => rfl⟩
  | cons j σ ih =>
    intro p m h
    have hj := step_within (S j) (p j) (h j) m
    have hw : ∀ i, ((turn (p, m) j).1 i).Within (S i) := by
      intro i
      by_cases e : i = j
      · subst e; simpa [turn] using hj.1
      · simpa [turn, Function.update_of_ne e] using h i
    obtain ⟨h1, h2, h3⟩ := ih (turn (p, m) j).1 (turn (p, m) j).2 hw
    refine ⟨h1, fun i l hl => (h2 i l hl).trans ?_, fun l hl => (h3 l hl).trans (hj.2 l (hl j))⟩
    by_cases e : i = j
    · subst e
      simp only [turn, Function.update_self]
      rw [run_step]
    · simp only [turn, Function.update_of_ne e]
      exact run_congr (S i) (p i) (h i) _ _ (fun l' hl' => hj.2 l' fun hl'' => e (hS i j l' hl' hl'')) l hl

/-- Threads whose accesses are in disjoint regions: whatever the schedule, each region ends as if its thread had run alone. -/
theorem execute_disjoint {n : ℕ} (S : Fin n → Loc → Prop) (hS : ∀ i j l, S i l → S j l → i = j) (p : Pool n)
    (hp : ∀ i, (p i).Within (S i)) (m : Memory) (schedule : List (Fin n)) (he : Ended (execute p m schedule).1) :
    (∀ i l, S i l → (execute p m schedule).2 l = ((p i).run m).2 l) ∧ ∀ l, (∀ i, ¬ S i l) → (execute p m schedule).2 l = m l := by
  obtain ⟨-, h2, h3⟩ := execute_inv S hS schedule p m hp
  refine ⟨fun i l hl => ?_, h3⟩
  have := h2 i l hl
  rw [he i] at this
  exact this

/-- A thread can be run to its end. -/
theorem finish_one {n : ℕ} (i : Fin n) (q : Code Unit) : ∀ (p : Pool n) (m : Memory), p i = q →
    ∃ k, execute p m (List.replicate k i) = (Function.update p i (.ret ()), ((p i).run m).2) := by
  induction q with
  | ret a =>
    intro p m hq
    refine ⟨0, ?_⟩
    have : Function.update p i (.ret ()) = p := by
      rw [show (Code.ret () : Code Unit) = p i by rw [hq]]
      exact Function.update_eq_self i p
    simp only [execute, List.replicate_zero, List.foldl_nil, this]
    rw [hq]
    rfl
  | read l c ih =>
    intro p m hq
    obtain ⟨k, hk⟩ := ih (m l) (Function.update p i (c (m l))) m (by simp)
    refine ⟨k + 1, ?_⟩
    rw [List.replicate_succ]
    simp only [execute, List.foldl_cons, turn, hq, Code.step] at hk ⊢
    rw [hk]
    simp [Code.run]
  | write l v c ih =>
    intro p m hq
    obtain ⟨k, hk⟩ := ih (Function.update p i c) (Function.update m l v) (by simp)
    refine ⟨k + 1, ?_⟩
    rw [List.replicate_succ]
    simp only [execute, List.foldl_cons, turn, hq, Code.step] at hk ⊢
    rw [hk]
    simp [Code.run]

/-- From every point there is a schedule that ends all threads, so that the kernel cannot be stuck. -/
theorem can_finish {n : ℕ} (p : Pool n) (m : Memory) : ∃ schedule, Ended (execute p m schedule).1 := by
  have : ∀ (todo : List (Fin n)) (p : Pool n) (m : Memory), (∀ i, i ∉ todo → p i = .ret ()) →
      ∃ schedule, Ended (execute p m schedule).1 := by
    intro todo
    induction todo with
    | nil => exact fun p m h => ⟨[], fun i => h i (by simp)⟩
    | cons j t ih =>
      intro p m h
      obtain ⟨k, hk⟩ := finish_one j (p j) p m rfl
      obtain ⟨σ, hσ⟩ := ih (Function.update p j (.ret ())) ((p j).run m).2 (by
        intro i hi
        by_cases e : i = j
        · subst e; simp
        · rw [Function.update_of_ne e]; exact h i (by simp [e, hi]))
      refine ⟨List.replicate k j ++ σ, ?_⟩
      unfold execute at hk hσ ⊢
      rw [List.foldl_append, hk]
      exact hσ
  exact this (List.finRange n) p m fun i hi => absurd (List.mem_finRange i) hi

/-! ## The accesses of the kernel -/

/-- The entries of column `d`. -/
def inColumn (d : ℕ) : Loc → Prop := fun l => l.column = d

theorem accumulate_within (p st d : ℕ) (g : ℝ → ℝ → ℝ) : (accumulate p st d g).Within (inColumn d) :=
  ⟨rfl, fun _ => ⟨rfl, fun _ => ⟨rfl, fun _ => ⟨rfl, trivial⟩⟩⟩⟩

theorem liquidCode_within (a b : ℝ) (d : ℕ) : (liquidCode a b d).Within (inColumn d) := by
  refine ⟨rfl, fun T => ?_⟩
  dsimp only
  split_ifs
  · trivial
  · refine ⟨rfl, fun T' => ?_⟩
    dsimp only
    split_ifs
    · trivial
    · exact ⟨rfl, fun _ => trivial⟩

theorem kernel_within (c : Config) (k : Kind) (r : Filled) (mat d : ℕ) : (kernel c k r mat d).Within (inColumn d) := by
  refine within_bind _ _ _ ?_ fun l => within_bind _ _ _ ?_ fun _ => within_bind _ _ _ ?_ fun _ => ?_
  · cases k with
    | solid => exact ⟨rfl, trivial⟩
    | solidLiquid => exact within_bind _ _ _ (liquidCode_within _ _ _) fun l => ⟨rfl, rfl, trivial⟩
    | solidLiquidPowder =>
      exact within_bind _ _ _ (liquidCode_within _ _ _) fun l => ⟨rfl, fun p => ⟨rfl, rfl, rfl, trivial⟩⟩
  · refine within_forEach _ _ (fun p => within_forEach _ _ (fun st => ?_) _) _
    split_ifs
    · exact accumulate_within _ _ _ _
    · exact within_forEach _ _ (fun i => accumulate_within _ _ _ _) _
  · unfold latentCode
    split_ifs
    · refine within_forEach _ _ (fun st => ?_) _
      exact ⟨rfl, fun _ => ⟨rfl, fun _ => ⟨rfl, trivial⟩⟩⟩
    · trivial
  · unfold radiationCode
    split_ifs
    · exact ⟨rfl, fun _ => ⟨rfl, fun _ => ⟨rfl, trivial⟩⟩⟩
    · trivial

/-! ## What the kernel computes -/

/-- The column `d` of the memory holds the state `s` and the temperature `T`. -/
def Holds (d : ℕ) (s : ℕ → ℝ) (T : ℝ) (m : Memory) : Prop := (∀ j, m (.state j d) = s j) ∧ m (.temperature d) = T

theorem holds_update {d : ℕ} {s : ℕ → ℝ} {T : ℝ} {m : Memory} (h : Holds d s T m) (p e : ℕ) (v : ℝ) :
    Holds d s T (Function.update m (.value p e) v) :=
  ⟨fun j => by rw [Function.update_of_ne (by simp)]; exact h.1 j, by rw [Function.update_of_ne (by simp)]; exact h.2⟩

theorem forEach_one {α : Type} (d p : ℕ) (s : ℕ → ℝ) (T : ℝ) (f : α → Code Unit) (G : α → ℝ → ℝ)
    (hf : ∀ a m, Holds d s T m → (f a).run m = ((), Function.update m (.value p d) (G a (m (.value p d))))) (l : List α) :
    ∀ m, Holds d s T m →
      (Code.forEach f l).run m = ((), Function.update m (.value p d) (l.foldl (fun v a => G a v) (m (.value p d)))) := by
  induction l with
  | nil => intro m _; simp [Code.forEach, Code.run]
  | cons a l ih =>
    intro m hm
    rw [Code.forEach, run_bind, hf a m hm]
    dsimp only
    rw [ih _ (holds_update hm _ _ _)]
    simp

theorem forEach_props (d : ℕ) (s : ℕ → ℝ) (T : ℝ) (f : ℕ → Code Unit) (H : ℕ → ℝ → ℝ)
    (hf : ∀ p m, Holds d s T m → (f p).run m = ((), Function.update m (.value p d) (H p (m (.value p d))))) (l : List ℕ)
    (hl : l.Nodup) : ∀ m, Holds d s T m →
      Holds d s T ((Code.forEach f l).run m).2 ∧
      ∀ p, ((Code.forEach f l).run m).2 (.value p d) = if p ∈ l then H p (m (.value p d)) else m (.value p d) := by
  induction l with
  | nil => intro m hm; exact ⟨hm, fun p => by simp [Code.forEach, Code.run]⟩
  | cons a l ih =>
    intro m hm
    rw [List.nodup_cons] at hl
    rw [Code.forEach, run_bind, hf a m hm]
    dsimp only
    obtain ⟨h1, h2⟩ := ih hl.2 _ (holds_update hm a d (H a (m (.value a d))))
    refine ⟨h1, fun p => ?_⟩
    rw [h2 p]
    by_cases e : p = a
    · subst e
      simp [hl.1]
    · have : (Loc.value p d) ≠ .value a d := by simp [e]
      rw [Function.update_of_ne this]
      simp [e]

theorem accumulate_run (p st d : ℕ) (g : ℝ → ℝ → ℝ) (s : ℕ → ℝ) (T : ℝ) (m : Memory) (h : Holds d s T m) :
    (accumulate p st d g).run m = ((), Function.update m (.value p d) (m (.value p d) + g (s st) T)) := by
  simp only [accumulate, Code.run, h.1, h.2]

/-- The inner loops of one property, started at `v`. -/
noncomputable def addedTo (c : Config) (r : Filled) (mat : ℕ) (s : ℕ → ℝ) (T : ℝ) (p : ℕ) (v : ℝ) : ℝ :=
  (List.range c.nStates).foldl (fun v st =>
    if r.useTable then v + s st * lookup c.tableSize (r.store.table mat p st) T
    else (List.range (c.pOrder + 1)).foldl (fun v i => v + s st * r.store.poly mat p st i * T ^ i) v) v

theorem propertyCode_run (c : Config) (r : Filled) (mat d : ℕ) (T : ℝ) (m : Memory) (s : ℕ → ℝ) (h : Holds d s T m) :
    Holds d s T ((propertyCode 0 c r mat d).run m).2 ∧
      ∀ p, ((propertyCode 0 c r mat d).run m).2 (.value p d) =
        if p < 8 then addedTo c r mat s T p (m (.value p d)) else m (.value p d) := by
  unfold propertyCode
  rw [List.drop_zero]
  have inner : ∀ p m, Holds d s T m → (Code.forEach (fun st =>
      if r.useTable then accumulate p st d fun s T => s * lookup c.tableSize (r.store.table mat p st) T
      else Code.forEach (fun i => accumulate p st d fun s T => s * r.store.poly mat p st i * T ^ i) (List.range (c.pOrder + 1)))
      (List.range c.nStates)).run m = ((), Function.update m (.value p d) (addedTo c r mat s T p (m (.value p d)))) := by
    intro p m hm
    refine forEach_one d p s T _ (fun st v => if r.useTable then v + s st * lookup c.tableSize (r.store.table mat p st) T
        else (List.range (c.pOrder + 1)).foldl (fun v i => v + s st * r.store.poly mat p st i * T ^ i) v) ?_ _ m hm
    intro st m hm
    split_ifs
    · exact accumulate_run p st d _ s T m hm
    · exact forEach_one d p s T _ (fun i v => v + s st * r.store.poly mat p st i * T ^ i)
        (fun i m hm => accumulate_run p st d _ s T m hm) _ m hm
  obtain ⟨h1, h2⟩ := forEach_props d s T _ (addedTo c r mat s T) inner (List.range nThermal) List.nodup_range m h
  refine ⟨h1, fun p => (h2 p).trans ?_⟩
  simp only [List.mem_range, nThermal]

theorem addedTo_mixture (c : Config) (r : Filled) (mat : ℕ) (x : Ratios) (T : ℝ) (s : ℕ → ℝ)
    (hs : ∀ j < c.nStates, s j = ratioOf x j) (p : ℕ) : addedTo c r mat s T p 0 = mixture c r mat x T p := by
  unfold addedTo mixture looped
  split_ifs with hu
  · refine List.foldl_ext _ _ _ fun v st hst => ?_
    rw [hs st (by simpa using hst)]
  · refine List.foldl_ext _ _ _ fun v st hst => ?_
    rw [hs st (by simpa using hst)]

theorem liquidCode_run (a b : ℝ) (d : ℕ) (m : Memory) (l : ℝ) (h : liquidRatio ⟨a, b⟩ (m (.temperature d)) = some l) :
    (liquidCode a b d).run m = (l, m) := by
  unfold liquidRatio at h
  dsimp only at h
  simp only [liquidCode, Code.run]
  split_ifs at h with h1 h2 h3
  · rw [if_pos h1]; cases h; rfl
  · rw [if_neg h1]; simp only [Code.run]; rw [if_pos h2]; cases h; rfl
  · rw [if_neg h1]; simp only [Code.run]; rw [if_neg h2]; cases h; rfl

theorem ratioCode_run (k : Kind) (melt : Melt) (d : ℕ) (m : Memory) (x : Ratios)
    (h : updateCell k melt ⟨m (.state 0 d), m (.state 1 d), m (.state 2 d)⟩ (m (.temperature d)) = some x) :
    ((ratioCode k melt.solidus melt.liquidus d).run m).1 = x.liquid ∧
    (∀ j < statesOf k, ((ratioCode k melt.solidus melt.liquidus d).run m).2 (.state j d) = ratioOf x j) ∧
    (∀ p, ((ratioCode k melt.solidus melt.liquidus d).run m).2 (.value p d) = m (.value p d)) ∧
    ((ratioCode k melt.solidus melt.liquidus d).run m).2 (.temperature d) = m (.temperature d) := by
  unfold updateCell at h
  cases k with
  | solid =>
    simp only [if_true, Option.some.injEq] at h
    subst h
    refine ⟨rfl, fun j hj => ?_, fun p => ?_, ?_⟩
    · have : j = 0 := by simpa [statesOf] using hj
      subst this
      simp [ratioCode, Code.run, phase, ratioOf]
    all_goals simp [ratioCode, Code.run]
  | solidLiquid =>
    rw [if_neg (by decide), Option.map_eq_some_iff] at h
    obtain ⟨l, hl, rfl⟩ := h
    have hr := liquidCode_run melt.solidus melt.liquidus d m l hl
    simp only [ratioCode, run_bind, hr, Code.run]
    refine ⟨rfl, fun j hj => ?_, fun p => by simp, by simp⟩
    have : j = 0 ∨ j = 1 := by simp only [statesOf] at hj; omega
    rcases this with rfl | rfl <;> simp [phase, ratioOf]
  | solidLiquidPowder =>
    rw [if_neg (by decide), Option.map_eq_some_iff] at h
    obtain ⟨l, hl, rfl⟩ := h
    have hr := liquidCode_run melt.solidus melt.liquidus d m l hl
    simp only [ratioCode, run_bind, hr, Code.run]
    refine ⟨rfl, fun j hj => ?_, fun p => by simp, by simp⟩
    have : j = 0 ∨ j = 1 ∨ j = 2 := by simp only [statesOf] at hj; omega
    rcases this with rfl | rfl | rfl <;> simp [phase, ratioOf]

theorem latentCode_run (c : Config) (k : Kind) (r : Filled) (mat d : ℕ) (x : Ratios) (T : ℝ) (m : Memory) (s v : ℕ → ℝ)
    (hs : ∀ j < c.nStates, s j = ratioOf x j) (h : Holds d s T m) (hv : ∀ p, m (.value p d) = v p) :
    Holds d s T ((latentCode c k r mat d x.liquid).run m).2 ∧
      ∀ p, ((latentCode c k r mat d x.liquid).run m).2 (.value p d) = addLatent c k r mat x v p := by
  unfold latentCode addLatent
  split_ifs with hc
  · have := forEach_one d 1 s T (fun st => Code.read (.state st d) fun s => .read (.value 1 d) fun v =>
        .write (.value 1 d) (v + s * r.constant mat 2 / (r.constant mat 0 - r.constant mat 1)) (.ret ()))
      (fun st v => v + s st * r.constant mat 2 / (r.constant mat 0 - r.constant mat 1)) (by
        intro a m hm
        simp only [Code.run, hm.1]) (List.range c.nStates) m h
    rw [this]
    refine ⟨holds_update h _ _ _, fun p => ?_⟩
    dsimp only
    by_cases e : p = 1
    · subst e
      rw [Function.update_self, Function.update_self, hv]
      refine List.foldl_ext _ _ _ fun w st hst => ?_
      rw [hs st (by simpa using hst)]
    · have : (Loc.value p d) ≠ .value 1 d := by simp [e]
      rw [Function.update_of_ne this, Function.update_of_ne e, hv]
  · exact ⟨h, hv⟩

theorem radiationCode_run (c : Config) (r : Filled) (mat d : ℕ) (T : ℝ) (m : Memory) (s v : ℕ → ℝ) (h : Holds d s T m)
    (hv : ∀ p, m (.value p d) = v p) :
    Holds d s T ((radiationCode c r mat d).run m).2 ∧
      ∀ p, ((radiationCode c r mat d).run m).2 (.value p d) = addRadiation c r mat T v p := by
  unfold radiationCode addRadiation
  split_ifs with hc
  · simp only [Code.run, h.2, hv]
    refine ⟨holds_update h _ _ _, fun p => ?_⟩
    by_cases e : p = 6
    · subst e; simp
    · have : (Loc.value p d) ≠ .value 6 d := by simp [e]
      rw [Function.update_of_ne this, Function.update_of_ne e, hv]
  · exact ⟨h, hv⟩

/-- A thread that runs alone on a column with zero values does what C104 says of a cell. -/
theorem kernel_run (c : Config) (k : Kind) (hk : c.nStates = statesOf k) (r : Filled) (mat d : ℕ) (m : Memory)
    (hz : ∀ p, m (.value p d) = 0) (x : Ratios) (v : ℕ → ℝ)
    (h : update c k r mat ⟨m (.state 0 d), m (.state 1 d), m (.state 2 d)⟩ (m (.temperature d)) = some (x, v)) :
    (∀ j < statesOf k, ((kernel c k r mat d).run m).2 (.state j d) = ratioOf x j) ∧
    (∀ p, ((kernel c k r mat d).run m).2 (.value p d) = v p) ∧
    ((kernel c k r mat d).run m).2 (.temperature d) = m (.temperature d) := by
  unfold update at h
  rw [Option.map_eq_some_iff] at h
  obtain ⟨x', hx, h⟩ := h
  cases h
  obtain ⟨r1, r2, r3, r4⟩ := ratioCode_run k ⟨r.constant mat 1, r.constant mat 0⟩ d m x hx
  dsimp only at r1 r2 r3 r4
  unfold kernel
  simp only [run_bind]
  rw [r1]
  generalize ((ratioCode k (r.constant mat 1) (r.constant mat 0) d).run m).2 = m1 at r2 r3 r4 ⊢
  generalize hT : m (.temperature d) = T at *
  have h1 : Holds d (fun j => m1 (.state j d)) T m1 := ⟨fun _ => rfl, r4⟩
  obtain ⟨p1, p2⟩ := propertyCode_run c r mat d T m1 _ h1
  have p2' : ∀ p, ((propertyCode 0 c r mat d).run m1).2 (.value p d) = valuesFrom 0 c r mat x T p := by
    intro p
    rw [p2 p, r3 p, hz p, addedTo_mixture c r mat x T _ (fun j hj => r2 j (by omega)) p]
    simp only [valuesFrom, Nat.zero_le, true_and, nThermal]
  generalize ((propertyCode 0 c r mat d).run m1).2 = m2 at p1 p2' ⊢
  obtain ⟨l1, l2⟩ := latentCode_run c k r mat d x T m2 _ _ (fun j hj => r2 j (by omega)) p1 p2'
  generalize ((latentCode c k r mat d x.liquid).run m2).2 = m3 at l1 l2 ⊢
  obtain ⟨q1, q2⟩ := radiationCode_run c r mat d T m3 _ _ l1 l2
  exact ⟨fun j hj => (q1.1 j).trans (r2 j hj), q2, q1.2⟩

/-! ## C139 -/

theorem launch_eq {κ : Type} (c : Config) (k : Kind) (r : Filled) (dof material : κ → ℕ) (cells : List κ)
    (hn : (cells.map dof).Nodup) (i : Fin cells.length) :
    launch c k r dof material cells i = kernel c k r (material (cells.get i)) i := by
  classical
  unfold launch
  rw [(CellState.C105_columns dof cells hn).1 i (cells.get i) (by simp)]
  rfl

theorem launch_disjoint {κ : Type} (c : Config) (k : Kind) (r : Filled) (dof material : κ → ℕ) (cells : List κ)
    (hn : (cells.map dof).Nodup) (m : Memory) (schedule : List (Fin cells.length))
    (he : Ended (execute (launch c k r dof material cells) m schedule).1) :
    (∀ (i : Fin cells.length) (l : Loc), l.column = i.val → (execute (launch c k r dof material cells) m schedule).2 l =
      ((kernel c k r (material (cells.get i)) i).run m).2 l) ∧
    ∀ l : Loc, cells.length ≤ l.column → (execute (launch c k r dof material cells) m schedule).2 l = m l := by
  obtain ⟨h1, h2⟩ := execute_disjoint (fun i : Fin cells.length => inColumn i)
    (fun i j l hi hj => Fin.ext (hi.symm.trans hj)) (launch c k r dof material cells)
    (fun i => by rw [launch_eq c k r dof material cells hn]; exact kernel_within _ _ _ _ _) m schedule he
  refine ⟨fun i l hl => ?_, fun l hl => h2 l fun i e => ?_⟩
  · rw [h1 i l hl, launch_eq c k r dof material cells hn]
  · have : l.column = i.val := e
    have := i.isLt
    omega

/-- **C139, every schedule.**  With one degree of freedom per cell, whatever the order in which the threads of the kernel make their
accesses to the shared views, when all have ended the ratios and the properties of every locally owned cell are those of C104 for its
own old ratios, material and average temperature; the averages have not changed. -/
theorem C139_every_schedule {κ : Type} (c : Config) (k : Kind) (hk : c.nStates = statesOf k) (r : Filled) (dof material : κ → ℕ)
    (cells : List κ) (hn : (cells.map dof).Nodup) (m : Memory) (schedule : List (Fin cells.length))
    (he : Ended (execute (launch c k r dof material cells) (newValues m) schedule).1)
    (i : ℕ) (cell : κ) (hi : cells[i]? = some cell) (x : Ratios) (v : ℕ → ℝ)
    (h : update c k r (material cell) ⟨m (.state 0 i), m (.state 1 i), m (.state 2 i)⟩ (m (.temperature i)) = some (x, v)) :
    (∀ j < statesOf k, (execute (launch c k r dof material cells) (newValues m) schedule).2 (.state j i) = ratioOf x j) ∧
    (∀ p, (execute (launch c k r dof material cells) (newValues m) schedule).2 (.value p i) = v p) ∧
    (execute (launch c k r dof material cells) (newValues m) schedule).2 (.temperature i) = m (.temperature i) := by
  obtain ⟨hlt, hcell⟩ := List.getElem?_eq_some_iff.1 hi
  obtain ⟨h1, -⟩ := launch_disjoint c k r dof material cells hn (newValues m) schedule he
  have hg : cells.get ⟨i, hlt⟩ = cell := hcell
  have h1 := h1 ⟨i, hlt⟩
  rw [hg] at h1
  obtain ⟨k1, k2, k3⟩ := kernel_run c k hk r (material cell) i (newValues m) (fun _ => rfl) x v h
  exact ⟨fun j hj => (h1 _ rfl).trans (k1 j hj), fun p => (h1 _ rfl).trans (k2 p), (h1 _ rfl).trans k3⟩

/-- **C139, the result does not depend on the schedule**, not even in a cell where the ratio is a NaN (C32); entries of columns
that belong to no cell keep what they were. -/
theorem C139_deterministic {κ : Type} (c : Config) (k : Kind) (r : Filled) (dof material : κ → ℕ) (cells : List κ)
    (hn : (cells.map dof).Nodup) (m : Memory) (schedule schedule' : List (Fin cells.length))
    (he : Ended (execute (launch c k r dof material cells) m schedule).1)
    (he' : Ended (execute (launch c k r dof material cells) m schedule').1) :
    (execute (launch c k r dof material cells) m schedule).2 = (execute (launch c k r dof material cells) m schedule').2 ∧
    ∀ l : Loc, cells.length ≤ l.column → (execute (launch c k r dof material cells) m schedule).2 l = m l := by
  obtain ⟨h1, h2⟩ := launch_disjoint c k r dof material cells hn m schedule he
  obtain ⟨h1', h2'⟩ := launch_disjoint c k r dof material cells hn m schedule' he'
  refine ⟨funext fun l => ?_, h2⟩
  by_cases hl : cells.length ≤ l.column
  · rw [h2 l hl, h2' l hl]
  · exact (h1 ⟨l.column, by omega⟩ l rfl).trans (h1' ⟨l.column, by omega⟩ l rfl).symm

/-- **C139, no deadlock.**  Whatever the threads have done so far, they can all end. -/
theorem C139_can_end {κ : Type} (c : Config) (k : Kind) (r : Filled) (dof material : κ → ℕ) (cells : List κ) (m : Memory)
    (before : List (Fin cells.length)) :
    ∃ after, Ended (execute (launch c k r dof material cells) m (before ++ after)).1 := by
  obtain ⟨σ, h⟩ := can_finish (execute (launch c k r dof material cells) m before).1
    (execute (launch c k r dof material cells) m before).2
  refine ⟨σ, ?_⟩
  unfold execute at h ⊢
  rw [List.foldl_append]
  exact h

/-- The hypotheses are met: two cells whose degrees of freedom are 9 and 4, a powder material that melts from 10 to 20; whatever the
schedule, the cell at 15 becomes half liquid and keeps a quarter of powder, the cell at 25 is liquid. -/
example (schedule : List (Fin ["a", "b"].length)) :
    let c : Config := ⟨1, 0, 3, fun _ => none, fun _ => none, fun _ => none, 1000⟩
    let r : Filled := ⟨false, 1, { Store.empty with props := fun _ p => if p = 0 then 20 else if p = 1 then 10 else 7 }⟩
    let m : Memory := fun
      | .state j _ => if j = 2 then 1 / 4 else 0
      | .value _ _ => 3
      | .temperature d => if d = 0 then 15 else 25
    let pool := launch c .solidLiquidPowder r (fun s => if s = "a" then 9 else 4) (fun _ => 0) ["a", "b"]
    (∃ after, Ended (execute pool (newValues m) (schedule ++ after)).1) ∧
    (Ended (execute pool (newValues m) schedule).1 →
      (execute pool (newValues m) schedule).2 (.state 1 0) = 1 / 2 ∧ (execute pool (newValues m) schedule).2 (.state 2 0) = 1 / 4 ∧
      (execute pool (newValues m) schedule).2 (.state 1 1) = 1) := by
  intro c r m pool
  refine ⟨C139_can_end _ _ _ _ _ _ _ _, fun he => ?_⟩
  have hc0 : r.constant 0 0 = 20 := by simp [r, Filled.constant]
  have hc1 : r.constant 0 1 = 10 := by simp [r, Filled.constant]
  have h0 : updateCell .solidLiquidPowder ⟨r.constant 0 1, r.constant 0 0⟩ ⟨m (.state 0 0), m (.state 1 0), m (.state 2 0)⟩
      (m (.temperature 0)) = some ⟨1 / 4, 1 / 2, 1 / 4⟩ := by
    rw [hc0, hc1]
    norm_num [updateCell, liquidRatio, m, phase, min_def]
    decide
  have h1 : updateCell .solidLiquidPowder ⟨r.constant 0 1, r.constant 0 0⟩ ⟨m (.state 0 1), m (.state 1 1), m (.state 2 1)⟩
      (m (.temperature 1)) = some ⟨0, 1, 0⟩ := by
    rw [hc0, hc1]
    norm_num [updateCell, liquidRatio, m, phase, min_def]
    decide
  have a0 := C139_every_schedule c .solidLiquidPowder rfl r (fun s => if s = "a" then 9 else 4) (fun _ => 0) ["a", "b"]
    (by simp) m schedule he 0 "a" rfl _ _ (by unfold update; rw [h0]; rfl)
  have a1 := C139_every_schedule c .solidLiquidPowder rfl r (fun s => if s = "a" then 9 else 4) (fun _ => 0) ["a", "b"]
    (by simp) m schedule he 1 "b" rfl _ _ (by unfold update; rw [h1]; rfl)
  exact ⟨a0.1 1 (by decide), a0.1 2 (by decide), a1.1 1 (by decide)⟩

/-! ## The other kernels of the class -/

/-- The body of `adamantine::set_initial_state` for a cell with user index `u`, `source/MaterialProperty.templates.hh:793`. -/
def initialCode (u d : ℕ) : Code Unit := .write (.state u d) 1 (.ret ())

/-- The body of `adamantine::set_state_device` for a cell whose quadrature points are at `pos`,
`source/MaterialProperty.templates.hh:698-706`, `:718-730`; the ratios of the points are not written and are values. -/
noncomputable def storeCode (k : Kind) (nq : ℕ) (liquid powder : ℕ → ℝ) (pos : ℕ → ℕ) (d : ℕ) : Code Unit :=
  match k with
  | .solid => .ret ()
  | .solidLiquid => .write (.state 1 d) (((List.range nq).foldl (fun a q => a + liquid (pos q)) 0) / nq)
      (.read (.state 1 d) fun l => .write (.state 0 d) (1 - l) (.ret ()))
  | .solidLiquidPowder => .write (.state 1 d) (((List.range nq).foldl (fun a q => a + liquid (pos q)) 0) / nq)
      (.write (.state 2 d) (((List.range nq).foldl (fun a q => a + powder (pos q)) 0) / nq)
      (.read (.state 1 d) fun l => .read (.state 2 d) fun p => .write (.state 0 d) (1 - l - p) (.ret ())))

/-- The launch of `set_initial_state`, `source/MaterialProperty.templates.hh:758-793`, on a view set to zero (`:783`). -/
def launchInitial {κ : Type} (dof userIndex : κ → ℕ) (cells : List κ) : Pool cells.length := fun i =>
  initialCode (userIndex (cells.get i)) ((CellState.getDofIndex dof cells (cells.get i)).getD 0)

/-- The launch of `set_state_device` over the cells with material, `source/MaterialProperty.templates.hh:650-697`. -/
noncomputable def launchStore {κ : Type} (k : Kind) (nq : ℕ) (liquid powder : ℕ → ℝ) (dof : κ → ℕ) (cells : List κ)
    (material : κ → Bool) (pos : κ → ℕ → ℕ) : Pool (cells.filter material).length := fun i =>
  storeCode k nq liquid powder (pos ((cells.filter material).get i))
    ((CellState.getDofIndex dof cells ((cells.filter material).get i)).getD 0)

theorem storeCode_within (k : Kind) (nq : ℕ) (liquid powder : ℕ → ℝ) (pos : ℕ → ℕ) (d : ℕ) :
    (storeCode k nq liquid powder pos d).Within (inColumn d) := by
  cases k with
  | solid => trivial
  | solidLiquid => exact ⟨rfl, rfl, fun _ => ⟨rfl, trivial⟩⟩
  | solidLiquidPowder => exact ⟨rfl, rfl, rfl, fun _ => ⟨rfl, fun _ => ⟨rfl, trivial⟩⟩⟩

/-- **C139, the initial state.**  In every schedule of the kernel each locally owned cell ends wholly in the state of its user
index. -/
theorem C139_initial_state {κ : Type} (dof userIndex : κ → ℕ) (cells : List κ) (hn : (cells.map dof).Nodup) (m : Memory)
    (hz : ∀ j d, m (.state j d) = 0) (schedule : List (Fin cells.length))
    (he : Ended (execute (launchInitial dof userIndex cells) m schedule).1) (i : ℕ) (cell : κ) (hi : cells[i]? = some cell) (j : ℕ) :
    (execute (launchInitial dof userIndex cells) m schedule).2 (.state j i) = if j = userIndex cell then 1 else 0 := by
  classical
  have hl : ∀ i : Fin cells.length, launchInitial dof userIndex cells i = initialCode (userIndex (cells.get i)) i := by
    intro i
    unfold launchInitial
    rw [(CellState.C105_columns dof cells hn).1 i (cells.get i) (by simp)]
    rfl
  obtain ⟨h1, -⟩ := execute_disjoint (fun i : Fin cells.length => inColumn i)
    (fun i j l hi hj => Fin.ext (hi.symm.trans hj)) (launchInitial dof userIndex cells)
    (fun i => by rw [hl]; exact ⟨rfl, trivial⟩) m schedule he
  obtain ⟨hlt, hcell⟩ := List.getElem?_eq_some_iff.1 hi
  have hg : cells.get ⟨i, hlt⟩ = cell := hcell
  rw [h1 ⟨i, hlt⟩ (.state j i) rfl, hl, hg]
  simp only [initialCode, Code.run]
  by_cases e : j = userIndex cell
  · subst e; simp
  · rw [Function.update_of_ne (by simp [e]), if_neg e, hz]

/-- **C139, the fractions of the points.**  In every schedule of the kernel each cell with material ends with the means over its own
quadrature points (`pt c q` at position `pos c q`), the other cells keep their fractions. -/
theorem C139_set_state {κ : Type} (k : Kind) (hk : k ≠ .solid) (nq : ℕ) (liquid powder : ℕ → ℝ) (dof : κ → ℕ) (cells : List κ)
    (hn : (cells.map dof).Nodup) (material : κ → Bool) (pos : κ → ℕ → ℕ) (pt : κ → ℕ → Ratios)
    (hpt : ∀ c ∈ cells, material c = true → ∀ q < nq, liquid (pos c q) = (pt c q).liquid ∧ powder (pos c q) = (pt c q).powder)
    (m : Memory) (schedule : List (Fin (cells.filter material).length))
    (he : Ended (execute (launchStore k nq liquid powder dof cells material pos) m schedule).1) (i : ℕ) (cell : κ)
    (hi : cells[i]? = some cell) (j : ℕ) (hj : j < statesOf k) :
    (execute (launchStore k nq liquid powder dof cells material pos) m schedule).2 (.state j i) =
      if material cell then CellState.fraction (CellState.cellFractions k nq (pt cell)) j else m (.state j i) := by
  classical
  obtain ⟨hcol, -, -⟩ := CellState.C105_columns dof cells hn
  have hnd : cells.Nodup := List.Nodup.of_map _ hn
  have hex : ∀ t : Fin (cells.filter material).length, ∃ n, cells[n]? = some ((cells.filter material).get t) := fun t =>
    List.getElem?_of_mem (List.mem_filter.1 (List.get_mem _ _)).1
  choose col hcolt using hex
  have hl : ∀ t, launchStore k nq liquid powder dof cells material pos t =
      storeCode k nq liquid powder (pos ((cells.filter material).get t)) (col t) := by
    intro t
    unfold launchStore
    rw [hcol _ _ (hcolt t)]
    rfl
  have hinj : ∀ t t', col t = col t' → t = t' := by
    intro t t' e
    have h1 := hcolt t
    rw [e, hcolt t'] at h1
    exact (List.nodup_iff_injective_get.1 (hnd.filter _)) (Option.some.inj h1).symm
  obtain ⟨h1, h2⟩ := execute_disjoint (fun t => inColumn (col t)) (fun t t' l ht ht' => hinj t t' (ht.symm.trans ht'))
    (launchStore k nq liquid powder dof cells material pos) (fun t => by rw [hl]; exact storeCode_within _ _ _ _ _ _) m schedule he
  by_cases hm : material cell = true
  · rw [if_pos hm]
    have hc : cell ∈ cells := List.mem_of_getElem? hi
    obtain ⟨t, ht⟩ := List.mem_iff_get.1 (List.mem_filter.2 ⟨hc, hm⟩ : cell ∈ cells.filter material)
    have hcol' : col t = i := by
      have h3 := hcolt t
      rw [ht] at h3
      have a := hcol _ _ h3
      rw [hcol _ _ hi] at a
      exact (Option.some.inj a).symm
    have h3 := h1 t (.state j i) hcol'.symm
    rw [h3, hl, ht, hcol']
    have e1 : (List.range nq).foldl (fun a q => a + liquid (pos cell q)) 0 = ∑ q ∈ Finset.range nq, (pt cell q).liquid := by
      rw [CellState.foldl_sum, Finset.sum_congr rfl fun q hq => (hpt cell hc hm q (Finset.mem_range.1 hq)).1]
    have e2 : (List.range nq).foldl (fun a q => a + powder (pos cell q)) 0 = ∑ q ∈ Finset.range nq, (pt cell q).powder := by
      rw [CellState.foldl_sum, Finset.sum_congr rfl fun q hq => (hpt cell hc hm q (Finset.mem_range.1 hq)).2]
    cases k with
    | solid => exact absurd rfl hk
    | solidLiquid =>
      have : j = 0 ∨ j = 1 := by simp only [statesOf] at hj; omega
      simp only [storeCode, Code.run, e1]
      rcases this with rfl | rfl <;> simp [CellState.fraction, CellState.cellFractions, CellState.pointMean]
    | solidLiquidPowder =>
      have : j = 0 ∨ j = 1 ∨ j = 2 := by simp only [statesOf] at hj; omega
      simp only [storeCode, Code.run, e1, e2]
      rcases this with rfl | rfl | rfl <;> simp [CellState.fraction, CellState.cellFractions, CellState.pointMean]
  · rw [if_neg hm]
    refine h2 _ fun t e => hm ?_
    have e' : i = col t := e
    have h3 := hcolt t
    rw [← e', hi] at h3
    rw [Option.some.inj h3]
    exact (List.mem_filter.1 (List.get_mem _ _)).2

/-- The hypotheses are met: three cells of which the middle one has no material, points of cell `c` at `2 c` and `2 c + 1`. -/
example : ∃ schedule, Ended (execute (launchStore .solidLiquid 2 (fun x => x) (fun _ => 0) (fun c : ℕ => 7 - c) [0, 1, 2] (fun c => c != 1)
      fun c q => 2 * c + q) (fun _ => 0) schedule).1 ∧
    (execute (launchStore .solidLiquid 2 (fun x => x) (fun _ => 0) (fun c : ℕ => 7 - c) [0, 1, 2] (fun c => c != 1)
      fun c q => 2 * c + q) (fun _ => 0) schedule).2 (.state 1 2) = 9 / 2 := by
  obtain ⟨σ, h⟩ := can_finish (launchStore .solidLiquid 2 (fun x => x) (fun _ => 0) (fun c : ℕ => 7 - c) [0, 1, 2] (fun c => c != 1)
      fun c q => 2 * c + q) (fun _ => 0)
  refine ⟨σ, h, ?_⟩
  rw [C139_set_state .solidLiquid (by decide) 2 (fun x => x) (fun _ => 0) (fun c : ℕ => 7 - c) [0, 1, 2] (by decide) (fun c => c != 1)
    (fun c q => 2 * c + q) (fun c q => ⟨1 - (2 * c + q), 2 * c + q, 0⟩) (by intro c _ _ q _; simp) _ σ h 2 2 rfl 1 (by decide)]
  simp only [CellState.fraction, CellState.cellFractions, CellState.pointMean, Finset.sum_range_succ, Finset.sum_range_zero]
  norm_num

/-! ## Cells that share a column -/

/-- Two threads with the same program that take turns leave what one of them alone leaves: every `+=` is lost once. -/
theorem lockstep (q : Code Unit) : ∀ m : Memory, ∃ n, execute (fun _ : Fin 2 => q) m ((List.replicate n [0, 1]).flatten) =
    (fun _ => .ret (), (q.run m).2) := by
  have hconst : ∀ a b : Code Unit, Function.update (Function.update (fun _ : Fin 2 => a) 0 b) 1 b = fun _ => b := by
    intro a b
    funext i
    fin_cases i <;> simp
  induction q with
  | ret a => exact fun m => ⟨0, rfl⟩
  | read l k ih =>
    intro m
    obtain ⟨n, hn⟩ := ih (m l) m
    refine ⟨n + 1, ?_⟩
    rw [List.replicate_succ, List.flatten_cons]
    unfold execute at hn ⊢
    simp only [List.cons_append, List.nil_append, List.foldl_cons, turn, Code.step]
    rw [Function.update_of_ne (by decide)]
    simp only [Code.step]
    rw [hconst, hn]
    rfl
  | write l v k ih =>
    intro m
    obtain ⟨n, hn⟩ := ih (Function.update m l v)
    refine ⟨n + 1, ?_⟩
    rw [List.replicate_succ, List.flatten_cons]
    unfold execute at hn ⊢
    simp only [List.cons_append, List.nil_append, List.foldl_cons, turn, Code.step]
    rw [Function.update_of_ne (by decide)]
    simp only [Code.step]
    rw [hconst, Function.update_idem, hn]
    rfl

/-- A material with one state, whose properties are all 1 as polynomials of degree 0 and which has no ambient temperature. -/
def exConfig1 : Config := ⟨1, 0, 1, fun _ => none, fun _ => none, fun _ => none, 0⟩

/-- See `exConfig1`. -/
def exFilled : Filled := ⟨false, 1, { Store.empty with poly := fun _ _ _ _ => 1, props := fun _ _ => 0 }⟩

/-- **C139 needs the one-to-one columns of C105.**  If two cells had the same column, the density of that column would depend on the
schedule: with density 1 it is 1 or 2. -/
theorem C139_needs_columns : ∃ (c : Config) (r : Filled) (m : Memory) (s s' : List (Fin [(), ()].length)),
    c.nStates = statesOf .solid ∧
    Ended (execute (launch c .solid r (fun _ => 0) (fun _ => 0) [(), ()]) (newValues m) s).1 ∧
    Ended (execute (launch c .solid r (fun _ => 0) (fun _ => 0) [(), ()]) (newValues m) s').1 ∧
    ∃ d, (execute (launch c .solid r (fun _ => 0) (fun _ => 0) [(), ()]) (newValues m) s).2 (.value 0 d) = 1 ∧
      (execute (launch c .solid r (fun _ => 0) (fun _ => 0) [(), ()]) (newValues m) s').2 (.value 0 d) = 2 := by
  have hl : launch exConfig1 .solid exFilled (fun _ => 0) (fun _ => 0) [(), ()] = fun _ => kernel exConfig1 .solid exFilled 0 1 := by
    funext i
    rfl
  have hrun : ∀ m : Memory, ((kernel exConfig1 .solid exFilled 0 1).run m).2 (.value 0 1) = m (.value 0 1) + 1 := by
    intro m
    have h0 : kernel exConfig1 .solid exFilled 0 1 =
        Code.write (.state 0 1) 1 ((propertyCode 0 exConfig1 exFilled 0 1).bind fun _ => .ret ()) := by
      unfold kernel ratioCode latentCode radiationCode
      have : exFilled.constant 0 3 = exConfig1.maxDouble := rfl
      simp [Code.bind, this]
    rw [h0]
    simp only [Code.run, run_bind]
    obtain ⟨-, p2⟩ := propertyCode_run exConfig1 exFilled 0 1 (Function.update m (.state 0 1) 1 (.temperature 1))
      (Function.update m (.state 0 1) 1) (fun j => Function.update m (.state 0 1) 1 (.state j 1)) ⟨fun _ => rfl, rfl⟩
    rw [p2 0]
    simp [addedTo, exConfig1, exFilled]
  obtain ⟨n, hn⟩ := lockstep (kernel exConfig1 .solid exFilled 0 1) (newValues fun _ => 0)
  obtain ⟨a, ha⟩ := finish_one (0 : Fin 2) _ (fun _ => kernel exConfig1 .solid exFilled 0 1) (newValues fun _ => 0) rfl
  obtain ⟨b, hb⟩ := finish_one (1 : Fin 2) _ (Function.update (fun _ => kernel exConfig1 .solid exFilled 0 1) 0 (.ret ()))
    ((kernel exConfig1 .solid exFilled 0 1).run (newValues fun _ => 0)).2 rfl
  have hab : execute (fun _ : Fin 2 => kernel exConfig1 .solid exFilled 0 1) (newValues fun _ => 0)
      (List.replicate a 0 ++ List.replicate b 1) = (fun _ => .ret (), ((kernel exConfig1 .solid exFilled 0 1).run
        ((kernel exConfig1 .solid exFilled 0 1).run (newValues fun _ => 0)).2).2) := by
    unfold execute at ha hb ⊢
    rw [List.foldl_append, ha, hb]
    refine Prod.ext (funext fun i => ?_) ?_
    · fin_cases i <;> simp
    · simp
  refine ⟨exConfig1, exFilled, fun _ => 0, (List.replicate n [0, 1]).flatten, List.replicate a 0 ++ List.replicate b 1, rfl, ?_, ?_,
    1, ?_, ?_⟩
  · rw [hl]; intro i; exact congrFun (congrArg Prod.fst hn) i
  · rw [hl]; intro i; exact congrFun (congrArg Prod.fst hab) i
  · rw [hl]
    refine (congrFun (congrArg Prod.snd hn) _).trans ?_
    dsimp only
    rw [hrun]
    simp [newValues]
  · rw [hl]
    refine (congrFun (congrArg Prod.snd hab) _).trans ?_
    dsimp only
    rw [hrun, hrun]
    simp only [newValues]
    norm_num

end Verif.Material.Parallel
