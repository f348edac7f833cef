import Mathlib.Data.List.Basic
import Mathlib.Data.List.Range
import Mathlib.Data.List.FinRange
import Mathlib.Data.Real.Basic
import Mathlib.Data.Real.Archimedean
import Mathlib.Logic.Function.Basic
import Mathlib.Tactic.Ring
import Mathlib.Tactic.NormNum

/-!
# C141: the assembly of the mechanical system on several threads

Model of the two calls of `dealii::MeshWorker::mesh_loop` in `MechanicalOperator::assemble_matrix`
(`source/MechanicalOperator.cc:212-276`) and `MechanicalOperator::assemble_rhs` (`:353-441`), with `CopyDataMatrix` and
`CopyDataRightHandSide` (`:72-90`, `:114-132`), one access at a time.

Simplifications: what is modelled of `mesh_loop` is its contract: a cell is started in the order of the iterators, with copy data
that may have been used by other cells before; any number of started cells may be in work at the same time; the copier runs
alone, in the order of the iterators.  The scratch data are private and reinitialised by each worker, so the values read from them
are numbers of the cell.  Inside a term the arithmetic is exact; the additions to the local and to the global system are any
functions.
-/

namespace Verif.Mechanics.MeshLoop

/-- The copy data: the local system and the global numbers of its rows. `ι` is the type of the entries: pairs for the matrix, rows for
the right-hand side. -/
structure CopyData (ι : Type) where
  entry : ι → ℝ
  dofs : List ℕ

/-- The accesses of a worker in the order of its statements. `fill` and `read` access the vector of dof numbers that is
declared outside of the worker and captured by reference (`MechanicalOperator.cc:353-354`); `reinit` and `add` access the copy data. -/
inductive Work (ι : Type) where
  | ret
  | fill (j v : ℕ) (k : Work ι)
  | read (j : ℕ) (k : ℕ → Work ι)
  | reinit (dofs : List ℕ) (k : Work ι)
  | add (i : ι) (v : ℝ) (k : Work ι)

variable {ι : Type} [DecidableEq ι] {G : Type}

/-- One access of a worker; `plus` is the addition of the machine. `CopyData::reinit` sets the entries to zero and asks the cell for its
dofs, lines 84-88 and 126-130. -/
def stepWork (plus : ℝ → ℝ → ℝ) : Work ι × CopyData ι → (ℕ → ℕ) → (Work ι × CopyData ι) × (ℕ → ℕ)
  | (.ret, d), b => ((.ret, d), b)
  | (.fill j v k, d), b => ((k, d), Function.update b j v)
  | (.read j k, d), b => ((k (b j), d), b)
  | (.reinit l k, _), b => ((k, ⟨fun _ => 0, l⟩), b)
  | (.add i v k, d), b => ((k, { d with entry := Function.update d.entry i (plus (d.entry i) v) }), b)

/-- The state of the loop: cells not started, cells in work or waiting to be copied (oldest first), the shared vector of dof numbers,
the global matrix or vector. -/
structure State (ι G : Type) where
  todo : List (Work ι)
  active : List (Work ι × CopyData ι)
  shared : ℕ → ℕ
  result : G

/-- What can happen next: the next cell is started with copy data holding anything; the `n`-th active cell makes one access; the copier
takes the oldest cell, if its worker has returned. -/
inductive Move (ι : Type) where
  | start (left : CopyData ι)
  | work (n : ℕ)
  | copy

/-- One move; a move that is not possible changes nothing. -/
def move (plus : ℝ → ℝ → ℝ) (copier : G → CopyData ι → G) (s : State ι G) : Move ι → State ι G
  | .start left => match s.todo with
    | [] => s
    | w :: t => { s with todo := t, active := s.active ++ [(w, left)] }
  | .work n => match s.active[n]? with
    | none => s
    | some it => { s with active := s.active.set n (stepWork plus it s.shared).1, shared := (stepWork plus it s.shared).2 }
  | .copy => match s.active with
    | (.ret, d) :: rest => { s with active := rest, result := copier s.result d }
    | _ => s

/-- The loop under a schedule. -/
def execute (plus : ℝ → ℝ → ℝ) (copier : G → CopyData ι → G) (s : State ι G) (schedule : List (Move ι)) : State ι G :=
  schedule.foldl (move plus copier) s

/-- The state before the loop. -/
def before (cells : List (Work ι)) (b : ℕ → ℕ) (g : G) : State ι G := ⟨cells, [], b, g⟩

/-- `mesh_loop` returns when every cell has been copied. -/
def Returned (s : State ι G) : Prop := s.todo = [] ∧ s.active = []

/-! ## The workers -/

/-- Additions to the copy data, one after the other. -/
def addsCode : List (ι × ℝ) → Work ι
  | [] => .ret
  | (i, v) :: l => .add i v (addsCode l)

/-- A cell in `assemble_matrix`: the numbers of its dofs, the number of quadrature points and the term of a pair of shape functions at a
point, lines 236-250 (`Stiffness.lean` models the term). -/
structure MatrixCell where
  dofs : List ℕ
  points : ℕ
  term : ℕ → ℕ → ℕ → ℝ

/-- The worker of `assemble_matrix`, lines 217-253. -/
def matrixWork (c : MatrixCell) : Work (ℕ × ℕ) :=
  .reinit c.dofs (addsCode ((List.range c.dofs.length).flatMap fun i => (List.range c.dofs.length).flatMap fun j =>
    (List.range c.points).map fun q => ((i, j), c.term i j q)))

/-- A cell in `assemble_rhs`: its dofs, the dofs of the temperature on it, the number of quadrature points, the reference temperature, the
coefficient `(3 lambda + 2 mu) alpha`, the temperature shape functions and `trace(gradient) * JxW` of the displacement shape functions. -/
structure LoadCell where
  dofs : List ℕ
  thermalDofs : List ℕ
  points : ℕ
  reference : ℝ
  coefficient : ℝ
  shape : ℕ → ℕ → ℝ
  divergence : ℕ → ℕ → ℝ

/-- The loop over `j`, lines 399-403: `delta_T` is accumulated from the values of the temperature vector at the dof numbers found in
the vector `temperature_local_dof_indices`; `k` is what follows. -/
def readsCode (T : ℕ → ℝ) (shape : ℕ → ℝ) (k : ℝ → Work ℕ) : List ℕ → ℝ → Work ℕ
  | [], acc => k acc
  | j :: l, acc => .read j fun g => readsCode T shape k l (acc + shape j * T g)

/-- The loop over the rows at a quadrature point, lines 406-411. -/
def rowsList (c : LoadCell) (q : ℕ) (deltaT : ℝ) : List (ℕ × ℝ) :=
  (List.range c.dofs.length).map fun i => (i, c.divergence q i * (c.coefficient * deltaT))

/-- Additions followed by something else. -/
def addsThen (k : Work ι) : List (ι × ℝ) → Work ι
  | [] => k
  | (i, v) :: l => .add i v (addsThen k l)

/-- The loop over the quadrature points, lines 396-412. -/
def pointsCode (T : ℕ → ℝ) (c : LoadCell) : List ℕ → Work ℕ
  | [] => .ret
  | q :: qs => readsCode T (c.shape q) (fun deltaT => addsThen (pointsCode T c qs) (rowsList c q deltaT))
      (List.range c.thermalDofs.length) (-c.reference)

/-- `get_dof_indices`, line 390, entry by entry from `j` on. -/
def fillsCode (k : Work ι) : List ℕ → ℕ → Work ι
  | [], _ => k
  | v :: l, j => .fill j v (fillsCode k l (j + 1))

/-- The worker of `assemble_rhs`, lines 357-413. -/
def loadWork (T : ℕ → ℝ) (c : LoadCell) : Work ℕ :=
  fillsCode (.reinit c.dofs (pointsCode T c (List.range c.points))) c.thermalDofs 0

/-- The worker with the vector of dof numbers declared inside of it: its entries are then values of the worker. -/
def repairedWork (T : ℕ → ℝ) (c : LoadCell) : Work ℕ :=
  .reinit c.dofs (addsCode ((List.range c.points).flatMap fun q => rowsList c q
    ((List.range c.thermalDofs.length).foldl (fun acc j => acc + c.shape q j * T (c.thermalDofs.getD j 0)) (-c.reference))))

/-! ## What the properties say, without the loop -/

/-- Numbers added up from the left, from zero, with the addition of the machine. -/
def total (plus : ℝ → ℝ → ℝ) (l : List ℝ) : ℝ := l.foldl plus 0

/-- The local matrix of a cell. -/
def localMatrix (plus : ℝ → ℝ → ℝ) (c : MatrixCell) : CopyData (ℕ × ℕ) :=
  ⟨fun p => if p.1 < c.dofs.length ∧ p.2 < c.dofs.length then total plus ((List.range c.points).map fun q => c.term p.1 p.2 q) else 0,
    c.dofs⟩

/-- The temperature of the cell at a point minus the reference temperature. -/
def temperatureIncrease (T : ℕ → ℝ) (c : LoadCell) (q : ℕ) : ℝ :=
  -c.reference + (c.thermalDofs.mapIdx fun j g => c.shape q j * T g).sum

/-- The thermal load of a cell, from its own temperatures. -/
def localLoad (plus : ℝ → ℝ → ℝ) (T : ℕ → ℝ) (c : LoadCell) : CopyData ℕ :=
  ⟨fun i => if i < c.dofs.length then
      total plus ((List.range c.points).map fun q => c.divergence q i * (c.coefficient * temperatureIncrease T c q)) else 0,
    c.dofs⟩

/-- The worker is going to read entry `j` of the shared vector without having written it itself. -/
def StillReads (j : ℕ) : Work ι → Prop
  | .ret => False
  | .fill j' _ k => j ≠ j' ∧ StillReads j k
  | .read j' k => j = j' ∨ ∃ v, StillReads j (k v)
  | .reinit _ k => StillReads j k
  | .add _ _ k => StillReads j k

/-- At no moment of the schedule does a worker write an entry of the shared vector that the worker of another cell has still to
read. -/
def NoOverwriting (plus : ℝ → ℝ → ℝ) (copier : G → CopyData ι → G) (s : State ι G) (schedule : List (Move ι)) : Prop :=
  ∀ earlier later n, schedule = earlier ++ Move.work n :: later → ∀ j v k d,
    (execute plus copier s earlier).active[n]? = some (.fill j v k, d) →
    ∀ m it, m ≠ n → (execute plus copier s earlier).active[m]? = some it → ¬ StillReads j it.1

/-! ## Proofs -/

/-- What a worker leaves in its copy data if it runs alone. -/
def alone (plus : ℝ → ℝ → ℝ) : Work ι → CopyData ι → (ℕ → ℕ) → CopyData ι
  | .ret, d, _ => d
  | .fill j v k, d, b => alone plus k d (Function.update b j v)
  | .read j k, d, b => alone plus (k (b j)) d b
  | .reinit l k, _, b => alone plus k ⟨fun _ => 0, l⟩ b
  | .add i v k, d, b => alone plus k { d with entry := Function.update d.entry i (plus (d.entry i) v) } b

variable (plus : ℝ → ℝ → ℝ) (copier : G → CopyData ι → G)

theorem alone_step (it : Work ι × CopyData ι) (b : ℕ → ℕ) :
    alone plus (stepWork plus it b).1.1 (stepWork plus it b).1.2 (stepWork plus it b).2 = alone plus it.1 it.2 b := by
  obtain ⟨w, d⟩ := it
  cases w <;> rfl

theorem alone_update (w : Work ι) (d : CopyData ι) (b : ℕ → ℕ) (j v : ℕ) (h : ¬ StillReads j w) :
    alone plus w d (Function.update b j v) = alone plus w d b := by
  induction w generalizing d b with
  | ret => rfl
  | fill j' v' k ih =>
    simp only [alone]
    by_cases e : j = j'
    · subst e; rw [Function.update_idem]
    · rw [Function.update_comm e v v' b]
      exact ih _ _ fun hk => h ⟨e, hk⟩
  | read j' k ih =>
    simp only [alone]
    have e : j' ≠ j := fun e => h (Or.inl e.symm)
    rw [Function.update_of_ne e]
    exact ih _ _ _ fun hk => h (Or.inr ⟨_, hk⟩)
  | reinit l k ih => exact ih _ _ h
  | add i v' k ih => exact ih _ _ h

/-- What the loop will have computed in the end, if nobody disturbs anybody from now on. -/
def outcome (s : State ι G) : G :=
  (s.active.map (fun it => alone plus it.1 it.2 s.shared) ++ s.todo.map (fun w => alone plus w ⟨fun _ => 0, []⟩ fun _ => 0)).foldl
    copier s.result

/-- The cells not started do not depend on what they find. -/
def Fresh (s : State ι G) : Prop := ∀ w ∈ s.todo, ∀ d b d' b', alone plus w d b = alone plus w d' b'

theorem fresh_move (s : State ι G) (mv : Move ι) (h : Fresh plus s) : Fresh plus (move plus copier s mv) := by
  cases mv with
  | start left =>
    simp only [move]
    split
    · exact h
    · next w t e => exact fun w' hw' => h w' (by rw [e]; exact List.mem_cons_of_mem _ hw')
  | work n =>
    simp only [move]
    split
    · exact h
    · exact h
  | copy =>
    simp only [move]
    split
    · exact h
    · exact h

theorem outcome_move (s : State ι G) (mv : Move ι) (h : Fresh plus s)
    (hq : ∀ n, mv = .work n → ∀ j v k d, s.active[n]? = some (.fill j v k, d) → ∀ m it, m ≠ n → s.active[m]? = some it →
      ¬ StillReads j it.1) :
    outcome plus copier (move plus copier s mv) = outcome plus copier s := by
  cases mv with
  | start left =>
    simp only [move]
    split
    · rfl
    · next w t e =>
      unfold outcome
      rw [e, List.map_append, List.append_assoc, List.map_cons, List.map_cons, List.map_nil, List.singleton_append,
        h w (by rw [e]; exact List.mem_cons_self) left s.shared ⟨fun _ => 0, []⟩ fun _ => 0]
  | work n =>
    simp only [move]
    split
    · rfl
    · next it e =>
      unfold outcome
      simp only
      congr 2
      apply List.ext_getElem?
      intro m
      rw [List.getElem?_map, List.getElem?_map, List.getElem?_set]
      by_cases hm : n = m
      · subst hm
        have hlt : n < s.active.length := by
          rw [List.getElem?_eq_some_iff] at e; exact e.1
        rw [if_pos rfl, if_pos hlt, e]
        simp only [Option.map_some]
        rw [alone_step]
      · rw [if_neg hm]
        cases e2 : s.active[m]? with
        | none => rfl
        | some it2 =>
          simp only [Option.map_some]
          congr 1
          obtain ⟨w, d⟩ := it
          cases w with
          | fill j v k =>
            exact alone_update plus _ _ _ _ _ (hq n rfl j v k d e m it2 (Ne.symm hm) e2)
          | ret => rfl
          | read j k => rfl
          | reinit l k => rfl
          | add i v k => rfl
  | copy =>
    simp only [move]
    split
    · next d rest e =>
      unfold outcome
      rw [e]
      rfl
    · rfl

theorem outcome_execute (schedule : List (Move ι)) (s : State ι G) (h : Fresh plus s) (hq : NoOverwriting plus copier s schedule) :
    outcome plus copier (execute plus copier s schedule) = outcome plus copier s := by
  induction schedule generalizing s with
  | nil => rfl
  | cons mv l ih =>
    change outcome plus copier (execute plus copier (move plus copier s mv) l) = _
    rw [ih _ (fresh_move plus copier s mv h), outcome_move plus copier s mv h]
    · intro n e j v k d h1 m it hm h2
      subst e
      exact hq [] l n rfl j v k d h1 m it hm h2
    · intro a p n e j v k d h1 m it hm h2
      exact hq (mv :: a) p n (by rw [e]; rfl) j v k d h1 m it hm h2

theorem execute_returned (cells : List (Work ι)) (b : ℕ → ℕ) (g : G) (schedule : List (Move ι))
    (hf : ∀ w ∈ cells, ∀ d b d' b', alone plus w d b = alone plus w d' b')
    (hq : NoOverwriting plus copier (before cells b g) schedule)
    (hr : Returned (execute plus copier (before cells b g) schedule)) :
    (execute plus copier (before cells b g) schedule).result =
      (cells.map fun w => alone plus w ⟨fun _ => 0, []⟩ fun _ => 0).foldl copier g := by
  have := outcome_execute plus copier schedule (before cells b g) hf hq
  unfold outcome at this
  rw [hr.1, hr.2] at this
  exact this

/-! ### Programs without shared accesses -/

/-- No access to the shared vector. -/
def Private : Work ι → Prop
  | .ret => True
  | .fill _ _ _ => False
  | .read _ _ => False
  | .reinit _ k => Private k
  | .add _ _ k => Private k

theorem private_step (it : Work ι × CopyData ι) (b : ℕ → ℕ) (h : Private it.1) : Private (stepWork plus it b).1.1 := by
  obtain ⟨w, d⟩ := it
  cases w with
  | ret => trivial
  | fill j v k => exact absurd h (by simp [Private])
  | read j k => exact absurd h (by simp [Private])
  | reinit l k => exact h
  | add i v k => exact h

theorem private_execute (schedule : List (Move ι)) (s : State ι G) (h1 : ∀ w ∈ s.todo, Private w) (h2 : ∀ it ∈ s.active, Private it.1) :
    ∀ it ∈ (execute plus copier s schedule).active, Private it.1 := by
  induction schedule generalizing s with
  | nil => exact h2
  | cons mv l ih =>
    change ∀ it ∈ (execute plus copier (move plus copier s mv) l).active, Private it.1
    have key : (∀ w ∈ (move plus copier s mv).todo, Private w) ∧ ∀ it ∈ (move plus copier s mv).active, Private it.1 := by
      cases mv with
      | start left =>
        simp only [move]
        split
        · exact ⟨h1, h2⟩
        · next w t e =>
          refine ⟨fun w' hw' => h1 w' (by rw [e]; exact List.mem_cons_of_mem _ hw'), fun it hit => ?_⟩
          rcases List.mem_append.1 hit with hit | hit
          · exact h2 it hit
          · rw [List.mem_singleton] at hit
            subst hit
            exact h1 w (by rw [e]; exact List.mem_cons_self)
      | work n =>
        simp only [move]
        split
        · exact ⟨h1, h2⟩
        · next it e =>
          refine ⟨h1, fun it' hit' => ?_⟩
          rcases List.mem_or_eq_of_mem_set hit' with hit' | rfl
          · exact h2 it' hit'
          · exact private_step plus it _ (h2 it (List.mem_of_getElem? e))
      | copy =>
        simp only [move]
        split
        · next d rest e => exact ⟨h1, fun it hit => h2 it (by rw [e]; exact List.mem_cons_of_mem _ hit)⟩
        · exact ⟨h1, h2⟩
    exact ih _ key.1 key.2

theorem private_noOverwriting (cells : List (Work ι)) (b : ℕ → ℕ) (g : G) (schedule : List (Move ι)) (h : ∀ w ∈ cells, Private w) :
    NoOverwriting plus copier (before cells b g) schedule := by
  intro a p n _ j v k d e
  have := private_execute plus copier a (before cells b g) h (by simp [before]) _ (List.mem_of_getElem? e)
  exact absurd this (by simp [Private])

omit [DecidableEq ι] in
theorem private_adds (l : List (ι × ℝ)) : Private (addsCode l) := by
  induction l with
  | nil => trivial
  | cons a l ih => exact ih

/-- Entries after additions. -/
theorem alone_adds (l : List (ι × ℝ)) (d : CopyData ι) (b : ℕ → ℕ) :
    alone plus (addsCode l) d b = ⟨fun x => ((l.filter fun p => p.1 = x).map Prod.snd).foldl plus (d.entry x), d.dofs⟩ := by
  induction l generalizing d with
  | nil => rfl
  | cons a l ih =>
    obtain ⟨i, v⟩ := a
    simp only [addsCode, alone]
    rw [ih]
    congr 1
    funext x
    by_cases h : i = x
    · subst h; simp
    · rw [List.filter_cons, if_neg (by simpa using h)]
      simp only
      rw [Function.update_of_ne (Ne.symm h)]

theorem flatMap_range_single {α : Type} (n i : ℕ) (g : ℕ → List α) (h : ∀ k, k ≠ i → g k = []) :
    (List.range n).flatMap g = if i < n then g i else [] := by
  induction n with
  | zero => simp
  | succ n ih =>
    rw [List.range_succ, List.flatMap_append, ih]
    simp only [List.flatMap_cons, List.flatMap_nil, List.append_nil]
    by_cases e : n = i
    · subst e; simp
    · rw [h n e]
      have : i < n ↔ i < n + 1 := by omega
      simp [this]

theorem alone_matrix (c : MatrixCell) (d : CopyData (ℕ × ℕ)) (b : ℕ → ℕ) : alone plus (matrixWork c) d b = localMatrix plus c := by
  unfold matrixWork localMatrix
  simp only [alone]
  rw [alone_adds]
  congr 1
  funext ⟨x, y⟩
  rw [List.filter_flatMap, flatMap_range_single _ x]
  · by_cases hx : x < c.dofs.length
    · rw [if_pos hx, List.filter_flatMap, flatMap_range_single _ y]
      · by_cases hy : y < c.dofs.length
        · rw [if_pos hy, if_pos ⟨hx, hy⟩]
          unfold total
          congr 1
          rw [List.filter_eq_self.2]
          · rw [List.map_map]; rfl
          · intro p hp
            obtain ⟨q, _, rfl⟩ := List.mem_map.1 hp
            simp
        · rw [if_neg hy, if_neg (fun h => hy h.2)]; rfl
      · intro k hk
        simp [hk]
    · rw [if_neg hx, if_neg (fun h => hx h.1)]; rfl
  · intro k hk
    rw [List.filter_eq_nil_iff]
    intro p hp
    obtain ⟨j, _, hp⟩ := List.mem_flatMap.1 hp
    obtain ⟨q, _, rfl⟩ := List.mem_map.1 hp
    simp [hk]

theorem rows_filter (c : LoadCell) (q x : ℕ) (t : ℝ) :
    (rowsList c q t).filter (fun p => p.1 = x) = if x < c.dofs.length then [(x, c.divergence q x * (c.coefficient * t))] else [] := by
  unfold rowsList
  rw [List.map_eq_flatMap, List.filter_flatMap, flatMap_range_single _ x]
  · simp
  · intro k hk
    simp [hk]

theorem adds_load (c : LoadCell) (t : ℕ → ℝ) (qs : List ℕ) (x : ℕ) :
    ((qs.flatMap fun q => rowsList c q (t q)).filter (fun p => p.1 = x)).map Prod.snd =
      if x < c.dofs.length then qs.map fun q => c.divergence q x * (c.coefficient * t q) else [] := by
  induction qs with
  | nil => simp
  | cons q qs ih =>
    rw [List.flatMap_cons, List.filter_append, List.map_append, ih, rows_filter]
    split_ifs <;> simp

theorem increase_eq (T : ℕ → ℝ) (c : LoadCell) (q : ℕ) :
    (List.range c.thermalDofs.length).foldl (fun acc j => acc + c.shape q j * T (c.thermalDofs.getD j 0)) (-c.reference) =
      temperatureIncrease T c q := by
  unfold temperatureIncrease
  have h : ∀ (l : List ℕ) (f : ℕ → ℝ) (a : ℝ), l.foldl (fun acc j => acc + f j) a = a + (l.map f).sum := by
    intro l f
    induction l with
    | nil => intro a; simp
    | cons x l ih => intro a; rw [List.foldl_cons, ih, List.map_cons, List.sum_cons]; ring
  rw [h]
  congr 2
  apply List.ext_getElem?
  intro j
  rw [List.getElem?_map, List.getElem?_mapIdx]
  by_cases hj : j < c.thermalDofs.length
  · rw [List.getElem?_range hj, List.getElem?_eq_getElem hj]
    simp [hj]
  · rw [List.getElem?_eq_none (by simpa using hj), List.getElem?_eq_none (by simpa using hj)]
    rfl

theorem alone_repaired (T : ℕ → ℝ) (c : LoadCell) (d : CopyData ℕ) (b : ℕ → ℕ) :
    alone plus (repairedWork T c) d b = localLoad plus T c := by
  unfold repairedWork localLoad
  simp only [alone, increase_eq]
  rw [alone_adds]
  congr 1
  funext x
  rw [adds_load]
  split_ifs <;> rfl

theorem alone_addsThen (k : Work ι) (l : List (ι × ℝ)) (d : CopyData ι) (b : ℕ → ℕ) :
    alone plus (addsThen k l) d b = alone plus k (alone plus (addsCode l) d b) b := by
  induction l generalizing d with
  | nil => rfl
  | cons a l ih => exact ih _

theorem alone_reads (T : ℕ → ℝ) (shape : ℕ → ℝ) (k : ℝ → Work ℕ) (l : List ℕ) (acc : ℝ) (d : CopyData ℕ) (b : ℕ → ℕ) :
    alone plus (readsCode T shape k l acc) d b = alone plus (k (l.foldl (fun acc j => acc + shape j * T (b j)) acc)) d b := by
  induction l generalizing acc with
  | nil => rfl
  | cons j l ih => exact ih _

theorem addsCode_append (l r : List (ι × ℝ)) (d : CopyData ι) (b : ℕ → ℕ) :
    alone plus (addsCode (l ++ r)) d b = alone plus (addsCode r) (alone plus (addsCode l) d b) b := by
  induction l generalizing d with
  | nil => rfl
  | cons a l ih => exact ih _

theorem alone_points (T : ℕ → ℝ) (c : LoadCell) (qs : List ℕ) (d : CopyData ℕ) (b : ℕ → ℕ) :
    alone plus (pointsCode T c qs) d b = alone plus (addsCode (qs.flatMap fun q => rowsList c q
      ((List.range c.thermalDofs.length).foldl (fun acc j => acc + c.shape q j * T (b j)) (-c.reference)))) d b := by
  induction qs generalizing d with
  | nil => rfl
  | cons q qs ih =>
    rw [pointsCode, alone_reads, alone_addsThen, ih, List.flatMap_cons, addsCode_append]

theorem alone_fills (k : Work ι) (l : List ℕ) (o : ℕ) (d : CopyData ι) (b : ℕ → ℕ) :
    alone plus (fillsCode k l o) d b = alone plus k d (fun j => if o ≤ j ∧ j < o + l.length then l.getD (j - o) 0 else b j) := by
  induction l generalizing o b with
  | nil =>
    simp only [fillsCode, List.length_nil]
    congr 1
    funext j
    rw [if_neg (by omega)]
  | cons v l ih =>
    simp only [fillsCode, alone]
    rw [ih]
    congr 1
    funext j
    simp only [List.length_cons]
    by_cases h1 : o + 1 ≤ j ∧ j < o + 1 + l.length
    · rw [if_pos h1, if_pos (by omega)]
      obtain ⟨i, rfl⟩ : ∃ i, j = o + 1 + i := ⟨j - (o + 1), by omega⟩
      rw [show o + 1 + i - (o + 1) = i by omega, show o + 1 + i - o = i + 1 by omega]
      rfl
    · rw [if_neg h1]
      by_cases h2 : j = o
      · subst h2
        rw [if_pos (by omega)]
        simp
      · rw [if_neg (by omega), Function.update_of_ne h2]

theorem alone_load (T : ℕ → ℝ) (c : LoadCell) (d : CopyData ℕ) (b : ℕ → ℕ) : alone plus (loadWork T c) d b = localLoad plus T c := by
  rw [← alone_repaired plus T c d b]
  unfold loadWork repairedWork
  rw [alone_fills]
  simp only [alone]
  rw [alone_points, alone_adds, alone_adds]
  congr 1
  funext x
  congr 4
  funext q
  congr 1
  have h : ∀ (l : List ℕ) (f g : ℕ → ℝ) (a : ℝ), (∀ j ∈ l, f j = g j) →
      l.foldl (fun acc j => acc + f j) a = l.foldl (fun acc j => acc + g j) a := by
    intro l f g
    induction l with
    | nil => intro a _; rfl
    | cons y l ih =>
      intro a hfg
      rw [List.foldl_cons, List.foldl_cons, hfg y List.mem_cons_self]
      exact ih _ fun j hj => hfg j (List.mem_cons_of_mem _ hj)
  apply h
  intro j hj
  rw [List.mem_range] at hj
  simp [hj]

/-! ## C141 -/

/-- **C141**, the matrix: for every mesh, every schedule of the workers, whatever the copy data held before: when the loop returns, the
global matrix is that of adding the local matrices of the cells one after the other in the order of the cells, to the last digit. -/
theorem C141_matrix (copier : G → CopyData (ℕ × ℕ) → G) (cells : List MatrixCell) (b : ℕ → ℕ) (g : G)
    (schedule : List (Move (ℕ × ℕ)))
    (hr : Returned (execute plus copier (before (cells.map matrixWork) b g) schedule)) :
    (execute plus copier (before (cells.map matrixWork) b g) schedule).result = (cells.map (localMatrix plus)).foldl copier g := by
  rw [execute_returned plus copier _ b g schedule]
  · rw [List.map_map]
    congr 1
    exact List.map_congr_left fun c _ => alone_matrix plus c ⟨fun _ => 0, []⟩ fun _ => 0
  · intro w hw d b d' b'
    obtain ⟨c, _, rfl⟩ := List.mem_map.1 hw
    rw [alone_matrix, alone_matrix]
  · apply private_noOverwriting
    intro w hw
    obtain ⟨c, _, rfl⟩ := List.mem_map.1 hw
    exact private_adds _
  · exact hr

/-- **C141**, the thermal load with the vector of dof numbers inside of the worker: the same. -/
theorem C141_load_repaired (copier : G → CopyData ℕ → G) (T : ℕ → ℝ) (cells : List LoadCell) (b : ℕ → ℕ) (g : G)
    (schedule : List (Move ℕ)) (hr : Returned (execute plus copier (before (cells.map (repairedWork T)) b g) schedule)) :
    (execute plus copier (before (cells.map (repairedWork T)) b g) schedule).result = (cells.map (localLoad plus T)).foldl copier g := by
  rw [execute_returned plus copier _ b g schedule]
  · rw [List.map_map]
    congr 1
    exact List.map_congr_left fun c _ => alone_repaired plus T c ⟨fun _ => 0, []⟩ fun _ => 0
  · intro w hw d b d' b'
    obtain ⟨c, _, rfl⟩ := List.mem_map.1 hw
    rw [alone_repaired, alone_repaired]
  · apply private_noOverwriting
    intro w hw
    obtain ⟨c, _, rfl⟩ := List.mem_map.1 hw
    exact private_adds _
  · exact hr

/-- **C141**, the thermal load as it is programmed: right under every schedule in which no worker overwrites an entry of the shared vector that
another one has still to read. -/
theorem C141_load_partial (copier : G → CopyData ℕ → G) (T : ℕ → ℝ) (cells : List LoadCell) (b : ℕ → ℕ) (g : G)
    (schedule : List (Move ℕ)) (hq : NoOverwriting plus copier (before (cells.map (loadWork T)) b g) schedule)
    (hr : Returned (execute plus copier (before (cells.map (loadWork T)) b g) schedule)) :
    (execute plus copier (before (cells.map (loadWork T)) b g) schedule).result = (cells.map (localLoad plus T)).foldl copier g := by
  rw [execute_returned plus copier _ b g schedule]
  · rw [List.map_map]
    congr 1
    exact List.map_congr_left fun c _ => alone_load plus T c ⟨fun _ => 0, []⟩ fun _ => 0
  · intro w hw d b d' b'
    obtain ⟨c, _, rfl⟩ := List.mem_map.1 hw
    rw [alone_load, alone_load]
  · exact hq
  · exact hr

theorem noOverwriting_of_one (s : State ι G) (schedule : List (Move ι))
    (hone : ∀ earlier later, schedule = earlier ++ later → (execute plus copier s earlier).active.length ≤ 1) :
    NoOverwriting plus copier s schedule := by
  intro a p n e j v k d h1 m it hm h2
  have hl := hone a _ e
  rw [List.getElem?_eq_some_iff] at h1 h2
  obtain ⟨h1, -⟩ := h1
  obtain ⟨h2, -⟩ := h2
  omega

/-- **C141**: in particular if at any moment at most one cell is in work or waiting to be copied, that is, with one thread. -/
theorem C141_one_thread_partial (copier : G → CopyData ℕ → G) (T : ℕ → ℝ) (cells : List LoadCell) (b : ℕ → ℕ) (g : G)
    (schedule : List (Move ℕ))
    (hone : ∀ earlier later, schedule = earlier ++ later →
      (execute plus copier (before (cells.map (loadWork T)) b g) earlier).active.length ≤ 1)
    (hr : Returned (execute plus copier (before (cells.map (loadWork T)) b g) schedule)) :
    (execute plus copier (before (cells.map (loadWork T)) b g) schedule).result = (cells.map (localLoad plus T)).foldl copier g := by
  refine C141_load_partial plus copier T cells b g schedule ?_ hr
  exact noOverwriting_of_one plus copier _ _ hone

/-- Two cells of one point, of temperatures 0 and 1, the reference temperature being 0. -/
def coldCell : LoadCell := ⟨[0], [0], 1, 0, 1, fun _ _ => 1, fun _ _ => 1⟩

/-- The second cell. -/
def hotCell : LoadCell := ⟨[0], [1], 1, 0, 1, fun _ _ => 1, fun _ _ => 1⟩

/-- Both cells are started and both ask for their dofs before either reads its temperature. -/
def badSchedule : List (Move ℕ) :=
  [.start ⟨fun _ => 0, []⟩, .start ⟨fun _ => 0, []⟩, .work 0, .work 1, .work 0, .work 0, .work 0, .work 1, .work 1, .work 1, .copy, .copy]

/-- **C141 refuted** for the thermal load: a schedule after which the loop returns and the assembled load is not the sum of the loads of the
cells: the cold cell was loaded with the temperature of the hot one. -/
theorem C141_load_refuted : ∃ (T : ℕ → ℝ) (cells : List LoadCell) (schedule : List (Move ℕ)),
    Returned (execute (· + ·) (fun (g : ℝ) d => g + d.entry 0) (before (cells.map (loadWork T)) (fun _ => 0) 0) schedule) ∧
    (execute (· + ·) (fun (g : ℝ) d => g + d.entry 0) (before (cells.map (loadWork T)) (fun _ => 0) 0) schedule).result = 2 ∧
    (cells.map (localLoad (· + ·) T)).foldl (fun (g : ℝ) d => g + d.entry 0) 0 = 1 := by
  refine ⟨fun g => g, [coldCell, hotCell], badSchedule, ?_, ?_, ?_⟩
  · simp [badSchedule, execute, before, Returned, move, loadWork, fillsCode, coldCell, hotCell, stepWork, pointsCode, readsCode, rowsList,
      addsThen]
  · simp [badSchedule, execute, before, move, loadWork, fillsCode, coldCell, hotCell, stepWork, pointsCode, readsCode, rowsList,
      addsThen]
    norm_num
  · simp [localLoad, coldCell, hotCell, total, temperatureIncrease]

/-- The oldest active cell can be finished. -/
theorem finish_first (w : Work ι) (d : CopyData ι) (rest : List (Work ι × CopyData ι)) (s : State ι G) (h : s.active = (w, d) :: rest) :
    ∃ l, (execute plus copier s l).active = rest ∧ (execute plus copier s l).todo = s.todo := by
  induction w generalizing s d with
  | ret =>
    refine ⟨[.copy], ?_, ?_⟩
    · simp [execute, move, h]
    · simp [execute, move, h]
  | fill j v k ih =>
    obtain ⟨l, h1, h2⟩ := ih d (move plus copier s (.work 0)) (by simp [move, h, stepWork])
    exact ⟨.work 0 :: l, h1, h2.trans (by simp [move, h])⟩
  | read j k ih =>
    obtain ⟨l, h1, h2⟩ := ih (s.shared j) d (move plus copier s (.work 0)) (by simp [move, h, stepWork])
    exact ⟨.work 0 :: l, h1, h2.trans (by simp [move, h])⟩
  | reinit l' k ih =>
    obtain ⟨l, h1, h2⟩ := ih ⟨fun _ => 0, l'⟩ (move plus copier s (.work 0)) (by simp [move, h, stepWork])
    exact ⟨.work 0 :: l, h1, h2.trans (by simp [move, h])⟩
  | add i v k ih =>
    obtain ⟨l, h1, h2⟩ := ih { d with entry := Function.update d.entry i (plus (d.entry i) v) } (move plus copier s (.work 0))
      (by simp [move, h, stepWork])
    exact ⟨.work 0 :: l, h1, h2.trans (by simp [move, h])⟩

theorem finish_active (n : ℕ) (s : State ι G) (h : s.active.length = n) :
    ∃ l, (execute plus copier s l).active = [] ∧ (execute plus copier s l).todo = s.todo := by
  induction n generalizing s with
  | zero => exact ⟨[], List.length_eq_zero_iff.1 h, rfl⟩
  | succ n ih =>
    obtain ⟨⟨w, d⟩, rest, e⟩ := List.exists_cons_of_length_eq_add_one h
    obtain ⟨l, h1, h2⟩ := finish_first plus copier w d rest s e
    obtain ⟨l', h3, h4⟩ := ih (execute plus copier s l) (by rw [h1]; rw [e] at h; simpa using h)
    exact ⟨l ++ l', by unfold execute at *; rw [List.foldl_append]; exact h3,
      by unfold execute at *; rw [List.foldl_append]; exact h4.trans h2⟩

/-- **C141**: no deadlock: after any moves, of any workers, the loop can still return. -/
theorem C141_can_return (cells : List (Work ι)) (b : ℕ → ℕ) (g : G) (schedule : List (Move ι)) :
    ∃ rest, Returned (execute plus copier (before cells b g) (schedule ++ rest)) := by
  suffices h : ∀ (n : ℕ) (s : State ι G), s.todo.length = n → ∃ l, Returned (execute plus copier s l) by
    obtain ⟨l, hl⟩ := h _ (execute plus copier (before cells b g) schedule) rfl
    exact ⟨l, by unfold execute at *; rw [List.foldl_append]; exact hl⟩
  intro n
  induction n with
  | zero =>
    intro s h
    obtain ⟨l, h1, h2⟩ := finish_active plus copier _ s rfl
    exact ⟨l, h2.trans (List.length_eq_zero_iff.1 h), h1⟩
  | succ n ih =>
    intro s h
    obtain ⟨w, t, e⟩ := List.exists_cons_of_length_eq_add_one h
    obtain ⟨l, hl⟩ := ih (move plus copier s (.start ⟨fun _ => 0, []⟩)) (by rw [e] at h; simp [move, e]; simpa using h)
    exact ⟨.start ⟨fun _ => 0, []⟩ :: l, hl⟩

/-- At most one cell active, at every moment of a schedule. -/
def Alone (s : State ι G) (l : List (Move ι)) : Prop :=
  ∀ earlier later, l = earlier ++ later → (execute plus copier s earlier).active.length ≤ 1

theorem alone_cons (s : State ι G) (mv : Move ι) (l : List (Move ι)) (h0 : s.active.length ≤ 1)
    (h : Alone plus copier (move plus copier s mv) l) : Alone plus copier s (mv :: l) := by
  intro e r he
  cases e with
  | nil => exact h0
  | cons x e =>
    rw [List.cons_append, List.cons.injEq] at he
    obtain ⟨rfl, he⟩ := he
    exact h e r he

theorem alone_finish (w : Work ι) (d : CopyData ι) (s : State ι G) (h : s.active = [(w, d)])
    (hrest : ∀ s' : State ι G, s'.todo = s.todo → s'.active = [] →
      ∃ rest, Returned (execute plus copier s' rest) ∧ Alone plus copier s' rest) :
    ∃ l, Returned (execute plus copier s l) ∧ Alone plus copier s l := by
  induction w generalizing s d with
  | ret =>
    obtain ⟨rest, h1, h2⟩ := hrest (move plus copier s .copy) (by simp [move, h]) (by simp [move, h])
    exact ⟨.copy :: rest, h1, alone_cons plus copier s _ _ (by rw [h]; simp) h2⟩
  | fill j v k ih =>
    obtain ⟨l, h1, h2⟩ := ih d (move plus copier s (.work 0)) (by simp [move, h, stepWork])
      fun s' ht => hrest s' (ht.trans (by simp [move, h]))
    exact ⟨.work 0 :: l, h1, alone_cons plus copier s _ _ (by rw [h]; simp) h2⟩
  | read j k ih =>
    obtain ⟨l, h1, h2⟩ := ih (s.shared j) d (move plus copier s (.work 0)) (by simp [move, h, stepWork])
      fun s' ht => hrest s' (ht.trans (by simp [move, h]))
    exact ⟨.work 0 :: l, h1, alone_cons plus copier s _ _ (by rw [h]; simp) h2⟩
  | reinit l' k ih =>
    obtain ⟨l, h1, h2⟩ := ih ⟨fun _ => 0, l'⟩ (move plus copier s (.work 0)) (by simp [move, h, stepWork])
      fun s' ht => hrest s' (ht.trans (by simp [move, h]))
    exact ⟨.work 0 :: l, h1, alone_cons plus copier s _ _ (by rw [h]; simp) h2⟩
  | add i v k ih =>
    obtain ⟨l, h1, h2⟩ := ih { d with entry := Function.update d.entry i (plus (d.entry i) v) } (move plus copier s (.work 0))
      (by simp [move, h, stepWork]) fun s' ht => hrest s' (ht.trans (by simp [move, h]))
    exact ⟨.work 0 :: l, h1, alone_cons plus copier s _ _ (by rw [h]; simp) h2⟩

/-- The hypotheses of `C141_one_thread_partial` are met for every cells by some schedule. -/
theorem exists_alone (cells : List (Work ι)) (b : ℕ → ℕ) (g : G) :
    ∃ l, Returned (execute plus copier (before cells b g) l) ∧ Alone plus copier (before cells b g) l := by
  suffices h : ∀ (n : ℕ) (s : State ι G), s.todo.length = n → s.active = [] →
      ∃ l, Returned (execute plus copier s l) ∧ Alone plus copier s l from h _ _ rfl rfl
  intro n
  induction n with
  | zero =>
    intro s h h0
    refine ⟨[], ⟨List.length_eq_zero_iff.1 h, h0⟩, ?_⟩
    intro e r he
    obtain ⟨rfl, rfl⟩ := List.append_eq_nil_iff.1 he.symm
    change s.active.length ≤ 1
    rw [h0]
    simp
  | succ n ih =>
    intro s h h0
    obtain ⟨w, t, e⟩ := List.exists_cons_of_length_eq_add_one h
    have ht : (move plus copier s (.start ⟨fun _ => 0, []⟩)).todo = t := by simp [move, e]
    have hl : t.length = n := by rw [e] at h; simpa using h
    obtain ⟨l, h1, h2⟩ := alone_finish plus copier w ⟨fun _ => 0, []⟩ (move plus copier s (.start ⟨fun _ => 0, []⟩))
      (by simp [move, e, h0]) fun s' h3 h4 => ih s' (by rw [h3, ht, hl]) h4
    exact ⟨.start ⟨fun _ => 0, []⟩ :: l, h1, alone_cons plus copier s _ _ (by rw [h0]; simp) h2⟩

/-- The hypotheses of `C141_one_thread_partial` and of `C141_load_partial` are met by one cell after the other. -/
example : Returned (execute (· + ·) (fun (g : ℝ) d => g + d.entry 0) (before ([coldCell, hotCell].map (loadWork fun g => g)) (fun _ => 0) 0)
    [.start ⟨fun _ => 5, [3]⟩, .work 0, .work 0, .work 0, .work 0, .copy, .start ⟨fun _ => 7, []⟩, .work 0, .work 0, .work 0, .work 0, .copy]) ∧
    (execute (· + ·) (fun (g : ℝ) d => g + d.entry 0) (before ([coldCell, hotCell].map (loadWork fun g => g)) (fun _ => 0) 0)
    [.start ⟨fun _ => 5, [3]⟩, .work 0, .work 0, .work 0, .work 0, .copy, .start ⟨fun _ => 7, []⟩, .work 0, .work 0, .work 0, .work 0,
      .copy]).result = 1 := by
  constructor
  · simp [execute, before, Returned, move, loadWork, fillsCode, coldCell, hotCell, stepWork, pointsCode, readsCode, rowsList, addsThen]
  · simp [execute, before, move, loadWork, fillsCode, coldCell, hotCell, stepWork, pointsCode, readsCode, rowsList, addsThen]

end Verif.Mechanics.MeshLoop
