import Verif.Driver.Props

/-!
# C126: the checkpoint files on disk when the program is killed

The writes of the checkpoints of `run`, `application/adamantine.hh:1349-1373`, one file operation after the other, so that the program can
be killed between any two of them; and what a restart, `adamantine.hh:926, 970-973`, finds.
-/

namespace Verif.Driver

variable {K : Type*} [Field K] [LinearOrder K]

/-! ## Model -/

/-- Operations on files: opening a file for writing empties it, filling it completes it.  The content is labelled by the checkpoint (time
and step number) it belongs to. -/
inductive Op (C : Type*)
  | empty (file : String)
  | fill (file : String) (content : C)

/-- The file an operation changes. -/
def Op.file {C : Type*} : Op C → String
  | .empty f => f
  | .fill f _ => f

/-- The disk: a file is absent, incomplete, or complete with a content. -/
abbrev Disk (C : Type*) := String → Option (Option C)

/-- Effect of an operation. -/
def Op.run {C : Type*} (d : Disk C) : Op C → Disk C
  | .empty f => fun g => if g = f then some none else d g
  | .fill f c => fun g => if g = f then some (some c) else d g

/-- The disk after some operations. -/
def Disk.after {C : Type*} (d : Disk C) (ops : List (Op C)) : Disk C := ops.foldl Op.run d

/-- What the checkpoints of a run depend on: `checkpoint.overwrite_files`, `checkpoint.filename_prefix`, `post_processor.output_dir`, the
endings of the files that deal.II's `triangulation.save` writes and `triangulation.load` reads (for deal.II 9.6: none, `.info`,
`_fixed.data`, …; a parameter, as is the sequential order of these writes), and the number of processes. -/
structure Files where
  overwrite : Bool
  name : String
  outputDir : String
  endings : List String
  ranks : ℕ

/-- `ThermalPhysics::save_checkpoint`, `source/ThermalPhysics.templates.hh:1184`: the files of the mesh and of the fields. -/
def saveMesh {C : Type*} (S : Files) (pre : String) (c : C) : List (Op C) :=
  S.endings.flatMap fun e => [.empty (pre ++ e), .fill (pre ++ e) c]

/-- `std::ofstream file{output_dir + filename_prefix + "_time.txt"}; oa << time; oa << n_time_step;`, `adamantine.hh:1366-1369`: every
process does this, in any interleaving; `turns` lists which process acts, each opens the file and then fills it. -/
inductive TimeOps {C : Type*} (f : String) (c : C) : List (ℕ × Bool) → List (Op C) → Prop
  | nil : TimeOps f c [] []
  | opens (rank : ℕ) (turns : List (ℕ × Bool)) (ops : List (Op C)) (h : TimeOps f c turns ops) :
      TimeOps f c ((rank, false) :: turns) (.empty f :: ops)
  | fills (rank : ℕ) (turns : List (ℕ × Bool)) (ops : List (Op C)) (h : TimeOps f c turns ops) :
      TimeOps f c ((rank, true) :: turns) (.fill f c :: ops)

/-- The turns of `n` processes: each opens the file once and then fills it once. -/
def Turns (n : ℕ) (turns : List (ℕ × Bool)) : Prop :=
  (∀ t ∈ turns, t.1 < n) ∧ ∀ rank < n, (turns.filter fun t => decide (t.1 = rank)) = [(rank, false), (rank, true)]

/-- All operations of one checkpoint, `adamantine.hh:1359-1369`. -/
def CheckpointOps (S : Files) (cp : K × ℕ) (ops : List (Op (K × ℕ))) : Prop :=
  ∃ turns ts, Turns S.ranks turns ∧
    TimeOps (timeFileWritten S.outputDir (checkpointPrefix S.overwrite S.name cp.2)) cp turns ts ∧
    ops = saveMesh S (checkpointPrefix S.overwrite S.name cp.2) cp ++ ts

/-- The operations of iteration `k` of the loop. -/
def IterationOps (S : Files) (c : Cfg K) (s : St K) (k : ℕ) (ops : List (Op (K × ℕ))) : Prop :=
  (Running c s k ∧ ∃ cp, (evAt c s k).checkpoint = some cp ∧ CheckpointOps S cp ops) ∨
  ((¬ Running c s k ∨ (evAt c s k).checkpoint = none) ∧ ops = [])

/-- A restart with `restart.filename_prefix` `r`: the mesh and the fields are those of the checkpoint `mesh` (`triangulation.load`,
`ThermalPhysics.templates.hh:985`; it fails on a missing or incomplete file), time and step number those of the checkpoint `time`
(`adamantine.hh:970-973`). -/
def Restarts {C : Type*} (S : Files) (d : Disk C) (r : String) (mesh time : C) : Prop :=
  (∀ e ∈ S.endings, d (r ++ e) = some (some mesh)) ∧ d (timeFileRead r) = some (some time)

/-! ## Specification -/

/-- The name of a numbered checkpoint: `prefix_12`. -/
def numbered (name : String) (n : ℕ) : String := name ++ "_" ++ toString n

/-- No ending begins with a digit. -/
def NoDigit (endings : List String) : Prop := ∀ e ∈ endings, ∀ x ∈ e.toList.head?, x.isDigit = false

/-- The program is killed in iteration `j`, after the operations `part` of that iteration (and all those of the iterations before). -/
def KilledAfter {C : Type*} (blocks : ℕ → List (Op C)) (j : ℕ) (part : List (Op C)) (d d' : Disk C) : Prop :=
  part <+: blocks j ∧ d' = d.after ((List.range j).flatMap blocks ++ part)

/-! ## Proofs -/

theorem after_append {C : Type*} (d : Disk C) (a b : List (Op C)) : d.after (a ++ b) = (d.after a).after b := by
  simp [Disk.after]

theorem after_other {C : Type*} (d : Disk C) (ops : List (Op C)) (f : String) (h : ∀ o ∈ ops, o.file ≠ f) : d.after ops f = d f := by
  induction ops generalizing d with
  | nil => rfl
  | cons o os ih =>
    have h1 := h o List.mem_cons_self
    have : d.after (o :: os) = (o.run d).after os := rfl
    rw [this, ih _ fun x hx => h x (List.mem_cons_of_mem _ hx)]
    cases o with
    | empty g => exact if_neg fun e => h1 e.symm
    | fill g c => exact if_neg fun e => h1 e.symm

theorem saveMesh_files {C : Type*} {S : Files} {pre : String} {c : C} {o : Op C} (h : o ∈ saveMesh S pre c) :
    ∃ e ∈ S.endings, o.file = pre ++ e := by
  obtain ⟨e, he, ho⟩ := List.mem_flatMap.1 h
  refine ⟨e, he, ?_⟩
  rcases List.mem_cons.1 ho with rfl | ho
  · rfl
  · rw [List.mem_singleton.1 ho]
    rfl

theorem timeOps_files {C : Type*} {f : String} {c : C} {turns : List (ℕ × Bool)} {ts : List (Op C)} (h : TimeOps f c turns ts) :
    ∀ o ∈ ts, o.file = f := by
  induction h with
  | nil => simp
  | opens r t o h ih =>
    intro x hx
    rcases List.mem_cons.1 hx with rfl | hx
    · rfl
    · exact ih x hx
  | fills r t o h ih =>
    intro x hx
    rcases List.mem_cons.1 hx with rfl | hx
    · rfl
    · exact ih x hx

/-- Files are filled last: whatever was on the disk, the file is complete afterwards. -/
theorem saveMesh_complete {C : Type*} (S : Files) (pre : String) (c : C) (d : Disk C) {e : String} (he : e ∈ S.endings) :
    d.after (saveMesh S pre c) (pre ++ e) = some (some c) := by
  unfold saveMesh
  generalize S.endings = es at he
  induction es generalizing d with
  | nil => cases he
  | cons a as ih =>
    rw [List.flatMap_cons, after_append]
    by_cases h : e ∈ as
    · exact ih _ h
    · rcases List.mem_cons.1 he with rfl | h'
      · rw [after_other]
        · simp [Disk.after, Op.run]
        · intro o ho hf
          obtain ⟨b, hb, hb2⟩ := saveMesh_files (S := { S with endings := as }) (pre := pre) (c := c) ho
          rw [hb2] at hf
          have : b = e := by
            have := congrArg String.toList hf
            simp only [String.toList_append, List.append_cancel_left_eq] at this
            exact String.toList_inj.1 this
          exact h (this ▸ hb)
      · exact absurd h' h

theorem timeOps_after {C : Type*} {f : String} {c : C} {turns : List (ℕ × Bool)} {ts : List (Op C)} (h : TimeOps f c turns ts)
    (d : Disk C) (hl : ∃ r, turns.getLast? = some (r, true)) : d.after ts f = some (some c) := by
  induction h generalizing d with
  | nil => simp at hl
  | opens r t o h ih =>
    have : d.after (Op.empty f :: o) = ((Op.empty f).run d).after o := rfl
    rw [this]
    apply ih
    cases t with
    | nil => simp at hl
    | cons a as => rwa [List.getLast?_cons_cons] at hl
  | fills r t o h ih =>
    have : d.after (Op.fill f c :: o) = ((Op.fill f c).run d).after o := rfl
    rw [this]
    cases t with
    | nil =>
      cases h
      simp [Disk.after, Op.run]
    | cons a as =>
      apply ih
      rwa [List.getLast?_cons_cons] at hl

theorem turns_last {n : ℕ} {turns : List (ℕ × Bool)} (h : Turns n turns) (hn : 0 < n) : ∃ r, turns.getLast? = some (r, true) := by
  have hne : turns ≠ [] := by
    rintro rfl
    have := h.2 0 hn
    simp at this
  obtain ⟨pre, last, rfl⟩ := List.eq_nil_or_concat' turns |>.resolve_left hne
  have hl := h.1 last (by simp)
  have h2 := h.2 last.1 hl
  rw [List.filter_append] at h2
  have h3 : ([last].filter fun t : ℕ × Bool => decide (t.1 = last.1)) = [last] := by simp
  rw [h3] at h2
  have h4 := congrArg List.getLast? h2
  simp only [List.getLast?_concat, List.getLast?_cons_cons, List.getLast?_singleton, Option.some.injEq] at h4
  refine ⟨last.1, ?_⟩
  rw [List.getLast?_concat]
  congr 1

theorem digits_toString (n : ℕ) : ∀ x ∈ (toString n).toList, x.isDigit = true := by
  rw [show toString n = n.repr from rfl, Nat.toList_repr]
  exact fun c hc => Nat.isDigit_of_mem_toDigits (by decide) (by decide) hc

theorem takeWhile_digits (a e : List Char) (ha : ∀ x ∈ a, x.isDigit = true) (he : ∀ x ∈ e.head?, x.isDigit = false) :
    (a ++ e).takeWhile Char.isDigit = a := by
  rw [List.takeWhile_append_of_pos ha]
  cases e with
  | nil => simp
  | cons x xs => simp [List.takeWhile_cons, he x (by simp)]

/-- Files of different numbered checkpoints have different names. -/
theorem numbered_inj {name e e' : String} {n m : ℕ} (he : ∀ x ∈ e.toList.head?, x.isDigit = false)
    (he' : ∀ x ∈ e'.toList.head?, x.isDigit = false) (h : numbered name n ++ e = numbered name m ++ e') : n = m := by
  have h1 := congrArg String.toList h
  simp only [numbered, String.toList_append, List.append_assoc, List.append_cancel_left_eq] at h1
  have h2 := congrArg (List.takeWhile Char.isDigit) h1
  rw [takeWhile_digits _ _ (digits_toString n) he, takeWhile_digits _ _ (digits_toString m) he'] at h2
  exact Nat.repr_injective (String.toList_inj.1 h2)

theorem time_noDigit : ∀ x ∈ "_time.txt".toList.head?, x.isDigit = false := by decide

/-- The files of a checkpoint. -/
theorem checkpoint_files {S : Files} {cp : K × ℕ} {ops : List (Op (K × ℕ))} (h : CheckpointOps S cp ops) :
    ∀ o ∈ ops, (∃ e ∈ S.endings, o.file = checkpointPrefix S.overwrite S.name cp.2 ++ e) ∨
      o.file = S.outputDir ++ checkpointPrefix S.overwrite S.name cp.2 ++ "_time.txt" := by
  obtain ⟨turns, ts, -, h2, rfl⟩ := h
  intro o ho
  rcases List.mem_append.1 ho with ho | ho
  · exact Or.inl (saveMesh_files ho)
  · exact Or.inr (timeOps_files h2 o ho)

/-- A completed checkpoint can be restarted from. -/
theorem checkpoint_complete {S : Files} {cp : K × ℕ} {ops : List (Op (K × ℕ))} (h : CheckpointOps S cp ops) (hr : 0 < S.ranks)
    (hdir : S.outputDir = "") (ht : "_time.txt" ∉ S.endings) (d : Disk (K × ℕ)) :
    Restarts S (d.after ops) (checkpointPrefix S.overwrite S.name cp.2) cp cp := by
  obtain ⟨turns, ts, h1, h2, rfl⟩ := h
  constructor
  · intro e he
    rw [after_append, after_other _ ts]
    · exact saveMesh_complete S _ cp d he
    · intro o ho hf
      rw [timeOps_files h2 o ho, timeFileWritten, hdir] at hf
      have := congrArg String.toList hf
      simp only [String.toList_append, List.append_assoc, List.append_cancel_left_eq, String.toList_empty, List.nil_append] at this
      exact ht (String.toList_inj.1 this ▸ he)
  · rw [after_append]
    have := timeOps_after h2 (d.after (saveMesh S (checkpointPrefix S.overwrite S.name cp.2) cp)) (turns_last h1 hr)
    rw [timeFileWritten, hdir] at this
    rw [timeFileRead]
    simpa using this

/-- The step number of an iteration of a running loop. -/
theorem step_number (c : Cfg K) (s : St K) : ∀ k, Running c s k → (∀ i ≤ k, Running c s i) ∧ (stateAt c s k).n = s.n + k := by
  intro k
  induction k with
  | zero =>
    intro h
    refine ⟨fun i hi => ?_, rfl⟩
    rw [Nat.le_zero.1 hi]
    exact h
  | succ k ih =>
    intro h
    by_cases hk : Running c s k
    · obtain ⟨h1, h2⟩ := ih hk
      refine ⟨fun i hi => ?_, ?_⟩
      · rcases Nat.lt_or_ge i (k + 1) with hl | hl
        · exact h1 i (by omega)
        · rw [show i = k + 1 by omega]
          exact h
      · unfold Running at hk
        rw [stateAt, if_pos hk]
        change (stateAt c s k).n + 1 = _
        omega
    · exfalso
      apply hk
      unfold Running at h hk ⊢
      rw [stateAt, if_neg hk] at h
      exact h

theorem checkpoint_number {c : Cfg K} {s : St K} {k : ℕ} {cp : K × ℕ} (hr : Running c s k) (h : (evAt c s k).checkpoint = some cp) :
    cp.2 = s.n + k := by
  rw [← (step_number c s k hr).2]
  simp only [evAt, iter] at h
  split_ifs at h <;> simp only [Option.some.injEq] at h <;> rw [← h]

theorem range_split {α : Type*} (blocks : ℕ → List α) {k j : ℕ} (h : k < j) :
    ∃ tail, (List.range j).flatMap blocks = (List.range k).flatMap blocks ++ blocks k ++ tail ∧
      ∀ o ∈ tail, ∃ i, k < i ∧ i < j ∧ o ∈ blocks i := by
  induction j with
  | zero => omega
  | succ j ih =>
    rw [List.range_succ, List.flatMap_append]
    by_cases hk : k = j
    · subst hk
      exact ⟨[], by simp, by simp⟩
    · obtain ⟨tail, h1, h2⟩ := ih (by omega)
      refine ⟨tail ++ blocks j, by rw [h1]; simp, ?_⟩
      intro o ho
      rcases List.mem_append.1 ho with ho | ho
      · obtain ⟨i, a, b, e⟩ := h2 o ho
        exact ⟨i, a, by omega, e⟩
      · exact ⟨j, by omega, by omega, ho⟩

theorem iteration_mem {S : Files} {c : Cfg K} {s : St K} {i : ℕ} {ops : List (Op (K × ℕ))} (h : IterationOps S c s i ops) {o : Op (K × ℕ)}
    (ho : o ∈ ops) : Running c s i ∧ ∃ cp, (evAt c s i).checkpoint = some cp ∧ CheckpointOps S cp ops := by
  rcases h with h | ⟨-, rfl⟩
  · exact h
  · cases ho

/-- C126: with numbered checkpoints (`overwrite_files false`), whenever the program is killed, whatever was on the disk before, and in
whatever order the processes write: a restart from any checkpoint completed before finds the mesh, the fields, the time and the step number
of that checkpoint. -/
theorem C126_numbered (S : Files) (c : Cfg K) (s : St K) (hov : S.overwrite = false) (hdir : S.outputDir = "") (hr : 0 < S.ranks)
    (hd : NoDigit S.endings) (ht : "_time.txt" ∉ S.endings) (blocks : ℕ → List (Op (K × ℕ))) (hb : ∀ i, IterationOps S c s i (blocks i))
    (d d' : Disk (K × ℕ)) (j : ℕ) (part : List (Op (K × ℕ))) (hkill : KilledAfter blocks j part d d') (k : ℕ) (hkj : k < j)
    (hrun : Running c s k) (cp : K × ℕ) (hcp : (evAt c s k).checkpoint = some cp) :
    Restarts S d' (numbered S.name (s.n + k)) cp cp ∧ cp.2 = s.n + k := by
  have hnum := checkpoint_number hrun hcp
  refine ⟨?_, hnum⟩
  obtain ⟨hp, rfl⟩ := hkill
  obtain ⟨tail, h1, h2⟩ := range_split blocks hkj
  have hck : CheckpointOps S cp (blocks k) := by
    rcases hb k with ⟨-, cp', h3, h4⟩ | ⟨h3 | h3, -⟩
    · rw [hcp, Option.some.injEq] at h3
      rw [h3]
      exact h4
    · exact absurd hrun h3
    · rw [hcp] at h3
      cases h3
  have hbase := checkpoint_complete hck hr hdir ht (d.after ((List.range k).flatMap blocks))
  have hpre : ∀ n, checkpointPrefix S.overwrite S.name n = numbered S.name n := fun n => by
    rw [hov]
    rfl
  rw [hpre, hnum] at hbase
  have hlater : ∀ o ∈ tail ++ part, ∀ e : String, (∀ x ∈ e.toList.head?, x.isDigit = false) → o.file ≠ numbered S.name (s.n + k) ++ e := by
    intro o ho e he hf
    have hi : ∃ i, k < i ∧ o ∈ blocks i := by
      rcases List.mem_append.1 ho with ho | ho
      · obtain ⟨i, a, -, b⟩ := h2 o ho
        exact ⟨i, a, b⟩
      · exact ⟨j, hkj, hp.subset ho⟩
    obtain ⟨i, hki, hoi⟩ := hi
    obtain ⟨hri, cp', hcp', hops⟩ := iteration_mem (hb i) hoi
    have hn' := checkpoint_number hri hcp'
    rcases checkpoint_files hops o hoi with ⟨e', he', hfe⟩ | hfe
    · rw [hf, hpre] at hfe
      have := numbered_inj he (hd e' he') hfe
      omega
    · rw [hf, hpre, hdir, String.empty_append] at hfe
      have := numbered_inj he time_noDigit hfe
      omega
  have hsplit : d.after ((List.range j).flatMap blocks ++ part) =
      ((d.after ((List.range k).flatMap blocks)).after (blocks k)).after (tail ++ part) := by
    rw [h1]
    simp only [after_append]
  rw [hsplit]
  refine ⟨fun e he => ?_, ?_⟩
  · rw [after_other _ _ _ fun o ho => hlater o ho e (hd e he)]
    exact hbase.1 e he
  · rw [timeFileRead, after_other _ _ _ fun o ho => hlater o ho "_time.txt" time_noDigit]
    exact hbase.2

/-- C126: a run that starts after step `m` (a restarted one) leaves the checkpoints up to step `m` alone, whenever it is killed. -/
theorem C126_earlier_kept (S : Files) (c : Cfg K) (s : St K) (hov : S.overwrite = false) (hdir : S.outputDir = "")
    (hd : NoDigit S.endings) (blocks : ℕ → List (Op (K × ℕ))) (hb : ∀ i, IterationOps S c s i (blocks i))
    (d d' : Disk (K × ℕ)) (j : ℕ) (part : List (Op (K × ℕ))) (hkill : KilledAfter blocks j part d d') (m : ℕ) (hm : m < s.n)
    (mesh time : K × ℕ) : Restarts S d' (numbered S.name m) mesh time ↔ Restarts S d (numbered S.name m) mesh time := by
  obtain ⟨hp, rfl⟩ := hkill
  have hpre : ∀ n, checkpointPrefix S.overwrite S.name n = numbered S.name n := fun n => by
    rw [hov]
    rfl
  have hother : ∀ o ∈ (List.range j).flatMap blocks ++ part, ∀ e : String, (∀ x ∈ e.toList.head?, x.isDigit = false) →
      o.file ≠ numbered S.name m ++ e := by
    intro o ho e he hf
    have hi : ∃ i, o ∈ blocks i := by
      rcases List.mem_append.1 ho with ho | ho
      · obtain ⟨i, -, b⟩ := List.mem_flatMap.1 ho
        exact ⟨i, b⟩
      · exact ⟨j, hp.subset ho⟩
    obtain ⟨i, hoi⟩ := hi
    obtain ⟨hri, cp', hcp', hops⟩ := iteration_mem (hb i) hoi
    have hn' := checkpoint_number hri hcp'
    rcases checkpoint_files hops o hoi with ⟨e', he', hfe⟩ | hfe
    · rw [hf, hpre] at hfe
      have := numbered_inj he (hd e' he') hfe
      omega
    · rw [hf, hpre, hdir, String.empty_append] at hfe
      have := numbered_inj he time_noDigit hfe
      omega
  unfold Restarts
  rw [timeFileRead, after_other _ _ _ fun o ho => hother o ho "_time.txt" time_noDigit]
  refine and_congr ?_ Iff.rfl
  refine forall₂_congr fun e he => ?_
  rw [after_other _ _ _ fun o ho => hother o ho e (hd e he)]

theorem blocks_between {S : Files} {c : Cfg K} {s : St K} {blocks : ℕ → List (Op (K × ℕ))} (hb : ∀ i, IterationOps S c s i (blocks i))
    {k j : ℕ} (hno : ∀ i, k < i → i < j → (evAt c s i).checkpoint = none) (hkj : k < j) :
    (List.range j).flatMap blocks = (List.range k).flatMap blocks ++ blocks k := by
  obtain ⟨tail, h1, h2⟩ := range_split blocks hkj
  have : tail = [] := by
    rw [List.eq_nil_iff_forall_not_mem]
    intro o ho
    obtain ⟨i, a, b, hi⟩ := h2 o ho
    obtain ⟨-, cp, hcp, -⟩ := iteration_mem (hb i) hi
    rw [hno i a b] at hcp
    cases hcp
  rw [h1, this, List.append_nil]

theorem block_of {S : Files} {c : Cfg K} {s : St K} {k : ℕ} {ops : List (Op (K × ℕ))} (h : IterationOps S c s k ops) {cp : K × ℕ}
    (hrun : Running c s k) (hcp : (evAt c s k).checkpoint = some cp) : CheckpointOps S cp ops := by
  rcases h with ⟨-, cp', h3, h4⟩ | ⟨h3 | h3, -⟩
  · rw [hcp, Option.some.injEq] at h3
    rw [h3]
    exact h4
  · exact absurd hrun h3
  · rw [hcp] at h3
    cases h3

/-- C126 (partial): with `overwrite_files true` the last checkpoint can be restarted from if the program is killed while no checkpoint is
being written. -/
theorem C126_overwritten_partial (S : Files) (c : Cfg K) (s : St K) (hov : S.overwrite = true) (hdir : S.outputDir = "") (hr : 0 < S.ranks)
    (ht : "_time.txt" ∉ S.endings) (blocks : ℕ → List (Op (K × ℕ))) (hb : ∀ i, IterationOps S c s i (blocks i))
    (d d' : Disk (K × ℕ)) (j : ℕ) (hkill : KilledAfter blocks j [] d d') (k : ℕ) (hkj : k < j) (hrun : Running c s k) (cp : K × ℕ)
    (hcp : (evAt c s k).checkpoint = some cp) (hlast : ∀ i, k < i → i < j → (evAt c s i).checkpoint = none) :
    Restarts S d' S.name cp cp := by
  obtain ⟨-, rfl⟩ := hkill
  have := checkpoint_complete (block_of (hb k) hrun hcp) hr hdir ht (d.after ((List.range k).flatMap blocks))
  rw [hov] at this
  rw [List.append_nil, blocks_between hb hlast hkj, after_append]
  exact this

/-- C126 is false with `overwrite_files true`: in every run with two checkpoints there is a moment at which, if the program is killed, a
restart silently combines the mesh and the temperature of the new checkpoint with the time and the step number of the old one, and an earlier
moment after which there is nothing to restart from. -/
theorem C126_overwrite_refuted (S : Files) (c : Cfg K) (s : St K) (hov : S.overwrite = true) (hdir : S.outputDir = "") (hr : 0 < S.ranks)
    (ht : "_time.txt" ∉ S.endings) (hne : S.endings ≠ []) (blocks : ℕ → List (Op (K × ℕ))) (hb : ∀ i, IterationOps S c s i (blocks i))
    (d : Disk (K × ℕ)) (k j : ℕ) (hkj : k < j) (hrk : Running c s k) (hrj : Running c s j) (cp cp' : K × ℕ)
    (hcp : (evAt c s k).checkpoint = some cp) (hcp' : (evAt c s j).checkpoint = some cp')
    (hlast : ∀ i, k < i → i < j → (evAt c s i).checkpoint = none) :
    cp.2 < cp'.2 ∧
    (∃ part d', KilledAfter blocks j part d d' ∧ Restarts S d' S.name cp' cp) ∧
    ∃ part d', KilledAfter blocks j part d d' ∧ ∀ mesh time, ¬ Restarts S d' S.name mesh time := by
  have hn1 := checkpoint_number hrk hcp
  have hn2 := checkpoint_number hrj hcp'
  have hbase := C126_overwritten_partial S c s hov hdir hr ht blocks hb d _ j ⟨List.nil_prefix, rfl⟩ k hkj hrk cp hcp hlast
  rw [List.append_nil] at hbase
  obtain ⟨turns, ts, -, -, hops⟩ := block_of (hb j) hrj hcp'
  have hname : checkpointPrefix S.overwrite S.name cp'.2 = S.name := by
    rw [hov]
    rfl
  rw [hname] at hops
  refine ⟨by omega, ⟨saveMesh S S.name cp', _, ⟨⟨ts, hops.symm⟩, rfl⟩, ?_, ?_⟩, ?_⟩
  · intro e he
    rw [after_append]
    exact saveMesh_complete S S.name cp' _ he
  · rw [after_append, after_other]
    · exact hbase.2
    · intro o ho hf
      obtain ⟨e, he, hf2⟩ := saveMesh_files ho
      rw [hf2, timeFileRead] at hf
      have := congrArg String.toList hf
      simp only [String.toList_append, List.append_cancel_left_eq] at this
      exact ht (String.toList_inj.1 this ▸ he)
  · obtain ⟨e, es, hes⟩ := List.exists_cons_of_ne_nil hne
    refine ⟨[.empty (S.name ++ e)], _, ⟨?_, rfl⟩, ?_⟩
    · rw [hops, saveMesh, hes, List.flatMap_cons]
      exact ⟨_, rfl⟩
    · rintro mesh time ⟨h1, -⟩
      have := h1 e (by rw [hes]; exact List.mem_cons_self)
      rw [after_append] at this
      simp [Disk.after, Op.run] at this

/-- C126 is false with an output directory (`output/`, any name with a slash): the time file is written there, the restart looks for it
beside the mesh; in an otherwise clean directory no checkpoint can be restarted from. -/
theorem C126_output_dir_refuted (S : Files) (c : Cfg K) (s : St K) (hov : S.overwrite = false) (hdir : '/' ∈ S.outputDir.toList)
    (hd : NoDigit S.endings) (ht : "_time.txt" ∉ S.endings) (blocks : ℕ → List (Op (K × ℕ))) (hb : ∀ i, IterationOps S c s i (blocks i))
    (d d' : Disk (K × ℕ)) (hclean : ∀ m, d (numbered S.name m ++ "_time.txt") = none) (j : ℕ) (part : List (Op (K × ℕ)))
    (hkill : KilledAfter blocks j part d d') (m : ℕ) (mesh time : K × ℕ) : ¬ Restarts S d' (numbered S.name m) mesh time := by
  obtain ⟨hp, rfl⟩ := hkill
  have hpre : ∀ n, checkpointPrefix S.overwrite S.name n = numbered S.name n := fun n => by
    rw [hov]
    rfl
  rintro ⟨-, h⟩
  rw [timeFileRead, after_other, hclean] at h
  · cases h
  · intro o ho hf
    have hi : ∃ i, o ∈ blocks i := by
      rcases List.mem_append.1 ho with ho | ho
      · obtain ⟨i, -, b⟩ := List.mem_flatMap.1 ho
        exact ⟨i, b⟩
      · exact ⟨j, hp.subset ho⟩
    obtain ⟨i, hoi⟩ := hi
    obtain ⟨-, cp', -, hops⟩ := iteration_mem (hb i) hoi
    rcases checkpoint_files hops o hoi with ⟨e', he', hfe⟩ | hfe
    · rw [hf, hpre] at hfe
      have h1 := numbered_inj time_noDigit (hd e' he') hfe
      rw [h1] at hfe
      have := congrArg String.toList hfe
      simp only [String.toList_append, List.append_cancel_left_eq] at this
      exact ht (String.toList_inj.1 this ▸ he')
    · rw [hf, hpre] at hfe
      have h1 := congrArg (fun x : String => x.toList.count '/') hfe
      have hz : ∀ n : ℕ, (toString n).toList.count '/' = 0 := by
        intro n
        rw [List.count_eq_zero]
        intro hmem
        have := digits_toString n _ hmem
        revert this
        decide
      have hpos := List.count_pos_iff.2 hdir
      simp only [numbered, String.toList_append, List.count_append, hz] at h1
      omega

/-- C126: where the files of a checkpoint are: those of the mesh under the prefix, the time file in the output directory, all of them
complete when the checkpoint is. -/
theorem C126_file_names (S : Files) (c : Cfg K) (s : St K) (hr : 0 < S.ranks) (blocks : ℕ → List (Op (K × ℕ)))
    (hb : ∀ i, IterationOps S c s i (blocks i)) (d : Disk (K × ℕ)) (k : ℕ) (hrun : Running c s k) (cp : K × ℕ)
    (hcp : (evAt c s k).checkpoint = some cp) :
    d.after ((List.range (k + 1)).flatMap blocks)
      (S.outputDir ++ (if S.overwrite = true then S.name else S.name ++ "_" ++ toString (s.n + k)) ++ "_time.txt") = some (some cp) := by
  obtain ⟨turns, ts, h1, h2, hops⟩ := block_of (hb k) hrun hcp
  have := timeOps_after h2 (d.after ((List.range k).flatMap blocks ++ saveMesh S (checkpointPrefix S.overwrite S.name cp.2) cp)) (turns_last h1 hr)
  rw [← after_append] at this
  rw [List.range_succ, List.flatMap_append, List.flatMap_singleton, hops, ← List.append_assoc]
  rw [checkpoint_number hrun hcp] at this ⊢
  exact this

/-- The files of an ensemble of `n` members in one group, `adamantine.hh:2388-2393`: those of member `m` are the files of the prefix
followed by `_m`; the time file is common. -/
def ensembleFiles (S : Files) (n : ℕ) : Files :=
  { S with endings := (List.range n).flatMap fun m : ℕ => S.endings.map fun e => "_" ++ toString m ++ e }

/-- C126 for ensembles (one group): the theorems above hold for the files of all members, and member `m` is restarted from its own files. -/
theorem C126_ensemble (S : Files) (n : ℕ) :
    NoDigit (ensembleFiles S n).endings ∧ "_time.txt" ∉ (ensembleFiles S n).endings ∧
    ∀ (d : Disk (K × ℕ)) (r : String) (mesh time : K × ℕ), Restarts (ensembleFiles S n) d r mesh time →
      ∀ m < n, ∀ e ∈ S.endings, d (r ++ "_" ++ toString m ++ e) = some (some mesh) := by
  refine ⟨?_, ?_, ?_⟩
  · intro e he x hx
    obtain ⟨m, -, h⟩ := List.mem_flatMap.1 he
    obtain ⟨e', -, rfl⟩ := List.mem_map.1 h
    have : ("_" ++ toString m ++ e').toList.head? = some '_' := by
      simp [String.toList_append]
    rw [this, Option.mem_some_iff] at hx
    rw [← hx]
    decide
  · intro he
    obtain ⟨m, -, h⟩ := List.mem_flatMap.1 he
    obtain ⟨e', -, h2⟩ := List.mem_map.1 h
    have h3 := congrArg String.toList h2
    simp only [String.toList_append] at h3
    have hne : (toString m).toList ≠ [] := by
      rw [show toString m = m.repr from rfl, Nat.toList_repr]
      exact Nat.toDigits_ne_nil
    obtain ⟨x, xs, hx⟩ := List.exists_cons_of_ne_nil hne
    have hxd := digits_toString m x (by rw [hx]; exact List.mem_cons_self)
    rw [hx, show "_time.txt".toList = '_' :: 't' :: "ime.txt".toList by decide, show "_".toList = ['_'] by decide] at h3
    simp only [List.cons_append, List.nil_append, List.cons.injEq, true_and] at h3
    rw [h3.1] at hxd
    revert hxd
    decide
  · intro d r mesh time h m hm e he
    have := h.1 ("_" ++ toString m ++ e) (List.mem_flatMap.2 ⟨m, List.mem_range.2 hm, List.mem_map.2 ⟨e, he, rfl⟩⟩)
    rwa [← String.append_assoc, ← String.append_assoc] at this

/-! ## A run that meets the hypotheses -/

theorem exists_turns (n : ℕ) : ∃ turns, Turns n turns := by
  induction n with
  | zero => exact ⟨[], by simp [Turns]⟩
  | succ n ih =>
    obtain ⟨t, h1, h2⟩ := ih
    refine ⟨t ++ [(n, false), (n, true)], ?_, ?_⟩
    · intro x hx
      rcases List.mem_append.1 hx with hx | hx
      · exact (h1 x hx).trans (Nat.lt_succ_self n)
      · rcases List.mem_cons.1 hx with rfl | hx
        · exact Nat.lt_succ_self n
        · rw [List.mem_singleton.1 hx]
          exact Nat.lt_succ_self n
    · intro r hr
      rw [List.filter_append]
      by_cases hrn : r = n
      · subst hrn
        have : (t.filter fun x => decide (x.1 = r)) = [] := by
          rw [List.filter_eq_nil_iff]
          intro x hx
          have := h1 x hx
          simp
          omega
        rw [this]
        simp
      · rw [h2 r (by omega)]
        have : n ≠ r := fun h => hrn h.symm
        simp [this]

theorem exists_timeOps {C : Type*} (f : String) (c : C) : ∀ turns : List (ℕ × Bool), ∃ ts, TimeOps f c turns ts
  | [] => ⟨_, .nil⟩
  | (r, false) :: t => by
    obtain ⟨ts, h⟩ := exists_timeOps f c t
    exact ⟨_, .opens r t ts h⟩
  | (r, true) :: t => by
    obtain ⟨ts, h⟩ := exists_timeOps f c t
    exact ⟨_, .fills r t ts h⟩

/-- Every run has operations. -/
theorem exists_blocks (S : Files) (c : Cfg K) (s : St K) : ∃ blocks : ℕ → List (Op (K × ℕ)), ∀ i, IterationOps S c s i (blocks i) := by
  classical
  have h : ∀ i, ∃ ops, IterationOps S c s i ops := by
    intro i
    by_cases hr : Running c s i
    · cases hcp : (evAt c s i).checkpoint with
      | none => exact ⟨[], Or.inr ⟨Or.inr hcp, rfl⟩⟩
      | some cp =>
        obtain ⟨turns, ht⟩ := exists_turns S.ranks
        obtain ⟨ts, hts⟩ := exists_timeOps (timeFileWritten S.outputDir (checkpointPrefix S.overwrite S.name cp.2)) cp turns
        exact ⟨_, Or.inl ⟨hr, cp, hcp, turns, ts, ht, hts, rfl⟩⟩
    · exact ⟨[], Or.inr ⟨Or.inl hr, rfl⟩⟩
  exact ⟨fun i => (h i).choose, fun i => (h i).choose_spec⟩

/-- deal.II's endings on four processes. -/
def demoFiles (overwrite : Bool) : Files := ⟨overwrite, "checkpoint", "", ["", ".info", "_fixed.data"], 4⟩

/-- The run of ten unit steps with a checkpoint in every step meets the hypotheses of the theorems of C126. -/
example (overwrite : Bool) : (demoFiles overwrite).overwrite = overwrite ∧ 0 < (demoFiles overwrite).ranks ∧ (demoFiles overwrite).outputDir = "" ∧
    NoDigit (demoFiles overwrite).endings ∧ "_time.txt" ∉ (demoFiles overwrite).endings ∧ (demoFiles overwrite).endings ≠ [] ∧
    Running shift (start shift) 0 ∧ Running shift (start shift) 1 ∧ (evAt shift (start shift) 0).checkpoint = some (1, 1) ∧
    (evAt shift (start shift) 1).checkpoint = some (2, 2) := by
  refine ⟨rfl, by simp [demoFiles], rfl, ?_, by simp [demoFiles], by simp [demoFiles], ?_, ?_, ?_, ?_⟩
  · change ∀ e ∈ ["", ".info", "_fixed.data"], ∀ x ∈ e.toList.head?, x.isDigit = false
    decide
  all_goals norm_num [Running, evAt, iter, stateAt, start, shift]

end Verif.Driver
