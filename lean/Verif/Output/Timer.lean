import Mathlib.Algebra.BigOperators.Group.List.Basic
import Mathlib.Algebra.Order.Group.Defs
import Mathlib.Algebra.Order.BigOperators.Group.List
import Mathlib.Data.List.Induction
import Mathlib.Tactic.Abel
import Mathlib.Tactic.Ring

/-!
# C72: timers, `source/Timer.cc`, and their use in `application/adamantine.hh`

Clock readings are elements of an ordered additive group `T` (nanoseconds in the code).
-/

namespace Verif.Output.Timing

variable {T : Type*} [AddCommGroup T]

/-- Members of `Timer` that matter, `Timer.hh:60-66`. -/
structure Timer (T : Type*) where
  tStart : T
  elapsed : T

/-- A call on a timer with the clock reading at the call. -/
inductive Call (T : Type*)
  | start (now : T)
  | stop (now : T)
  | reset

/-- Constructor, `Timer.cc:12-16`: `_t_start()` is the epoch of the clock. -/
def Timer.new : Timer T := ⟨0, 0⟩

/-- `start`, `stop`, `reset`, `Timer.cc:18-22`. -/
def Timer.call (s : Timer T) : Call T → Timer T
  | .start now => { s with tStart := now }
  | .stop now => { s with elapsed := s.elapsed + (now - s.tStart) }
  | .reset => { s with elapsed := 0 }

/-- `get_elapsed_time` after a sequence of calls, `Timer.cc:37-40`. -/
def elapsedAfter (h : List (Call T)) : T := (h.foldl Timer.call Timer.new).elapsed

/-! ## The application -/

/-- `enum Timing`, `types.hh:132-148`. -/
inductive Timing
  | main | refine | addMaterialSearch | addMaterialActivate | daExperimentalData | daDofMapping | daCovarianceSparsity
  | daObsCovariance | daUpdateEnsemble | evolTime | evolTimeEval | evolTimeUpdate | output
  deriving DecidableEq, Repr

/-- A call in the program text: which timer, and whether it is a start. -/
abbrev Op := Timing × Bool

/-- `timers[t].start(); …; timers[t].stop();` -/
def block (t : Timing) (inner : List Op) : List Op := (t, true) :: inner ++ [(t, false)]

/-- What one iteration of a loop does. -/
structure Iter where
  /-- the mesh is adapted -/
  refine : Bool
  /-- numbers of searches for cells to activate (one per local member; 0 if nothing is deposited) -/
  searches : ℕ
  /-- numbers of right-hand sides evaluated (stages times members) -/
  evals : ℕ
  /-- a frame is assimilated; the inner flag: some observations are mapped -/
  assimilate : Option Bool
  /-- number of outputs -/
  outputs : ℕ

/-- Calls in an evaluation of the thermal physics, `ThermalPhysics.templates.hh:58-121` (host: one timer) and `162-323`
(device: two timers). -/
def evalOps (device : Bool) : List Op :=
  (if device then block .evolTimeUpdate [] else []) ++ block .evolTimeEval []

/-- Calls of the data assimilation, `adamantine.hh:2191-2304`; line 2262 says `start`. -/
def assimilateOps (mapped : Bool) : List Op :=
  block .daExperimentalData [] ++
    if mapped then
      block .daDofMapping [] ++ [(.daCovarianceSparsity, true), (.daCovarianceSparsity, true)] ++
        block .daObsCovariance [] ++ block .daUpdateEnsemble []
    else []

/-- Calls in one iteration of the loop of `run` (`adamantine.hh:1119-1397`, no assimilation) or `run_ensemble`
(`adamantine.hh:2024-2424`). -/
def iterOps (device : Bool) (it : Iter) : List Op :=
  (if it.refine then block .refine [] else []) ++
  block .addMaterialActivate (List.replicate it.searches (block .addMaterialSearch [])).flatten ++
  block .evolTime (List.replicate it.evals (evalOps device)).flatten ++
  (match it.assimilate with | none => [] | some m => assimilateOps m) ++
  (List.replicate it.outputs (block .output [])).flatten

/-- Calls of a whole run: `adamantine.cc:266` and `517`, the initial outputs (`adamantine.hh:980, 1881`), the iterations. -/
def runOps (device : Bool) (initialOutputs : ℕ) (its : List Iter) : List Op :=
  block .main ((List.replicate initialOutputs (block .output [])).flatten ++ (its.map (iterOps device)).flatten)

/-- The calls on one timer when the `k`-th call of the run happens at time `clock k`. -/
def callsOn (t : Timing) (ops : List Op) (clock : ℕ → T) : List (Call T) :=
  (ops.zipIdx.filter fun p => p.1.1 = t).map fun p => if p.1.2 then .start (clock p.2) else .stop (clock p.2)

/-- Labels in the order of `initialize_timers`, `adamantine.hh:194-218`, with the timer the label describes. -/
def labels : List (String × Timing) :=
  [("Main", .main), ("Refinement", .refine), ("Add Material, Search", .addMaterialSearch),
   ("Add Material, Activate", .addMaterialActivate), ("Data Assimilation, Exp. Data", .daExperimentalData),
   ("Data Assimilation, DOF Mapping", .daDofMapping), ("Data Assimilation, Cov. Sparsity", .daCovarianceSparsity),
   ("Data Assimilation, Exp. Cov.", .daObsCovariance), ("Data Assimilation, Update Ensemble", .daUpdateEnsemble),
   ("Evolve One Time Step", .evolTime), ("Evolve One Time Step: evaluate_thermal_physics", .evolTimeEval),
   ("Evolve One Time Step: evaluate_material_properties", .evolTimeUpdate), ("Output", .output)]

/-- `timers[t]` is the element with the number of the enumerator. -/
def Timing.index : Timing → ℕ
  | .main => 0 | .refine => 1 | .addMaterialSearch => 2 | .addMaterialActivate => 3 | .daExperimentalData => 4
  | .daDofMapping => 5 | .daCovarianceSparsity => 6 | .daObsCovariance => 7 | .daUpdateEnsemble => 8 | .evolTime => 9
  | .evolTimeEval => 10 | .evolTimeUpdate => 11 | .output => 12

/-! ## Specification -/

/-- A well-used timer: alternately started and stopped. -/
def alternating (ps : List (T × T)) : List (Call T) := ps.flatMap fun p => [.start p.1, .stop p.2]

/-- The latest start before the end of `h` (the epoch if there is none). -/
def lastStart (h : List (Call T)) : T :=
  h.foldl (fun a c => match c with | .start now => now | _ => a) 0

/-! ## C72 -/

theorem call_alternating (ps : List (T × T)) (s : Timer T) :
    ((alternating ps).foldl Timer.call s).elapsed = s.elapsed + (ps.map fun p => p.2 - p.1).sum := by
  induction ps generalizing s with
  | nil => simp [alternating]
  | cons p t ih =>
    have : alternating (p :: t) = .start p.1 :: .stop p.2 :: alternating t := rfl
    rw [this, List.foldl_cons, List.foldl_cons, ih]
    simp [Timer.call, add_assoc]

/-- **C72** (accumulation). A timer that is alternately started and stopped reports the sum of the durations, for every number
of intervals and whatever the clock reads. -/
theorem C72_sum_of_intervals (ps : List (T × T)) :
    elapsedAfter (alternating ps) = (ps.map fun p => p.2 - p.1).sum := by
  unfold elapsedAfter
  rw [call_alternating]
  simp [Timer.new]

/-- **C72** (reset). After a reset only later intervals count. -/
theorem C72_reset (h : List (Call T)) (ps : List (T × T)) :
    elapsedAfter (h ++ .reset :: alternating ps) = (ps.map fun p => p.2 - p.1).sum := by
  unfold elapsedAfter
  rw [List.foldl_append, List.foldl_cons, call_alternating]
  simp [Timer.call]

theorem lastStart_append (h : List (Call T)) (c : Call T) :
    lastStart (h ++ [c]) = match c with | .start now => now | _ => lastStart h := by
  unfold lastStart
  rw [List.foldl_append]
  cases c <;> rfl

theorem tStart_eq (h : List (Call T)) : (h.foldl Timer.call Timer.new).tStart = lastStart h := by
  induction h using List.reverseRecOn with
  | nil => rfl
  | append_singleton t c ih =>
    rw [List.foldl_append, lastStart_append]
    cases c <;> simp [Timer.call, ih]

/-- **C72** (every history). One more call changes the reported time exactly as follows: a stop adds the time since the latest
start (since the epoch of the clock if there is none), a start adds nothing, a reset clears it. -/
theorem C72_every_history (h : List (Call T)) :
    (∀ now, elapsedAfter (h ++ [.stop now]) = elapsedAfter h + (now - lastStart h)) ∧
    (∀ now, elapsedAfter (h ++ [.start now]) = elapsedAfter h) ∧
    elapsedAfter (h ++ [.reset]) = 0 := by
  refine ⟨fun now => ?_, fun now => ?_, ?_⟩ <;> unfold elapsedAfter <;> rw [List.foldl_append]
  · simp [Timer.call, tStart_eq]
  · simp [Timer.call]
  · simp [Timer.call]

/-- **C72** refuted for other sequences. A second stop counts the first interval again, a second start forgets the time since
the first, a stop without a start counts from the epoch of the clock. -/
theorem C72_misuse_refuted :
    (∀ a b c : T, elapsedAfter [.start a, .stop b, .stop c] = (b - a) + (c - a)) ∧
    (∀ a b c : T, elapsedAfter [.start a, .start b, .stop c] = c - b) ∧
    (∀ a : T, elapsedAfter [.stop a] = a) := by
  refine ⟨fun a b c => ?_, fun a b c => ?_, fun a => ?_⟩ <;> simp [elapsedAfter, Timer.call, Timer.new]

/-! ### The timers of the application -/

/-- The starts and stops of one timer in a list of operations. -/
def signs (t : Timing) (ops : List Op) : List Bool := (ops.filter fun p => p.1 = t).map Prod.snd

/-- Alternating signs, `n` intervals. -/
def altSigns (n : ℕ) : List Bool := (List.replicate n [true, false]).flatten

theorem signs_append (t : Timing) (a b : List Op) : signs t (a ++ b) = signs t a ++ signs t b := by simp [signs]

theorem signs_flatten (t : Timing) (l : List (List Op)) : signs t l.flatten = (l.map (signs t)).flatten := by
  induction l with
  | nil => rfl
  | cons a l ih => rw [List.flatten_cons, signs_append, ih]; rfl

theorem signs_block (t u : Timing) (inner : List Op) :
    signs t (block u inner) = if u = t then true :: signs t inner ++ [false] else signs t inner := by
  unfold block
  rw [signs_append]
  by_cases h : u = t
  · simp [signs, h]
  · simp [signs, h]

theorem signs_nil (t : Timing) : signs t [] = [] := rfl

theorem altSigns_add (a b : ℕ) : altSigns a ++ altSigns b = altSigns (a + b) := by
  unfold altSigns
  rw [List.replicate_add, List.flatten_append]

theorem altSigns_zero : altSigns 0 = [] := rfl

theorem altSigns_one : altSigns 1 = [true, false] := rfl

/-- Sequences of alternating signs. -/
def Alt (l : List Bool) : Prop := ∃ n, l = altSigns n

theorem Alt.append {a b : List Bool} (ha : Alt a) (hb : Alt b) : Alt (a ++ b) := by
  obtain ⟨n, rfl⟩ := ha
  obtain ⟨m, rfl⟩ := hb
  exact ⟨n + m, altSigns_add n m⟩

theorem Alt.nil : Alt [] := ⟨0, rfl⟩

theorem Alt.flatten {l : List (List Bool)} (h : ∀ a ∈ l, Alt a) : Alt l.flatten := by
  induction l with
  | nil => exact Alt.nil
  | cons a t ih =>
    exact (h a (by simp)).append (ih fun b hb => h b (List.mem_cons_of_mem _ hb))

theorem alt_block {t u : Timing} {inner : List Op} (h : Alt (signs t inner)) (h' : u = t → signs t inner = []) :
    Alt (signs t (block u inner)) := by
  rw [signs_block]
  split_ifs with e
  · rw [h' e]; exact ⟨1, rfl⟩
  · exact h

theorem alt_evalOps (t : Timing) (device : Bool) : Alt (signs t (evalOps device)) := by
  unfold evalOps
  rw [signs_append]
  refine Alt.append ?_ (alt_block Alt.nil fun _ => rfl)
  cases device
  · exact Alt.nil
  · exact alt_block Alt.nil fun _ => rfl

theorem signs_replicate {t : Timing} {n : ℕ} {ops : List Op} (h : Alt (signs t ops)) :
    Alt (signs t (List.replicate n ops).flatten) := by
  rw [signs_flatten]
  refine Alt.flatten fun a ha => ?_
  obtain ⟨b, hb, rfl⟩ := List.mem_map.1 ha
  rw [List.eq_of_mem_replicate hb]
  exact h

theorem signs_replicate_nil {t : Timing} {n : ℕ} {ops : List Op} (h : signs t ops = []) :
    signs t (List.replicate n ops).flatten = [] := by
  rw [signs_flatten, List.map_replicate, h]
  induction n with
  | zero => rfl
  | succ n ih => simpa [List.replicate_succ] using ih

theorem alt_iterOps {t : Timing} (ht : t ≠ .daCovarianceSparsity) (device : Bool) (it : Iter) :
    Alt (signs t (iterOps device it)) := by
  unfold iterOps
  simp only [signs_append]
  refine Alt.append (Alt.append (Alt.append (Alt.append ?_ ?_) ?_) ?_) ?_
  · cases it.refine
    · exact Alt.nil
    · exact alt_block Alt.nil fun _ => rfl
  · refine alt_block (signs_replicate (alt_block Alt.nil fun _ => rfl)) fun e => ?_
    subst e
    exact signs_replicate_nil rfl
  · refine alt_block (signs_replicate (alt_evalOps t device)) fun e => ?_
    subst e
    cases device <;> exact signs_replicate_nil rfl
  · cases it.assimilate with
    | none => exact Alt.nil
    | some m =>
      unfold assimilateOps
      simp only [signs_append]
      refine Alt.append (alt_block Alt.nil fun _ => rfl) ?_
      cases m
      · exact Alt.nil
      · simp only [if_true, signs_append]
        refine Alt.append (Alt.append (Alt.append (alt_block Alt.nil fun _ => rfl) ?_) (alt_block Alt.nil fun _ => rfl))
          (alt_block Alt.nil fun _ => rfl)
        have : signs t [(.daCovarianceSparsity, true), (.daCovarianceSparsity, true)] = [] := by
          simp [signs, ht.symm]
        rw [this]
        exact Alt.nil
  · exact signs_replicate (alt_block Alt.nil fun _ => rfl)

/-- The main timer is not used inside the loops. -/
theorem main_iterOps (device : Bool) (it : Iter) : signs .main (iterOps device it) = [] := by
  unfold iterOps
  simp only [signs_append]
  have h1 : signs .main (if it.refine = true then block .refine [] else []) = [] := by cases it.refine <;> rfl
  have h2 : signs .main (block .addMaterialActivate
      (List.replicate it.searches (block .addMaterialSearch [])).flatten) = [] := by
    rw [signs_block, if_neg (by decide)]; exact signs_replicate_nil rfl
  have h3 : signs .main (block .evolTime (List.replicate it.evals (evalOps device)).flatten) = [] := by
    rw [signs_block, if_neg (by decide)]; cases device <;> exact signs_replicate_nil rfl
  have h4 : signs .main (match it.assimilate with | none => [] | some m => assimilateOps m) = [] := by
    cases it.assimilate with
    | none => rfl
    | some m => cases m <;> rfl
  have h5 : signs .main (List.replicate it.outputs (block .output [])).flatten = [] := signs_replicate_nil rfl
  rw [h1, h2, h3, h4, h5]
  rfl

theorem alt_runOps {t : Timing} (ht : t ≠ .daCovarianceSparsity) (device : Bool) (k : ℕ) (its : List Iter) :
    Alt (signs t (runOps device k its)) := by
  refine alt_block ?_ ?_
  · rw [signs_append]
    refine Alt.append (signs_replicate (alt_block Alt.nil fun _ => rfl)) ?_
    rw [signs_flatten]
    refine Alt.flatten fun a ha => ?_
    obtain ⟨b, hb, rfl⟩ := List.mem_map.1 ha
    obtain ⟨it, -, rfl⟩ := List.mem_map.1 hb
    exact alt_iterOps ht device it
  · intro e
    subst e
    rw [signs_append, signs_replicate_nil rfl, signs_flatten, List.nil_append]
    rw [List.flatten_eq_nil_iff]
    intro a ha
    obtain ⟨b, hb, rfl⟩ := List.mem_map.1 ha
    obtain ⟨it, -, rfl⟩ := List.mem_map.1 hb
    exact main_iterOps device it

/-- The calls of a timer have the signs of its operations. -/
theorem signs_callsOn (t : Timing) (ops : List Op) (clock : ℕ → T) :
    (callsOn t ops clock).map (fun c => match c with | .start _ => true | _ => false) = signs t ops := by
  unfold callsOn signs
  rw [List.map_map]
  have : ∀ (ops : List Op) (k : ℕ), ((ops.zipIdx k).filter fun p => p.1.1 = t).map
      ((fun c : Call T => match c with | .start _ => true | _ => false) ∘
        fun p => if p.1.2 then .start (clock p.2) else .stop (clock p.2)) =
      (ops.filter fun p => p.1 = t).map Prod.snd := by
    intro ops
    induction ops with
    | nil => intro k; rfl
    | cons a l ih =>
      intro k
      rw [List.zipIdx_cons]
      by_cases h : a.1 = t
      · rw [List.filter_cons_of_pos (by simpa using h), List.filter_cons_of_pos (by simpa using h), List.map_cons,
          List.map_cons, ih]
        congr 1
        cases h2 : a.2 <;> simp [h2]
      · rw [List.filter_cons_of_neg (by simpa using h), List.filter_cons_of_neg (by simpa using h), ih]
  exact this ops 0

theorem no_reset_callsOn (t : Timing) (ops : List Op) (clock : ℕ → T) : .reset ∉ callsOn t ops clock := by
  unfold callsOn
  intro h
  obtain ⟨p, -, hp⟩ := List.mem_map.1 h
  cases h2 : p.1.2 <;> simp [h2] at hp

theorem alternating_of_signs {cs : List (Call T)} (hr : .reset ∉ cs)
    (h : Alt (cs.map (fun c => match c with | .start _ => true | _ => false))) : ∃ ps, cs = alternating ps := by
  obtain ⟨n, hn⟩ := h
  induction n generalizing cs with
  | zero =>
    have : cs = [] := by simpa [altSigns] using hn
    exact ⟨[], this⟩
  | succ n ih =>
    have e : altSigns (n + 1) = true :: false :: altSigns n := by
      simp [altSigns, List.replicate_succ]
    rw [e] at hn
    match cs, hn, hr with
    | .start a :: .stop b :: l, hn, hr =>
      simp only [List.map_cons, List.cons.injEq, true_and] at hn
      obtain ⟨ps, rfl⟩ := ih (fun h => hr (by simp [h])) hn
      exact ⟨(a, b) :: ps, rfl⟩
    | .start a :: .reset :: l, hn, hr => exact absurd (by simp) hr
    | .reset :: l, hn, hr => exact absurd (by simp) hr

/-- **C72** (application; partial: one timer is missing). In every run — any numbers of iterations, members, stages,
assimilations and outputs, and any clock — every timer other than that of the covariance sparsity pattern is alternately started and stopped, so it
reports the sum of the durations between each start and the following stop. -/
theorem C72_run_timers_partial (t : Timing) (ht : t ≠ .daCovarianceSparsity) (device : Bool) (k : ℕ) (its : List Iter)
    (clock : ℕ → T) :
    ∃ ps : List (T × T), callsOn t (runOps device k its) clock = alternating ps ∧
      elapsedAfter (callsOn t (runOps device k its) clock) = (ps.map fun p => p.2 - p.1).sum := by
  obtain ⟨ps, h⟩ := alternating_of_signs (no_reset_callsOn t _ clock)
    (by rw [signs_callsOn]; exact alt_runOps ht device k its)
  exact ⟨ps, h, by rw [h, C72_sum_of_intervals]⟩

theorem sparsity_iterOps (device : Bool) (it : Iter) : ∀ b ∈ signs .daCovarianceSparsity (iterOps device it), b = true := by
  unfold iterOps
  simp only [signs_append]
  have h1 : signs .daCovarianceSparsity (if it.refine = true then block .refine [] else []) = [] := by
    cases it.refine <;> rfl
  have h2 : signs .daCovarianceSparsity (block .addMaterialActivate
      (List.replicate it.searches (block .addMaterialSearch [])).flatten) = [] := by
    rw [signs_block, if_neg (by decide)]; exact signs_replicate_nil rfl
  have h3 : signs .daCovarianceSparsity (block .evolTime (List.replicate it.evals (evalOps device)).flatten) = [] := by
    rw [signs_block, if_neg (by decide)]; cases device <;> exact signs_replicate_nil rfl
  have h5 : signs .daCovarianceSparsity (List.replicate it.outputs (block .output [])).flatten = [] :=
    signs_replicate_nil rfl
  rw [h1, h2, h3, h5]
  cases it.assimilate with
  | none => intro b hb; simp [signs_nil] at hb
  | some m =>
    cases m
    · intro b hb; simp [assimilateOps, signs_append, signs_block, signs_nil] at hb
    · intro b hb
      simpa [assimilateOps, block, signs] using hb

/-- **C72** refuted for the timer of the covariance sparsity pattern: it is started twice instead of started and stopped, and
reports 0 after every run, however often and however long the pattern was computed. -/
theorem C72_covariance_timer_refuted (device : Bool) (k : ℕ) (its : List Iter) (clock : ℕ → T) :
    elapsedAfter (callsOn .daCovarianceSparsity (runOps device k its) clock) = 0 := by
  have hs : ∀ b ∈ signs .daCovarianceSparsity (runOps device k its), b = true := by
    unfold runOps
    rw [signs_block, if_neg (by decide), signs_append, signs_replicate_nil rfl, signs_flatten, List.nil_append]
    intro b hb
    obtain ⟨l, hl, hb⟩ := List.mem_flatten.1 hb
    obtain ⟨o, ho, rfl⟩ := List.mem_map.1 hl
    obtain ⟨it, -, rfl⟩ := List.mem_map.1 ho
    exact sparsity_iterOps device it b hb
  rw [← signs_callsOn (T := T) _ _ clock] at hs
  have hr := no_reset_callsOn .daCovarianceSparsity (runOps device k its) clock
  generalize callsOn .daCovarianceSparsity (runOps device k its) clock = cs at hs hr
  have key : ∀ (cs : List (Call T)) (s : Timer T), .reset ∉ cs →
      (∀ b ∈ cs.map (fun c => match c with | .start _ => true | _ => false), b = true) →
      (cs.foldl Timer.call s).elapsed = s.elapsed := by
    intro cs
    induction cs with
    | nil => intro s _ _; rfl
    | cons c l ih =>
      intro s hr hs
      rw [List.foldl_cons, ih _ (fun h => hr (by simp [h])) (fun b hb => hs b (by simp [hb]))]
      cases c with
      | start a => rfl
      | stop a => exact absurd (hs false (by simp)) (by decide)
      | reset => exact absurd (by simp) hr
  exact key cs Timer.new hr hs

/-- **C72** (labels). The table of labels lists every timer, at the place of its enumerator, with its own label. -/
theorem C72_labels (t : Timing) : (labels.map Prod.snd)[t.index]? = some t ∧ labels.length = 13 ∧
    (labels.map Prod.fst).Nodup := by
  cases t <;> exact ⟨rfl, rfl, by decide⟩

/-- **C72** (labels). The lines of the summary a user reads, in order. -/
theorem C72_label_text : labels.map Prod.fst =
    ["Main", "Refinement", "Add Material, Search", "Add Material, Activate", "Data Assimilation, Exp. Data",
     "Data Assimilation, DOF Mapping", "Data Assimilation, Cov. Sparsity", "Data Assimilation, Exp. Cov.",
     "Data Assimilation, Update Ensemble", "Evolve One Time Step", "Evolve One Time Step: evaluate_thermal_physics",
     "Evolve One Time Step: evaluate_material_properties", "Output"] := rfl

/-- A run with two iterations, the first with an assimilation: the refinement timer, started and stopped twice. -/
example : callsOn .refine (runOps false 1 [⟨true, 1, 2, some true, 1⟩, ⟨true, 0, 2, none, 0⟩]) (fun k => (k : ℤ)) =
    alternating [(3, 4), (27, 28)] := by
  rfl

example : elapsedAfter (alternating [((3 : ℤ), 4), (25, 36)]) = 12 := by
  rw [C72_sum_of_intervals]; decide

end Verif.Output.Timing
