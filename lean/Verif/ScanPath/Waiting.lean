import Verif.ScanPath.Text
import Mathlib.Order.Monotone.Basic

/-!
# C138: waiting for a scan-path file and reading it while another program writes it

`wait_for_file`, `wait_for_file_to_update` (`source/utils.hh:21-66`), the constructor `ScanPath::ScanPath` and `ScanPath::read_file`
(`source/ScanPath.cc:37-56`), interleaved in any way with the program that writes the file.  The disk is a function of time: at every instant the file is
either missing (or being replaced, so that `last_write_time` throws) or has a time stamp and contents.  The process makes one operation on the file at an
instant, or none; which, is decided by a schedule.  Reading the contents is one operation (a read that is itself interrupted by a write is not
modelled; a write in several pieces is: every piece is a version of the contents).
-/

namespace Verif.Waiting

variable {M C : Type*} [DecidableEq M]

/-- The file at every instant: missing, or time stamp and contents. -/
abbrev Disk (M C : Type*) := ℕ → Option (M × C)

/-- Where the process is: in `wait_for_file` (`utils.hh:28`), in the loop of `wait_for_file_to_update` (line 52), before line 65, before opening the file
(`ScanPath.cc:48-55`), outside `read_file`, or ended by an exception. -/
inductive Pc
  | exists | poll | stamp | load | idle | crashed
  deriving DecidableEq

/-- The process: program counter, `_last_write_time`, and what was read last (`none`: nothing, or the file could not be opened). -/
structure Proc (M C : Type*) where
  pc : Pc
  last : M
  memory : Option C

/-- One operation of the process on the file. -/
def operate (file : Option (M × C)) (s : Proc M C) : Proc M C :=
  match s.pc with
  | .exists => match file with                                    -- utils.hh:28-35, then ScanPath.cc:40
    | none => s
    | some _ => { s with pc := .poll }
  | .poll => match file with                                      -- utils.hh:50-64
    | none => { s with pc := .stamp }                             -- the exception is caught
    | some (m, _) => if m = s.last then s else { s with pc := .stamp }
  | .stamp => match file with                                     -- utils.hh:65
    | none => { s with pc := .crashed }                           -- outside the try block
    | some (m, _) => { s with pc := .load, last := m }
  | .load => { s with pc := .idle, memory := file.map Prod.snd }  -- ScanPath.cc:48-55
  | .idle => s
  | .crashed => s

/-- What the schedule has the process do at an instant: an operation on the file, calling `read_file` (if it is not in it), or nothing. -/
inductive Act
  | operate | call | rest
  deriving DecidableEq

/-- One instant. -/
def act (a : Act) (file : Option (M × C)) (s : Proc M C) : Proc M C :=
  match a with
  | .operate => operate file s
  | .call => if s.pc = .idle then { s with pc := .poll } else s
  | .rest => s

/-- The process at the beginning of the constructor; `_last_write_time` is default-constructed (the epoch of the file clock). -/
def begin (epoch : M) : Proc M C := ⟨.exists, epoch, none⟩

/-- The process before instant `t`. -/
def run (d : Disk M C) (sch : ℕ → Act) (s : Proc M C) : ℕ → Proc M C
  | 0 => s
  | t + 1 => act (sch t) (d t) (run d sch s t)

/-! ## Assumptions on the writer -/

/-- The file never disappears once it is there. -/
def Stays (d : Disk M C) : Prop := ∀ t u, t ≤ u → d t ≠ none → d u ≠ none

/-- Time stamps never go back, are after the epoch, and differ if the contents differ. -/
def Stamped [LinearOrder M] (d : Disk M C) (epoch : M) : Prop :=
  (∀ t u m c m' c', t ≤ u → d t = some (m, c) → d u = some (m', c') → m ≤ m') ∧
  (∀ t u m c c', d t = some (m, c) → d u = some (m, c') → c = c') ∧
  (∀ t m c, d t = some (m, c) → m ≠ epoch)

/-! ## The invariant -/

/-- When the process has last read the file, if it has. -/
structure Inv (d : Disk M C) (epoch : M) (t : ℕ) (s : Proc M C) : Prop where
  fresh : s.last = epoch → s.memory = none ∧ s.pc ≠ .load ∧ s.pc ≠ .idle
  stamped : s.last ≠ epoch → ∃ j < t, ∃ c, d j = some (s.last, c)
  loaded : s.last ≠ epoch → (s.pc = .poll ∨ s.pc = .stamp ∨ s.pc = .idle) →
    ∃ j o c, j ≤ o ∧ o < t ∧ d j = some (s.last, c) ∧ s.memory = (d o).map Prod.snd
  first : s.pc = .exists → s.last = epoch

theorem inv_run (d : Disk M C) (epoch : M) (hep : ∀ t m c, d t = some (m, c) → m ≠ epoch) (sch : ℕ → Act) (t : ℕ) :
    Inv d epoch t (run d sch (begin epoch) t) := by
  induction t with
  | zero => exact ⟨fun _ => ⟨rfl, by simp [run, begin], by simp [run, begin]⟩, fun h => absurd rfl h, fun h => absurd rfl h, fun _ => rfl⟩
  | succ t ih =>
    rw [run]
    generalize run d sch (begin epoch) t = s at ih
    obtain ⟨h1, h2, h3, h4⟩ := ih
    have w2 : s.last ≠ epoch → ∃ j < t + 1, ∃ c, d j = some (s.last, c) := fun h => by
      obtain ⟨j, hj, c, hc⟩ := h2 h; exact ⟨j, by omega, c, hc⟩
    have w3 : s.last ≠ epoch → (s.pc = .poll ∨ s.pc = .stamp ∨ s.pc = .idle) →
        ∃ j o c, j ≤ o ∧ o < t + 1 ∧ d j = some (s.last, c) ∧ s.memory = (d o).map Prod.snd := fun h hp => by
      obtain ⟨j, o, c, a, b, e⟩ := h3 h hp; exact ⟨j, o, c, a, by omega, e⟩
    have same : Inv d epoch (t + 1) s := ⟨h1, w2, w3, h4⟩
    cases hs : sch t with
    | rest => exact same
    | call =>
      simp only [act]
      split
      · rename_i hp
        exact ⟨fun h => absurd hp (h1 h).2.2, w2, fun h _ => w3 h (by simp [hp]), fun h => by cases h⟩
      · exact same
    | operate =>
      simp only [act, operate]
      cases hp : s.pc with
      | «exists» =>
        have hl := h4 hp
        cases hd : d t with
        | none => simpa [hp] using same
        | some x =>
          exact ⟨fun h => ⟨(h1 h).1, by simp, by simp⟩, w2, fun h => absurd hl h, fun h => by cases h⟩
      | poll =>
        cases hd : d t with
        | none => exact ⟨fun h => ⟨(h1 h).1, by simp, by simp⟩, w2, fun h _ => w3 h (by simp [hp]), fun h => by cases h⟩
        | some x =>
          obtain ⟨m, c⟩ := x
          simp only
          split
          · exact same
          · exact ⟨fun h => ⟨(h1 h).1, by simp, by simp⟩, w2, fun h _ => w3 h (by simp [hp]), fun h => by cases h⟩
      | stamp =>
        cases hd : d t with
        | none => exact ⟨fun h => ⟨(h1 h).1, by simp, by simp⟩, w2, fun _ h' => by simp at h', fun h => by cases h⟩
        | some x =>
          obtain ⟨m, c⟩ := x
          refine ⟨fun h => absurd h (hep t m c hd), fun _ => ⟨t, by omega, c, hd⟩, fun _ h' => by simp at h', fun h => by cases h⟩
      | load =>
        refine ⟨fun h => absurd hp (h1 h).2.1, w2, fun h _ => ?_, fun h => by cases h⟩
        obtain ⟨j, hj, c, hc⟩ := h2 h
        exact ⟨j, t, c, by omega, by omega, hc, rfl⟩
      | idle => simpa [hp] using same
      | crashed => simpa [hp] using same

/-- An instant either reads the contents or leaves the memory as it is. -/
theorem act_cases (a : Act) (file : Option (M × C)) (s : Proc M C) :
    (a = .operate ∧ s.pc = .load ∧ act a file s = ⟨.idle, s.last, file.map Prod.snd⟩) ∨
    ((act a file s).memory = s.memory ∧ ((act a file s).pc = .idle → s.pc = .idle)) := by
  cases a with
  | rest => exact Or.inr ⟨rfl, fun h => h⟩
  | call =>
    right
    simp only [act]
    split
    · exact ⟨rfl, fun h => by cases h⟩
    · exact ⟨rfl, fun h => h⟩
  | operate =>
    simp only [act, operate]
    cases hp : s.pc with
    | load => exact Or.inl ⟨trivial, rfl, rfl⟩
    | «exists» => right; cases file <;> simp [hp]
    | poll =>
      right
      cases file with
      | none => simp
      | some x => simp only; split <;> simp [hp]
    | stamp => right; cases file <;> simp
    | idle => right; simp
    | crashed => right; simp [hp]

/-! ## Properties -/

/-- C138 (no update is missed): if the file stays and its time stamps tell its versions apart, then in every interleaving a process that waits because
the time stamp is the one it knows has exactly the contents in memory that are on the disk. -/
theorem C138_waits_only_when_current_partial [LinearOrder M] (d : Disk M C) (epoch : M) (hst : Stays d) (hm : Stamped d epoch) (sch : ℕ → Act)
    (t : ℕ) (c : C) (hp : (run d sch (begin epoch) t).pc = .poll) (hd : d t = some ((run d sch (begin epoch) t).last, c)) :
    (run d sch (begin epoch) t).memory = some c := by
  have hi := inv_run d epoch hm.2.2 sch t
  generalize run d sch (begin epoch) t = s at hp hd hi
  have hl : s.last ≠ epoch := hm.2.2 t _ c hd
  obtain ⟨j, o, c', hjo, hot, hj, hmem⟩ := hi.loaded hl (Or.inl hp)
  have ho : d o ≠ none := hst j o hjo (by rw [hj]; simp)
  obtain ⟨⟨m, c''⟩, hx⟩ := Option.ne_none_iff_exists'.mp ho
  have e1 := hm.1 j o _ _ _ _ hjo hj hx
  have e2 := hm.1 o t _ _ _ _ (by omega) hx hd
  have : m = s.last := le_antisymm e2 e1
  subst this
  rw [hmem, hx, hm.2.1 o t _ _ _ hx hd]
  rfl

/-- C138 (progress): if the file stays and has got a new time stamp that does not come back, a process in the waiting loop has read the file after three
more operations, whenever they are scheduled: it has the contents of the third one in memory, and the time stamp of the second one. -/
theorem C138_progress (d : Disk M C) (sch : ℕ → Act) (s : Proc M C) (t0 t1 t2 t3 : ℕ) (h01 : t0 ≤ t1) (h12 : t1 < t2) (h23 : t2 < t3)
    (hops : ∀ t, t0 ≤ t → t ≤ t3 → (sch t = .operate ↔ t = t1 ∨ t = t2 ∨ t = t3))
    (hp : (run d sch s t0).pc = .poll) (m2 : M) (c2 : C)
    (hnew : ∃ m c, d t1 = some (m, c) ∧ m ≠ (run d sch s t0).last) (h2 : d t2 = some (m2, c2)) :
    run d sch s (t3 + 1) = ⟨.idle, m2, (d t3).map Prod.snd⟩ := by
  have stay : ∀ a b, a ≤ b → b ≤ t3 → t0 ≤ a → (∀ t, a ≤ t → t < b → sch t ≠ .operate) → (run d sch s a).pc ≠ .idle →
      run d sch s b = run d sch s a := by
    intro a b hab
    induction hab with
    | refl => exact fun _ _ _ _ => rfl
    | @step b hab ih =>
      intro hb ha hno hid
      have hab' : a ≤ b := hab
      have e := ih (by omega) ha (fun t h1 h2 => hno t h1 (by omega)) hid
      rw [run]
      have hs := hno b hab' (by omega)
      cases hsb : sch b with
      | operate => exact absurd hsb hs
      | rest => exact e
      | call =>
        simp only [act]
        rw [e, if_neg hid]
  have e1 : run d sch s t1 = run d sch s t0 := by
    apply stay t0 t1 h01 (by omega) le_rfl _ (by rw [hp]; simp)
    intro t a b hc
    rcases (hops t a (by omega)).mp hc with rfl | rfl | rfl <;> omega
  obtain ⟨m, c, hd1, hne⟩ := hnew
  have s1 : sch t1 = .operate := (hops t1 h01 (by omega)).mpr (Or.inl rfl)
  have e1' : run d sch s (t1 + 1) = { run d sch s t0 with pc := .stamp } := by
    rw [run, e1, s1]
    simp only [act, operate, hp, hd1, if_neg hne]
  have e2 : run d sch s t2 = run d sch s (t1 + 1) := by
    apply stay (t1 + 1) t2 (by omega) (by omega) (by omega) _ (by rw [e1']; simp)
    intro t a b hc
    rcases (hops t (by omega) (by omega)).mp hc with rfl | rfl | rfl <;> omega
  have s2 : sch t2 = .operate := (hops t2 (by omega) (by omega)).mpr (Or.inr (Or.inl rfl))
  have e2' : run d sch s (t2 + 1) = { run d sch s t0 with pc := .load, last := m2 } := by
    rw [run, e2, e1', s2]
    simp only [act, operate, h2]
  have e3 : run d sch s t3 = run d sch s (t2 + 1) := by
    apply stay (t2 + 1) t3 (by omega) (by omega) (by omega) _ (by rw [e2']; simp)
    intro t a b hc
    rcases (hops t (by omega) (by omega)).mp hc with rfl | rfl | rfl <;> omega
  have s3 : sch t3 = .operate := (hops t3 (by omega) le_rfl).mpr (Or.inr (Or.inr rfl))
  rw [run, e3, e2', s3]
  rfl

/-- C138 (a call returns only with an update): if the file stays and its time stamps do not go back, then in every interleaving a call of `read_file` that begins at
instant `t0` and has returned before `t1` has found a later time stamp than the one known before, and has read what the file contained at an
instant in between. -/
theorem C138_returns_with_update_partial [LinearOrder M] (d : Disk M C) (epoch : M) (hst : Stays d) (hm : Stamped d epoch) (sch : ℕ → Act)
    (t0 t1 : ℕ) (h01 : t0 < t1) (hidle : (run d sch (begin epoch) t0).pc = .idle) (hcall : sch t0 = .call)
    (hin : ∀ t, t0 < t → t < t1 → (run d sch (begin epoch) t).pc ≠ .idle) (hret : (run d sch (begin epoch) t1).pc = .idle) :
    (run d sch (begin epoch) t0).last < (run d sch (begin epoch) t1).last ∧
    ∃ o, t0 < o ∧ o < t1 ∧ (run d sch (begin epoch) t1).memory = (d o).map Prod.snd := by
  have hi := inv_run d epoch hm.2.2 sch t0
  have hl : (run d sch (begin epoch) t0).last ≠ epoch := fun h => (hi.fresh h).2.2 hidle
  obtain ⟨j, hj, cj, hdj⟩ := hi.stamped hl
  generalize hL : (run d sch (begin epoch) t0).last = L at hdj
  have hpres : ∀ t, t0 ≤ t → ∃ m c, d t = some (m, c) ∧ L ≤ m := by
    intro t ht
    obtain ⟨⟨m, c⟩, hx⟩ := Option.ne_none_iff_exists'.mp (hst j t (by omega) (by rw [hdj]; simp))
    exact ⟨m, c, hx, hm.1 j t _ _ _ _ (by omega) hdj hx⟩
  have key : ∀ t, t0 + 1 ≤ t → t ≤ t1 →
      ((run d sch (begin epoch) t).pc = .poll ∧ (run d sch (begin epoch) t).last = L) ∨
      ((run d sch (begin epoch) t).pc = .stamp ∧ (run d sch (begin epoch) t).last = L ∧ ∃ u m c, u < t ∧ d u = some (m, c) ∧ L < m) ∨
      ((run d sch (begin epoch) t).pc = .load ∧ L < (run d sch (begin epoch) t).last) ∨
      ((run d sch (begin epoch) t).pc = .idle ∧ L < (run d sch (begin epoch) t).last ∧
        ∃ o, t0 < o ∧ o < t ∧ (run d sch (begin epoch) t).memory = (d o).map Prod.snd) := by
    intro t ht
    induction ht with
    | refl =>
      intro _
      left
      rw [run, hcall]
      simp only [act, if_pos hidle]
      exact ⟨trivial, hL⟩
    | @step t ht ih =>
      intro ht1
      have ht' : t0 + 1 ≤ t := ht
      have hni := hin t (by omega) (by omega)
      obtain ⟨m, c, hd, hLm⟩ := hpres t (by omega)
      have ih := ih (by omega)
      rw [run]
      generalize run d sch (begin epoch) t = s at ih hni
      have weak : ((s.pc = .poll ∧ s.last = L) ∨ (s.pc = .stamp ∧ s.last = L ∧ ∃ u m c, u < t + 1 ∧ d u = some (m, c) ∧ L < m) ∨
          (s.pc = .load ∧ L < s.last) ∨ (s.pc = .idle ∧ L < s.last ∧ ∃ o, t0 < o ∧ o < t + 1 ∧ s.memory = (d o).map Prod.snd)) := by
        rcases ih with h | ⟨h1, h2, u, m, c, h3, h4⟩ | h | h
        · exact Or.inl h
        · exact Or.inr (Or.inl ⟨h1, h2, u, m, c, by omega, h4⟩)
        · exact Or.inr (Or.inr (Or.inl h))
        · exact absurd h.1 hni
      cases hs : sch t with
      | rest => exact weak
      | call => simp only [act, if_neg hni]; exact weak
      | operate =>
        simp only [act, operate]
        rcases ih with ⟨h1, h2⟩ | ⟨h1, h2, u, m', c', h3, h4, h5⟩ | ⟨h1, h2⟩ | h
        · simp only [h1, hd]
          by_cases hmm : m = s.last
          · rw [if_pos hmm]; exact Or.inl ⟨h1, h2⟩
          · rw [if_neg hmm]
            refine Or.inr (Or.inl ⟨rfl, h2, t, m, c, by omega, hd, lt_of_le_of_ne hLm ?_⟩)
            rw [← h2]; exact fun h => hmm h.symm
        · simp only [h1, hd]
          refine Or.inr (Or.inr (Or.inl ⟨trivial, ?_⟩))
          exact lt_of_lt_of_le h5 (hm.1 u t _ _ _ _ (by omega) h4 hd)
        · simp only [h1]
          exact Or.inr (Or.inr (Or.inr ⟨trivial, h2, t, by omega, by omega, rfl⟩))
        · exact absurd h.1 hni
  rcases key t1 h01 le_rfl with h | h | h | h
  · rw [h.1] at hret; cases hret
  · rw [h.1] at hret; cases hret
  · rw [h.1] at hret; cases hret
  · exact ⟨hL ▸ h.2.1, h.2.2⟩

/-- C138 (never older): the contents in memory are at all times those the file had at the instant it was read last, and this instant never goes back; at no time does a
process that waits, or makes a time step, have contents older than the time stamp it knows. -/
theorem C138_never_older (d : Disk M C) (epoch : M) (sch : ℕ → Act) :
    ∃ o : ℕ → ℕ, Monotone o ∧ ∀ t, (run d sch (begin epoch) t).memory = none ∨
      (o t < t ∧ (run d sch (begin epoch) t).memory = (d (o t)).map Prod.snd) := by
  let o : ℕ → ℕ := fun t => Nat.rec 0 (fun u x => if sch u = .operate ∧ (run d sch (begin epoch) u).pc = .load then u else x) t
  have os : ∀ t, o (t + 1) = if sch t = .operate ∧ (run d sch (begin epoch) t).pc = .load then t else o t := fun _ => rfl
  have hle : ∀ t, o t ≤ t := by
    intro t
    induction t with
    | zero => exact le_rfl
    | succ t ih => rw [os]; split <;> omega
  refine ⟨o, monotone_nat_of_le_succ fun t => ?_, fun t => ?_⟩
  · rw [os]; split
    · exact hle t
    · exact le_rfl
  · induction t with
    | zero => exact Or.inl rfl
    | succ t ih =>
      by_cases h : sch t = .operate ∧ (run d sch (begin epoch) t).pc = .load
      · right
        rw [os, if_pos h, run, h.1]
        refine ⟨by omega, ?_⟩
        simp only [act, operate, h.2]
      · have hsame : (run d sch (begin epoch) (t + 1)).memory = (run d sch (begin epoch) t).memory := by
          rw [run]
          generalize run d sch (begin epoch) t = s at h
          cases hs : sch t with
          | rest => rfl
          | call => simp only [act]; split <;> rfl
          | operate =>
            simp only [act, operate]
            cases hp : s.pc with
            | load => exact absurd ⟨hs, hp⟩ h
            | «exists» => cases d t <;> rfl
            | poll =>
              cases d t with
              | none => rfl
              | some x => simp only; split <;> rfl
            | stamp => cases d t <;> rfl
            | idle => rfl
            | crashed => rfl
        rw [hsame, os, if_neg h]
        rcases ih with ih | ⟨h1, h2⟩
        · exact Or.inl ih
        · exact Or.inr ⟨by omega, h2⟩

/-- C138 is false if two versions have the same time stamp (a clock with coarse ticks, a copy that keeps the time stamp): the process waits for ever with the old
contents, whatever the schedule and whatever is written under this time stamp. -/
theorem C138_same_stamp_refuted (d : Disk M C) (sch : ℕ → Act) (s : Proc M C) (t0 : ℕ) (hp : (run d sch s t0).pc = .poll)
    (hsame : ∀ t, t0 ≤ t → ∃ c, d t = some ((run d sch s t0).last, c)) (t : ℕ) (ht : t0 ≤ t) :
    run d sch s t = run d sch s t0 := by
  induction ht with
  | refl => rfl
  | @step t ht ih =>
    rw [run, ih]
    obtain ⟨c, hc⟩ := hsame t ht
    cases hs : sch t with
    | rest => rfl
    | call => simp only [act]; rw [if_neg (by rw [hp]; simp)]
    | operate => simp only [act, operate, hp, hc, if_true]

/-- C138 is false if the file is missing for a moment (it is removed and written anew): if the process looks at it twice in that time, it is ended by an
exception; if once, it reads a file that need not have changed. -/
theorem C138_missing_refuted (d : Disk M C) (sch : ℕ → Act) (s : Proc M C) (t1 : ℕ) (hp : (run d sch s t1).pc = .poll)
    (h1 : sch t1 = .operate) (h2 : sch (t1 + 1) = .operate) (h3 : sch (t1 + 2) = .operate) (hd1 : d t1 = none) :
    (d (t1 + 1) = none → (run d sch s (t1 + 2)).pc = .crashed) ∧
    (∀ c, d (t1 + 1) = some ((run d sch s t1).last, c) → d (t1 + 2) = d (t1 + 1) →
      run d sch s (t1 + 3) = ⟨.idle, (run d sch s t1).last, some c⟩) := by
  have e1 : run d sch s (t1 + 1) = { run d sch s t1 with pc := .stamp } := by
    rw [run, h1]
    simp only [act, operate, hp, hd1]
  constructor
  · intro hd2
    rw [run, e1, h2]
    simp only [act, operate, hd2]
  · intro c hd2 hd3
    rw [run, run, e1, h2, h3, hd3]
    simp only [act, operate, hd2, Option.map_some]

/-- C138 (several processes, partial: the file does not change from the first look of the one until both have read it): two processes, or two heat sources with the
same file, that finish a call while the file is the same have the same contents. -/
theorem C138_same_contents_partial (d : Disk M C) (epoch : M) (sch sch' : ℕ → Act) (t0 t1 : ℕ)
    (hle : t0 ≤ t1) (hconst : ∀ t, t0 ≤ t → t < t1 → d t = d t0)
    (hp : (run d sch (begin epoch) t0).pc ≠ .idle) (hq : (run d sch (begin epoch) t1).pc = .idle)
    (hp' : (run d sch' (begin epoch) t0).pc ≠ .idle) (hq' : (run d sch' (begin epoch) t1).pc = .idle) :
    (run d sch (begin epoch) t1).memory = (run d sch' (begin epoch) t1).memory := by
  have key : ∀ sch : ℕ → Act, (run d sch (begin epoch) t0).pc ≠ .idle → ∀ t, t0 ≤ t → t ≤ t1 →
      (run d sch (begin epoch) t).pc ≠ .idle ∨ (run d sch (begin epoch) t).memory = (d t0).map Prod.snd := by
    intro sch hpc t ht
    induction ht with
    | refl => exact fun _ => Or.inl hpc
    | @step t ht ih =>
      intro ht1
      have ht' : t0 ≤ t := ht
      rcases act_cases (sch t) (d t) (run d sch (begin epoch) t) with ⟨-, -, h⟩ | ⟨h1, h2⟩
      · right
        rw [run, h, hconst t ht' (by omega)]
      · rcases ih (by omega) with h | h
        · exact Or.inl fun hid => h (h2 hid)
        · right; rw [run, h1, h]
  rcases key sch hp t1 hle le_rfl with h | h
  · exact absurd hq h
  · rcases key sch' hp' t1 hle le_rfl with h' | h'
    · exact absurd hq' h'
    · rw [h, h']

/-! ### Cases -/

/-- A file with three versions, written at the instants 0, 4 and 10. -/
def threeVersions (a b c : C) : Disk ℕ C := fun t => some (if t < 4 then (1, a) else if t < 10 then (2, b) else (3, c))

theorem threeVersions_stays (a b c : C) : Stays (threeVersions a b c) := fun _ _ _ _ => by simp [threeVersions]

theorem threeVersions_stamped (a b c : C) : Stamped (threeVersions a b c) 0 := by
  refine ⟨?_, ?_, ?_⟩
  · intro t u m x m' x' htu h1 h2
    simp only [threeVersions, Option.some.injEq] at h1 h2
    split at h1
    · obtain ⟨rfl, -⟩ := Prod.mk.injEq _ _ _ _ ▸ h1
      split at h2
      · obtain ⟨rfl, -⟩ := Prod.mk.injEq _ _ _ _ ▸ h2; omega
      · split at h2 <;> (obtain ⟨rfl, -⟩ := Prod.mk.injEq _ _ _ _ ▸ h2; omega)
    · split at h1
      · obtain ⟨rfl, -⟩ := Prod.mk.injEq _ _ _ _ ▸ h1
        split at h2
        · omega
        · split at h2 <;> (obtain ⟨rfl, -⟩ := Prod.mk.injEq _ _ _ _ ▸ h2; omega)
      · obtain ⟨rfl, -⟩ := Prod.mk.injEq _ _ _ _ ▸ h1
        split at h2
        · omega
        · split at h2
          · omega
          · obtain ⟨rfl, -⟩ := Prod.mk.injEq _ _ _ _ ▸ h2; omega
  · intro t u m x x' h1 h2
    simp only [threeVersions, Option.some.injEq] at h1 h2
    split_ifs at h1 h2 <;> simp only [Prod.mk.injEq] at h1 h2 <;>
      first
      | exact h1.2.symm.trans h2.2
      | (exfalso; omega)
  · intro t m x h1
    simp only [threeVersions, Option.some.injEq] at h1
    split_ifs at h1 <;> simp only [Prod.mk.injEq] at h1 <;> omega

/-- A process that is scheduled at the instants `k`, `k + 1`, ... -/
def from_ (k : ℕ) (t : ℕ) : Act := if k ≤ t then .operate else .rest

/-- C138 is false for several processes: with a file that stays and whose time stamps tell all versions apart, two processes that start the program
together have read different versions when both have left the constructor, and go on with different paths. -/
theorem C138_two_processes_refuted (a b c : C) (h : a ≠ b) :
    Stays (threeVersions a b c) ∧ Stamped (threeVersions a b c) 0 ∧
    (run (threeVersions a b c) (from_ 0) (begin 0) 8).pc = .idle ∧ (run (threeVersions a b c) (from_ 4) (begin 0) 8).pc = .idle ∧
    (run (threeVersions a b c) (from_ 0) (begin 0) 8).memory ≠ (run (threeVersions a b c) (from_ 4) (begin 0) 8).memory := by
  refine ⟨threeVersions_stays a b c, threeVersions_stamped a b c, rfl, rfl, ?_⟩
  change some a ≠ some b
  simpa using h

/-- A process that has read the first version, calls `read_file` and waits; `C138_progress` applies to it when the second version is there. -/
example (a b c : C) :
    let sch : ℕ → Act := fun t => if t < 4 then .operate else if t = 4 then .call else if t < 7 then .rest else .operate
    (run (threeVersions a a c) sch (begin 0) 5).pc = .poll ∧ (run (threeVersions a b c) sch (begin 0) 5).last = 1 ∧
    run (threeVersions a b c) sch (begin 0) 10 = ⟨.idle, 2, some b⟩ := by
  exact ⟨rfl, rfl, rfl⟩

/-- The process waits with the current version in memory (hypotheses of `C138_waits_only_when_current_partial`). -/
example (a b c : C) :
    let sch : ℕ → Act := fun t => if 11 ≤ t ∧ t < 15 then .operate else if t = 15 then .call else .rest
    (run (threeVersions a b c) sch (begin 0) 16).pc = .poll ∧
    threeVersions a b c 16 = some ((run (threeVersions a b c) sch (begin 0) 16).last, c) :=
  ⟨rfl, rfl⟩

/-- Two versions with the same time stamp: the process has the first one in memory and waits (hypotheses of `C138_same_stamp_refuted`). -/
example (a b : C) :
    let d : Disk ℕ C := fun t => some (1, if t < 4 then a else b)
    let sch : ℕ → Act := fun t => if t = 4 then .call else .operate
    (run d sch (begin 0) 5).pc = .poll ∧ (run d sch (begin 0) 5).memory = some a ∧
      ∀ t, 5 ≤ t → ∃ c, d t = some ((run d sch (begin 0) 5).last, c) :=
  ⟨rfl, rfl, fun _ _ => ⟨_, rfl⟩⟩

/-- A file that is missing at the instants 5 and 6 (hypotheses of `C138_missing_refuted`). -/
example (a b : C) :
    let d : Disk ℕ C := fun t => if t = 5 ∨ t = 6 then none else some (if t < 5 then (1, a) else (2, b))
    let sch : ℕ → Act := fun t => if t = 4 then .call else .operate
    (run d sch (begin 0) 5).pc = .poll ∧ d 5 = none ∧ d 6 = none ∧ (run d sch (begin 0) 7).pc = .crashed :=
  ⟨rfl, rfl, rfl, rfl⟩

open Verif.ScanPath Verif.Text in
/-- C138 is false if the file is written in pieces: let the last line of an event series be cut after the third coordinate, in the middle of that number or not.  The
process reads it without an error while the writer is at it; its path ends at the time on that line, at the coordinate as far as it was written. -/
theorem C138_torn_refuted (r : Numbers) (dist : ℝ) (l1 l cut : List Char) (fs : List (List Char)) (t x y z : ℝ) (e : EventRecord)
    (hcut : cut <+: l) (h1 : SpellsEvent r l1 e) (h2 : Fields eventSep fs cut) (hm : NoMarker cut)
    (hn : fs.map r.stod = [some t, some x, some y, some z]) :
    Stays (threeVersions [l1] [l1, cut] [l1, l]) ∧ Stamped (threeVersions [l1] [l1, cut] [l1, l]) 0 ∧
    ∃ s1 five lines, run (threeVersions [l1] [l1, cut] [l1, l]) (from_ 4) (begin 0) 8 = ⟨.idle, 2, some lines⟩ ∧
      loadEventText r dist false false lines = .ok ([s1, ⟨t, e.power, scalePt dist ⟨x, y, z⟩, none⟩], false, five) := by
  refine ⟨threeVersions_stays _ _ _, threeVersions_stamped _ _ _, ?_⟩
  have hlen : fs.length = 4 := by
    have := congrArg List.length hn
    simpa using this
  have hn' : fs.map r.stod = [t, x, y, z].map some := by rw [hn]; rfl
  have n0 : num r fs 0 = .ok t := num_of_map hn' rfl
  have n1 : num r fs 1 = .ok x := num_of_map hn' rfl
  have n2 : num r fs 2 = .ok y := num_of_map hn' rfl
  have n3 : num r fs 3 = .ok z := num_of_map hn' rfl
  have hev : readEvent r cut = .ok ⟨t, ⟨x, y, z⟩, none, z⟩ := by
    rw [readEvent, split_eq eventSep h2]
    simp [hlen, n0, n1, n2, n3]
  obtain ⟨hm1, fs1, hf1, hn1⟩ := h1
  have hl : eventLines r [l1, cut] = .ok [.record e, .record ⟨t, ⟨x, y, z⟩, none, z⟩] := by
    rw [eventLines, if_neg (fields_ne_nil hf1), (noMarker_iff _).1 hm1, readEvent_spells hf1 hn1]
    rw [eventLines, if_neg (fields_ne_nil h2), (noMarker_iff _).1 hm, hev]
    rfl
  refine ⟨⟨e.time, 0, scalePt dist e.pos, e.rotation⟩, e.rotation.isSome, [l1, cut], rfl, ?_⟩
  rw [loadEventText, hl]
  simp [loadEventSeries, eventLoop]

open Verif.ScanPath Verif.Text in
/-- The line `1, 2 3,4  5` cut before the power. -/
example : "1, 2 3,4".toList <+: "1, 2 3,4  5".toList ∧ NoMarker "1, 2 3,4".toList ∧
    Fields eventSep [['1'], ['2'], ['3'], ['4']] "1, 2 3,4".toList ∧
    [['1'], ['2'], ['3'], ['4']].map oneDigit.stod = [some ((1 : ℕ) : ℝ), some ((2 : ℕ) : ℝ), some ((3 : ℕ) : ℝ), some ((4 : ℕ) : ℝ)] := by
  refine ⟨⟨"  5".toList, rfl⟩, (noMarker_iff _).2 (by decide), ?_, rfl⟩
  exact .cons ['1'] [',', ' '] _ _ (by simp) (by decide) (by simp) (by decide)
    (.cons ['2'] [' '] _ _ (by simp) (by decide) (by simp) (by decide)
      (.cons ['3'] [','] _ _ (by simp) (by decide) (by simp) (by decide) (.one ['4'] (by simp) (by decide))))

end Verif.Waiting
