import Verif.Driver.Props

/-!
# C71: output bookkeeping, `source/PostProcessor.cc`

Only names and records are modelled (the contents of the fields are not).  `double` is a linear ordered field.
`locally_owned_subdomain()` of a distributed triangulation is the rank in its communicator.
-/

namespace Verif.Output

open Verif.Driver

/-- The entries of `post_processor` the constructors read. -/
structure Database where
  filenamePrefix : String
  outputDir : Option String

/-- The members of `PostProcessor` that matter for names, `PostProcessor.hh:139-180`. -/
structure Post (K : Type*) where
  outputDir : String
  pre : String
  /-- `_times_filenames` -/
  record : List (K × String)

variable {K : Type*}

/-- `_filename_prefix`, `PostProcessor.cc:41-47, 71-77`: an ensemble member is a non-negative index. -/
def memberPrefix (name : String) (member : Option ℕ) : String :=
  match member with
  | none => name
  | some m => name ++ "_m" ++ toString m

/-- Constructor for one physics, `PostProcessor.cc:19-55`. -/
def Post.ofOne (db : Database) (member : Option ℕ) : Post K :=
  ⟨db.outputDir.getD "", memberPrefix db.filenamePrefix member, []⟩

/-- Constructor for thermo-mechanical output, `PostProcessor.cc:57-82`: `output_dir` is not read. -/
def Post.ofTwo (db : Database) (member : Option ℕ) : Post K := ⟨"", memberPrefix db.filenamePrefix member, []⟩

/-- Name of the file a rank writes, `PostProcessor.cc:197-201`. -/
def Post.vtuFile (p : Post K) (step rank : ℕ) : String :=
  p.outputDir ++ p.pre ++ "." ++ toString step ++ "." ++ toString rank ++ ".vtu"

/-- Names listed in the `pvtu` file, `PostProcessor.cc:211-219`. -/
def Post.pvtuRefs (p : Post K) (step size : ℕ) : List String :=
  (List.range size).map fun i => p.pre ++ "." ++ toString step ++ "." ++ toString i ++ ".vtu"

/-- Name of the `pvtu` file, `PostProcessor.cc:220-222`. -/
def Post.pvtuFile (p : Post K) (step : ℕ) : String := p.outputDir ++ p.pre ++ "." ++ toString step ++ ".pvtu"

/-- Name of the `pvd` file, `PostProcessor.cc:90`. -/
def Post.pvdFile (p : Post K) : String := p.outputDir ++ p.pre ++ ".pvd"

/-- `write_pvtu` on a rank, `PostProcessor.cc:187-230`: the new state (only rank 0 records). -/
def Post.writePvtu (p : Post K) (rank step : ℕ) (time : K) : Post K :=
  if rank = 0 then { p with record := p.record ++ [(time, p.pvtuFile step)] } else p

/-- A sequence of outputs `(time step, time)`. -/
def Post.outputs (p : Post K) (rank : ℕ) (outs : List (ℕ × K)) : Post K :=
  outs.foldl (fun p o => p.writePvtu rank o.1 o.2) p

/-- The post-processor of the experimental data of an ensemble run, `adamantine.hh:1755-1776`: a new database with only a
prefix. `write_pvd` is never called on it (`adamantine.hh:2439-2442`). -/
def exptPost (db : Database) : Post K := Post.ofOne ⟨db.filenamePrefix ++ ".expt", none⟩ none

/-! ## Specification: how a reader resolves names -/

/-- Directory part of a file name: everything up to the last `/`. -/
def dirOf (name : List Char) : List Char := (name.reverse.dropWhile (· != '/')).reverse

/-- What a reference found inside the file `file` refers to: absolute names as they are, relative names in the directory
of the file. -/
def resolve (file ref : String) : List Char :=
  if ref.toList.head? = some '/' then ref.toList else dirOf file.toList ++ ref.toList

/-- The directory is empty (the working directory) or ends with `/`. -/
def DirOk (dir : String) : Prop := dir = "" ∨ ∃ l, dir.toList = l ++ ['/']

/-! ## Lemmas -/

theorem no_slash_toString (n : ℕ) : '/' ∉ (toString n).toList := by
  rw [show toString n = n.repr from rfl, Nat.toList_repr]
  intro h
  have := Nat.isDigit_of_mem_toDigits (by norm_num) (by norm_num) h
  exact absurd this (by decide)

theorem no_dot_toString (n : ℕ) : '.' ∉ (toString n).toList := by
  rw [show toString n = n.repr from rfl, Nat.toList_repr]
  intro h
  have := Nat.isDigit_of_mem_toDigits (by norm_num) (by norm_num) h
  exact absurd this (by decide)

theorem toString_toList_inj {n m : ℕ} (h : (toString n).toList = (toString m).toList) : n = m :=
  Nat.repr_injective (String.toList_inj.mp h)

theorem dirOf_append {d n : List Char} (hd : d = [] ∨ ∃ l, d = l ++ ['/']) (hn : '/' ∉ n) : dirOf (d ++ n) = d := by
  have h1 : ∀ a ∈ n.reverse, (a != '/') = true := by
    intro a ha
    rw [bne_iff_ne]
    rintro rfl
    exact hn (List.mem_reverse.1 ha)
  unfold dirOf
  rw [List.reverse_append, List.dropWhile_append_of_pos h1]
  rcases hd with rfl | ⟨l, rfl⟩
  · rfl
  · simp

/-- Splitting at the first separator. -/
theorem split_first {c : Char} {a a' b b' : List Char} (ha : c ∉ a) (ha' : c ∉ a') (h : a ++ c :: b = a' ++ c :: b') :
    a = a' ∧ b = b' := by
  induction a generalizing a' with
  | nil =>
    cases a' with
    | nil => simpa using h
    | cons x t =>
      simp only [List.nil_append, List.cons_append, List.cons.injEq] at h
      exact absurd h.1 (fun e => ha' (by simp [e]))
  | cons x t ih =>
    cases a' with
    | nil =>
      simp only [List.nil_append, List.cons_append, List.cons.injEq] at h
      exact absurd h.1.symm (fun e => ha (by simp [e]))
    | cons y t' =>
      simp only [List.cons_append, List.cons.injEq] at h
      obtain ⟨h1, h2⟩ := ih (fun hm => ha (by simp [hm])) (fun hm => ha' (by simp [hm])) h.2
      exact ⟨by rw [h.1, h1], h2⟩

theorem outputs_fields (p : Post K) (rank : ℕ) (outs : List (ℕ × K)) :
    (p.outputs rank outs).outputDir = p.outputDir ∧ (p.outputs rank outs).pre = p.pre ∧
    (p.outputs rank outs).record =
      p.record ++ (if rank = 0 then outs.map fun o => (o.2, p.pvtuFile o.1) else []) := by
  induction outs generalizing p with
  | nil => simp [Post.outputs]
  | cons o t ih =>
    have := ih (p.writePvtu rank o.1 o.2)
    simp only [Post.outputs, List.foldl_cons] at this ⊢
    obtain ⟨h1, h2, h3⟩ := this
    refine ⟨?_, ?_, ?_⟩
    · rw [h1]; unfold Post.writePvtu; split <;> rfl
    · rw [h2]; unfold Post.writePvtu; split <;> rfl
    · rw [h3]
      unfold Post.writePvtu
      by_cases hr : rank = 0
      · simp [hr, Post.pvtuFile]
      · simp [hr]

/-! ## C71 -/

/-- The outputs of a (thermal) run of `N` iterations from the loop state `s` (`adamantine.hh:980-982, 1387-1397`): the
initial one with the step before, then one per iteration that outputs. -/
def runOutputs [Field K] [LinearOrder K] (c : Cfg K) (s : St K) (N : ℕ) : List (ℕ × K) :=
  (s.n - 1, s.time) :: ((List.range N).filter fun k => (evAt c s k).output).map fun k =>
    ((evAt c s k).n, (evAt c s k).stop)

/-- **C71**. The pvd record of a run (new or restarted) holds, in strictly increasing order of time, the initial output and
every output of the loop, each exactly once and with pairwise different files; other ranks record nothing. -/
theorem C71_record_complete_and_ordered [Field K] [LinearOrder K] [IsStrictOrderedRing K] [Archimedean K] (c : Cfg K)
    (s : St K) (hth : c.thermal = true) (hdt : 0 < s.dt) (hs : s.time < c.duration) (hn : 0 < s.n) (p : Post K)
    (hp : p.record = []) :
    ∃ N : ℕ, (∀ k, Running c s k ↔ k < N) ∧
      (p.outputs 0 (runOutputs c s N)).record =
        (s.time, p.pvtuFile (s.n - 1)) :: ((List.range N).filter fun k => (evAt c s k).output).map
          (fun k => ((evAt c s k).stop, p.pvtuFile (evAt c s k).n)) ∧
      ((p.outputs 0 (runOutputs c s N)).record).Pairwise (fun a b => a.1 < b.1 ∧ a.2 ≠ b.2) ∧
      (∀ rank, rank ≠ 0 → (p.outputs rank (runOutputs c s N)).record = []) := by
  obtain ⟨N, hN, -, hk⟩ := C17_reaches_duration_partial c s hth hdt hs
  have hrec : (p.outputs 0 (runOutputs c s N)).record =
      (s.time, p.pvtuFile (s.n - 1)) :: ((List.range N).filter fun k => (evAt c s k).output).map
        (fun k => ((evAt c s k).stop, p.pvtuFile (evAt c s k).n)) := by
    rw [(outputs_fields p 0 _).2.2, hp]
    simp [runOutputs, Function.comp_def]
  refine ⟨N, hN, hrec, ?_, fun rank hr => ?_⟩
  · rw [hrec]
    have hname : ∀ {a b : ℕ}, a ≠ b → p.pvtuFile a ≠ p.pvtuFile b := by
      intro a b hab he
      have h2 := congrArg String.toList he
      simp only [Post.pvtuFile, String.toList_append, List.append_assoc, List.append_cancel_left_eq] at h2
      exact hab (toString_toList_inj (split_first (c := '.') (no_dot_toString a) (no_dot_toString b) h2).1)
    -- the start of iteration `k` is at or after the start of the run, stops increase
    have hstart0 : ∀ k < N, s.time ≤ (evAt c s k).start := by
      intro k
      induction k with
      | zero => intro _; exact le_refl _
      | succ k ih =>
        intro hk'
        have h1 := ih (by omega)
        obtain ⟨h2, -, -, -, -, h3⟩ := hk k (by omega)
        rw [h3 hk']
        exact h1.trans h2.le
    have hstop : ∀ j k, j < k → k < N → (evAt c s j).stop < (evAt c s k).stop := by
      intro j k hjk
      induction k, hjk using Nat.le_induction with
      | base =>
        intro hk'
        obtain ⟨-, -, -, -, -, h3⟩ := hk j (by omega)
        rw [← h3 hk']
        exact (hk (j + 1) hk').1
      | succ k hjk ih =>
        intro hk'
        obtain ⟨-, -, -, -, -, h3⟩ := hk k (by omega)
        refine (ih (by omega)).trans ?_
        rw [← h3 hk']
        exact (hk (k + 1) hk').1
    rw [List.pairwise_cons]
    constructor
    · intro b hb
      obtain ⟨k, hk1, rfl⟩ := List.mem_map.1 hb
      have hkN : k < N := List.mem_range.1 (List.mem_filter.1 hk1).1
      refine ⟨(hstart0 k hkN).trans_lt (hk k hkN).1, hname ?_⟩
      rw [(hk k hkN).2.2.2.2.1]
      omega
    · rw [List.pairwise_map]
      have hpw : (List.range N).Pairwise fun j k => j < k ∧ k < N := by
        have := List.pairwise_lt_range (n := N)
        exact List.Pairwise.imp_of_mem (fun {a b} _ hb h => ⟨h, List.mem_range.1 hb⟩) this
      refine (hpw.filter _).imp ?_
      rintro j k ⟨hjk, hkN⟩
      refine ⟨hstop j k hjk hkN, hname ?_⟩
      rw [(hk k hkN).2.2.2.2.1, (hk j (by omega)).2.2.2.2.1]
      omega
  · rw [(outputs_fields p rank _).2.2, hp, if_neg hr]
    rfl

/-- **C71**. Files of different ensemble members, steps or ranks have different names (same database). -/
theorem C71_names_distinct (db : Database) (m m' step step' rank rank' : ℕ)
    (h : (Post.ofOne db (some m) : Post K).vtuFile step rank = (Post.ofOne db (some m') : Post K).vtuFile step' rank') :
    m = m' ∧ step = step' ∧ rank = rank' := by
  have h2 := congrArg String.toList h
  simp only [Post.vtuFile, Post.ofOne, memberPrefix, String.toList_append, List.append_assoc,
    List.append_cancel_left_eq] at h2
  obtain ⟨h3, h4⟩ := split_first (c := '.') (no_dot_toString m) (no_dot_toString m') h2
  obtain ⟨h5, h6⟩ := split_first (c := '.') (no_dot_toString step) (no_dot_toString step') h4
  obtain ⟨h7, -⟩ := split_first (c := '.') (no_dot_toString rank) (no_dot_toString rank') h6
  exact ⟨toString_toList_inj h3, toString_toList_inj h5, toString_toList_inj h7⟩

/-- **C71**. The same without ensemble members. -/
theorem C71_names_distinct_single (p : Post K) (step step' rank rank' : ℕ)
    (h : p.vtuFile step rank = p.vtuFile step' rank') : step = step' ∧ rank = rank' := by
  have h2 := congrArg String.toList h
  simp only [Post.vtuFile, String.toList_append, List.append_assoc, List.append_cancel_left_eq] at h2
  obtain ⟨h5, h6⟩ := split_first (c := '.') (no_dot_toString step) (no_dot_toString step') h2
  obtain ⟨h7, -⟩ := split_first (c := '.') (no_dot_toString rank) (no_dot_toString rank') h6
  exact ⟨toString_toList_inj h5, toString_toList_inj h7⟩

/-- **C71**. In an ensemble run with data assimilation the files of the experimental data never overwrite a member's file
(`output_dir` empty or ending in `/`, no `/` in the prefix): the names differ for all members, steps and ranks. -/
theorem C71_experimental_names_distinct (db : Database) (hd : ∀ dir ∈ db.outputDir, DirOk dir)
    (hp : '/' ∉ db.filenamePrefix.toList) (m step step' rank rank' : ℕ) :
    (Post.ofOne db (some m) : Post K).vtuFile step rank ≠ (exptPost db : Post K).vtuFile step' rank' := by
  intro h
  have h2 := congrArg String.toList h
  have hok : DirOk (db.outputDir.getD "") := by
    cases h3 : db.outputDir with
    | none => exact Or.inl rfl
    | some d => exact hd d h3
  rcases hok with h3 | ⟨l, h3⟩
  · simp [Post.vtuFile, Post.ofOne, exptPost, memberPrefix, h3] at h2
  · have : '/' ∈ ((exptPost db : Post K).vtuFile step' rank').toList := by
      rw [← h2]
      simp [Post.vtuFile, Post.ofOne, h3]
    simp [Post.vtuFile, exptPost, Post.ofOne, memberPrefix] at this
    rcases this with h4 | h4 | h4
    · exact hp h4
    · exact no_slash_toString _ (by simpa using h4)
    · exact no_slash_toString _ (by simpa using h4)

example : DirOk "out/" := Or.inr ⟨['o', 'u', 't'], by decide⟩

theorem base_no_slash {pre : String} (hp : '/' ∉ pre.toList) (step : ℕ) :
    '/' ∉ (pre ++ "." ++ toString step ++ ".pvtu").toList := by
  simp only [String.toList_append, List.mem_append, not_or]
  exact ⟨⟨⟨hp, by decide⟩, no_slash_toString step⟩, by decide⟩

theorem pvtu_dir {p : Post K} (hd : DirOk p.outputDir) (hp : '/' ∉ p.pre.toList) (step : ℕ) :
    dirOf (p.pvtuFile step).toList = p.outputDir.toList := by
  have : (p.pvtuFile step).toList = p.outputDir.toList ++ (p.pre ++ "." ++ toString step ++ ".pvtu").toList := by
    simp [Post.pvtuFile]
  rw [this]
  refine dirOf_append ?_ (base_no_slash hp step)
  rcases hd with h | h
  · left; rw [h]; rfl
  · right; exact h

/-- **C71** (partial: `output_dir` empty or ending in `/`, no `/` in the prefix). The pvtu file lists one name per rank, and
the `i`-th one refers to the file rank `i` wrote. -/
theorem C71_pvtu_refers_to_rank_files_partial (p : Post K) (hd : DirOk p.outputDir) (hp : '/' ∉ p.pre.toList)
    (step size : ℕ) :
    (p.pvtuRefs step size).length = size ∧
    ∀ i, (hi : i < (p.pvtuRefs step size).length) →
      resolve (p.pvtuFile step) (p.pvtuRefs step size)[i] = (p.vtuFile step i).toList := by
  refine ⟨by simp [Post.pvtuRefs], fun i hi => ?_⟩
  have hr : (p.pvtuRefs step size)[i] = p.pre ++ "." ++ toString step ++ "." ++ toString i ++ ".vtu" := by
    simp [Post.pvtuRefs]
  rw [hr]
  unfold resolve
  rw [if_neg]
  · rw [pvtu_dir hd hp]
    simp [Post.vtuFile]
  · simp only [String.toList_append]
    intro hh
    cases hl : p.pre.toList with
    | nil => rw [hl] at hh; simp at hh
    | cons x t =>
      rw [hl] at hh
      simp at hh
      exact hp (by rw [hl, hh]; simp)

/-- **C71** refuted without these conditions: an `output_dir` of `out` (no final `/`) or a prefix `out/s` makes the pvtu
refer to files that are not the ones written. -/
theorem C71_pvtu_refuted :
    resolve ((⟨"out", "s", []⟩ : Post K).pvtuFile 0) "s.0.0.vtu" ≠ ((⟨"out", "s", []⟩ : Post K).vtuFile 0 0).toList ∧
    resolve ((⟨"", "out/s", []⟩ : Post K).pvtuFile 0) "out/s.0.0.vtu" ≠
      ((⟨"", "out/s", []⟩ : Post K).vtuFile 0 0).toList ∧
    (⟨"out", "s", []⟩ : Post K).pvtuRefs 0 1 = ["s.0.0.vtu"] ∧
    (⟨"", "out/s", []⟩ : Post K).pvtuRefs 0 1 = ["out/s.0.0.vtu"] := by
  refine ⟨?_, ?_, ?_, ?_⟩ <;> simp only [Post.pvtuFile, Post.vtuFile, Post.pvtuRefs] <;> decide +kernel

/-- **C71** (partial: no output directory, or an absolute one as the command line option gives). Every entry of the pvd
record, read from the pvd file, refers to the pvtu file that was written. -/
theorem C71_pvd_refers_to_pvtu_partial (p : Post K) (hp : '/' ∉ p.pre.toList)
    (hd : p.outputDir = "" ∨ (p.outputDir.toList.head? = some '/' ∧ ∃ l, p.outputDir.toList = l ++ ['/']))
    (step : ℕ) : resolve p.pvdFile (p.pvtuFile step) = (p.pvtuFile step).toList := by
  unfold resolve
  rcases hd with h | ⟨h, l, hl⟩
  · rw [if_neg]
    · have : dirOf p.pvdFile.toList = [] := by
        have e : p.pvdFile.toList = [] ++ (p.pre ++ ".pvd").toList := by simp [Post.pvdFile, h]
        rw [e]
        refine dirOf_append (Or.inl rfl) ?_
        simp only [String.toList_append, List.mem_append, not_or]
        exact ⟨hp, by decide⟩
      rw [this, List.nil_append]
    · simp only [Post.pvtuFile, h, String.toList_append]
      intro hh
      cases hl : p.pre.toList with
      | nil => rw [hl] at hh; simp at hh
      | cons x t =>
        rw [hl] at hh
        simp at hh
        exact hp (by rw [hl, hh]; simp)
  · rw [if_pos]
    simp only [Post.pvtuFile, String.toList_append, List.append_assoc]
    cases hl' : p.outputDir.toList with
    | nil => rw [hl'] at h; cases h
    | cons x t => rw [hl'] at h; simpa using h

/-- **C71** refuted for a relative output directory `dir/` (from the input file): the pvd record, which is itself written
in `dir/`, names `dir/dir/…`. -/
theorem C71_pvd_relative_dir_refuted (p : Post K) (hp : '/' ∉ p.pre.toList) (x : Char) (l : List Char) (hx : x ≠ '/')
    (hd : p.outputDir.toList = x :: l ++ ['/']) (step : ℕ) :
    resolve p.pvdFile (p.pvtuFile step) = p.outputDir.toList ++ (p.pvtuFile step).toList ∧
      resolve p.pvdFile (p.pvtuFile step) ≠ (p.pvtuFile step).toList := by
  have e : resolve p.pvdFile (p.pvtuFile step) = p.outputDir.toList ++ (p.pvtuFile step).toList := by
    unfold resolve
    rw [if_neg]
    · have : dirOf p.pvdFile.toList = p.outputDir.toList := by
        have e : p.pvdFile.toList = p.outputDir.toList ++ (p.pre ++ ".pvd").toList := by simp [Post.pvdFile]
        rw [e]
        refine dirOf_append (Or.inr ⟨_, hd⟩) ?_
        simp only [String.toList_append, List.mem_append, not_or]
        exact ⟨hp, by decide⟩
      rw [this]
    · simp only [Post.pvtuFile, String.toList_append, hd]
      simpa using hx
  refine ⟨e, ?_⟩
  rw [e]
  intro h
  have := congrArg List.length h
  rw [List.length_append, hd] at this
  simp at this

/-- **C71** (partial: one physics). The files are written in the output directory of the input. -/
theorem C71_in_output_dir_partial (db : Database) (dir : String) (h : db.outputDir = some dir) (member : Option ℕ)
    (step rank : ℕ) :
    ∃ name : String, (Post.ofOne db member : Post K).vtuFile step rank = dir ++ name ∧
      (Post.ofOne db member : Post K).outputDir = dir := by
  refine ⟨memberPrefix db.filenamePrefix member ++ "." ++ toString step ++ "." ++ toString rank ++ ".vtu", ?_, ?_⟩
  · simp [Post.vtuFile, Post.ofOne, h, String.append_assoc]
  · simp [Post.ofOne, h]

/-- **C71** refuted for a thermo-mechanical run and for the experimental data of an ensemble run: whatever output directory
is given, their files are written to the working directory, i.e. under the same names as without an output directory. -/
theorem C71_output_dir_ignored_refuted (db : Database) (member : Option ℕ) (step rank : ℕ) :
    (Post.ofTwo db member : Post K).vtuFile step rank =
      (Post.ofTwo { db with outputDir := none } member : Post K).vtuFile step rank ∧
    (exptPost db : Post K).vtuFile step rank = (exptPost { db with outputDir := none } : Post K).vtuFile step rank ∧
    (Post.ofTwo db member : Post K).outputDir = "" ∧ (exptPost db : Post K).outputDir = "" :=
  ⟨rfl, rfl, rfl, rfl⟩

/-- **C71** refuted over a restart: the restarted run writes the same pvd file, and the new record contains neither the
initial output of the first run nor any other with a time before the restart. -/
theorem C71_restart_refuted [Field K] [LinearOrder K] [IsStrictOrderedRing K] [Archimedean K] (c : Cfg K)
    (hth : c.thermal = true) (hdt : 0 < c.dt) (db : Database) (cp : K × ℕ) (h0 : 0 < cp.1) (h1 : cp.1 < c.duration) :
    ∃ N : ℕ, (∀ k, Running c (restart c cp) k ↔ k < N) ∧
      ∀ e ∈ ((Post.ofOne db none : Post K).outputs 0 (runOutputs c (restart c cp) N)).record, cp.1 ≤ e.1 ∧ e.1 ≠ 0 := by
  obtain ⟨N, hN, hrec, hpw, -⟩ := C71_record_complete_and_ordered c (restart c cp) hth hdt h1
    (by simp [restart]) (Post.ofOne db none : Post K) rfl
  refine ⟨N, hN, fun e he => ?_⟩
  have : cp.1 ≤ e.1 := by
    rw [hrec] at he hpw
    rw [List.pairwise_cons] at hpw
    rcases List.mem_cons.1 he with rfl | he
    · exact le_refl _
    · exact (hpw.1 e he).1.le
  exact ⟨this, ne_of_gt (h0.trans_le this)⟩

/-- **C71** (names). The names a user finds on the disk, spelled out: `<dir><prefix>[_m<member>].<step>.<rank>.vtu`,
`<dir><prefix>[_m<member>].<step>.pvtu` and `<dir><prefix>[_m<member>].pvd` for a thermal run, the same without the directory
for a thermo-mechanical run, and `<prefix>.expt.<step>.<rank>.vtu` for experimental data. -/
theorem C71_file_names (db : Database) (dir : String) (hdir : db.outputDir = some dir) (m step rank : ℕ) :
    let p := db.filenamePrefix
    (Post.ofOne db none : Post K).vtuFile step rank = s!"{dir}{p}.{step}.{rank}.vtu" ∧
    (Post.ofOne db (some m) : Post K).vtuFile step rank = s!"{dir}{p}_m{m}.{step}.{rank}.vtu" ∧
    (Post.ofOne db none : Post K).pvtuFile step = s!"{dir}{p}.{step}.pvtu" ∧
    (Post.ofOne db (some m) : Post K).pvtuFile step = s!"{dir}{p}_m{m}.{step}.pvtu" ∧
    (Post.ofOne db none : Post K).pvdFile = s!"{dir}{p}.pvd" ∧
    (Post.ofOne db (some m) : Post K).pvdFile = s!"{dir}{p}_m{m}.pvd" ∧
    (Post.ofTwo db none : Post K).vtuFile step rank = s!"{p}.{step}.{rank}.vtu" ∧
    (Post.ofTwo db (some m) : Post K).vtuFile step rank = s!"{p}_m{m}.{step}.{rank}.vtu" ∧
    (Post.ofTwo db none : Post K).pvtuFile step = s!"{p}.{step}.pvtu" ∧
    (Post.ofTwo db none : Post K).pvdFile = s!"{p}.pvd" ∧
    (exptPost db : Post K).vtuFile step rank = s!"{p}.expt.{step}.{rank}.vtu" ∧
    (exptPost db : Post K).pvtuFile step = s!"{p}.expt.{step}.pvtu" := by
  have e : ∀ s : String, toString s = s := fun _ => rfl
  refine ⟨?_, ?_, ?_, ?_, ?_, ?_, ?_, ?_, ?_, ?_, ?_, ?_⟩ <;>
    (apply String.toList_inj.1
     simp [Post.ofOne, Post.ofTwo, exptPost, memberPrefix, Post.vtuFile, Post.pvtuFile, Post.pvdFile, hdir, e])

/-- The names of a run with the input of `application/input.info` in the directory `out/`. -/
example : (Post.ofOne ⟨"demo", some "out/"⟩ (some 2) : Post ℚ).vtuFile 10 1 = "out/demo_m2.10.1.vtu" := by
  decide +kernel

/-- A concrete run: three iterations with an output at every second step gives three records. -/
example : runOutputs (⟨true, 3 / 10, 1, 0, 1, 2, 1, []⟩ : Cfg ℚ) (start ⟨true, 3 / 10, 1, 0, 1, 2, 1, []⟩) 4 =
    [(0, 0), (2, 3 / 5), (4, 1)] := by
  decide +kernel

end Verif.Output
