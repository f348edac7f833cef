import Verif.Output.PostProcessor

/-!
# C69: the files of `Microstructure`, `source/Microstructure.cc:14-54`

A file system maps names to contents (a list of characters).  The ranks run concurrently: a history is any interleaving of
their events.  `MPI_Barrier` in the destructor means that rank 0 merges after all ranks have closed their files.
-/

namespace Verif.Output.MicroFiles

/-- A file system. -/
abbrev FS := String → Option (List Char)

/-- Set or remove one file. -/
def FS.set (fs : FS) (name : String) (v : Option (List Char)) : FS := fun x => if x = name then v else fs x

/-- Name of the temporary file of a rank, `Microstructure.cc:19` and `47-48`. -/
def localName (pre : String) (rank : ℕ) : String := pre ++ "_" ++ toString rank ++ ".txt"

/-- Name of the final file, `Microstructure.cc:35`. -/
def globalName (pre : String) : String := pre ++ ".txt"

/-- Events of the ranks before the barrier. -/
inductive Event
  /-- constructor on a rank -/
  | openFile (rank : ℕ)
  /-- `compute_G_and_R` on a rank writes a text -/
  | write (rank : ℕ) (text : List Char)

/-- The rank of an event. -/
def Event.rank : Event → ℕ
  | .openFile r => r
  | .write r _ => r

/-- Effect of an event: opening an `ofstream` truncates (`Microstructure.cc:19`), writing appends at the end. -/
def Event.run (pre : String) (fs : FS) : Event → FS
  | .openFile r => fs.set (localName pre r) (some [])
  | .write r t => fs.set (localName pre r) (some ((fs (localName pre r)).getD [] ++ t))

/-- One turn of the merge loop on rank 0, `Microstructure.cc:41-53`: open the global file for appending (creating it), copy
the temporary file, remove the temporary file. -/
def mergeStep (pre : String) (fs : FS) (rank : ℕ) : FS :=
  let fs := fs.set (globalName pre) (some ((fs (globalName pre)).getD [] ++ (fs (localName pre rank)).getD []))
  fs.set (localName pre rank) none

/-- The destructor after the barrier, `Microstructure.cc:32-54`. -/
def merge (pre : String) (nProcs : ℕ) (fs : FS) : FS :=
  (List.range nProcs).foldl (mergeStep pre) (fs.set (globalName pre) none)

/-- The life of the object: constructors and writes in some interleaving, then the destructor. -/
def life (pre : String) (nProcs : ℕ) (fs : FS) (h : List Event) : FS :=
  merge pre nProcs (h.foldl (Event.run pre) fs)

/-! ## Specification -/

/-- Texts a rank wrote, in order. -/
def texts (rank : ℕ) (h : List Event) : List (List Char) :=
  h.filterMap fun e => match e with
    | .write r t => if r = rank then some t else none
    | .openFile _ => none

/-- A possible history of `nProcs` ranks: only these ranks act, and each opens its file once, before it writes. -/
def Valid (nProcs : ℕ) (h : List Event) : Prop :=
  (∀ e ∈ h, e.rank < nProcs) ∧
  ∀ r < nProcs, ∃ ws : List (List Char), h.filter (fun e => e.rank == r) = .openFile r :: ws.map (.write r)

/-! ## Lemmas -/

theorem localName_inj {pre : String} {a b : ℕ} (h : localName pre a = localName pre b) : a = b := by
  have h2 := congrArg String.toList h
  simp only [localName, String.toList_append, List.append_assoc, List.append_cancel_left_eq] at h2
  exact toString_toList_inj (split_first (c := '.') (no_dot_toString a) (no_dot_toString b) h2).1

theorem local_ne_global (pre : String) (a : ℕ) : localName pre a ≠ globalName pre := by
  intro h
  have h2 := congrArg (fun s : String => s.toList.length) h
  simp only [localName, globalName, String.toList_append, List.length_append] at h2
  have : ("_" : String).toList.length = 1 := rfl
  omega

@[simp] theorem set_self (fs : FS) (x : String) (v : Option (List Char)) : fs.set x v x = v := by simp [FS.set]

theorem set_ne (fs : FS) {x y : String} (v : Option (List Char)) (h : y ≠ x) : fs.set x v y = fs y := by
  simp [FS.set, h]

/-- The file of a rank depends only on the events of that rank. -/
theorem run_local (pre : String) (r : ℕ) (h : List Event) (fs : FS) :
    h.foldl (Event.run pre) fs (localName pre r) =
      (h.filter (fun e => e.rank == r)).foldl (Event.run pre) fs (localName pre r) := by
  have key : ∀ (h : List Event) (fs fs' : FS), fs (localName pre r) = fs' (localName pre r) →
      h.foldl (Event.run pre) fs (localName pre r) =
        (h.filter (fun e => e.rank == r)).foldl (Event.run pre) fs' (localName pre r) := by
    intro h
    induction h with
    | nil => intro fs fs' e; exact e
    | cons a t ih =>
      intro fs fs' e
      rw [List.foldl_cons]
      by_cases ha : a.rank = r
      · rw [List.filter_cons_of_pos (by simpa using ha), List.foldl_cons]
        apply ih
        cases a with
        | openFile r' =>
          have ha : r' = r := ha
          subst ha
          simp [Event.run]
        | write r' t' =>
          have ha : r' = r := ha
          subst ha
          simp [Event.run, e]
      · rw [List.filter_cons_of_neg (by simpa using ha)]
        apply ih
        rw [← e]
        cases a with
        | openFile r' => exact set_ne _ _ (fun e => ha (localName_inj e).symm)
        | write r' t' => exact set_ne _ _ (fun e => ha (localName_inj e).symm)
  exact key h fs fs rfl

theorem run_writes (pre : String) (r : ℕ) (ws : List (List Char)) (fs : FS) (x : List Char)
    (hx : fs (localName pre r) = some x) :
    (ws.map (Event.write r)).foldl (Event.run pre) fs (localName pre r) = some (x ++ ws.flatten) := by
  induction ws generalizing fs x with
  | nil => simp [hx]
  | cons w t ih =>
    rw [List.map_cons, List.foldl_cons, ih _ (x ++ w) (by simp [Event.run, hx])]
    simp

theorem texts_filter (r : ℕ) (h : List Event) : texts r (h.filter fun e => e.rank == r) = texts r h := by
  unfold texts
  induction h with
  | nil => rfl
  | cons e t ih =>
    by_cases he : e.rank = r
    · rw [List.filter_cons_of_pos (by simpa using he), List.filterMap_cons, List.filterMap_cons, ih]
    · rw [List.filter_cons_of_neg (by simpa using he), List.filterMap_cons, ih]
      cases e with
      | openFile r' => rfl
      | write r' t' => simp [show ¬ r' = r from he]

theorem texts_own (r : ℕ) (ws : List (List Char)) : texts r (Event.openFile r :: ws.map (.write r)) = ws := by
  simp [texts, Function.comp_def]

/-- Before the barrier: the file of a rank holds what it wrote. -/
theorem run_valid {pre : String} {nProcs : ℕ} {h : List Event} (hv : Valid nProcs h) (fs : FS) {r : ℕ} (hr : r < nProcs) :
    h.foldl (Event.run pre) fs (localName pre r) = some (texts r h).flatten := by
  obtain ⟨ws, hw⟩ := hv.2 r hr
  rw [run_local, ← texts_filter, hw, texts_own, List.foldl_cons, run_writes pre r ws _ [] (by simp [Event.run])]
  simp

/-- Events touch only the temporary files. -/
theorem run_other {pre : String} {h : List Event} {nProcs : ℕ} (hr : ∀ e ∈ h, e.rank < nProcs) (fs : FS) {x : String}
    (hx : ∀ r < nProcs, x ≠ localName pre r) : h.foldl (Event.run pre) fs x = fs x := by
  induction h generalizing fs with
  | nil => rfl
  | cons e t ih =>
    rw [List.foldl_cons, ih (fun e he => hr e (List.mem_cons_of_mem _ he))]
    have := hx e.rank (hr e (by simp))
    cases e with
    | openFile r => exact set_ne _ _ this
    | write r t => exact set_ne _ _ this

/-- The merge loop over any duplicate-free list of ranks. -/
theorem mergeLoop (pre : String) (l : List ℕ) (hl : l.Nodup) (fs : FS) :
    let r := l.foldl (mergeStep pre) fs
    (r (globalName pre)).getD [] = (fs (globalName pre)).getD [] ++ (l.map fun k => (fs (localName pre k)).getD []).flatten ∧
    (l ≠ [] → (r (globalName pre)).isSome) ∧
    (∀ k ∈ l, r (localName pre k) = none) ∧
    (∀ x, x ≠ globalName pre → (∀ k ∈ l, x ≠ localName pre k) → r x = fs x) := by
  induction l generalizing fs with
  | nil => simp
  | cons a t ih =>
    have hat := (List.nodup_cons.1 hl).1
    obtain ⟨h1, h2, h3, h4⟩ := ih (List.nodup_cons.1 hl).2 (mergeStep pre fs a)
    have hg : mergeStep pre fs a (globalName pre) =
        some ((fs (globalName pre)).getD [] ++ (fs (localName pre a)).getD []) := by
      unfold mergeStep
      rw [set_ne _ _ (local_ne_global pre a).symm, set_self]
    have hloc : ∀ k ∈ t, mergeStep pre fs a (localName pre k) = fs (localName pre k) := by
      intro k hk
      have hka : localName pre k ≠ localName pre a := fun e => hat (localName_inj e ▸ hk)
      unfold mergeStep
      rw [set_ne _ _ hka, set_ne _ _ (local_ne_global pre k)]
    simp only [List.foldl_cons]
    refine ⟨?_, fun _ => ?_, ?_, ?_⟩
    · rw [h1, hg]
      simp only [Option.getD_some, List.map_cons, List.flatten_cons, List.append_assoc]
      congr 3
      exact List.map_congr_left fun k hk => by rw [hloc k hk]
    · cases t with
      | nil => simp [hg]
      | cons b u => exact h2 (by simp)
    · intro k hk
      rcases List.mem_cons.1 hk with rfl | hk
      · rw [h4 _ (local_ne_global pre k) (fun j hj e => hat (localName_inj e ▸ hj))]
        simp [mergeStep]
      · exact h3 k hk
    · intro x hx hxl
      rw [h4 x hx (fun k hk => hxl k (List.mem_cons_of_mem _ hk))]
      unfold mergeStep
      rw [set_ne _ _ (hxl a (by simp)), set_ne _ _ hx]

/-! ## C69 -/

/-- **C69**. For every number of ranks, every interleaving of their writes and every previous content of the file system:
after the destructor the final file holds the texts of rank 0, then of rank 1, …, each in the order written and nothing else;
all temporary files are gone; no other file has changed. -/
theorem C69_merged_in_rank_order (pre : String) (nProcs : ℕ) (hn : 0 < nProcs) (fs : FS) (h : List Event)
    (hv : Valid nProcs h) :
    life pre nProcs fs h (pre ++ ".txt") = some ((List.range nProcs).map fun r => (texts r h).flatten).flatten ∧
    (∀ r < nProcs, life pre nProcs fs h (pre ++ "_" ++ toString r ++ ".txt") = none) ∧
    (∀ x, x ≠ pre ++ ".txt" → (∀ r < nProcs, x ≠ pre ++ "_" ++ toString r ++ ".txt") → life pre nProcs fs h x = fs x) := by
  obtain ⟨h1, h2, h3, h4⟩ := mergeLoop pre (List.range nProcs) List.nodup_range
    ((h.foldl (Event.run pre) fs).set (globalName pre) none)
  refine ⟨?_, fun r hr => h3 r (List.mem_range.2 hr), fun x hx hxl => ?_⟩
  · have hs := h2 (by intro e; have := congrArg List.length e; simp at this; omega)
    obtain ⟨v, hv'⟩ := Option.isSome_iff_exists.1 hs
    have e : life pre nProcs fs h (pre ++ ".txt") = some v := hv'
    rw [e]
    rw [hv'] at h1
    simp only [Option.getD_some, set_self, Option.getD_none, List.nil_append] at h1
    rw [h1]
    congr 2
    refine List.map_congr_left fun k hk => ?_
    rw [set_ne _ _ (local_ne_global pre k), run_valid hv fs (List.mem_range.1 hk), Option.getD_some]
  · have := h4 x hx (fun k hk => hxl k (List.mem_range.1 hk))
    rw [show life pre nProcs fs h x = _ from this, set_ne _ _ (show x ≠ globalName pre from hx)]
    exact run_other hv.1 fs (fun r hr => hxl r hr)

/-- **C69** (no carry-over). The final file does not depend on what the file system held before: the output of an earlier run
with the same prefix, finished or crashed, is not kept when a run is repeated or restarted. -/
theorem C69_previous_content_dropped (pre : String) (nProcs : ℕ) (hn : 0 < nProcs) (fs fs' : FS) (h : List Event)
    (hv : Valid nProcs h) : life pre nProcs fs h (pre ++ ".txt") = life pre nProcs fs' h (pre ++ ".txt") := by
  rw [(C69_merged_in_rank_order pre nProcs hn fs h hv).1, (C69_merged_in_rank_order pre nProcs hn fs' h hv).1]

/-- Two ranks with interleaved events: a valid history, and its result. -/
example : Valid 2 [.openFile 1, .write 1 ['b'], .openFile 0, .write 0 ['a'], .write 1 ['d'], .write 0 ['c']] := by
  refine ⟨by decide, fun r hr => ?_⟩
  obtain rfl | rfl : r = 0 ∨ r = 1 := by omega
  · exact ⟨[['a'], ['c']], rfl⟩
  · exact ⟨[['b'], ['d']], rfl⟩

example : life "m" 2 (fun _ => none)
    [.openFile 1, .write 1 ['b'], .openFile 0, .write 0 ['a'], .write 1 ['d'], .write 0 ['c']] "m.txt" =
    some ['a', 'c', 'b', 'd'] := by
  decide +kernel

end Verif.Output.MicroFiles
