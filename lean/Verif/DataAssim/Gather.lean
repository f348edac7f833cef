import Verif.Mechanics.Cells
import Mathlib.Data.List.Basic
import Mathlib.Data.List.Nodup

/-!
# C54: gathering and scattering the ensemble

`DataAssimilator::gather_ensemble_members`, `source/DataAssimilator.cc:191-303`, and `scatter_ensemble_members`, `:305-401`.
`dealii::Utilities::MPI::gather`, `MPI_Isend/Recv`, `pack/unpack` and `import_elements` are used as the data movements their documentation describes.
-/

namespace Verif.DataAssim

open Verif.Mechanics

/-! ## inside one local communicator -/

/-- Block 0 on the local root, `DataAssimilator.cc:236-269` with `k = 0`: rank `j` owns the indices `owns[j]` (in increasing order) and sends the values stored there. -/
noncomputable def gatherBlock0 (owns : List (List ℕ)) (val : ℕ → ℝ) : List ℝ :=
  let size := (owns.map List.length).sum
  let w := writes (owns.flatMap fun o => o.map fun p => (p, val p)) fun _ => (0 : ℝ)
  (List.range size).map w

/-- Block 1 on the local root, `k = 1`: every rank has its own copy of all the parameters (`block(augmented_state).reinit(n)`, `adamantine.hh:1675-1677`); the
copies are written one after the other into a vector of the size of rank 0's copy. -/
noncomputable def gatherBlock1 (copies : List (List ℝ)) : List ℝ :=
  let size := (copies.head?.getD []).length
  let w := writes (copies.flatMap fun c => c.zipIdx.map fun p => (p.2, p.1)) fun _ => (0 : ℝ)
  (List.range size).map w

/-- Block 1 after the scatter, `:383-400`: every rank sets its copy to zero and adds what *it* received; `block_sizes` is only filled on the local root (`:237-247`),
so the other ranks add nothing. -/
def scatterBlock1 (nRanks : ℕ) (root : List ℝ) : List (List ℝ) :=
  root :: List.replicate (nRanks - 1) (List.replicate root.length 0)

/-! ## global communicator -/

/-- Zero padding to the block size of global rank 0, `:288-297`. -/
def pad (n : ℕ) (l : List ℝ) : List ℝ := l ++ List.replicate (n - l.length) 0

/-- A member on global rank 0; `none`: a write past the end, when another communicator has a larger vector than communicator 0. -/
def buildMember (s0 s1 : ℕ) (m : List ℝ × List ℝ) : Option (List ℝ) :=
  if m.1.length ≤ s0 ∧ m.2.length ≤ s1 then some (pad s0 m.1 ++ pad s1 m.2) else none

/-- The gathered ensemble, `:276-302`: `perRank[i]` are the members sent by global rank `i` (none unless it is the root of its local communicator). -/
def gatherGlobal (s0 s1 : ℕ) (perRank : List (List (List ℝ × List ℝ))) : Option (List (List ℝ)) := perRank.flatten.mapM (buildMember s0 s1)

/-- The buffers sent back, `:326-347`: rank `i` gets the next `counts[i]` members. -/
def splitCounts {α : Type} : List ℕ → List α → List (List α)
  | [], _ => []
  | n :: ns, l => l.take n :: splitCounts ns (l.drop n)

/-- What a local root reads from the buffer of a member, `:385-392`. -/
def readBlocks (t0 t1 : ℕ) (buf : List ℝ) : List ℝ × List ℝ := ((buf.take t0), ((buf.drop t0).take t1))

/-! ## proofs -/

theorem mapM_some {α β : Type} (f : α → Option β) (g : α → β) (l : List α) (h : ∀ a ∈ l, f a = some (g a)) : l.mapM f = some (l.map g) := by
  induction l with
  | nil => rfl
  | cons a as ih =>
    simp only [List.mapM_cons, h a List.mem_cons_self, ih fun b hb => h b (List.mem_cons_of_mem _ hb), Option.bind_eq_bind, Option.bind_some,
      Option.pure_def, List.map_cons]

theorem splitCounts_map {α β : Type} (f : α → β) (L : List (List α)) : splitCounts (L.map List.length) (L.flatten.map f) = L.map (List.map f) := by
  induction L with
  | nil => rfl
  | cons a as ih =>
    simp only [List.map_cons, splitCounts, List.flatten_cons, List.map_append]
    rw [List.take_left' (by simp), List.drop_left' (by simp), ih]

/-- **C54**, block 0 inside a communicator: if the ranks' index sets partition `0 … size-1`, the local root assembles exactly the global vector, for every partition. -/
theorem C54_block0_partial (owns : List (List ℕ)) (val : ℕ → ℝ) (hnd : owns.flatten.Nodup) (hcov : ∀ p, p ∈ owns.flatten ↔ p < (owns.map List.length).sum) :
    gatherBlock0 owns val = (List.range (owns.map List.length).sum).map val := by
  unfold gatherBlock0
  simp only
  apply List.map_congr_left
  intro p hp
  have hp' : p ∈ owns.flatten := (hcov p).2 (List.mem_range.1 hp)
  have hw : (owns.flatMap fun o => o.map fun p => (p, val p)) = owns.flatten.map fun p => (p, val p) := by
    rw [List.map_flatten, List.flatMap_def]
  rw [hw]
  apply writes_mem
  · exact List.mem_map.2 ⟨p, hp', rfl⟩
  · intro w hw hx
    obtain ⟨q, _, rfl⟩ := List.mem_map.1 hw
    simp only at hx ⊢
    rw [hx]

/-- Two ranks with interleaved indices. -/
example : ([[0, 3], [1, 2]] : List (List ℕ)).flatten.Nodup ∧
    ∀ p, p ∈ ([[0, 3], [1, 2]] : List (List ℕ)).flatten ↔ p < (([[0, 3], [1, 2]] : List (List ℕ)).map List.length).sum := by
  constructor
  · decide
  · intro p
    simp
    omega

/-- **C54**, a member whose vectors are shorter than those of communicator 0 keeps its values at the front of each block and is padded with
zeros behind them. -/
theorem C54_padding_partial (s0 s1 : ℕ) (a b : List ℝ) (ha : a.length ≤ s0) (hb : b.length ≤ s1) :
    ∃ g, buildMember s0 s1 (a, b) = some g ∧ g.length = s0 + s1 ∧
      (∀ k, k < a.length → g[k]? = a[k]?) ∧ (∀ k, a.length ≤ k → k < s0 → g[k]? = some 0) ∧
      (∀ k, k < b.length → g[s0 + k]? = b[k]?) ∧ (∀ k, b.length ≤ k → k < s1 → g[s0 + k]? = some 0) := by
  have hl : ∀ (n : ℕ) (l : List ℝ), l.length ≤ n → (pad n l).length = n := by
    intro n l h; simp [pad]; omega
  refine ⟨pad s0 a ++ pad s1 b, by rw [buildMember, if_pos ⟨ha, hb⟩], by rw [List.length_append, hl s0 a ha, hl s1 b hb], ?_, ?_, ?_, ?_⟩
  · intro k hk
    rw [List.getElem?_append_left (by rw [hl s0 a ha]; omega), pad, List.getElem?_append_left hk]
  · intro k hk hk'
    rw [List.getElem?_append_left (by rw [hl s0 a ha]; omega), pad, List.getElem?_append_right hk, List.getElem?_replicate,
      if_pos (by omega)]
  · intro k hk
    rw [List.getElem?_append_right (by rw [hl s0 a ha]; omega), hl s0 a ha, Nat.add_sub_cancel_left, pad, List.getElem?_append_left hk]
  · intro k hk hk'
    rw [List.getElem?_append_right (by rw [hl s0 a ha]; omega), hl s0 a ha, Nat.add_sub_cancel_left, pad, List.getElem?_append_right hk,
      List.getElem?_replicate, if_pos (by omega)]

example : ∃ g, buildMember 3 1 ([300, 400], [7]) = some g ∧ g[2]? = some 0 := by
  obtain ⟨g, h, -, -, h2, -⟩ := C54_padding_partial 3 1 [300, 400] [7] (by simp) (by simp)
  exact ⟨g, h, h2 2 (by simp) (by omega)⟩

/-- **C54**, global communication: for every distribution of members over the ranks (ranks without members included), if all members have the same block sizes,
gathering to global rank 0 and scattering back returns to every rank exactly its members, block by block, in order. -/
theorem C54_round_trip_partial (s0 s1 : ℕ) (perRank : List (List (List ℝ × List ℝ)))
    (h : ∀ r ∈ perRank, ∀ m ∈ r, m.1.length = s0 ∧ m.2.length = s1) :
    ∃ g, gatherGlobal s0 s1 perRank = some g ∧ g.length = (perRank.map List.length).sum ∧
      (splitCounts (perRank.map List.length) g).map (List.map (readBlocks s0 s1)) = perRank := by
  refine ⟨perRank.flatten.map fun m => m.1 ++ m.2, ?_, by rw [List.length_map, List.length_flatten], ?_⟩
  · unfold gatherGlobal
    apply mapM_some
    intro m hm
    obtain ⟨r, hr, hmr⟩ := List.mem_flatten.1 hm
    obtain ⟨h0, h1⟩ := h r hr m hmr
    unfold buildMember pad
    rw [if_pos ⟨h0.le, h1.le⟩, h0, h1]
    simp
  · rw [splitCounts_map, List.map_map]
    have : ∀ r ∈ perRank, (List.map (readBlocks s0 s1) ∘ List.map fun m => m.1 ++ m.2) r = r := by
      intro r hr
      simp only [Function.comp_apply, List.map_map]
      conv_rhs => rw [← List.map_id r]
      apply List.map_congr_left
      intro m hm
      obtain ⟨h0, h1⟩ := h r hr m hm
      simp only [Function.comp_apply, readBlocks, id]
      rw [List.take_left' h0, List.drop_left' h0, List.take_of_length_le h1.le]
    conv_rhs => rw [← List.map_id perRank]
    exact List.map_congr_left this

/-- **C54**: with an update in between that keeps the number of members, rank `i` receives the updated versions of exactly the members it sent: the `j`-th one is the member
number (members of the ranks before) + `j` of the updated ensemble. -/
theorem C54_update_partial {α : Type} (counts : List ℕ) (g : List α) (hg : g.length = counts.sum) (i : ℕ) (n : ℕ) (hi : counts[i]? = some n) (j : ℕ) (hj : j < n) :
    ∃ r, (splitCounts counts g)[i]? = some r ∧ r.length = n ∧ r[j]? = g[(counts.take i).sum + j]? := by
  induction counts generalizing g i with
  | nil => simp at hi
  | cons c cs ih =>
    cases i with
    | zero =>
      simp only [List.getElem?_cons_zero, Option.some.injEq] at hi
      subst hi
      refine ⟨g.take c, rfl, ?_, ?_⟩
      · rw [List.length_take, hg, List.sum_cons]; omega
      · simp [List.getElem?_take, hj]
    | succ i =>
      rw [List.getElem?_cons_succ] at hi
      obtain ⟨r, h1, h2, h3⟩ := ih (g.drop c) (by rw [List.length_drop, hg, List.sum_cons]; omega) i hi
      refine ⟨r, by simpa [splitCounts] using h1, h2, ?_⟩
      rw [h3, List.getElem?_drop, List.take_succ_cons, List.sum_cons]
      congr 1
      omega

example : splitCounts [2, 0, 1] ["a", "b", "c"] = [["a", "b"], [], ["c"]] := rfl

/-- **C54**, parameters, one rank per member: gathered and scattered unchanged. -/
theorem C54_params_serial_partial (c : List ℝ) : gatherBlock1 [c] = c ∧ scatterBlock1 1 c = [c] := by
  constructor
  · unfold gatherBlock1
    simp only [List.head?_cons, Option.getD_some, List.flatMap_cons, List.flatMap_nil, List.append_nil]
    apply List.ext_getElem?
    intro k
    by_cases hk : k < c.length
    · rw [List.getElem?_map, List.getElem?_range hk, Option.map_some, List.getElem?_eq_getElem hk]
      congr 1
      apply writes_mem
      · refine List.mem_map.2 ⟨(c[k], k), ?_, rfl⟩
        rw [List.mem_zipIdx_iff_getElem?]
        simp [hk]
      · intro w hw hx
        obtain ⟨p, hp, rfl⟩ := List.mem_map.1 hw
        rw [List.mem_zipIdx_iff_getElem?] at hp
        simp only at hx ⊢
        subst hx
        rw [List.getElem?_eq_getElem hk] at hp
        exact (Option.some.inj hp).symm
    · rw [List.getElem?_eq_none (by simp; omega), List.getElem?_eq_none (by omega)]
  · rfl

/-- **C54 refuted** for the estimated parameters when a member runs on two ranks: even if the assimilation changes nothing, the copy on the second rank becomes
zero, and at the next assimilation this zero is what is gathered, so that afterwards all copies of the parameter are zero. -/
theorem C54_params_refuted (v : ℝ) :
    scatterBlock1 2 (gatherBlock1 [[v], [v]]) = [[v], [0]] ∧ scatterBlock1 2 (gatherBlock1 [[v], [0]]) = [[0], [0]] := by
  constructor <;> simp [scatterBlock1, gatherBlock1, writes, List.range_succ]

/-- A member of another communicator with a larger mesh than that of communicator 0 is written past the end of the vector. -/
theorem C54_sizes_needed : buildMember 1 0 ([1, 2], []) = none := by
  simp [buildMember]

end Verif.DataAssim
