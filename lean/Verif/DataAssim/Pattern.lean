import Verif.DataAssim.Gather
import Verif.DataAssim.Covariance
import Mathlib.Data.List.Sort
import Mathlib.Order.OrderDual

/-!
# C80: the covariance matrix assembled on several ranks, after any number of assimilations

`get_dof_to_support_mapping`, `source/experimental_data_utils.cc:21-66`, `DataAssimilator::update_covariance_sparsity_pattern`,
`source/DataAssimilator.cc:512-612`, and the loop over the entries of `DataAssimilator::calc_sample_covariance_sparse`, `:711-752`.
-/

namespace Verif.DataAssim

open Verif.Mechanics

variable {P : Type}

/-! ## Support points of a rank -/

/-- An active cell as seen by one rank: `feNothing = false` for finite element 0, `mine` if locally owned, and the list of its dofs with the support points of the
cell (`local_dof_indices`, `points`; `experimental_data_utils.cc:44-50`). -/
structure VCell (P : Type) where
  feNothing : Bool
  mine : Bool
  dofs : List (ℕ × P)

/-- One pass through the body of the loop over the dofs of a cell, `experimental_data_utils.cc:51-62`; `visited_dof_indices` is the set of the dofs already pushed. -/
def visitDof (owned : List ℕ) (acc : List (ℕ × P)) (e : ℕ × P) : List (ℕ × P) :=
  if e.1 ∉ acc.map Prod.fst ∧ e.1 ∈ owned then acc ++ [e] else acc

/-- `get_dof_to_support_mapping`, `experimental_data_utils.cc:21-66`: pairs (`dof_indices[i]`, `support_points[i]`).  `owned` = `locally_owned_dofs`. -/
def supportMapping (owned : List ℕ) (cells : List (VCell P)) : List (ℕ × P) :=
  ((cells.filter fun c => !c.feNothing && c.mine).flatMap VCell.dofs).foldl (visitDof owned) []

theorem visit_spec (owned : List ℕ) (l : List (ℕ × P)) (acc : List (ℕ × P)) (ha : (acc.map Prod.fst).Nodup) :
    ((l.foldl (visitDof owned) acc).map Prod.fst).Nodup ∧
    (∀ e, e ∈ l.foldl (visitDof owned) acc → e ∈ acc ∨ (e ∈ l ∧ e.1 ∈ owned)) ∧
    (∀ e, (e ∈ acc ∨ (e ∈ l ∧ e.1 ∈ owned)) → e.1 ∈ (l.foldl (visitDof owned) acc).map Prod.fst) := by
  induction l generalizing acc with
  | nil => exact ⟨ha, fun e he => Or.inl he, fun e he => List.mem_map_of_mem (he.elim id fun h => absurd h.1 (List.not_mem_nil))⟩
  | cons a l ih =>
    rw [List.foldl_cons]
    by_cases h : a.1 ∉ acc.map Prod.fst ∧ a.1 ∈ owned
    · have e1 : visitDof owned acc a = acc ++ [a] := if_pos h
      rw [e1]
      have hn : ((acc ++ [a]).map Prod.fst).Nodup := by
        rw [List.map_append, List.map_singleton]
        exact List.Nodup.append ha (List.nodup_singleton _) (by
          intro x hx hx'
          rw [List.mem_singleton] at hx'
          exact h.1 (hx' ▸ hx))
      obtain ⟨i1, i2, i3⟩ := ih _ hn
      refine ⟨i1, fun e he => ?_, fun e he => ?_⟩
      · rcases i2 e he with h' | h'
        · rcases List.mem_append.1 h' with h'' | h''
          · exact Or.inl h''
          · rw [List.mem_singleton] at h''
            exact Or.inr ⟨h'' ▸ List.mem_cons_self, h'' ▸ h.2⟩
        · exact Or.inr ⟨List.mem_cons_of_mem _ h'.1, h'.2⟩
      · apply i3
        rcases he with h' | ⟨h', h2⟩
        · exact Or.inl (List.mem_append_left _ h')
        · rcases List.mem_cons.1 h' with h'' | h''
          · exact Or.inl (List.mem_append_right _ (by rw [h'']; exact List.mem_singleton_self _))
          · exact Or.inr ⟨h'', h2⟩
    · have e1 : visitDof owned acc a = acc := if_neg h
      rw [e1]
      obtain ⟨i1, i2, i3⟩ := ih _ ha
      refine ⟨i1, fun e he => ?_, fun e he => ?_⟩
      · rcases i2 e he with h' | h'
        · exact Or.inl h'
        · exact Or.inr ⟨List.mem_cons_of_mem _ h'.1, h'.2⟩
      · rcases he with h' | ⟨h', h2⟩
        · exact i3 e (Or.inl h')
        · rcases List.mem_cons.1 h' with h'' | h''
          · subst h''
            have hm : e.1 ∈ acc.map Prod.fst := by
              by_contra hc
              exact h ⟨hc, h2⟩
            obtain ⟨e', he', h3⟩ := List.mem_map.1 hm
            rw [← h3]
            exact i3 e' (Or.inl he')
          · exact i3 e (Or.inr ⟨h'', h2⟩)

/-- **C80** (support points): if every cell shows each of its dofs at that dof's support point, the returned list contains every owned dof that lies on an owned cell
with finite element 0 exactly once, nothing else, each with its support point. -/
theorem C80_support_points (owned : List ℕ) (cells : List (VCell P)) (pos : ℕ → P) (hpos : ∀ c ∈ cells, ∀ e ∈ c.dofs, e.2 = pos e.1) :
    ((supportMapping owned cells).map Prod.fst).Nodup ∧
    (∀ d : ℕ, d ∈ (supportMapping owned cells).map Prod.fst ↔
      d ∈ owned ∧ ∃ c ∈ cells, c.feNothing = false ∧ c.mine = true ∧ d ∈ c.dofs.map Prod.fst) ∧
    (∀ e ∈ supportMapping owned cells, e.2 = pos e.1) := by
  obtain ⟨h1, h2, h3⟩ := visit_spec owned ((cells.filter fun c => !c.feNothing && c.mine).flatMap VCell.dofs) [] List.nodup_nil
  have hmem : ∀ e : ℕ × P, e ∈ (cells.filter fun c => !c.feNothing && c.mine).flatMap VCell.dofs ↔
      ∃ c ∈ cells, c.feNothing = false ∧ c.mine = true ∧ e ∈ c.dofs := by
    intro e
    rw [List.mem_flatMap]
    constructor
    · rintro ⟨c, hc, he⟩
      rw [List.mem_filter] at hc
      simp only [Bool.and_eq_true, Bool.not_eq_true'] at hc
      exact ⟨c, hc.1, hc.2.1, hc.2.2, he⟩
    · rintro ⟨c, hc, hf, hm, he⟩
      exact ⟨c, List.mem_filter.2 ⟨hc, by simp [hf, hm]⟩, he⟩
  refine ⟨h1, fun d => ⟨fun hd => ?_, fun hd => ?_⟩, fun e he => ?_⟩
  · obtain ⟨e, he, rfl⟩ := List.mem_map.1 hd
    rcases h2 e he with h | ⟨h, ho⟩
    · exact absurd h List.not_mem_nil
    · obtain ⟨c, hc, hf, hm, hd'⟩ := (hmem e).1 h
      exact ⟨ho, c, hc, hf, hm, List.mem_map_of_mem hd'⟩
  · obtain ⟨ho, c, hc, hf, hm, hd'⟩ := hd
    obtain ⟨e, he, rfl⟩ := List.mem_map.1 hd'
    exact h3 e (Or.inr ⟨(hmem e).2 ⟨c, hc, hf, hm, he⟩, ho⟩)
  · rcases h2 e he with h | ⟨h, _⟩
    · exact absurd h List.not_mem_nil
    · obtain ⟨c, hc, _, _, hd'⟩ := (hmem e).1 h
      exact hpos c hc e hd'

/-- **C80** (support points): if the dofs of the rank are numbered in the order in which its cells show them first, the support points come in the order of the sorted set
of owned dofs. -/
theorem C80_support_order (owned : List ℕ) (hs : owned.Pairwise (· < ·)) (cells : List (VCell P)) (pos : ℕ → P) (hpos : ∀ c ∈ cells, ∀ e ∈ c.dofs, e.2 = pos e.1)
    (hcover : ∀ d ∈ owned, ∃ c ∈ cells, c.feNothing = false ∧ c.mine = true ∧ d ∈ c.dofs.map Prod.fst)
    (horder : ((supportMapping owned cells).map Prod.fst).Pairwise (· < ·)) :
    (supportMapping owned cells).map Prod.fst = owned ∧ (supportMapping owned cells).map Prod.snd = owned.map pos := by
  obtain ⟨_, h2, h3⟩ := C80_support_points owned cells pos hpos
  have e1 : (supportMapping owned cells).map Prod.fst = owned := by
    apply List.Perm.eq_of_pairwise (le := (· < ·)) _ horder hs
    · rw [List.perm_ext_iff_of_nodup (horder.imp fun h => ne_of_lt h) (hs.imp fun h => ne_of_lt h)]
      intro d
      rw [h2 d]
      exact ⟨fun h => h.1, fun h => ⟨h, hcover d h⟩⟩
    · intro a b _ _ h h'
      exact absurd (h.trans h') (lt_irrefl _)
  refine ⟨e1, ?_⟩
  have e2 : (supportMapping owned cells).map Prod.snd = ((supportMapping owned cells).map Prod.fst).map pos := by
    rw [List.map_map]
    exact List.map_congr_left fun e he => h3 e he
  rw [e2, e1]

/-! ## The pattern and the distance map -/

/-- What rank 0 of the local communicator has gathered from one rank, `DataAssimilator.cc:542-550`: the sorted owned dofs, the support points, and the answer of the
search: `hits` = pairs (index, rank), `offsets` in compressed-row form. -/
structure RankData (P : Type) where
  owned : List ℕ
  points : List P
  hits : List (ℕ × ℕ)
  offsets : List ℕ

/-- The members of the assimilator used here: `_covariance_distance_map` (never cleared), `_covariance_sparsity_pattern`, `_sim_size`, `_parameter_size`. -/
structure Assim where
  dist : ℕ × ℕ → Option ℝ
  pattern : List (ℕ × ℕ)
  simSize : ℕ
  paramSize : ℕ

/-- Body of the innermost loop, `:572-585`: the key and the distance written; `none`: an index out of range. -/
def hitEntry (d : P → P → ℝ) (ranks : List (RankData P)) (r : RankData P) (i j : ℕ) : Option ((ℕ × ℕ) × ℝ) := do
  let row ← r.owned[i]?
  let hit ← r.hits[j]?
  let o ← ranks[hit.2]?
  let col ← o.owned[hit.1]?
  let p ← r.points[i]?
  let q ← o.points[hit.1]?
  return ((row, col), d p q)

/-- The loop over `j`, `:570-586`. -/
def rowEntries (d : P → P → ℝ) (ranks : List (RankData P)) (r : RankData P) (i : ℕ) : Option (List ((ℕ × ℕ) × ℝ)) := do
  let a ← r.offsets[i]?
  let b ← r.offsets[i + 1]?
  (List.range' a (b - a)).mapM (hitEntry d ranks r i)

/-- The loop over `i`, `:566-587`. -/
def rankEntries (d : P → P → ℝ) (ranks : List (RankData P)) (r : RankData P) : Option (List (List ((ℕ × ℕ) × ℝ))) :=
  if r.offsets.length ≠ 0 then (List.range (r.offsets.length - 1)).mapM (rowEntries d ranks r) else some []

/-- The loop over the ranks, `:564-588`, as the list of the writes in their order. -/
def allEntries (d : P → P → ℝ) (ranks : List (RankData P)) : Option (List ((ℕ × ℕ) × ℝ)) :=
  (ranks.mapM (rankEntries d ranks)).map fun l => l.flatten.flatten

/-- The assignments `_covariance_distance_map[..] = ..`, `:579-581`. -/
def putAll (l : List ((ℕ × ℕ) × ℝ)) (m : ℕ × ℕ → Option ℝ) : ℕ × ℕ → Option ℝ := l.foldl (fun m w => Function.update m w.1 (some w.2)) m

/-- Pattern entries of the parameters, `:590-605`. -/
def paramPattern (sim par : ℕ) : List (ℕ × ℕ) :=
  ((List.range' sim par).flatMap fun i => (List.range (sim + par)).map fun j => (i, j)) ++
  ((List.range sim).flatMap fun i => (List.range' sim par).map fun j => (i, j))

/-- `update_covariance_sparsity_pattern`, `:512-612`, on global rank 0 (colour 0), from the gathered data. -/
def updatePattern (d : P → P → ℝ) (s : Assim) (ranks : List (RankData P)) (nDofs params : ℕ) : Option Assim := do
  let w ← allEntries d ranks
  return { dist := putAll w s.dist, pattern := w.map Prod.fst ++ paramPattern nDofs params, simSize := nDofs, paramSize := params }

open Classical in
/-- An element of the matrix returned by `calc_sample_covariance_sparse`, `:711-752`: 0 outside the pattern; `none` where `_covariance_distance_map.find(..)` returns `end()`,
which is dereferenced. -/
noncomputable def covElement {m : ℕ} (s : Assim) (c : Cutoff) (cutoff : ℝ) (x : Fin m → ℕ → ℝ) (i j : ℕ) : Option ℝ :=
  if (i, j) ∈ s.pattern then
    if i < s.simSize ∧ j < s.simSize then (s.dist (i, j)).map fun t => sampleCov x i j * localization c cutoff t else some (sampleCov x i j)
  else some 0

/-! ## Specification -/

/-- The dofs `0 … n-1` are distributed over the ranks, each rank lists its dofs, and its `i`-th point is the position of its `i`-th dof. -/
structure Distributed (pos : ℕ → P) (n : ℕ) (ranks : List (RankData P)) : Prop where
  points : ∀ r ∈ ranks, r.points = r.owned.map pos
  once : (ranks.flatMap RankData.owned).Nodup
  cover : ∀ k : ℕ, k ∈ ranks.flatMap RankData.owned ↔ k < n

/-- The contract of the sphere search: the offsets are those of a compressed list with one row per point (a rank without points may return no offsets at all), and the
row of a point lists exactly the points, of all ranks, within the cutoff distance. -/
structure Searched (d : P → P → ℝ) (cutoff : ℝ) (ranks : List (RankData P)) : Prop where
  size : ∀ r ∈ ranks, r.offsets.length = r.points.length + 1 ∨ (r.offsets = [] ∧ r.points = [])
  bound : ∀ r ∈ ranks, ∀ o ∈ r.offsets, o ≤ r.hits.length
  rows : ∀ r ∈ ranks, ∀ (i a b : ℕ) (p : P), r.points[i]? = some p → r.offsets[i]? = some a → r.offsets[i + 1]? = some b →
    ∀ hit : ℕ × ℕ, (∃ j : ℕ, a ≤ j ∧ j < b ∧ r.hits[j]? = some hit) ↔
      ∃ (o : RankData P) (q : P), ranks[hit.2]? = some o ∧ o.points[hit.1]? = some q ∧ d p q ≤ cutoff

/-! ## Proof -/

theorem mapM_members {α β : Type} (f : α → Option β) (l : List α) (h : ∀ a ∈ l, ∃ b, f a = some b) :
    ∃ bs, l.mapM f = some bs ∧ ∀ b, b ∈ bs ↔ ∃ a ∈ l, f a = some b := by
  induction l with
  | nil => exact ⟨[], rfl, fun b => ⟨fun h => absurd h List.not_mem_nil, fun ⟨_, h, _⟩ => absurd h List.not_mem_nil⟩⟩
  | cons a l ih =>
    obtain ⟨b, hb⟩ := h a List.mem_cons_self
    obtain ⟨bs, hbs, hm⟩ := ih fun x hx => h x (List.mem_cons_of_mem _ hx)
    refine ⟨b :: bs, by rw [List.mapM_cons, hb, hbs]; rfl, fun y => ?_⟩
    rw [List.mem_cons, hm y]
    constructor
    · rintro (rfl | ⟨a', ha', he⟩)
      · exact ⟨a, List.mem_cons_self, hb⟩
      · exact ⟨a', List.mem_cons_of_mem _ ha', he⟩
    · rintro ⟨a', ha', he⟩
      rcases List.mem_cons.1 ha' with rfl | ha'
      · rw [hb] at he
        exact Or.inl (Option.some.inj he).symm
      · exact Or.inr ⟨a', ha', he⟩

theorem putAll_mem (l : List ((ℕ × ℕ) × ℝ)) (m : ℕ × ℕ → Option ℝ) (k : ℕ × ℕ) (v : ℝ) (hmem : (k, v) ∈ l) (h : ∀ w ∈ l, w.1 = k → w.2 = v) :
    putAll l m k = some v := by
  induction l using List.reverseRecOn with
  | nil => exact absurd hmem List.not_mem_nil
  | append_singleton l w ih =>
    unfold putAll at ih ⊢
    rw [List.foldl_append, List.foldl_cons, List.foldl_nil]
    by_cases hw : w.1 = k
    · rw [← hw, Function.update_self, h w (List.mem_append_right _ (List.mem_singleton_self _)) hw]
    · rw [Function.update_of_ne (Ne.symm hw)]
      apply ih
      · rcases List.mem_append.1 hmem with h' | h'
        · exact h'
        · rw [List.mem_singleton] at h'
          exact absurd (by rw [← h']) hw
      · exact fun w hw => h w (List.mem_append_left _ hw)

/-- The writes: exactly the pairs of dofs within the cutoff distance, with their distance. -/
theorem entries_spec (d : P → P → ℝ) (cutoff : ℝ) (pos : ℕ → P) (n : ℕ) (ranks : List (RankData P)) (hD : Distributed pos n ranks) (hS : Searched d cutoff ranks) :
    ∃ w, allEntries d ranks = some w ∧
      ∀ e : (ℕ × ℕ) × ℝ, e ∈ w ↔ e.1.1 < n ∧ e.1.2 < n ∧ d (pos e.1.1) (pos e.1.2) ≤ cutoff ∧ e.2 = d (pos e.1.1) (pos e.1.2) := by
  have hpt : ∀ r ∈ ranks, ∀ i k : ℕ, r.owned[i]? = some k → r.points[i]? = some (pos k) := by
    intro r hr i k hk
    rw [hD.points r hr, List.getElem?_map, hk]; rfl
  have hdof : ∀ r ∈ ranks, ∀ (i : ℕ) (p : P), r.points[i]? = some p → ∃ k : ℕ, r.owned[i]? = some k ∧ p = pos k := by
    intro r hr i p hp
    rw [hD.points r hr, List.getElem?_map] at hp
    cases hk : r.owned[i]? with
    | none => rw [hk] at hp; exact absurd hp (by simp)
    | some k => rw [hk] at hp; exact ⟨k, rfl, (Option.some.inj hp).symm⟩
  have hlt : ∀ r ∈ ranks, ∀ (i k : ℕ), r.owned[i]? = some k → k < n := fun r hr i k hk =>
    (hD.cover k).1 (List.mem_flatMap.2 ⟨r, hr, List.mem_of_getElem? hk⟩)
  -- one hit
  have hhit : ∀ r ∈ ranks, ∀ (i a b j : ℕ), i < r.points.length → r.offsets[i]? = some a → r.offsets[i + 1]? = some b → a ≤ j → j < b →
      ∃ e, hitEntry d ranks r i j = some e := by
    intro r hr i a b j hi ha hb haj hjb
    obtain ⟨k, hk, hp⟩ := hdof r hr i _ (List.getElem?_eq_getElem hi)
    have hb' := hS.bound r hr b (List.mem_of_getElem? hb)
    have hj : r.hits[j]? = some (r.hits[j]'(by omega)) := List.getElem?_eq_getElem _
    obtain ⟨o, q, ho, hq, _⟩ := (hS.rows r hr i a b _ (List.getElem?_eq_getElem hi) ha hb _).1 ⟨j, haj, hjb, hj⟩
    obtain ⟨k', hk', hq'⟩ := hdof o (List.mem_of_getElem? ho) _ _ hq
    refine ⟨((k, k'), d r.points[i] q), ?_⟩
    unfold hitEntry
    rw [hk, hj]
    simp only [Option.bind_eq_bind, Option.bind_some, ho, hk', hq, List.getElem?_eq_getElem hi]
    rfl
  -- one row
  have hlen : ∀ r ∈ ranks, ∀ i : ℕ, i < r.offsets.length - 1 → i < r.points.length := by
    intro r hr i hi
    rcases hS.size r hr with h | ⟨h, h'⟩
    · omega
    · rw [h] at hi; simp at hi
  have hrow : ∀ r ∈ ranks, ∀ i : ℕ, i < r.offsets.length - 1 → ∃ l, rowEntries d ranks r i = some l ∧
      ∀ e, e ∈ l ↔ ∃ (a b j : ℕ), r.offsets[i]? = some a ∧ r.offsets[i + 1]? = some b ∧ a ≤ j ∧ j < b ∧ hitEntry d ranks r i j = some e := by
    intro r hr i hi
    have ha : r.offsets[i]? = some (r.offsets[i]'(by omega)) := List.getElem?_eq_getElem _
    have hb : r.offsets[i + 1]? = some (r.offsets[i + 1]'(by omega)) := List.getElem?_eq_getElem _
    obtain ⟨l, hl, hm⟩ := mapM_members (hitEntry d ranks r i) (List.range' (r.offsets[i]'(by omega)) (r.offsets[i + 1]'(by omega) - r.offsets[i]'(by omega)))
      (fun j hj => by
        rw [List.mem_range'_1] at hj
        exact hhit r hr i _ _ j (hlen r hr i hi) ha hb hj.1 (by omega))
    refine ⟨l, ?_, fun e => ?_⟩
    · unfold rowEntries
      rw [ha, hb]
      exact hl
    · rw [hm e]
      constructor
      · rintro ⟨j, hj, he⟩
        rw [List.mem_range'_1] at hj
        exact ⟨_, _, j, ha, hb, hj.1, by omega, he⟩
      · rintro ⟨a, b, j, ha', hb', h1, h2, he⟩
        rw [ha] at ha'; rw [hb] at hb'
        cases ha'; cases hb'
        exact ⟨j, List.mem_range'_1.2 ⟨h1, by omega⟩, he⟩
  -- one rank
  have hrank : ∀ r ∈ ranks, ∃ L, rankEntries d ranks r = some L ∧
      ∀ e, e ∈ L.flatten ↔ ∃ (i a b j : ℕ), r.offsets[i]? = some a ∧ r.offsets[i + 1]? = some b ∧ a ≤ j ∧ j < b ∧ hitEntry d ranks r i j = some e := by
    intro r hr
    unfold rankEntries
    by_cases h0 : r.offsets.length ≠ 0
    · rw [if_pos h0]
      obtain ⟨L, hL, hm⟩ := mapM_members (rowEntries d ranks r) (List.range (r.offsets.length - 1)) (fun i hi => by
        obtain ⟨l, hl, _⟩ := hrow r hr i (List.mem_range.1 hi)
        exact ⟨l, hl⟩)
      refine ⟨L, hL, fun e => ?_⟩
      rw [List.mem_flatten]
      constructor
      · rintro ⟨l, hl, he⟩
        obtain ⟨i, hi, hli⟩ := (hm l).1 hl
        obtain ⟨l', hl', hm'⟩ := hrow r hr i (List.mem_range.1 hi)
        rw [hli] at hl'
        cases hl'
        obtain ⟨a, b, j, h⟩ := (hm' e).1 he
        exact ⟨i, a, b, j, h⟩
      · rintro ⟨i, a, b, j, h⟩
        have hi : i < r.offsets.length - 1 := by
          have := (List.getElem?_eq_some_iff.1 h.2.1).1
          omega
        obtain ⟨l', hl', hm'⟩ := hrow r hr i hi
        exact ⟨l', (hm l').2 ⟨i, List.mem_range.2 hi, hl'⟩, (hm' e).2 ⟨a, b, j, h⟩⟩
    · rw [if_neg h0]
      refine ⟨[], rfl, fun e => ⟨fun h => absurd h (by simp), ?_⟩⟩
      rintro ⟨i, a, b, j, h1, _⟩
      have := (List.getElem?_eq_some_iff.1 h1).1
      omega
  obtain ⟨LL, hLL, hm⟩ := mapM_members (rankEntries d ranks) ranks (fun r hr => by
    obtain ⟨L, hL, _⟩ := hrank r hr
    exact ⟨L, hL⟩)
  refine ⟨LL.flatten.flatten, by unfold allEntries; rw [hLL]; rfl, ?_⟩
  rintro ⟨⟨k, k'⟩, v⟩
  have hflat : ((k, k'), v) ∈ LL.flatten.flatten ↔ ∃ L ∈ LL, ((k, k'), v) ∈ L.flatten := by
    simp only [List.mem_flatten]
    constructor
    · rintro ⟨l, ⟨L, hL, hl⟩, he⟩
      exact ⟨L, hL, l, hl, he⟩
    · rintro ⟨L, hL, l, hl, he⟩
      exact ⟨l, ⟨L, hL, hl⟩, he⟩
  rw [hflat]
  constructor
  · rintro ⟨L, hL, he⟩
    obtain ⟨r, hr, hrL⟩ := (hm L).1 hL
    obtain ⟨L', hL', hm'⟩ := hrank r hr
    rw [hrL] at hL'
    cases hL'
    obtain ⟨i, a, b, j, ha, hb, h1, h2, hj⟩ := (hm' _).1 he
    unfold hitEntry at hj
    simp only [Option.bind_eq_bind, Option.pure_def, Option.bind_eq_some_iff, Option.some.injEq, Prod.mk.injEq] at hj
    obtain ⟨row, hrow', hit, hhit', o, ho, col, hcol, p, hp, q, hq, ⟨rfl, rfl⟩, rfl⟩ := hj
    obtain ⟨o', q', ho', hq', hd⟩ := (hS.rows r hr i a b p hp ha hb hit).1 ⟨j, h1, h2, hhit'⟩
    rw [ho] at ho'; cases ho'
    rw [hq] at hq'; cases hq'
    have e1 := hpt r hr i row hrow'
    rw [hp] at e1; cases e1
    have e2 := hpt o (List.mem_of_getElem? ho) _ _ hcol
    rw [hq] at e2; cases e2
    exact ⟨hlt r hr i _ hrow', hlt o (List.mem_of_getElem? ho) _ _ hcol, hd, rfl⟩
  · rintro ⟨hk, hk', hd, hv⟩
    dsimp only at hk hk' hd hv
    obtain ⟨r, hr, hkr⟩ := List.mem_flatMap.1 ((hD.cover k).2 hk)
    obtain ⟨o, ho, hko⟩ := List.mem_flatMap.1 ((hD.cover k').2 hk')
    obtain ⟨i, hi⟩ := List.mem_iff_getElem?.1 hkr
    obtain ⟨i', hi'⟩ := List.mem_iff_getElem?.1 hko
    obtain ⟨R', hR'⟩ := List.mem_iff_getElem?.1 ho
    obtain ⟨L, hL, hmL⟩ := hrank r hr
    refine ⟨L, (hm L).2 ⟨r, hr, hL⟩, (hmL _).2 ?_⟩
    have hp := hpt r hr i k hi
    have hq := hpt o ho i' k' hi'
    have hil : i < r.points.length := (List.getElem?_eq_some_iff.1 hp).1
    have hsize : r.offsets.length = r.points.length + 1 := by
      rcases hS.size r hr with h | ⟨_, h⟩
      · exact h
      · rw [h] at hil; simp at hil
    have ha : r.offsets[i]? = some (r.offsets[i]'(by omega)) := List.getElem?_eq_getElem _
    have hb : r.offsets[i + 1]? = some (r.offsets[i + 1]'(by omega)) := List.getElem?_eq_getElem _
    obtain ⟨j, h1, h2, h3⟩ := (hS.rows r hr i _ _ _ hp ha hb (i', R')).2 ⟨o, _, hR', hq, hd⟩
    refine ⟨i, _, _, j, ha, hb, h1, h2, ?_⟩
    unfold hitEntry
    simp only [Option.bind_eq_bind, hi, h3, Option.bind_some, hR', hi', hp, hq, Option.pure_def, hv]

theorem mem_paramPattern (sim par i j : ℕ) : (i, j) ∈ paramPattern sim par ↔ i < sim + par ∧ j < sim + par ∧ (sim ≤ i ∨ sim ≤ j) := by
  unfold paramPattern
  simp only [List.mem_append, List.mem_flatMap, List.mem_map, List.mem_range'_1, List.mem_range, Prod.mk.injEq]
  constructor
  · rintro (⟨a, ha, b, hb, rfl, rfl⟩ | ⟨a, ha, b, hb, rfl, rfl⟩)
    · omega
    · omega
  · rintro ⟨h1, h2, h3⟩
    by_cases h : sim ≤ i
    · exact Or.inl ⟨i, ⟨h, h1⟩, j, h2, rfl, rfl⟩
    · exact Or.inr ⟨i, by omega, j, ⟨by omega, h2⟩, rfl, rfl⟩

/-- The row of the augmented state in which an entry of the state (`inl`: dof, `inr`: parameter) is stored. -/
def rowOf {n q : ℕ} : Fin n ⊕ Fin q → ℕ
  | Sum.inl i => i.val
  | Sum.inr p => n + p.val

/-- **C80** (assembled matrix): whatever the earlier assimilations left in the assimilator, after the pattern is updated for the current mesh - distributed over any number
of ranks, points in the order of the owned dofs - every element of the matrix used by the filter is defined and is the localised sample covariance with the distances of
the current mesh: 0 beyond the cutoff distance, the tapered covariance within it, the plain covariance with a parameter. -/
theorem C80_assembled_partial {m : ℕ} (d : P → P → ℝ) (c : Cutoff) (cutoff : ℝ) (pos : ℕ → P) (n q : ℕ) (ranks : List (RankData P)) (hD : Distributed pos n ranks)
    (hS : Searched d cutoff ranks) (s : Assim) :
    ∃ s', updatePattern d s ranks n q = some s' ∧ ∀ (x : Fin m → ℕ → ℝ) (a b : Fin n ⊕ Fin q),
      covElement s' c cutoff x (rowOf a) (rowOf b) =
        some (localCov c cutoff (fun i j : Fin n => d (pos i) (pos j)) (fun k e => x k (rowOf e)) a b) := by
  obtain ⟨w, hw, hm⟩ := entries_spec d cutoff pos n ranks hD hS
  refine ⟨_, by unfold updatePattern; rw [hw]; rfl, fun x a b => ?_⟩
  have hpat : ∀ i j : ℕ, (i, j) ∈ w.map Prod.fst ++ paramPattern n q ↔
      (i < n ∧ j < n ∧ d (pos i) (pos j) ≤ cutoff) ∨ (i < n + q ∧ j < n + q ∧ (n ≤ i ∨ n ≤ j)) := by
    intro i j
    rw [List.mem_append, mem_paramPattern]
    apply or_congr_left
    constructor
    · intro h
      obtain ⟨e, he, hij⟩ := List.mem_map.1 h
      have := (hm e).1 he
      rw [hij] at this
      exact ⟨this.1, this.2.1, this.2.2.1⟩
    · rintro ⟨h1, h2, h3⟩
      exact List.mem_map.2 ⟨((i, j), d (pos i) (pos j)), (hm _).2 ⟨h1, h2, h3, rfl⟩, rfl⟩
  unfold covElement
  dsimp only
  rcases a with i | p <;> rcases b with j | p'
  · have hi := i.isLt
    have hj := j.isLt
    by_cases hd : d (pos i) (pos j) ≤ cutoff
    · rw [if_pos ((hpat (rowOf (Sum.inl i : Fin n ⊕ Fin q)) (rowOf (Sum.inl j : Fin n ⊕ Fin q))).2 (Or.inl ⟨hi, hj, hd⟩))]
      rw [if_pos (show rowOf (Sum.inl i : Fin n ⊕ Fin q) < n ∧ rowOf (Sum.inl j : Fin n ⊕ Fin q) < n from ⟨hi, hj⟩)]
      have e : putAll w s.dist (rowOf (Sum.inl i : Fin n ⊕ Fin q), rowOf (Sum.inl j : Fin n ⊕ Fin q)) = some (d (pos i) (pos j)) := by
        apply putAll_mem
        · exact (hm _).2 ⟨hi, hj, hd, rfl⟩
        · intro e he hk
          have := ((hm e).1 he).2.2.2
          rw [hk] at this
          exact this
      rw [e]
      simp only [Option.map_some, localCov, if_pos hd]
      rfl
    · rw [if_neg (fun h => by
        rcases (hpat _ _).1 h with h | h
        · exact hd h.2.2
        · exact absurd h.2.2 (by
            have e1 : rowOf (Sum.inl i : Fin n ⊕ Fin q) < n := hi
            have e2 : rowOf (Sum.inl j : Fin n ⊕ Fin q) < n := hj
            omega))]
      simp only [localCov, if_neg hd]
  · have hi := i.isLt
    have hp := p'.isLt
    have e1 : rowOf (Sum.inl i : Fin n ⊕ Fin q) = i := rfl
    have e2 : rowOf (Sum.inr p' : Fin n ⊕ Fin q) = n + p' := rfl
    rw [if_pos ((hpat _ _).2 (Or.inr ⟨by omega, by omega, by omega⟩)), if_neg (by omega)]
    rfl
  · have hj := j.isLt
    have hp := p.isLt
    have e1 : rowOf (Sum.inl j : Fin n ⊕ Fin q) = j := rfl
    have e2 : rowOf (Sum.inr p : Fin n ⊕ Fin q) = n + p := rfl
    rw [if_pos ((hpat _ _).2 (Or.inr ⟨by omega, by omega, by omega⟩)), if_neg (by omega)]
    rfl
  · have hp := p.isLt
    have hp' := p'.isLt
    have e1 : rowOf (Sum.inr p : Fin n ⊕ Fin q) = n + p := rfl
    have e2 : rowOf (Sum.inr p' : Fin n ⊕ Fin q) = n + p' := rfl
    rw [if_pos ((hpat _ _).2 (Or.inr ⟨by omega, by omega, by omega⟩)), if_neg (by omega)]
    rfl

/-! ## Examples -/

/-- Distance of two integer points of a line. -/
noncomputable def lineDist (a b : ℕ) : ℝ := ((a - b + (b - a) : ℕ) : ℝ)

theorem lineDist_le_one (a b : ℕ) : lineDist a b ≤ 1 ↔ a - b + (b - a) ≤ 1 := by
  unfold lineDist
  exact_mod_cast Iff.rfl

/-- Three dofs at 0, 1, 2 on three ranks, the last one without dofs; cutoff distance 1. -/
def threeRanks : List (RankData ℕ) :=
  [⟨[0, 1], [0, 1], [(0, 0), (1, 0), (0, 0), (1, 0), (0, 1)], [0, 2, 5]⟩, ⟨[2], [2], [(1, 0), (0, 1)], [0, 2]⟩, ⟨[], [], [], []⟩]

theorem threeRanks_distributed : Distributed id 3 threeRanks := by
  refine ⟨by decide, by decide, fun k => ?_⟩
  simp only [threeRanks, List.flatMap_cons, List.flatMap_nil, List.append_nil, List.nil_append, List.mem_append, List.mem_cons, List.not_mem_nil, or_false]
  omega

/-- A row of the search answer, checked against the list of all points. -/
theorem rows_of_lists (d : P → P → ℝ) (cutoff : ℝ) (ranks : List (RankData P)) (r : RankData P) (a b : ℕ) (p : P) (near : List (ℕ × ℕ))
    (h1 : (r.hits.drop a).take (b - a) = near)
    (h2 : ∀ hit : ℕ × ℕ, hit ∈ near ↔ ∃ (o : RankData P) (q : P), ranks[hit.2]? = some o ∧ o.points[hit.1]? = some q ∧ d p q ≤ cutoff) (hit : ℕ × ℕ) :
    (∃ j : ℕ, a ≤ j ∧ j < b ∧ r.hits[j]? = some hit) ↔ ∃ (o : RankData P) (q : P), ranks[hit.2]? = some o ∧ o.points[hit.1]? = some q ∧ d p q ≤ cutoff := by
  rw [← h2 hit, ← h1, List.mem_iff_getElem?]
  constructor
  · rintro ⟨j, ha, hb, hj⟩
    refine ⟨j - a, ?_⟩
    rw [List.getElem?_take, if_pos (by omega), List.getElem?_drop, show a + (j - a) = j by omega]
    exact hj
  · rintro ⟨k, hk⟩
    rw [List.getElem?_take] at hk
    by_cases h : k < b - a
    · rw [if_pos h, List.getElem?_drop] at hk
      exact ⟨a + k, by omega, by omega, hk⟩
    · rw [if_neg h] at hk
      exact absurd hk (by simp)

theorem threeRanks_searched : Searched lineDist 1 threeRanks := by
  refine ⟨by decide, by decide, fun r hr i a b p hp ha hb => ?_⟩
  have key : ∀ (near : List (ℕ × ℕ)) (p : ℕ),
      (∀ h : ℕ × ℕ, h ∈ near ↔ h = (0, 0) ∧ p - 0 + (0 - p) ≤ 1 ∨ h = (1, 0) ∧ p - 1 + (1 - p) ≤ 1 ∨ h = (0, 1) ∧ p - 2 + (2 - p) ≤ 1) →
      ∀ hit : ℕ × ℕ, hit ∈ near ↔ ∃ (o : RankData ℕ) (q : ℕ), threeRanks[hit.2]? = some o ∧ o.points[hit.1]? = some q ∧ lineDist p q ≤ 1 := by
    rintro near p hn ⟨i, R⟩
    rw [hn]
    simp only [lineDist_le_one]
    constructor
    · rintro (⟨h, h'⟩ | ⟨h, h'⟩ | ⟨h, h'⟩) <;> cases h
      · exact ⟨_, 0, rfl, rfl, h'⟩
      · exact ⟨_, 1, rfl, rfl, h'⟩
      · exact ⟨_, 2, rfl, rfl, h'⟩
    · rintro ⟨o, q, ho, hq, hd⟩
      match R, ho with
      | 0, ho =>
        cases ho
        match i, hq with
        | 0, hq => cases hq; exact Or.inl ⟨rfl, hd⟩
        | 1, hq => cases hq; exact Or.inr (Or.inl ⟨rfl, hd⟩)
      | 1, ho =>
        cases ho
        match i, hq with
        | 0, hq => cases hq; exact Or.inr (Or.inr ⟨rfl, hd⟩)
      | 2, ho =>
        cases ho
        exact absurd hq (by simp)
  simp only [threeRanks, List.mem_cons, List.not_mem_nil, or_false] at hr
  rcases hr with rfl | rfl | rfl
  · match i, hp, ha, hb with
    | 0, hp, ha, hb =>
      cases hp; cases ha; cases hb
      exact rows_of_lists _ _ _ _ _ _ _ [(0, 0), (1, 0)] rfl (key _ _ (by intro h; simp))
    | 1, hp, ha, hb =>
      cases hp; cases ha; cases hb
      exact rows_of_lists _ _ _ _ _ _ _ [(0, 0), (1, 0), (0, 1)] rfl (key _ _ (by intro h; simp))
  · match i, hp, ha, hb with
    | 0, hp, ha, hb =>
      cases hp; cases ha; cases hb
      exact rows_of_lists _ _ _ _ _ _ _ [(1, 0), (0, 1)] rfl (key _ _ (by intro h; simp))
  · exact absurd hp (by simp)

/-- One parameter, three dofs, three ranks, whatever the distance map held before: with the step function the element of the dofs 0 and 2 (distance 2, on different ranks) is
0, that of the dofs 1 and 2 is their sample covariance. -/
example (s : Assim) : ∃ s', updatePattern lineDist s threeRanks 3 1 = some s' ∧ ∀ x : Fin 2 → ℕ → ℝ,
    covElement s' Cutoff.stepFunction 1 x 0 2 = some 0 ∧ covElement s' Cutoff.stepFunction 1 x 1 2 = some (sampleCov x 1 2) ∧
    covElement s' Cutoff.stepFunction 1 x 3 0 = some (sampleCov x 3 0) := by
  obtain ⟨s', h1, h2⟩ := C80_assembled_partial (m := 2) lineDist Cutoff.stepFunction 1 id 3 1 threeRanks threeRanks_distributed threeRanks_searched s
  refine ⟨s', h1, fun x => ⟨?_, ?_, ?_⟩⟩
  · have h := h2 x (Sum.inl 0) (Sum.inl 2)
    rw [show rowOf (Sum.inl 0 : Fin 3 ⊕ Fin 1) = 0 from rfl, show rowOf (Sum.inl 2 : Fin 3 ⊕ Fin 1) = 2 from rfl] at h
    rw [h]
    simp [localCov, lineDist_le_one]
  · have h := h2 x (Sum.inl 1) (Sum.inl 2)
    rw [show rowOf (Sum.inl 1 : Fin 3 ⊕ Fin 1) = 1 from rfl, show rowOf (Sum.inl 2 : Fin 3 ⊕ Fin 1) = 2 from rfl] at h
    rw [h]
    have e : lineDist 1 2 = 1 := by unfold lineDist; norm_num
    simp [localCov, e, localization]
    rfl
  · have h := h2 x (Sum.inr 0) (Sum.inl 0)
    rw [show rowOf (Sum.inr 0 : Fin 3 ⊕ Fin 1) = 3 from rfl, show rowOf (Sum.inl 0 : Fin 3 ⊕ Fin 1) = 0 from rfl] at h
    rw [h]
    rfl

/-- Dofs 0, 1, 2 at 0, 1, 4 on one rank, whose cell shows dof 2 first. -/
def showsTwoFirst : List (VCell ℕ) := [⟨true, true, [(1, 7)]⟩, ⟨false, false, [(0, 9)]⟩, ⟨false, true, [(2, 4), (0, 0), (2, 4), (1, 1)]⟩]

example : supportMapping [0, 1, 2] showsTwoFirst = [(2, 4), (0, 0), (1, 1)] := by decide

/-- Support order met: the same cell showing its dofs in increasing order. -/
example : (supportMapping [0, 1, 2] [⟨false, true, [(0, 0), (1, 1)]⟩, ⟨false, true, [(1, 1), (2, 4)]⟩]).map Prod.snd = [0, 1, 2].map fun n : ℕ => n ^ 2 :=
  (C80_support_order [0, 1, 2] (by decide) _ (fun n => n ^ 2) (by decide) (by decide) (by decide)).2

/-- **C80 refuted** without the assumption on the numbering: dofs 0, 1, 2 at 0, 1, 4, shown by the cells in the order 2, 0, 1; the search answers correctly for the points in the
order shown; with the step function and cutoff 1 the filter takes the dofs 0 and 1, at distance 1, for uncorrelated, and the dofs 1 and 2, at distance 3, for neighbours. -/
theorem C80_assembled_order_refuted (s : Assim) :
    let points := (supportMapping [0, 1, 2] showsTwoFirst).map Prod.snd
    let ranks : List (RankData ℕ) := [⟨[0, 1, 2], points, [(0, 0), (1, 0), (2, 0), (1, 0), (2, 0)], [0, 1, 3, 5]⟩]
    Searched lineDist 1 ranks ∧
    ∃ s', updatePattern lineDist s ranks 3 0 = some s' ∧ ∀ x : Fin 2 → ℕ → ℝ,
      covElement s' Cutoff.stepFunction 1 x 0 1 = some 0 ∧ covElement s' Cutoff.stepFunction 1 x 1 2 = some (sampleCov x 1 2) := by
  intro points ranks
  have hp : points = [4, 0, 1] := by decide
  have hD : Distributed (fun k => if k = 0 then 4 else k - 1) 3 ranks := by
    refine ⟨?_, by decide, fun k => ?_⟩
    · intro r hr
      rw [List.mem_singleton] at hr
      subst hr
      exact hp
    · simp only [ranks, List.flatMap_cons, List.flatMap_nil, List.append_nil, List.mem_cons, List.not_mem_nil, or_false]
      omega
  have hS : Searched lineDist 1 ranks := by
    simp only [ranks, hp]
    refine ⟨by decide, by decide, fun r hr i a b p hp ha hb => ?_⟩
    rw [List.mem_singleton] at hr
    subst hr
    have key : ∀ (near : List (ℕ × ℕ)) (p : ℕ),
        (∀ h : ℕ × ℕ, h ∈ near ↔ h = (0, 0) ∧ p - 4 + (4 - p) ≤ 1 ∨ h = (1, 0) ∧ p - 0 + (0 - p) ≤ 1 ∨ h = (2, 0) ∧ p - 1 + (1 - p) ≤ 1) →
        ∀ hit : ℕ × ℕ, hit ∈ near ↔ ∃ (o : RankData ℕ) (q : ℕ),
          ([⟨[0, 1, 2], [4, 0, 1], [(0, 0), (1, 0), (2, 0), (1, 0), (2, 0)], [0, 1, 3, 5]⟩] : List (RankData ℕ))[hit.2]? = some o ∧
          o.points[hit.1]? = some q ∧ lineDist p q ≤ 1 := by
      rintro near p hn ⟨i, R⟩
      rw [hn]
      simp only [lineDist_le_one]
      constructor
      · rintro (⟨h, h'⟩ | ⟨h, h'⟩ | ⟨h, h'⟩) <;> cases h
        · exact ⟨_, 4, rfl, rfl, h'⟩
        · exact ⟨_, 0, rfl, rfl, h'⟩
        · exact ⟨_, 1, rfl, rfl, h'⟩
      · rintro ⟨o, q, ho, hq, hd⟩
        match R, ho with
        | 0, ho =>
          cases ho
          match i, hq with
          | 0, hq => cases hq; exact Or.inl ⟨rfl, hd⟩
          | 1, hq => cases hq; exact Or.inr (Or.inl ⟨rfl, hd⟩)
          | 2, hq => cases hq; exact Or.inr (Or.inr ⟨rfl, hd⟩)
    match i, hp, ha, hb with
    | 0, hp, ha, hb =>
      cases hp; cases ha; cases hb
      exact rows_of_lists _ _ _ _ _ _ _ [(0, 0)] rfl (key _ _ (by intro h; simp))
    | 1, hp, ha, hb =>
      cases hp; cases ha; cases hb
      exact rows_of_lists _ _ _ _ _ _ _ [(1, 0), (2, 0)] rfl (key _ _ (by intro h; simp))
    | 2, hp, ha, hb =>
      cases hp; cases ha; cases hb
      exact rows_of_lists _ _ _ _ _ _ _ [(1, 0), (2, 0)] rfl (key _ _ (by intro h; simp))
  refine ⟨hS, ?_⟩
  obtain ⟨s', h1, h2⟩ := C80_assembled_partial (m := 2) lineDist Cutoff.stepFunction 1 _ 3 0 ranks hD hS s
  refine ⟨s', h1, fun x => ⟨?_, ?_⟩⟩
  · have h := h2 x (Sum.inl 0) (Sum.inl 1)
    rw [show rowOf (Sum.inl 0 : Fin 3 ⊕ Fin 0) = 0 from rfl, show rowOf (Sum.inl 1 : Fin 3 ⊕ Fin 0) = 1 from rfl] at h
    rw [h]
    simp [localCov, lineDist_le_one]
  · have h := h2 x (Sum.inl 1) (Sum.inl 2)
    rw [show rowOf (Sum.inl 1 : Fin 3 ⊕ Fin 0) = 1 from rfl, show rowOf (Sum.inl 2 : Fin 3 ⊕ Fin 0) = 2 from rfl] at h
    rw [h]
    have e : lineDist 0 1 = 1 := by unfold lineDist; norm_num
    simp [localCov, e, localization]
    rfl

end Verif.DataAssim
