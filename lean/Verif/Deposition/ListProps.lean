import Verif.Deposition.Model

/-!
# C11, C15, C16: deposition files, merging, cells to activate
-/

namespace Verif.Deposition

/-! ## Specification -/

/-- The rows (box, time, cosine, sine) of four parallel lists. -/
def rows {β : Type} (l : Lists β) : List (β × Option ℝ × ℝ × ℝ) :=
  l.boxes.zip (l.times.zip (l.cosines.zip l.sines))

/-- The four lists have the same length. -/
def Parallel {β : Type} (l : Lists β) : Prop :=
  l.times.length = l.boxes.length ∧ l.cosines.length = l.boxes.length ∧ l.sines.length = l.boxes.length

/-- A box is centred at `c` with edge lengths `s`. -/
def Box.CentredAt {n : ℕ} (b : Box n) (c s : Fin n → ℝ) : Prop :=
  ∀ d, (b.lo d + b.hi d) / 2 = c d ∧ b.hi d - b.lo d = s d

/-! ## C11 -/

/-- The lists made of a list of records. -/
noncomputable def listsOf {n : ℕ} (recs : List (Record n)) : Lists (Box n) where
  boxes := recs.map fun r => ⟨fun d => r.center d - 0.5 * r.size d, fun d => r.center d + 0.5 * r.size d⟩
  times := recs.map fun r => some r.time
  cosines := recs.map fun r => Real.cos r.angle
  sines := recs.map fun r => Real.sin r.angle

theorem readLoop_eq {n : ℕ} (done recs : List (Record n)) :
    (List.IsChain (fun a b : Record n => a.time ≤ b.time) (done.getLast?.toList ++ recs) →
      readLoop (listsOf done) recs = some (listsOf (done ++ recs))) ∧
    (¬ List.IsChain (fun a b : Record n => a.time ≤ b.time) (done.getLast?.toList ++ recs) →
      readLoop (listsOf done) recs = none) := by
  induction recs generalizing done with
  | nil =>
    constructor
    · intro _; simp [readLoop]
    · intro h; exfalso; apply h
      cases done.getLast? <;> simp
  | cons r rest ih =>
    have key := ih (done ++ [r])
    have hl : ∀ (l : Lists (Box n)), l = listsOf (done ++ [r]) → readLoop l rest = readLoop (listsOf (done ++ [r])) rest := by
      intro l h; rw [h]
    have hpush : (⟨(listsOf done).boxes ++ [⟨fun d => r.center d - 0.5 * r.size d, fun d => r.center d + 0.5 * r.size d⟩],
        (listsOf done).times ++ [some r.time], (listsOf done).cosines ++ [Real.cos r.angle],
        (listsOf done).sines ++ [Real.sin r.angle]⟩ : Lists (Box n)) = listsOf (done ++ [r]) := by
      simp [listsOf]
    have htimes : (listsOf done).times.getLast? = done.getLast?.map fun r => some r.time := by
      simp [listsOf, List.getLast?_map]
    simp only [List.getLast?_append, List.getLast?_singleton, Option.some_or, Option.toList_some,
      List.singleton_append, List.append_assoc] at key
    unfold readLoop
    rw [hpush, htimes]
    cases hd : done.getLast? with
    | none =>
      simpa using key
    | some a =>
      by_cases hle : a.time ≤ r.time
      · simp only [Option.map_some, hle, if_true, Option.toList_some, List.singleton_append, List.isChain_cons_cons,
          true_and]
        exact key
      · simp [hle, List.isChain_cons_cons]

/-- C11: a deposition file is accepted exactly if its dimension is the simulation's and its times do not decrease. -/
theorem C11_accepted_iff (n : ℕ) (fileDim : ℤ) (recs : List (Record n)) :
    (readDeposition n fileDim recs).isSome ↔
      fileDim = n ∧ recs.Pairwise (fun a b => a.time ≤ b.time) := by
  have h := readLoop_eq (n := n) [] recs
  have he : (listsOf ([] : List (Record n))) = Lists.empty := rfl
  have hp : List.IsChain (fun a b : Record n => a.time ≤ b.time) recs ↔ recs.Pairwise (fun a b => a.time ≤ b.time) :=
    haveI : IsTrans (Record n) (fun a b => a.time ≤ b.time) := ⟨fun _ _ _ => le_trans⟩
    List.isChain_iff_pairwise
  simp only [List.getLast?_nil, Option.toList_none, List.nil_append, he, hp] at h
  unfold readDeposition
  by_cases hd : fileDim = n
  · by_cases hs : recs.Pairwise (fun a b => a.time ≤ b.time)
    · simp [hd, hs, h.1 hs]
    · simp [hd, hs, h.2 hs]
  · simp [hd]

/-- C11: the lists of an accepted file have one entry per record, in file order: the box is centred at the record's centre
with the record's edge lengths, and time, cosine and sine are the record's. -/
theorem C11_read (n : ℕ) (fileDim : ℤ) (recs : List (Record n)) (l : Lists (Box n))
    (h : readDeposition n fileDim recs = some l) :
    Parallel l ∧ l.boxes.length = recs.length ∧
    ∀ (i : ℕ) (r : Record n), recs[i]? = some r →
      (∃ b : Box n, l.boxes[i]? = some b ∧ b.CentredAt r.center r.size) ∧
      l.times[i]? = some (some r.time) ∧
      l.cosines[i]? = some (Real.cos r.angle) ∧ l.sines[i]? = some (Real.sin r.angle) := by
  have hs : (readDeposition n fileDim recs).isSome := by rw [h]; rfl
  have hacc := (C11_accepted_iff n fileDim recs).1 hs
  have hl : l = listsOf recs := by
    have h2 := readLoop_eq (n := n) [] recs
    have hp : List.IsChain (fun a b : Record n => a.time ≤ b.time) recs :=
      List.Pairwise.isChain hacc.2
    have h3 := h2.1 (by simpa using hp)
    have he : (listsOf ([] : List (Record n))) = Lists.empty := rfl
    rw [he] at h3
    simp only [readDeposition, hacc.1, if_true, h3, List.nil_append, Option.some.injEq] at h
    exact h.symm
  subst hl
  refine ⟨by simp [Parallel, listsOf], by simp [listsOf], ?_⟩
  intro i r hr
  refine ⟨?_, by simp [listsOf, hr], by simp [listsOf, hr], by simp [listsOf, hr]⟩
  refine ⟨⟨fun d => r.center d - 0.5 * r.size d, fun d => r.center d + 0.5 * r.size d⟩, by simp [listsOf, hr], ?_⟩
  intro d
  constructor <;> dsimp only <;> ring

/-- A non-trivial file is accepted. -/
example : (readDeposition 3 3 [⟨![0, 0, 1], ![1, 2, 1], 0.5, 0⟩, ⟨![1, 0, 1], ![1, 2, 1], 0.5, 1⟩,
    ⟨![2, 0, 1], ![1, 2, 1], 0.75, 2⟩]).isSome := by
  rw [C11_accepted_iff]
  norm_num

/-- A file whose times decrease is rejected. -/
example : (readDeposition 3 3 [⟨![0, 0, 1], ![1, 2, 1], 0.5, 0⟩, ⟨![1, 0, 1], ![1, 2, 1], 0.25, 1⟩]) = none := by
  rw [← Option.not_isSome_iff_eq_none, C11_accepted_iff]
  norm_num

/-! ## C15 -/

theorem zip_filterMap {α β : Type} (xs : List α) (ys : List β) (h : xs.length = ys.length) (perm : List ℕ) :
    (perm.filterMap (xs[·]?)).zip (perm.filterMap (ys[·]?)) = perm.filterMap ((xs.zip ys)[·]?) := by
  induction perm with
  | nil => rfl
  | cons i rest ih =>
    by_cases hi : i < xs.length
    · have hi' : i < ys.length := h ▸ hi
      have hz : i < (xs.zip ys).length := by simp [hi, hi']
      simp [hi, hi', ih]
    · have hi' : ¬ i < ys.length := h ▸ hi
      have e1 : xs[i]? = none := List.getElem?_eq_none (not_lt.1 hi)
      have e2 : ys[i]? = none := List.getElem?_eq_none (not_lt.1 hi')
      have e3 : (xs.zip ys)[i]? = none := List.getElem?_eq_none (by simp; omega)
      simp [e1, e2, e3, ih]

theorem filterMap_range {α : Type} (xs : List α) : (List.range xs.length).filterMap (xs[·]?) = xs := by
  induction xs using List.reverseRecOn with
  | nil => rfl
  | append_singleton xs a ih =>
    rw [List.length_append, List.length_singleton, List.range_succ, List.filterMap_append]
    congr 1
    · conv_rhs => rw [← ih]
      apply List.filterMap_congr
      intro i hi
      have := List.mem_range.1 hi
      simp [List.getElem?_append_left this]
    · simp

theorem rows_permute {β : Type} (l : Lists β) (h : Parallel l) (perm : List ℕ) :
    rows (permuteLists l perm) = perm.filterMap ((rows l)[·]?) := by
  obtain ⟨h1, h2, h3⟩ := h
  simp only [rows, permuteLists]
  rw [zip_filterMap _ _ (by omega), zip_filterMap _ _ (by simp; omega), zip_filterMap _ _ (by simp; omega)]

theorem parallel_concat {β : Type} (ls : List (Lists β)) (h : ∀ l ∈ ls, Parallel l) :
    Parallel (concatLists ls) ∧ rows (concatLists ls) = ls.flatMap rows := by
  induction ls with
  | nil => simp [Parallel, concatLists, rows]
  | cons l rest ih =>
    have hl := h l (by simp)
    obtain ⟨ih1, ih2⟩ := ih fun l hl => h l (by simp [hl])
    obtain ⟨a1, a2, a3⟩ := hl
    obtain ⟨b1, b2, b3⟩ := ih1
    simp only [concatLists] at b1 b2 b3 ih2
    constructor
    · simp only [Parallel, concatLists, List.flatMap_cons, List.length_append]
      omega
    · simp only [rows, concatLists, List.flatMap_cons] at ih2 ⊢
      rw [← ih2]
      rw [List.zip_append (by omega), List.zip_append (by simp; omega), List.zip_append (by simp; omega)]

/-- C15: whatever permutation `std::sort` chooses, the merged lists have the same length and contain exactly the rows of the
inputs, each as often as it occurred. -/
theorem C15_merge_rows {β : Type} (ls : List (Lists β)) (h : ∀ l ∈ ls, Parallel l) (perm : List ℕ)
    (hs : IsSortResult (concatLists ls).times perm) :
    Parallel (mergePaths ls perm) ∧ (rows (mergePaths ls perm)).Perm (ls.flatMap rows) := by
  obtain ⟨hp, hr⟩ := parallel_concat ls h
  have hperm := hs.1
  have hlen : (concatLists ls).times.length = (rows (concatLists ls)).length := by
    obtain ⟨a, b, c⟩ := hp
    simp [rows]; omega
  have hfm : ∀ {α : Type} (xs : List α), xs.length = (concatLists ls).times.length →
      (perm.filterMap (xs[·]?)).length = xs.length := by
    intro α xs hx
    have := (hperm.filterMap (xs[·]?)).length_eq
    rw [this, ← hx, filterMap_range]
  obtain ⟨a, b, c⟩ := hp
  constructor
  · refine ⟨?_, ?_, ?_⟩ <;> simp only [mergePaths, permuteLists] <;> rw [hfm _ (by omega), hfm _ (by omega)] <;> omega
  · rw [mergePaths, rows_permute _ ⟨a, b, c⟩, ← hr]
    refine (hperm.filterMap _).trans ?_
    rw [hlen, filterMap_range]

/-- C15: the merged times are sorted (all input times being numbers). -/
theorem C15_merge_sorted {β : Type} (ls : List (Lists β)) (perm : List ℕ)
    (hnum : ∀ l ∈ ls, ∀ t ∈ l.times, t.isSome) (hs : IsSortResult (concatLists ls).times perm) :
    ∃ ts : List ℝ, (mergePaths ls perm).times = ts.map some ∧ ts.Pairwise (· ≤ ·) := by
  obtain ⟨hperm, hpw⟩ := hs
  have hall : ∀ t ∈ (concatLists ls).times, t.isSome := by
    intro t ht
    simp only [concatLists, List.mem_flatMap] at ht
    obtain ⟨l, hl, ht⟩ := ht
    exact hnum l hl t ht
  have hbound : ∀ i ∈ perm, i < (concatLists ls).times.length := by
    intro i hi
    simpa using hperm.mem_iff.1 hi
  simp only [mergePaths, permuteLists]
  generalize (concatLists ls).times = T at hall hbound hpw
  clear hperm
  refine ⟨perm.filterMap fun i => (T[i]?).join, ?_, ?_⟩
  · induction perm with
    | nil => rfl
    | cons i rest ih =>
      have hi := hbound i (by simp)
      have hsome := hall _ (List.getElem_mem hi)
      obtain ⟨t, ht⟩ := Option.isSome_iff_exists.1 hsome
      have := ih (fun j hj => hbound j (by simp [hj])) (List.pairwise_cons.1 hpw).2
      have e : T[i]? = some (some t) := by rw [List.getElem?_eq_getElem hi, ht]
      simp [e, this]
  · rw [List.pairwise_filterMap]
    refine hpw.imp ?_
    intro i j hij a ha b hb
    apply hij
    · exact Option.join_eq_some_iff.1 ha
    · exact Option.join_eq_some_iff.1 hb

/-- Two beams with interleaved times: the hypotheses of C15 are met and the rows are interleaved. -/
example : IsSortResult (concatLists [(⟨["a", "b"], [some 1, some 3], [1, 1], [0, 0]⟩ : Lists String),
      ⟨["c"], [some 2], [0], [1]⟩]).times [0, 2, 1] ∧
    (mergePaths [(⟨["a", "b"], [some 1, some 3], [1, 1], [0, 0]⟩ : Lists String),
      ⟨["c"], [some 2], [0], [1]⟩] [0, 2, 1]).boxes = ["a", "c", "b"] := by
  refine ⟨⟨by decide, ?_⟩, by rfl⟩
  simp [concatLists]
  norm_num

/-! ## C16 -/

/-- C16: there is one list per box; the list of box `i` contains exactly the locally owned cells without material, inside
the part if one is given, whose bounding box meets the box, and no cell twice. -/
theorem C16_elements_to_activate {n : ℕ} (useStl : Bool) (cells : List (Cell n)) (boxes : List (Box n))
    (indices offset : List ℕ)
    (hq : IsQuery ((candidates useStl cells).map (·.bbox)) boxes indices offset) :
    (elementsToActivate useStl cells boxes indices offset).length = boxes.length ∧
    ∀ (i : ℕ) (b : Box n) (row : List (Cell n)), boxes[i]? = some b → (elementsToActivate useStl cells boxes indices offset)[i]? = some row →
      ∀ c, c ∈ row ↔
        c ∈ cells ∧ c.owned = true ∧ c.feIndex = 1 ∧ (useStl = true → c.inStl = true) ∧
          ∀ d, c.bbox.lo d ≤ b.hi d ∧ b.lo d ≤ c.bbox.hi d := by
  by_cases hb : boxes.length = 0
  · have : boxes = [] := List.length_eq_zero_iff.1 hb
    subst this
    simp [elementsToActivate]
  · simp only [elementsToActivate, hb, if_false]
    refine ⟨by simp [copyRows], ?_⟩
    intro i b row hbi hrow c
    have hi : i < boxes.length := by
      by_contra h
      rw [List.getElem?_eq_none (not_lt.1 h)] at hbi; cases hbi
    have ho1 : offset[i]? = some (offset.getD i 0) := by
      have : i < offset.length := by rw [hq.length]; omega
      simp [List.getD, this]
    have ho2 : offset[i + 1]? = some (offset.getD (i + 1) 0) := by
      have : i + 1 < offset.length := by rw [hq.length]; omega
      simp [List.getD, this]
    simp only [copyRows, List.getElem?_map, List.getElem?_range hi, Option.map_some, Option.some.injEq] at hrow
    subst hrow
    have hcand : ∀ c, c ∈ candidates useStl cells ↔
        c ∈ cells ∧ c.owned = true ∧ c.feIndex = 1 ∧ (useStl = true → c.inStl = true) := by
      intro c
      unfold candidates
      cases useStl <;> simp [and_assoc]
    rw [List.mem_filterMap]
    constructor
    · rintro ⟨j, hj, hc⟩
      obtain ⟨bb, hbb, hm⟩ := (hq.mem i _ _ b ho1 ho2 hbi j).1 hj
      rw [List.getElem?_map, hc] at hbb
      simp only [Option.map_some, Option.some.injEq] at hbb
      subst hbb
      have := (hcand c).1 (List.mem_of_getElem? hc)
      exact ⟨this.1, this.2.1, this.2.2.1, this.2.2.2, hm⟩
    · rintro ⟨h1, h2, h3, h4, h5⟩
      have hmem := (hcand c).2 ⟨h1, h2, h3, h4⟩
      obtain ⟨j, hj⟩ := List.getElem?_of_mem hmem
      refine ⟨j, (hq.mem i _ _ b ho1 ho2 hbi j).2 ⟨c.bbox, by simp [hj], h5⟩, hj⟩

/-- C16: no cell of the mesh is listed twice for one box. -/
theorem C16_no_repetition {n : ℕ} (useStl : Bool) (cells : List (Cell n)) (boxes : List (Box n))
    (indices offset : List ℕ) (hcells : cells.Nodup)
    (hq : IsQuery ((candidates useStl cells).map (·.bbox)) boxes indices offset) :
    ∀ row ∈ elementsToActivate useStl cells boxes indices offset, row.Nodup := by
  intro row hrow
  unfold elementsToActivate at hrow
  split at hrow
  · cases hrow
  · simp only [copyRows, List.mem_map, List.mem_range] at hrow
    obtain ⟨i, hi, rfl⟩ := hrow
    have ho1 : offset[i]? = some (offset.getD i 0) := by
      have : i < offset.length := by rw [hq.length]; omega
      simp [List.getD, this]
    have ho2 : offset[i + 1]? = some (offset.getD (i + 1) 0) := by
      have : i + 1 < offset.length := by rw [hq.length]; omega
      simp [List.getD, this]
    have hn := hq.nodup i _ _ ho1 ho2
    have hnc : (candidates useStl cells).Nodup := by
      unfold candidates
      split <;> exact hcells.filter _
    refine hn.filterMap ?_
    intro a a' b hb hb'
    have hb : (candidates useStl cells)[a]? = some b := hb
    have hb' : (candidates useStl cells)[a']? = some b := hb'
    obtain ⟨ha, hav⟩ := List.getElem?_eq_some_iff.1 hb
    obtain ⟨ha', hav'⟩ := List.getElem?_eq_some_iff.1 hb'
    exact (hnc.getElem_inj_iff).1 (hav.trans hav'.symm)

/-- Three cells, one of which already has material and one of which is far away: the query contract is satisfiable and
only the first cell is activated. -/
example :
    let c0 : Cell 2 := ⟨0, true, 1, ⟨![0, 0], ![1, 1]⟩, false⟩
    let c1 : Cell 2 := ⟨1, true, 0, ⟨![1, 0], ![2, 1]⟩, false⟩
    let c2 : Cell 2 := ⟨2, true, 1, ⟨![5, 0], ![6, 1]⟩, false⟩
    let b : Box 2 := ⟨![0.5, 0], ![1.5, 1]⟩
    IsQuery ((candidates false [c0, c1, c2]).map (·.bbox)) [b] [0] [0, 1] ∧
    elementsToActivate false [c0, c1, c2] [b] [0] [0, 1] = [[c0]] := by
  intro c0 c1 c2 b
  refine ⟨⟨rfl, ?_, ?_, ?_⟩, rfl⟩
  · intro i x y hx hy
    match i, hx, hy with
    | 0, hx, hy => simp at hx hy; subst hx hy; simp
    | 1, hx, hy => simp at hy
    | i + 2, hx, hy => simp at hx
  · intro i x y hx hy
    match i, hx, hy with
    | 0, hx, hy => simp at hx hy; subst hx hy; simp
    | 1, hx, hy => simp at hy
    | i + 2, hx, hy => simp at hx
  · intro i x y q hx hy hq j
    match i, hx, hy, hq with
    | 0, hx, hy, hq =>
      simp at hx hy hq; subst hx hy hq
      match j with
      | 0 => simp [candidates, c0, c1, c2, b, Box.meets, Fin.forall_fin_two]; norm_num
      | 1 => simp [candidates, c0, c1, c2, b, Box.meets, Fin.forall_fin_two]; norm_num
      | j + 2 => simp [candidates, c0, c1, c2]
    | 1, hx, hy, hq => simp at hy
    | i + 2, hx, hy, hq => simp at hx

end Verif.Deposition
