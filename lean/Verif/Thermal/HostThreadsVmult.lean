import Verif.Thermal.HostThreads
import Verif.Thermal.AssemblyProps
import Verif.Thermal.Device

/-!
# C142 and C93: the threads of the host compute `vmult`

The cells of a mesh of `Thermal/Assembly` as batches of `Thermal/HostThreads`, `source/ThermalOperator.templates.hh:202`, `:481-611`.
As in `Thermal/Assembly` one lane is one cell.  Numbers are real.  With boundary exchange (`MatrixFree::loop`, lines 204-212) the batches of
faces are arranged into phases together with those of the cells; the numbers of the face batches are those of the table
`_face_powder_ratio` and are taken different from the numbers of the cells; a face has no liquid table, the entry written here is one that
nobody reads.
-/

namespace Verif.HostThreads

open Verif.Assembly

variable {N : ℕ}

/-- The entry of a local degree of freedom with the values `v` of `inv_rho_cp` at the points, `:535-604`, `:608`. -/
noncomputable def entryWith (c : Cell (Fin N)) (h : Hanging (Fin N)) (beams : List Beam) (y : Fin N → ℝ) (v : Fin c.nq → ℝ) (i : Fin c.n) : ℝ :=
  let k := fun q => c.coef q (c.value h y q);
  let g := fun q => c.gradient h y q;
  let flux : Fin c.nq → Fin 3 → ℝ := fun q d =>
    -v q * (![((k q).kx * c.cos q * c.cos q + (k q).ky * c.sin q * c.sin q) * g q 0 + (((k q).kx - (k q).ky) * c.sin q * c.cos q) * g q 1,
      (((k q).kx - (k q).ky) * c.sin q * c.cos q) * g q 0 + ((k q).kx * c.sin q * c.sin q + (k q).ky * c.cos q * c.cos q) * g q 1,
      g q 2 * (k q).kz] d);
  if sourcesOn beams then
    ∑ q, ((beams.foldl (fun s b => s + b.lanes (c.point q)) 0) * v q * c.shape i q + ∑ d, flux q d * c.grad i q d) * c.jxw q
  else ∑ q, (∑ d, flux q d * c.grad i q d) * c.jxw q

open Classical in
/-- The degrees of freedom that a cell adds to: its own and those that its constrained ones are interpolated from. -/
noncomputable def touched (h : Hanging (Fin N)) (c : Cell (Fin N)) : List (Fin N) :=
  (List.finRange N).filter fun g => ∃ i, h.coef (c.dof i) g ≠ 0

/-- A cell as a batch; `index` is its number in the tables, `rule` the update of its fractions, `inv` the value of `get_inv_rho_cp` for the
new fractions. -/
noncomputable def ofCell (h : Hanging (Fin N)) (beams : List Beam) (y : Fin N → ℝ) (index : Cell (Fin N) → ℕ)
    (rule : Cell (Fin N) → ℕ → Lanes → Lanes × Lanes) (inv : Cell (Fin N) → ℕ → Lanes × Lanes → ℝ) (c : Cell (Fin N)) : Batch where
  index := index c
  points := List.range c.nq
  dofs := (touched h c).map Fin.val
  rule := rule c
  integrate rs := (touched h c).map fun g => (g.val, ∑ i, h.coef (c.dof i) g *
    entryWith c h beams y (fun q => inv c q (rs.getD q.val (fun _ => 0, fun _ => 0))) i)
  local_dofs := by
    intro r e he
    obtain ⟨g, hg, rfl⟩ := List.mem_map.1 he
    exact List.mem_map_of_mem hg

theorem entryWith_eq (c : Cell (Fin N)) (h : Hanging (Fin N)) (beams : List Beam) (y : Fin N → ℝ) (i : Fin c.n) :
    entryWith c h beams y (fun q => (c.coef q (c.value h y q)).invRhoCp) i = c.entry h beams y i := by
  unfold entryWith Cell.entry Cell.source Cell.flux Verif.Material.conductivityGrad
  rfl

theorem filter_entry (l : List (Fin N)) (hn : l.Nodup) (f : Fin N → ℝ) (g : Fin N) :
    (((l.map fun g => (g.val, f g)).filter fun e => e.1 = g.val).map Prod.snd).sum = if g ∈ l then f g else 0 := by
  induction l with
  | nil => simp
  | cons a l ih =>
    rw [List.nodup_cons] at hn
    rw [List.map_cons]
    by_cases e : a = g
    · subst e
      have hl := ih hn.2
      rw [if_neg hn.1] at hl
      simp only [List.filter_cons, decide_true, if_true, List.map_cons, List.sum_cons, hl, add_zero, List.mem_cons, true_or]
    · have e' : ¬ a.val = g.val := fun h => e (Fin.ext h)
      simp only [List.filter_cons, e', decide_false, Bool.false_eq_true, if_false, ih hn.2, List.mem_cons]
      have : ¬ g = a := fun h => e h.symm
      simp [this]

theorem foldl_add_sum (l : List ℝ) (a : ℝ) : l.foldl (· + ·) a = a + l.sum := by
  induction l generalizing a with
  | nil => simp
  | cons x l ih => rw [List.foldl_cons, ih, List.sum_cons, add_assoc]

theorem sum_flatMap {α : Type*} (l : List α) (f : α → List ℝ) : (l.flatMap f).sum = (l.map fun a => (f a).sum).sum := by
  induction l with
  | nil => rfl
  | cons a l ih => rw [List.flatMap_cons, List.sum_append, ih, List.map_cons, List.sum_cons]

/-- The value submitted at a point of a face with the value `v` of `inv_rho_cp`, `:676-751`. -/
noncomputable def submittedWith (f : Face (Fin N)) (types : List ℕ) (h : Hanging (Fin N)) (y : Fin N → ℝ) (q : Fin f.nq) (v : ℝ) : ℝ :=
  let T := f.value h y q;
  let k := f.coef q T;
  Verif.Material.boundaryValue (decide (Verif.Input.Has (Verif.Input.getType types f.id) .convective))
    (decide (Verif.Input.Has (Verif.Input.getType types f.id) .radiative)) v k.conv k.convTinf k.emissivity k.radTinf T

/-- The faces that return at once, `:636-651`. -/
def skipped (f : Face (Fin N)) : Prop := some f.fe1 = f.fe2 ∨ (f.fe1 ≠ 0 ∧ f.fe2 ≠ some 0)

instance (f : Face (Fin N)) : Decidable (skipped f) := inferInstanceAs (Decidable (_ ∨ _))

open Classical in
/-- The degrees of freedom that a face adds to. -/
noncomputable def touchedFace (h : Hanging (Fin N)) (f : Face (Fin N)) : List (Fin N) :=
  if skipped f then [] else (List.finRange N).filter fun g => ∃ i, h.coef (f.side.dof i) g ≠ 0

/-- A face as a batch. -/
noncomputable def ofFace (h : Hanging (Fin N)) (types : List ℕ) (y : Fin N → ℝ) (index : Face (Fin N) → ℕ)
    (rule : Face (Fin N) → ℕ → Lanes → Lanes × Lanes) (inv : Face (Fin N) → ℕ → Lanes × Lanes → ℝ) (f : Face (Fin N)) : Batch where
  index := index f
  points := if skipped f then [] else List.range f.nq
  dofs := (touchedFace h f).map Fin.val
  rule := rule f
  integrate rs := (touchedFace h f).map fun g => (g.val, ∑ i, h.coef (f.side.dof i) g *
    ∑ q, submittedWith f types h y q (inv f q (rs.getD q.val (fun _ => 0, fun _ => 0))) * f.side.shape i q * f.jxw q)
  local_dofs := by
    intro r e he
    obtain ⟨g, hg, rfl⟩ := List.mem_map.1 he
    exact List.mem_map_of_mem hg

/-- The tables of the new fractions and what `get_inv_rho_cp` makes of them, for cells and faces. -/
structure States (N : ℕ) where
  cellIndex : Cell (Fin N) → ℕ
  cellRule : Cell (Fin N) → ℕ → Lanes → Lanes × Lanes
  cellInv : Cell (Fin N) → ℕ → Lanes × Lanes → ℝ
  faceIndex : Face (Fin N) → ℕ
  faceRule : Face (Fin N) → ℕ → Lanes → Lanes × Lanes
  faceInv : Face (Fin N) → ℕ → Lanes × Lanes → ℝ

/-- A cell or a face. -/
abbrev Item (N : ℕ) := Cell (Fin N) ⊕ Face (Fin N)

/-- A cell or a face as a batch. -/
noncomputable def ofItem (m : Mesh (Fin N)) (beams : List Beam) (y : Fin N → ℝ) (st : States N) : Item N → Batch
  | .inl c => ofCell m.hanging beams y st.cellIndex st.cellRule st.cellInv c
  | .inr f => ofFace m.hanging m.types y st.faceIndex st.faceRule st.faceInv f

/-- The items of the loop: the cells with material and, if there is boundary exchange, the faces (`:200-212`). -/
noncomputable def items (m : Mesh (Fin N)) : List (Item N) :=
  (m.cells.filter fun c => c.fe = 0).map .inl ++ if adiabaticOnly m.types then [] else m.faces.map .inr

/-- What an item adds to entry `g`. -/
noncomputable def itemTerm (m : Mesh (Fin N)) (beams : List Beam) (y : Fin N → ℝ) (g : Fin N) : Item N → ℝ
  | .inl c => ∑ i, m.hanging.coef (c.dof i) g * c.entry m.hanging beams y i
  | .inr f => if skipped f then 0 else
    ∑ i, m.hanging.coef (f.side.dof i) g * ∑ q, f.submitted m.types m.hanging y q * f.side.shape i q * f.jxw q

/-- The values of `get_inv_rho_cp` for the new fractions of every point are those of the coefficients of its cell or face. -/
def Consistent (m : Mesh (Fin N)) (y : Fin N → ℝ) (st : States N) (mem : Memory) : Prop :=
  (∀ c ∈ m.cells, c.fe = 0 → ∀ q : Fin c.nq,
    st.cellInv c q (st.cellRule c q (mem (.powder (st.cellIndex c) q))) = (c.coef q (c.value m.hanging y q)).invRhoCp) ∧
  ∀ f ∈ m.faces, ∀ q : Fin f.nq,
    st.faceInv f q (st.faceRule f q (mem (.powder (st.faceIndex f) q))) = (f.coef q (f.value m.hanging y q)).invRhoCp

theorem contributions_cell (m : Mesh (Fin N)) (beams : List Beam) (y : Fin N → ℝ) (st : States N) (mem : Memory) (g : Fin N)
    (c : Cell (Fin N)) (hinv : ∀ q : Fin c.nq,
      st.cellInv c q (st.cellRule c q (mem (.powder (st.cellIndex c) q))) = (c.coef q (c.value m.hanging y q)).invRhoCp) :
    (contributions (fun c q => mem (.powder c q)) g.val (ofItem m beams y st (.inl c))).sum = itemTerm m beams y g (.inl c) := by
  have hv : (fun q : Fin c.nq => st.cellInv c q (((List.range c.nq).map fun q =>
      st.cellRule c q (mem (.powder (st.cellIndex c) q))).getD q.val (fun _ => 0, fun _ => 0))) =
        fun q => (c.coef q (c.value m.hanging y q)).invRhoCp := by
    funext q
    rw [← hinv q, List.getD_eq_getElem?_getD, List.getElem?_map, List.getElem?_range q.isLt]
    rfl
  simp only [contributions, ofItem, ofCell, itemTerm]
  refine (filter_entry _ ((List.nodup_finRange N).filter _) (fun g => ∑ i, m.hanging.coef (c.dof i) g *
    entryWith c m.hanging beams y (fun q => st.cellInv c q (((List.range c.nq).map fun q =>
      st.cellRule c q (mem (.powder (st.cellIndex c) q))).getD q.val (fun _ => 0, fun _ => 0))) i) g).trans ?_
  rw [hv]
  simp only [entryWith_eq]
  split_ifs with hg
  · rfl
  · symm
    refine Finset.sum_eq_zero fun i _ => ?_
    have : m.hanging.coef (c.dof i) g = 0 := by
      by_contra hne
      exact hg (List.mem_filter.2 ⟨List.mem_finRange g, by simpa using ⟨i, hne⟩⟩)
    rw [this, zero_mul]

theorem contributions_face (m : Mesh (Fin N)) (beams : List Beam) (y : Fin N → ℝ) (st : States N) (mem : Memory) (g : Fin N)
    (f : Face (Fin N)) (hinv : ∀ q : Fin f.nq,
      st.faceInv f q (st.faceRule f q (mem (.powder (st.faceIndex f) q))) = (f.coef q (f.value m.hanging y q)).invRhoCp) :
    (contributions (fun c q => mem (.powder c q)) g.val (ofItem m beams y st (.inr f))).sum = itemTerm m beams y g (.inr f) := by
  by_cases hs : skipped f
  · simp [contributions, ofItem, ofFace, itemTerm, touchedFace, hs]
  · simp only [contributions, ofItem, ofFace, itemTerm, if_neg hs]
    refine (filter_entry _ ?_ (fun g => ∑ i, m.hanging.coef (f.side.dof i) g *
      ∑ q, submittedWith f m.types m.hanging y q (st.faceInv f q (((List.range f.nq).map fun q =>
        st.faceRule f q (mem (.powder (st.faceIndex f) q))).getD q.val (fun _ => 0, fun _ => 0))) * f.side.shape i q * f.jxw q) g).trans ?_
    · unfold touchedFace
      rw [if_neg hs]
      exact (List.nodup_finRange N).filter _
    · have hv : ∀ q : Fin f.nq, submittedWith f m.types m.hanging y q (st.faceInv f q (((List.range f.nq).map fun q =>
          st.faceRule f q (mem (.powder (st.faceIndex f) q))).getD q.val (fun _ => 0, fun _ => 0))) =
            f.submitted m.types m.hanging y q := by
        intro q
        have e : ((List.range f.nq).map fun q => st.faceRule f q (mem (.powder (st.faceIndex f) q))).getD q.val
            (fun _ => 0, fun _ => 0) = st.faceRule f q (mem (.powder (st.faceIndex f) q)) := by
          rw [List.getD_eq_getElem?_getD, List.getElem?_map, List.getElem?_range q.isLt]
          rfl
        rw [e, hinv q]
        rfl
      simp only [hv]
      split_ifs with hg
      · rfl
      · symm
        refine Finset.sum_eq_zero fun i _ => ?_
        have : m.hanging.coef (f.side.dof i) g = 0 := by
          by_contra hne
          refine hg ?_
          unfold touchedFace
          rw [if_neg hs]
          exact List.mem_filter.2 ⟨List.mem_finRange g, by simpa using ⟨i, hne⟩⟩
        rw [this, zero_mul]

theorem faceApply_term (m : Mesh (Fin N)) (beams : List Beam) (y dst : Fin N → ℝ) (f : Face (Fin N)) (g : Fin N) :
    faceApply m.types m.hanging y dst f g = dst g + itemTerm m beams y g (.inr f) := by
  unfold faceApply itemTerm skipped
  by_cases h1 : some f.fe1 = f.fe2
  · simp [h1]
  · by_cases h2 : f.fe1 ≠ 0 ∧ f.fe2 ≠ some 0
    · rw [if_neg h1, if_pos h2]
      simp only [h2, or_true, if_true, add_zero, ne_eq, not_false_eq_true, and_self]
    · rw [if_neg h1, if_neg h2]
      simp only [h1, h2, or_self, if_false]
      rfl

theorem items_sum (m : Mesh (Fin N)) (beams : List Beam) (y : Fin N → ℝ) (g : Fin N) :
    ((items m).map (itemTerm m beams y g)).sum =
      (if adiabaticOnly m.types then m.cells.foldl (cellApply m.hanging beams y) (fun _ => 0)
        else m.faces.foldl (faceApply m.types m.hanging y) (m.cells.foldl (cellApply m.hanging beams y) fun _ => 0)) g := by
  have hcells : m.cells.foldl (cellApply m.hanging beams y) (fun _ => 0) g =
      (((m.cells.filter fun c => c.fe = 0).map Sum.inl).map (itemTerm m beams y g)).sum := by
    rw [foldl_add (cellApply m.hanging beams y)
      (fun c g => if c.fe = 0 then ∑ i, m.hanging.coef (c.dof i) g * c.entry m.hanging beams y i else 0)
      (by intro dst c g; unfold cellApply; split_ifs <;> simp [Hanging.distribute]), zero_add, sum_filter_ite, List.map_map]
    rfl
  unfold items
  rw [List.map_append, List.sum_append, ← hcells]
  by_cases ha : adiabaticOnly m.types = true
  · simp [ha]
  · rw [if_neg ha, if_neg ha, foldl_add _ (fun f g => itemTerm m beams y g (.inr f)) (faceApply_term m beams y), List.map_map]
    rfl

/-- **C142, the rate.** However deal.II arranges the cells with material and the faces into phases and ranges that share no degree of freedom
within a phase, and however the threads of a phase interleave: if the values of `get_inv_rho_cp` for the new fractions are those of the
coefficients of the cells and faces, then the loop followed by the copy of the constrained values gives the `vmult` of C93. -/
theorem C142_vmult (m : Mesh (Fin N)) (beams : List Beam) (y : Fin N → ℝ) (st : States N) (phases : List (List (List (Item N))))
    (hperm : List.Perm phases.flatten.flatten (items m))
    (hc : ∀ ph ∈ phases, Coloured (ph.map fun r => r.map (ofItem m beams y st)))
    (hn : (phases.flatten.flatten.map fun e => (ofItem m beams y st e).index).Nodup) (mem mem' : Memory)
    (h0 : ∀ g, mem (.dst g) = (0 : ℝ)) (hinv : Consistent m y st mem)
    (h : Runs (· + ·) (phases.map fun ph => ph.map fun r => r.map (ofItem m beams y st)) mem mem') (g : Fin N) :
    (if m.hanging.constrained g then (mem' (.dst g.val) : ℝ) + 1 * y g else mem' (.dst g.val)) = m.vmult beams y g := by
  have hflat : (phases.map fun ph => ph.map fun r => r.map (ofItem m beams y st)).flatten.flatten =
      phases.flatten.flatten.map (ofItem m beams y st) := by
    simp [List.map_flatten, Function.comp_def]
  have key : (mem' (.dst g.val) : ℝ) = ((items m).map (itemTerm m beams y g)).sum := by
    obtain ⟨-, -, h3⟩ := C142_every_schedule (· + ·) _ (by
        intro ph hph
        obtain ⟨ph', h1, rfl⟩ := List.mem_map.1 hph
        exact hc ph' h1)
      (by
        intro ph hph r hr b hbr
        obtain ⟨ph', _, rfl⟩ := List.mem_map.1 hph
        obtain ⟨r', _, rfl⟩ := List.mem_map.1 hr
        obtain ⟨e, _, rfl⟩ := List.mem_map.1 hbr
        cases e with
        | inl c => exact List.nodup_range
        | inr f =>
          change (if skipped f then [] else List.range f.nq).Nodup
          split_ifs
          · exact List.nodup_nil
          · exact List.nodup_range)
      (by rw [hflat, List.map_map]; exact hn) mem mem' h
    rw [h3 g.val, foldl_add_sum, h0, zero_add, hflat, sum_flatMap, List.map_map, (hperm.map _).sum_eq]
    congr 1
    refine List.map_congr_left fun e he => ?_
    rcases List.mem_append.1 he with he | he
    · obtain ⟨c, hcm, rfl⟩ := List.mem_map.1 he
      obtain ⟨hc1, hc2⟩ := List.mem_filter.1 hcm
      exact contributions_cell m beams y st mem g c (hinv.1 c hc1 (by simpa using hc2))
    · split_ifs at he
      · simp at he
      · obtain ⟨f, hf, rfl⟩ := List.mem_map.1 he
        exact contributions_face m beams y st mem g f (hinv.2 f hf)
  rw [key, items_sum]
  unfold Mesh.vmult Mesh.vmultAdd
  split_ifs <;> rfl

/-- The states of a mesh without changing fractions and with the capacity `1 / r` everywhere. -/
noncomputable def uniform (r : ℝ) : States N :=
  ⟨fun _ => 0, fun _ _ w => (w, w), fun _ _ _ => r, fun _ => 1, fun _ _ w => (w, w), fun _ _ _ => r⟩

/-- The memory of zeros. -/
def zeros : Memory
  | .liquid _ _ => fun _ => 0
  | .powder _ _ => fun _ => 0
  | .dst _ => (0 : ℝ)

/-- The rod of C107 with a face at its end that exchanges heat. -/
noncomputable def openRod (L A r : ℝ) (f : Face (Fin 2)) : Mesh (Fin 2) := ⟨noHanging _, [rodCell L A r], [f], [1, 2]⟩

/-- The hypotheses are met: the rod with an exchanging face, cell and face in two phases. -/
example (L A r : ℝ) (f : Face (Fin 2)) (hf : ∀ q T, (f.coef q T).invRhoCp = r) (beams : List Beam) (y : Fin 2 → ℝ) (g : Fin 2) :
    ∃ mem' : Memory, Runs (· + ·) ([[[.inl (rodCell L A r)]], [[.inr f]]].map fun ph => ph.map fun rg => rg.map
      (ofItem (openRod L A r f) beams y (uniform r))) zeros mem' ∧ (mem' (.dst g.val) : ℝ) = (openRod L A r f).vmult beams y g := by
  obtain ⟨mem', h⟩ := C142_can_end (· + ·) ([[[.inl (rodCell L A r)]], [[.inr f]]].map fun ph => ph.map fun rg => rg.map
      (ofItem (openRod L A r f) beams y (uniform r))) zeros
  refine ⟨mem', h, ?_⟩
  have ha : adiabaticOnly (openRod L A r f).types = false := by change adiabaticOnly [1, 2] = false; decide
  have := C142_vmult (openRod L A r f) beams y (uniform r) [[[.inl (rodCell L A r)]], [[.inr f]]]
    (by
      unfold items
      rw [ha]
      simp [openRod, rodCell])
    (by
      intro ph hph i j hij
      simp only [List.mem_cons, List.not_mem_nil, or_false] at hph
      rcases hph with rfl | rfl
      · exact absurd (Subsingleton.elim (α := Fin 1) i j) hij
      · exact absurd (Subsingleton.elim (α := Fin 1) i j) hij)
    (by simp [ofItem, ofCell, ofFace, uniform]) zeros mem' (fun _ => rfl)
    ⟨by
      intro c hc _ q
      have : c = rodCell L A r := by simpa [openRod] using hc
      subst this
      rfl, by
      intro f' hf' q
      have : f' = f := by simpa [openRod] using hf'
      subst this
      exact (hf q _).symm⟩
    h g
  rwa [if_neg (by simp [openRod, noHanging])] at this

end Verif.HostThreads
